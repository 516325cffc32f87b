import Verif.Sim.NoiseModel
import Mathlib.Tactic.Linarith
import Mathlib.Tactic.Ring
import Mathlib.Tactic.FieldSimp
import Mathlib.Tactic.NormNum
import Mathlib.Data.List.GetD
import Mathlib.Algebra.Field.Rat
import Mathlib.Algebra.Order.Ring.Unbundled.Rat

/-! Theorems about the noise functions and `angles`. -/

set_option linter.unusedSectionVars false

namespace Tomopy.Sim

open Tomopy.Recon

section Generic

variable {K : Type} [Field K] [LinearOrder K] [IsStrictOrderedRing K]

theorem foldl_max_mem (xs : List K) (x : K) : xs.foldl max x ∈ x :: xs := by
  induction xs generalizing x with
  | nil => simp
  | cons y ys ih =>
    have := ih (max x y)
    rw [List.foldl_cons]
    rcases List.mem_cons.1 this with h | h
    · rcases max_choice x y with h' | h' <;> rw [h, h'] <;> simp
    · exact List.mem_cons_of_mem _ (List.mem_cons_of_mem _ h)

theorem le_foldl_max (xs : List K) (x : K) : ∀ y ∈ x :: xs, y ≤ xs.foldl max x := by
  induction xs generalizing x with
  | nil => intro y hy; simp at hy; simp [hy]
  | cons z zs ih =>
    intro y hy
    rw [List.foldl_cons]
    rcases List.mem_cons.1 hy with h | h
    · rw [h]; exact (le_max_left x z).trans (ih (max x z) (max x z) (by simp))
    · rcases List.mem_cons.1 h with h' | h'
      · rw [h']; exact (le_max_right x z).trans (ih (max x z) (max x z) (by simp))
      · exact ih _ _ (by simp [h'])

theorem mem_elems {a : Arr3 K} {x : K} :
    x ∈ elems a ↔ ∃ i j k, i < a.d0 ∧ j < a.d1 ∧ k < a.d2 ∧ a.get i j k = x := by
  simp only [elems, List.mem_flatMap, List.mem_range, List.mem_map]
  constructor
  · rintro ⟨i, hi, j, hj, k, hk, h⟩; exact ⟨i, j, k, hi, hj, hk, h⟩
  · rintro ⟨i, j, k, hi, hj, hk, h⟩; exact ⟨i, hi, j, hj, k, hk, h⟩

theorem maxElem_error {a : Arr3 K} {e : PyErr} (h : maxElem a = .error e) :
    e = .value ∧ (a.d0 = 0 ∨ a.d1 = 0 ∨ a.d2 = 0) := by
  unfold maxElem at h
  cases he : elems a with
  | cons x xs => rw [he] at h; cases h
  | nil =>
    rw [he] at h
    refine ⟨by cases h; rfl, ?_⟩
    by_contra hc
    have : a.get 0 0 0 ∈ elems a := mem_elems.2 ⟨0, 0, 0, by omega, by omega, by omega, rfl⟩
    rw [he] at this; cases this

/-- The default value is the greatest element of the data. -/
theorem maxElem_spec {a : Arr3 K} {m : K} (h : maxElem a = .ok m) :
    (∃ i j k, i < a.d0 ∧ j < a.d1 ∧ k < a.d2 ∧ a.get i j k = m) ∧
      ∀ i j k, i < a.d0 → j < a.d1 → k < a.d2 → a.get i j k ≤ m := by
  unfold maxElem at h
  cases he : elems a with
  | nil => rw [he] at h; cases h
  | cons x xs =>
    rw [he] at h
    injection h with h
    refine ⟨mem_elems.1 (by rw [he, ← h]; exact foldl_max_mem xs x), fun i j k hi hj hk => ?_⟩
    rw [← h]
    exact le_foldl_max xs x _ (by rw [← he]; exact mem_elems.2 ⟨i, j, k, hi, hj, hk, rfl⟩)

/-- `add_gaussian` on floating data with a given deviation adds `std * z + mean` to every element,
and the caller's array holds the noisy data afterwards. -/
theorem gaussian_value (tomo : Arr3 K) (mean std : K) (z : Draws K) :
    ∃ o, addGaussian true tomo mean (some std) z = .ok o ∧
      o.result.d0 = tomo.d0 ∧ o.result.d1 = tomo.d1 ∧ o.result.d2 = tomo.d2 ∧
      (∀ i j k, o.result.get i j k = tomo.get i j k + std * z i j k + mean) ∧
      o.arg = o.result :=
  ⟨_, rfl, rfl, rfl, rfl, fun i j k => by simp only [add_assoc], rfl⟩

/-- Without a deviation it is a twentieth of the greatest element; ValueError for empty data. -/
theorem gaussian_default (tomo : Arr3 K) (mean : K) (z : Draws K) :
    (∃ m, maxElem tomo = .ok m ∧
      addGaussian true tomo mean none z = addGaussian true tomo mean (some (m / 20)) z) ∨
    (addGaussian true tomo mean none z = .error .value ∧
      (tomo.d0 = 0 ∨ tomo.d1 = 0 ∨ tomo.d2 = 0)) := by
  cases hm : maxElem tomo with
  | error e =>
    obtain ⟨he, h0⟩ := maxElem_error hm
    right
    refine ⟨?_, h0⟩
    simp only [addGaussian, hm, he]; rfl
  | ok m =>
    left
    refine ⟨m, rfl, ?_⟩
    have : m * (5 / 100) = m / 20 := by ring
    simp only [addGaussian, hm, bind, Except.bind, pure, Except.pure, this]

/-- Integer data always raise; a projection set whose greatest element is zero gets no noise. -/
theorem gaussian_edge (tomo : Arr3 K) (mean s : K) (z : Draws K) :
    addGaussian false tomo mean (some s) z = .error .type ∧
      (maxElem tomo = .ok 0 → ∃ o, addGaussian true tomo 0 none z = .ok o ∧
        o.result.get = tomo.get) := by
  refine ⟨rfl, fun h => ?_⟩
  have e : addGaussian true tomo 0 none z = addGaussian true tomo 0 (some (0 * (5 / 100))) z := by
    simp only [addGaussian, h, bind, Except.bind, pure, Except.pure]
  rw [e]
  refine ⟨_, rfl, ?_⟩
  funext i j k
  simp

/-- REFUTED: the argument keeps its contents.  Whatever the data, unless every `std * z + mean` is
zero the caller's array is changed. -/
theorem gaussian_modifies (tomo : Arr3 K) (mean std : K) (z : Draws K) (i j k : Nat)
    (hne : std * z i j k + mean ≠ 0) :
    ∃ o, addGaussian true tomo mean (some std) z = .ok o ∧ o.arg.get i j k ≠ tomo.get i j k := by
  refine ⟨_, rfl, fun h => hne ?_⟩
  simpa using h

example : ∃ o, addGaussian true (⟨1, 1, 1, fun _ _ _ => (2 : ℚ)⟩ : Arr3 ℚ) 0 (some 1)
    (fun _ _ _ => 1) = .ok o ∧ o.arg.get 0 0 0 ≠ 2 :=
  gaussian_modifies _ _ _ _ 0 0 0 (by norm_num)

/-- `add_poisson` draws for every element with that element as rate, and raises exactly when an
element is negative. -/
theorem poisson_value (tomo : Arr3 K) (draw : K → Nat → Nat → Nat → Nat) :
    (∃ o, addPoisson tomo draw = .ok o ∧
        (∀ i j k, i < tomo.d0 → j < tomo.d1 → k < tomo.d2 → 0 ≤ tomo.get i j k) ∧
        ∀ i j k, o.get i j k = draw (tomo.get i j k) i j k) ∨
      (addPoisson tomo draw = .error .value ∧
        ∃ i j k, i < tomo.d0 ∧ j < tomo.d1 ∧ k < tomo.d2 ∧ tomo.get i j k < 0) := by
  unfold addPoisson
  split_ifs with h
  · right
    refine ⟨rfl, ?_⟩
    obtain ⟨x, hx, hx0⟩ := List.any_eq_true.1 h
    obtain ⟨i, j, k, hi, hj, hk, e⟩ := mem_elems.1 hx
    exact ⟨i, j, k, hi, hj, hk, e ▸ of_decide_eq_true hx0⟩
  · left
    refine ⟨_, rfl, fun i j k hi hj hk => ?_, fun _ _ _ => rfl⟩
    by_contra hc
    exact h (List.any_eq_true.2
      ⟨_, mem_elems.2 ⟨i, j, k, hi, hj, hk, rfl⟩, decide_eq_true (not_le.1 hc)⟩)

/-- `add_rings`: a detector pixel is multiplied by the same sensitivity in all projections — which
is what makes a ring — and the argument is unchanged; deviation zero changes nothing. -/
theorem rings_value {tomo : Arr3 K} {std : K} {z : Nat → Nat → K} {o : Outcome K}
    (h : addRings tomo std z = .ok o) :
    o.arg = tomo ∧ o.result.d0 = tomo.d0 ∧ o.result.d1 = tomo.d1 ∧ o.result.d2 = tomo.d2 ∧
      (∃ sens : Nat → Nat → K, ∀ i j k, o.result.get i j k = sens j k * tomo.get i j k) ∧
      (∀ i i' j k, o.result.get i j k * tomo.get i' j k = o.result.get i' j k * tomo.get i j k) ∧
      (std = 0 → o.result.get = tomo.get) := by
  unfold addRings at h
  split_ifs at h with hs
  injection h with h
  subst h
  refine ⟨rfl, rfl, rfl, rfl, ⟨fun j k => 1 + std * z j k, fun i j k => mul_comm _ _⟩,
    fun i i' j k => by ring, fun h0 => ?_⟩
  funext i j k
  simp [h0]

/-- `add_rings` accepts exactly the non-negative deviations. -/
theorem rings_accepts (tomo : Arr3 K) (std : K) (z : Nat → Nat → K) :
    (∃ o, addRings tomo std z = .ok o) ↔ 0 ≤ std := by
  unfold addRings
  split_ifs with h
  · exact ⟨fun ⟨_, ho⟩ => (by cases ho), fun h' => absurd h (not_lt.2 h')⟩
  · exact ⟨fun _ => not_lt.1 h, fun _ => ⟨_, rfl⟩⟩

example : ∃ o, addRings (⟨2, 1, 1, fun i _ _ => (i + 1 : ℚ)⟩ : Arr3 ℚ) (1 / 2) (fun _ _ => 1) = .ok o :=
  (rings_accepts _ _ _).2 (by norm_num)

/-- `add_salt_pepper`: the pixels whose draw is below `prob` get the value, all others keep theirs;
draws are in `[0, 1)`, so probability zero changes nothing and one changes everything. -/
theorem salt_value {tomo : Arr3 K} {prob v : K} {u : Draws K}
    (hu : ∀ i j k, 0 ≤ u i j k ∧ u i j k < 1) :
    ∃ o, addSaltPepper tomo prob (some v) u = .ok o ∧
      o.result.d0 = tomo.d0 ∧ o.result.d1 = tomo.d1 ∧ o.result.d2 = tomo.d2 ∧
      (∀ i j k, u i j k < prob → o.result.get i j k = v) ∧
      (∀ i j k, prob ≤ u i j k → o.result.get i j k = tomo.get i j k) ∧
      (prob ≤ 0 → o.result.get = tomo.get) ∧
      (1 ≤ prob → ∀ i j k, o.result.get i j k = v) := by
  refine ⟨_, rfl, rfl, rfl, rfl, fun i j k h => if_pos h, fun i j k h => if_neg (not_lt.2 h),
    fun h => ?_, fun h i j k => if_pos ((hu i j k).2.trans_le h)⟩
  funext i j k
  exact if_neg (not_lt.2 (h.trans (hu i j k).1))

example : ∀ i j k : Nat, 0 ≤ (fun _ _ _ => (1 / 2 : ℚ) : Draws ℚ) i j k ∧
    (fun _ _ _ => (1 / 2 : ℚ) : Draws ℚ) i j k < 1 := fun _ _ _ => by norm_num

/-- With the default value the result stays within the range of the data, below the same
maximum. -/
theorem salt_default {tomo : Arr3 K} {prob : K} {u : Draws K} {o : Outcome K}
    (h : addSaltPepper tomo prob none u = .ok o) (i j k : Nat) (hi : i < tomo.d0)
    (hj : j < tomo.d1) (hk : k < tomo.d2) :
    tomo.get i j k ≤ o.result.get i j k ∧
      ∃ i' j' k', i' < tomo.d0 ∧ j' < tomo.d1 ∧ k' < tomo.d2 ∧
        o.result.get i j k = tomo.get i' j' k' := by
  cases hm : maxElem tomo with
  | error e => simp only [addSaltPepper, hm, bind, Except.bind] at h; cases h
  | ok m =>
    simp only [addSaltPepper, hm, bind, Except.bind] at h
    injection h with h
    subst h
    obtain ⟨⟨i', j', k', hi', hj', hk', hm1⟩, hm2⟩ := maxElem_spec hm
    by_cases hc : u i j k < prob
    · exact ⟨by simpa [hc] using hm2 i j k hi hj hk,
        i', j', k', hi', hj', hk', by simpa [hc] using hm1.symm⟩
    · exact ⟨by simp [hc], i, j, k, hi, hj, hk, by simp [hc]⟩

example : ∃ o, addSaltPepper (⟨1, 1, 2, fun _ _ k => (k : ℚ)⟩ : Arr3 ℚ) (1 / 2) none
    (fun _ _ k => (k : ℚ) / 2) = .ok o ∧ o.result.get 0 0 0 = 1 := ⟨_, rfl, by decide +kernel⟩

/-- REFUTED: the argument keeps its contents.  A corrupted pixel is also overwritten in the
caller's array. -/
theorem salt_modifies (tomo : Arr3 K) (prob v : K) (u : Draws K) (i j k : Nat)
    (hu : u i j k < prob) (hv : tomo.get i j k ≠ v) :
    ∃ o, addSaltPepper tomo prob (some v) u = .ok o ∧ o.arg.get i j k ≠ tomo.get i j k :=
  ⟨_, rfl, by simpa [hu] using hv.symm⟩

example : ((fun _ _ _ => 0 : Draws ℚ) 0 0 0 < (1 / 2 : ℚ)) ∧
    (⟨1, 1, 1, fun _ _ _ => (2 : ℚ)⟩ : Arr3 ℚ).get 0 0 0 ≠ 7 := by
  constructor <;> norm_num

/-- `add_zingers`: pixels whose draw is at most `f` are saturated, all others keep their value; the
argument is unchanged; `f` negative changes nothing, `f` at least one saturates everything. -/
theorem zingers_value (tomo : Arr3 K) (f sat : K) (u : Draws K)
    (hu : ∀ i j k, 0 ≤ u i j k ∧ u i j k < 1) :
    (addZingers tomo f sat u).arg = tomo ∧
      (addZingers tomo f sat u).result.d0 = tomo.d0 ∧
      (addZingers tomo f sat u).result.d1 = tomo.d1 ∧
      (addZingers tomo f sat u).result.d2 = tomo.d2 ∧
      (∀ i j k, u i j k ≤ f → (addZingers tomo f sat u).result.get i j k = sat) ∧
      (∀ i j k, f < u i j k → (addZingers tomo f sat u).result.get i j k = tomo.get i j k) ∧
      (f < 0 → (addZingers tomo f sat u).result.get = tomo.get) ∧
      (1 ≤ f → ∀ i j k, (addZingers tomo f sat u).result.get i j k = sat) := by
  refine ⟨rfl, rfl, rfl, rfl, fun i j k h => if_pos h, fun i j k h => if_neg (not_le.2 h),
    fun h => ?_, fun h i j k => if_pos ((hu i j k).2.le.trans h)⟩
  funext i j k
  exact if_neg (not_le.2 (h.trans_le (hu i j k).1))

/-- REFUTED: fraction zero gives no zinger.  The draw zero, which `np.random.uniform(0, 1)` can
return, saturates the pixel. -/
theorem zingers_zero (tomo : Arr3 K) (sat : K) (u : Draws K) (i j k : Nat) (h : u i j k = 0) :
    (addZingers tomo 0 sat u).result.get i j k = sat := if_pos h.le

/-- Raising the fraction only adds zingers. -/
theorem zingers_mono (tomo : Arr3 K) {f g : K} (hfg : f ≤ g) (sat : K) (u : Draws K) (i j k : Nat)
    (h : (addZingers tomo g sat u).result.get i j k ≠ sat) :
    (addZingers tomo f sat u).result.get i j k = tomo.get i j k ∧
      (addZingers tomo g sat u).result.get i j k = tomo.get i j k := by
  have hg : ¬ u i j k ≤ g := fun hc => h (if_pos hc)
  exact ⟨if_neg fun hc => hg (hc.trans hfg), if_neg hg⟩

example : (addZingers (⟨1, 1, 1, fun _ _ _ => (2 : ℚ)⟩ : Arr3 ℚ) (1 / 4) 9
    (fun _ _ _ => 1 / 2)).result.get 0 0 0 ≠ 9 := by decide +kernel

theorem length_linspace (a b : K) (n : Nat) : (linspace a b n).length = n := by simp [linspace]

theorem linspace_get (a b : K) (n i : Nat) (hi : i < n) (hn : n ≠ 1) :
    (linspace a b n).getD i 0 = a + (i : K) * ((b - a) / ((n : K) - 1)) := by
  simp [linspace, hi, hn]

theorem linspace_first (a b : K) (n : Nat) (hn : 0 < n) : (linspace a b n).getD 0 0 = a := by
  by_cases h : n = 1
  · subst h; simp [linspace]
  · rw [linspace_get a b n 0 hn h]; simp

theorem linspace_last (a b : K) (n : Nat) (hn : 2 ≤ n) : (linspace a b n).getD (n - 1) 0 = b := by
  rw [linspace_get a b n (n - 1) (by omega) (by omega)]
  have h1 : ((n - 1 : Nat) : K) = (n : K) - 1 := by
    rw [Nat.cast_sub (by omega), Nat.cast_one]
  have h2 : ((n : K) - 1) ≠ 0 := by
    rw [← h1]; exact Nat.cast_ne_zero.2 (by omega)
  rw [h1]
  field_simp
  ring

/-- The magnification is `1 + r2 / r1`: one for no distance, larger for a longer one. -/
theorem magnification_spec (r1 r2 : K) :
    (r1 = 0 → getMagnification r1 r2 = .error .zeroDivision) ∧
      (0 < r1 → ∃ m, getMagnification r1 r2 = .ok m ∧ m * r1 = r1 + r2 ∧ (0 ≤ r2 → 1 ≤ m) ∧
        (r2 = 0 → m = 1)) := by
  refine ⟨fun h => if_pos h, fun h => ⟨_, if_neg h.ne', ?_, fun h2 => ?_, fun h2 => ?_⟩⟩
  · exact div_mul_cancel₀ _ h.ne'
  · rw [le_div_iff₀ h]; linarith
  · rw [h2, add_zero, div_self h.ne']

end Generic

/-- `add_drift` multiplies every projection by one number, the same for all pixels, and leaves its
argument alone; it raises exactly for period zero. -/
theorem drift_value (tomo : Arr3 ℝ) (amp period mean : ℝ) :
    (period = 0 → addDrift tomo amp period mean = .error .zeroDivision) ∧
    (period ≠ 0 → ∃ o, addDrift tomo amp period mean = .ok o ∧ o.arg = tomo ∧
      o.result.d0 = tomo.d0 ∧ o.result.d1 = tomo.d1 ∧ o.result.d2 = tomo.d2 ∧
      ∀ i j k, o.result.get i j k = drift amp period mean tomo.d0 i * tomo.get i j k) :=
  ⟨fun h => if_pos h, fun h => ⟨_, if_neg h, rfl, rfl, rfl, rfl, fun _ _ _ => rfl⟩⟩

/-- The factor of projection `i`: the sinusoid and a straight line from 0 to 1. -/
theorem drift_eq (amp period mean : ℝ) {n i : Nat} (hn : 2 ≤ n) (hi : i < n) :
    drift amp period mean n i =
      amp * Real.sin (2 * Real.pi * i / period) + mean + (i : ℝ) / ((n : ℝ) - 1) := by
  rw [drift, linspace_get 0 1 n i hi (by omega)]
  have : 2 * Real.pi / period * (i : ℝ) = 2 * Real.pi * i / period := by ring
  rw [this]; ring

/-- REFUTED: the drift is a sinusoid of the given period.  Two projections one period apart get
factors that differ by `T / (n - 1)`. -/
theorem drift_not_periodic (amp mean : ℝ) {n i T : Nat} (hT : 0 < T) (hi : i + T < n) :
    drift amp T mean n (i + T) - drift amp T mean n i = (T : ℝ) / ((n : ℝ) - 1) ∧
      drift amp T mean n (i + T) ≠ drift amp T mean n i := by
  have hT' : (T : ℝ) ≠ 0 := Nat.cast_ne_zero.2 (by omega)
  have hn : (0 : ℝ) < (n : ℝ) - 1 := by
    have : (2 : ℝ) ≤ n := by exact_mod_cast (by omega : 2 ≤ n)
    linarith
  have key : drift amp T mean n (i + T) - drift amp T mean n i = (T : ℝ) / ((n : ℝ) - 1) := by
    rw [drift_eq _ _ _ (by omega) hi, drift_eq _ _ _ (by omega) (by omega)]
    have : 2 * Real.pi * ((i + T : Nat) : ℝ) / T = 2 * Real.pi * i / T + 2 * Real.pi := by
      push_cast; field_simp
    rw [this, Real.sin_add_two_pi]
    push_cast
    ring
  refine ⟨key, fun h => ?_⟩
  rw [h, sub_self] at key
  have : (0 : ℝ) < (T : ℝ) / ((n : ℝ) - 1) := div_pos (by exact_mod_cast hT) hn
  linarith

/-- REFUTED: amplitude zero (mean one) changes nothing.  The last projection is doubled. -/
theorem drift_no_amplitude (period : ℝ) {n : Nat} (hn : 2 ≤ n) :
    drift 0 period 1 n (n - 1) = 2 ∧ drift 0 period 1 n 0 = 1 := by
  constructor
  · rw [drift, linspace_last 0 1 n hn]; norm_num
  · rw [drift, linspace_first 0 1 n (by omega)]; norm_num

/-- `angles`: `nang` angles, evenly spaced, from the first to the last, in radian. -/
theorem angles_spec {nang : Int} {ang1 ang2 : ℝ} {l : List ℝ} (h : angles nang ang1 ang2 = .ok l) :
    (l.length : Int) = nang ∧
      (1 ≤ nang → l.getD 0 0 = ang1 / 180 * Real.pi) ∧
      (2 ≤ nang → l.getD (l.length - 1) 0 = ang2 / 180 * Real.pi) ∧
      ∀ i, i + 1 < l.length →
        l.getD (i + 1) 0 - l.getD i 0 = (ang2 - ang1) / 180 * Real.pi / ((nang : ℝ) - 1) := by
  unfold angles at h
  split_ifs at h with hn
  injection h with h
  obtain ⟨n, rfl⟩ := Int.eq_ofNat_of_zero_le (not_lt.1 hn)
  simp only [Int.toNat_natCast] at h
  have hl : l.length = n := by rw [← h, length_linspace]
  refine ⟨by rw [hl], fun h1 => ?_, fun h2 => ?_, fun i hi => ?_⟩
  · rw [← h, linspace_first _ _ _ (by omega)]; ring
  · rw [hl, ← h, linspace_last _ _ _ (by omega)]; ring
  · rw [hl] at hi
    rw [← h, linspace_get _ _ _ _ hi (by omega), linspace_get _ _ _ _ (by omega) (by omega)]
    push_cast
    ring

/-- `angles` raises exactly for a negative number. -/
theorem angles_accepts (nang : Int) (ang1 ang2 : ℝ) :
    (∃ l, angles nang ang1 ang2 = .ok l) ↔ 0 ≤ nang := by
  unfold angles
  split_ifs with h
  · exact ⟨fun ⟨_, hl⟩ => (by cases hl), fun h' => absurd h (not_lt.2 h')⟩
  · exact ⟨fun _ => not_lt.1 h, fun _ => ⟨_, rfl⟩⟩

example : ∃ l, angles 3 0 180 = .ok l := (angles_accepts 3 0 180).2 (by norm_num)

/-- All angles lie between the first and the last, in order. -/
theorem angles_sorted {nang : Int} {ang1 ang2 : ℝ} {l : List ℝ} (h : angles nang ang1 ang2 = .ok l)
    (h12 : ang1 < ang2) (i j : Nat) (hij : i < j) (hj : j < l.length) :
    l.getD i 0 < l.getD j 0 := by
  have hs := (angles_spec h).2.2.2
  have hlen := (angles_spec h).1
  have hpos : 0 < (ang2 - ang1) / 180 * Real.pi / ((nang : ℝ) - 1) := by
    have h2 : (2 : ℝ) ≤ (nang : ℝ) := by
      have : (2 : Int) ≤ nang := by omega
      exact_mod_cast this
    have := Real.pi_pos
    apply div_pos _ (by linarith)
    apply mul_pos _ this
    linarith
  induction j with
  | zero => omega
  | succ j ih =>
    have hstep := hs j hj
    rcases Nat.lt_succ_iff_lt_or_eq.1 hij with hlt | heq
    · have := ih hlt (by omega); linarith
    · subst heq; linarith

/-- With the default range the last projection is taken from the opposite side of the first: the
detector coordinate `x cos θ + z sin θ` of every point changes sign, so it repeats the first
projection mirrored. -/
theorem angles_default_repeats {nang : Int} (hn : 2 ≤ nang) {l : List ℝ}
    (h : angles nang 0 180 = .ok l) (x z : ℝ) :
    x * Real.cos (l.getD (l.length - 1) 0) + z * Real.sin (l.getD (l.length - 1) 0) =
      -(x * Real.cos (l.getD 0 0) + z * Real.sin (l.getD 0 0)) := by
  obtain ⟨_, h0, h1, _⟩ := angles_spec h
  rw [h0 (by omega), h1 hn]
  norm_num

end Tomopy.Sim
