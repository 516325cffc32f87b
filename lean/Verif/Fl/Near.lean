import Verif.Fl.Ext
import Mathlib.Tactic.GCongr
import Mathlib.Tactic.NormNum.Pow
import Mathlib.Algebra.Order.Ring.Pow

/-!
# Relative closeness of computed and exact values
-/

set_option linter.unusedSectionVars false

namespace Tomopy.Fl

/-! ## Specification -/

/-- The factor of one rounding. -/
def rho : ℚ := 1 + 1 / 2 ^ 23

/-- `x` and `y` differ by at most `k` factors `1 + 2⁻²³`. -/
def Near (k : Nat) (x y : ℚ) : Prop := 0 ≤ y ∧ y ≤ x * rho ^ k ∧ x ≤ y * rho ^ k

/-- A finite `float` close to `y`. -/
def NearF (k : Nat) (a : F32) (y : ℚ) : Prop := ∃ x, a = .fin x ∧ Near k x y

/-- Zero, or well inside the range of normal numbers. -/
def Rng (y : ℚ) : Prop := y = 0 ∨ (1 / 2 ^ 125 ≤ y ∧ y ≤ 2 ^ 126)

/-! ## Lemmas -/

theorem rho_ge : (1 : ℚ) ≤ rho := by unfold rho; norm_num
theorem rho_pos (k : Nat) : (0 : ℚ) < rho ^ k := pow_pos (lt_of_lt_of_le one_pos rho_ge) k
theorem rho_one (k : Nat) : (1 : ℚ) ≤ rho ^ k := one_le_pow₀ rho_ge

theorem Near.nonneg {k : Nat} {x y : ℚ} (h : Near k x y) : 0 ≤ x := by
  have h1 := le_trans h.1 h.2.1
  have := rho_pos k
  by_contra hc
  rw [not_le] at hc
  nlinarith

theorem Near.refl {y : ℚ} (h : 0 ≤ y) : Near 0 y y := by
  refine ⟨h, ?_, ?_⟩ <;> simp

theorem Near.zero {k : Nat} {x : ℚ} (h : Near k x 0) : x = 0 :=
  le_antisymm (by simpa using h.2.2) h.nonneg

theorem Near.mono {j k : Nat} {x y : ℚ} (h : Near j x y) (hjk : j ≤ k) : Near k x y := by
  have : rho ^ j ≤ rho ^ k := pow_le_pow_right₀ rho_ge hjk
  exact ⟨h.1, le_trans h.2.1 (mul_le_mul_of_nonneg_left this h.nonneg),
    le_trans h.2.2 (mul_le_mul_of_nonneg_left this h.1)⟩

theorem Near.trans {j k : Nat} {x y z : ℚ} (h : Near j x y) (h' : Near k y z) : Near (j + k) x z := by
  refine ⟨h'.1, ?_, ?_⟩
  · have := mul_le_mul_of_nonneg_right h.2.1 (rho_pos k).le
    rw [pow_add, ← mul_assoc]
    exact le_trans h'.2.1 this
  · have := mul_le_mul_of_nonneg_right h'.2.2 (rho_pos j).le
    rw [add_comm, pow_add, ← mul_assoc]
    exact le_trans h.2.2 this

theorem Near.add {k : Nat} {x y x' y' : ℚ} (h : Near k x y) (h' : Near k x' y') :
    Near k (x + x') (y + y') := by
  refine ⟨add_nonneg h.1 h'.1, ?_, ?_⟩
  · rw [add_mul]; exact add_le_add h.2.1 h'.2.1
  · rw [add_mul]; exact add_le_add h.2.2 h'.2.2

theorem Near.mul {j k : Nat} {x y x' y' : ℚ} (h : Near j x y) (h' : Near k x' y') :
    Near (j + k) (x * x') (y * y') := by
  refine ⟨mul_nonneg h.1 h'.1, ?_, ?_⟩
  · have := mul_le_mul h.2.1 h'.2.1 h'.1 (le_trans h.1 h.2.1)
    rw [pow_add]
    calc y * y' ≤ x * rho ^ j * (x' * rho ^ k) := this
      _ = x * x' * (rho ^ j * rho ^ k) := by ring
  · have := mul_le_mul h.2.2 h'.2.2 h'.nonneg (le_trans h.nonneg h.2.2)
    rw [pow_add]
    calc x * x' ≤ y * rho ^ j * (y' * rho ^ k) := this
      _ = y * y' * (rho ^ j * rho ^ k) := by ring

theorem Near.pos {k : Nat} {x y : ℚ} (h : Near k x y) (hy : 0 < y) : 0 < x := by
  rcases h.nonneg.eq_or_lt with h0 | h0
  · have := h.2.1
    rw [← h0, zero_mul] at this
    linarith
  · exact h0

theorem Near.inv {k : Nat} {x y : ℚ} (h : Near k x y) (hy : 0 < y) : Near k x⁻¹ y⁻¹ := by
  have hx := h.pos hy
  have hr := rho_pos k
  refine ⟨(inv_pos.mpr hy).le, ?_, ?_⟩
  · rw [inv_mul_eq_div, le_div_iff₀ hx, inv_mul_eq_div, div_le_iff₀ hy, mul_comm]
    exact h.2.2
  · rw [inv_mul_eq_div, le_div_iff₀ hy, inv_mul_eq_div, div_le_iff₀ hx, mul_comm]
    exact h.2.1

theorem Near.div {j k : Nat} {x y x' y' : ℚ} (h : Near j x y) (h' : Near k x' y') (hy : 0 < y') :
    Near (j + k) (x / x') (y / y') := by
  rw [div_eq_mul_inv, div_eq_mul_inv]
  exact h.mul (h'.inv hy)

/-- One rounding in the normal range. -/
theorem near_fl {y : ℚ} (h : y = 0 ∨ 1 / 2 ^ 126 ≤ y) : Near 1 (fl y) y := by
  rcases h with rfl | h
  · rw [fl_zero]; exact (Near.refl (le_refl 0)).mono (by norm_num)
  · have hy : 0 < y := lt_of_lt_of_le (by norm_num) h
    have hr := fl_rel y
    rw [abs_of_pos hy, abs_le] at hr
    have hη : (1 : ℚ) / 2 ^ 150 ≤ y / 2 ^ 24 := by
      rw [le_div_iff₀ (by norm_num)]
      refine le_trans (le_of_eq ?_) h
      norm_num
    generalize (1 : ℚ) / 2 ^ 150 = η at *
    refine ⟨hy.le, ?_, ?_⟩
    · rw [pow_one]
      have e : rho = 1 + 1 / 2 ^ 23 := rfl
      have h3 : y ≤ fl y * rho := by
        have hu := fl_err y
        have hE : (2 : ℚ) ^ ulpExp y / 2 ≤ y / 2 ^ 24 := by
          by_cases hlt : -149 < ulpExp y
          · have := ulp_le_abs hy.ne' hlt
            rw [abs_of_pos hy, pow_split] at this
            rw [div_le_div_iff₀ (by norm_num) (by norm_num)]
            norm_num at this ⊢
            linarith
          · have h149 : ulpExp y = -149 := le_antisymm (not_lt.mp hlt) (ulp_ge y)
            rw [h149, le_div_iff₀ (by norm_num)]
            refine le_trans (le_of_eq ?_) h
            norm_num
        rw [abs_le] at hu
        have h4 : y * (1 - 1 / 2 ^ 24) ≤ fl y := by linarith [hu.1]
        have h5 : (1 : ℚ) ≤ (1 - 1 / 2 ^ 24) * (1 + 1 / 2 ^ 23) := by norm_num
        rw [e]
        calc y = y * 1 := by ring
          _ ≤ y * ((1 - 1 / 2 ^ 24) * (1 + 1 / 2 ^ 23)) := mul_le_mul_of_nonneg_left h5 hy.le
          _ = y * (1 - 1 / 2 ^ 24) * (1 + 1 / 2 ^ 23) := by ring
          _ ≤ fl y * (1 + 1 / 2 ^ 23) := mul_le_mul_of_nonneg_right h4 (by norm_num)
      exact h3
    · rw [pow_one]
      have : y / 2 ^ 23 = y / 2 ^ 24 + y / 2 ^ 24 := by ring
      have e : y * rho = y + y / 2 ^ 23 := by unfold rho; ring
      linarith [hr.2]

/-- Bernoulli. -/
theorem rho_bound {n : Nat} (hn : n ≤ 65536) : rho ^ n ≤ 1 + 8 / 1000 := by
  have h1 : (1 - n * (1 / 2 ^ 23) : ℚ) ≤ (1 - 1 / 2 ^ 23) ^ n := by
    have := one_add_mul_le_pow (a := (-(1 / 2 ^ 23) : ℚ)) (by norm_num) n
    have e : (1 + -(1 / 2 ^ 23) : ℚ) = 1 - 1 / 2 ^ 23 := by ring
    rw [e] at this
    linarith
  have h2 : rho ^ n * (1 - 1 / 2 ^ 23) ^ n ≤ 1 := by
    rw [← mul_pow]
    exact pow_le_one₀ (by unfold rho; norm_num) (by unfold rho; norm_num)
  have hnq : (n : ℚ) ≤ 65536 := by exact_mod_cast hn
  have h3 : (1 - 7813 / 1000000 : ℚ) ≤ (1 - 1 / 2 ^ 23) ^ n := by
    norm_num at h1 ⊢
    linarith
  have h4 := rho_one n
  by_contra hc
  rw [not_le] at hc
  nlinarith

theorem near_round {k : Nat} {x y : ℚ} (hk : k ≤ 65535) (h : Near k x y) (hy : Rng y) :
    NearF (k + 1) (F32.round x) y := by
  have hb := rho_bound (n := k) (by omega)
  have hb' := rho_bound (n := k + 1) (by omega)
  have hx : x = 0 ∨ 1 / 2 ^ 126 ≤ x := by
    rcases hy with rfl | ⟨h1, _⟩
    · left; exact h.zero
    · right
      have h2 := le_trans h1 h.2.1
      have hx0 := h.nonneg
      have h3 : x * rho ^ k ≤ x * 2 := mul_le_mul_of_nonneg_left (by linarith) hx0
      have e : (1 : ℚ) / 2 ^ 125 = 1 / 2 ^ 126 * 2 := by norm_num
      rw [e] at h2
      linarith
  have hn : Near (1 + k) (fl x) y := (near_fl hx).trans h
  rw [add_comm] at hn
  have hle : |fl x| < 2 ^ 128 := by
    rw [abs_of_nonneg hn.nonneg]
    rcases hy with rfl | ⟨_, h1⟩
    · rw [hn.zero]; norm_num
    · have : y * rho ^ (k + 1) ≤ 2 ^ 126 * 2 := mul_le_mul h1 (by linarith) (rho_pos _).le (by norm_num)
      refine lt_of_le_of_lt (le_trans hn.2.2 this) (by norm_num)
  refine ⟨fl x, ?_, hn⟩
  unfold F32.round
  rw [if_pos hle]

theorem NearF.mono {j k : Nat} {a : F32} {y : ℚ} (h : NearF j a y) (hjk : j ≤ k) : NearF k a y := by
  obtain ⟨x, rfl, hx⟩ := h
  exact ⟨x, rfl, hx.mono hjk⟩

theorem NearF.nonneg {k : Nat} {a : F32} {y : ℚ} (h : NearF k a y) : 0 ≤ y := h.choose_spec.2.1

/-- A computed value is zero exactly if the exact value is. -/
theorem NearF.ne_zero {k : Nat} {a : F32} {y : ℚ} (h : NearF k a y) : a ≠ .fin 0 ↔ y ≠ 0 := by
  obtain ⟨x, rfl, hx⟩ := h
  constructor
  · intro h0 hy
    subst hy
    exact h0 (by rw [hx.zero])
  · intro h0 he
    have : x = 0 := F32.fin.inj he
    subst this
    have := hx.2.1
    rw [zero_mul] at this
    exact h0 (le_antisymm this hx.1)

theorem NearF.add {j : Nat} {a : F32} {y l : ℚ} (h : NearF j a y) (hj : j ≤ 65535) (hl : 0 ≤ l)
    (hr : Rng (y + l)) : NearF (j + 1) (F32.add a (.fin l)) (y + l) := by
  obtain ⟨x, rfl, hx⟩ := h
  exact near_round hj (hx.add ((Near.refl hl).mono (Nat.zero_le j))) hr

theorem NearF.mac {f : Bool} {i j : Nat} {a c : F32} {A C l : ℚ} (ha : NearF i a A) (hc : NearF j c C)
    (hij : i + 1 ≤ j) (hj : j ≤ 65535) (hl : 0 ≤ l) (h1 : Rng (A * l)) (h2 : Rng (A * l + C)) :
    NearF (j + 1) (F32.mac f a (.fin l) c) (A * l + C) := by
  obtain ⟨x, rfl, hx⟩ := ha
  obtain ⟨z, rfl, hz⟩ := hc
  have hxl : Near i (x * l) (A * l) := hx.mul (Near.refl hl)
  cases f
  · obtain ⟨v, hv, hnv⟩ := near_round (by omega) hxl h1
    show NearF (j + 1) (F32.add (F32.round (x * l)) (.fin z)) (A * l + C)
    rw [hv]
    exact near_round hj ((hnv.mono hij).add hz) h2
  · exact near_round hj ((hxl.mono (by omega)).add hz) h2

theorem NearF.div {i j : Nat} {a b : F32} {A B : ℚ} (ha : NearF i a A) (hb : NearF j b B)
    (hij : i + j ≤ 65535) (hB : 0 < B) (hr : Rng (A / B)) :
    NearF (i + j + 1) (F32.div a b) (A / B) := by
  obtain ⟨x, rfl, hx⟩ := ha
  obtain ⟨z, rfl, hz⟩ := hb
  have hz0 := hz.pos hB
  show NearF _ (if z = 0 then _ else _) _
  rw [if_neg hz0.ne']
  exact near_round hij (hx.div hz hB) hr

theorem NearF.mul {i j : Nat} {a b : F32} {A B : ℚ} (ha : NearF i a A) (hb : NearF j b B)
    (hij : i + j ≤ 65535) (hr : Rng (A * B)) : NearF (i + j + 1) (F32.mul a b) (A * B) := by
  obtain ⟨x, rfl, hx⟩ := ha
  obtain ⟨z, rfl, hz⟩ := hb
  exact near_round hij (hx.mul hz) hr

theorem nearF_fin {y : ℚ} (h : 0 ≤ y) : NearF 0 (.fin y) y := ⟨y, rfl, Near.refl h⟩

/-! ## Running sums -/

/-- A running sum with `c` terms from `[lo, hi]` or zero, whose factors have error `κ`. -/
structure Tracked (κ : Nat) (lo hi : ℚ) (c : Nat) (a : F32) (U : ℚ) : Prop where
  near : NearF (κ + c + 1) a U
  low : U = 0 ∨ lo ≤ U
  high : U ≤ c * hi

theorem Tracked.zero (κ : Nat) (lo hi : ℚ) : Tracked κ lo hi 0 (.fin 0) 0 :=
  ⟨(nearF_fin (le_refl 0)).mono (by omega), Or.inl rfl, by simp⟩

theorem Tracked.mono {κ : Nat} {lo hi : ℚ} {c c' : Nat} {a : F32} {U : ℚ}
    (h : Tracked κ lo hi c a U) (hhi : 0 ≤ hi) (hc : c ≤ c') : Tracked κ lo hi c' a U :=
  ⟨h.near.mono (by omega), h.low, le_trans h.high (by
    have : (c : ℚ) ≤ c' := by exact_mod_cast hc
    exact mul_le_mul_of_nonneg_right this hhi)⟩

/-- The range of a running sum. -/
theorem rng_of {lo hi U : ℚ} {c : Nat} (hlo : 1 / 2 ^ 125 ≤ lo) (hhi : 0 ≤ hi)
    (hhi2 : 16384 * hi ≤ 2 ^ 126) (hc : c ≤ 16384) (h1 : U = 0 ∨ lo ≤ U) (h2 : U ≤ c * hi) : Rng U := by
  rcases h1 with rfl | h1
  · left; rfl
  · right
    refine ⟨le_trans hlo h1, le_trans h2 (le_trans ?_ hhi2)⟩
    have : (c : ℚ) ≤ 16384 := by exact_mod_cast hc
    exact mul_le_mul_of_nonneg_right this hhi

theorem Tracked.step_bounds {κ : Nat} {lo hi : ℚ} {c : Nat} {a : F32} {U t : ℚ}
    (h : Tracked κ lo hi c a U) (ht0 : 0 ≤ t) (ht : t = 0 ∨ lo ≤ t) (hth : t ≤ hi) :
    (t + U = 0 ∨ lo ≤ t + U) ∧ t + U ≤ ((c + 1 : Nat) : ℚ) * hi := by
  have hU := h.near.nonneg
  constructor
  · rcases ht with rfl | ht
    · rw [zero_add]; exact h.low
    · right; linarith
  · have := h.high
    push_cast
    linarith

theorem Tracked.mac {κ : Nat} {lo hi : ℚ} {c : Nat} {a b : F32} {U B l : ℚ} {f : Bool}
    (h : Tracked κ lo hi c a U) (hb : NearF κ b B) (hκ : κ ≤ 40000) (hc : c + 1 ≤ 16384)
    (hlo : 1 / 2 ^ 125 ≤ lo) (hhi : 0 ≤ hi) (hhi2 : 16384 * hi ≤ 2 ^ 126) (hl : 0 ≤ l)
    (ht : B * l = 0 ∨ lo ≤ B * l) (hth : B * l ≤ hi) :
    Tracked κ lo hi (c + 1) (F32.mac f b (.fin l) a) (B * l + U) := by
  have ht0 : 0 ≤ B * l := mul_nonneg hb.nonneg hl
  obtain ⟨h1, h2⟩ := h.step_bounds ht0 ht hth
  have r1 : Rng (B * l) := rng_of (c := 1) hlo hhi hhi2 (by norm_num) ht (by simpa using hth)
  have r2 : Rng (B * l + U) := rng_of hlo hhi hhi2 hc h1 h2
  refine ⟨?_, h1, h2⟩
  exact hb.mac h.near (by omega) (by omega) hl r1 r2

theorem Tracked.add {lo hi : ℚ} {c : Nat} {a : F32} {U l : ℚ}
    (h : Tracked 0 lo hi c a U) (hc : c + 1 ≤ 16384)
    (hlo : 1 / 2 ^ 125 ≤ lo) (hhi : 0 ≤ hi) (hhi2 : 16384 * hi ≤ 2 ^ 126)
    (ht : l = 0 ∨ lo ≤ l) (hth : l ≤ hi) :
    Tracked 0 lo hi (c + 1) (F32.add a (.fin l)) (l + U) := by
  have hlo0 : 0 ≤ lo := le_trans (by norm_num) hlo
  have ht0 : 0 ≤ l := by rcases ht with rfl | ht <;> linarith
  obtain ⟨h1, h2⟩ := h.step_bounds ht0 ht hth
  have r2 : Rng (l + U) := rng_of hlo hhi hhi2 hc h1 h2
  refine ⟨?_, h1, h2⟩
  have := h.near.add (by omega) ht0 (by rw [add_comm]; exact r2)
  rw [add_comm l U]
  exact this

end Tomopy.Fl
