import Verif.Fl.Model
import Mathlib.Algebra.Order.Ring.Pow
import Mathlib.Algebra.BigOperators.Group.List.Basic
import Mathlib.Algebra.Order.BigOperators.Group.List

/-!
# Line sums in `float` arithmetic
-/

set_option linter.unusedSectionVars false

namespace Tomopy.Fl

/-! ## Model -/

/-- The loop of `calc_simdata` (`source/libtomo/recon/utils.c:361-370`) on an entry of `simdata`
that is zero before: `simdata[i] += model[indi[n]] * dist[n]`, with the product rounded or fused
with the addition.  A segment is the pair of the value of its pixel and its length. -/
def lineSumF (fused : Bool) (l : List (ℚ × ℚ)) : ℚ :=
  l.foldl (fun s xd => mulAdd fused xd.1 xd.2 s) 0

/-- `project` (`source/libtomo/recon/project.c:96-119`) for one ray: the entry of `simdata` from
the object and the segments (pixel and length) of the ray.  Overflow to infinity is not modelled. -/
def projectF (fused : Bool) (obj : Nat → ℚ) (segs : List (Nat × ℚ)) : ℚ :=
  lineSumF fused (segs.map fun e => (obj e.1, e.2))

/-! ## Specification -/

/-- The line sum in exact arithmetic. -/
def exactSum (l : List (ℚ × ℚ)) : ℚ := (l.map fun xd => xd.1 * xd.2).sum

/-- The sum of the absolute values. -/
def absSum (l : List (ℚ × ℚ)) : ℚ := (l.map fun xd => |xd.1 * xd.2|).sum

/-! ## Properties -/

theorem mulAdd_mono {f : Bool} {x x' d s s' : ℚ} (hd : 0 ≤ d) (hx : x ≤ x') (hs : s ≤ s') :
    mulAdd f x d s ≤ mulAdd f x' d s' := by
  have h : x * d ≤ x' * d := mul_le_mul_of_nonneg_right hx hd
  unfold mulAdd
  cases f
  · simp only [Bool.false_eq_true, if_false]
    exact fl_mono (add_le_add (fl_mono h) hs)
  · simp only [if_true]
    exact fl_mono (add_le_add h hs)

theorem mulAdd_zero (f : Bool) (d : ℚ) : mulAdd f 0 d 0 = 0 := by
  cases f <;> simp [mulAdd, fl_zero]

/-- **The projection in `float` is monotone in the object**: larger pixel values never give a
smaller projection, in spite of rounding. -/
theorem projectF_mono (f : Bool) {obj obj' : Nat → ℚ} {segs : List (Nat × ℚ)}
    (hd : ∀ e ∈ segs, 0 ≤ e.2) (h : ∀ e ∈ segs, obj e.1 ≤ obj' e.1) :
    projectF f obj segs ≤ projectF f obj' segs := by
  suffices hg : ∀ (segs : List (Nat × ℚ)) (s s' : ℚ), s ≤ s' → (∀ e ∈ segs, 0 ≤ e.2) →
      (∀ e ∈ segs, obj e.1 ≤ obj' e.1) →
      (segs.map fun e => (obj e.1, e.2)).foldl (fun s xd => mulAdd f xd.1 xd.2 s) s ≤
      (segs.map fun e => (obj' e.1, e.2)).foldl (fun s xd => mulAdd f xd.1 xd.2 s) s' from
    hg segs 0 0 (le_refl _) hd h
  intro segs
  induction segs with
  | nil => intro s s' hs _ _; exact hs
  | cons e l ih =>
    intro s s' hs hd h
    simp only [List.map_cons, List.foldl_cons]
    refine ih _ _ (mulAdd_mono (hd e (by simp)) (h e (by simp)) hs) ?_ ?_
    · exact fun a ha => hd a (by simp [ha])
    · exact fun a ha => h a (by simp [ha])

theorem projectF_zero (f : Bool) (segs : List (Nat × ℚ)) : projectF f (fun _ => 0) segs = 0 := by
  unfold projectF lineSumF
  induction segs with
  | nil => rfl
  | cons e l ih =>
    simp only [List.map_cons, List.foldl_cons, mulAdd_zero]
    exact ih

/-- A non-negative object has a non-negative projection. -/
theorem projectF_nonneg (f : Bool) {obj : Nat → ℚ} {segs : List (Nat × ℚ)}
    (hd : ∀ e ∈ segs, 0 ≤ e.2) (h : ∀ e ∈ segs, 0 ≤ obj e.1) : 0 ≤ projectF f obj segs := by
  rw [← projectF_zero f segs]
  exact projectF_mono f hd h

/-- One step of the accumulation. -/
theorem mulAdd_step (f : Bool) (x d s : ℚ) : |mulAdd f x d s - (s + x * d)| ≤
    (1 + 1 / 2 ^ 24) * (|x * d| / 2 ^ 24 + 1 / 2 ^ 150) + |s + x * d| / 2 ^ 24 + 1 / 2 ^ 150 := by
  have hη : (0 : ℚ) ≤ 1 / 2 ^ 150 := by norm_num
  have hrel := fl_rel
  generalize (1 : ℚ) / 2 ^ 150 = η at *
  have key : ∀ v : ℚ, |v - x * d| ≤ |x * d| / 2 ^ 24 + η → |fl (v + s) - (v + s)| ≤ |v + s| / 2 ^ 24 + η →
      |fl (v + s) - (s + x * d)| ≤
      (1 + 1 / 2 ^ 24) * (|x * d| / 2 ^ 24 + η) + |s + x * d| / 2 ^ 24 + η := by
    intro v h1 h2
    have e1 : fl (v + s) - (s + x * d) = (fl (v + s) - (v + s)) + (v - x * d) := by ring
    have e2 : |v + s| ≤ |s + x * d| + |v - x * d| := by
      have := abs_add_le (s + x * d) (v - x * d)
      rwa [show s + x * d + (v - x * d) = v + s by ring] at this
    have e3 := abs_add_le (fl (v + s) - (v + s)) (v - x * d)
    rw [e1]
    have : |v + s| / 2 ^ 24 ≤ (|s + x * d| + |v - x * d|) / 2 ^ 24 := by gcongr
    have : |v - x * d| / 2 ^ 24 ≤ (|x * d| / 2 ^ 24 + η) / 2 ^ 24 := by gcongr
    have e4 : (1 + 1 / 2 ^ 24) * (|x * d| / 2 ^ 24 + η) =
      (|x * d| / 2 ^ 24 + η) + (|x * d| / 2 ^ 24 + η) / 2 ^ 24 := by ring
    rw [e4]
    have e5 : (|s + x * d| + |v - x * d|) / 2 ^ 24 = |s + x * d| / 2 ^ 24 + |v - x * d| / 2 ^ 24 := by
      ring
    linarith
  unfold mulAdd
  cases f
  · simp only [Bool.false_eq_true, if_false]
    exact key _ (hrel _) (hrel _)
  · simp only [if_true]
    refine key _ ?_ (hrel _)
    rw [sub_self, abs_zero]
    positivity

theorem pow_one_le (n : Nat) : (1 : ℚ) ≤ (1 + 1 / 2 ^ 24) ^ n := one_le_pow₀ (by norm_num)

/-- The error of the sum of a list whose length is not bounded. -/
theorem lineSumF_err (f : Bool) (l : List (ℚ × ℚ)) :
    |lineSumF f l - exactSum l| ≤ ((1 + 1 / 2 ^ 24) ^ (l.length + 1) - 1) * absSum l +
      2 * l.length * (1 / 2 ^ 150) * (1 + 1 / 2 ^ 24) ^ l.length := by
  induction l using List.reverseRecOn with
  | nil => simp [lineSumF, exactSum, absSum]
  | append_singleton l e ih =>
    obtain ⟨x, d⟩ := e
    have h1 : lineSumF f (l ++ [(x, d)]) = mulAdd f x d (lineSumF f l) := by
      simp [lineSumF]
    have h2 : exactSum (l ++ [(x, d)]) = exactSum l + x * d := by simp [exactSum]
    have h3 : absSum (l ++ [(x, d)]) = absSum l + |x * d| := by simp [absSum]
    have hes : |exactSum l| ≤ absSum l := by
      unfold exactSum absSum
      clear h1 h2 h3 ih
      induction l with
      | nil => simp
      | cons a l ih =>
        simp only [List.map_cons, List.sum_cons]
        exact le_trans (abs_add_le _ _) (add_le_add (le_refl _) ih)
    rw [h1, h2, h3, List.length_append, List.length_singleton]
    have st := mulAdd_step f x d (lineSumF f l)
    have hη : (0 : ℚ) ≤ 1 / 2 ^ 150 := by norm_num
    generalize (1 : ℚ) / 2 ^ 150 = η at *
    generalize lineSumF f l = s at *
    generalize exactSum l = E at *
    generalize absSum l = S at *
    generalize x * d = p at *
    have hS : 0 ≤ S := le_trans (abs_nonneg _) hes
    have hp := abs_nonneg p
    have hu : (0 : ℚ) ≤ 1 / 2 ^ 24 := by norm_num
    have hst : |s + p| ≤ S + |s - E| + |p| := by
      have a1 := abs_add_le s p
      have a2 := abs_add_le E (s - E)
      rw [show E + (s - E) = s by ring] at a2
      linarith
    have hm : |mulAdd f x d s - (E + p)| ≤ |mulAdd f x d s - (s + p)| + |s - E| := by
      have := abs_add_le (mulAdd f x d s - (s + p)) (s - E)
      rwa [show mulAdd f x d s - (s + p) + (s - E) = mulAdd f x d s - (E + p) by ring] at this
    have q1 := pow_one_le l.length
    have hq : (1 + 1 / 2 ^ 24 : ℚ) ^ (l.length + 1) = (1 + 1 / 2 ^ 24) ^ l.length * (1 + 1 / 2 ^ 24) :=
      pow_succ _ _
    have hq2 : (1 + 1 / 2 ^ 24 : ℚ) ^ (l.length + 1 + 1) =
        (1 + 1 / 2 ^ 24) ^ l.length * (1 + 1 / 2 ^ 24) * (1 + 1 / 2 ^ 24) := by
      rw [pow_succ, pow_succ]
    rw [hq2, hq]
    rw [hq] at ih
    push_cast
    have hn : (0 : ℚ) ≤ l.length := by positivity
    generalize (1 + 1 / 2 ^ 24 : ℚ) ^ l.length = q at *
    generalize (l.length : ℚ) = n at *
    have hdiv : ∀ y : ℚ, y / 2 ^ 24 = (1 / 2 ^ 24) * y := fun y => by ring
    rw [hdiv |p|, hdiv |s + p|] at st
    generalize (1 : ℚ) / 2 ^ 24 = u at *
    generalize |s - E| = er at *
    generalize |p| = ap at *
    generalize |s + p| = sp at *
    generalize |mulAdd f x d s - (s + p)| = st0 at *
    refine le_trans hm ?_
    have b1 : st0 + er ≤ (1 + u) * (u * ap + η) + u * (S + er + ap) + η + er := by nlinarith
    have b2 : (1 + u) * (u * ap + η) + u * (S + er + ap) + η + er =
      (1 + u) * er + ((1 + u) * (1 + u) - 1) * ap + u * S + (2 + u) * η := by ring
    have b3 : (1 + u) * er ≤ (1 + u) * ((q * (1 + u) - 1) * S + 2 * n * η * q) :=
      mul_le_mul_of_nonneg_left ih (by linarith)
    have b4 : (1 + u) * (1 + u) ≤ q * (1 + u) * (1 + u) := by nlinarith
    have b5 : ((1 + u) * (1 + u) - 1) * ap ≤ (q * (1 + u) * (1 + u) - 1) * ap := by nlinarith
    have b6 : (2 + u) * η ≤ 2 * η * (q * (1 + u)) := by nlinarith [mul_nonneg hη hu]
    nlinarith

/-- Bernoulli for the factor of the error. -/
theorem pow_bound {n : Nat} (hn : n ≤ 16384) : (1 + 1 / 2 ^ 24 : ℚ) ^ n ≤ 1 + 99 / 100000 := by
  have h1 : (1 - n * (1 / 2 ^ 24) : ℚ) ≤ (1 - 1 / 2 ^ 24) ^ n := by
    have := one_add_mul_le_pow (a := (-(1 / 2 ^ 24) : ℚ)) (by norm_num) n
    have e : (1 + -(1 / 2 ^ 24) : ℚ) = 1 - 1 / 2 ^ 24 := by ring
    rw [e] at this
    linarith
  have h2 : (1 + 1 / 2 ^ 24 : ℚ) ^ n * (1 - 1 / 2 ^ 24) ^ n ≤ 1 := by
    rw [← mul_pow]
    exact pow_le_one₀ (by norm_num) (by norm_num)
  have hnq : (n : ℚ) ≤ 16384 := by exact_mod_cast hn
  have h3 : (1 - 98 / 100000 : ℚ) ≤ (1 - 1 / 2 ^ 24) ^ n := by
    norm_num at h1 ⊢
    linarith
  have h4 := pow_one_le n
  by_contra hc
  rw [not_le] at hc
  nlinarith

/-- **The projection of a non-negative object in `float` is within 0.1 % of the line sum** over the
computed lengths, for rays with up to `16383` segments (all rays of images with
`rx + rz ≤ 16384`), apart from an underflow of at most `2⁻¹³⁴`. -/
theorem projectF_accurate (f : Bool) {obj : Nat → ℚ} {segs : List (Nat × ℚ)}
    (hd : ∀ e ∈ segs, 0 ≤ e.2) (h : ∀ e ∈ segs, 0 ≤ obj e.1) (hn : segs.length ≤ 16383) :
    |projectF f obj segs - (segs.map fun e => obj e.1 * e.2).sum| ≤
      (1 / 1000) * (segs.map fun e => obj e.1 * e.2).sum + 1 / 2 ^ 134 := by
  have he := lineSumF_err f (segs.map fun e => (obj e.1, e.2))
  have hE : exactSum (segs.map fun e => (obj e.1, e.2)) = (segs.map fun e => obj e.1 * e.2).sum := by
    simp [exactSum, Function.comp_def]
  have hA : absSum (segs.map fun e => (obj e.1, e.2)) = (segs.map fun e => obj e.1 * e.2).sum := by
    unfold absSum
    rw [List.map_map]
    congr 1
    refine List.map_congr_left fun e he => ?_
    exact abs_of_nonneg (mul_nonneg (h e he) (hd e he))
  have hS : 0 ≤ (segs.map fun e => obj e.1 * e.2).sum := by
    refine List.sum_nonneg ?_
    intro a ha
    rw [List.mem_map] at ha
    obtain ⟨e, he, rfl⟩ := ha
    exact mul_nonneg (h e he) (hd e he)
  rw [hE, hA, List.length_map] at he
  refine le_trans he ?_
  have p1 := pow_bound (n := segs.length + 1) (by omega)
  have p2 := pow_bound (n := segs.length) (by omega)
  have hnq : (segs.length : ℚ) ≤ 16383 := by exact_mod_cast hn
  have hn0 : (0 : ℚ) ≤ segs.length := by positivity
  have t1 : ((1 + 1 / 2 ^ 24 : ℚ) ^ (segs.length + 1) - 1) * (segs.map fun e => obj e.1 * e.2).sum ≤
      (1 / 1000) * (segs.map fun e => obj e.1 * e.2).sum :=
    mul_le_mul_of_nonneg_right (by linarith) hS
  have t2 : 2 * (segs.length : ℚ) * (1 / 2 ^ 150) * (1 + 1 / 2 ^ 24) ^ segs.length ≤ 1 / 2 ^ 134 := by
    have a1 : 2 * (segs.length : ℚ) * (1 / 2 ^ 150) ≤ 2 * 16383 * (1 / 2 ^ 150) := by
      gcongr
    have a2 : (0 : ℚ) ≤ 2 * 16383 * (1 / 2 ^ 150) := by positivity
    calc 2 * (segs.length : ℚ) * (1 / 2 ^ 150) * (1 + 1 / 2 ^ 24) ^ segs.length
        ≤ 2 * 16383 * (1 / 2 ^ 150) * (1 + 99 / 100000) := by
          refine mul_le_mul a1 p2 ?_ a2
          positivity
      _ ≤ 1 / 2 ^ 134 := by norm_num
  linarith

/-- **The projection in `float` is not additive**: adding two objects first gives another number
than adding the projections. -/
theorem projectF_not_additive : ∃ (a b : Nat → ℚ) (segs : List (Nat × ℚ)),
    (∀ i, fl (a i) = a i ∧ fl (b i) = b i ∧ fl (a i + b i) = a i + b i) ∧
    projectF false (fun i => a i + b i) segs ≠ fl (projectF false a segs + projectF false b segs) := by
  refine ⟨fun i => if i = 0 then 2 ^ 24 else 1, fun i => if i = 0 then 0 else 1, [(0, 1), (1, 1)], ?_, ?_⟩
  · intro i
    by_cases hi : i = 0
    · simp only [hi, if_true]
      decide +kernel
    · simp only [hi, if_false]
      decide +kernel
  · decide +kernel

/-- Two segments with lengths that are not exact; the hypotheses of `projectF_accurate` hold and
the result is rounded. -/
example : projectF false (fun i => i + 1) [(0, fl (1 / 10)), (2, fl (1 / 3))] = 9227469 / 2 ^ 23 ∧
    (0 : ℚ) ≤ fl (1 / 10) ∧ (0 : ℚ) ≤ fl (1 / 3) ∧
    projectF false (fun i => i + 1) [(0, fl (1 / 10)), (2, fl (1 / 3))] ≠
      1 * fl (1 / 10) + 3 * fl (1 / 3) := by
  decide +kernel

end Tomopy.Fl
