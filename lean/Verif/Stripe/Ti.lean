import Verif.Stripe.TiCg
import Mathlib.Algebra.Order.BigOperators.Group.Finset
import Mathlib.Algebra.BigOperators.Intervals
import Mathlib.Algebra.BigOperators.Ring.Finset
import Mathlib.Tactic.NormNum
import Mathlib.Tactic.Positivity

/-! Theorems about Titarenko's stripe removal (C82). -/
set_option linter.unusedSectionVars false

namespace Tomopy.Ti
open Matrix

variable {K : Type} [Field K] [LinearOrder K] [IsStrictOrderedRing K] {n : Nat}

/-! ### Specification -/

/-- Finite difference of a profile with the coefficients `h`, at column `k`. -/
def diff (h : List K) (x : Fin n → K) (k : Nat) : K :=
  ∑ j ∈ Finset.range h.length, h.getD j 0 * ext x (k + j)

/-- What the method minimises: the squared differences of the corrected profile plus a multiple of the
squared correction. -/
def cost (h : List K) (alpha : K) (p q : Fin n → K) : K :=
  ∑ k ∈ Finset.range (n - (h.length - 1)), diff h (p + q) k ^ 2 + alpha * ∑ i, q i ^ 2

/-! ### The matrix -/

theorem ext_add (x y : Fin n → K) (i : Nat) : ext (x + y) i = ext x i + ext y i := by
  unfold ext; split <;> simp

theorem ext_smul (c : K) (x : Fin n → K) (i : Nat) : ext (c • x) i = c * ext x i := by
  unfold ext; split <;> simp

theorem ext_val (x : Fin n → K) (i : Fin n) : ext x i = x i := by simp [ext]

theorem diff_add (h : List K) (x y : Fin n → K) (k : Nat) :
    diff h (x + y) k = diff h x k + diff h y k := by
  unfold diff
  rw [← Finset.sum_add_distrib]
  exact Finset.sum_congr rfl fun j _ => by rw [ext_add]; ring

theorem diff_smul (h : List K) (c : K) (x : Fin n → K) (k : Nat) :
    diff h (c • x) k = c * diff h x k := by
  unfold diff
  rw [Finset.mul_sum]
  exact Finset.sum_congr rfl fun j _ => by rw [ext_smul]; ring

/-- The first convolution gives the differences. -/
theorem conv_diff (h : List K) (hL : 1 ≤ h.length) (x : Fin n → K) (k : Nat)
    (hk : k < n - (h.length - 1)) :
    conv n (ext x) h.length (fun j => h.getD (h.length - 1 - j) 0) (h.length - 1 + k) = diff h x k := by
  unfold conv diff
  rw [← Finset.sum_range_reflect]
  refine Finset.sum_congr rfl fun j hj => ?_
  have hj := Finset.mem_range.1 hj
  rw [if_pos (by omega), mul_comm, show h.length - 1 + k - (h.length - 1 - j) = k + j by omega]
  dsimp only
  rw [show h.length - 1 - (h.length - 1 - j) = j by omega]

theorem matXvec_eq (h : List K) (hL : 1 ≤ h.length) (x : Fin n → K) (i : Fin n) :
    matXvec h x i = conv (n - (h.length - 1)) (diff h x) h.length (fun j => h.getD j 0) i := by
  unfold matXvec
  dsimp only
  have key : ∀ (u v : Nat → K), (∀ k < n - (h.length - 1), u k = v k) →
      conv (n - (h.length - 1)) u h.length (fun j => h.getD j 0) i
        = conv (n - (h.length - 1)) v h.length (fun j => h.getD j 0) i := by
    intro u v huv
    unfold conv
    refine Finset.sum_congr rfl fun j _ => ?_
    split
    · rename_i hc
      rw [huv _ hc.2]
    · rfl
  exact key _ _ fun k hk => conv_diff h hL x k hk

theorem matXvec_add (h : List K) (hL : 1 ≤ h.length) (x y : Fin n → K) :
    matXvec h (x + y) = matXvec h x + matXvec h y := by
  funext i
  rw [Pi.add_apply, matXvec_eq h hL, matXvec_eq h hL, matXvec_eq h hL]
  unfold conv
  rw [← Finset.sum_add_distrib]
  refine Finset.sum_congr rfl fun j _ => ?_
  split
  · rw [diff_add]; ring
  · simp

theorem matXvec_smul (h : List K) (hL : 1 ≤ h.length) (c : K) (x : Fin n → K) :
    matXvec h (c • x) = c • matXvec h x := by
  funext i
  rw [Pi.smul_apply, matXvec_eq h hL, matXvec_eq h hL]
  unfold conv
  rw [smul_eq_mul, Finset.mul_sum]
  refine Finset.sum_congr rfl fun j _ => ?_
  split
  · rw [diff_smul]; ring
  · simp

theorem sum_shift (N M j : Nat) (hMj : M + j ≤ N) (g : Nat → Nat → K) :
    (∑ i ∈ Finset.range N, if j ≤ i ∧ i - j < M then g i (i - j) else 0)
      = ∑ k ∈ Finset.range M, g (k + j) k := by
  rw [← Finset.sum_filter]
  refine (Finset.sum_nbij' (fun k => k + j) (fun i => i - j) ?_ ?_ ?_ ?_ ?_).symm
  · intro k hk
    have := Finset.mem_range.1 hk
    simp only [Finset.mem_filter, Finset.mem_range]
    omega
  · intro i hi
    simp only [Finset.mem_filter, Finset.mem_range] at hi ⊢
    omega
  · intro k hk; omega
  · intro i hi
    simp only [Finset.mem_filter, Finset.mem_range] at hi
    omega
  · intro k hk
    simp

/-- The matrix is the square of the difference operator. -/
theorem dot_matXvec (h : List K) (hL : 1 ≤ h.length) (hn : h.length ≤ n) (x y : Fin n → K) :
    y ⬝ᵥ matXvec h x = ∑ k ∈ Finset.range (n - (h.length - 1)), diff h y k * diff h x k := by
  have e1 : y ⬝ᵥ matXvec h x = ∑ i ∈ Finset.range n, ∑ j ∈ Finset.range h.length,
      if j ≤ i ∧ i - j < n - (h.length - 1) then ext y i * (diff h x (i - j) * h.getD j 0) else 0 := by
    rw [Finset.sum_range]
    refine Finset.sum_congr rfl fun i _ => ?_
    rw [matXvec_eq h hL, conv, Finset.mul_sum]
    refine Finset.sum_congr rfl fun j _ => ?_
    rw [ext_val]
    split <;> simp
  rw [e1, Finset.sum_comm]
  have e2 : ∀ j ∈ Finset.range h.length, (∑ i ∈ Finset.range n,
      if j ≤ i ∧ i - j < n - (h.length - 1) then ext y i * (diff h x (i - j) * h.getD j 0) else 0)
      = ∑ k ∈ Finset.range (n - (h.length - 1)), ext y (k + j) * (diff h x k * h.getD j 0) := by
    intro j hj
    have := Finset.mem_range.1 hj
    exact sum_shift n _ j (by omega) fun i k => ext y i * (diff h x k * h.getD j 0)
  rw [Finset.sum_congr rfl e2, Finset.sum_comm]
  refine Finset.sum_congr rfl fun k _ => ?_
  rw [show diff h y k = ∑ j ∈ Finset.range h.length, h.getD j 0 * ext y (k + j) from rfl,
    Finset.sum_mul]
  exact Finset.sum_congr rfl fun j _ => by ring

theorem ringMat_spd (h : List K) (hL : 1 ≤ h.length) (hn : h.length ≤ n) (alpha : K) (ha : 0 < alpha) :
    Spd (ringMat (n := n) h alpha) where
  add x y := by unfold ringMat; rw [matXvec_add h hL, smul_add]; abel
  smul c x := by unfold ringMat; rw [matXvec_smul h hL, smul_add, smul_comm]
  symm x y := by
    unfold ringMat
    rw [dotProduct_add, add_dotProduct, dot_matXvec h hL hn, dotProduct_comm (matXvec h x),
      dot_matXvec h hL hn, dotProduct_smul, smul_dotProduct]
    congr 1
    exact Finset.sum_congr rfl fun k _ => by ring
  pos x hx := by
    unfold ringMat at hx
    rw [dotProduct_add, dot_matXvec h hL hn, dotProduct_smul, smul_eq_mul] at hx
    have h1 : 0 ≤ ∑ k ∈ Finset.range (n - (h.length - 1)), diff h x k * diff h x k :=
      Finset.sum_nonneg fun k _ => mul_self_nonneg _
    have h2 := dot_self_nonneg x
    have h3 : 0 ≤ alpha * (x ⬝ᵥ x) := mul_nonneg ha.le h2
    have h4 : alpha * (x ⬝ᵥ x) = 0 := by linarith
    exact dot_self_eq_zero ((mul_eq_zero.1 h4).resolve_left (ne_of_gt ha))

/-! ### The correction -/

theorem dot_eq_sum_sq (q : Fin n → K) : q ⬝ᵥ q = ∑ i, q i ^ 2 :=
  Finset.sum_congr rfl fun i _ => by ring

/-- The cost is a quadratic function with the matrix of the system. -/
theorem cost_eq (h : List K) (hL : 1 ≤ h.length) (hn : h.length ≤ n) (alpha : K) (p q : Fin n → K) :
    cost h alpha p q = p ⬝ᵥ matXvec h p - 2 * (q ⬝ᵥ -matXvec h p) + q ⬝ᵥ ringMat h alpha q := by
  unfold cost ringMat
  rw [dotProduct_neg, dotProduct_add, dotProduct_smul, smul_eq_mul, dot_matXvec h hL hn,
    dot_matXvec h hL hn, dot_matXvec h hL hn, ← dot_eq_sum_sq]
  have : ∀ k, diff h (p + q) k ^ 2 = diff h p k * diff h p k + 2 * (diff h q k * diff h p k)
      + diff h q k * diff h q k := fun k => by rw [diff_add]; ring
  rw [Finset.sum_congr rfl fun k _ => this k, Finset.sum_add_distrib, Finset.sum_add_distrib,
    ← Finset.mul_sum]
  ring

/-- **C82** The vector returned by `_ringCGM` minimises the cost up to 1e-14 / alpha; the iteration
ends by itself for profiles of up to a million columns. -/
theorem cgm_optimal (h : List K) (hL : 1 ≤ h.length) (hn : h.length ≤ n) (hn' : n ≤ 1000000)
    (alpha : K) (ha : 0 < alpha) (p : Fin n → K)
    (hp : ∃ k < n - (h.length - 1), diff h p k ≠ 0) :
    ∃ q, ringCGM h alpha (-matXvec h p) = some q ∧
      ∀ q', cost h alpha p q ≤ cost h alpha p q' + 1 / 10 ^ 14 / alpha := by
  have hA := ringMat_spd (n := n) h hL hn alpha ha
  have hf : -matXvec h p ≠ 0 := by
    intro hz
    obtain ⟨k, hk, hd⟩ := hp
    have h1 : p ⬝ᵥ matXvec h p = 0 := by rw [neg_eq_zero.1 hz, dotProduct_zero]
    rw [dot_matXvec h hL hn] at h1
    have := (Finset.sum_eq_zero_iff_of_nonneg fun k _ => mul_self_nonneg (diff h p k)).1 h1 k
      (Finset.mem_range.2 hk)
    exact hd (mul_self_eq_zero.1 this)
  obtain ⟨q, e, hq⟩ := cgmWith_spec hA (1 / 10 ^ 14) (by positivity) 1000000 hn' hf
  refine ⟨q, e, fun q' => ?_⟩
  set f := -matXvec h p with hfd
  set r := f - ringMat h alpha q with hr
  set d := q' - q with hd
  have hq' : q' = q + d := by rw [hd]; simp
  have e1 : cost h alpha p q' = cost h alpha p q - 2 * (d ⬝ᵥ r) + d ⬝ᵥ ringMat h alpha d := by
    rw [cost_eq h hL hn, cost_eq h hL hn, ← hfd, hq', hA.add, hr, add_dotProduct, add_dotProduct,
      dotProduct_add, dotProduct_add, dotProduct_sub]
    have : q ⬝ᵥ ringMat h alpha d = d ⬝ᵥ ringMat h alpha q := by rw [hA.symm, dotProduct_comm]
    rw [this]; ring
  have e2 : alpha * (d ⬝ᵥ d) ≤ d ⬝ᵥ ringMat h alpha d := by
    unfold ringMat
    rw [dotProduct_add, dot_matXvec h hL hn, dotProduct_smul, smul_eq_mul]
    exact le_add_of_nonneg_left (Finset.sum_nonneg fun k _ => mul_self_nonneg _)
  have e3 : 0 ≤ (alpha • d - r) ⬝ᵥ (alpha • d - r) := dot_self_nonneg _
  have e4 : (alpha • d - r) ⬝ᵥ (alpha • d - r)
      = alpha * (alpha * (d ⬝ᵥ d)) - 2 * alpha * (d ⬝ᵥ r) + r ⬝ᵥ r := by
    clear_value r
    rw [sub_dotProduct, dotProduct_sub, dotProduct_sub, smul_dotProduct, smul_dotProduct,
      dotProduct_smul, dotProduct_smul, dotProduct_comm r d]
    simp only [smul_eq_mul]
    ring
  have e5 : 0 ≤ alpha * (d ⬝ᵥ d) - 2 * (d ⬝ᵥ r) + r ⬝ᵥ r / alpha := by
    have : alpha * (d ⬝ᵥ d) - 2 * (d ⬝ᵥ r) + r ⬝ᵥ r / alpha
        = (alpha • d - r) ⬝ᵥ (alpha • d - r) / alpha := by
      rw [e4]; field_simp
    rw [this]
    exact div_nonneg e3 ha.le
  have e6 : r ⬝ᵥ r / alpha ≤ 1 / 10 ^ 14 / alpha := by
    rw [div_le_div_iff_of_pos_right ha]; exact hq.le
  rw [e1]
  linarith

example : ∃ q, ringCGM ([1, -1] : List ℚ) (1 / 2)
    (-matXvec [1, -1] ![0, 0, 3, 0]) = some q ∧
      ∀ q', cost [1, -1] (1 / 2) ![0, 0, 3, 0] q
        ≤ cost [1, -1] (1 / 2) ![0, 0, 3, 0] q' + 1 / 10 ^ 14 / (1 / 2) :=
  cgm_optimal _ (by decide) (by decide) (by decide) _ (by norm_num) _
    ⟨1, by decide, by decide +kernel⟩

/-- **C82** If the profile has no differences at all, the result is NaN. -/
theorem cgm_flat_undefined (h : List K) (hL : 1 ≤ h.length) (hn : h.length ≤ n) (alpha : K)
    (ha : 0 < alpha) (p : Fin n → K) (hp : ∀ k < n - (h.length - 1), diff h p k = 0) :
    ringCGM h alpha (-matXvec h p) = none := by
  have hA := ringMat_spd (n := n) h hL hn alpha ha
  have : matXvec h p = 0 := by
    funext i
    rw [matXvec_eq h hL, conv]
    refine Finset.sum_eq_zero fun j _ => ?_
    split
    · rename_i hc; rw [hp _ hc.2, zero_mul]
    · rfl
  rw [this, neg_zero]
  exact cgmWith_zero hA _ _

/-! ### The parameter -/

theorem foldl_max_ge (l : List K) (b : K) : b ≤ l.foldl max b ∧ ∀ x ∈ l, x ≤ l.foldl max b := by
  induction l generalizing b with
  | nil => simp
  | cons c l ih =>
    obtain ⟨h1, h2⟩ := ih (max b c)
    refine ⟨le_trans (le_max_left _ _) h1, fun x hx => ?_⟩
    rcases List.mem_cons.1 hx with rfl | hx
    · exact le_trans (le_max_right _ _) h1
    · exact h2 x hx

theorem foldl_min_le (l : List K) (b : K) : l.foldl min b ≤ b ∧ ∀ x ∈ l, l.foldl min b ≤ x := by
  induction l generalizing b with
  | nil => simp
  | cons c l ih =>
    obtain ⟨h1, h2⟩ := ih (min b c)
    refine ⟨le_trans h1 (min_le_left _ _), fun x hx => ?_⟩
    rcases List.mem_cons.1 hx with rfl | hx
    · exact le_trans h1 (min_le_right _ _)
    · exact h2 x hx

theorem foldl_min_mem (l : List K) (b : K) : l.foldl min b = b ∨ l.foldl min b ∈ l := by
  induction l generalizing b with
  | nil => simp
  | cons c l ih =>
    rcases ih (min b c) with h | h
    · rcases min_choice b c with e | e
      · left; rw [List.foldl_cons, h, e]
      · right; rw [List.foldl_cons, h, e]; exact List.mem_cons_self ..
    · right; exact List.mem_cons_of_mem _ h

theorem foldl_max_mem (l : List K) (b : K) : l.foldl max b = b ∨ l.foldl max b ∈ l := by
  induction l generalizing b with
  | nil => simp
  | cons c l ih =>
    rcases ih (max b c) with h | h
    · rcases max_choice b c with e | e
      · left; rw [List.foldl_cons, h, e]
      · right; rw [List.foldl_cons, h, e]; exact List.mem_cons_self ..
    · right; exact List.mem_cons_of_mem _ h

/-- **C82** The regularisation parameter: positive, `1 / (2 (max - min))` of the sums over the
columns; undefined exactly when all sums are equal. -/
theorem parameter_spec (lo cnt : Nat) (hc : 0 < cnt) (X : Nat → Nat → K) :
    ((∀ t < cnt, ∑ i ∈ Finset.range n, X (lo + t) i = ∑ i ∈ Finset.range n, X lo i) →
      getParameter n lo cnt X = none) ∧
    ((∃ t < cnt, ∑ i ∈ Finset.range n, X (lo + t) i ≠ ∑ i ∈ Finset.range n, X lo i) →
      ∃ t1 < cnt, ∃ t2 < cnt, ∃ alpha, getParameter n lo cnt X = some alpha ∧ 0 < alpha ∧
        alpha * (2 * (∑ i ∈ Finset.range n, X (lo + t1) i - ∑ i ∈ Finset.range n, X (lo + t2) i)) = 1 ∧
        ∀ t < cnt, ∑ i ∈ Finset.range n, X (lo + t2) i ≤ ∑ i ∈ Finset.range n, X (lo + t) i ∧
          ∑ i ∈ Finset.range n, X (lo + t) i ≤ ∑ i ∈ Finset.range n, X (lo + t1) i) := by
  unfold getParameter maxOf minOf
  dsimp only
  set v := fun t => ∑ i ∈ Finset.range n, X (lo + t) i with hv
  set l := (List.range cnt).map v with hl
  have h0 : v 0 ∈ l := List.mem_map.2 ⟨0, List.mem_range.2 hc, rfl⟩
  have hmax : l.foldl max (v 0) ∈ l := by
    rcases foldl_max_mem l (v 0) with e | e
    · rw [e]; exact h0
    · exact e
  have hmin : l.foldl min (v 0) ∈ l := by
    rcases foldl_min_mem l (v 0) with e | e
    · rw [e]; exact h0
    · exact e
  obtain ⟨t1, ht1, e1⟩ := List.mem_map.1 hmax
  obtain ⟨t2, ht2, e2⟩ := List.mem_map.1 hmin
  have ht1 := List.mem_range.1 ht1
  have ht2 := List.mem_range.1 ht2
  have hbound : ∀ t < cnt, v t2 ≤ v t ∧ v t ≤ v t1 := fun t ht => by
    have hm : v t ∈ l := List.mem_map.2 ⟨t, List.mem_range.2 ht, rfl⟩
    exact ⟨e2 ▸ (foldl_min_le l (v 0)).2 _ hm, e1 ▸ (foldl_max_ge l (v 0)).2 _ hm⟩
  rw [← e1, ← e2]
  constructor
  · intro h
    have h' : ∀ t < cnt, v t = v 0 := fun t ht => h t ht
    rw [if_pos (by rw [h' t1 ht1, h' t2 ht2, sub_self])]
  · rintro ⟨t, ht, hne⟩
    have hne : v t ≠ v 0 := hne
    have hpos : 0 < v t1 - v t2 := by
      rcases lt_or_gt_of_ne hne with hlt | hlt
      · have := (hbound t ht).1; have := (hbound 0 hc).2; linarith
      · have := (hbound t ht).2; have := (hbound 0 hc).1; linarith
    refine ⟨t1, ht1, t2, ht2, _, if_neg (ne_of_gt hpos), by positivity, ?_, hbound⟩
    show 1 / (2 * (v t1 - v t2)) * (2 * (v t1 - v t2)) = 1
    field_simp

end Tomopy.Ti
