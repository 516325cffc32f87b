import Verif.Iter.PmlModel
import Verif.Iter.Osem
import Verif.Iter.Subsets
import Mathlib.Tactic.LinearCombination
import Mathlib.Tactic.FieldSimp

/-!
# Penalised maximum likelihood (C38)
-/

set_option linter.unusedSectionVars false

namespace Tomopy.Iter

open Function (update)

/-! ## Specifications -/

/-- The offsets (row, column) of the eight pixels around a pixel. -/
def offs8 : List (Int × Int) :=
  [(0, 1), (0, -1), (1, 0), (-1, 0), (1, 1), (1, -1), (-1, 1), (-1, -1)]

/-- The pixel at offset `o` of `(n, m)` is in the grid. -/
def InGrid (ngx ngy n m : Nat) (o : Int × Int) : Prop :=
  (o.1 = 1 → n + 1 < ngx) ∧ (o.1 = -1 → 1 ≤ n) ∧ (o.2 = 1 → m + 1 < ngy) ∧ (o.2 = -1 → 1 ≤ m)

instance (ngx ngy n m : Nat) (o : Int × Int) : Decidable (InGrid ngx ngy n m o) := by
  unfold InGrid; infer_instance

/-- Unnormalised weight: the inverse of the distance (1 or `√2`), 0 outside the grid. -/
noncomputable def rawW (ngx ngy n m : Nat) (o : Int × Int) : ℝ :=
  if InGrid ngx ngy n m o then (if o.1 = 0 ∨ o.2 = 0 then 1 else 1 / Real.sqrt 2) else 0

/-- The weighted mean of `v` over the neighbours of a pixel (weights inverse to the distance,
normalised to sum 1). -/
noncomputable def nbMean (ngx ngy n m : Nat) (v : Int × Int → ℝ) : ℝ :=
  (offs8.map fun o => rawW ngx ngy n m o * v o).sum / (offs8.map (rawW ngx ngy n m)).sum

/-- The value of the pixel at offset `o` of pixel `(n, m)` in the slice starting at `base`. -/
def nbPix (recon : Mem ℝ) (ngy base n m : Nat) (o : Int × Int) : ℝ :=
  recon (((n : Int) + o.1) * ngy + (m + o.2) + base).toNat

/-! ## The penalty loops -/

section penalty

variable (gv : ℝ → ℝ) (beta : ℝ) (ngy base : Nat) (recon : Mem ℝ)

/-- Address of a neighbour. -/
def nbAddr (ind0 : Nat) (nb : Nb) : Int := ((ind0 + base : Nat) : Int) + nb.1 * ngy + nb.2.1

/-- Contribution to `F`. -/
def fTerm (ind0 : Nat) (nb : Nb) : ℝ :=
  2 * beta * nb.2.2 * gv (recon (ind0 + base) - recon (nbAddr ngy base ind0 nb).toNat)

/-- Contribution to `G`. -/
def gTerm (ind0 : Nat) (nb : Nb) : ℝ :=
  -(2 * beta * nb.2.2 * gv (recon (ind0 + base) - recon (nbAddr ngy base ind0 nb).toNat) *
    (recon (ind0 + base) + recon (nbAddr ngy base ind0 nb).toNat))

theorem addAt_addAt (m : Mem ℝ) (i : Nat) (a b : ℝ) :
    addAt (addAt m i a) i b = addAt m i (a + b) := by
  unfold addAt
  funext x
  by_cases h : x = i
  · subst h; simp [add_assoc]
  · simp [h]

theorem addAt_zero (m : Mem ℝ) (i : Nat) : addAt m i 0 = m := by
  unfold addAt
  simp

theorem addAt_apply' (m : Mem ℝ) (i x : Nat) (a : ℝ) :
    addAt m i a x = m x + if i = x then a else 0 := by
  unfold addAt
  by_cases h : x = i
  · subst h; simp
  · have : ¬ i = x := fun e => h e.symm
    simp [h, this]

theorem penTask_eq {gam : ℝ → Option ℝ} (hgam : ∀ x, gam x = some (gv x)) (size ind0 : Nat) :
    ∀ (nbs : List Nb) (FG : Mem ℝ × Mem ℝ),
    (∀ nb ∈ nbs, 0 ≤ nbAddr ngy base ind0 nb ∧ nbAddr ngy base ind0 nb < size ∧
      ind0 + base < size) →
    penTask gam beta ngy size base recon FG (ind0, nbs) =
      some (addAt FG.1 ind0 (nbs.map (fTerm gv beta ngy base recon ind0)).sum,
        addAt FG.2 ind0 (nbs.map (gTerm gv beta ngy base recon ind0)).sum) := by
  intro nbs
  unfold penTask
  simp only
  induction nbs with
  | nil => intro FG _; simp [addAt_zero]
  | cons nb nbs ih =>
    intro FG h
    have e : penStep gam beta ngy size base recon ind0 FG nb =
        some (addAt FG.1 ind0 (fTerm gv beta ngy base recon ind0 nb),
          addAt FG.2 ind0 (gTerm gv beta ngy base recon ind0 nb)) := by
      unfold penStep
      have hb := h nb List.mem_cons_self
      unfold nbAddr at hb
      rw [if_pos hb, hgam]
      rfl
    rw [List.foldlM_cons, e]
    show List.foldlM _ _ nbs = _
    rw [ih _ (fun nb' h' => h nb' (List.mem_cons_of_mem _ h'))]
    simp only [addAt_addAt, List.map_cons, List.sum_cons]

theorem penalty_eq {gam : ℝ → Option ℝ} (hgam : ∀ x, gam x = some (gv x)) (size : Nat) :
    ∀ (ts : List (Nat × List Nb)) (FG : Mem ℝ × Mem ℝ),
    (∀ t ∈ ts, ∀ nb ∈ t.2, 0 ≤ nbAddr ngy base t.1 nb ∧ nbAddr ngy base t.1 nb < size ∧
      t.1 + base < size) →
    ∃ FG', ts.foldlM (penTask gam beta ngy size base recon) FG = some FG' ∧
      (∀ x, FG'.1 x = FG.1 x + (ts.map fun t => if t.1 = x then
        (t.2.map (fTerm gv beta ngy base recon t.1)).sum else 0).sum) ∧
      (∀ x, FG'.2 x = FG.2 x + (ts.map fun t => if t.1 = x then
        (t.2.map (gTerm gv beta ngy base recon t.1)).sum else 0).sum) := by
  intro ts
  induction ts with
  | nil => intro FG _; exact ⟨FG, rfl, by simp, by simp⟩
  | cons t ts ih =>
    intro FG h
    obtain ⟨ind0, nbs⟩ := t
    rw [List.foldlM_cons, penTask_eq gv beta ngy base recon hgam size ind0 nbs FG
      (h _ List.mem_cons_self)]
    obtain ⟨FG', h1, h2, h3⟩ := ih (addAt FG.1 ind0 (nbs.map (fTerm gv beta ngy base recon ind0)).sum,
        addAt FG.2 ind0 (nbs.map (gTerm gv beta ngy base recon ind0)).sum)
        (fun t' h' => h t' (List.mem_cons_of_mem _ h'))
    refine ⟨FG', h1, ?_, ?_⟩
    · intro x
      rw [h2 x]
      simp only [addAt_apply']
      simp only [List.map_cons, List.sum_cons]
      ring
    · intro x
      rw [h3 x]
      simp only [addAt_apply']
      simp only [List.map_cons, List.sum_cons]
      ring

end penalty

/-! ## Every pixel is visited exactly once with its own neighbours -/

theorem pix_eq_iff {ngy n m n' m' : Nat} (hm : m < ngy) (hm' : m' < ngy) :
    m' + n' * ngy = m + n * ngy ↔ n' = n ∧ m' = m := by
  constructor
  · intro h
    have h1 : (m' + n' * ngy) / ngy = (m + n * ngy) / ngy := by rw [h]
    rw [Nat.add_mul_div_right _ _ (by omega), Nat.add_mul_div_right _ _ (by omega),
      Nat.div_eq_of_lt hm, Nat.div_eq_of_lt hm'] at h1
    have h2 : n' = n := by omega
    subst h2
    exact ⟨rfl, by omega⟩
  · rintro ⟨rfl, rfl⟩; rfl

theorem list_sum_ite {l : List Nat} (hl : l.Nodup) (a : Nat) (c : ℝ) :
    (l.map fun x => if x = a then c else 0).sum = if a ∈ l then c else 0 := by
  induction l with
  | nil => simp
  | cons b l ih =>
    have hb := List.nodup_cons.mp hl
    rw [List.map_cons, List.sum_cons, ih hb.2]
    by_cases h : b = a
    · subst h; simp [hb.1]
    · have : ¬ a = b := fun e => h e.symm
      simp [h, this]

theorem region_sum {ngy : Nat} {rows cols : List Nat} (hr : rows.Nodup) (hc : cols.Nodup)
    (hcol : ∀ m ∈ cols, m < ngy) (nbs : List Nb) (A : Nat → List Nb → ℝ) {n m : Nat}
    (hm : m < ngy) :
    ((region ngy rows cols nbs).map fun t => if t.1 = m + n * ngy then A t.1 t.2 else 0).sum =
      if n ∈ rows ∧ m ∈ cols then A (m + n * ngy) nbs else 0 := by
  unfold region
  have e1 : ∀ n', (cols.map fun m' => if m' + n' * ngy = m + n * ngy then
      A (m' + n' * ngy) nbs else 0).sum = if n' = n then
        (if m ∈ cols then A (m + n * ngy) nbs else 0) else 0 := by
    intro n'
    by_cases h : n' = n
    · subst h
      rw [if_pos rfl, ← list_sum_ite hc]
      congr 1
      apply List.map_congr_left
      intro m' hm'
      by_cases h : m' = m
      · subst h; simp
      · rw [if_neg h, if_neg]
        rw [pix_eq_iff hm (hcol m' hm')]
        exact fun hh => h hh.2
    · rw [if_neg h]
      apply List.sum_eq_zero
      intro x hx
      obtain ⟨m', hm', rfl⟩ := List.mem_map.mp hx
      rw [if_neg]
      rw [pix_eq_iff hm (hcol m' hm')]
      exact fun hh => h hh.1
  rw [List.map_flatMap]
  simp only [List.map_map]
  have e2 : ∀ (l : List Nat), (List.flatMap (fun a => List.map ((fun t : Nat × List Nb =>
      if t.1 = m + n * ngy then A t.1 t.2 else 0) ∘ fun m' => (m' + a * ngy, nbs)) cols) l).sum =
      (l.map fun n' => if n' = n then
        (if m ∈ cols then A (m + n * ngy) nbs else 0) else 0).sum := by
    intro l
    induction l with
    | nil => rfl
    | cons a l ih =>
      rw [List.flatMap_cons, List.sum_append, ih, List.map_cons, List.sum_cons, ← e1 a]
      rfl
  rw [e2, list_sum_ite hr]
  by_cases h1 : n ∈ rows <;> by_cases h2 : m ∈ cols <;> simp [h1, h2]

theorem mem_innerRange {n k : Nat} : k ∈ innerRange n ↔ 1 ≤ k ∧ k + 1 < n := by
  unfold innerRange
  rw [List.mem_range']
  constructor
  · rintro ⟨i, hi, rfl⟩; omega
  · intro h; exact ⟨k - 1, by omega, by omega⟩

theorem nodup_innerRange (n : Nat) : (innerRange n).Nodup := List.nodup_range'

/-- The sum over all visits of the pixel `(n, m)` of a sum over the neighbours visited. -/
theorem tasks_sum {ngx ngy n m : Nat} (hx : 2 ≤ ngx) (hy : 2 ≤ ngy) (hn : n < ngx) (hm : m < ngy)
    (v : Int × Int → ℝ) (tm : Nat → Nb → ℝ)
    (htm : ∀ dn dm w, tm (m + n * ngy) (dn, dm, w) = w * v (dn, dm)) :
    ((penTasks ngx ngy).map fun t => if t.1 = m + n * ngy then (t.2.map (tm t.1)).sum else 0).sum =
      nbMean ngx ngy n m v := by
  have hs2 : (0 : ℝ) < Real.sqrt 2 := Real.sqrt_pos.mpr (by norm_num)
  have c0 : ∀ k ∈ [0], k < ngy := by intro k hk; simp at hk; omega
  have c1 : ∀ k ∈ [ngy - 1], k < ngy := by intro k hk; simp at hk; omega
  have c2 : ∀ k ∈ innerRange ngy, k < ngy := by intro k hk; have := mem_innerRange.mp hk; omega
  have s1 : ∀ k : Nat, [k].Nodup := fun k => List.nodup_singleton k
  unfold penTasks
  simp only [List.map_append, List.sum_append]
  have R := fun (rows cols : List Nat) (h1 : rows.Nodup) (h2 : cols.Nodup)
    (h3 : ∀ k ∈ cols, k < ngy) (nbs : List Nb) =>
    region_sum (n := n) h1 h2 h3 nbs (fun i l => (l.map (tm i)).sum) hm
  rw [R _ _ (nodup_innerRange _) (nodup_innerRange _) c2,
    R _ _ (s1 0) (nodup_innerRange _) c2, R _ _ (s1 _) (nodup_innerRange _) c2,
    R _ _ (nodup_innerRange _) (s1 _) c0, R _ _ (nodup_innerRange _) (s1 _) c1,
    R _ _ (s1 _) (s1 _) c0, R _ _ (s1 _) (s1 _) c1, R _ _ (s1 _) (s1 _) c0,
    R _ _ (s1 _) (s1 _) c1]
  have i0 : n ∈ [0] ↔ ¬ 1 ≤ n := by simp
  have i1 : n ∈ [ngx - 1] ↔ ¬ n + 1 < ngx := by simp; omega
  have i2 : m ∈ [0] ↔ ¬ 1 ≤ m := by simp
  have i3 : m ∈ [ngy - 1] ↔ ¬ m + 1 < ngy := by simp; omega
  simp only [i0, i1, i2, i3, mem_innerRange, List.map_cons, List.map_nil, List.sum_cons,
    List.sum_nil, htm]
  unfold nbMean offs8 rawW InGrid
  simp only [List.map_cons, List.map_nil, List.sum_cons, List.sum_nil]
  by_cases b1 : 1 ≤ n <;> by_cases b2 : n + 1 < ngx <;> by_cases b3 : 1 ≤ m <;>
    by_cases b4 : m + 1 < ngy <;> first | (exfalso; omega) | skip
  all_goals
    simp only [b1, b2, b3, b4, not_true_eq_false, not_false_eq_true, and_true, and_self,
      and_false, if_true, if_false, add_zero, zero_add]
    norm_num
    simp only [wInner, wEdge, wCorner]
    field_simp
    try ring

theorem mem_region {ngy : Nat} {rows cols : List Nat} {nbs : List Nb} {t : Nat × List Nb}
    (h : t ∈ region ngy rows cols nbs) :
    ∃ n ∈ rows, ∃ m ∈ cols, t = (m + n * ngy, nbs) := by
  unfold region at h
  obtain ⟨n, hn, h⟩ := List.mem_flatMap.mp h
  obtain ⟨m, hm, rfl⟩ := List.mem_map.mp h
  exact ⟨n, hn, m, hm, rfl⟩

/-- Every neighbour visited is in the grid. -/
theorem tasks_inGrid {ngx ngy : Nat} (hx : 2 ≤ ngx) (hy : 2 ≤ ngy) {t : Nat × List Nb}
    (ht : t ∈ penTasks ngx ngy) :
    ∃ n < ngx, ∃ m < ngy, t.1 = m + n * ngy ∧ ∀ nb ∈ t.2,
      0 ≤ (n : Int) + nb.1 ∧ (n : Int) + nb.1 < ngx ∧ 0 ≤ (m : Int) + nb.2.1 ∧
        (m : Int) + nb.2.1 < ngy := by
  unfold penTasks at ht
  simp only [List.mem_append] at ht
  rcases ht with (((((((ht | ht) | ht) | ht) | ht) | ht) | ht) | ht) | ht <;>
  · obtain ⟨n, hn, m, hm, rfl⟩ := mem_region ht
    simp only [mem_innerRange, List.mem_singleton] at hn hm
    refine ⟨n, by omega, m, by omega, rfl, ?_⟩
    simp only [List.forall_mem_cons, List.not_mem_nil, false_implies, implies_true, and_true]
    omega

theorem grid_addr {ngx ngy dy s : Nat} (hs : s < dy) {a b : Int} (ha : 0 ≤ a) (ha' : a < ngx)
    (hb : 0 ≤ b) (hb' : b < ngy) :
    0 ≤ b + a * ngy + ((s * (ngx * ngy) : Nat) : Int) ∧
      b + a * ngy + ((s * (ngx * ngy) : Nat) : Int) < ((dy * (ngx * ngy) : Nat) : Int) := by
  obtain ⟨a, rfl⟩ := Int.eq_ofNat_of_zero_le ha
  obtain ⟨b, rfl⟩ := Int.eq_ofNat_of_zero_le hb
  have h1 : a < ngx := by exact_mod_cast ha'
  have h2 : b < ngy := by exact_mod_cast hb'
  constructor
  · positivity
  · have h3 : (a + 1) * ngy ≤ ngx * ngy := Nat.mul_le_mul_right _ h1
    have h4 : (s + 1) * (ngx * ngy) ≤ dy * (ngx * ngy) := Nat.mul_le_mul_right _ hs
    have e3 : (a + 1) * ngy = a * ngy + ngy := by ring
    have e4 : (s + 1) * (ngx * ngy) = s * (ngx * ngy) + ngx * ngy := by ring
    have : b + a * ngy + s * (ngx * ngy) < dy * (ngx * ngy) := by omega
    exact_mod_cast this

/-- **C38** (memory): on grids of at least 2 x 2 pixels every neighbour read by the penalty loops
is inside the image, whatever slice. -/
theorem tasks_in_bounds {ngx ngy dy s : Nat} (hx : 2 ≤ ngx) (hy : 2 ≤ ngy) (hs : s < dy)
    {t : Nat × List Nb} (ht : t ∈ penTasks ngx ngy) :
    ∀ nb ∈ t.2, 0 ≤ nbAddr ngy (s * (ngx * ngy)) t.1 nb ∧
      nbAddr ngy (s * (ngx * ngy)) t.1 nb < (dy * (ngx * ngy) : Nat) ∧
      t.1 + s * (ngx * ngy) < dy * (ngx * ngy) := by
  obtain ⟨n, hn, m, hm, h1, h2⟩ := tasks_inGrid hx hy ht
  intro nb hnb
  obtain ⟨b1, b2, b3, b4⟩ := h2 nb hnb
  have h3 := grid_addr hs b1 b2 b3 b4
  have h4 := grid_addr (ngx := ngx) (ngy := ngy) hs (Int.natCast_nonneg n) (by exact_mod_cast hn)
    (Int.natCast_nonneg m) (by exact_mod_cast hm)
  have e : nbAddr ngy (s * (ngx * ngy)) t.1 nb =
      (m : Int) + nb.2.1 + ((n : Int) + nb.1) * ngy + ((s * (ngx * ngy) : Nat) : Int) := by
    unfold nbAddr
    rw [h1]
    push_cast
    ring
  rw [e]
  refine ⟨h3.1, h3.2, ?_⟩
  rw [h1]
  exact_mod_cast h4.2

/-! ## The quadratic -/

/-- The root taken by the code. -/
noncomputable def pmlRoot (E F G : ℝ) : ℝ := (-G + Real.sqrt (G * G - 8 * E * F)) / (4 * F)

theorem disc_nonneg {E F : ℝ} (G : ℝ) (hE : E ≤ 0) (hF : 0 < F) : 0 ≤ G * G - 8 * E * F := by
  nlinarith [mul_self_nonneg G, mul_nonneg (neg_nonneg.mpr hE) hF.le]

theorem pmlRoot_solves {E F : ℝ} (G : ℝ) (hE : E ≤ 0) (hF : 0 < F) :
    2 * F * pmlRoot E F G ^ 2 + G * pmlRoot E F G + E = 0 := by
  have h := Real.mul_self_sqrt (disc_nonneg G hE hF)
  unfold pmlRoot
  obtain ⟨w, hw⟩ : ∃ w, w = Real.sqrt (G * G - 8 * E * F) := ⟨_, rfl⟩
  rw [← hw] at h ⊢
  have hF' : F ≠ 0 := hF.ne'
  field_simp
  linear_combination 2 * h

theorem pmlRoot_nonneg {E F : ℝ} (G : ℝ) (hE : E ≤ 0) (hF : 0 < F) : 0 ≤ pmlRoot E F G := by
  unfold pmlRoot
  have h1 : G ≤ Real.sqrt (G * G - 8 * E * F) := by
    apply Real.le_sqrt_of_sq_le
    nlinarith [mul_nonneg (neg_nonneg.mpr hE) hF.le]
  exact div_nonneg (by linarith) (by linarith)

theorem pmlRoot_pos {E F G : ℝ} (hE : E ≤ 0) (hF : 0 < F) (h : E < 0 ∨ G < 0) :
    0 < pmlRoot E F G := by
  rcases (pmlRoot_nonneg G hE hF).lt_or_eq with h0 | h0
  · exact h0
  · exfalso
    have h1 := pmlRoot_solves G hE hF
    rw [← h0] at h1
    have hE0 : E = 0 := by nlinarith
    rcases h with h | h
    · linarith
    · unfold pmlRoot at h0
      rw [hE0] at h0
      have e : G * G - 8 * 0 * F = (-G) ^ 2 := by ring
      rw [e, Real.sqrt_sq (by linarith)] at h0
      have : 0 < (-G + -G) / (4 * F) := div_pos (by linarith) (by linarith)
      linarith

/-- The only positive solution. -/
theorem pmlRoot_unique {E F G y : ℝ} (hE : E ≤ 0) (hF : 0 < F) (hy : 0 < y)
    (h : 2 * F * y ^ 2 + G * y + E = 0) : y = pmlRoot E F G := by
  have h1 : 0 ≤ 2 * F * y + G := by
    by_contra hc
    have : (2 * F * y + G) * y < 0 := mul_neg_of_neg_of_pos (by linarith) hy
    nlinarith
  have h2 : 0 ≤ 4 * F * y + G := by nlinarith [mul_pos hF hy]
  have h3 : G * G - 8 * E * F = (4 * F * y + G) ^ 2 := by
    have : E = -(2 * F * y ^ 2 + G * y) := by linarith
    rw [this]; ring
  unfold pmlRoot
  rw [h3, Real.sqrt_sq h2]
  field_simp
  ring

/-! ## The end of a subset -/

theorem nbMean_mul (ngx ngy n m : Nat) (c : ℝ) (v : Int × Int → ℝ) :
    nbMean ngx ngy n m (fun o => c * v o) = c * nbMean ngx ngy n m v := by
  unfold nbMean
  rw [← mul_div_assoc, ← List.sum_map_mul_left]
  congr 3
  funext o
  ring

theorem rawW_nonneg (ngx ngy n m : Nat) (o : Int × Int) : 0 ≤ rawW ngx ngy n m o := by
  unfold rawW
  split
  · split
    · norm_num
    · positivity
  · exact le_refl _

theorem exists_nb {ngx ngy n m : Nat} (hx : 2 ≤ ngx) (hn : n < ngx) :
    ∃ o ∈ offs8, 0 < rawW ngx ngy n m o := by
  by_cases h : n + 1 < ngx
  · refine ⟨(1, 0), by simp [offs8], ?_⟩
    unfold rawW InGrid
    simp [h]
  · refine ⟨(-1, 0), by simp [offs8], ?_⟩
    unfold rawW InGrid
    have : 1 ≤ n := by omega
    simp only [this]
    norm_num

theorem nbMean_pos {ngx ngy n m : Nat} (hx : 2 ≤ ngx) (hn : n < ngx) {v : Int × Int → ℝ}
    (hv : ∀ o ∈ offs8, InGrid ngx ngy n m o → 0 < v o) : 0 < nbMean ngx ngy n m v := by
  obtain ⟨o, ho, hpos⟩ := exists_nb (ngy := ngy) (m := m) hx hn
  have hin : ∀ o, 0 < rawW ngx ngy n m o → InGrid ngx ngy n m o := by
    intro o h
    by_contra hc
    unfold rawW at h
    rw [if_neg hc] at h
    exact lt_irrefl _ h
  unfold nbMean
  apply div_pos
  · refine list_sum_pos_of _ _ (fun o ho => ?_) ho (mul_pos hpos (hv o ho (hin o hpos)))
    rcases (rawW_nonneg ngx ngy n m o).lt_or_eq with h | h
    · exact (mul_pos h (hv o ho (hin o h))).le
    · rw [← h, zero_mul]
  · exact list_sum_pos_of _ _ (fun o _ => rawW_nonneg ngx ngy n m o) ho hpos

/-- The weights sum to 1. -/
theorem nbMean_const {ngx ngy n m : Nat} (hx : 2 ≤ ngx) (hn : n < ngx) (c : ℝ) :
    nbMean ngx ngy n m (fun _ => c) = c := by
  obtain ⟨o, ho, hpos⟩ := exists_nb (ngy := ngy) (m := m) hx hn
  have h : 0 < (offs8.map (rawW ngx ngy n m)).sum :=
    list_sum_pos_of _ _ (fun o _ => rawW_nonneg ngx ngy n m o) ho hpos
  unfold nbMean
  rw [List.sum_map_mul_right]
  field_simp

theorem nbMean_congr {ngx ngy n m : Nat} {v v' : Int × Int → ℝ}
    (h : ∀ o ∈ offs8, InGrid ngx ngy n m o → v o = v' o) :
    nbMean ngx ngy n m v = nbMean ngx ngy n m v' := by
  unfold nbMean
  congr 2
  apply List.map_congr_left
  intro o ho
  by_cases hi : InGrid ngx ngy n m o
  · rw [h o ho hi]
  · unfold rawW
    rw [if_neg hi, zero_mul, zero_mul]

/-- Specification of `F`: twice the regularisation times the mean of the factor over the
neighbours. -/
noncomputable def specF (gv : ℝ → ℝ) (beta : ℝ) (ngx ngy base : Nat) (r : Mem ℝ) (n m : Nat) : ℝ :=
  2 * beta * nbMean ngx ngy n m fun o => gv (r (m + n * ngy + base) - nbPix r ngy base n m o)

/-- Specification of the penalty part of `-G`. -/
noncomputable def specG (gv : ℝ → ℝ) (beta : ℝ) (ngx ngy base : Nat) (r : Mem ℝ) (n m : Nat) : ℝ :=
  2 * beta * nbMean ngx ngy n m fun o => gv (r (m + n * ngy + base) - nbPix r ngy base n m o) *
    (r (m + n * ngy + base) + nbPix r ngy base n m o)

theorem nbAddr_eq (ngy base n m : Nat) (dn dm : Int) (w : ℝ) :
    nbAddr ngy base (m + n * ngy) (dn, dm, w) = ((n : Int) + dn) * ngy + (m + dm) + base := by
  unfold nbAddr
  push_cast
  ring

/-- The penalty loops compute the weighted means over the (in-grid) neighbours. -/
theorem penalty_spec {gam : ℝ → Option ℝ} {gv : ℝ → ℝ} (hgam : ∀ x, gam x = some (gv x))
    (beta : ℝ) {ngx ngy dy s : Nat} (hx : 2 ≤ ngx) (hy : 2 ≤ ngy) (hs : s < dy) (r : Mem ℝ) :
    ∃ FG, (penTasks ngx ngy).foldlM
        (penTask gam beta ngy (dy * (ngx * ngy)) (s * (ngx * ngy)) r) (zeros, zeros) = some FG ∧
      ∀ n < ngx, ∀ m < ngy,
        FG.1 (m + n * ngy) = specF gv beta ngx ngy (s * (ngx * ngy)) r n m ∧
        FG.2 (m + n * ngy) = - specG gv beta ngx ngy (s * (ngx * ngy)) r n m := by
  obtain ⟨FG, h1, h2, h3⟩ := penalty_eq gv beta ngy (s * (ngx * ngy)) r hgam (dy * (ngx * ngy))
    (penTasks ngx ngy) (zeros, zeros) (fun t ht => tasks_in_bounds hx hy hs ht)
  refine ⟨FG, h1, ?_⟩
  intro n hn m hm
  constructor
  · rw [h2, tasks_sum hx hy hn hm (fun o => 2 * beta *
      gv (r (m + n * ngy + s * (ngx * ngy)) - nbPix r ngy (s * (ngx * ngy)) n m o))]
    · unfold specF
      rw [nbMean_mul]
      simp [zeros]
    · intro dn dm w
      unfold fTerm nbPix
      rw [nbAddr_eq]
      ring
  · rw [h3, tasks_sum hx hy hn hm (fun o => -(2 * beta) *
      (gv (r (m + n * ngy + s * (ngx * ngy)) - nbPix r ngy (s * (ngx * ngy)) n m o) *
        (r (m + n * ngy + s * (ngx * ngy)) + nbPix r ngy (s * (ngx * ngy)) n m o)))]
    · unfold specG
      rw [nbMean_mul]
      simp [zeros]
    · intro dn dm w
      unfold gTerm nbPix
      rw [nbAddr_eq]
      ring

theorem foldlM_some {α β : Type} (f : α → β → Option α) (h : α → β → α) :
    ∀ (l : List β) (a : α), (∀ b ∈ l, ∀ a, f a b = some (h a b)) →
      l.foldlM f a = some (l.foldl h a) := by
  intro l
  induction l with
  | nil => intro a _; rfl
  | cons b l ih =>
    intro a hf
    rw [List.foldlM_cons, hf b List.mem_cons_self a]
    exact ih _ fun b' hb' => hf b' (List.mem_cons_of_mem _ hb')

/-- Pixels of the grid as flat indices. -/
theorem exists_pix {ngx ngy q : Nat} (h : q < ngx * ngy) :
    ∃ n < ngx, ∃ m < ngy, q = m + n * ngy := by
  have hy : 0 < ngy := by
    rcases Nat.eq_zero_or_pos ngy with e | e
    · subst e; simp at h
    · exact e
  exact ⟨q / ngy, by rw [Nat.div_lt_iff_lt_mul hy]; exact h, q % ngy, Nat.mod_lt _ hy,
    by rw [Nat.mul_comm]; exact (Nat.mod_add_div q ngy).symm⟩

theorem pmlFin_apply {gam : ℝ → Option ℝ} {gv : ℝ → ℝ} (hgam : ∀ x, gam x = some (gv x))
    (hgv : ∀ x, 0 < gv x) {beta : ℝ} (hb : 0 < beta) {D : Dims} {ngx ngy : Nat}
    (hN : D.N = ngx * ngy) (hx : 2 ≤ ngx) (hy : 2 ≤ ngy) {s : Nat} (hs : s < D.dy) (a : Acc ℝ)
    (r : Mem ℝ) (hE : ∀ q < D.N, a.upd q ≤ 0) :
    ∃ r', pmlFin gam beta D ngx ngy s a r = some r' ∧
      (∀ n < ngx, ∀ m < ngy, r' (m + n * ngy + s * D.N) =
        pmlRoot (a.upd (m + n * ngy)) (specF gv beta ngx ngy (s * D.N) r n m)
          (a.sumd (m + n * ngy) - specG gv beta ngx ngy (s * D.N) r n m)) ∧
      (∀ x, ¬ (s * D.N ≤ x ∧ x < s * D.N + D.N) → r' x = r x) := by
  obtain ⟨FG, h1, h2⟩ := penalty_spec hgam beta hx hy hs r
  rw [← hN] at h1 h2
  have hF : ∀ q < D.N, 0 < FG.1 q := by
    intro q hq
    rw [hN] at hq
    obtain ⟨n, hn, m, hm, rfl⟩ := exists_pix hq
    rw [(h2 n hn m hm).1]
    unfold specF
    exact mul_pos (by linarith) (nbMean_pos hx hn fun o _ _ => hgv _)
  have e : (List.range D.N).foldlM
      (pmlPixel s D.N a.upd FG.1 (fun n => FG.2 n + a.sumd n)) r =
      some ((List.range D.N).foldl (fun r q => update r (q + s * D.N)
        ((fun q _ => pmlRoot (a.upd q) (FG.1 q) (FG.2 q + a.sumd q)) q (r (q + s * D.N)))) r) := by
    apply foldlM_some
    intro q hq r
    have hq' := List.mem_range.mp hq
    unfold pmlPixel pmlRoot
    rw [if_pos (hF q hq').ne', if_neg (not_lt.mpr (disc_nonneg _ (hE q hq') (hF q hq')))]
  have hpix := foldl_pixels (fun q _ => pmlRoot (a.upd q) (FG.1 q) (FG.2 q + a.sumd q))
    (s * D.N) D.N r
  refine ⟨(List.range D.N).foldl (fun r q => update r (q + s * D.N)
    (pmlRoot (a.upd q) (FG.1 q) (FG.2 q + a.sumd q))) r, ?_, ?_, ?_⟩
  · unfold pmlFin
    rw [h1]
    exact e
  · intro n hn m hm
    have hlt : m + n * ngy < D.N := by
      rw [hN]
      have : (n + 1) * ngy ≤ ngx * ngy := Nat.mul_le_mul_right _ hn
      have e3 : (n + 1) * ngy = n * ngy + ngy := by ring
      omega
    refine (hpix _).trans ?_
    rw [if_pos (by omega), Nat.add_sub_cancel, (h2 n hn m hm).1, (h2 n hn m hm).2]
    congr 1
    ring
  · intro x hx
    refine (hpix _).trans ?_
    rw [if_neg hx]

theorem pmlFin_ok (gam : ℝ → Option ℝ) (beta : ℝ) (D : Dims) (ngx ngy : Nat) :
    FinOk (pmlFin gam beta D ngx ngy) := by
  intro s a b r h1 h2
  unfold pmlFin
  rw [h1, h2]

/-! ## One subset -/

/-- The total length in pixel `n` of the rays of a subset (specification). -/
noncomputable def subLen (D : Dims) (g : Geom ℝ) (s : Nat) (ps : List Nat) (n : Nat) : ℝ :=
  ((raysOf D.dx ps).map fun q => lenIn (g s q.1 q.2) n).sum

/-- The back-projected ratios of data and line integrals (specification). -/
noncomputable def subRatio (D : Dims) (g : Geom ℝ) (data r : Mem ℝ) (s : Nat) (ps : List Nat)
    (n : Nat) : ℝ :=
  ((raysOf D.dx ps).map fun q => if sumDist2 (g s q.1 q.2) ≠ 0 then
    data (D.data s q.1 q.2) / lineSum D.N s (g s q.1 q.2) r * lenIn (g s q.1 q.2) n else 0).sum

theorem subLen_nonneg {D : Dims} {g : Geom ℝ} (hg : GeomOk D g) {s : Nat} (hs : s < D.dy)
    {ps : List Nat} (hps : ∀ p ∈ ps, p < D.dt) (n : Nat) : 0 ≤ subLen D g s ps n :=
  list_sum_nonneg_of _ _ fun _ hq =>
    lenIn_nonneg (hg s hs _ (hps _ (mem_raysOf.mp hq).1) _ (mem_raysOf.mp hq).2) n

/-- **C38**: one subset update with positive regularisation, non-negative data and image and
non-zero line integrals along the rays that hit the image is defined (the square root is real),
and the new value of every pixel is non-negative and solves `2 F x² + G x + E = 0` with
`E = -x_old · (back-projected ratios)`, `F` and `G` from the weighted neighbourhood; no positive
solution other than the new value exists. -/
theorem ospml_block {gam : ℝ → Option ℝ} {gv : ℝ → ℝ} (hgam : ∀ x, gam x = some (gv x))
    (hgv : ∀ x, 0 < gv x) {beta : ℝ} (hb : 0 < beta) {D : Dims} {ngx ngy : Nat}
    (hN : D.N = ngx * ngy) (hx : 2 ≤ ngx) (hy : 2 ≤ ngy) {g : Geom ℝ} {data : Mem ℝ}
    (hg : GeomOk D g) {s : Nat} (hs : s < D.dy) {ps : List Nat} (hnd : ps.Nodup)
    (hps : ∀ p ∈ ps, p < D.dt) {r : Mem ℝ}
    (hd : ∀ p ∈ ps, ∀ d < D.dx, 0 ≤ data (D.data s p d))
    (hr : ∀ n < D.N, 0 ≤ r (n + s * D.N))
    (hsim : ∀ p ∈ ps, ∀ d < D.dx, sumDist2 (g s p d) ≠ 0 → lineSum D.N s (g s p d) r ≠ 0) :
    ∃ r', pureBlock pmlMethod (pmlFin gam beta D ngx ngy) D g data s ps r = some r' ∧
      (∀ n < ngx, ∀ m < ngy, ∀ E F G, E = -(r (m + n * ngy + s * D.N) *
          subRatio D g data r s ps (m + n * ngy)) → F = specF gv beta ngx ngy (s * D.N) r n m →
        G = subLen D g s ps (m + n * ngy) - specG gv beta ngx ngy (s * D.N) r n m →
        0 ≤ r' (m + n * ngy + s * D.N) ∧
        2 * F * r' (m + n * ngy + s * D.N) ^ 2 + G * r' (m + n * ngy + s * D.N) + E = 0 ∧
        (∀ y, 0 < y → 2 * F * y ^ 2 + G * y + E = 0 → y = r' (m + n * ngy + s * D.N)) ∧
        (E < 0 ∨ G < 0 → 0 < r' (m + n * ngy + s * D.N))) ∧
      (∀ x, ¬ (s * D.N ≤ x ∧ x < s * D.N + D.N) → r' x = r x) := by
  obtain ⟨a, h1, h2, h3⟩ := pureBlock_spec (mt := pmlMethod) (fin := pmlFin gam beta D ngx ngy)
    (g := g) (data := data) (s := s) hnd hps r
    (fun p d => data (D.data s p d) / lineSum D.N s (g s p d) r) (by
      intro p hp d hdx h
      simp only [pmlMethod]
      rw [if_neg (hsim p hp d hdx h)])
  have hupd : ∀ n, a.upd n = -(r (n + s * D.N) * subRatio D g data r s ps n) := by
    intro n
    rw [h3 n]
    unfold subRatio
    rw [← neg_mul, ← List.sum_map_mul_left]
    congr 1
    apply List.map_congr_left
    intro q _
    rw [updIn_mul pmlMethod (fun v u => -(v * u)) (fun v u e => by simp only [pmlMethod]; ring)]
    split
    · ring
    · ring
  have hrat : ∀ n, 0 ≤ subRatio D g data r s ps n := by
    intro n
    refine list_sum_nonneg_of _ _ fun q hq => ?_
    have hm := mem_raysOf.mp hq
    have hok := hg s hs _ (hps _ hm.1) _ hm.2
    split
    · refine mul_nonneg (div_nonneg (hd _ hm.1 _ hm.2) ?_) (lenIn_nonneg hok n)
      unfold lineSum
      exact list_sum_nonneg_of _ _ fun e he => mul_nonneg (hr _ (hok e he).1) (hok e he).2
    · exact le_refl _
  have hE : ∀ q < D.N, a.upd q ≤ 0 := by
    intro q hq
    rw [hupd q]
    linarith [mul_nonneg (hr q hq) (hrat q)]
  obtain ⟨r', h4, h5, h6⟩ := pmlFin_apply hgam hgv hb hN hx hy hs a r hE
  refine ⟨r', by rw [h1, h4], ?_, h6⟩
  intro n hn m hm E F G eE eF eG
  have hlt : m + n * ngy < D.N := by
    rw [hN]
    have : (n + 1) * ngy ≤ ngx * ngy := Nat.mul_le_mul_right _ hn
    have e3 : (n + 1) * ngy = n * ngy + ngy := by ring
    omega
  have hEn := hE _ hlt
  have hF : 0 < F := by
    rw [eF]
    unfold specF
    exact mul_pos (by linarith) (nbMean_pos hx hn fun o _ _ => hgv _)
  have e : r' (m + n * ngy + s * D.N) = pmlRoot E F G := by
    rw [h5 n hn m hm, ← eF, hupd, ← eE, h2, eG]
    rfl
  rw [hupd, ← eE] at hEn
  rw [e]
  exact ⟨pmlRoot_nonneg G hEn hF, pmlRoot_solves G hEn hF,
    fun y hy h => pmlRoot_unique hEn hF hy h, pmlRoot_pos hEn hF⟩

theorem nbPix_slice {D : Dims} {ngx ngy n m s : Nat} (hN : D.N = ngx * ngy) (hn : n < ngx)
    (hm : m < ngy) (r : Mem ℝ) {o : Int × Int} (ho : o ∈ offs8) (hi : InGrid ngx ngy n m o) :
    ∃ q < D.N, nbPix r ngy (s * D.N) n m o = r (q + s * D.N) := by
  have h : 0 ≤ (n : Int) + o.1 ∧ (n : Int) + o.1 < ngx ∧ 0 ≤ (m : Int) + o.2 ∧
      (m : Int) + o.2 < ngy := by
    unfold InGrid at hi
    simp only [offs8, List.mem_cons, List.not_mem_nil, or_false] at ho
    rcases ho with rfl | rfl | rfl | rfl | rfl | rfl | rfl | rfl <;> simp at hi ⊢ <;> omega
  obtain ⟨a, ha⟩ := Int.eq_ofNat_of_zero_le h.1
  obtain ⟨b, hb⟩ := Int.eq_ofNat_of_zero_le h.2.2.1
  have h1 : a < ngx := by have := h.2.1; omega
  have h2 : b < ngy := by have := h.2.2.2; omega
  refine ⟨b + a * ngy, ?_, ?_⟩
  · rw [hN]
    have : (a + 1) * ngy ≤ ngx * ngy := Nat.mul_le_mul_right _ h1
    have e3 : (a + 1) * ngy = a * ngy + ngy := by ring
    omega
  · unfold nbPix
    rw [ha, hb]
    congr 1
    have : ((a : Int) * (ngy : Int) + (b : Int) + ((s * D.N : Nat) : Int)) =
        ((b + a * ngy + s * D.N : Nat) : Int) := by
      push_cast
      ring
    rw [this, Int.toNat_natCast]

theorem ospml_block_pos {gam : ℝ → Option ℝ} {gv : ℝ → ℝ} (hgam : ∀ x, gam x = some (gv x))
    (hgv : ∀ x, 0 < gv x) {beta : ℝ} (hb : 0 < beta) {D : Dims} {ngx ngy : Nat}
    (hN : D.N = ngx * ngy) (hx : 2 ≤ ngx) (hy : 2 ≤ ngy) {g : Geom ℝ} {data : Mem ℝ}
    (hg : GeomOk D g) (hd : PosData D data) {s : Nat} (hs : s < D.dy) {ps : List Nat}
    (hnd : ps.Nodup) (hps : ∀ p ∈ ps, p < D.dt) {r : Mem ℝ} (hr : PosImage D r) :
    ∃ r', pureBlock pmlMethod (pmlFin gam beta D ngx ngy) D g data s ps r = some r' ∧
      PosImage D r' := by
  have hsim : ∀ p ∈ ps, ∀ d < D.dx, sumDist2 (g s p d) ≠ 0 → 0 < lineSum D.N s (g s p d) r :=
    fun p hp d hdx h => lineSum_pos (hg s hs p (hps p hp) d hdx) (hr s hs) h
  obtain ⟨r', h1, h2, h3⟩ := ospml_block hgam hgv hb hN hx hy hg hs hnd hps
    (fun p hp d hdx => (hd s hs p (hps p hp) d hdx).le) (fun n hn => (hr s hs n hn).le)
    (fun p hp d hdx h => (hsim p hp d hdx h).ne')
  refine ⟨r', h1, ?_⟩
  intro s' hs' q hq
  by_cases e : s' = s
  · subst e
    obtain ⟨n, hn, m, hm, rfl⟩ := exists_pix (hN ▸ hq)
    refine (h2 n hn m hm _ _ _ rfl rfl rfl).2.2.2 ?_
    have hG : 0 < specG gv beta ngx ngy (s' * D.N) r n m := by
      unfold specG
      refine mul_pos (by linarith) (nbMean_pos hx hn fun o ho hi => mul_pos (hgv _) ?_)
      obtain ⟨q', hq', e⟩ := nbPix_slice (s := s') hN hn hm r ho hi
      rw [e]
      exact add_pos (hr s' hs' _ hq) (hr s' hs' _ hq')
    rcases (subLen_nonneg hg hs' hps (m + n * ngy)).lt_or_eq with h | h
    · left
      have hne : subLen D g s' ps (m + n * ngy) ≠ 0 := h.ne'
      obtain ⟨p, hpm, hpl⟩ := exists_ne_of_sum_ne _ _ hne
      have hmm := mem_raysOf.mp hpm
      have hok : ∀ q ∈ raysOf D.dx ps, SegsOk D.N (g s' q.1 q.2) := fun q hq =>
        hg s' hs' _ (hps _ (mem_raysOf.mp hq).1) _ (mem_raysOf.mp hq).2
      have hl0 := sumDist2_ne_of_lenIn hpl
      have hpos : 0 < lenIn (g s' p.1 p.2) (m + n * ngy) :=
        lt_of_le_of_ne (lenIn_nonneg (hok p hpm) _) (Ne.symm hpl)
      have hrat : 0 < subRatio D g data r s' ps (m + n * ngy) := by
        refine list_sum_pos_of _ _ (fun q hq' => ?_) hpm ?_
        · have hm' := mem_raysOf.mp hq'
          split
          · rename_i h0
            exact mul_nonneg (div_nonneg (hd s' hs' _ (hps _ hm'.1) _ hm'.2).le
              (hsim _ hm'.1 _ hm'.2 h0).le) (lenIn_nonneg (hok q hq') _)
          · exact le_refl _
        · rw [if_pos hl0]
          exact mul_pos (div_pos (hd s' hs' _ (hps _ hmm.1) _ hmm.2)
            (hsim _ hmm.1 _ hmm.2 hl0)) hpos
      linarith [mul_pos (hr s' hs' _ hq) hrat]
    · right
      rw [← h]
      linarith
  · rw [h3 _ (other_slice hq e)]
    exact hr s' hs' q hq

/-! ## The whole algorithm -/

/-- **C38**: from a positive image with positive data and positive regularisation, `ospml_*` never
takes the square root of a negative number, never divides by zero and never reads outside the
image, and its result is positive, for every geometry, grid of at least 2 x 2 pixels, number of
iterations and blocks. -/
theorem ospml_positive {gam : ℝ → Option ℝ} {gv : ℝ → ℝ} (hgam : ∀ x, gam x = some (gv x))
    (hgv : ∀ x, 0 < gv x) {beta : ℝ} (hb : 0 < beta) {D : Dims} {ngx ngy : Nat}
    (hN : D.N = ngx * ngy) (hx : 2 ≤ ngx) (hy : 2 ≤ ngy) {g : Geom ℝ} {data : Mem ℝ}
    (hg : GeomOk D g) (hd : PosData D data) {num_iter nb : Nat} {ind : List Nat}
    (hba : BlockArgs D.dt nb ind) {recon : Mem ℝ} (hr : PosImage D recon) :
    ∃ r', ospml gam beta D ngx ngy g data num_iter nb ind recon = some r' ∧ PosImage D r' :=
  osRun_inv (pmlFin_ok gam beta D ngx ngy) hba (PosImage D) (fun _ hs _ hnd hps _ hr =>
    ospml_block_pos hgam hgv hb hN hx hy hg hd hs hnd hps hr) recon hr

theorem gammaHybrid_pos {delta : ℝ} (hd : delta ≠ 0) :
    (∀ x, gammaHybrid delta x = some (1 / (1 + |x / delta|))) ∧
      ∀ x : ℝ, 0 < 1 / (1 + |x / delta|) := by
  refine ⟨fun x => if_neg hd, fun x => ?_⟩
  have := abs_nonneg (x / delta)
  positivity

theorem ospml_quad_positive {beta : ℝ} (hb : 0 < beta) {D : Dims} {ngx ngy : Nat}
    (hN : D.N = ngx * ngy) (hx : 2 ≤ ngx) (hy : 2 ≤ ngy) {g : Geom ℝ} {data : Mem ℝ}
    (hg : GeomOk D g) (hd : PosData D data) {num_iter nb : Nat} {ind : List Nat}
    (hba : BlockArgs D.dt nb ind) {recon : Mem ℝ} (hr : PosImage D recon) :
    ∃ r', ospml gammaQuad beta D ngx ngy g data num_iter nb ind recon = some r' ∧ PosImage D r' :=
  ospml_positive (gv := fun _ => 1) (fun _ => rfl) (fun _ => one_pos) hb hN hx hy hg hd hba hr

theorem ospml_hybrid_positive {beta delta : ℝ} (hb : 0 < beta) (hde : delta ≠ 0) {D : Dims}
    {ngx ngy : Nat} (hN : D.N = ngx * ngy) (hx : 2 ≤ ngx) (hy : 2 ≤ ngy) {g : Geom ℝ}
    {data : Mem ℝ} (hg : GeomOk D g) (hd : PosData D data) {num_iter nb : Nat} {ind : List Nat}
    (hba : BlockArgs D.dt nb ind) {recon : Mem ℝ} (hr : PosImage D recon) :
    ∃ r', ospml (gammaHybrid delta) beta D ngx ngy g data num_iter nb ind recon = some r' ∧
      PosImage D r' :=
  ospml_positive (gammaHybrid_pos hde).1 (gammaHybrid_pos hde).2 hb hN hx hy hg hd hba hr

/-- **C38**: a positive constant image consistent with the data is a fixed point of `ospml_*`. -/
theorem ospml_constant_fixed {gam : ℝ → Option ℝ} {gv : ℝ → ℝ} (hgam : ∀ x, gam x = some (gv x))
    (hgv : ∀ x, 0 < gv x) {beta : ℝ} (hb : 0 < beta) {D : Dims} {ngx ngy : Nat}
    (hN : D.N = ngx * ngy) (hx : 2 ≤ ngx) (hy : 2 ≤ ngy) {g : Geom ℝ} {data : Mem ℝ}
    (hg : GeomOk D g) {num_iter nb : Nat} {ind : List Nat}
    (hba : BlockArgs D.dt nb ind) {c : ℝ} (hc : 0 < c) {recon : Mem ℝ}
    (hr : ∀ s < D.dy, ∀ n < D.N, recon (n + s * D.N) = c) (hcon : Consistent D g data recon)
    (hd0 : ∀ s < D.dy, ∀ p < D.dt, ∀ d < D.dx, 0 ≤ data (D.data s p d)) :
    ∃ r', ospml gam beta D ngx ngy g data num_iter nb ind recon = some r' ∧
      SameImage D r' recon := by
  refine osRun_inv (pmlFin_ok gam beta D ngx ngy) hba (fun r => SameImage D r recon) ?_ recon
    (fun _ _ _ _ => rfl)
  intro s hs ps hnd hps r hsame
  have hrc : ∀ s < D.dy, ∀ n < D.N, r (n + s * D.N) = c := fun s' hs' n hn => by
    rw [hsame s' hs' n hn, hr s' hs' n hn]
  have hpos : PosImage D r := fun s' hs' n hn => by rw [hrc s' hs' n hn]; exact hc
  have hok : ∀ q ∈ raysOf D.dx ps, SegsOk D.N (g s q.1 q.2) := fun q hq =>
    hg s hs _ (hps _ (mem_raysOf.mp hq).1) _ (mem_raysOf.mp hq).2
  have hsim : ∀ p ∈ ps, ∀ d < D.dx, sumDist2 (g s p d) ≠ 0 → 0 < lineSum D.N s (g s p d) r :=
    fun p hp d hdx h => lineSum_pos (hg s hs p (hps p hp) d hdx) (hpos s hs) h
  obtain ⟨r', h1, h2, h3⟩ := ospml_block hgam hgv hb hN hx hy hg hs hnd hps
    (fun p hp d hdx => hd0 s hs p (hps p hp) d hdx) (fun n hn => (hpos s hs n hn).le)
    (fun p hp d hdx h => (hsim p hp d hdx h).ne')
  refine ⟨r', h1, ?_⟩
  intro s' hs' q hq
  by_cases e : s' = s
  · subst e
    obtain ⟨n, hn, m, hm, rfl⟩ := exists_pix (hN ▸ hq)
    have hrat : subRatio D g data r s' ps (m + n * ngy) = subLen D g s' ps (m + n * ngy) := by
      unfold subRatio subLen
      congr 1
      apply List.map_congr_left
      intro p hpm
      have hmm := mem_raysOf.mp hpm
      by_cases h0 : sumDist2 (g s' p.1 p.2) ≠ 0
      · rw [if_pos h0, hcon s' hs' _ (hps _ hmm.1) _ hmm.2 h0]
        have : lineSum D.N s' (g s' p.1 p.2) recon = lineSum D.N s' (g s' p.1 p.2) r :=
          lineSum_congr fun e he => (hsame s' hs' e.1 (hok p hpm e he).1).symm
        rw [this, div_self (hsim _ hmm.1 _ hmm.2 h0).ne', one_mul]
      · rw [if_neg h0]
        by_contra hne
        exact h0 (sumDist2_ne_of_lenIn (Ne.symm hne))
    have hpix := hrc s' hs' _ hq
    have hF : specF gv beta ngx ngy (s' * D.N) r n m = 2 * beta * gv 0 := by
      unfold specF
      rw [nbMean_congr (v' := fun _ => gv 0), nbMean_const hx hn]
      intro o ho hi
      obtain ⟨q', hq', e⟩ := nbPix_slice (s := s') hN hn hm r ho hi
      rw [e, hpix, hrc s' hs' q' hq', sub_self]
    have hG : specG gv beta ngx ngy (s' * D.N) r n m = 2 * beta * (gv 0 * (c + c)) := by
      unfold specG
      rw [nbMean_congr (v' := fun _ => gv 0 * (c + c)), nbMean_const hx hn]
      intro o ho hi
      obtain ⟨q', hq', e⟩ := nbPix_slice (s := s') hN hn hm r ho hi
      rw [e, hpix, hrc s' hs' q' hq', sub_self]
    rw [hr s' hs' _ hq]
    refine ((h2 n hn m hm _ _ _ rfl rfl rfl).2.2.1 c hc ?_).symm
    rw [hF, hG, hpix, hrat]
    ring
  · rw [h3 _ (other_slice hq e)]
    exact hsame s' hs' q hq

/-- **C33** (the penalised methods): `pml_*` is `ospml_*` with one block, whatever `ind_block`. -/
theorem pml_eq_ospml (gam : ℝ → Option ℝ) (beta : ℝ) (D : Dims) (ngx ngy : Nat) (g : Geom ℝ)
    (data : Mem ℝ) (n : Nat) (ind : List Nat) (recon : Mem ℝ) :
    pml gam beta D ngx ngy g data n recon = ospml gam beta D ngx ngy g data n 1 ind recon := by
  unfold pml ospml osRun
  rw [blocks_single, blocks_single]

/-! ## Refutations -/

/-- **C38** (refutation, memory): on an image that is one pixel wide the corner blocks read before
the start of the image, whatever the image and the parameters. -/
theorem ospml_one_row_out_of_bounds (ngy : Nat) :
    ∃ t ∈ penTasks 1 ngy, ∃ nb ∈ t.2, nbAddr ngy 0 t.1 nb < 0 ∨ ngy ≤ nbAddr ngy 0 t.1 nb := by
  refine ⟨(0 + 0 * ngy, [(0, 1, wCorner.1), (-1, 0, wCorner.1), (-1, 1, wCorner.2)]), ?_,
    (-1, 0, wCorner.1), by simp, ?_⟩
  · unfold penTasks
    simp only [List.mem_append]
    left; right
    simp [region]
  · unfold nbAddr
    rcases Nat.eq_zero_or_pos ngy with h | h
    · right; subst h; simp
    · left; simp; exact h

theorem foldlM_none_of {α β : Type} (f : α → β → Option α) :
    ∀ (l : List β) (a : α), (∃ b ∈ l, ∀ a, f a b = none) → l.foldlM f a = none := by
  intro l
  induction l with
  | nil => rintro a ⟨b, hb, _⟩; simp at hb
  | cons c l ih =>
    rintro a ⟨b, hb, h⟩
    rw [List.foldlM_cons]
    rcases List.mem_cons.mp hb with rfl | hb
    · rw [h a]; rfl
    · cases hc : f a c with
      | none => rfl
      | some a' => exact ih a' ⟨b, hb, h⟩

/-- **C38** (refutation): so `ospml_*` has no defined result for images one pixel wide, for any
image, data and parameters. -/
theorem ospml_one_row_undefined (gam : ℝ → Option ℝ) (beta : ℝ) {D : Dims} {ngy : Nat}
    (hy : 0 < ngy) (a : Acc ℝ) (r : Mem ℝ) :
    pmlFin gam beta D 1 ngy 0 a r = none := by
  unfold pmlFin
  rw [foldlM_none_of]
  · rfl
  · refine ⟨(0 + 0 * ngy, [(0, 1, wCorner.1), (-1, 0, wCorner.1), (-1, 1, wCorner.2)]), ?_, ?_⟩
    · unfold penTasks
      simp only [List.mem_append]
      left; right
      simp [region]
    · intro FG
      unfold penTask
      apply foldlM_none_of
      refine ⟨(-1, 0, wCorner.1), by simp, ?_⟩
      intro FG'
      unfold penStep
      rw [if_neg]
      simp
      omega

/-- **C38** (refutation): without regularisation (`reg_par[0] = 0`) `F` is zero and no pixel is ever
updated: the initial image is returned whatever the data. -/
theorem ospml_no_regularisation {gam : ℝ → Option ℝ} {gv : ℝ → ℝ} (hgam : ∀ x, gam x = some (gv x))
    {D : Dims} {ngx ngy : Nat} (hN : D.N = ngx * ngy) (hx : 2 ≤ ngx) (hy : 2 ≤ ngy) {g : Geom ℝ}
    {data : Mem ℝ} (hg : GeomOk D g) {num_iter nb : Nat} {ind : List Nat}
    (hba : BlockArgs D.dt nb ind) {recon : Mem ℝ} (hr : PosImage D recon) :
    ospml gam 0 D ngx ngy g data num_iter nb ind recon = some recon := by
  have := osRun_inv (num_iter := num_iter) (mt := pmlMethod) (g := g) (data := data)
    (pmlFin_ok gam 0 D ngx ngy) hba (fun r => r = recon) ?_ recon rfl
  · obtain ⟨r', h1, rfl⟩ := this
    exact h1
  · rintro s hs ps hnd hps r rfl
    refine ⟨r, ?_, rfl⟩
    obtain ⟨a, h1, -, -⟩ := pureBlock_spec (mt := pmlMethod) (fin := pmlFin gam 0 D ngx ngy)
      (g := g) (data := data) (s := s) hnd hps r
      (fun p d => data (D.data s p d) / lineSum D.N s (g s p d) r) (by
        intro p hp d hdx h
        simp only [pmlMethod]
        rw [if_neg (lineSum_pos (hg s hs p (hps p hp) d hdx) (hr s hs) h).ne'])
    rw [h1]
    obtain ⟨FG, h2, h3⟩ := penalty_spec hgam 0 hx hy hs r
    unfold pmlFin
    rw [hN, h2]
    simp only [Option.bind_some]
    rw [foldlM_some _ (fun r _ => r)]
    · congr 1
      generalize List.range (ngx * ngy) = l
      induction l with
      | nil => rfl
      | cons _ _ ih => exact ih
    · intro q hq r
      obtain ⟨n, hn, m, hm, rfl⟩ := exists_pix (List.mem_range.mp hq)
      unfold pmlPixel
      rw [if_neg]
      rw [(h3 n hn m hm).1]
      unfold specF
      simp

/-- **C38** (refutation): a non-negative image and non-negative data are not enough: on a zero line
integral the code divides by zero (here: the zero image, one ray), although the quadratic would
have the root 0. -/
theorem ospml_zero_image_undefined (gam : ℝ → Option ℝ) (beta v : ℝ) :
    ospml gam beta ⟨1, 1, 1, 4⟩ 2 2 (fun _ _ _ => [(0, 1)]) (fun _ => v) 1 1 [0] zeros = none := by
  unfold ospml osRun
  rw [if_neg (by simp), if_neg (by simp), blocks_single]
  simp only [Option.bind_some, iterM, osIter]
  simp [List.range_succ, osBlock, accBlock, accRay, pmlMethod, sumDist2, calcSimdata, zeros,
    Dims.data, addAt]

/-! ## The hypotheses can be met -/

section Examples

/-- A 2 x 2 image, one ray through two pixels. -/
def pmlG : Geom ℝ := fun _ _ _ => [(0, 1), (1, 2)]

theorem pmlG_ok : GeomOk ⟨1, 1, 1, 4⟩ pmlG := by
  intro s _ p _ d _ e he
  simp only [pmlG, List.mem_cons, List.not_mem_nil, or_false] at he
  rcases he with rfl | rfl <;> norm_num

example : ∃ r', ospml gammaQuad 1 ⟨1, 1, 1, 4⟩ 2 2 pmlG (fun _ => 5) 3 1 [0] (fun _ => 2) = some r' ∧
    PosImage ⟨1, 1, 1, 4⟩ r' :=
  ospml_quad_positive one_pos rfl (le_refl _) (le_refl _) pmlG_ok (fun _ _ _ _ _ _ => by norm_num)
    (Or.inl rfl) (fun _ _ _ _ => by norm_num)

example : ∃ r', ospml (gammaHybrid 3) 1 ⟨1, 1, 1, 4⟩ 2 2 pmlG (fun _ => 5) 3 1 [0] (fun _ => 2) =
    some r' ∧ PosImage ⟨1, 1, 1, 4⟩ r' :=
  ospml_hybrid_positive one_pos (by norm_num) rfl (le_refl _) (le_refl _) pmlG_ok
    (fun _ _ _ _ _ _ => by norm_num) (Or.inl rfl) (fun _ _ _ _ => by norm_num)

example : Consistent ⟨1, 1, 1, 4⟩ pmlG (fun _ => 6) (fun _ => 2) := by
  intro s _ p _ d _ _
  norm_num [lineSum, pmlG]

example : ∃ r', ospml gammaQuad 1 ⟨1, 1, 1, 4⟩ 2 2 pmlG (fun _ => 6) 3 1 [0] (fun _ => 2) = some r' ∧
    SameImage ⟨1, 1, 1, 4⟩ r' (fun _ => 2) :=
  ospml_constant_fixed (gv := fun _ => 1) (fun _ => rfl) (fun _ => one_pos) one_pos rfl (le_refl _)
    (le_refl _) pmlG_ok (Or.inl rfl) (c := 2) (by norm_num) (fun _ _ _ _ => rfl)
    (by intro s _ p _ d _ _; norm_num [lineSum, pmlG]) (fun _ _ _ _ _ _ => by norm_num)

end Examples

end Tomopy.Iter
