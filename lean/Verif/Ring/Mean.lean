import Verif.Ring.Median
import Mathlib.Algebra.BigOperators.Group.List.Basic

/-! The rolling mean of remove_ring.c:386-536 equals the mean of a window that is described directly
here: cyclic for `WRAP`, mirrored at the ends of each half circle for `REFLECT`. -/

set_option linter.unusedSectionVars false

namespace Tomopy.Ring

section
variable {K : Type} [Field K] [LinearOrder K] [IsStrictOrderedRing K] [FloorRing K]

/-! ### Specification -/

/-- Sum over the rows `row - k … row + k` of a column, continued by `ix`. -/
def winSum (img : Img K) (col k : Nat) (ix : Int → Int) (row : Int) : K :=
  ((List.range (2 * k + 1)).map fun i : Nat => img.px (ix (row - k + i)).toNat col).sum

/-- Mirror at `lo` and at `hi` (the end points are not repeated). -/
def mirror (lo hi c : Int) : Int :=
  if c < lo then 2 * lo - c else if c > hi then 2 * hi - c else c

/-- The row a window row stands for: cyclic, or mirrored within the half of the circle in which
the centre `row` of the window lies. -/
def rowIx (mode : Mode) (h row : Nat) : Int → Int :=
  match mode with
  | .wrap => fun c => c % h
  | .reflect => if row < h / 2 then mirror 0 ((h / 2 : Nat) - 1) else mirror (h / 2 : Nat) (h - 1)

/-- Mean over the window of radius `k` around `row`. -/
def winMean (mode : Mode) (img : Img K) (col k row : Nat) : K :=
  winSum img col k (rowIx mode img.h row) row / (2 * k + 1)

/-- Rows in which the filter starts. -/
def firstRow (mode : Mode) (h row : Nat) : Prop :=
  row = 0 ∨ mode = .reflect ∧ row = h / 2

instance (mode : Mode) (h row : Nat) : Decidable (firstRow mode h row) := by
  unfold firstRow; infer_instance

/-- What the filter computes: the mean, but 0 where the pixel itself is 0 unless the filter starts
there. -/
def meanSpec (mode : Mode) (img : Img K) (col k row : Nat) : K :=
  if firstRow mode img.h row ∨ img.px row col ≠ 0 then winMean mode img col k row else 0

/-! ### One run -/

theorem winSum_succ (img : Img K) (col k : Nat) (ix : Int → Int) (row : Int) :
    winSum img col k ix (row + 1) = winSum img col k ix row
      - img.px (ix (row - k)).toNat col + img.px (ix (row + 1 + k)).toNat col := by
  unfold winSum
  have e1 : (List.range (2 * k + 1)).map (fun i : Nat => img.px (ix (row + 1 - k + i)).toNat col)
      = (List.range (2 * k)).map (fun i : Nat => img.px (ix (row + 1 - k + i)).toNat col)
        ++ [img.px (ix (row + 1 + k)).toNat col] := by
    rw [List.range_succ, List.map_append, List.map_singleton]
    congr 5
    push_cast
    ring
  have e2 : (List.range (2 * k + 1)).map (fun i : Nat => img.px (ix (row - k + i)).toNat col)
      = img.px (ix (row - k)).toNat col ::
        (List.range (2 * k)).map (fun i : Nat => img.px (ix (row + 1 - k + i)).toNat col) := by
    rw [List.range_succ_eq_map, List.map_cons, List.map_map]
    congr 1
    · congr 3
      push_cast
      ring
    · refine List.map_congr_left ?_
      intro i _
      simp only [Function.comp]
      congr 3
      push_cast
      ring
  rw [e1, e2]
  simp only [List.sum_append, List.sum_cons, List.sum_nil]
  ring

theorem mapM_some {α β : Type} (f : α → Option β) (g : α → β) (l : List α)
    (h : ∀ a ∈ l, f a = some (g a)) : l.mapM f = some (l.map g) := by
  induction l with
  | nil => rfl
  | cons a l ih =>
    rw [List.mapM_cons, h a (by simp), ih fun x hx => h x (by simp [hx])]
    rfl

theorem meanRun_eq (img : Img K) (col k start stop : Nat) (f0 fl fn : Int → Int)
    (hc : col < img.w) (hss : start < stop) (hs : stop ≤ img.h)
    (hin : ∀ c : Int, start - k ≤ c → c < stop + k → 0 ≤ f0 c ∧ f0 c < img.h)
    (hl : ∀ c : Int, start - k ≤ c → c < stop → fl c = f0 c)
    (hn : ∀ c : Int, start < c → c < stop + k → fn c = f0 c) :
    meanRun img col k start stop f0 fl fn = some ((List.range (stop - start)).map fun t : Nat =>
      if t = 0 ∨ img.px (start + t) col ≠ 0 then
        winSum img col k f0 (start + t : Nat) / (2 * k + 1) else 0) := by
  have hrd : ∀ c : Int, start - k ≤ c → c < stop + k →
      img.rd (f0 c) col = some (img.px (f0 c).toNat col) := by
    intro c h1 h2
    obtain ⟨h3, h4⟩ := hin c h1 h2
    exact rd_eq img h3 h4 (by omega) (by omega)
  have hfirst : ((intRange (-k) k).mapM fun n => img.rd (f0 (start + n)) col)
      = some ((intRange (-k) k).map fun n => img.px (f0 (start + n)).toNat col) := by
    refine mapM_some _ _ _ ?_
    intro n hn'
    simp only [intRange, List.mem_map, List.mem_range] at hn'
    obtain ⟨m, hm, rfl⟩ := hn'
    exact hrd _ (by omega) (by omega)
  have hsum : ((intRange (-k) k).map fun n => img.px (f0 (start + n)).toNat col).sum
      = winSum img col k f0 start := by
    unfold winSum intRange
    rw [List.map_map]
    have : ((k : Int) + 1 - -(k : Int)).toNat = 2 * k + 1 := by omega
    rw [this]
    congr 1
    refine List.map_congr_left ?_
    intro i _
    simp only [Function.comp]
    congr 3
    ring
  unfold meanRun
  rw [hfirst]
  dsimp only
  rw [hsum]
  have key : ∀ n : Nat, start + n < stop →
      (List.range n).foldlM (meanStep img col k start fl fn)
        (winSum img col k f0 start, [winSum img col k f0 start / (2 * k + 1)])
      = some (winSum img col k f0 (start + n : Nat), (List.range (n + 1)).map fun t : Nat =>
        if t = 0 ∨ img.px (start + t) col ≠ 0 then
          winSum img col k f0 (start + t : Nat) / (2 * k + 1) else 0) := by
    intro n
    induction n with
    | zero => intro _; simp
    | succ n ih =>
      intro hn'
      rw [List.range_succ, List.foldlM_append, ih (by omega)]
      have r1 : img.rd (fl ((start : Int) + 1 + n - 1 - k)) col
          = some (img.px (f0 ((start : Int) + n - k)).toNat col) := by
        rw [hl _ (by omega) (by omega), show (start : Int) + 1 + n - 1 - k = start + n - k by ring]
        exact hrd _ (by omega) (by omega)
      have r2 : img.rd (fn ((start : Int) + 1 + n + k)) col
          = some (img.px (f0 ((start : Int) + n + 1 + k)).toNat col) := by
        rw [hn _ (by omega) (by omega), show (start : Int) + 1 + n + k = start + n + 1 + k by ring]
        exact hrd _ (by omega) (by omega)
      have r3 : img.rd ((start : Int) + 1 + n) col = some (img.px (start + (n + 1)) col) := by
        rw [rd_eq img (by omega) (by omega) (by omega) (by omega)]
        congr 2
        omega
      have hw := winSum_succ img col k f0 ((start : Int) + n)
      have ew : winSum img col k f0 ((start + n : Nat) : Int)
          - img.px (f0 ((start : Int) + n - k)).toNat col
          + img.px (f0 ((start : Int) + n + 1 + k)).toNat col
          = winSum img col k f0 ((start + (n + 1) : Nat) : Int) := by
        push_cast
        rw [← add_assoc, hw]
      rw [List.range_succ (n := n + 1), List.map_append]
      simp only [Option.bind_eq_bind, Option.bind_some, List.foldlM_cons, List.foldlM_nil, meanStep, r1, r2, r3,
        ew, List.map_singleton]
      simp
  rw [key (stop - start - 1) (by omega)]
  have : stop - start - 1 + 1 = stop - start := by omega
  rw [this]
  rfl

/-! ### The two modes -/

/-- **C44** (mean, `WRAP`). -/
theorem meanWrap_result (img : Img K) (col k : Nat) (hc : col < img.w) (hh : 0 < img.h)
    (hk : k ≤ img.h) :
    meanWrap img col k = some ((List.range img.h).map fun row => meanSpec .wrap img col k row) := by
  unfold meanWrap
  rw [meanRun_eq img col k 0 img.h _ _ _ hc hh le_rfl]
  · congr 1
    refine List.map_congr_left ?_
    intro t ht
    rw [List.mem_range] at ht
    have hw : winSum img col k (fun c : Int => if c < 0 then c + img.h
        else if c ≥ img.h then c - img.h else c) ((0 + t : Nat) : Int)
        = winSum img col k (rowIx .wrap img.h t) (t : Int) := by
      unfold winSum
      congr 1
      refine List.map_congr_left ?_
      intro i hi
      rw [List.mem_range] at hi
      have : ((0 + t : Nat) : Int) = t := by simp
      rw [this]
      congr 2
      simp only [rowIx]
      split_ifs with c1 c2
      · rw [← Int.add_emod_right, Int.emod_eq_of_lt (by omega) (by omega)]
      · rw [← Int.sub_emod_right, Int.emod_eq_of_lt (by omega) (by omega)]
      · rw [Int.emod_eq_of_lt (by omega) (by omega)]
    rw [hw]
    unfold meanSpec winMean
    have e : (t = 0 ∨ img.px (0 + t) col ≠ 0) ↔ (firstRow .wrap img.h t ∨ img.px t col ≠ 0) := by
      simp [firstRow]
    simp only [e]
  · intro c h1 h2
    split_ifs <;> omega
  · intro c h1 h2
    split_ifs <;> omega
  · intro c h1 h2
    split_ifs <;> omega

/-- **C44** (mean, `REFLECT`). -/
theorem meanReflect_result_partial (img : Img K) (col k : Nat) (hc : col < img.w)
    (hk : k < img.h / 2) :
    meanReflect img col k
      = some ((List.range img.h).map fun row => meanSpec .reflect img col k row) := by
  unfold meanReflect
  dsimp only
  rw [meanRun_eq img col k 0 (img.h / 2) _ _ _ hc (by omega) (by omega),
    meanRun_eq img col k (img.h / 2) img.h _ _ _ hc (by omega) le_rfl]
  · dsimp only
    congr 1
    have hsplit : List.range img.h = List.range (img.h / 2)
        ++ (List.range (img.h - img.h / 2)).map fun t => img.h / 2 + t := by
      rw [← List.range_add]
      congr 1
      omega
    rw [hsplit, List.map_append, List.map_map]
    congr 1
    · refine List.map_congr_left ?_
      intro t ht
      rw [List.mem_range] at ht
      have hw : winSum img col k (fun c : Int => if c < 0 then -c
          else if c ≥ ((img.h / 2 : Nat) : Int) then ((img.h / 2 : Nat) : Int) - (c - (img.h / 2 : Nat)) - 2
          else c) ((0 + t : Nat) : Int) = winSum img col k (rowIx .reflect img.h t) (t : Int) := by
        unfold winSum
        congr 1
        refine List.map_congr_left ?_
        intro i hi
        have : ((0 + t : Nat) : Int) = t := by simp
        rw [this]
        congr 2
        have hix : rowIx .reflect img.h t = mirror 0 ((img.h / 2 : Nat) - 1) := if_pos (by omega)
        rw [hix]
        simp only [mirror]
        split_ifs <;> omega
      rw [hw]
      unfold meanSpec winMean
      have e : (t = 0 ∨ img.px (0 + t) col ≠ 0) ↔
          (firstRow .reflect img.h t ∨ img.px t col ≠ 0) := by
        unfold firstRow
        have : t ≠ img.h / 2 := by omega
        simp [this]
      simp only [e]
    · refine List.map_congr_left ?_
      intro t ht
      rw [List.mem_range] at ht
      simp only [Function.comp]
      have hw : winSum img col k (fun c : Int => if c < ((img.h / 2 : Nat) : Int) then
            ((img.h / 2 : Nat) : Int) + ((img.h / 2 : Nat) - c)
          else if c ≥ img.h then (img.h : Int) - (c - img.h) - 2
          else c) ((img.h / 2 + t : Nat) : Int)
          = winSum img col k (rowIx .reflect img.h (img.h / 2 + t)) ((img.h / 2 + t : Nat) : Int) := by
        unfold winSum
        congr 1
        refine List.map_congr_left ?_
        intro i hi
        congr 2
        have hix : rowIx .reflect img.h (img.h / 2 + t) = mirror (img.h / 2 : Nat) (img.h - 1) :=
          if_neg (by omega)
        rw [hix]
        simp only [mirror]
        split_ifs <;> omega
      rw [hw]
      unfold meanSpec winMean
      have e : (t = 0 ∨ img.px (img.h / 2 + t) col ≠ 0) ↔
          (firstRow .reflect img.h (img.h / 2 + t) ∨ img.px (img.h / 2 + t) col ≠ 0) := by
        unfold firstRow
        have h1 : ¬ (img.h / 2 + t = 0) := by omega
        have h2 : img.h / 2 + t = img.h / 2 ↔ t = 0 := by omega
        simp only [h1, h2, true_and, false_or]
      simp only [e]
  all_goals
    intro c h1 h2
    split_ifs <;> omega

/-- The mean of a constant column is the constant. -/
theorem winMean_const (mode : Mode) (img : Img K) (col k row : Nat) (v : K)
    (h : ∀ r, img.px r col = v) : winMean mode img col k row = v := by
  unfold winMean winSum
  simp only [h, List.map_const', List.length_range, List.sum_replicate, nsmul_eq_mul]
  have : (2 * (k : K) + 1) ≠ 0 := by positivity
  push_cast
  field_simp

end

/-- Pixels with value 0 get 0 instead of the mean of their window, but not in the first row: the
result of the filter for a column is not equivariant under a rotation of the image. -/
theorem mean_first_row :
    meanWrap (K := ℚ) ⟨4, 1, fun r _ => if r = 1 then 3 else 0⟩ 0 1 = some [1, 1, 0, 0] ∧
    meanWrap (K := ℚ) ⟨4, 1, fun r _ => if r = 2 then 3 else 0⟩ 0 1 = some [0, 0, 1, 0] := by
  decide +kernel

/-- `REFLECT` with a radius of half the number of rows (19 rows and `theta_min = 179`: radius 9)
reads row -1. -/
theorem mean_reflect_out_of_bounds :
    (19 * 179 / 360 : Nat) = 9 ∧ meanReflect (K := ℚ) ⟨19, 1, fun _ _ => 1⟩ 0 9 = none := by
  decide +kernel

/-- `meanWrap_result` and `meanReflect_result_partial` on examples. -/
example : meanWrap (K := ℚ) ⟨5, 1, fun r _ => (r * r : Nat)⟩ 0 1 = some [17/3, 5/3, 14/3, 29/3, 25/3] ∧
    meanReflect (K := ℚ) ⟨5, 1, fun r _ => (r * r + 1 : Nat)⟩ 0 1 = some [5/3, 4/3, 25/3, 32/3, 37/3] := by
  decide +kernel

end Tomopy.Ring
