import Verif.Accel.CudaModel
import Verif.Accel.Props
import Verif.Par.Sets
import Mathlib.Algebra.BigOperators.Fin
import Mathlib.Data.Fintype.BigOperators
import Mathlib.Algebra.BigOperators.Ring.Finset

/-! C130: the CUDA kernels. -/
set_option linter.unusedSectionVars false

namespace Tomopy.Accel
open Tomopy.Par

variable {K : Type} [Field K] [LinearOrder K] [IsStrictOrderedRing K]

/-! ### Grid-stride loops -/

theorem mem_strideLoop {size stride : Nat} (hs : 0 < stride) (i0 i : Nat) :
    i ∈ strideLoop size stride i0 ↔ i0 ≤ i ∧ i < size ∧ (i - i0) % stride = 0 := by
  induction i0 using strideLoop.induct size stride with
  | case1 i0 h ih =>
    rw [strideLoop, dif_pos h, List.mem_cons, ih]
    constructor
    · rintro (rfl | ⟨h1, h2, h3⟩)
      · simp [h.1]
      · refine ⟨by omega, h2, ?_⟩
        rw [show i - i0 = (i - (i0 + stride)) + stride by omega, Nat.add_mod_right]
        exact h3
    · rintro ⟨h1, h2, h3⟩
      rcases Nat.eq_or_lt_of_le h1 with e | e
      · exact Or.inl e.symm
      · right
        have : stride ≤ i - i0 := by
          by_contra hc
          rw [Nat.mod_eq_of_lt (by omega)] at h3
          omega
        refine ⟨by omega, h2, ?_⟩
        rw [show i - i0 = (i - (i0 + stride)) + stride by omega, Nat.add_mod_right] at h3
        exact h3
  | case2 i0 h =>
    rw [strideLoop, dif_neg h]
    simp only [List.not_mem_nil, false_iff]
    rintro ⟨h1, h2, -⟩
    exact h ⟨by omega, hs⟩

theorem nodup_strideLoop (size stride i0 : Nat) : (strideLoop size stride i0).Nodup := by
  induction i0 using strideLoop.induct size stride with
  | case1 i0 h ih =>
    rw [strideLoop, dif_pos h, List.nodup_cons]
    refine ⟨fun hm => ?_, ih⟩
    have := ((mem_strideLoop h.2 _ _).1 hm).1
    have := h.2
    omega
  | case2 i0 h => rw [strideLoop, dif_neg h]; exact List.nodup_nil

/-- A thread visits the indices that are its own number modulo the number of threads. -/
theorem mem_thread {size threads : Nat} (t : Fin threads) (i : Nat) :
    i ∈ strideLoop size threads t ↔ i < size ∧ i % threads = t := by
  have hs : 0 < threads := Nat.pos_of_ne_zero fun e => by subst e; exact t.elim0
  rw [mem_strideLoop hs]
  constructor
  · rintro ⟨h1, h2, h3⟩
    refine ⟨h2, ?_⟩
    obtain ⟨q, hq⟩ := Nat.dvd_of_mod_eq_zero h3
    rw [show i = t + threads * q by omega, Nat.add_mul_mod_self_left, Nat.mod_eq_of_lt t.2]
  · rintro ⟨h1, h2⟩
    have := Nat.mod_add_div i threads
    refine ⟨by omega, h1, ?_⟩
    rw [show i - t = threads * (i / threads) by omega, Nat.mul_mod_right]

/-- **C130** Every index is handled exactly once, whatever the number of threads. -/
theorem threads_cover (size threads : Nat) (h : 0 < threads) :
    ((List.finRange threads).flatMap fun t : Fin threads => strideLoop size threads t).Perm (List.range size) := by
  rw [List.perm_ext_iff_of_nodup _ List.nodup_range]
  · intro i
    simp only [List.mem_flatMap, List.mem_finRange, true_and, mem_thread, List.mem_range]
    constructor
    · rintro ⟨t, h1, -⟩; exact h1
    · intro h1; exact ⟨⟨i % threads, Nat.mod_lt _ h⟩, h1, rfl⟩
  · rw [List.nodup_flatMap]
    refine ⟨fun t _ => nodup_strideLoop _ _ _, ?_⟩
    refine (List.nodup_finRange threads).imp_of_mem ?_
    intro a b _ _ hab i ha hb
    rw [mem_thread] at ha hb
    exact hab (Fin.ext (ha.2.symm.trans hb.2))

/-- **C130** The size computed for the grid: enough threads for one index each, none with less
than one block too many; a block size of zero is a division by zero, an empty array gives no block
(an invalid launch). -/
theorem gridSize_spec (size block : Nat) :
    (gridSize size block = none ↔ block = 0) ∧
    ∀ g, gridSize size block = some g → size ≤ g * block ∧ (g = 0 ↔ size = 0) ∧
      (0 < size → (g - 1) * block < size) := by
  unfold gridSize
  rcases Nat.eq_zero_or_pos block with rfl | hb
  · simp
  · rw [if_neg (by omega)]
    refine ⟨by simp; omega, ?_⟩
    rintro g hg
    obtain rfl := Option.some.inj hg
    have h1 := Nat.div_add_mod (size + block - 1) block
    have h2 := Nat.mod_lt (size + block - 1) hb
    rw [Nat.mul_comm] at h1
    set q := (size + block - 1) / block
    refine ⟨by omega, ⟨fun e => ?_, fun e => ?_⟩, fun hp => ?_⟩
    · rw [e] at h1; omega
    · by_contra hq
      have : block ≤ q * block := Nat.le_mul_of_pos_left _ (Nat.pos_of_ne_zero hq)
      omega
    · rw [Nat.sub_mul]; omega

/-! ### The kernel of the rows -/

theorem run_bumps (u : K) (l : List Nat) (hn : l.Nodup) (m : Cell → K) :
    (∀ i ∈ l, (Prog.forEach (bump u) l).run m (.rot i) = m (.rot i) + u) ∧
    ∀ c, (∀ i ∈ l, c ≠ .rot i) → (Prog.forEach (bump u) l).run m c = m c := by
  obtain ⟨h1, h2⟩ := forEach_run (Rd := fun _ => False) (own := Cell.rot) (body := bump u) l
    (fun v _ => ⟨Or.inr rfl, fun _ => ⟨rfl, trivial⟩⟩) (fun _ _ h => h)
    (fun v _ w _ e => Cell.rot.inj e) hn m
  refine ⟨fun i hi => ?_, h2⟩
  rw [h1 i hi]
  simp [bump, Prog.run, upd]

/-- Specification: what a row gains. -/
def gain (A : Alg) (b sum : K) : K :=
  match A with
  | .sirt => b - sum
  | .mlem => if sum ≠ 0 then b / sum else 0

theorem foldl_add (l : List K) (a : K) : l.foldl (· + ·) a = a + l.sum := by
  induction l generalizing a with
  | nil => simp
  | cons x l ih => rw [List.foldl_cons, ih, List.sum_cons, add_assoc]

theorem list_sum_range' (f : Nat → K) (k : Nat) :
    ((List.range k).map f).sum = ∑ p ∈ Finset.range k, f p := by
  induction k with
  | zero => simp
  | succ k ih =>
    rw [List.range_succ, List.map_append, List.sum_append, ih, Finset.sum_range_succ]
    simp

theorem row_sum_eq (nx d : Nat) (m : Cell → K) :
    (((rowCells nx d).map Cell.rot).map m).foldl (· + ·) 0 = rowSum nx (fun j => m (.rot j)) d := by
  rw [foldl_add, zero_add, rowSum, rowCells, List.map_map, List.map_map, list_sum_range']
  rfl

theorem rowCells_nodup (nx d : Nat) : (rowCells nx d).Nodup :=
  List.nodup_range.map fun _ _ h => Nat.add_left_cancel h

theorem mem_rowCells {nx d j : Nat} (hx : 0 < nx) : j ∈ rowCells nx d ↔ j / nx = d := by
  simp only [rowCells, List.mem_map, List.mem_range]
  constructor
  · rintro ⟨i, hi, rfl⟩
    rw [Nat.mul_comm, Nat.mul_add_div hx, Nat.div_eq_of_lt hi, Nat.add_zero]
  · rintro rfl
    refine ⟨j % nx, Nat.mod_lt _ hx, ?_⟩
    rw [Nat.mul_comm]
    exact Nat.div_add_mod j nx

/-- Cells of a row. -/
def rowOwn (nx d : Nat) (c : Cell) : Prop := ∃ j, c = .rot j ∧ j / nx = d

/-- Cells with data. -/
def isData (c : Cell) : Prop := ∃ i, c = .data i

theorem bumps_within (u : K) (nx d : Nat) (hx : 0 < nx) :
    (Prog.forEach (bump u) (rowCells nx d)).Within (fun l => isData l ∨ rowOwn nx d l)
      (rowOwn nx d) := by
  refine within_forEach _ _ fun j hj => ?_
  have : rowOwn nx d (.rot j) := ⟨j, rfl, (mem_rowCells hx).1 hj⟩
  exact ⟨Or.inr this, fun v => ⟨this, trivial⟩⟩

theorem pixels_own (A : Alg) (p nx dx d : Nat) (hx : 0 < nx) :
    OwnSet isData (rowOwn nx) (pixelsBody (K := K) A p nx dx) d := by
  refine within_readAll _ _ ?_ fun vs _ => ?_
  · intro c hc
    obtain ⟨j, hj, rfl⟩ := List.mem_map.1 hc
    exact Or.inr ⟨j, rfl, (mem_rowCells hx).1 hj⟩
  · cases A with
    | sirt => exact ⟨Or.inl ⟨_, rfl⟩, fun b => bumps_within _ nx d hx⟩
    | mlem =>
      simp only
      split
      · exact ⟨Or.inl ⟨_, rfl⟩, fun b => bumps_within _ nx d hx⟩
      · trivial

theorem pixels_run (A : Alg) (p nx dx d : Nat) (hx : 0 < nx) (m : Cell → K) (j : Nat)
    (hj : j / nx = d) : (pixelsBody A p nx dx d).run m (.rot j) =
      m (.rot j) + gain A (m (.data (p * dx + d))) (rowSum nx (fun j => m (.rot j)) d) := by
  have hb := fun u : K => (run_bumps u (rowCells nx d) (rowCells_nodup nx d) m).1 j
    ((mem_rowCells hx).2 hj)
  unfold pixelsBody
  rw [run_readAll]
  simp only [row_sum_eq]
  cases A with
  | sirt => exact hb _
  | mlem =>
    simp only [gain]
    split
    · exact hb _
    · simp [Prog.run]

/-- **C130** After the row kernel, for every number of threads and every interleaving: every pixel
has gained the residual of its row, if that row belongs to a detector pixel, and all other memory is
unchanged. -/
theorem pixels_kernel_final (A : Alg) (p nx dx threads : Nat) (hx : 0 < nx) (ht : 0 < threads)
    (m : Cell → K) (sched : List (Fin threads))
    (hf : (Config.exec ⟨pixelsKernel A p nx dx threads, m⟩ sched).Finished) :
    (∀ j, (Config.exec ⟨pixelsKernel A p nx dx threads, m⟩ sched).mem (.rot j) = m (.rot j) +
      if j / nx < dx then
        gain A (m (.data (p * dx + j / nx))) (rowSum nx (fun j => m (.rot j)) (j / nx)) else 0) ∧
    ∀ c, (∀ j, c ≠ .rot j) →
      (Config.exec ⟨pixelsKernel A p nx dx threads, m⟩ sched).mem c = m c := by
  obtain ⟨h1, h2⟩ := parFor_final_sets (Rd := isData) (own := rowOwn nx)
    (body := pixelsBody (K := K) A p nx dx) (fun t : Fin threads => strideLoop dx threads t)
    (fun _ d _ => pixels_own A p nx dx d hx)
    (by rintro _ d _ c ⟨j, rfl, -⟩ ⟨i, h⟩; cases h)
    (by
      rintro t d hd u e he c ⟨j, rfl, hj⟩ ⟨j', h, hj'⟩
      obtain rfl := Cell.rot.inj h
      obtain rfl := hj.symm.trans hj'
      exact ⟨Fin.ext (((mem_thread t _).1 hd).2.symm.trans ((mem_thread u _).1 he).2), rfl⟩)
    (fun t => nodup_strideLoop _ _ _) m sched hf
  constructor
  · intro j
    split
    · rename_i h
      rw [← pixels_run A p nx dx (j / nx) hx m j rfl]
      exact h1 ⟨j / nx % threads, Nat.mod_lt _ ht⟩ _ ((mem_thread _ _).2 ⟨h, rfl⟩) _ ⟨j, rfl, rfl⟩
    · rename_i h
      rw [add_zero]
      refine h2 _ ?_
      rintro t d hd ⟨j', e, hj'⟩
      obtain rfl := Cell.rot.inj e
      rw [mem_thread, ← hj'] at hd
      exact h hd.1
  · intro c hc
    refine h2 c ?_
    rintro t d hd ⟨j, e, -⟩
    exact hc j e

/-- **C130** For MLEM this is the loop of the processor version. -/
theorem mlem_kernel_cpu (D : Dims) (p threads : Nat) (hx : 0 < D.nx) (ht : 0 < threads)
    (m : Cell → K) (sched : List (Fin threads))
    (hf : (Config.exec ⟨pixelsKernel .mlem p D.nx D.dx threads, m⟩ sched).Finished) (j : Nat) :
    (Config.exec ⟨pixelsKernel .mlem p D.nx D.dx threads, m⟩ sched).mem (.rot j) =
      simulate .mlem D (fun d => m (.data (p * D.dx + d))) (fun j => m (.rot j)) j := by
  rw [(pixels_kernel_final .mlem p D.nx D.dx threads hx ht m sched hf).1 j, simulate_value]
  congr 1
  simp only [gain, residual]
  split_ifs <;> simp_all

/-- **C130** For SIRT it is the loop without the test for a row sum of zero. -/
theorem sirt_kernel_rows (p nx dx threads : Nat) (hx : 0 < nx) (ht : 0 < threads)
    (m : Cell → K) (sched : List (Fin threads))
    (hf : (Config.exec ⟨pixelsKernel .sirt p nx dx threads, m⟩ sched).Finished) (j : Nat) :
    (Config.exec ⟨pixelsKernel .sirt p nx dx threads, m⟩ sched).mem (.rot j) =
      simulateGpuSirt nx (fun d => m (.data (p * dx + d))) (List.range dx)
        (fun j => m (.rot j)) j := by
  rw [(pixels_kernel_final .sirt p nx dx threads hx ht m sched hf).1 j,
    gpu_rows_value _ _ _ List.nodup_range _ _ hx]
  simp [gain]

/-! ### The update kernel -/

/-- Cells the update kernel only reads. -/
def isUpd (c : Cell) : Prop := (∃ i, c = .update i) ∨ ∃ i, c = .dist i

/-- **C130** After the update kernel, for every number of threads and every interleaving: every
element with a count different from zero has been updated once, all other memory is unchanged. -/
theorem update_kernel_final (A : Alg) (dx size threads : Nat) (ht : 0 < threads)
    (m : Cell → K) (sched : List (Fin threads))
    (hf : (Config.exec ⟨updateKernel A dx size threads, m⟩ sched).Finished) :
    (∀ i < size, (Config.exec ⟨updateKernel A dx size threads, m⟩ sched).mem (.recon i) =
      if m (.dist i) ≠ 0 ∧ dx ≠ 0 then
        combine A (m (.recon i)) (m (.update i) / m (.dist i) / (dx : K)) else m (.recon i)) ∧
    ∀ c, (∀ i < size, c ≠ .recon i) →
      (Config.exec ⟨updateKernel A dx size threads, m⟩ sched).mem c = m c := by
  obtain ⟨h1, h2⟩ := parFor_final (Rd := isUpd) (own := Cell.recon)
    (body := updateBody (K := K) A dx) (fun t : Fin threads => strideLoop size threads t)
    (by
      intro t i _
      refine ⟨Or.inl (Or.inr ⟨_, rfl⟩), fun s => ?_⟩
      dsimp only
      split
      · exact ⟨Or.inl (Or.inl ⟨_, rfl⟩), fun u => ⟨Or.inr rfl, fun v => ⟨rfl, trivial⟩⟩⟩
      · trivial)
    (by rintro t i _ (⟨k, h⟩ | ⟨k, h⟩) <;> cases h)
    (by
      intro t i hi u k hk e
      obtain rfl := Cell.recon.inj e
      exact ⟨Fin.ext (((mem_thread t _).1 hi).2.symm.trans ((mem_thread u _).1 hk).2), rfl⟩)
    (fun t => nodup_strideLoop _ _ _) m sched hf
  constructor
  · intro i hi
    have := h1 ⟨i % threads, Nat.mod_lt _ ht⟩ i ((mem_thread _ _).2 ⟨hi, rfl⟩)
    refine this.trans ?_
    simp only [updateBody, Prog.run]
    split <;> simp [Prog.run, upd]
  · intro c hc
    exact h2 c fun t i hi => hc i ((mem_thread t i).1 hi).1

/-! ### atomicAdd -/

/-- Specification: what a list of additions adds to cell `b`. -/
def amount (b : Nat) (l : List (Nat × K)) : K := (l.map fun q => if q.1 = b then q.2 else 0).sum

variable {ι : Type} [DecidableEq ι] [Fintype ι]

theorem adding_step (c : Adding ι K) (i : ι) (b : Nat) :
    (c.step i).mem b + ∑ j, amount b ((c.step i).todo j) = c.mem b + ∑ j, amount b (c.todo j) := by
  unfold Adding.step
  split
  · rfl
  · rename_i a v r he
    have h1 : ∑ j, amount b (c.todo j) = (if a = b then v else 0)
        + ∑ j, amount b (if j = i then r else c.todo j) := by
      have e1 : amount b ((a, v) :: r) = (if a = b then v else 0) + amount b r := by simp [amount]
      rw [← Finset.add_sum_erase _ _ (Finset.mem_univ i),
        ← Finset.add_sum_erase Finset.univ (fun j => amount b (if j = i then r else c.todo j))
          (Finset.mem_univ i), he, e1, if_pos rfl, add_assoc]
      refine congrArg₂ (· + ·) rfl (congrArg₂ (· + ·) rfl (Finset.sum_congr rfl fun j hj => ?_))
      rw [if_neg (Finset.ne_of_mem_erase hj)]
    simp only
    rw [h1]
    by_cases e : b = a
    · subst e; simp; ring
    · rw [if_neg e, if_neg (Ne.symm e), zero_add]

/-- **C130** Atomic additions of any number of threads, of one or several kernels at the same time:
in the end every cell has received all of them, whatever the interleaving. -/
theorem atomic_final (todo : ι → List (Nat × K)) (m : Nat → K) (sched : List ι)
    (hf : ∀ i, (Adding.exec ⟨todo, m⟩ sched).todo i = []) (b : Nat) :
    (Adding.exec ⟨todo, m⟩ sched).mem b = m b + ∑ i, amount b (todo i) := by
  have key : ∀ (s : List ι) (c : Adding ι K),
      (c.exec s).mem b + ∑ j, amount b ((c.exec s).todo j)
        = c.mem b + ∑ j, amount b (c.todo j) := by
    intro s
    induction s with
    | nil => intro c; rfl
    | cons i s ih =>
      intro c
      rw [← adding_step c i b]
      exact ih (c.step i)
  have := key sched ⟨todo, m⟩
  simp only [hf] at this
  simpa [amount] using this

theorem sum_threads (size threads : Nat) (h : 0 < threads) (f : Nat → K) :
    ∑ t : Fin threads, ((strideLoop size threads t).map f).sum = ∑ i ∈ Finset.range size, f i := by
  rw [← list_sum_range', ← ((threads_cover size threads h).map f).sum_eq, List.map_flatMap,
    List.flatMap_def, List.sum_flatten, List.map_map, Fin.sum_univ_def]
  rfl

/-- **C130** The kernel that adds the result of one slice to the array of all slices. -/
theorem atomic_sum_kernel (off size threads : Nat) (h : 0 < threads) (src : Nat → K) (b : Nat) :
    ∑ t, amount b (atomicSum off size threads src t) =
      if off ≤ b ∧ b < off + size then src (b - off) else 0 := by
  have e : ∀ t, amount b (atomicSum off size threads src t)
      = ((strideLoop size threads t).map fun i => if off + i = b then src i else 0).sum := by
    intro t
    simp only [amount, atomicSum, List.map_map]
    rfl
  simp only [e]
  rw [sum_threads size threads h (fun i => if off + i = b then src i else 0)]
  split
  · rename_i hb
    rw [Finset.sum_eq_single_of_mem (b - off) (Finset.mem_range.2 (by omega))]
    · rw [if_pos (by omega)]
    · intro i _ hne
      rw [if_neg (by omega)]
  · rename_i hb
    refine Finset.sum_eq_zero fun i hi => ?_
    rw [if_neg]
    rintro rfl
    exact hb ⟨by omega, by have := Finset.mem_range.1 hi; omega⟩

/-! ### Counts -/

theorem amount_flatMap {α : Type} (b : Nat) (l : List α) (f : α → List (Nat × K)) :
    amount b (l.flatMap f) = (l.map fun a => amount b (f a)).sum := by
  simp only [amount, List.map_flatMap]
  rw [List.flatMap_def, List.sum_flatten, List.map_map]
  rfl

/-- All additions of the counting kernel to one cell. -/
theorem sumDist_total (dy dx nx ny gx gy gz : Nat) (hx : 0 < gx) (hy : 0 < gy) (hz : 0 < gz)
    (ones : Nat → Int) (b : Nat) :
    ∑ t, amount (K := K) b (sumDistAdds dy dx nx ny gx gy gz ones t) =
      ∑ s ∈ Finset.range dy, ∑ d ∈ Finset.range dx, ∑ n ∈ Finset.range nx,
        if s * nx * ny + d * nx + n = b then (if 0 < ones (d * nx + n) then 1 else 0) else 0 := by
  have e : ∀ t : Fin gx × Fin gy × Fin gz,
      amount (K := K) b (sumDistAdds dy dx nx ny gx gy gz ones t)
      = ((strideLoop dy gz t.2.2).map fun s => ((strideLoop dx gy t.2.1).map fun d =>
        ((strideLoop nx gx t.1).map fun n => if s * nx * ny + d * nx + n = b then
          (if 0 < ones (d * nx + n) then (1 : K) else 0) else 0).sum).sum).sum := by
    intro t
    unfold sumDistAdds
    rw [amount_flatMap]
    refine congrArg List.sum (List.map_congr_left fun s _ => ?_)
    rw [amount_flatMap]
    refine congrArg List.sum (List.map_congr_left fun d _ => ?_)
    simp only [amount, List.map_map]
    rfl
  simp only [e]
  rw [Fintype.sum_prod_type]
  simp only [Fintype.sum_prod_type]
  simp only [sum_threads dy gz hz]
  rw [Finset.sum_comm' (t' := Finset.univ) (s' := fun _ => Finset.univ) (by simp)]
  have h1 : ∀ (y : Fin gy) (x : Fin gx), (∑ s ∈ Finset.range dy, ((strideLoop dx gy y).map fun d =>
        ((strideLoop nx gx x).map fun n => if s * nx * ny + d * nx + n = b then
          (if 0 < ones (d * nx + n) then (1 : K) else 0) else 0).sum).sum)
      = ((strideLoop dx gy y).map fun d => ∑ s ∈ Finset.range dy,
        ((strideLoop nx gx x).map fun n => if s * nx * ny + d * nx + n = b then
          (if 0 < ones (d * nx + n) then (1 : K) else 0) else 0).sum).sum := by
    intro y x
    induction strideLoop dx gy y with
    | nil => simp
    | cons a l ih => simp only [List.map_cons, List.sum_cons, Finset.sum_add_distrib, ih]
  simp only [h1]
  rw [Finset.sum_comm]
  simp only [sum_threads dx gy hy]
  rw [Finset.sum_comm]
  simp only [Finset.sum_comm (s := (Finset.univ : Finset (Fin gx))), sum_threads nx gx hx]
  rw [Finset.sum_comm]

/-- One run of the counting kernel adds one where the turned image is positive, in rows below `dx`
of every slice. -/
theorem sumDist_value (dy dx nx ny gx gy gz : Nat) (hx : 0 < gx) (hy : 0 < gy) (hz : 0 < gz)
    (hd : dx ≤ ny) (ones : Nat → Int) (s i : Nat) (hs : s < dy) (hi : i < nx * ny) :
    ∑ t, amount (K := K) (s * nx * ny + i) (sumDistAdds dy dx nx ny gx gy gz ones t) =
      if i < dx * nx ∧ 0 < ones i then 1 else 0 := by
  rw [sumDist_total dy dx nx ny gx gy gz hx hy hz]
  have hnx : 0 < nx := Nat.pos_of_ne_zero fun e => by subst e; omega
  have hle : dx * nx ≤ nx * ny := by rw [Nat.mul_comm]; exact Nat.mul_le_mul_left _ hd
  have uniq : ∀ s' d n, d < dx → n < nx → s' * nx * ny + d * nx + n = s * nx * ny + i →
      s' = s ∧ d * nx + n = i := by
    intro s' d n h1 h2 h3
    have h4 : d * nx + n < dx * nx := by
      calc d * nx + n < d * nx + nx := by omega
        _ = (d + 1) * nx := by ring
        _ ≤ dx * nx := Nat.mul_le_mul_right _ h1
    rw [Nat.mul_assoc, Nat.mul_assoc, Nat.add_assoc] at h3
    have hpos : 0 < nx * ny := by omega
    have e1 : s' = s := by
      have := congrArg (· / (nx * ny)) h3
      simp only [Nat.mul_comm _ (nx * ny)] at this
      rwa [Nat.mul_add_div hpos, Nat.mul_add_div hpos, Nat.div_eq_of_lt (by omega),
        Nat.div_eq_of_lt hi, Nat.add_zero, Nat.add_zero] at this
    subst e1
    exact ⟨rfl, by omega⟩
  by_cases hlt : i < dx * nx
  · have hq : i / nx < dx := Nat.div_lt_of_lt_mul (by rwa [Nat.mul_comm])
    have hm : i % nx < nx := Nat.mod_lt _ hnx
    have hdm : i / nx * nx + i % nx = i := by rw [Nat.mul_comm]; exact Nat.div_add_mod i nx
    rw [Finset.sum_eq_single_of_mem s (Finset.mem_range.2 hs),
      Finset.sum_eq_single_of_mem (i / nx) (Finset.mem_range.2 hq),
      Finset.sum_eq_single_of_mem (i % nx) (Finset.mem_range.2 hm)]
    · rw [if_pos (by omega), hdm]
      simp [hlt]
    · intro n hn hne
      rw [if_neg]
      intro h
      have := (uniq s _ n hq (Finset.mem_range.1 hn) h).2
      exact hne (by omega)
    · intro d hdr hne
      refine Finset.sum_eq_zero fun n hn => if_neg fun h => hne ?_
      have hn' := Finset.mem_range.1 hn
      have := (uniq s d n (Finset.mem_range.1 hdr) hn' h).2
      rw [← this, Nat.mul_comm, Nat.mul_add_div hnx, Nat.div_eq_of_lt hn', Nat.add_zero]
    · intro s' _ hne
      refine Finset.sum_eq_zero fun d hdr => Finset.sum_eq_zero fun n hn => if_neg fun h => hne ?_
      exact (uniq s' d n (Finset.mem_range.1 hdr) (Finset.mem_range.1 hn) h).1
  · rw [if_neg (fun h => hlt h.1)]
    refine Finset.sum_eq_zero fun s' _ => Finset.sum_eq_zero fun d hdr =>
      Finset.sum_eq_zero fun n hn => if_neg fun h => hlt ?_
    have h1 := Finset.mem_range.1 hdr
    have h2 := Finset.mem_range.1 hn
    rw [← (uniq s' d n h1 h2 h).2]
    calc d * nx + n < d * nx + nx := by omega
      _ = (d + 1) * nx := by ring
      _ ≤ dx * nx := Nat.mul_le_mul_right _ h1

/-- **C130** The counts are those of the processor version, in every slice, whatever the numbers of
threads and the interleavings (here `cover` is given by the signs of the turned image). -/
theorem gpu_counts (D : Dims) (R : Rot K) (ones : Nat → Nat → Int) (dist : Nat → K)
    (hd : D.dx ≤ D.ny) (hc : ∀ p i, R.cover p i = decide (0 < ones p i))
    (h : GpuCounts D ones dist) (s i : Nat) (hs : s < D.dy) (hi : i < D.nx * D.ny) :
    dist (s * D.nx * D.ny + i) = (sumDist D R i : K) := by
  obtain ⟨gx, gy, gz, hx, hy, hz, mem, h0, hstep, rfl⟩ := h
  have key : ∀ k ≤ D.dt, mem k (s * D.nx * D.ny + i) =
      (((List.range k).filter fun p => decide (i < D.dx * D.nx) && R.cover p i).length : K) := by
    intro k
    induction k with
    | zero => intro _; rw [h0]; simp
    | succ k ih =>
      intro hk
      obtain ⟨sched, hf, hm⟩ := hstep k (by omega)
      rw [hm, atomic_final _ _ sched hf, ih (by omega),
        sumDist_value D.dy D.dx D.nx D.ny gx gy gz hx hy hz hd (ones k) s i hs hi,
        List.range_succ, List.filter_append, List.length_append, Nat.cast_add]
      congr 1
      simp only [hc]
      by_cases h1 : i < D.dx * D.nx <;> by_cases h2 : 0 < ones k i <;> simp [h1, h2]
  exact key D.dt (le_refl _)

/-- **C130** The value the bytes of the image of ones have is positive. -/
theorem memset_positive : 0 < memsetOne ∧ memsetOne = 16843009 := by decide

/-! ### One iteration -/

/-- Specification: contribution of a projection on the graphics card; for MLEM that of the
processor. -/
def gpuContrib (A : Alg) (D : Dims) (R : Rot K) (data : Nat → Nat → Nat → K) (x : Nat → Img K)
    (p s : Nat) : Img K :=
  match A with
  | .mlem => contrib .mlem D R data x p s
  | .sirt => R.bwd p (simulateGpuSirt D.nx (data s p) (List.range D.dx) (R.fwd p (x s)))

theorem simulate_congr (A : Alg) (D : Dims) {b b' : Nat → K} (rot : Img K)
    (h : ∀ d < D.dx, b d = b' d) : simulate A D b rot = simulate A D b' rot := by
  funext j
  rw [simulate_value, simulate_value]
  congr 1
  by_cases hj : j / D.nx < D.dx
  · rw [h _ hj]
  · simp [hj]

theorem simulateGpu_congr {nx dx : Nat} (hx : 0 < nx) {b b' : Nat → K} (rot : Img K)
    (h : ∀ d < dx, b d = b' d) :
    simulateGpuSirt nx b (List.range dx) rot = simulateGpuSirt nx b' (List.range dx) rot := by
  funext j
  rw [gpu_rows_value _ _ _ List.nodup_range _ _ hx, gpu_rows_value _ _ _ List.nodup_range _ _ hx]
  by_cases hj : j / nx < dx
  · rw [h _ hj]
  · simp [hj]

/-- **C130** One iteration on the graphics card, for all numbers of threads and all interleavings of
all kernels: the image is the old one updated with the sum of the contributions. -/
theorem gpu_iter_value (A : Alg) (D : Dims) (R : Rot K) (data : Nat → Nat → Nat → K)
    (ones : Nat → Nat → Int) (dist : Nat → K) (x x' : Nat → Img K) (hx : 0 < D.nx)
    (hd : D.dx ≤ D.ny) (hc : ∀ p i, R.cover p i = decide (0 < ones p i))
    (hdist : GpuCounts D ones dist) (h : GpuIter A D R data dist x x') (s i : Nat) (hs : s < D.dy)
    (hi : i < D.nx * D.ny) :
    x' s i = apply A D R
      (fun s i => ((List.range D.dt).map fun p => gpuContrib A D R data x p s i).sum) x s i := by
  obtain ⟨contr, upd, hcontr, ⟨threads, ht, sched, hf, rfl⟩, threads', ht', m, sched', hm1, hm2,
    hf', hx'⟩ := h
  have hlt : s * D.nx * D.ny + i < D.dy * D.nx * D.ny := by
    calc s * D.nx * D.ny + i < s * (D.nx * D.ny) + D.nx * D.ny := by rw [Nat.mul_assoc]; omega
      _ = (s + 1) * (D.nx * D.ny) := by ring
      _ ≤ D.dy * (D.nx * D.ny) := Nat.mul_le_mul_right _ hs
      _ = D.dy * D.nx * D.ny := by rw [Nat.mul_assoc]
  have hcv : ∀ p < D.dt, ∀ s < D.dy, contr p s = gpuContrib A D R data x p s := by
    intro p hp s hs
    obtain ⟨rot', ⟨th, hth, m', sc, h1, h2, h3, h4⟩, h5⟩ := hcontr p hp s hs
    have hrot : (fun j => m' (.rot j)) = R.fwd p (x s) := funext h1
    rw [h5]
    cases A with
    | mlem =>
      have : rot' = simulate .mlem D (data s p) (R.fwd p (x s)) := by
        funext j
        rw [h4, mlem_kernel_cpu D p th hx hth m' sc h3 j, hrot, simulate_congr .mlem D _ h2]
      rw [this]
      rfl
    | sirt =>
      have : rot' = simulateGpuSirt D.nx (data s p) (List.range D.dx) (R.fwd p (x s)) := by
        funext j
        rw [h4, sirt_kernel_rows p D.nx D.dx th hx hth m' sc h3 j, hrot,
          simulateGpu_congr hx _ h2]
      rw [this]
      rfl
  have hupd : (Adding.exec ⟨fun t : (Fin D.dt × Fin D.dy) × Fin threads =>
      atomicSum (t.1.2 * D.nx * D.ny) (D.nx * D.ny) threads (contr t.1.1 t.1.2) t.2,
        fun _ => (0 : K)⟩ sched).mem (s * D.nx * D.ny + i)
      = ((List.range D.dt).map fun p => gpuContrib A D R data x p s i).sum := by
    rw [atomic_final _ _ sched hf, zero_add, Fintype.sum_prod_type]
    simp only [atomic_sum_kernel _ _ _ ht]
    rw [Fintype.sum_prod_type, list_sum_range', ← Fin.sum_univ_eq_sum_range
      (fun p => gpuContrib A D R data x p s i)]
    refine Finset.sum_congr rfl fun p _ => ?_
    rw [Finset.sum_eq_single_of_mem (⟨s, hs⟩ : Fin D.dy) (Finset.mem_univ _)]
    · simp only
      rw [if_pos (by omega), Nat.add_sub_cancel_left, hcv p p.2 s hs]
    · intro s' _ hne
      rw [if_neg]
      rintro ⟨h1, h2⟩
      apply hne
      apply Fin.ext
      simp only
      have hpos : 0 < D.nx * D.ny := by omega
      rw [Nat.mul_assoc, Nat.mul_assoc] at h1 h2
      have e : (s * (D.nx * D.ny) + i) / (D.nx * D.ny) = s := by
        rw [Nat.mul_comm, Nat.mul_add_div hpos, Nat.div_eq_of_lt hi, Nat.add_zero]
      have h3 : (s' : Nat) ≤ (s * (D.nx * D.ny) + i) / (D.nx * D.ny) :=
        (Nat.le_div_iff_mul_le hpos).2 h1
      have h4 : (s * (D.nx * D.ny) + i) / (D.nx * D.ny) < s' + 1 :=
        (Nat.div_lt_iff_lt_mul hpos).2 (by rw [Nat.succ_mul]; exact h2)
      omega
  rw [hx' s hs i hi, (update_kernel_final A D.dx _ threads' ht' m sched' hf').1 _ hlt,
    hm1 s hs i hi, (hm2 _ hlt).1, (hm2 _ hlt).2, hupd,
    gpu_counts D R ones dist hd hc hdist s i hs hi]
  unfold apply
  simp only [ne_eq, Nat.cast_eq_zero]

/-- **C130** MLEM on the graphics card computes the iteration of the processor version. -/
theorem gpu_mlem_eq_cpu (D : Dims) (R : Rot K) (data : Nat → Nat → Nat → K)
    (ones : Nat → Nat → Int) (dist : Nat → K) (x x' : Nat → Img K) (hx : 0 < D.nx)
    (hd : D.dx ≤ D.ny) (hc : ∀ p i, R.cover p i = decide (0 < ones p i))
    (hdist : GpuCounts D ones dist) (h : GpuIter .mlem D R data dist x x') (s i : Nat)
    (hs : s < D.dy) (hi : i < D.nx * D.ny) : x' s i = iter .mlem D R data x s i :=
  gpu_iter_value .mlem D R data ones dist x x' hx hd hc hdist h s i hs hi

/-! ### The hypotheses are met -/

theorem adding_exists (c : Adding ι K) : ∃ sched, ∀ i, (c.exec sched).todo i = [] := by
  suffices h : ∀ n (c : Adding ι K), ∑ i, (c.todo i).length = n →
      ∃ sched, ∀ i, (c.exec sched).todo i = [] from h _ c rfl
  intro n
  induction n with
  | zero =>
    intro c hc
    refine ⟨[], fun i => ?_⟩
    have := (Finset.sum_eq_zero_iff.1 hc) i (Finset.mem_univ i)
    exact List.length_eq_zero_iff.1 this
  | succ n ih =>
    intro c hc
    obtain ⟨i, -, hi⟩ := Finset.exists_ne_zero_of_sum_ne_zero (by rw [hc]; omega)
    obtain ⟨⟨a, v⟩, r, he⟩ := List.exists_cons_of_length_pos (Nat.pos_of_ne_zero hi)
    have hstep : ∑ j, ((c.step i).todo j).length = n := by
      have h1 : ∀ j, ((c.step i).todo j).length + (if j = i then 1 else 0)
          = (c.todo j).length := by
        intro j
        simp only [Adding.step, he]
        by_cases e : j = i
        · subst e; simp [he]
        · simp [e]
      have h2 : ∑ j, (((c.step i).todo j).length + (if j = i then 1 else 0)) = n + 1 := by
        rw [← hc]
        exact Finset.sum_congr rfl fun j _ => h1 j
      rw [Finset.sum_add_distrib, Finset.sum_ite_eq' Finset.univ i] at h2
      simpa using h2
    obtain ⟨s, hs⟩ := ih (c.step i) hstep
    exact ⟨i :: s, hs⟩

/-- **C130** Counts and an iteration exist for all sizes, data and images. -/
theorem gpu_exists (A : Alg) (D : Dims) (R : Rot K) (data : Nat → Nat → Nat → K)
    (ones : Nat → Nat → Int) (x : Nat → Img K) :
    ∃ (dist : Nat → K) (x' : Nat → Img K), GpuCounts D ones dist ∧ GpuIter A D R data dist x x' := by
  have hcounts : ∃ dist : Nat → K, GpuCounts D ones dist := by
    choose sched hs using fun (p : Nat) (m : Nat → K) =>
      adding_exists ⟨sumDistAdds D.dy D.dx D.nx D.ny 1 1 1 (ones p), m⟩
    let mem : Nat → Nat → K := fun k => Nat.rec (fun _ => 0) (fun p m =>
      (Adding.exec ⟨sumDistAdds D.dy D.dx D.nx D.ny 1 1 1 (ones p), m⟩ (sched p m)).mem) k
    exact ⟨mem D.dt, 1, 1, 1, by omega, by omega, by omega, mem, rfl,
      fun p _ => ⟨sched p (mem p), hs p (mem p), rfl⟩, rfl⟩
  obtain ⟨dist, hdist⟩ := hcounts
  have hrows : ∀ p (b : Nat → K) (rot : Img K), ∃ rot', GpuRows A D p b rot rot' := by
    intro p b rot
    let m : Cell → K := fun c => match c with
      | .rot j => rot j
      | .data k => b (k - p * D.dx)
      | _ => 0
    obtain ⟨sched, hs⟩ := exists_finished (List.finRange 1)
      (⟨pixelsKernel A p D.nx D.dx 1, m⟩ : Config (Fin 1) Cell K) (by
        intro i hi; exact absurd (List.mem_finRange i) hi)
    refine ⟨_, 1, by omega, m, sched, fun _ => rfl, fun d _ => ?_, hs, fun j => rfl⟩
    simp only [m, Nat.add_sub_cancel_left]
  choose rot' hrot' using hrows
  let contr : Nat → Nat → Img K := fun p s => R.bwd p (rot' p (data s p) (R.fwd p (x s)))
  obtain ⟨sched, hs⟩ := adding_exists (⟨fun t : (Fin D.dt × Fin D.dy) × Fin 1 =>
      atomicSum (t.1.2 * D.nx * D.ny) (D.nx * D.ny) 1 (contr t.1.1 t.1.2) t.2,
        fun _ => (0 : K)⟩ : Adding _ K)
  set upd := (Adding.exec ⟨fun t : (Fin D.dt × Fin D.dy) × Fin 1 =>
      atomicSum (t.1.2 * D.nx * D.ny) (D.nx * D.ny) 1 (contr t.1.1 t.1.2) t.2,
        fun _ => (0 : K)⟩ sched).mem with hupd
  let m : Cell → K := fun c => match c with
    | .recon k => x (k / (D.nx * D.ny)) (k % (D.nx * D.ny))
    | .update i => upd i
    | .dist i => dist i
    | _ => 0
  obtain ⟨sched', hs'⟩ := exists_finished (List.finRange 1)
    (⟨updateKernel A D.dx (D.dy * D.nx * D.ny) 1, m⟩ : Config (Fin 1) Cell K) (by
      intro i hi; exact absurd (List.mem_finRange i) hi)
  refine ⟨dist, _, hdist, contr, upd, fun p _ s _ => ⟨_, hrot' p (data s p) (R.fwd p (x s)), rfl⟩,
    ⟨1, by omega, sched, hs, hupd⟩, 1, by omega, m, sched', ?_, fun i _ => ⟨rfl, rfl⟩, hs',
    fun s _ i _ => rfl⟩
  intro s _ i hi
  have hpos : 0 < D.nx * D.ny := by omega
  simp only [m]
  rw [Nat.mul_assoc, Nat.mul_comm s, Nat.mul_add_div hpos, Nat.div_eq_of_lt hi, Nat.add_zero,
    Nat.mul_add_mod, Nat.mod_eq_of_lt hi]

example : strideLoop 7 4 2 = [2, 6] ∧ gridSize 65 32 = some 3 ∧ computeGrid 7 65 32 = some 7 := by
  refine ⟨?_, by decide, by decide⟩
  simp [strideLoop]

end Tomopy.Accel
