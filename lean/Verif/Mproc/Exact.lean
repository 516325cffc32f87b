import Verif.Mproc.Props

/-! Exactly when automatic chunking leaves a worker idle (C121). -/
set_option linter.unusedSectionVars false

namespace Tomopy.Mproc

/-- **C121** With automatic chunk size, `k` is the smallest of cores, request and slices, chunks
have `⌈axis/k⌉` slices, and every one of the `k` workers gets a chunk exactly if `k-1` full chunks
do not exhaust the axis. -/
theorem ncore_nchunk_busy_iff (cpu axis : Nat) (hcpu : 1 ≤ cpu) (haxis : 1 ≤ axis)
    (ncore : Option Nat) (hn : ncore ≠ some 0) :
    ∃ k c, getNcoreNchunk cpu axis ncore none = .ok (k, c) ∧
      k = min (min cpu (ncore.getD cpu)) axis ∧ axis ≤ k * c ∧ k * (c - 1) < axis ∧
      (k ≤ (jobSlices axis c).length ↔ (k - 1) * c < axis) := by
  have hl : limitCores cpu ncore = min cpu (ncore.getD cpu) := by
    cases ncore with
    | none => simp [limitCores]
    | some a => simp only [limitCores, Option.getD_some]; split <;> omega
  have hk1 : 1 ≤ min (min cpu (ncore.getD cpu)) axis := by
    cases ncore with
    | none => simp; omega
    | some a =>
      have : a ≠ 0 := fun e => hn (by rw [e])
      simp only [Option.getD_some]; omega
  have hle : min (min cpu (ncore.getD cpu)) axis ≤ axis := Nat.min_le_right _ _
  have hrun : getNcoreNchunk cpu axis ncore none = .ok (min (min cpu (ncore.getD cpu)) axis,
      ceilDiv axis (min (min cpu (ncore.getD cpu)) axis)) := by
    have hcd : ceilDiv axis 1 = axis := by simp [ceilDiv]
    have hif : (if min cpu (ncore.getD cpu) > axis then axis else min cpu (ncore.getD cpu))
        = min (min cpu (ncore.getD cpu)) axis := by split <;> omega
    simp only [getNcoreNchunk, limitChunk, orOne, hcd, hl, hif]
    rw [if_neg (by omega)]
  generalize min (min cpu (ncore.getD cpu)) axis = k at *
  have hcp := ceilDiv_pos axis k haxis hk1
  have hcov := le_ceil_mul axis k hk1
  have hlow : k * (ceilDiv axis k - 1) < axis := by
    have h5 := Nat.div_mul_le_self (axis + k - 1) k
    unfold ceilDiv at hcp ⊢
    have h6 : (axis + k - 1) / k * k = k * ((axis + k - 1) / k - 1) + k := by
      obtain ⟨q, hq⟩ : ∃ q, (axis + k - 1) / k = q + 1 := ⟨_, (Nat.sub_add_cancel hcp).symm⟩
      rw [hq, Nat.add_sub_cancel]; ring
    omega
  refine ⟨k, ceilDiv axis k, hrun, rfl, ?_, hlow, ?_⟩
  · rw [Nat.mul_comm]; exact hcov
  · rw [length_jobSlices, if_neg (by omega)]
    generalize ceilDiv axis k = c at *
    have h7 := Nat.le_div_iff_mul_le (x := k) (y := axis + c - 1) hcp
    have h8 : ceilDiv axis c = (axis + c - 1) / c := rfl
    rw [h8, h7]
    obtain ⟨m, rfl⟩ : ∃ m, k = m + 1 := ⟨_, (Nat.sub_add_cancel hk1).symm⟩
    rw [Nat.add_sub_cancel, Nat.add_mul, Nat.one_mul]
    omega

/-- Ten slices on four cores keep all busy; nine slices on six do not. -/
example : getNcoreNchunk 4 10 none none = .ok (4, 3) ∧ (4 - 1) * 3 < 10 ∧
    getNcoreNchunk 6 9 none none = .ok (6, 2) ∧ ¬ (6 - 1) * 2 < 9 := by decide

end Tomopy.Mproc
