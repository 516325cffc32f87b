import Verif.Normalize.Props
import Mathlib.Tactic.LinearCombination

/-! Exactly when background normalisation stays inside its array and flattens a linear row (C123). -/
set_option linter.unusedSectionVars false

namespace Tomopy.Normalize
open Tomopy.Num

variable {K : Type} [LinearOrder K] [Field K] [IsStrictOrderedRing K]

theorem airSums_overrun (size : Nat) (mem : Nat → K) (dz nair : Nat) (h : dz < nair) :
    airSums size mem 0 dz nair = none := by
  obtain ⟨d, rfl⟩ := Nat.exists_eq_add_of_lt h
  induction d with
  | zero =>
    rw [Nat.add_zero, airSums]
    rcases airSums size mem 0 dz dz with _ | ⟨l, r⟩
    · rfl
    · have : rd size mem (((0 : Nat) : Int) + dz - 1 - dz) = none := by
        unfold rd; rw [if_neg (by omega)]
      simp only [Option.bind_eq_bind, Option.bind_some, this]
      rcases rd size mem (((0 : Nat) : Int) + dz) <;> rfl
  | succ d ih =>
    rw [show dz + (d + 1) + 1 = (dz + d + 1) + 1 by omega, airSums, ih (by omega)]
    rfl

/-- **C123** `normalize_bg` fails (reads outside the array or divides 0 by 0) exactly if there is a
row and the air region is empty or wider than the row, or the row has fewer than two pixels. -/
theorem normalize_bg_none_iff (rows dz nair : Nat) (mem : Nat → K) :
    normalizeBg rows dz nair mem = none ↔ 1 ≤ rows ∧ (nair = 0 ∨ dz < nair ∨ dz ≤ 1) := by
  constructor
  · intro h
    rcases Nat.eq_zero_or_pos rows with rfl | hr
    · cases h
    · refine ⟨hr, ?_⟩
      by_contra hc
      obtain ⟨m, hm, _⟩ := normalize_bg_spec rows dz nair mem (by omega) (by omega) (by omega)
      rw [h] at hm
      cases hm
  · rintro ⟨hr, h⟩
    obtain ⟨n, rfl⟩ : ∃ n, rows = n + 1 := ⟨_, (Nat.sub_add_cancel hr).symm⟩
    have h0 : bgRow ((n + 1) * dz) dz nair mem (0 * dz) = none := by
      unfold bgRow
      rw [Nat.zero_mul]
      split
      · rfl
      · rw [airSums_overrun _ _ _ _ (by omega)]
        rfl
    unfold normalizeBg
    rw [List.range_succ_eq_map, List.foldlM_cons, h0]
    rfl

theorem sum_affine (a b : K) (n : Nat) :
    ((List.range n).map fun k : Nat => a + b * (k : K)).sum = n * a + b * (n * (n - 1) / 2) := by
  induction n with
  | zero => simp
  | succ n ih =>
    rw [List.range_succ, List.map_append, List.sum_append, ih]
    simp only [List.map_cons, List.map_nil, List.sum_cons, List.sum_nil, Nat.cast_add, Nat.cast_one]
    ring

theorem mean_affine (a b : K) (n : Nat) (hn : 1 ≤ n) :
    mean ((List.range n).map fun k : Nat => a + b * (k : K)) = a + b * ((n - 1) / 2) := by
  have : (n : K) ≠ 0 := by exact_mod_cast (by omega : n ≠ 0)
  unfold mean
  rw [sum_affine, List.length_map, List.length_range]
  field_simp

/-- **C123** A linear row with positive air levels is flattened to ones exactly if the air region
is a single pixel or the row is constant. -/
theorem normalize_bg_affine_iff (rows dz nair : Nat) (mem mem' : Nat → K) (hn : 1 ≤ nair)
    (hn' : nair ≤ dz) (hz : 2 ≤ dz) (h : normalizeBg rows dz nair mem = some mem') (r : Nat)
    (hr : r < rows) (a b : K) (hleft : 0 < a + b * ((nair - 1) / 2))
    (hright : 0 < a + b * ((dz - 1) - (nair - 1) / 2))
    (hl : ∀ j < dz, mem (r * dz + j) = a + b * j) :
    (∀ j < dz, mem' (r * dz + j) = 1) ↔ nair = 1 ∨ b = 0 := by
  obtain ⟨m, e1, s1, _⟩ := normalize_bg_spec rows dz nair mem hn hn' hz
  rw [h, Option.some.injEq] at e1
  subst e1
  have hd : ((dz - 1 : Nat) : K) ≠ 0 := by exact_mod_cast (by omega : dz - 1 ≠ 0)
  have hdc : ((dz - 1 : Nat) : K) = (dz : K) - 1 := by
    rw [Nat.cast_sub (by omega), Nat.cast_one]
  have m1 : mean ((List.range nair).map fun k => mem (r * dz + k)) = a + b * ((nair - 1) / 2) := by
    rw [← mean_affine a b nair hn]
    congr 1
    refine List.map_congr_left fun k hk => ?_
    have := List.mem_range.1 hk
    exact hl k (by omega)
  have m2 : mean ((List.range nair).map fun k => mem (r * dz + (dz - 1 - k)))
      = a + b * ((dz - 1) - (nair - 1) / 2) := by
    have e := mean_affine (a + b * ((dz : K) - 1)) (-b) nair hn
    rw [show a + b * (((dz : K) - 1) - (nair - 1) / 2)
      = a + b * ((dz : K) - 1) + -b * (((nair : K) - 1) / 2) by ring, ← e]
    congr 1
    refine List.map_congr_left fun k hk => ?_
    have := List.mem_range.1 hk
    rw [hl _ (by omega), Nat.cast_sub (by omega), hdc]
    ring
  have line : ∀ j, airLine dz nair (fun k => mem (r * dz + k)) j
      = a + b * ((nair - 1) / 2) + b * ((dz - 1) - (nair - 1)) * (j / (dz - 1 : Nat)) := by
    intro j
    unfold airLine level
    simp only [m1, m2]
    rw [if_pos hleft, if_pos hright]
    ring
  constructor
  · intro h1
    have h0 := h1 0 (by omega)
    rw [s1 r hr 0 (by omega), div_eq_one_iff_eq (ne_of_gt (airLine_pos dz nair _ 0 (by omega) hz)),
      line, hl 0 (by omega)] at h0
    simp only [Nat.cast_zero, mul_zero, add_zero, zero_div] at h0
    have h2 : b * ((nair : K) - 1) = 0 := by linear_combination (-2) * h0
    rcases mul_eq_zero.1 h2 with hb | hb
    · exact Or.inr hb
    · left
      have : (nair : K) = 1 := by linear_combination hb
      exact_mod_cast this
  · intro hc j hj
    rw [s1 r hr j hj, div_eq_one_iff_eq (ne_of_gt (airLine_pos dz nair _ j hj hz)), line, hl j hj]
    rcases hc with rfl | rfl
    · rw [← hdc]
      field_simp
      push_cast
      ring
    · ring

/-- Both sides occur: the row 1, 2, 3 with one and with two pixels of air. -/
example : (∀ m, normalizeBg (K := ℚ) 1 3 1 (fun q => q + 1) = some m → ∀ j < 3, m (0 * 3 + j) = 1) ∧
    ∀ m, normalizeBg (K := ℚ) 1 3 2 (fun q => q + 1) = some m → ¬ ∀ j < 3, m (0 * 3 + j) = 1 := by
  refine ⟨fun m h => ?_, fun m h => ?_⟩
  · exact (normalize_bg_affine_iff 1 3 1 _ m (by decide) (by decide) (by decide) h 0 (by decide) 1 1
      (by norm_num) (by norm_num) (by intro j _; push_cast; ring)).2 (Or.inl rfl)
  · intro hc
    have := (normalize_bg_affine_iff 1 3 2 _ m (by decide) (by decide) (by decide) h 0 (by decide)
      1 1 (by norm_num) (by norm_num) (by intro j _; push_cast; ring)).1 hc
    revert this
    norm_num

end Tomopy.Normalize
