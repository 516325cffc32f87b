import Verif.Morph.TrimModel
import Mathlib.Tactic.LinearCombination
import Mathlib.Tactic.Linarith
import Mathlib.Data.List.Basic

/-! C127: trimming a sinogram to a circle. -/
set_option linter.unusedSectionVars false

namespace Tomopy.Trim

variable {K : Type} [One K]

/-- Specification: an integer position is outside of a frame with the edges 0 to `dz`. -/
def Outside (dz : Nat) (i : Int) : Prop := i < 0 ∨ (dz : Int) < i

/-- Specification: left edge of the shadow of the circle with centre `(x, y)` on the detector, in
the projection at angle `φ`. -/
noncomputable def shadow (center x y diameter φ : ℝ) : ℝ :=
  center + (y * Real.cos φ + x * Real.sin φ) - diameter / 2

/-- **C127** The computed start is the left edge of the shadow. -/
theorem start_eq_shadow (dx : Nat) (center x y diameter : ℝ) (m : Nat) :
    start dx center x y diameter m = shadow center x y diameter (m * (Real.pi / dx)) := by
  have hn : ‖(⟨y, x⟩ : ℂ)‖ = Real.sqrt (x * x + y * y) := by
    rw [Complex.norm_def, Complex.normSq_mk, add_comm]
  have hc := Complex.norm_mul_cos_arg ⟨y, x⟩
  have hs := Complex.norm_mul_sin_arg ⟨y, x⟩
  rw [hn] at hc hs
  simp only at hc hs
  simp only [start, shadow, Real.cos_sub]
  linear_combination Real.cos (m * (Real.pi / dx)) * hc + Real.sin (m * (Real.pi / dx)) * hs

theorem clamp_int {dz : Nat} {i a : Int} (h : clamp dz i = .int a) :
    (i < 0 ∧ a = 0) ∨ ((dz : Int) < i ∧ a = dz) := by
  unfold clamp at h
  split at h
  · exact Or.inl ⟨‹_›, (Num.int.inj h).symm⟩
  · split at h
    · exact Or.inr ⟨‹_›, (Num.int.inj h).symm⟩
    · cases h

theorem clamp_outside {dz : Nat} {i : Int} (h : Outside dz i) : ∃ a, clamp dz i = .int a := by
  unfold clamp
  rcases h with h | h
  · exact ⟨0, if_pos h⟩
  · exact ⟨dz, by rw [if_neg (by omega), if_pos h]⟩

theorem clamp_inside {dz : Nat} {i : Int} (h : ¬ Outside dz i) : clamp dz i = .flt i := by
  unfold Outside at h
  unfold clamp
  rw [if_neg (by omega), if_neg (by omega)]

theorem mapM_ok {α β : Type} {f : α → Except PyErr β} {g : α → β} {l : List α}
    (h : ∀ a ∈ l, f a = .ok (g a)) : l.mapM f = .ok (l.map g) := by
  induction l with
  | nil => rfl
  | cons a l ih =>
    rw [List.mapM_cons, h a (by simp), ih fun b hb => h b (by simp [hb])]
    rfl

theorem mapM_err {α β : Type} {f : α → Except PyErr β} {e : PyErr} {l : List α}
    (h : ∀ a ∈ l, (∃ b, f a = .ok b) ∨ f a = .error e) (hx : ∃ a ∈ l, f a = .error e) :
    l.mapM f = .error e := by
  induction l with
  | nil => obtain ⟨a, ha, -⟩ := hx; cases ha
  | cons a l ih =>
    rw [List.mapM_cons]
    rcases h a (by simp) with ⟨b, hb⟩ | he
    · have : l.mapM f = .error e := by
        refine ih (fun c hc => h c (by simp [hc])) ?_
        obtain ⟨c, hc, hce⟩ := hx
        rcases List.mem_cons.1 hc with rfl | hc
        · rw [hb] at hce; cases hce
        · exact ⟨c, hc, hce⟩
      rw [hb, this]
      rfl
    · rw [he]
      rfl

/-- Specification: a row of the result, if the circle covers the whole frame (`full`) or misses
it. -/
def outRow (d : Nat) (full : Prop) [Decidable full] (row : List K) : List K :=
  if full then row ++ List.replicate (d - row.length) 1 else List.replicate d 1

/-- One projection with both ends outside of the frame. -/
theorem trimProj_ok {dz d : Nat} {s : ℝ} {rows : List (List K)} (hl : ∀ r ∈ rows, r.length = dz)
    (h1 : Outside dz ⌈s⌉) (h2 : Outside dz ⌊s + d⌋) :
    trimProj dz d s rows = .ok (rows.map (outRow d (⌈s⌉ < 0 ∧ (dz : Int) < ⌊s + d⌋))) := by
  obtain ⟨a, ha⟩ := clamp_outside h1
  obtain ⟨b, hb⟩ := clamp_outside h2
  have hle : ⌈s⌉ ≤ ⌊s + d⌋ + 1 := by
    have h3 : (⌈s⌉ : ℝ) < s + 1 := Int.ceil_lt_add_one s
    have h4 : s + d < ⌊s + d⌋ + 1 := Int.lt_floor_add_one _
    have hd : (0 : ℝ) ≤ d := Nat.cast_nonneg d
    have h5 : (⌈s⌉ : ℝ) < (⌊s + d⌋ + 2 : ℤ) := by push_cast; linarith
    have := Int.cast_lt.1 h5
    omega
  have hge : ⌊s + d⌋ ≤ ⌈s⌉ + d := by
    have h3 : s ≤ ⌈s⌉ := Int.le_ceil s
    have h4 : (⌊s + d⌋ : ℝ) ≤ s + d := Int.floor_le _
    have h5 : (⌊s + d⌋ : ℝ) ≤ (⌈s⌉ + d : ℤ) := by push_cast; linarith
    exact Int.cast_le.1 h5
  unfold trimProj
  rw [ha, hb]
  refine mapM_ok fun row hrow => ?_
  have hr := hl row hrow
  rcases clamp_int ha with ⟨ha1, rfl⟩ | ⟨ha1, rfl⟩ <;> rcases clamp_int hb with ⟨hb1, rfl⟩ | ⟨hb1, rfl⟩
  · rw [outRow, if_neg (by omega)]
    simp [pySetSlice, pySlice, pyIdx, pyBound]
  · rw [outRow, if_pos ⟨ha1, hb1⟩]
    have : dz ≤ d := by omega
    simp only [pySetSlice, pySlice, pyIdx, pyBound]
    have hz : ¬ ((dz : Int) < 0) := by omega
    simp [hr, this, hz]
  · omega
  · rw [outRow, if_neg (by omega)]
    simp [pySetSlice, pySlice, pyIdx, pyBound]

/-- One projection with an end inside the frame raises. -/
theorem trimProj_err {dz d : Nat} {s : ℝ} {rows : List (List K)}
    (h : ¬ Outside dz ⌈s⌉ ∨ ¬ Outside dz ⌊s + d⌋) : trimProj dz d s rows = .error .type := by
  unfold trimProj
  rcases h with h | h
  · rw [clamp_inside h]
  · rw [clamp_inside h]
    cases clamp dz ⌈s⌉ <;> rfl

/-- Specification: in every projection both ends of the shadow are outside of the frame. -/
def AllOutside (dx dz : Nat) (center x y : ℝ) (d : Nat) : Prop :=
  ∀ m < dx, Outside dz ⌈shadow center x y d (m * (Real.pi / dx))⌉ ∧
    Outside dz ⌊shadow center x y d (m * (Real.pi / dx)) + d⌋

/-- **C127 (partial)** Data come back only if in no projection an end of the shadow is in the
frame; every row is then the whole row of the data followed by ones, or ones only. -/
theorem trim_value_partial (data : List (List (List K))) (dz : Nat) (center x y : ℝ) (d : Nat)
    (hdx : data ≠ []) (hl : ∀ p ∈ data, ∀ r ∈ p, r.length = dz)
    (h : AllOutside data.length dz center x y d) :
    trimSinogram data dz center x y (.int d) = .ok ((data.zipIdx).map fun p => p.1.map
      (outRow d (⌈shadow center x y d (p.2 * (Real.pi / data.length))⌉ < 0 ∧
        (dz : Int) < ⌊shadow center x y d (p.2 * (Real.pi / data.length)) + d⌋))) := by
  have hlen : data.length ≠ 0 := fun e => hdx (List.length_eq_zero_iff.1 e)
  simp only [trimSinogram]
  rw [if_neg (by omega), if_neg hlen]
  refine mapM_ok fun p hp => ?_
  obtain ⟨hm, he⟩ := List.mem_zipIdx' hp
  have ho := h p.2 hm
  rw [Int.toNat_natCast, Int.cast_natCast, start_eq_shadow]
  refine trimProj_ok (fun r hr => hl p.1 ?_ r hr) ho.1 ho.2
  rw [he]
  exact List.getElem_mem hm

/-- **C127 (refutation)** If in one projection an end of the shadow is in the frame,
`trim_sinogram` raises `TypeError`. -/
theorem trim_type_error (data : List (List (List K))) (dz : Nat) (center x y : ℝ) (d : Nat)
    (hl : ∀ p ∈ data, ∀ r ∈ p, r.length = dz)
    (h : ¬ AllOutside data.length dz center x y d) :
    trimSinogram data dz center x y (.int d) = .error .type := by
  unfold AllOutside at h
  push Not at h
  obtain ⟨m, hm, hmo⟩ := h
  have hbad : ¬ Outside dz ⌈shadow center x y d (m * (Real.pi / data.length))⌉ ∨
      ¬ Outside dz ⌊shadow center x y d (m * (Real.pi / data.length)) + d⌋ := by
    by_cases h1 : Outside dz ⌈shadow center x y d (m * (Real.pi / data.length))⌉
    · exact Or.inr (hmo h1)
    · exact Or.inl h1
  simp only [trimSinogram]
  rw [if_neg (by omega), if_neg (by omega)]
  refine mapM_err (fun p hp => ?_) ⟨(data[m], m), ?_, ?_⟩
  · obtain ⟨hm', he⟩ := List.mem_zipIdx' hp
    rw [Int.toNat_natCast]
    set s := start data.length center x y ((d : Int) : ℝ) p.2
    by_cases h1 : Outside dz ⌈s⌉
    · by_cases h2 : Outside dz ⌊s + d⌋
      · refine Or.inl ⟨_, trimProj_ok (fun r hr => hl p.1 ?_ r hr) h1 h2⟩
        rw [he]
        exact List.getElem_mem hm'
      · exact Or.inr (trimProj_err (Or.inr h2))
    · exact Or.inr (trimProj_err (Or.inl h1))
  · rw [List.mem_zipIdx_iff_getElem?]
    simp [hm]
  · rw [Int.toNat_natCast, Int.cast_natCast, start_eq_shadow]
    exact trimProj_err hbad

/-- **C127** Exactly when data come back. -/
theorem trim_ok_iff (data : List (List (List K))) (dz : Nat) (center x y : ℝ) (d : Nat)
    (hdx : data ≠ []) (hl : ∀ p ∈ data, ∀ r ∈ p, r.length = dz) :
    (∃ out, trimSinogram data dz center x y (.int d) = .ok out) ↔
      AllOutside data.length dz center x y d := by
  constructor
  · rintro ⟨out, ho⟩
    by_contra hn
    rw [trim_type_error data dz center x y d hl hn] at ho
    cases ho
  · intro h
    exact ⟨_, trim_value_partial data dz center x y d hdx hl h⟩

/-- **C127 (refutation)** A circle that is inside the frame in one projection always raises. -/
theorem trim_inside (data : List (List (List K))) (dz : Nat) (center x y : ℝ) (d m : Nat)
    (hl : ∀ p ∈ data, ∀ r ∈ p, r.length = dz) (hm : m < data.length)
    (h0 : 0 ≤ shadow center x y d (m * (Real.pi / data.length)))
    (h1 : shadow center x y d (m * (Real.pi / data.length)) + d ≤ dz) :
    trimSinogram data dz center x y (.int d) = .error .type := by
  refine trim_type_error data dz center x y d hl fun h => ?_
  have hd : (0 : ℝ) ≤ d := Nat.cast_nonneg d
  rcases (h m hm).1 with h2 | h2
  · have : (0 : Int) ≤ ⌈shadow center x y d (m * (Real.pi / data.length))⌉ := Int.ceil_nonneg h0
    omega
  · have : ⌈shadow center x y d (m * (Real.pi / data.length))⌉ ≤ (dz : Int) :=
      Int.ceil_le.2 (by push_cast; linarith)
    omega

/-- **C127 (refutation)** Other arguments: a float diameter, as documented, raises `TypeError`; a
negative one `ValueError`; data without projections `ZeroDivisionError`. -/
theorem trim_arguments (data : List (List (List K))) (dz : Nat) (center x y : ℝ) :
    (∀ r, trimSinogram data dz center x y (.flt r) = .error .type) ∧
    (∀ d : Int, d < 0 → trimSinogram data dz center x y (.int d) = .error .value) ∧
    ∀ d : Int, 0 ≤ d → trimSinogram ([] : List (List (List K))) dz center x y (.int d)
      = .error .zeroDivision := by
  refine ⟨fun r => rfl, fun d hd => ?_, fun d hd => ?_⟩
  · simp only [trimSinogram]
    rw [if_pos hd]
  · simp only [trimSinogram]
    rw [if_neg (by omega)]
    rfl

/-- A circle of diameter 2 in the middle of a row of four pixels raises. -/
example : trimSinogram [[[1, 2, 3, (4 : Nat)]]] 4 2 0 0 (.int 2) = .error .type := by
  refine trim_inside _ 4 2 0 0 2 0 (by simp) (by simp) ?_ ?_ <;> norm_num [shadow]

/-- A circle larger than the frame satisfies the hypotheses of `trim_value_partial`. -/
example : AllOutside 1 4 2 0 0 8 := by
  intro m hm
  constructor
  · left; norm_num [shadow]
  · right; norm_num [shadow]

end Tomopy.Trim
