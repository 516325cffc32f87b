import Verif.Ray.Quadrant
import Mathlib.Tactic.LinearCombination

/-!
# Rays seen from the opposite side (C110)

The ray of a detector pixel at angle `θ + π` is the ray of the mirrored pixel at angle `θ`.
-/

set_option linter.unusedSectionVars false

namespace Tomopy.Ray

open Real

section Generic

variable {K : Type*} [Field K] [LinearOrder K] [IsStrictOrderedRing K] [FloorRing K]

theorem divF_neg (a b : K) : divF (-a) (-b) = divF a b := by
  unfold divF
  by_cases h : b = 0
  · simp [h]
  · rw [if_neg h, if_neg (by simpa using h), neg_div_neg_eq]

theorem coordx_neg (rz : Nat) (xi yi sn cs : K) (n : Nat) :
    coordx rz xi (-yi) (-sn) (-cs) n = coordx rz xi yi sn cs n := by
  unfold coordx islope
  have h1 : srcx xi (-yi) (-sn) (-cs) - detx xi (-yi) (-sn) (-cs)
      = -(srcx xi yi sn cs - detx xi yi sn cs) := by unfold srcx detx; ring
  have h2 : srcy xi (-yi) (-sn) (-cs) - dety xi (-yi) (-sn) (-cs)
      = -(srcy xi yi sn cs - dety xi yi sn cs) := by unfold srcy dety; ring
  rw [h1, h2, divF_neg]
  unfold divF
  by_cases h : srcy xi yi sn cs - dety xi yi sn cs = 0
  · rw [if_pos h]; rfl
  · rw [if_neg h]
    simp only [Option.map_some]
    congr 1
    have e := div_mul_cancel₀ (srcx xi yi sn cs - detx xi yi sn cs) h
    have h3 : srcx xi (-yi) (-sn) (-cs) = detx xi yi sn cs := by unfold srcx detx; ring
    have h4 : srcy xi (-yi) (-sn) (-cs) = dety xi yi sn cs := by unfold srcy dety; ring
    rw [h3, h4]
    linear_combination e

theorem coordy_neg (rx : Nat) (xi yi sn cs : K) (n : Nat) :
    coordy rx xi (-yi) (-sn) (-cs) n = coordy rx xi yi sn cs n := by
  unfold coordy slope
  have h1 : srcx xi (-yi) (-sn) (-cs) - detx xi (-yi) (-sn) (-cs)
      = -(srcx xi yi sn cs - detx xi yi sn cs) := by unfold srcx detx; ring
  have h2 : srcy xi (-yi) (-sn) (-cs) - dety xi (-yi) (-sn) (-cs)
      = -(srcy xi yi sn cs - dety xi yi sn cs) := by unfold srcy dety; ring
  rw [h1, h2, divF_neg]
  unfold divF
  by_cases h : srcx xi yi sn cs - detx xi yi sn cs = 0
  · rw [if_pos h]; rfl
  · rw [if_neg h]
    simp only [Option.map_some]
    congr 1
    have e := div_mul_cancel₀ (srcy xi yi sn cs - dety xi yi sn cs) h
    have h3 : srcx xi (-yi) (-sn) (-cs) = detx xi yi sn cs := by unfold srcx detx; ring
    have h4 : srcy xi (-yi) (-sn) (-cs) = dety xi yi sn cs := by unfold srcy dety; ring
    rw [h3, h4]
    linear_combination e

/-- The reversed ray crosses the grid in the same points, found in the same order. -/
theorem trace_neg (hyp : K → K → K) (caps : Caps) (q : Int) (rx rz : Nat) (yi sn cs : K) :
    trace hyp caps q rx rz (-yi) (-sn) (-cs) = trace hyp caps q rx rz yi sn cs := by
  unfold trace
  have h1 : coordx rz (rayX rx rz) (-yi) (-sn) (-cs) = coordx rz (rayX rx rz) yi sn cs :=
    funext fun n => coordx_neg rz _ yi sn cs n
  have h2 : coordy rx (rayX rx rz) (-yi) (-sn) (-cs) = coordy rx (rayX rx rz) yi sn cs :=
    funext fun n => coordy_neg rx _ yi sn cs n
  rw [h1, h2]

theorem isHyp_neg {hyp : K → K → K} (hh : IsHyp hyp) (a b : K) : hyp (-a) (-b) = hyp a b := by
  have h1 := hh a b
  have h2 := hh (-a) (-b)
  have : hyp (-a) (-b) * hyp (-a) (-b) = hyp a b * hyp a b := by rw [h1.2, h2.2]; ring
  exact (mul_self_inj h2.1 h1.1).1 this

theorem pixelIndex_comm (r : Nat) (v0 v1 : K) : pixelIndex r v0 v1 = pixelIndex r v1 v0 := by
  unfold pixelIndex
  rw [add_comm v0 v1]

theorem calcDist_snoc (hyp : K → K → K) (rx rz : Nat) :
    ∀ (l : List (K × K)) (P Q : K × K), calcDist hyp rx rz (l ++ [P, Q])
      = calcDist hyp rx rz (l ++ [P]) ++
        [(pixelIndex rz P.2 Q.2 + pixelIndex rx P.1 Q.1 * (rz : Int), hyp (Q.1 - P.1) (Q.2 - P.2))] := by
  intro l
  induction l with
  | nil => intro P Q; simp [calcDist]
  | cons R l ih =>
    intro P Q
    cases l with
    | nil => simp [calcDist]
    | cons S l =>
      have := ih P Q
      simp only [List.cons_append] at this ⊢
      rw [calcDist, this, calcDist]
      simp

theorem calcDist_reverse {hyp : K → K → K} (hh : IsHyp hyp) (rx rz : Nat) :
    ∀ l : List (K × K), calcDist hyp rx rz l.reverse = (calcDist hyp rx rz l).reverse := by
  intro l
  induction l with
  | nil => rfl
  | cons P l ih =>
    cases l with
    | nil => rfl
    | cons Q l =>
      rw [List.reverse_cons, List.reverse_cons, List.append_assoc]
      show calcDist hyp rx rz (l.reverse ++ [Q, P]) = _
      rw [calcDist_snoc, ← List.reverse_cons, ih]
      rw [calcDist, List.reverse_cons]
      congr 2
      rw [pixelIndex_comm rz Q.2, pixelIndex_comm rx Q.1]
      congr 1
      rw [← isHyp_neg hh]
      congr 1 <;> ring

theorem aList_nil_of_sn {rx rz : Nat} {yi sn cs : K} (h : sn = 0) : aList rx rz yi sn cs = [] :=
  filterMap_nil_of (fun _ => aPoint_none_of_sn h) _

theorem bList_nil_of_cs {rx rz : Nat} {yi sn cs : K} (h : cs = 0) : bList rx rz yi sn cs = [] :=
  filterMap_nil_of (fun _ => bPoint_none_of_cs h) _

/-- Two flags that both agree with the direction give the same segments, possibly in reverse. -/
theorem trace_flag_perm {hyp : K → K → K} (hh : IsHyp hyp) (q q' : Int) (rx rz : Nat)
    (yi sn cs : K) (h : FlagOk q sn cs) (h' : FlagOk q' sn cs) :
    ∃ segs segs', trace hyp (capsRecon rx rz) q rx rz yi sn cs = some segs ∧
      trace hyp (capsRecon rx rz) q' rx rz yi sn cs = some segs' ∧ segs.Perm segs' := by
  have hle := crossings_le rx rz yi sn cs
  rw [trace_eq, trace_eq, if_pos (by simp only [capsRecon]; omega),
    if_pos (by simp only [capsRecon]; omega)]
  refine ⟨_, _, rfl, rfl, ?_⟩
  unfold sortIntersections
  by_cases hs : sn = 0
  · rw [aList_nil_of_sn hs]
    simp
  by_cases hc : cs = 0
  · rw [bList_nil_of_cs hc]
    simp only [mergeX_nil_right]
    have hrev := calcDist_reverse hh rx rz (aList rx rz yi sn cs)
    split_ifs
    · exact List.Perm.refl _
    · rw [hrev]; exact List.reverse_perm _
    · rw [hrev]; exact (List.reverse_perm _).symm
    · exact List.Perm.refl _
  · have hsc : sn * cs ≠ 0 := mul_ne_zero hs hc
    have : (q = 0) ↔ (q' = 0) := by
      constructor
      · intro e
        by_contra e'
        exact hsc (le_antisymm (h.1 e) (h'.2 e'))
      · intro e
        by_contra e'
        exact hsc (le_antisymm (h'.1 e) (h.2 e'))
    by_cases e : q = 0
    · rw [if_pos e, if_pos (this.1 e)]
    · rw [if_neg e, if_neg (fun e' => e (this.2 e'))]

/-- The centre mirrored about the middle of the detector: the offset of the rays changes sign if it
is at least 1/100 of a pixel away from the places where `preprocessing` moves it. -/
theorem mov_mirror (dx : Nat) (c : K)
    (h1 : 1 / 100 ≤ Int.fract (((dx : K) - 1) * (1 / 2) - c))
    (h2 : Int.fract (((dx : K) - 1) * (1 / 2) - c) ≤ 99 / 100) :
    mov dx ((dx : K) - c) = -mov dx c := by
  unfold mov
  set w := ((dx : K) - 1) * (1 / 2) - c with hw
  have hw' : ((dx : K) - 1) * (1 / 2) - ((dx : K) - c) = -w - 1 := by rw [hw]; ring
  rw [hw']
  have hf : Int.fract w = w - ⌊w⌋ := rfl
  have hfl : ⌊-w - 1⌋ = -⌊w⌋ - 2 := by
    rw [Int.floor_eq_iff]
    push_cast
    constructor <;> linarith
  rw [if_neg (by rw [hfl]; push_cast; linarith), if_neg (by rw [← hf]; linarith)]
  ring

end Generic

theorem ClearOfAxes.add_pi {θ : ℝ} (h : ClearOfAxes θ) : ClearOfAxes (θ + π) := by
  intro k
  have e : θ + π - k * (π / 2) = θ - ((k - 2 : Int) : ℝ) * (π / 2) := by push_cast; ring
  rcases h (k - 2) with h1 | h1
  · left; push_cast at h1; linarith
  · right; rw [e]; exact h1

theorem rayY_mirror {dx d : Nat} (hd : d < dx) (mv : ℝ) :
    rayY dx (dx - 1 - d) (-mv) = -rayY dx d mv := by
  unfold rayY
  have : ((dx - 1 - d : Nat) : ℝ) = (dx : ℝ) - 1 - d := by
    rw [Nat.cast_sub (by omega), Nat.cast_sub (by omega)]; simp
  rw [this]
  ring

/-- An angle that is clear of the axes. -/
theorem clear_quarter : ClearOfAxes (π / 4) := by
  intro k
  right
  have hpi := Real.pi_gt_three
  have e : π / 4 - k * (π / 2) = (1 - 2 * k) * (π / 4) := by ring
  rw [e, abs_mul, abs_of_pos (show 0 < π / 4 by linarith)]
  have h1 : (1 : ℝ) ≤ |1 - 2 * (k : ℝ)| := by
    have : (1 : Int) ≤ |1 - 2 * k| := by
      apply Int.one_le_abs; omega
    have h := (Int.cast_le (R := ℝ)).mpr this
    push_cast at h
    exact h
  have h2 : 1 / ipiC ≤ 1 / 2 := by
    unfold ipiC; norm_num
  nlinarith

/-- **C110** The segments of pixel `d` at angle `θ` and centre `c` are those of the mirrored pixel at
angle `θ + π` and the mirrored centre. -/
theorem opposite_segments (rx rz dx : Nat) (c θ : ℝ) (d : Nat) (hd : d < dx) (hc : ClearOfAxes θ)
    (h1 : 1 / 100 ≤ Int.fract (((dx : ℝ) - 1) * (1 / 2) - c))
    (h2 : Int.fract (((dx : ℝ) - 1) * (1 / 2) - c) ≤ 99 / 100) :
    ∃ segs segs', rayTrace (capsRecon rx rz) rx rz dx c θ d = some segs ∧
      rayTrace (capsRecon rx rz) rx rz dx ((dx : ℝ) - c) (θ + π) (dx - 1 - d) = some segs' ∧
      segs.Perm segs' := by
  obtain ⟨q, hq, _⟩ := calcQuadrant_defined (fmod2pi_lt θ)
  obtain ⟨q', hq', _⟩ := calcQuadrant_defined (fmod2pi_lt (θ + π))
  have hf := calcQuadrant_flag (fmod2pi_lt θ) hc.fmod q hq
  have hf' := calcQuadrant_flag (fmod2pi_lt (θ + π)) hc.add_pi.fmod q' hq'
  rw [sin_fmod2pi, cos_fmod2pi] at hf hf'
  rw [sin_add_pi, cos_add_pi] at hf'
  have hf'' : FlagOk q' (sin θ) (cos θ) := by
    unfold FlagOk at hf' ⊢
    rwa [neg_mul_neg] at hf'
  obtain ⟨segs, segs', e1, e2, hp⟩ := trace_flag_perm hypot_isHyp q q' rx rz
    (rayY dx d (mov dx c)) (sin θ) (cos θ) hf hf''
  refine ⟨segs, segs', ?_, ?_, hp⟩
  · simp only [rayTrace, hq, Option.bind_eq_bind, Option.bind_some, sin_fmod2pi, cos_fmod2pi]
    exact e1
  · simp only [rayTrace, hq', Option.bind_eq_bind, Option.bind_some, sin_fmod2pi, cos_fmod2pi]
    rw [sin_add_pi, cos_add_pi, mov_mirror dx c h1 h2, rayY_mirror hd, trace_neg]
    exact e2

/-- The middle of the detector, the default centre, is one of these centres and its own mirror image. -/
theorem default_center_clear (dx : Nat) :
    Int.fract (((dx : ℝ) - 1) * (1 / 2) - (dx : ℝ) / 2) = 1 / 2 ∧ (dx : ℝ) - (dx : ℝ) / 2 = (dx : ℝ) / 2 := by
  constructor
  · have : ((dx : ℝ) - 1) * (1 / 2) - (dx : ℝ) / 2 = 1 / 2 - 1 := by ring
    rw [this, Int.fract_sub_one, Int.fract_eq_self]
    constructor <;> norm_num
  · ring

/-- **C111** The restriction on the centre is needed: for centres a whole number of pixels away from
`(dx - 1) / 2` both offsets are increased by 1/100, so the two rays are 1/50 of a pixel apart. -/
theorem mirror_offset_wrong (dx : Nat) (k : Int) :
    mov dx ((dx : ℝ) - (((dx : ℝ) - 1) * (1 / 2) - k)) = -mov dx (((dx : ℝ) - 1) * (1 / 2) - k) + 1 / 50 := by
  unfold mov
  have e1 : ((dx : ℝ) - 1) * (1 / 2) - (((dx : ℝ) - 1) * (1 / 2) - k) = (k : ℝ) := by ring
  have e2 : ((dx : ℝ) - 1) * (1 / 2) - ((dx : ℝ) - (((dx : ℝ) - 1) * (1 / 2) - k)) = ((-k - 1 : Int) : ℝ) := by
    push_cast; ring
  rw [e1, e2, Int.floor_intCast, Int.floor_intCast, if_pos (by norm_num), if_pos (by norm_num)]
  push_cast
  ring

/-- Rays that far apart have different integrals. -/
example : (trace (K := ℚ) (fun a b => |a| + |b|) (capsRecon 1 1) 1 1 1 (51 / 100) (3 / 5) (4 / 5)).map
      (fun l => (l.map Prod.snd).sum) = some (133 / 240) ∧
    (trace (K := ℚ) (fun a b => |a| + |b|) (capsRecon 1 1) 1 1 1 (49 / 100) (3 / 5) (4 / 5)).map
      (fun l => (l.map Prod.snd).sum) = some (49 / 80) := by
  decide +kernel

end Tomopy.Ray
