import Verif.Ring.Mean
import Verif.Mproc.Lemmas
import Mathlib.Analysis.SpecialFunctions.Complex.Arg
import Mathlib.Analysis.Real.Pi.Bounds
import Mathlib.Algebra.Order.Archimedean.Real.Basic

/-! Ring removal as a whole (remove_ring.c:538-671, corr.py:805-849): the polar transform stays
inside the slice (C45), the rolling filters give the median and mean of direct windows (C44), and the
effect on a slice (C74). -/

set_option linter.unusedSectionVars false

namespace Tomopy.Ring

open Num

section
variable {K : Type} [Field K] [LinearOrder K] [IsStrictOrderedRing K] [FloorRing K]

/-! ### Tables -/

theorem tabulate_some (h w : Nat) (f : Nat → Nat → Option K)
    (hf : ∀ r < h, ∀ c < w, (f r c).isSome) :
    ∃ out, tabulate h w f = some out ∧ out.h = h ∧ out.w = w ∧
      ∀ r < h, ∀ c < w, f r c = some (out.px r c) := by
  refine ⟨⟨h, w, fun r c => (f r c).getD 0⟩, if_pos hf, rfl, rfl, ?_⟩
  intro r hr c hc
  obtain ⟨v, hv⟩ := Option.isSome_iff_exists.1 (hf r hr c hc)
  simp [hv]

theorem tabulate_none (h w : Nat) (f : Nat → Nat → Option K) (r c : Nat) (hr : r < h) (hc : c < w)
    (hf : f r c = none) : tabulate h w f = none := by
  unfold tabulate
  rw [if_neg]
  intro hall
  have := hall r hr c hc
  simp [hf] at this

/-! ### Polar transform (C45) -/

theorem ctrunc_le_self (x : K) (h : 0 < ctrunc x) : (ctrunc x : K) ≤ x := by
  unfold ctrunc at *
  split_ifs at * with hc
  · exact Int.floor_le x
  · exfalso
    have : ⌈x⌉ ≤ 0 := Int.ceil_le.2 (by push_cast; exact (not_le.1 hc).le)
    omega

theorem one_le_ctrunc (x : K) (h : 1 ≤ x) : 1 ≤ ctrunc x := by
  unfold ctrunc
  rw [if_pos (by linarith)]
  exact Int.le_floor.2 (by push_cast; exact h)

theorem minDistance_spec (cx cy : K) (w h : Nat) :
    minDistance cx cy w h ≤ ctrunc (cx + 1) ∧ minDistance cx cy w h ≤ ctrunc (cy + 1) ∧
    minDistance cx cy w h ≤ ctrunc ((w : K) - cx) ∧ minDistance cx cy w h ≤ ctrunc ((h : K) - cy) ∧
    (minDistance cx cy w h = ctrunc (cx + 1) ∨ minDistance cx cy w h = ctrunc (cy + 1) ∨
      minDistance cx cy w h = ctrunc ((w : K) - cx) ∨
      minDistance cx cy w h = ctrunc ((h : K) - cy)) := by
  unfold minDistance
  simp only [List.foldl_cons, List.foldl_nil]
  generalize ctrunc (cx + 1) = a
  generalize ctrunc (cy + 1) = b
  generalize ctrunc ((w : K) - cx) = c
  generalize ctrunc ((h : K) - cy) = d
  split_ifs <;> omega

theorem iround_lower (x : K) (h : 0 ≤ x) : 0 ≤ iround x := by
  unfold iround
  split_ifs
  · exact Int.le_floor.2 (by push_cast; linarith)
  · exact le_rfl

theorem iround_upper (x : K) (n : Int) (hn : 0 ≤ n) (h : x ≤ n) : iround x ≤ n := by
  unfold iround
  split_ifs
  · have : ⌊x + 1 / 2⌋ < n + 1 := Int.floor_lt.2 (by push_cast; linarith)
    omega
  · exact hn

/-- The centre is in the image. -/
def Inside (cx cy : K) (w h : Nat) : Prop := 0 ≤ cx ∧ cx ≤ w - 1 ∧ 0 ≤ cy ∧ cy ≤ h - 1

/-- What is assumed of the transcendental functions: cosines and sines between -1 and 1, angles
and distances not negative. -/
def Trig.Ok (tg : Trig K) : Prop :=
  (∀ r, -1 ≤ tg.cs r ∧ tg.cs r ≤ 1 ∧ -1 ≤ tg.sn r ∧ tg.sn r ≤ 1) ∧
  (∀ r c, 0 ≤ tg.th r c ∧ 0 ≤ tg.dist r c)

theorem radius_pos (cx cy : K) (w h : Nat) (hin : Inside cx cy w h) :
    1 ≤ minDistance cx cy w h := by
  obtain ⟨h1, h2, h3, h4⟩ := hin
  obtain ⟨-, -, -, -, hc⟩ := minDistance_spec cx cy w h
  rcases hc with e | e | e | e <;> rw [e] <;> exact one_le_ctrunc _ (by linarith)

theorem polHeight_pos (n : Int) (hn : 1 ≤ n) : 6 * n ≤ polHeight (K := K) n := by
  unfold polHeight iround
  have h1 : (1 : K) ≤ (n : K) := by exact_mod_cast hn
  have h2 : (6 : K) * n ≤ 2 * PI * n := by
    have : (6 : K) ≤ 2 * PI := by unfold PI; norm_num
    nlinarith
  rw [if_pos (by
    intro h
    rw [h] at h2
    linarith)]
  exact Int.le_floor.2 (by push_cast; linarith)

/-- One coordinate of a sample: the centre plus at most the radius rounds to a valid number. -/
theorem sample_inside (c t : K) (n : Nat) (m : Int) (r : Nat) (hc0 : 0 ≤ c) (hc1 : c ≤ n - 1)
    (ht : -1 ≤ t ∧ t ≤ 1) (hm1 : m ≤ ctrunc (c + 1)) (hm2 : m ≤ ctrunc ((n : K) - c))
    (hr : (r : Int) < m) :
    0 ≤ iround ((r : K) * t + c) ∧ iround ((r : K) * t + c) < n := by
  have hr0 : (0 : K) ≤ r := Nat.cast_nonneg r
  have hrm : (r : K) + 1 ≤ (m : K) := by exact_mod_cast hr
  have hm0 : 0 < m := by omega
  have h1 : (m : K) ≤ c + 1 := by
    have := ctrunc_le_self (c + 1) (by omega)
    have h' : (m : K) ≤ (ctrunc (c + 1) : K) := by exact_mod_cast hm1
    linarith
  have h2 : (m : K) ≤ (n : K) - c := by
    have := ctrunc_le_self ((n : K) - c) (by omega)
    have h' : (m : K) ≤ (ctrunc ((n : K) - c) : K) := by exact_mod_cast hm2
    linarith
  have hlo : -(r : K) ≤ r * t := by nlinarith
  have hhi : (r : K) * t ≤ r := by nlinarith
  refine ⟨iround_lower _ (by linarith), ?_⟩
  have hn : (1 : K) ≤ n := by linarith
  have hn' : 1 ≤ n := by exact_mod_cast hn
  have := iround_upper ((r : K) * t + c) ((n : Int) - 1) (by omega) (by push_cast; linarith)
  omega

/-- **C45** (sampling).  For every centre inside the slice the polar transform reads valid pixels of
the slice only, whatever values between -1 and 1 the sine and cosine routines return; every pixel of
the polar image is the clamped pixel next to the sampling point. -/
theorem polar_reads_inside (tg : Trig K) (htg : tg.Ok) (img : Img K) (cx cy tmax tmin : K)
    (hin : Inside cx cy img.w img.h) :
    ∃ pol, polarTransform tg img cx cy tmax tmin = some pol ∧
      (pol.w : Int) = minDistance cx cy img.w img.h ∧ 1 ≤ pol.w ∧ 6 * pol.w ≤ pol.h ∧
      ∀ row < pol.h, ∀ r < pol.w, ∃ x y : Nat, x < img.w ∧ y < img.h ∧
        (x : Int) = iround ((r : K) * tg.cs row + cx) ∧
        (y : Int) = iround ((r : K) * tg.sn row + cy) ∧
        pol.px row r = clampTo tmax tmin (img.px y x) := by
  have hR := radius_pos cx cy img.w img.h hin
  obtain ⟨d1, d2, d3, d4, -⟩ := minDistance_spec cx cy img.w img.h
  have hH := polHeight_pos (K := K) _ hR
  unfold polarTransform
  dsimp only
  rw [if_neg (by omega)]
  generalize minDistance cx cy img.w img.h = m at *
  have hxy : ∀ row r : Nat, r < m.toNat →
      0 ≤ iround ((r : K) * tg.cs row + cx) ∧ iround ((r : K) * tg.cs row + cx) < img.w ∧
      0 ≤ iround ((r : K) * tg.sn row + cy) ∧ iround ((r : K) * tg.sn row + cy) < img.h := by
    intro row r hr
    obtain ⟨c1, c2, c3, c4⟩ := htg.1 row
    obtain ⟨a1, a2⟩ := sample_inside cx (tg.cs row) img.w m r hin.1 hin.2.1 ⟨c1, c2⟩ d1 d3
      (by omega)
    obtain ⟨b1, b2⟩ := sample_inside cy (tg.sn row) img.h m r hin.2.2.1 hin.2.2.2 ⟨c3, c4⟩ d2 d4
      (by omega)
    exact ⟨a1, a2, b1, b2⟩
  obtain ⟨pol, e, eh, ew, hv⟩ := tabulate_some (polHeight (K := K) m).toNat m.toNat
    (fun row r => (img.rd (iround ((r : K) * tg.sn row + cy)) (iround ((r : K) * tg.cs row + cx))).map
      (clampTo tmax tmin)) (by
      intro row _ r hr
      obtain ⟨a1, a2, b1, b2⟩ := hxy row r hr
      rw [rd_eq img b1 b2 a1 a2]
      rfl)
  refine ⟨pol, e, by rw [ew]; omega, by omega, by omega, ?_⟩
  intro row hrow r hr
  rw [ew] at hr
  rw [eh] at hrow
  obtain ⟨a1, a2, b1, b2⟩ := hxy row r hr
  refine ⟨(iround ((r : K) * tg.cs row + cx)).toNat, (iround ((r : K) * tg.sn row + cy)).toNat,
    by omega, by omega, by omega, by omega, ?_⟩
  have := hv row hrow r hr
  rw [rd_eq img b1 b2 a1 a2] at this
  exact (Option.some.inj this).symm

/-- A centre left of the first pixel, up to one pixel outside: the polar image has no elements and
its first row pointer is stored outside the allocation. -/
theorem polar_centre_outside (tg : Trig K) (img : Img K) (cx cy tmax tmin : K) (h : cx < 0) :
    polarTransform tg img cx cy tmax tmin = none := by
  obtain ⟨d1, -⟩ := minDistance_spec cx cy img.w img.h
  have : ctrunc (cx + 1) ≤ 0 := by
    unfold ctrunc
    split_ifs with hc
    · have : ⌊cx + 1⌋ < 1 := Int.floor_lt.2 (by push_cast; linarith)
      omega
    · exact Int.ceil_le.2 (by push_cast; exact (not_le.1 hc).le)
  unfold polarTransform
  dsimp only
  rw [if_pos (Or.inl (by omega))]

/-- The inverse transform reads valid pixels of the polar image only; outside the circle, and for
angles that round to a full turn, it gives 0. -/
theorem inverse_reads_inside (tg : Trig K) (htg : tg.Ok) (pol : Img K) (w h : Nat) :
    ∃ out, inversePolar tg pol w h = some out ∧ out.h = h ∧ out.w = w ∧
      ∀ row < h, ∀ col < w,
        (∃ p q : Nat, p < pol.h ∧ q < pol.w ∧
          (p : Int) = iround (tg.th row col * (pol.h : K) / (2 * PI)) ∧
          (q : Int) = iround (tg.dist row col) ∧ out.px row col = pol.px p q) ∨
        ((pol.h ≤ iround (tg.th row col * (pol.h : K) / (2 * PI)) ∨
          pol.w ≤ iround (tg.dist row col)) ∧ out.px row col = 0) := by
  have hpos : ∀ row col, 0 ≤ iround (tg.th row col * (pol.h : K) / (2 * PI)) ∧
      0 ≤ iround (tg.dist row col) := by
    intro row col
    obtain ⟨h1, h2⟩ := htg.2 row col
    refine ⟨iround_lower _ ?_, iround_lower _ h2⟩
    have : (0 : K) ≤ PI := by unfold PI; norm_num
    positivity
  obtain ⟨out, e, eh, ew, hv⟩ := tabulate_some h w (fun row col =>
    if iround (tg.th row col * (pol.h : K) / (2 * PI)) < pol.h ∧ iround (tg.dist row col) < pol.w then
      pol.rd (iround (tg.th row col * (pol.h : K) / (2 * PI))) (iround (tg.dist row col))
    else some 0) (by
      intro row _ col _
      obtain ⟨h1, h2⟩ := hpos row col
      split_ifs with c
      · rw [rd_eq pol h1 c.1 h2 c.2]; rfl
      · rfl)
  refine ⟨out, e, eh, ew, ?_⟩
  intro row hr col hc
  have := hv row hr col hc
  obtain ⟨h1, h2⟩ := hpos row col
  split_ifs at this with c
  · left
    rw [rd_eq pol h1 c.1 h2 c.2] at this
    exact ⟨_, _, by omega, by omega, Int.toNat_of_nonneg h1, Int.toNat_of_nonneg h2,
      (Option.some.inj this).symm⟩
  · right
    exact ⟨by omega, (Option.some.inj this).symm⟩

/-! ### Ring filter (C44) -/

/-- The kernel radius for column `c`: a third of `m` in the inner third of the columns, two thirds
in the middle third, `m` in the outer third. -/
def radiusAt (w m c : Nat) : Nat :=
  if c < w / 3 then m / 3 else if c < 2 * w / 3 then 2 * m / 3 else m

theorem medFilter_spec (img prev : Img K) (start stop k : Nat) (h1k : 1 ≤ k)
    (hk : start + k < img.w) (hss : start < stop) :
    ∃ out, medFilter img prev start stop k = some out ∧ out.h = img.h ∧ out.w = img.w ∧
      ∀ r < img.h, ∀ c < img.w,
        (start ≤ c → c < stop → IsRank (window img r c k) k (out.px r c)) ∧
        (c < start ∨ stop ≤ c → out.px r c = prev.px r c) := by
  have hrow := fun r (hr : r < img.h) => medRow_result_partial img r start stop k hr h1k hk
  obtain ⟨out, e, eh, ew, hv⟩ := tabulate_some img.h img.w (fun r c =>
    match medRow img r start stop k with
    | none => none
    | some out => if start ≤ c ∧ c < start + out.length then out[c - start]?
        else some (prev.px r c)) (by
      intro r hr c hc
      obtain ⟨o, e1, e2, -⟩ := hrow r hr
      rw [e1]
      dsimp only
      split_ifs with hcc
      · rw [List.getElem?_eq_getElem (by omega)]; rfl
      · rfl)
  refine ⟨out, e, eh, ew, ?_⟩
  intro r hr c hc
  have := hv r hr c hc
  obtain ⟨o, e1, e2, e3⟩ := hrow r hr
  rw [e1] at this
  dsimp only at this
  constructor
  · intro h1 h2
    rw [if_pos ⟨h1, by omega⟩, List.getElem?_eq_getElem (by omega)] at this
    have h3 := e3 (c - start) (by omega)
    rw [Option.some.inj this, show start + (c - start) = c by omega] at h3
    exact h3
  · intro h1
    rw [if_neg (by omega)] at this
    exact (Option.some.inj this).symm

/-- Radii with which the azimuthal filter stays inside. -/
def AziOk (mode : Mode) (h k : Nat) : Prop :=
  match mode with
  | .wrap => k ≤ h
  | .reflect => k < h / 2

/-- For the angles that `remove_ring` accepts the radius is small enough, except for `REFLECT` with
few rows and an angle close to 180. -/
theorem aziOk_of_theta (mode : Mode) (h theta : Nat) (ht : theta < 180)
    (hr : mode = .reflect → 180 < h * (180 - theta)) : AziOk mode h (h * theta / 360) := by
  have e : h * (180 - theta) = h * 180 - h * theta := Nat.mul_sub ..
  have e2 : h * theta ≤ h * 180 := Nat.mul_le_mul_left _ ht.le
  rw [e] at hr
  generalize h * theta = x at *
  cases mode with
  | wrap => show x / 360 ≤ h; omega
  | reflect =>
    have := hr rfl
    show x / 360 < h / 2
    omega

theorem meanFilter_spec (mode : Mode) (img prev : Img K) (start stop k : Nat) (hh : 0 < img.h)
    (hk : AziOk mode img.h k) :
    ∃ out, meanFilter mode img prev start stop k = some out ∧ out.h = img.h ∧ out.w = img.w ∧
      ∀ r < img.h, ∀ c < img.w,
        (start ≤ c → c < stop → out.px r c = meanSpec mode img c k r) ∧
        (c < start ∨ stop ≤ c → out.px r c = prev.px r c) := by
  have hcol : ∀ c < img.w,
      meanCol mode img c k
        = some ((List.range img.h).map fun row => meanSpec mode img c k row) := by
    intro c hc
    cases mode with
    | wrap => exact meanWrap_result img c k hc hh hk
    | reflect => exact meanReflect_result_partial img c k hc hk
  obtain ⟨out, e, eh, ew, hv⟩ := tabulate_some img.h img.w (fun r c =>
    if start ≤ c ∧ c < stop then
      match meanCol mode img c k with
      | none => none
      | some out => out[r]?
    else some (prev.px r c)) (by
      intro r hr c hc
      split_ifs
      · rw [hcol c hc]
        simp [hr]
      · rfl)
  refine ⟨out, e, eh, ew, ?_⟩
  intro r hr c hc
  have := hv r hr c hc
  constructor
  · intro h1 h2
    rw [if_pos ⟨h1, h2⟩, hcol c hc] at this
    simp [hr] at this
    exact this.symm
  · intro h1
    rw [if_neg (by omega)] at this
    exact (Option.some.inj this).symm

/-- The thresholded difference between polar image and filtered image. -/
def diffImg (pol : Img K) (thr : K) (med : Nat → Nat → K) : Img K :=
  ⟨pol.h, pol.w, fun r c => threshDiff thr (pol.px r c) (med r c)⟩

/-- **C44** (both filters together).  If the first window of the outer third ends inside the row,
`ring_filter` returns without an invalid access; its result is the azimuthal mean, with the radius
belonging to the column, of the thresholded difference between the polar image and the radial
median. -/
theorem ringFilter_result_partial (mode : Mode) (pol : Img K) (thr : K) (mRad mAzi : Nat)
    (hh : 0 < pol.h) (hm : 3 ≤ mRad) (hw : 2 * pol.w / 3 + mRad < pol.w)
    (ha : AziOk mode pol.h mAzi) :
    ∃ med out, (∀ r < pol.h, ∀ c < pol.w,
        IsRank (window pol r c (radiusAt pol.w mRad c)) (radiusAt pol.w mRad c) (med r c)) ∧
      ringFilter mode pol thr mRad mAzi = some out ∧ out.h = pol.h ∧ out.w = pol.w ∧
      ∀ r < pol.h, ∀ c < pol.w,
        out.px r c = meanSpec mode (diffImg pol thr med) c (radiusAt pol.w mAzi c) r := by
  have ha' : ∀ k, k ≤ mAzi → AziOk mode pol.h k := by
    intro k hk
    cases mode with
    | wrap => exact le_trans hk ha
    | reflect => exact lt_of_le_of_lt hk ha
  obtain ⟨f1, e1, h1, w1, v1⟩ := medFilter_spec pol ⟨pol.h, pol.w, fun _ _ => 0⟩ 0 (pol.w / 3)
    (mRad / 3) (by omega) (by omega) (by omega)
  obtain ⟨f2, e2, h2, w2, v2⟩ := medFilter_spec pol f1 (pol.w / 3) (2 * pol.w / 3)
    (2 * mRad / 3) (by omega) (by omega) (by omega)
  obtain ⟨f3, e3, h3, w3, v3⟩ := medFilter_spec pol f2 (2 * pol.w / 3) pol.w
    mRad (by omega) (by omega) (by omega)
  obtain ⟨g1, e4, h4, w4, v4⟩ := meanFilter_spec mode (diffImg pol thr f3.px) f3 0 (pol.w / 3)
    (mAzi / 3) hh (ha' _ (by omega))
  obtain ⟨g2, e5, h5, w5, v5⟩ := meanFilter_spec mode (diffImg pol thr f3.px) g1 (pol.w / 3)
    (2 * pol.w / 3) (2 * mAzi / 3) hh (ha' _ (by omega))
  obtain ⟨g3, e6, h6, w6, v6⟩ := meanFilter_spec mode (diffImg pol thr f3.px) g2 (2 * pol.w / 3)
    pol.w mAzi hh (ha' _ (by omega))
  refine ⟨f3.px, g3, ?_, ?_, h6, w6, ?_⟩
  · intro r hr c hc
    unfold radiusAt
    split_ifs with c1 c2
    · rw [(v3 r hr c hc).2 (by omega), (v2 r hr c hc).2 (by omega)]
      exact (v1 r hr c hc).1 (by omega) c1
    · rw [(v3 r hr c hc).2 (by omega)]
      exact (v2 r hr c hc).1 (by omega) c2
    · exact (v3 r hr c hc).1 (by omega) hc
  · unfold ringFilter
    simp only [e1, e2, e3, Option.bind_eq_bind, Option.bind_some]
    unfold diffImg at e4 e5 e6
    simp only [e4, e5, e6, Option.bind_some]
  · intro r hr c hc
    unfold radiusAt
    split_ifs with c1 c2
    · rw [(v6 r hr c hc).2 (by omega), (v5 r hr c hc).2 (by omega)]
      exact (v4 r hr c hc).1 (by omega) c1
    · rw [(v6 r hr c hc).2 (by omega)]
      exact (v5 r hr c hc).1 (by omega) c2
    · exact (v6 r hr c hc).1 (by omega) hc

/-- With the kernel radius `2 * rwidth + 1 = 61` of the default `rwidth = 30`, every polar image
with at most 183 columns — slices up to 366 pixels wide — is read behind its end. -/
theorem ringFilter_out_of_bounds (mode : Mode) (pol : Img K) (thr : K) (mRad mAzi : Nat)
    (hh : 0 < pol.h) (hw : 0 < pol.w) (h : pol.w ≤ 2 * pol.w / 3 + mRad) :
    ringFilter mode pol thr mRad mAzi = none := by
  have h3 : ∀ prev, medFilter pol prev (2 * pol.w / 3) pol.w mRad = none := by
    intro prev
    refine tabulate_none _ _ _ (pol.h - 1) 0 (by omega) hw ?_
    rw [median_out_of_bounds pol (pol.h - 1) (2 * pol.w / 3) pol.w mRad (by omega) h hw]
  unfold ringFilter
  simp only [h3, Option.bind_eq_bind]
  cases medFilter pol ⟨pol.h, pol.w, fun _ _ => 0⟩ 0 (pol.w / 3) (mRad / 3) with
  | none => rfl
  | some f =>
    simp only [Option.bind_some]
    cases medFilter pol f (pol.w / 3) (2 * pol.w / 3) (2 * mRad / 3) <;> rfl

theorem ringFilter_default_small (mode : Mode) (pol : Img K) (thr : K) (mAzi : Nat)
    (hh : 0 < pol.h) (hw : 0 < pol.w) (h : pol.w ≤ 183) :
    ringFilter mode pol thr (2 * 30 + 1) mAzi = none :=
  ringFilter_out_of_bounds mode pol thr _ mAzi hh hw (by omega)

/-! ### Effect on a slice (C74) -/

theorem threshDiff_abs (thr p f : K) (h : 0 ≤ thr) : |threshDiff thr p f| ≤ thr := by
  unfold threshDiff
  split_ifs with hc
  · simpa using h
  · push Not at hc
    exact abs_le.2 ⟨hc.2, hc.1⟩

theorem abs_sum_le (l : List K) (b : K) (h : ∀ x ∈ l, |x| ≤ b) : |l.sum| ≤ l.length * b := by
  induction l with
  | nil => simp
  | cons x l ih =>
    rw [List.sum_cons, List.length_cons]
    have h1 := h x (by simp)
    have h2 := ih fun y hy => h y (by simp [hy])
    calc |x + l.sum| ≤ |x| + |l.sum| := abs_add_le _ _
      _ ≤ b + l.length * b := add_le_add h1 h2
      _ = ((l.length + 1 : Nat) : K) * b := by push_cast; ring

theorem winMean_abs (mode : Mode) (img : Img K) (col k row : Nat) (b : K)
    (h : ∀ r c, |img.px r c| ≤ b) : |winMean mode img col k row| ≤ b := by
  unfold winMean winSum
  have hp : (0 : K) < 2 * k + 1 := by positivity
  rw [abs_div, abs_of_pos hp, div_le_iff₀ hp]
  have := abs_sum_le ((List.range (2 * k + 1)).map fun i : Nat =>
    img.px (rowIx mode img.h row (row - k + i)).toNat col) b (by
      intro x hx
      obtain ⟨i, -, rfl⟩ := List.mem_map.1 hx
      exact h _ _)
  rw [List.length_map, List.length_range] at this
  push_cast at this
  rw [mul_comm b]
  exact this

theorem meanSpec_abs (mode : Mode) (img : Img K) (col k row : Nat) (b : K) (hb : 0 ≤ b)
    (h : ∀ r c, |img.px r c| ≤ b) : |meanSpec mode img col k row| ≤ b := by
  unfold meanSpec
  split_ifs
  · exact winMean_abs mode img col k row b h
  · simpa using hb

/-- Conditions under which a slice is processed without an invalid access. -/
structure Runs (a : RingArgs K) (w h : Nat) (polH : Nat) : Prop where
  inside : Inside a.cx a.cy w h
  ring : 1 ≤ a.ringWidth
  wide : 2 * (minDistance a.cx a.cy w h).toNat / 3 + (2 * a.ringWidth + 1)
    < (minDistance a.cx a.cy w h).toNat
  azi : AziOk a.mode polH (polH * a.thetaMin / 360)

/-- **C74**.  Ring removal on a slice that is wide enough for the ring width: no invalid access, no
pixel changes by more than `thresh`, and pixels outside the inscribed circle around the centre do
not change. -/
theorem remove_ring_slice_partial (tg : Trig K) (htg : tg.Ok) (a : RingArgs K) (img : Img K)
    (hthr : 0 ≤ a.thr)
    (hr : Runs a img.w img.h (polHeight (K := K) (minDistance a.cx a.cy img.w img.h)).toNat) :
    ∃ out, removeRingSlice tg a img = some out ∧ out.h = img.h ∧ out.w = img.w ∧
      ∀ row < img.h, ∀ col < img.w,
        |out.px row col - img.px row col| ≤ a.thr ∧
        (minDistance a.cx a.cy img.w img.h ≤ iround (tg.dist row col) →
          out.px row col = img.px row col) := by
  obtain ⟨pol, e1, w1, w2, h1, -⟩ := polar_reads_inside tg htg img a.cx a.cy a.tmax a.tmin hr.inside
  have hpolh : (pol.h : Nat) = (polHeight (K := K) (minDistance a.cx a.cy img.w img.h)).toNat := by
    unfold polarTransform at e1
    dsimp only at e1
    split_ifs at e1
    unfold tabulate at e1
    split_ifs at e1
    rw [← Option.some.inj e1]
  have hwide := hr.wide
  have hazi := hr.azi
  rw [← hpolh] at hazi
  rw [← w1, Int.toNat_natCast] at hwide
  obtain ⟨med, ring, -, e2, h2, w3, v2⟩ := ringFilter_result_partial a.mode pol a.thr
    (2 * a.ringWidth + 1) (pol.h * a.thetaMin / 360) (by omega) (by have := hr.ring; omega) hwide hazi
  obtain ⟨back, e3, h3, w4, v3⟩ := inverse_reads_inside tg htg ring img.w img.h
  refine ⟨⟨img.h, img.w, fun r c => img.px r c - back.px r c⟩, ?_, rfl, rfl, ?_⟩
  · unfold removeRingSlice
    simp only [e1, e2, e3, Option.bind_eq_bind, Option.bind_some]
    rfl
  · intro row hrow col hcol
    dsimp only
    rcases v3 row hrow col hcol with ⟨p, q, hp, hq, -, eq, hv⟩ | ⟨-, hv⟩
    · constructor
      · rw [sub_sub_cancel_left, abs_neg, hv, v2 p (by omega) q (by omega)]
        exact meanSpec_abs _ _ _ _ _ _ hthr fun r c => threshDiff_abs _ _ _ hthr
      · intro hd
        omega
    · rw [hv, sub_zero, sub_self, abs_zero]
      exact ⟨hthr, fun _ => rfl⟩

/-- A constant list has its element at every rank. -/
theorem isRank_replicate (n k : Nat) (v u : K) (h : IsRank (List.replicate n v) k u) : u = v :=
  List.eq_of_mem_replicate h.mem

/-- At most `k` zeros among `2k + 1` values that are otherwise equal do not change the median. -/
theorem window_const_rank (img : Img K) (v : K) (hv : ∀ r < img.h, ∀ c < img.w, img.px r c = v)
    (row col k : Nat) (hr : row < img.h) (hc : col < img.w) (hk : k < img.w) (u : K)
    (h : IsRank (window img row col k) k u) : u = v := by
  have hcont : ∀ i : Nat, i ≤ k → cont img row ((col : Int) - k + i) = v := by
    intro i hi
    unfold cont
    split_ifs with c1 c2
    · exact hv _ (opposite_lt hr) _ (by omega)
    · exact hv _ hr _ (by omega)
    · omega
  refine h.unique ?_
  -- split the window into its first k + 1 values and the rest
  have hsplit : window img row col k = List.replicate (k + 1) v
      ++ (List.range k).map fun i : Nat => cont img row ((col : Int) - k + ((k + 1 + i : Nat) : Int)) := by
    unfold window
    rw [show 2 * k + 1 = (k + 1) + k by omega, List.range_add, List.map_append, List.map_map]
    congr 1
    rw [List.eq_replicate_iff]
    refine ⟨by simp, ?_⟩
    intro x hx
    obtain ⟨i, hi, rfl⟩ := List.mem_map.1 hx
    rw [List.mem_range] at hi
    exact hcont i (by omega)
  rw [hsplit]
  constructor
  · rw [List.countP_append, List.countP_replicate]
    simp only [lt_irrefl, decide_false, if_false, Nat.zero_add, Bool.false_eq_true]
    exact le_trans List.countP_le_length (by simp)
  · rw [List.countP_append, List.countP_replicate]
    simp only [le_refl, decide_true, if_true]
    omega

/-- **C74** (no rings, no change).  A constant slice is returned unchanged. -/
theorem remove_ring_constant_partial (tg : Trig K) (htg : tg.Ok) (a : RingArgs K) (img : Img K)
    (v : K) (hv : ∀ r < img.h, ∀ c < img.w, img.px r c = v)
    (hr : Runs a img.w img.h (polHeight (K := K) (minDistance a.cx a.cy img.w img.h)).toNat) :
    ∃ out, removeRingSlice tg a img = some out ∧
      ∀ row < img.h, ∀ col < img.w, out.px row col = v := by
  obtain ⟨pol, e1, w1, w2, h1, vp⟩ := polar_reads_inside tg htg img a.cx a.cy a.tmax a.tmin hr.inside
  have hpolh : (pol.h : Nat) = (polHeight (K := K) (minDistance a.cx a.cy img.w img.h)).toNat := by
    unfold polarTransform at e1
    dsimp only at e1
    split_ifs at e1
    unfold tabulate at e1
    split_ifs at e1
    rw [← Option.some.inj e1]
  have hwide := hr.wide
  have hazi := hr.azi
  rw [← hpolh] at hazi
  rw [← w1, Int.toNat_natCast] at hwide
  obtain ⟨med, ring, hmed, e2, h2, w3, v2⟩ := ringFilter_result_partial a.mode pol a.thr
    (2 * a.ringWidth + 1) (pol.h * a.thetaMin / 360) (by omega) (by have := hr.ring; omega) hwide hazi
  obtain ⟨back, e3, h3, w4, v3⟩ := inverse_reads_inside tg htg ring img.w img.h
  have hpc : ∀ r < pol.h, ∀ c < pol.w, pol.px r c = clampTo a.tmax a.tmin v := by
    intro r hr' c hc
    obtain ⟨x, y, hx, hy, -, -, e⟩ := vp r hr' c hc
    rw [e, hv y hy x hx]
  have hm : ∀ r < pol.h, ∀ c < pol.w, med r c = clampTo a.tmax a.tmin v := by
    intro r hr' c hc
    refine window_const_rank pol _ hpc r c _ hr' hc ?_ _ (hmed r hr' c hc)
    unfold radiusAt
    split_ifs <;> omega
  have hzero : ∀ r < pol.h, ∀ c < pol.w, (diffImg pol a.thr med).px r c = 0 := by
    intro r hr' c hc
    simp only [diffImg, threshDiff]
    rw [hpc r hr' c hc, hm r hr' c hc, sub_self, ite_self]
  have hring : ∀ p < pol.h, ∀ q < pol.w, ring.px p q = 0 := by
    intro p hp q hq
    rw [v2 p hp q hq]
    unfold meanSpec
    split_ifs with hcase
    · unfold winMean winSum
      have hk : ∀ k, k ≤ pol.h * a.thetaMin / 360 → ∀ i : Nat, i < 2 * k + 1 →
          (rowIx a.mode pol.h p ((p : Int) - k + i)).toNat < pol.h := by
        intro k hk i hi
        unfold rowIx
        cases hmode : a.mode with
        | wrap =>
          dsimp only
          have h4 := Int.emod_lt_of_pos ((p : Int) - k + i) (by omega : (0 : Int) < pol.h)
          have h5 := Int.emod_nonneg ((p : Int) - k + i) (by omega : (pol.h : Int) ≠ 0)
          omega
        | reflect =>
          rw [hmode] at hazi
          have hazi' : pol.h * a.thetaMin / 360 < pol.h / 2 := hazi
          dsimp only
          split_ifs with hp2 <;> unfold mirror <;> split_ifs <;> omega
      have : ((List.range (2 * radiusAt pol.w (pol.h * a.thetaMin / 360) q + 1)).map fun i : Nat =>
          (diffImg pol a.thr med).px (rowIx a.mode (diffImg pol a.thr med).h p
            ((p : Int) - radiusAt pol.w (pol.h * a.thetaMin / 360) q + i)).toNat q).sum = 0 := by
        refine List.sum_eq_zero ?_
        intro x hx
        obtain ⟨i, hi, rfl⟩ := List.mem_map.1 hx
        rw [List.mem_range] at hi
        refine hzero _ (hk _ ?_ i hi) _ hq
        unfold radiusAt
        split_ifs <;> omega
      rw [this, zero_div]
    · rfl
  refine ⟨⟨img.h, img.w, fun r c => img.px r c - back.px r c⟩, ?_, ?_⟩
  · unfold removeRingSlice
    simp only [e1, e2, e3, Option.bind_eq_bind, Option.bind_some]
    rfl
  · intro row hrow col hcol
    dsimp only
    rcases v3 row hrow col hcol with ⟨p, q, hp, hq, -, -, hb⟩ | ⟨-, hb⟩
    · rw [hb, hring p (by omega) q (by omega), sub_zero, hv row hrow col hcol]
    · rw [hb, sub_zero, hv row hrow col hcol]

/-! ### The stack of slices (C45) -/

theorem foldl_once {α : Type} (n : Nat) (g : α → Option α) (L : List Mproc.Slc)
    (o : Nat → Option α) (hnd : (L.flatMap (Mproc.Slc.indices n)).Nodup) (s : Nat) :
    L.foldl (fun (o : Nat → Option α) slc => fun s =>
      if s ∈ slc.indices n then (o s).bind g else o s) o s
      = if s ∈ L.flatMap (Mproc.Slc.indices n) then (o s).bind g else o s := by
  induction L generalizing o with
  | nil => simp
  | cons x L ih =>
    rw [List.flatMap_cons] at hnd ⊢
    rw [List.nodup_append] at hnd
    obtain ⟨-, hnd2, hdis⟩ := hnd
    rw [List.foldl_cons, ih _ hnd2]
    simp only [List.mem_append]
    by_cases h1 : s ∈ x.indices n
    · have h2 : s ∉ L.flatMap (Mproc.Slc.indices n) := fun h2 => hdis s h1 s h2 rfl
      simp [h1, h2]
    · simp [h1]

/-- **C45** (chunks).  For every number of slices, cores and chunk size for which `remove_ring`
returns, every slice of the working array is processed exactly once. -/
theorem remove_ring_chunks (cpu n : Nat) (tg : Trig K) (cx cy : Option K) (tmax tmin thr : K)
    (thetaMin : Int) (rwidth : Nat) (intMode : String) (ncore nchunk : Option Nat) (h w : Nat)
    (rec : Nat → Img K) (out : Option (Nat → Img K)) (res : Nat → Option (Img K))
    (hres : removeRing cpu n tg cx cy tmax tmin thr thetaMin rwidth intMode ncore nchunk h w rec out
      = .ok res) :
    ∃ mode, parseMode intMode = .ok mode ∧ 0 ≤ thetaMin ∧ thetaMin < 180 ∧ ∀ s < n,
      res s = removeRingSlice tg ⟨cx.getD (((w : K) - 1) / 2), cy.getD (((h : K) - 1) / 2), tmax, tmin,
        thr, thetaMin.toNat, rwidth, mode⟩ (out.getD rec s) := by
  unfold removeRing at hres
  cases hm : parseMode intMode with
  | error e => rw [hm] at hres; cases hres
  | ok mode =>
    rw [hm] at hres
    by_cases ht : 0 ≤ thetaMin ∧ thetaMin < 180
    · simp only [bind, Except.bind, if_neg (not_not.2 ht)] at hres
      cases hg : Mproc.getNcoreNchunk cpu n ncore nchunk with
      | error e => rw [hg] at hres; cases hres
      | ok p =>
        obtain ⟨nc, nk⟩ := p
        rw [hg] at hres
        dsimp only at hres
        by_cases hz : nc = 0
        · simp [hz] at hres
        · simp only [hz, if_false] at hres
          by_cases hk : nk = 0 ∧ 0 < n
          · simp [hk] at hres
          · simp only [hk, if_false] at hres
            refine ⟨mode, rfl, ht.1, ht.2, ?_⟩
            intro s hs
            have hcov := Mproc.chunkSlices_cover n nk (by omega)
            have e := Except.ok.inj hres
            rw [← e]
            have hf := foldl_once n (removeRingSlice tg ⟨cx.getD (((w : K) - 1) / 2),
              cy.getD (((h : K) - 1) / 2), tmax, tmin, thr, thetaMin.toNat, rwidth, mode⟩)
              (Mproc.chunkSlices n nk) (fun s => some (out.getD rec s))
              (by rw [hcov]; exact List.nodup_range) s
            simp only [hcov, List.mem_range, hs, if_true] at hf
            cases out <;> exact hf
    · simp [bind, Except.bind, ht] at hres

/-- If an output array other than the input is given, the result is computed from the previous
contents of the output array: the input does not matter. -/
theorem remove_ring_ignores_input (cpu n : Nat) (tg : Trig K) (cx cy : Option K) (tmax tmin thr : K)
    (thetaMin : Int) (rwidth : Nat) (intMode : String) (ncore nchunk : Option Nat) (h w : Nat)
    (rec rec' o : Nat → Img K) :
    removeRing cpu n tg cx cy tmax tmin thr thetaMin rwidth intMode ncore nchunk h w rec (some o)
      = removeRing cpu n tg cx cy tmax tmin thr thetaMin rwidth intMode ncore nchunk h w rec'
        (some o) := rfl

end

/-! ### The real functions satisfy the assumptions -/

/-- remove_ring.c:104-108, 143-153 over the real numbers with exact functions. -/
noncomputable def realTrig (cx cy : ℝ) (polH : Nat) : Trig ℝ where
  cs row := Real.cos ((row : ℝ) * 2 * PI / polH + PI / polH)
  sn row := Real.sin ((row : ℝ) * 2 * PI / polH + PI / polH)
  th row col :=
    let t := Complex.arg ⟨(col : ℝ) - cx - PI / polH, (row : ℝ) - cy⟩
    if t < 0 then t + 2 * PI else t
  dist row col := Real.sqrt (((row : ℝ) - cy) * (row - cy) + ((col : ℝ) - cx) * (col - cx))

theorem realTrig_ok (cx cy : ℝ) (polH : Nat) : (realTrig cx cy polH).Ok := by
  refine ⟨fun r => ⟨Real.neg_one_le_cos _, Real.cos_le_one _, Real.neg_one_le_sin _,
    Real.sin_le_one _⟩, fun r c => ⟨?_, Real.sqrt_nonneg _⟩⟩
  simp only [realTrig]
  split_ifs with h
  · have h1 := Complex.neg_pi_lt_arg ⟨(c : ℝ) - cx - PI / polH, (r : ℝ) - cy⟩
    have h2 := Real.pi_lt_d2
    have h3 : (PI : ℝ) = 314159265359 / 100000000000 := rfl
    rw [h3] at h1 ⊢
    linarith
  · exact not_lt.1 h

/-- The hypotheses of C44, C45 and C74 on an example: a slice of 512 × 512 pixels with the default
parameters. -/
example : Runs (K := ℚ) ⟨511 / 2, 511 / 2, 300, -100, 300, 30, 30, .wrap⟩ 512 512
    (polHeight (K := ℚ) (minDistance (511 / 2 : ℚ) (511 / 2) 512 512)).toNat where
  inside := by unfold Inside; norm_num
  ring := by norm_num
  wide := by decide +kernel
  azi := aziOk_of_theta _ _ _ (by norm_num) (fun h => by cases h)

/-- Trigonometric values over ℚ with the required range. -/
example : Trig.Ok (K := ℚ) ⟨fun _ => 3 / 5, fun _ => 4 / 5, fun _ _ => 1, fun r c => r + c⟩ :=
  ⟨fun _ => by norm_num, fun r c => ⟨by norm_num, by positivity⟩⟩

/-- With 256 × 256 pixels and the default parameters the polar image has 128 columns. -/
example : minDistance (255 / 2 : ℚ) (255 / 2) 256 256 = 128 := by decide +kernel

end Tomopy.Ring
