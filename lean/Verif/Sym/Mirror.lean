import Verif.Stripe.Sf
import Verif.Normalize.Exact
import Verif.Morph.Exact
import Verif.Corr.Median3d
import Mathlib.Algebra.BigOperators.Intervals

/-! C191: preprocessing of mirrored data. -/

set_option linter.unusedSectionVars false

namespace Tomopy.Sym

/-! ### remove_stripe_sf -/

section Sf
open Tomopy.Stripe

variable {K : Type} [Field K]

/-- Specification: `remove_stripe_sf` of the stack mirrored left to right is the mirrored result, for
all stacks. -/
def SfMirrors (K : Type) [Field K] (dx dy dz size : Nat) : Prop :=
  ∀ (X : Nat → Nat → Nat → K) (m m' : SfCell → Option K),
    HoldsStack ⟨dx, dy, dz, size⟩ m X →
    HoldsStack ⟨dx, dy, dz, size⟩ m' (fun s p j => X s p (dz - 1 - j)) →
    ∀ s < dy, ∀ p < dx, ∀ j < dz,
      (sfProg ⟨dx, dy, dz, size⟩).run m' (.data (j + s * dz + p * dy * dz))
        = (sfProg ⟨dx, dy, dz, size⟩).run m (.data ((dz - 1 - j : Nat) + s * dz + p * dy * dz))

theorem nearestCol_reflect (n : Nat) (hn : 0 < n) (k : Int) :
    n - 1 - nearestCol n k = nearestCol n ((n : Int) - 1 - k) := by
  unfold nearestCol
  omega

theorem smoothMean_reflect (dx dz size : Nat) (X : Nat → Nat → K) (j : Nat)
    (hj : j < dz) :
    smoothMean dx dz size (fun p j => X p (dz - 1 - j)) j
      = (∑ t ∈ Finset.range size, colMean dx X
        (nearestCol dz (((dz - 1 - j : Nat) : Int) + t + (size / 2 : Nat) + 1 - size))) / size := by
  unfold smoothMean
  congr 1
  rw [← Finset.sum_range_reflect]
  refine Finset.sum_congr rfl fun t ht => ?_
  have ht := Finset.mem_range.1 ht
  have e : ∀ k, colMean dx (fun p j => X p (dz - 1 - j)) k = colMean dx X (dz - 1 - k) :=
    fun k => rfl
  rw [e, nearestCol_reflect dz (by omega)]
  congr 2
  omega

/-- What the mirrored stack gives more than the mirrored result. -/
theorem sf_mirror_defect [CharZero K] (dx dy dz size : Nat) (h1 : 1 ≤ size) (X : Nat → Nat → Nat → K)
    (m m' : SfCell → Option K) (hX : HoldsStack ⟨dx, dy, dz, size⟩ m X)
    (hX' : HoldsStack ⟨dx, dy, dz, size⟩ m' fun s p j => X s p (dz - 1 - j)) :
    ∀ s < dy, ∀ p < dx, ∀ j < dz, ∃ y y',
      (sfProg ⟨dx, dy, dz, size⟩).run m (.data ((dz - 1 - j : Nat) + s * dz + p * dy * dz)) = some y ∧
      (sfProg ⟨dx, dy, dz, size⟩).run m' (.data (j + s * dz + p * dy * dz)) = some y' ∧
      y' - y = if size % 2 = 1 then 0 else
        (colMean dx (X s) (nearestCol dz (((dz - 1 - j : Nat) : Int) + (size / 2 : Nat)))
          - colMean dx (X s) (nearestCol dz (((dz - 1 - j : Nat) : Int) - (size / 2 : Nat)))) / size := by
  intro s hs p hp j hj
  refine ⟨_, _, sf_result dx dy dz size h1 X m hX s hs p hp (dz - 1 - j) (by dsimp only; omega),
    sf_result dx dy dz size h1 _ m' hX' s hs p hp j hj, ?_⟩
  dsimp only
  rw [smoothMean_reflect dx dz size (X s) j hj]
  have e : colMean dx (fun p j => X s p (dz - 1 - j)) j = colMean dx (X s) (dz - 1 - j) := rfl
  rw [e]
  generalize dz - 1 - j = J
  have e2 : ∀ a b c d : K, a - (b - c) - (a - (b - d)) = c - d := by intros; ring
  rw [e2]
  unfold smoothMean
  rw [← sub_div]
  by_cases ho : size % 2 = 1
  · rw [if_pos ho]
    have e3 : ∀ t : Nat, ((J : Int) + t + (size / 2 : Nat) + 1 - size)
        = (J : Int) + t - (size / 2 : Nat) := by intro t; omega
    simp only [e3, sub_self, zero_div]
  · rw [if_neg ho]
    congr 1
    obtain ⟨h, rfl⟩ : ∃ h, size = 2 * h := ⟨size / 2, by omega⟩
    have e3 : ∀ t : Nat, ((J : Int) + t + ((2 * h / 2 : Nat) : Int) + 1 - (2 * h : Nat))
        = (J : Int) + (t + 1 : Nat) - h := by intro t; omega
    have e4 : ((2 * h / 2 : Nat) : Int) = h := by omega
    simp only [e4] at e3 ⊢
    simp only [e3]
    have k1 := Finset.sum_range_succ (fun t : Nat =>
      colMean dx (X s) (nearestCol dz ((J : Int) + t - h))) (2 * h)
    have k2 := Finset.sum_range_succ' (fun t : Nat =>
      colMean dx (X s) (nearestCol dz ((J : Int) + t - h))) (2 * h)
    rw [k1] at k2
    have e5 : ((J : Int) + (2 * h : Nat) - h) = J + h := by omega
    have e6 : ((J : Int) + (0 : Nat) - h) = J - h := by omega
    rw [e5, e6] at k2
    linear_combination -k2

/-- **C191** (`remove_stripe_sf`).  Mirroring commutes with the function for all stacks exactly if
the window has an odd number of columns or there is only one column. -/
theorem sf_mirrors_iff [CharZero K] (dx dy dz size : Nat) (hx : 1 ≤ dx) (hy : 1 ≤ dy)
    (h1 : 1 ≤ size) : SfMirrors K dx dy dz size ↔ size % 2 = 1 ∨ dz ≤ 1 := by
  constructor
  · intro h
    by_contra hc
    push Not at hc
    obtain ⟨he, hz⟩ := hc
    set X : Nat → Nat → Nat → K := fun _ _ j => if j = 0 then 1 else 0 with hXd
    have hold : ∀ Y : Nat → Nat → Nat → K, ∃ m : SfCell → Option K,
        HoldsStack ⟨dx, dy, dz, size⟩ m Y := by
      intro Y
      refine ⟨sfLoad ⟨dx, dy, dz, size⟩ ((List.range dy).map fun s => fun p j => some (Y s p j)), ?_⟩
      intro s hs p hp j hj
      have := sfLoad_data ⟨dx, dy, dz, size⟩
        ((List.range dy).map fun s => fun p j => some (Y s p j)) (p := p) hs hj
      unfold sfAddr at this
      refine this.trans ?_
      dsimp only at hs
      simp [List.getD, hs]
    obtain ⟨m, hm⟩ := hold X
    obtain ⟨m', hm'⟩ := hold fun s p j => X s p (dz - 1 - j)
    have h2 := h X m m' hm hm' 0 hy 0 hx (dz - 1) (by omega)
    obtain ⟨y, y', e1, e2, e3⟩ := sf_mirror_defect dx dy dz size h1 X m m' hm hm' 0 hy 0 hx (dz - 1)
      (by omega)
    rw [e1, e2, Option.some.injEq] at h2
    rw [h2, sub_self, if_neg he] at e3
    have hs0 : (size : K) ≠ 0 := by exact_mod_cast (by omega : size ≠ 0)
    have hd0 : (dx : K) ≠ 0 := by exact_mod_cast (by omega : dx ≠ 0)
    have c0 : nearestCol dz (((dz - 1 - (dz - 1) : Nat) : Int) - (size / 2 : Nat)) = 0 := by
      unfold nearestCol
      omega
    have c1 : nearestCol dz (((dz - 1 - (dz - 1) : Nat) : Int) + (size / 2 : Nat)) ≠ 0 := by
      unfold nearestCol
      omega
    have m0 : colMean dx (X 0) 0 = 1 := by
      unfold colMean
      simp [hXd, hd0]
    have m1 : ∀ k, k ≠ 0 → colMean dx (X 0) k = 0 := by
      intro k hk
      unfold colMean
      simp [hXd, hk]
    rw [c0, m0, m1 _ c1] at e3
    have := (div_eq_zero_iff.1 e3.symm).resolve_right hs0
    norm_num at this
  · intro h X m m' hm hm' s hs p hp j hj
    obtain ⟨y, y', e1, e2, e3⟩ := sf_mirror_defect dx dy dz size h1 X m m' hm hm' s hs p hp j hj
    rw [e1, e2]
    congr 1
    rcases h with h | h
    · rw [if_pos h] at e3
      exact sub_eq_zero.1 e3
    · have c : ∀ k, nearestCol dz k = 0 := by
        intro k
        unfold nearestCol
        omega
      rw [c, c, sub_self, zero_div, ite_self] at e3
      exact sub_eq_zero.1 e3

/-- The default window of five columns is symmetric, one of four is not. -/
example : SfMirrors ℚ 3 2 7 5 ∧ ¬ SfMirrors ℚ 3 2 7 4 := by
  constructor
  · exact (sf_mirrors_iff 3 2 7 5 (by omega) (by omega) (by omega)).2 (Or.inl rfl)
  · rw [sf_mirrors_iff 3 2 7 4 (by omega) (by omega) (by omega)]
    omega

end Sf

/-! ### normalize_bg -/

section Bg
open Tomopy.Normalize Tomopy.Num

variable {K : Type} [LinearOrder K] [Field K] [IsStrictOrderedRing K]

theorem airLine_reflect (dz nair : Nat) (r r' : Nat → K) (hn' : nair ≤ dz)
    (hz : 2 ≤ dz) (hr : ∀ j < dz, r' j = r (dz - 1 - j)) (j : Nat) (hj : j < dz) :
    airLine dz nair r' j = airLine dz nair r (dz - 1 - j) := by
  have e1 : (List.range nair).map r' = (List.range nair).map fun k => r (dz - 1 - k) :=
    List.map_congr_left fun k hk => hr k (by have := List.mem_range.1 hk; omega)
  have e2 : ((List.range nair).map fun k => r' (dz - 1 - k)) = (List.range nair).map r := by
    refine List.map_congr_left fun k hk => ?_
    have := List.mem_range.1 hk
    rw [hr _ (by omega)]
    congr 1
    omega
  unfold airLine
  rw [e1, e2]
  dsimp only
  have hd : (((dz - 1 : Nat)) : K) ≠ 0 := by exact_mod_cast (by omega : dz - 1 ≠ 0)
  rw [Nat.cast_sub (show j ≤ dz - 1 by omega)]
  field_simp
  ring

/-- **C191** (`normalize_bg`).  For all stacks and numbers of air pixels, the mirrored stack is
normalised to the mirrored result, and it fails exactly if the stack does. -/
theorem normalize_bg_mirrored (rows dz nair : Nat) (mem mem₂ : Nat → K)
    (hm : ∀ r < rows, ∀ j < dz, mem₂ (r * dz + j) = mem (r * dz + (dz - 1 - j))) :
    (normalizeBg rows dz nair mem = none ↔ normalizeBg rows dz nair mem₂ = none) ∧
    ∀ out out₂, normalizeBg rows dz nair mem = some out → normalizeBg rows dz nair mem₂ = some out₂ →
      ∀ r < rows, ∀ j < dz, out₂ (r * dz + j) = out (r * dz + (dz - 1 - j)) := by
  refine ⟨by rw [normalize_bg_none_iff, normalize_bg_none_iff], ?_⟩
  intro out out₂ h h₂ r hr j hj
  have hne : ¬ (1 ≤ rows ∧ (nair = 0 ∨ dz < nair ∨ dz ≤ 1)) := by
    rw [← normalize_bg_none_iff rows dz nair mem, h]
    simp
  have hc : 1 ≤ nair ∧ nair ≤ dz ∧ 2 ≤ dz := by
    refine ⟨?_, ?_, ?_⟩ <;> · by_contra hc; exact hne ⟨by omega, by omega⟩
  obtain ⟨hn, hn', hz⟩ := hc
  obtain ⟨o, e, s, -⟩ := normalize_bg_spec rows dz nair mem hn hn' hz
  obtain ⟨o₂, e₂, s₂, -⟩ := normalize_bg_spec rows dz nair mem₂ hn hn' hz
  rw [h, Option.some.injEq] at e
  rw [h₂, Option.some.injEq] at e₂
  rw [e, e₂, s₂ r hr j hj, s r hr _ (by omega), hm r hr j hj,
    airLine_reflect dz nair (fun k => mem (r * dz + k)) _ hn' hz (fun j hj => hm r hr j hj) j hj]

/-- A stack of two rows of three pixels and its mirror image. -/
example : ∃ mem mem₂ : Nat → ℚ, mem 0 ≠ mem 2 ∧
    ∀ r < 2, ∀ j < 3, mem₂ (r * 3 + j) = mem (r * 3 + (3 - 1 - j)) :=
  ⟨fun q => q, fun q => ((q / 3 * 3 + (2 - q % 3) : Nat) : ℚ), by norm_num, by decide +kernel⟩

end Bg

/-! ### median_filter3d and remove_outlier3d -/

section Median
open Tomopy.Corr Tomopy.Num Tomopy.Par

variable {K : Type} [LinearOrder K] [Field K] [IsStrictOrderedRing K]

/-- Specification: coordinate `i` of `n`, counted from the other end if `b`. -/
def flipIf (b : Bool) (n i : Nat) : Nat := if b then n - 1 - i else i

theorem flipIf_lt (b : Bool) {n i : Nat} (h : i < n) : flipIf b n i < n := by
  unfold flipIf
  split <;> omega

theorem flipIf_flipIf (b : Bool) {n i : Nat} (h : i < n) : flipIf b n (flipIf b n i) = i := by
  unfold flipIf
  cases b <;> simp
  omega

theorem coordOr_flip (b : Bool) (n i : Nat) (d : Int) (hi : i < n) :
    flipIf b n (coordOr n i d) = coordOr n (flipIf b n i) (if b then -d else d) := by
  cases b
  · rfl
  · unfold flipIf coordOr
    simp only [if_true]
    split <;> split <;> omega

theorem offsets_neg (b : Bool) (r : Nat) :
    ((offsets r).map fun d => if b then -d else d).Perm (offsets r) := by
  cases b
  · simp
  · have : ((offsets r).map fun d => if true then -d else d) = (offsets r).reverse := by
      unfold offsets
      refine List.ext_getElem (by simp) fun i h1 h2 => ?_
      simp only [List.length_map, List.length_range] at h1
      simp only [List.getElem_map, List.getElem_range, List.getElem_reverse, List.length_map,
        List.length_range, if_true]
      omega
    rw [this]
    exact List.reverse_perm _

/-- The window of a voxel of the flipped volume has the values of the window of the flipped voxel. -/
theorem window3_flip (bz bY bx : Bool) (r dZ dY dX : Nat) (vol : Nat → Nat → Nat → K) (z y x : Nat)
    (hz : z < dZ) (hy : y < dY) (hx : x < dX) :
    (window3 r dZ dY dX (fun z y x => vol (flipIf bz dZ z) (flipIf bY dY y) (flipIf bx dX x))
      z y x).Perm
    (window3 r dZ dY dX vol (flipIf bz dZ z) (flipIf bY dY y) (flipIf bx dX x)) := by
  unfold window3
  simp only [coordOr_flip bz dZ z _ hz, coordOr_flip bY dY y _ hy, coordOr_flip bx dX x _ hx]
  set C : Int → Int → List K := fun a b => (offsets r).map fun c =>
    vol (coordOr dZ (flipIf bz dZ z) c) (coordOr dY (flipIf bY dY y) b)
      (coordOr dX (flipIf bx dX x) a) with hC
  have e1 : ∀ a b, ((offsets r).map fun c =>
      vol (coordOr dZ (flipIf bz dZ z) (if bz then -c else c)) (coordOr dY (flipIf bY dY y) b)
        (coordOr dX (flipIf bx dX x) a)).Perm (C a b) := by
    intro a b
    have := (offsets_neg bz r).map fun c =>
      vol (coordOr dZ (flipIf bz dZ z) c) (coordOr dY (flipIf bY dY y) b)
        (coordOr dX (flipIf bx dX x) a)
    rwa [List.map_map] at this
  have e2 : ∀ a, ((offsets r).flatMap fun b => (offsets r).map fun c =>
      vol (coordOr dZ (flipIf bz dZ z) (if bz then -c else c))
        (coordOr dY (flipIf bY dY y) (if bY then -b else b))
        (coordOr dX (flipIf bx dX x) a)).Perm ((offsets r).flatMap fun b => C a b) := by
    intro a
    refine (List.Perm.flatMap_left _ fun b _ => e1 a (if bY then -b else b)).trans ?_
    have := (offsets_neg bY r).flatMap_right (C a)
    rwa [List.flatMap_map] at this
  refine (List.Perm.flatMap_left _ fun a _ => e2 (if bx then -a else a)).trans ?_
  have := (offsets_neg bx r).flatMap_right fun a => (offsets r).flatMap fun b => C a b
  rwa [List.flatMap_map] at this

/-- **C191** (`median_filter3d`, `thr = 0`, and `remove_outlier3d`).  For all volumes, radii and
thresholds, the volume flipped along any of its axes is filtered to the flipped result, whatever the
schedules of the two calls. -/
theorem median3d_flipped (bz bY bx : Bool) (r dZ dY dX : Nat) (thr : K)
    (vol : Nat → Nat → Nat → K) (m m₂ : Cell → K)
    (hi : Holds dZ dY dX (fun a => m (.input a)) vol)
    (ho : Holds dZ dY dX (fun a => m (.output a)) vol)
    (hi₂ : Holds dZ dY dX (fun a => m₂ (.input a))
      fun z y x => vol (flipIf bz dZ z) (flipIf bY dY y) (flipIf bx dX x))
    (ho₂ : Holds dZ dY dX (fun a => m₂ (.output a))
      fun z y x => vol (flipIf bz dZ z) (flipIf bY dY y) (flipIf bx dX x))
    (sched sched₂ : List Nat)
    (hf : (Config.exec ⟨medTask r dX dY dZ thr, m⟩ sched).Finished)
    (hf₂ : (Config.exec ⟨medTask r dX dY dZ thr, m₂⟩ sched₂).Finished) :
    ∀ z < dZ, ∀ y < dY, ∀ x < dX,
      (Config.exec ⟨medTask r dX dY dZ thr, m₂⟩ sched₂).mem (.output (z * (dY * dX) + y * dX + x))
        = (Config.exec ⟨medTask r dX dY dZ thr, m⟩ sched).mem
          (.output (flipIf bz dZ z * (dY * dX) + flipIf bY dY y * dX + flipIf bx dX x)) := by
  intro z hz y hy x hx
  obtain ⟨-, h⟩ := med_final r dX dY dZ thr m sched hf
  obtain ⟨-, h₂⟩ := med_final r dX dY dZ thr m₂ sched₂ hf₂
  have fz := flipIf_lt bz hz
  have fy := flipIf_lt bY hy
  have fx := flipIf_lt bx hx
  have hw := window3_eq r dZ dY dX _ vol hi _ _ _ fz fy fx
  have hw₂ := window3_eq r dZ dY dX _ _ hi₂ z y x hz hy hx
  rw [← idx3_eq, ← idx3_eq, h _ fz _ fy _ fx, h₂ z hz y hy x hx, hw, hw₂]
  have a1 := hi _ fz _ fy _ fx
  have a2 := ho _ fz _ fy _ fx
  have b1 := hi₂ z hz y hy x hx
  have b2 := ho₂ z hz y hy x hx
  rw [← idx3_eq] at a1 a2 b1 b2
  dsimp only at a1 a2 b1 b2
  rw [a1, a2, b1, b2]
  unfold medDecide
  rw [sortL_perm (window3_flip bz bY bx r dZ dY dX vol z y x hz hy hx)]

/-- A volume of 2 × 3 × 4 voxels in memory, and the one flipped left to right. -/
example : Holds 2 3 4 (fun a => (fun c => match c with | .input a => (a : ℚ) | .output a => a :
      Cell → ℚ) (.input a)) (fun z y x => (z : ℚ) * 12 + y * 4 + x) ∧
    flipIf true 4 0 = 3 := by
  refine ⟨?_, rfl⟩
  intro z _ y _ x _
  push_cast
  ring

end Median

/-! ### downsample and upsample -/

section Sample
open Tomopy.Morph

variable {K : Type} [Field K]

/-- Specification: down-sampling along the last axis of the mirrored array is the mirrored result,
for all arrays. -/
def DownMirrors (K : Type) [Field K] (dx dy dz level : Nat) : Prop :=
  ∀ (data data' o o' : Nat → K),
    (∀ i < dx, ∀ j < dy, ∀ k < dz, data' (flat dy dz i j k) = data (flat dy dz i j (dz - 1 - k))) →
    downsample dx dy dz level 2 data = .ok (some ⟨(dx, dy, dz / 2 ^ level), o⟩) →
    downsample dx dy dz level 2 data' = .ok (some ⟨(dx, dy, dz / 2 ^ level), o'⟩) →
    ∀ i < dx, ∀ j < dy, ∀ k < dz / 2 ^ level,
      o' (flat dy (dz / 2 ^ level) i j k)
        = o (flat dy (dz / 2 ^ level) i j (dz / 2 ^ level - 1 - k))

/-- **C191** (`downsample`).  Mirroring commutes with down-sampling along the detector exactly if the
number of pixels is a multiple of the bin (or there is nothing to bin). -/
theorem down_mirrors_iff [CharZero K] (dx dy dz level : Nat) :
    DownMirrors K dx dy dz level ↔ 2 ^ level ∣ dz ∨ dz < 2 ^ level ∨ dx = 0 ∨ dy = 0 := by
  have hb : 0 < 2 ^ level := by positivity
  constructor
  · intro h
    by_contra hc
    push Not at hc
    obtain ⟨h1, h2, h3, h4⟩ := hc
    have hmod : 0 < dz % 2 ^ level := by
      rcases Nat.eq_zero_or_pos (dz % 2 ^ level) with h0 | h0
      · exact absurd (Nat.dvd_of_mod_eq_zero h0) h1
      · exact h0
    have hq : 0 < dz / 2 ^ level := Nat.div_pos h2 hb
    have hdm := Nat.div_add_mod dz (2 ^ level)
    obtain ⟨o, e, s⟩ := downsample_axis2_exact dx dy dz level fun q => if q = dz - 1 then (1 : K) else 0
    obtain ⟨o', e', s'⟩ := downsample_axis2_exact dx dy dz level fun q => if q = 0 then (1 : K) else 0
    have key := h _ _ o o' ?_ e e' 0 (by omega) 0 (by omega) 0 hq
    · rw [s' 0 (by omega) 0 (by omega) 0 hq, s 0 (by omega) 0 (by omega) _ (by omega)] at key
      simp only [Nat.zero_mul, Nat.zero_add, Nat.sub_zero] at key
      have hb0 : ((2 ^ level : Nat) : K) ≠ 0 := by exact_mod_cast hb.ne'
      have l1 : ∑ p ∈ Finset.range (2 ^ level), (if p = 0 then (1 : K) else 0) = 1 := by
        rw [Finset.sum_ite_eq' (Finset.range (2 ^ level)) 0 fun _ => (1 : K),
          if_pos (Finset.mem_range.2 hb)]
      have l2 : ∑ p ∈ Finset.range (2 ^ level),
          (if (dz / 2 ^ level - 1) * 2 ^ level + p = dz - 1 then (1 : K) else 0) = 0 := by
        refine Finset.sum_eq_zero fun p hp => if_neg ?_
        have hp := Finset.mem_range.1 hp
        have : (dz / 2 ^ level - 1) * 2 ^ level + 2 ^ level = 2 ^ level * (dz / 2 ^ level) := by
          obtain ⟨q, hq'⟩ := Nat.exists_eq_add_of_lt hq
          rw [hq']
          simp
          ring
        omega
      rw [l1, l2, zero_div] at key
      exact one_ne_zero ((div_eq_zero_iff.1 key).resolve_right hb0)
    · intro i hi j hj k hk
      unfold flat
      congr 1
      apply propext
      rcases Nat.eq_zero_or_pos (i * dy + j) with h0 | h0
      · rw [h0]
        omega
      · have : dz ≤ (i * dy + j) * dz := Nat.le_mul_of_pos_left dz h0
        omega
  · intro h data data' o o' hd e e' i hi j hj k hk
    rcases h with h | h | h | h
    · obtain ⟨u, eu, su⟩ := downsample_axis2_partial dx dy dz level h data
      obtain ⟨u', eu', su'⟩ := downsample_axis2_partial dx dy dz level h data'
      rw [ok_unique e eu, ok_unique e' eu', su' i hi j hj k hk, su i hi j hj _ (by omega)]
      congr 1
      rw [← Finset.sum_range_reflect]
      refine Finset.sum_congr rfl fun p hp => ?_
      have hp := Finset.mem_range.1 hp
      have hz := Nat.div_mul_cancel h
      obtain ⟨q, hq'⟩ := Nat.exists_eq_add_of_lt hk
      have h1 : dz = (k + q + 1) * 2 ^ level := by rw [← hq', hz]
      have h2 : (k + q + 1) * 2 ^ level = k * 2 ^ level + q * 2 ^ level + 2 ^ level := by ring
      rw [hd i hi j hj _ (by omega)]
      congr 2
      rw [hq', show k + q + 1 - 1 - k = q by omega]
      omega
    · rw [Nat.div_eq_of_lt h] at hk
      omega
    · omega
    · omega

/-- Four pixels can be binned by two from both ends, five cannot. -/
example : DownMirrors ℚ 3 2 4 1 ∧ ¬ DownMirrors ℚ 3 2 5 1 := by
  rw [down_mirrors_iff, down_mirrors_iff]
  decide

/-- **C191** (`upsample`).  The mirrored array is always up-sampled to the mirrored result. -/
theorem up_mirrored [CharZero K] (dx dy dz level : Nat) (data data' o o' : Nat → K)
    (hd : ∀ i < dx, ∀ j < dy, ∀ k < dz, data' (flat dy dz i j k) = data (flat dy dz i j (dz - 1 - k)))
    (e : upsample dx dy dz level 2 data = .ok (some ⟨(dx, dy, dz * 2 ^ level), o⟩))
    (e' : upsample dx dy dz level 2 data' = .ok (some ⟨(dx, dy, dz * 2 ^ level), o'⟩)) :
    ∀ i < dx, ∀ j < dy, ∀ k < dz * 2 ^ level,
      o' (flat dy (dz * 2 ^ level) i j k) = o (flat dy (dz * 2 ^ level) i j (dz * 2 ^ level - 1 - k)) := by
  have hb : 0 < 2 ^ level := by positivity
  intro i hi j hj k hk
  obtain ⟨-, -, u, eu, su⟩ := upsample_spec dx dy dz level data
  obtain ⟨-, -, u', eu', su'⟩ := upsample_spec dx dy dz level data'
  rw [ok_unique e eu, ok_unique e' eu']
  have hq : k / 2 ^ level < dz := Nat.div_lt_of_lt_mul (by rw [Nat.mul_comm]; exact hk)
  have hp := Nat.mod_lt k hb
  have hdm := Nat.div_add_mod k (2 ^ level)
  rw [Nat.mul_comm] at hdm
  generalize k / 2 ^ level = q at *
  generalize k % 2 ^ level = p at *
  subst hdm
  obtain ⟨t, rfl⟩ := Nat.exists_eq_add_of_lt hq
  have h2 : (q + t + 1) * 2 ^ level - 1 - (q * 2 ^ level + p) = t * 2 ^ level + (2 ^ level - 1 - p) := by
    have : (q + t + 1) * 2 ^ level = q * 2 ^ level + t * 2 ^ level + 2 ^ level := by ring
    omega
  rw [h2, su i hi j hj t (by omega) _ (by omega), su' i hi j hj q (by omega) p hp,
    hd i hi j hj q (by omega), show q + t + 1 - 1 - q = t by omega]

end Sample

end Tomopy.Sym
