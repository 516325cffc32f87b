import Verif.Iter.Relabel
import Verif.Iter.Tracer
import Verif.Ray.Axis

/-!
# Turned and mirrored scans (C164)

All angles are increased by `π/2`, or replaced by their negatives; the image turns or is mirrored with them.
The full statement is for every scan; it is false (`Sim.project_turned_fails`) because a ray that runs along
a grid line is charged to one of its sides.  Proved here: scans with no ray through a corner of the grid
(`Generic`).  Missing: scans in which some ray meets a corner without running along a grid line.
-/

set_option linter.unusedSectionVars false

namespace Tomopy.Iter

open Real (pi)

/-! ## Specification -/

/-- `r'` is `np.rot90(r, axes=(1, 2))`: the `rx × rz` slices are turned by a quarter turn into `rz × rx`
slices. -/
def Turned {K : Type*} (dy rx rz : Nat) (r r' : Mem K) : Prop :=
  ∀ s < dy, ∀ ix < rx, ∀ iy < rz,
    r' (s * (rx * rz) + (rz - 1 - iy) * rx + ix) = r (s * (rx * rz) + ix * rz + iy)

/-- `r'` is `np.flip(r, axis=1)`. -/
def Mirrored {K : Type*} (dy rx rz : Nat) (r r' : Mem K) : Prop :=
  ∀ s < dy, ∀ ix < rx, ∀ iy < rz,
    r' (s * (rx * rz) + (rx - 1 - ix) * rz + iy) = r (s * (rx * rz) + ix * rz + iy)

/-- No ray of the scan meets a corner of the grid, and no angle is within `1 / ipiC` (3e-9) of a
multiple of `π/2` without being one. -/
def Generic (rx rz dx dy dt : Nat) (center theta : Nat → ℝ) : Prop :=
  ∀ p < dt, Ray.ClearOfAxes (theta p) ∧ ∀ s < dy, ∀ d < dx, Ray.RayAvoidsCorners rx rz dx (center s) (theta p) d

/-! ## Pixel numbers -/

/-- Where pixel `j` goes in a quarter turn. -/
def turnIdx (rx rz j : Nat) : Nat := j / rz + (rz - 1 - j % rz) * rx

/-- Where pixel `j` goes in a reflection. -/
def flipIdx (rx rz j : Nat) : Nat := j % rz + (rx - 1 - j / rz) * rz

theorem idx_parts {rz ix iy : Nat} (h : iy < rz) : (ix * rz + iy) / rz = ix ∧ (ix * rz + iy) % rz = iy := by
  constructor
  · rw [Nat.add_comm, Nat.add_mul_div_right _ _ (by omega), Nat.div_eq_of_lt h, Nat.zero_add]
  · rw [Nat.add_comm, Nat.add_mul_mod_self_right, Nat.mod_eq_of_lt h]

theorem turnIdx_eq {rx rz ix iy : Nat} (h : iy < rz) : turnIdx rx rz (ix * rz + iy) = (rz - 1 - iy) * rx + ix := by
  unfold turnIdx
  rw [(idx_parts h).1, (idx_parts h).2, Nat.add_comm]

theorem flipIdx_eq {rx rz ix iy : Nat} (h : iy < rz) : flipIdx rx rz (ix * rz + iy) = (rx - 1 - ix) * rz + iy := by
  unfold flipIdx
  rw [(idx_parts h).1, (idx_parts h).2, Nat.add_comm]

theorem idx_split {rx rz n : Nat} (hn : n < rx * rz) : ∃ ix < rx, ∃ iy < rz, n = ix * rz + iy := by
  have hz : 0 < rz := by
    rcases Nat.eq_zero_or_pos rz with h | h
    · rw [h, Nat.mul_zero] at hn; omega
    · exact h
  refine ⟨n / rz, (Nat.div_lt_iff_lt_mul hz).mpr hn, n % rz, Nat.mod_lt _ hz, ?_⟩
  rw [Nat.mul_comm]
  exact (Nat.div_add_mod n rz).symm

theorem idx_lt {rx rz ix iy : Nat} (hx : ix < rx) (hy : iy < rz) : ix * rz + iy < rx * rz := by
  have := Nat.mul_le_mul_right rz (show ix + 1 ≤ rx from hx)
  rw [Nat.add_mul, Nat.one_mul] at this
  omega

theorem turned_iff {K : Type*} (dy dt dx rx rz : Nat) (r r' : Mem K) :
    Turned dy rx rz r r' ↔ MovedImage ⟨dy, dt, dx, rx * rz⟩ (turnIdx rx rz) r r' := by
  constructor
  · intro h s hs n hn
    obtain ⟨ix, hx, iy, hy, rfl⟩ := idx_split hn
    have := h s hs ix hx iy hy
    rw [turnIdx_eq hy]
    rw [Nat.add_assoc, Nat.add_comm, Nat.add_assoc (s * (rx * rz)),
      Nat.add_comm (s * (rx * rz)) (ix * rz + iy)] at this
    exact this
  · intro h s hs ix hx iy hy
    have := h s hs (ix * rz + iy) (idx_lt hx hy)
    rw [turnIdx_eq hy] at this
    rw [Nat.add_assoc, Nat.add_comm, Nat.add_assoc (s * (rx * rz)),
      Nat.add_comm (s * (rx * rz)) (ix * rz + iy)]
    exact this

theorem mirrored_iff {K : Type*} (dy dt dx rx rz : Nat) (r r' : Mem K) :
    Mirrored dy rx rz r r' ↔ MovedImage ⟨dy, dt, dx, rx * rz⟩ (flipIdx rx rz) r r' := by
  constructor
  · intro h s hs n hn
    obtain ⟨ix, hx, iy, hy, rfl⟩ := idx_split hn
    have := h s hs ix hx iy hy
    rw [flipIdx_eq hy]
    rw [Nat.add_assoc, Nat.add_comm, Nat.add_assoc (s * (rx * rz)),
      Nat.add_comm (s * (rx * rz)) (ix * rz + iy)] at this
    exact this
  · intro h s hs ix hx iy hy
    have := h s hs (ix * rz + iy) (idx_lt hx hy)
    rw [flipIdx_eq hy] at this
    rw [Nat.add_assoc, Nat.add_comm, Nat.add_assoc (s * (rx * rz)),
      Nat.add_comm (s * (rx * rz)) (ix * rz + iy)]
    exact this

theorem idx_unique {rz ix iy jx jy : Nat} (h1 : iy < rz) (h2 : jy < rz) (h : ix * rz + iy = jx * rz + jy) :
    ix = jx ∧ iy = jy := by
  have e1 := (idx_parts (ix := ix) h1)
  have e2 := (idx_parts (ix := jx) h2)
  rw [h] at e1
  exact ⟨e1.1.symm.trans e2.1, e1.2.symm.trans e2.2⟩

theorem turn_pix {rx rz j : Nat} (hj : j < rx * rz) : (Ray.turnPix rx rz (j : Int)).toNat = turnIdx rx rz j := by
  obtain ⟨ix, hx, iy, hy, rfl⟩ := idx_split hj
  unfold Ray.turnPix turnIdx
  have h1 := (idx_parts (ix := ix) hy).2
  have : (rz : Int) - 1 - ((ix * rz + iy : Nat) : Int) % (rz : Int) =
      ((rz - 1 - (ix * rz + iy) % rz : Nat) : Int) := by
    rw [← Int.natCast_mod, h1]
    omega
  rw [this, ← Int.natCast_div, ← Int.natCast_mul, ← Int.natCast_add, Int.toNat_natCast]

theorem flip_pix {rx rz j : Nat} (hj : j < rx * rz) : (Ray.flipPix rx rz (j : Int)).toNat = flipIdx rx rz j := by
  obtain ⟨ix, hx, iy, hy, rfl⟩ := idx_split hj
  unfold Ray.flipPix flipIdx
  have h1 := (idx_parts (ix := ix) hy).1
  have : (rx : Int) - 1 - ((ix * rz + iy : Nat) : Int) / (rz : Int) =
      ((rx - 1 - (ix * rz + iy) / rz : Nat) : Int) := by
    rw [← Int.natCast_div, h1]
    omega
  rw [this, ← Int.natCast_mod, ← Int.natCast_mul, ← Int.natCast_add, Int.toNat_natCast]

/-! ## The tracer -/

theorem geom_moved {rx rz rx' rz' dx : Nat} {center theta theta' : Nat → ℝ} {s p d : Nat} {f : Int → Int}
    {τ : Nat → Nat} (hf : ∀ j < rx * rz, (f (j : Int)).toNat = τ j)
    (h : ∃ segs segs', Ray.rayTrace (Ray.capsRecon rx rz) rx rz dx (center s) (theta p) d = some segs ∧
      Ray.rayTrace (Ray.capsRecon rx' rz') rx' rz' dx (center s) (theta' p) d = some segs' ∧
      segs'.Perm (segs.map fun e => (f e.1, e.2))) :
    (tracerGeom rx' rz' dx center theta' s p d).Perm
      ((tracerGeom rx rz dx center theta s p d).map fun e => (τ e.1, e.2)) := by
  obtain ⟨segs, segs', h1, h2, h3⟩ := h
  unfold tracerGeom
  rw [h1, h2, Option.getD_some, Option.getD_some]
  refine (h3.map _).trans ?_
  rw [List.map_map, List.map_map]
  refine List.Perm.of_eq (List.map_congr_left fun e he => ?_)
  obtain ⟨segs0, e1, -, e3⟩ := Ray.rayTrace_safe rx rz dx (center s) (theta p) d
  rw [h1, Option.some.injEq] at e1
  subst e1
  obtain ⟨h4, h5, -⟩ := e3 e he
  have hj : e.1.toNat < rx * rz := by omega
  have := hf e.1.toNat hj
  rw [Int.toNat_of_nonneg h4] at this
  simp only [Function.comp_apply, this]

theorem tracer_turned {rx rz dx dy dt : Nat} {center theta : Nat → ℝ}
    (h : Generic rx rz dx dy dt center theta) :
    Relabels ⟨dy, dt, dx, rx * rz⟩ (turnIdx rx rz) (tracerGeom rx rz dx center theta)
      (tracerGeom rz rx dx center fun p => theta p + pi / 2) where
  lt n hn := by
    obtain ⟨ix, hx, iy, hy, rfl⟩ := idx_split hn
    rw [turnIdx_eq hy]
    dsimp only
    rw [Nat.mul_comm rx rz]
    exact idx_lt (by omega) hx
  inj n hn m hm e := by
    obtain ⟨ix, hx, iy, hy, rfl⟩ := idx_split hn
    obtain ⟨jx, hx', jy, hy', rfl⟩ := idx_split hm
    rw [turnIdx_eq hy, turnIdx_eq hy'] at e
    obtain ⟨e1, e2⟩ := idx_unique hx hx' e
    obtain rfl : iy = jy := by omega
    rw [e2]
  ray s hs p hp d hd := geom_moved (fun j hj => turn_pix hj)
    (Ray.quarter_segments rx rz dx (center s) (theta p) d (h p hp).1 ((h p hp).2 s hs d hd))

theorem tracer_mirrored {rx rz dx dy dt : Nat} {center theta : Nat → ℝ}
    (h : Generic rx rz dx dy dt center theta) :
    Relabels ⟨dy, dt, dx, rx * rz⟩ (flipIdx rx rz) (tracerGeom rx rz dx center theta)
      (tracerGeom rx rz dx center fun p => -theta p) where
  lt n hn := by
    obtain ⟨ix, hx, iy, hy, rfl⟩ := idx_split hn
    rw [flipIdx_eq hy]
    exact idx_lt (by omega) hy
  inj n hn m hm e := by
    obtain ⟨ix, hx, iy, hy, rfl⟩ := idx_split hn
    obtain ⟨jx, hx', jy, hy', rfl⟩ := idx_split hm
    rw [flipIdx_eq hy, flipIdx_eq hy'] at e
    obtain ⟨e1, e2⟩ := idx_unique hy hy' e
    obtain rfl : ix = jx := by omega
    rw [e2]
  ray s hs p hp d hd := geom_moved (fun j hj => flip_pix hj)
    (Ray.mirror_segments rx rz dx (center s) (theta p) d (h p hp).1 ((h p hp).2 s hs d hd))

/-! ## C164 -/

section Turn

variable {rx rz dx dy dt : Nat} {center theta : Nat → ℝ}

/-- Both runs stop at the same division by zero, or both give an image; the second one is the first one
moved as `R` says (specification). -/
def SameResult (R : Mem ℝ → Mem ℝ → Prop) : Option (Mem ℝ) → Option (Mem ℝ) → Prop
  | none, none => True
  | some r, some r' => R r r'
  | _, _ => False

theorem sameResult_of {D : Dims} {τ : Nat → Nat} {R : Mem ℝ → Mem ℝ → Prop}
    (hR : ∀ r r', MovedImage D τ r r' → R r r') :
    ∀ {a b : Option (Mem ℝ)}, MovedResult D τ a b → SameResult R a b
  | none, none, _ => trivial
  | some _, some _, h => hR _ _ h
  | none, some _, h => h
  | some _, none, h => h

/-- **C164 (partial)**: the projections of a turned object with all angles increased by `π/2` are those of the
object. -/
theorem project_turned_partial (h : Generic rx rz dx dy dt center theta) {u u' : Mem ℝ} (hu : Turned dy rx rz u u')
    (data : Mem ℝ) {s p d : Nat} (hs : s < dy) (hp : p < dt) (hd : d < dx) :
    project ⟨dy, dt, dx, rx * rz⟩ (tracerGeom rz rx dx center fun p => theta p + pi / 2) u' data
        (Dims.data ⟨dy, dt, dx, rx * rz⟩ s p d) =
      project ⟨dy, dt, dx, rx * rz⟩ (tracerGeom rx rz dx center theta) u data
        (Dims.data ⟨dy, dt, dx, rx * rz⟩ s p d) :=
  project_moved (D := ⟨dy, dt, dx, rx * rz⟩) (tracer_geomOk rx rz dx dy dt center theta) (tracer_turned h)
    ((turned_iff dy dt dx rx rz u u').mp hu) data hs hp hd

/-- **C164 (partial)**: the same for a mirrored object and the negative angles. -/
theorem project_mirrored_partial (h : Generic rx rz dx dy dt center theta) {u u' : Mem ℝ} (hu : Mirrored dy rx rz u u')
    (data : Mem ℝ) {s p d : Nat} (hs : s < dy) (hp : p < dt) (hd : d < dx) :
    project ⟨dy, dt, dx, rx * rz⟩ (tracerGeom rx rz dx center fun p => -theta p) u' data
        (Dims.data ⟨dy, dt, dx, rx * rz⟩ s p d) =
      project ⟨dy, dt, dx, rx * rz⟩ (tracerGeom rx rz dx center theta) u data
        (Dims.data ⟨dy, dt, dx, rx * rz⟩ s p d) :=
  project_moved (D := ⟨dy, dt, dx, rx * rz⟩) (tracer_geomOk rx rz dx dy dt center theta) (tracer_mirrored h)
    ((mirrored_iff dy dt dx rx rz u u').mp hu) data hs hp hd

/-- **C164 (partial)**: with all angles increased by `π/2`, and a turned initial image, `fbp`, `art`, `bart` and `sirt`
give the turned image. -/
theorem linear_turned_partial (h : Generic rx rz dx dy dt center theta) (data : Mem ℝ) {u u' : Mem ℝ}
    (hu : Turned dy rx rz u u') {nb : Nat} {ind : List Nat} (hb : BlockArgs dt nb ind) (n : Nat) :
    Turned dy rx rz (fbp ⟨dy, dt, dx, rx * rz⟩ (tracerGeom rx rz dx center theta) data u)
      (fbp ⟨dy, dt, dx, rx * rz⟩ (tracerGeom rz rx dx center fun p => theta p + pi / 2) data u') ∧
    Turned dy rx rz (art ⟨dy, dt, dx, rx * rz⟩ (tracerGeom rx rz dx center theta) data n u)
      (art ⟨dy, dt, dx, rx * rz⟩ (tracerGeom rz rx dx center fun p => theta p + pi / 2) data n u') ∧
    SameResult (Turned dy rx rz)
      (bart ⟨dy, dt, dx, rx * rz⟩ (tracerGeom rx rz dx center theta) data n nb ind u)
      (bart ⟨dy, dt, dx, rx * rz⟩ (tracerGeom rz rx dx center fun p => theta p + pi / 2) data n nb ind u') ∧
    SameResult (Turned dy rx rz)
      (sirt ⟨dy, dt, dx, rx * rz⟩ (tracerGeom rx rz dx center theta) data n u)
      (sirt ⟨dy, dt, dx, rx * rz⟩ (tracerGeom rz rx dx center fun p => theta p + pi / 2) data n u') := by
  have hg := tracer_geomOk rx rz dx dy dt center theta
  have hr := tracer_turned h
  have hm := (turned_iff dy dt dx rx rz u u').mp hu
  refine ⟨(turned_iff dy dt dx rx rz _ _).mpr (fbp_moved hg hr data hm),
    (turned_iff dy dt dx rx rz _ _).mpr (art_moved hg hr data n hm), ?_, ?_⟩
  · obtain ⟨r1, r1', e1, e2, e3⟩ := bart_moved hg hr data hb n hm
    rw [e1, e2]
    exact (turned_iff dy dt dx rx rz _ _).mpr e3
  · obtain ⟨r1, r1', e1, e2, e3⟩ := sirt_moved hg hr data n hm
    rw [e1, e2]
    exact (turned_iff dy dt dx rx rz _ _).mpr e3

/-- **C164 (partial)**: the same for the negative angles and the mirrored image. -/
theorem linear_mirrored_partial (h : Generic rx rz dx dy dt center theta) (data : Mem ℝ) {u u' : Mem ℝ}
    (hu : Mirrored dy rx rz u u') {nb : Nat} {ind : List Nat} (hb : BlockArgs dt nb ind) (n : Nat) :
    Mirrored dy rx rz (fbp ⟨dy, dt, dx, rx * rz⟩ (tracerGeom rx rz dx center theta) data u)
      (fbp ⟨dy, dt, dx, rx * rz⟩ (tracerGeom rx rz dx center fun p => -theta p) data u') ∧
    Mirrored dy rx rz (art ⟨dy, dt, dx, rx * rz⟩ (tracerGeom rx rz dx center theta) data n u)
      (art ⟨dy, dt, dx, rx * rz⟩ (tracerGeom rx rz dx center fun p => -theta p) data n u') ∧
    SameResult (Mirrored dy rx rz)
      (bart ⟨dy, dt, dx, rx * rz⟩ (tracerGeom rx rz dx center theta) data n nb ind u)
      (bart ⟨dy, dt, dx, rx * rz⟩ (tracerGeom rx rz dx center fun p => -theta p) data n nb ind u') ∧
    SameResult (Mirrored dy rx rz)
      (sirt ⟨dy, dt, dx, rx * rz⟩ (tracerGeom rx rz dx center theta) data n u)
      (sirt ⟨dy, dt, dx, rx * rz⟩ (tracerGeom rx rz dx center fun p => -theta p) data n u') := by
  have hg := tracer_geomOk rx rz dx dy dt center theta
  have hr := tracer_mirrored h
  have hm := (mirrored_iff dy dt dx rx rz u u').mp hu
  refine ⟨(mirrored_iff dy dt dx rx rz _ _).mpr (fbp_moved hg hr data hm),
    (mirrored_iff dy dt dx rx rz _ _).mpr (art_moved hg hr data n hm), ?_, ?_⟩
  · obtain ⟨r1, r1', e1, e2, e3⟩ := bart_moved hg hr data hb n hm
    rw [e1, e2]
    exact (mirrored_iff dy dt dx rx rz _ _).mpr e3
  · obtain ⟨r1, r1', e1, e2, e3⟩ := sirt_moved hg hr data n hm
    rw [e1, e2]
    exact (mirrored_iff dy dt dx rx rz _ _).mpr e3

/-- **C164 (partial)**: `osem` and `mlem`. -/
theorem em_turned_partial (h : Generic rx rz dx dy dt center theta) {data : Mem ℝ}
    (hdat : PosData ⟨dy, dt, dx, rx * rz⟩ data) {u u' : Mem ℝ} (hpos : PosImage ⟨dy, dt, dx, rx * rz⟩ u)
    {nb : Nat} {ind : List Nat} (hb : BlockArgs dt nb ind) (n : Nat) :
    (Turned dy rx rz u u' → SameResult (Turned dy rx rz)
      (osem ⟨dy, dt, dx, rx * rz⟩ (tracerGeom rx rz dx center theta) data n nb ind u)
      (osem ⟨dy, dt, dx, rx * rz⟩ (tracerGeom rz rx dx center fun p => theta p + pi / 2) data n nb ind u') ∧
      SameResult (Turned dy rx rz) (mlem ⟨dy, dt, dx, rx * rz⟩ (tracerGeom rx rz dx center theta) data n u)
      (mlem ⟨dy, dt, dx, rx * rz⟩ (tracerGeom rz rx dx center fun p => theta p + pi / 2) data n u')) ∧
    (Mirrored dy rx rz u u' → SameResult (Mirrored dy rx rz)
      (osem ⟨dy, dt, dx, rx * rz⟩ (tracerGeom rx rz dx center theta) data n nb ind u)
      (osem ⟨dy, dt, dx, rx * rz⟩ (tracerGeom rx rz dx center fun p => -theta p) data n nb ind u') ∧
      SameResult (Mirrored dy rx rz) (mlem ⟨dy, dt, dx, rx * rz⟩ (tracerGeom rx rz dx center theta) data n u)
      (mlem ⟨dy, dt, dx, rx * rz⟩ (tracerGeom rx rz dx center fun p => -theta p) data n u')) := by
  have hg := tracer_geomOk rx rz dx dy dt center theta
  refine ⟨fun hu => ⟨?_, ?_⟩, fun hu => ⟨?_, ?_⟩⟩
  · obtain ⟨r1, r1', e1, e2, e3⟩ := osem_moved hg (tracer_turned h) hdat hb n hpos
      ((turned_iff dy dt dx rx rz u u').mp hu)
    rw [e1, e2]
    exact (turned_iff dy dt dx rx rz _ _).mpr e3
  · obtain ⟨r1, r1', e1, e2, e3⟩ := mlem_moved hg (tracer_turned h) hdat n hpos
      ((turned_iff dy dt dx rx rz u u').mp hu)
    rw [e1, e2]
    exact (turned_iff dy dt dx rx rz _ _).mpr e3
  · obtain ⟨r1, r1', e1, e2, e3⟩ := osem_moved hg (tracer_mirrored h) hdat hb n hpos
      ((mirrored_iff dy dt dx rx rz u u').mp hu)
    rw [e1, e2]
    exact (mirrored_iff dy dt dx rx rz _ _).mpr e3
  · obtain ⟨r1, r1', e1, e2, e3⟩ := mlem_moved hg (tracer_mirrored h) hdat n hpos
      ((mirrored_iff dy dt dx rx rz u u').mp hu)
    rw [e1, e2]
    exact (mirrored_iff dy dt dx rx rz _ _).mpr e3

/-- **C164 (partial)**: `grad` and `tikh` with any step, including the automatic one; for `tikh` the reference image is
moved too. -/
theorem gradients_turned_partial (h : Generic rx rz dx dy dt center theta) (data : Mem ℝ) (n : Nat) (r reg0 reg1 : ℝ)
    {q q' u u' : Mem ℝ} :
    (Turned dy rx rz u u' → SameResult (Turned dy rx rz)
      (grad ⟨dy, dt, dx, rx * rz⟩ rx rz (tracerGeom rx rz dx center theta) data n r reg0 u)
      (grad ⟨dy, dt, dx, rx * rz⟩ rz rx (tracerGeom rz rx dx center fun p => theta p + pi / 2) data n r reg0 u')) ∧
    (Turned dy rx rz q q' → Turned dy rx rz u u' → SameResult (Turned dy rx rz)
      (tikh ⟨dy, dt, dx, rx * rz⟩ rx rz (tracerGeom rx rz dx center theta) data n r reg0 reg1 q u)
      (tikh ⟨dy, dt, dx, rx * rz⟩ rz rx (tracerGeom rz rx dx center fun p => theta p + pi / 2)
        data n r reg0 reg1 q' u')) ∧
    (Mirrored dy rx rz u u' → SameResult (Mirrored dy rx rz)
      (grad ⟨dy, dt, dx, rx * rz⟩ rx rz (tracerGeom rx rz dx center theta) data n r reg0 u)
      (grad ⟨dy, dt, dx, rx * rz⟩ rx rz (tracerGeom rx rz dx center fun p => -theta p) data n r reg0 u')) ∧
    (Mirrored dy rx rz q q' → Mirrored dy rx rz u u' → SameResult (Mirrored dy rx rz)
      (tikh ⟨dy, dt, dx, rx * rz⟩ rx rz (tracerGeom rx rz dx center theta) data n r reg0 reg1 q u)
      (tikh ⟨dy, dt, dx, rx * rz⟩ rx rz (tracerGeom rx rz dx center fun p => -theta p)
        data n r reg0 reg1 q' u')) := by
  have hg := tracer_geomOk rx rz dx dy dt center theta
  have ht := fun r r' : Mem ℝ => (turned_iff dy dt dx rx rz r r').mpr
  have hm := fun r r' : Mem ℝ => (mirrored_iff dy dt dx rx rz r r').mpr
  refine ⟨fun hu => ?_, fun hq hu => ?_, fun hu => ?_, fun hq hu => ?_⟩
  · exact sameResult_of ht (grad_moved hg (tracer_turned h) rfl (Nat.mul_comm _ _) data n r reg0
      ((turned_iff dy dt dx rx rz u u').mp hu))
  · exact sameResult_of ht (tikh_moved hg (tracer_turned h) rfl (Nat.mul_comm _ _) data n r reg0 reg1
      ((turned_iff dy dt dx rx rz q q').mp hq) ((turned_iff dy dt dx rx rz u u').mp hu))
  · exact sameResult_of hm (grad_moved hg (tracer_mirrored h) rfl rfl data n r reg0
      ((mirrored_iff dy dt dx rx rz u u').mp hu))
  · exact sameResult_of hm (tikh_moved hg (tracer_mirrored h) rfl rfl data n r reg0 reg1
      ((mirrored_iff dy dt dx rx rz q q').mp hq) ((mirrored_iff dy dt dx rx rz u u').mp hu))

end Turn

/-! ## Scans that meet the hypothesis -/

/-- One view at angle 0 of a square grid as wide as the detector. -/
theorem generic_zero (n dy : Nat) : Generic n n n dy 1 (fun _ => (n : ℝ) / 2) fun _ => 0 := by
  refine fun p _ => ⟨Ray.clear_zero, fun s _ d hd k hk m hm he => ?_⟩
  rw [Ray.rayY_default] at he
  simp only [Ray.OnRay, Real.sin_zero, Real.cos_zero, Ray.grid] at he
  have h1 : (2 : ℝ) * m = 2 * d + 1 := by linarith
  have h2 : 2 * m = 2 * d + 1 := by exact_mod_cast h1
  omega

/-- One view at 45 degrees of a grid with an even number of pixels. -/
theorem generic_quarter (n dy : Nat) :
    Generic (2 * n) (2 * n) (2 * n) dy 1 (fun _ => ((2 * n : Nat) : ℝ) / 2) fun _ => pi / 4 := by
  refine fun p _ => ⟨Ray.clear_quarter, fun s _ d hd k hk m hm he => ?_⟩
  rw [Ray.rayY_default] at he
  simp only [Ray.OnRay, Real.sin_pi_div_four, Real.cos_pi_div_four, Ray.grid] at he
  push_cast at he
  have h2 : Real.sqrt 2 * Real.sqrt 2 = 2 := Real.mul_self_sqrt (by norm_num)
  have h3 : ((m : ℝ) - k) * Real.sqrt 2 = 2 * d + 1 - 2 * n := by
    linear_combination 2 * he + ((d : ℝ) + 1 / 2 - n) * h2
  have h4 : 2 * ((m : ℝ) - k) * ((m : ℝ) - k) = (2 * d + 1 - 2 * n) * (2 * d + 1 - 2 * n) := by
    rw [← h3]
    linear_combination -((m : ℝ) - k) * ((m : ℝ) - k) * h2
  have h5 : 2 * ((m : Int) - k) * ((m : Int) - k) = (2 * d + 1 - 2 * n) * (2 * d + 1 - 2 * n) := by
    exact_mod_cast h4
  have h6 : (2 * (d : Int) + 1 - 2 * n) * (2 * d + 1 - 2 * n) = 2 * (2 * ((d : Int) - n) * (d - n) + 2 * (d - n)) + 1 := by
    ring
  rw [h6, mul_assoc] at h5
  omega

end Tomopy.Iter
