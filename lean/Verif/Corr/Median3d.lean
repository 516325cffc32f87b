import Verif.Corr.Model
import Verif.Par.Lemmas
import Mathlib.Algebra.Order.Ring.Rat
import Mathlib.Algebra.Order.Field.Rat
import Mathlib.Tactic.Ring
import Mathlib.Tactic.Linarith

/-! Theorems about the 3D median filter / dezinger (C24). -/
set_option linter.unusedSectionVars false

namespace Tomopy.Corr
open Tomopy.Num Tomopy.Par

variable {K : Type} [LinearOrder K] [Field K] [IsStrictOrderedRing K]

theorem nb_lt (dim i : Nat) (d : Int) (hi : i < dim) : nb dim i d < dim := by
  unfold nb
  simp only
  split
  · exact hi
  · omega

theorem idx3_lt (dX dY dZ i j k : Nat) (hi : i < dX) (hj : j < dY) (hk : k < dZ) :
    idx3 dX dY i j k < dX * dY * dZ := by
  unfold idx3
  calc dX * dY * k + j * dX + i < dX * dY * k + j * dX + dX := by omega
    _ = dX * (dY * k + (j + 1)) := by ring
    _ ≤ dX * (dY * k + dY) := Nat.mul_le_mul_left _ (by omega)
    _ = dX * dY * (k + 1) := by ring
    _ ≤ dX * dY * dZ := Nat.mul_le_mul_left _ hk

theorem idx3_inj {dX dY i j k i' j' k' : Nat} (hi : i < dX) (hj : j < dY) (hi' : i' < dX)
    (hj' : j' < dY) (h : idx3 dX dY i j k = idx3 dX dY i' j' k') : i = i' ∧ j = j' ∧ k = k' := by
  have e : ∀ i j k, idx3 dX dY i j k = dX * (dY * k + j) + i := by
    intro i j k; unfold idx3; ring
  rw [e, e] at h
  have h1 : dY * k + j = dY * k' + j' := by
    have := congrArg (· / dX) h
    simp only [Nat.mul_add_div (by omega : 0 < dX), Nat.div_eq_of_lt hi, Nat.div_eq_of_lt hi',
      Nat.add_zero] at this
    exact this
  have h2 : i = i' := by rw [h1] at h; omega
  have h3 : k = k' := by
    have := congrArg (· / dY) h1
    simp only [Nat.mul_add_div (by omega : 0 < dY), Nat.div_eq_of_lt hj, Nat.div_eq_of_lt hj',
      Nat.add_zero] at this
    exact this
  refine ⟨h2, ?_, h3⟩
  rw [h3] at h1; omega

theorem windowIdx_lt (r dX dY dZ i j k : Nat) (hi : i < dX) (hj : j < dY) (hk : k < dZ) :
    ∀ a ∈ windowIdx r dX dY dZ i j k, a < dX * dY * dZ := by
  intro a ha
  unfold windowIdx at ha
  simp only [List.mem_flatMap, List.mem_map] at ha
  obtain ⟨im, _, jm, _, km, _, rfl⟩ := ha
  exact idx3_lt dX dY dZ _ _ _ (nb_lt _ _ _ hi) (nb_lt _ _ _ hj) (nb_lt _ _ _ hk)

theorem length_windowIdx (r dX dY dZ i j k : Nat) :
    (windowIdx r dX dY dZ i j k).length = (2 * r + 1) ^ 3 := by
  unfold windowIdx offs
  simp only [List.length_flatMap, List.length_map, List.length_range]
  simp only [List.map_const', List.sum_replicate_nat, List.length_map, List.length_range]
  ring

/-! ### Specification -/

/-- Coordinate used for offset `d`: the shifted coordinate if it is in the volume, otherwise the
centre coordinate. -/
def coordOr (dim i : Nat) (d : Int) : Nat :=
  if 0 ≤ (i : Int) + d ∧ (i : Int) + d < dim then ((i : Int) + d).toNat else i

/-- All offsets `-r, …, r`. -/
def offsets (r : Nat) : List Int := (List.range (2 * r + 1)).map fun a : Nat => (a : Int) - r

/-- The window of voxel `(z, y, x)` of the volume `vol`. -/
def window3 (r dZ dY dX : Nat) (vol : Nat → Nat → Nat → K) (z y x : Nat) : List K :=
  (offsets r).flatMap fun a => (offsets r).flatMap fun b => (offsets r).map fun c =>
    vol (coordOr dZ z c) (coordOr dY y b) (coordOr dX x a)

/-- The flat C buffer holds the volume. -/
def Holds (dZ dY dX : Nat) (buf : Nat → K) (vol : Nat → Nat → Nat → K) : Prop :=
  ∀ z < dZ, ∀ y < dY, ∀ x < dX, buf (z * (dY * dX) + y * dX + x) = vol z y x

theorem nb_eq (dim i : Nat) (d : Int) : nb dim i d = coordOr dim i d := by
  unfold nb coordOr
  simp only
  split <;> split <;> omega

theorem coordOr_lt (dim i : Nat) (d : Int) (hi : i < dim) : coordOr dim i d < dim := by
  rw [← nb_eq]; exact nb_lt dim i d hi

theorem idx3_eq (dX dY i j k : Nat) : idx3 dX dY i j k = k * (dY * dX) + j * dX + i := by
  unfold idx3; ring

theorem window3_eq (r dZ dY dX : Nat) (buf : Nat → K) (vol : Nat → Nat → Nat → K)
    (hb : Holds dZ dY dX buf vol) (z y x : Nat) (hz : z < dZ) (hy : y < dY) (hx : x < dX) :
    (windowIdx r dX dY dZ x y z).map buf = window3 r dZ dY dX vol z y x := by
  unfold windowIdx window3
  rw [List.map_flatMap]
  refine List.flatMap_congr fun a _ => ?_
  rw [List.map_flatMap]
  refine List.flatMap_congr fun b _ => ?_
  rw [List.map_map]
  refine List.map_congr_left fun c _ => ?_
  simp only [Function.comp, nb_eq, idx3_eq]
  exact hb _ (coordOr_lt _ _ _ hz) _ (coordOr_lt _ _ _ hy) _ (coordOr_lt _ _ _ hx)

/-! ### One plane -/

/-- Cells read by any task. -/
def RCell (n : Nat) (l : Cell) : Prop := ∃ a < n, l = .input a

/-- Cells written by the task of plane `k`. -/
def WCell (dX dY k : Nat) (l : Cell) : Prop := ∃ j < dY, ∃ i < dX, l = .output (idx3 dX dY i j k)

theorem plane_within (r dX dY dZ : Nat) (thr : K) (k : Nat) (hk : k < dZ)
    (ord : List (Nat × Nat)) (ho : ∀ c ∈ ord, c.1 < dY ∧ c.2 < dX) :
    (planeProg r dX dY dZ thr k ord).Within (RCell (dX * dY * dZ)) (WCell dX dY k) := by
  induction ord with
  | nil => trivial
  | cons c rest ih =>
    obtain ⟨j, i⟩ := c
    obtain ⟨hj, hi⟩ := ho (j, i) (by simp)
    have ih' := ih fun c hc => ho c (List.mem_cons_of_mem _ hc)
    rw [planeProg]
    refine within_readAll _ _ ?_ ?_
    · intro l hl
      obtain ⟨a, ha, rfl⟩ := List.mem_map.1 hl
      exact ⟨a, windowIdx_lt r dX dY dZ i j k hi hj hk a ha, rfl⟩
    · intro vs _
      refine ⟨⟨_, idx3_lt dX dY dZ i j k hi hj hk, rfl⟩, fun x => ?_⟩
      show (match medDecide r thr vs x with
        | some v => Prog.write (Cell.output (idx3 dX dY i j k)) v (planeProg r dX dY dZ thr k rest)
        | none => planeProg r dX dY dZ thr k rest).Within _ _
      cases medDecide r thr vs x with
      | none => exact ih'
      | some v => exact ⟨⟨j, hj, i, hi, rfl⟩, ih'⟩

theorem plane_run (r dX dY dZ : Nat) (thr : K) (k : Nat) (ord : List (Nat × Nat))
    (ho : ∀ c ∈ ord, c.1 < dY ∧ c.2 < dX) (hn : ord.Nodup) :
    ∀ m : Cell → K,
      (∀ a, (planeProg r dX dY dZ thr k ord).run m (.input a) = m (.input a)) ∧
      (∀ j i, j < dY → i < dX → (planeProg r dX dY dZ thr k ord).run m (.output (idx3 dX dY i j k))
        = if (j, i) ∈ ord then
            (medDecide r thr ((windowIdx r dX dY dZ i j k).map fun a => m (.input a))
              (m (.input (idx3 dX dY i j k)))).getD (m (.output (idx3 dX dY i j k)))
          else m (.output (idx3 dX dY i j k))) := by
  induction ord with
  | nil => intro m; exact ⟨fun _ => rfl, fun j i _ _ => by simp [planeProg, Prog.run]⟩
  | cons c rest ih =>
    obtain ⟨j0, i0⟩ := c
    intro m
    obtain ⟨hj0, hi0⟩ := ho (j0, i0) (by simp)
    obtain ⟨hnot, hn'⟩ := List.nodup_cons.1 hn
    have ih' := ih (fun c hc => ho c (List.mem_cons_of_mem _ hc)) hn'
    have e : (planeProg r dX dY dZ thr k ((j0, i0) :: rest)).run m
        = (planeProg r dX dY dZ thr k rest).run
          (match medDecide r thr ((windowIdx r dX dY dZ i0 j0 k).map fun a => m (.input a))
              (m (.input (idx3 dX dY i0 j0 k))) with
            | some v => upd m (.output (idx3 dX dY i0 j0 k)) v
            | none => m) := by
      rw [planeProg, run_readAll, Prog.run, List.map_map]
      have : (m ∘ Cell.input) = fun a => m (.input a) := rfl
      rw [this]
      cases medDecide r thr ((windowIdx r dX dY dZ i0 j0 k).map fun a => m (.input a))
        (m (.input (idx3 dX dY i0 j0 k))) <;> rfl
    rw [e]
    generalize hd : medDecide r thr ((windowIdx r dX dY dZ i0 j0 k).map fun a => m (.input a))
              (m (.input (idx3 dX dY i0 j0 k))) = d
    have hin : ∀ a, (match d with
            | some v => upd m (.output (idx3 dX dY i0 j0 k)) v
            | none => m) (.input a) = m (.input a) := by
      intro a; cases d <;> simp [upd]
    obtain ⟨h1, h2⟩ := ih' (match d with
            | some v => upd m (.output (idx3 dX dY i0 j0 k)) v
            | none => m)
    refine ⟨fun a => by rw [h1, hin], ?_⟩
    intro j i hj hi
    rw [h2 j i hj hi]
    simp only [hin]
    by_cases hc : j = j0 ∧ i = i0
    · obtain ⟨rfl, rfl⟩ := hc
      rw [if_neg hnot, if_pos (by simp), hd]
      cases d <;> simp [upd]
    · have hne : idx3 dX dY i j k ≠ idx3 dX dY i0 j0 k := fun h => by
        obtain ⟨e1, e2, _⟩ := idx3_inj hi hj hi0 hj0 h
        exact hc ⟨e2, e1⟩
      have hout : (match d with
            | some v => upd m (.output (idx3 dX dY i0 j0 k)) v
            | none => m) (.output (idx3 dX dY i j k)) = m (.output (idx3 dX dY i j k)) := by
        cases d <;> simp [upd, hne]
      rw [hout]
      by_cases hmem : (j, i) ∈ rest
      · rw [if_pos hmem, if_pos (List.mem_cons_of_mem _ hmem)]
      · rw [if_neg hmem, if_neg]
        intro h
        rcases List.mem_cons.1 h with h | h
        · cases h; exact hc ⟨rfl, rfl⟩
        · exact hmem h

theorem mem_planeOrder (dX dY j i : Nat) : (j, i) ∈ planeOrder dX dY ↔ j < dY ∧ i < dX := by
  unfold planeOrder
  simp only [List.mem_flatMap, List.mem_range, List.mem_map, Prod.mk.injEq]
  constructor
  · rintro ⟨a, ha, b, hb, rfl, rfl⟩; exact ⟨ha, hb⟩
  · rintro ⟨h1, h2⟩; exact ⟨j, h1, i, h2, rfl, rfl⟩

theorem nodup_planeOrder (dX dY : Nat) : (planeOrder dX dY).Nodup := by
  unfold planeOrder
  rw [List.nodup_flatMap]
  constructor
  · intro j _
    exact List.nodup_range.map fun a b h => by simpa using h
  · refine List.nodup_range.imp ?_
    intro a b hab x hx hy
    simp only [List.mem_map] at hx hy
    obtain ⟨_, _, rfl⟩ := hx
    obtain ⟨_, _, h⟩ := hy
    cases h
    exact hab rfl

theorem med_noninterf (dX dY dZ : Nat) :
    NonInterfering (fun _ : Nat => RCell (dX * dY * dZ))
      (fun k l => k < dZ ∧ WCell dX dY k l) := by
  intro k k' hne l hw
  obtain ⟨_, j, hj, i, hi, rfl⟩ := hw
  rintro (⟨a, _, h⟩ | ⟨_, j', hj', i', hi', h⟩)
  · cases h
  · injection h with h
    exact hne (idx3_inj hi hj hi' hj' h).2.2.symm

theorem within_mono {L V : Type} {R W R' W' : L → Prop} (p : Prog L V) (h : p.Within R W)
    (hr : ∀ l, R l → R' l) (hw : ∀ l, W l → W' l) : p.Within R' W' := by
  induction p with
  | done => trivial
  | read l k ih => exact ⟨hr _ h.1, fun v => ih v (h.2 v)⟩
  | write l v k ih => exact ⟨hw _ h.1, ih h.2⟩

/-- **C24** Every read of the kernel is inside the input volume and every write inside the output
volume, whatever the values read (radius arbitrary). -/
theorem median3d_in_bounds (r dX dY dZ : Nat) (thr : K) (k : Nat) :
    (medTask r dX dY dZ thr k).Within (fun l => ∃ a < dX * dY * dZ, l = .input a)
      (fun l => ∃ a < dX * dY * dZ, l = .output a) := by
  unfold medTask
  split
  · rename_i hk
    refine within_mono _ (plane_within r dX dY dZ thr k hk (planeOrder dX dY) ?_) ?_ ?_
    · rintro ⟨j, i⟩ hc
      exact (mem_planeOrder dX dY j i).1 hc
    · intro l hl; exact hl
    · rintro l ⟨j, hj, i, hi, rfl⟩
      exact ⟨_, idx3_lt dX dY dZ i j k hi hj hk, rfl⟩
  · trivial

theorem medTask_within (r dX dY dZ : Nat) (thr : K) (k : Nat) :
    (medTask r dX dY dZ thr k).Within (RCell (dX * dY * dZ))
      (fun l => k < dZ ∧ WCell dX dY k l) := by
  unfold medTask
  split
  · rename_i hk
    refine within_mono _ (plane_within r dX dY dZ thr k hk (planeOrder dX dY) ?_)
      (fun _ h => h) (fun _ h => ⟨hk, h⟩)
    rintro ⟨j, i⟩ hc
    exact (mem_planeOrder dX dY j i).1 hc
  · trivial

theorem med_final (r dX dY dZ : Nat) (thr : K) (m : Cell → K) (sched : List Nat)
    (hf : (Config.exec ⟨medTask r dX dY dZ thr, m⟩ sched).Finished) :
    (∀ a, (Config.exec ⟨medTask r dX dY dZ thr, m⟩ sched).mem (.input a) = m (.input a)) ∧
    ∀ z < dZ, ∀ y < dY, ∀ x < dX,
      (Config.exec ⟨medTask r dX dY dZ thr, m⟩ sched).mem (.output (idx3 dX dY x y z))
        = (medDecide r thr ((windowIdx r dX dY dZ x y z).map fun a => m (.input a))
            (m (.input (idx3 dX dY x y z)))).getD (m (.output (idx3 dX dY x y z))) := by
  obtain ⟨h1, h2⟩ := exec_finished (med_noninterf dX dY dZ) ⟨medTask r dX dY dZ thr, m⟩
    (medTask_within r dX dY dZ thr) sched hf
  constructor
  · intro a
    refine h2 _ ?_
    rintro k ⟨_, j, _, i, _, h⟩
    cases h
  · intro z hz y hy x hx
    rw [h1 z _ ⟨hz, y, hy, x, hx, rfl⟩]
    show (medTask r dX dY dZ thr z).run m _ = _
    rw [medTask, if_pos hz, (plane_run r dX dY dZ thr z (planeOrder dX dY)
      (fun c hc => (mem_planeOrder dX dY c.1 c.2).1 hc) (nodup_planeOrder dX dY) m).2 y x hy hx,
      if_pos ((mem_planeOrder dX dY y x).2 ⟨hy, hx⟩)]

theorem mid_isRank (r : Nat) (vs : List K) (h : vs.length = (2 * r + 1) ^ 3) :
    IsRank vs ((2 * r + 1) ^ 3 / 2) ((sortL vs).getD ((2 * r + 1) ^ 3 / 2) 0) := by
  have hp : 0 < (2 * r + 1) ^ 3 := by positivity
  have hk : (2 * r + 1) ^ 3 / 2 < vs.length := by rw [h]; omega
  rw [getD_sortL _ hk]
  exact sortL_isRank _ _ _

/-- **C24** For every volume, radius and schedule of the parallel loop, the float median filter
leaves the input alone and stores in every voxel the middle order statistic of its window. -/
theorem median_filter3d_spec (r dZ dY dX : Nat) (vol : Nat → Nat → Nat → K) (m : Cell → K)
    (hb : Holds dZ dY dX (fun a => m (.input a)) vol) (sched : List Nat)
    (hf : (Config.exec ⟨medTask r dX dY dZ 0, m⟩ sched).Finished) :
    (∀ a, (Config.exec ⟨medTask r dX dY dZ 0, m⟩ sched).mem (.input a) = m (.input a)) ∧
    ∀ z < dZ, ∀ y < dY, ∀ x < dX,
      IsRank (window3 r dZ dY dX vol z y x) ((2 * r + 1) ^ 3 / 2)
        ((Config.exec ⟨medTask r dX dY dZ 0, m⟩ sched).mem
          (.output (z * (dY * dX) + y * dX + x))) := by
  obtain ⟨h1, h2⟩ := med_final r dX dY dZ 0 m sched hf
  refine ⟨h1, ?_⟩
  intro z hz y hy x hx
  rw [← idx3_eq, h2 z hz y hy x hx, window3_eq r dZ dY dX _ vol hb z y x hz hy hx]
  unfold medDecide
  simp only [if_true, Option.getD_some]
  refine mid_isRank r _ ?_
  rw [← window3_eq r dZ dY dX _ vol hb z y x hz hy hx, List.length_map, length_windowIdx]

/-- **C24** The selective filter (`remove_outlier3d`, output initialised with a copy of the
input): for every schedule each voxel becomes the window median if it differs from it by at
least `dif`, and otherwise keeps its value. -/
theorem remove_outlier3d_spec (r dZ dY dX : Nat) (dif : K) (vol : Nat → Nat → Nat → K)
    (m : Cell → K) (hb : Holds dZ dY dX (fun a => m (.input a)) vol)
    (hc : Holds dZ dY dX (fun a => m (.output a)) vol) (sched : List Nat)
    (hf : (Config.exec ⟨medTask r dX dY dZ dif, m⟩ sched).Finished) :
    ∀ z < dZ, ∀ y < dY, ∀ x < dX, ∃ med,
      IsRank (window3 r dZ dY dX vol z y x) ((2 * r + 1) ^ 3 / 2) med ∧
      (dif ≤ |vol z y x - med| → (Config.exec ⟨medTask r dX dY dZ dif, m⟩ sched).mem
          (.output (z * (dY * dX) + y * dX + x)) = med) ∧
      (|vol z y x - med| < dif → (Config.exec ⟨medTask r dX dY dZ dif, m⟩ sched).mem
          (.output (z * (dY * dX) + y * dX + x)) = vol z y x) := by
  obtain ⟨h1, h2⟩ := med_final r dX dY dZ dif m sched hf
  intro z hz y hy x hx
  have hw := window3_eq r dZ dY dX _ vol hb z y x hz hy hx
  refine ⟨_, mid_isRank r (window3 r dZ dY dX vol z y x) ?_, ?_⟩
  · rw [← hw, List.length_map, length_windowIdx]
  · rw [← idx3_eq, h2 z hz y hy x hx, hw]
    have e1 : m (.input (idx3 dX dY x y z)) = vol z y x := by rw [idx3_eq]; exact hb z hz y hy x hx
    have e2 : m (.output (idx3 dX dY x y z)) = vol z y x := by rw [idx3_eq]; exact hc z hz y hy x hx
    rw [e1, e2]
    unfold medDecide
    simp only
    constructor
    · intro hd
      rw [if_pos hd, ite_self]
      rfl
    · intro hd
      rw [if_neg, if_neg (not_le.2 hd)]
      · rfl
      · rintro rfl
        exact absurd (abs_nonneg (vol z y x - _)) (not_le.2 hd)

/-- **C24** The result is the same for all schedules. -/
theorem median3d_schedule_independent (r dX dY dZ : Nat) (thr : K) (m : Cell → K)
    (s s' : List Nat)
    (h : (Config.exec ⟨medTask r dX dY dZ thr, m⟩ s).Finished)
    (h' : (Config.exec ⟨medTask r dX dY dZ thr, m⟩ s').Finished) :
    (Config.exec ⟨medTask r dX dY dZ thr, m⟩ s).mem
      = (Config.exec ⟨medTask r dX dY dZ thr, m⟩ s').mem := by
  obtain ⟨a1, a2⟩ := exec_finished (med_noninterf dX dY dZ) ⟨medTask r dX dY dZ thr, m⟩
    (medTask_within r dX dY dZ thr) s h
  obtain ⟨b1, b2⟩ := exec_finished (med_noninterf dX dY dZ) ⟨medTask r dX dY dZ thr, m⟩
    (medTask_within r dX dY dZ thr) s' h'
  funext l
  by_cases hl : ∃ k, k < dZ ∧ WCell dX dY k l
  · obtain ⟨k, hk⟩ := hl
    rw [a1 k l hk, b1 k l hk]
  · push Not at hl
    rw [a2 l fun k ⟨h1, h2⟩ => hl k h1 h2, b2 l fun k ⟨h1, h2⟩ => hl k h1 h2]

/-- **C24** Finished schedules exist, so the theorems above are about something. -/
theorem median3d_exists (r dX dY dZ : Nat) (thr : K) (m : Cell → K) :
    ∃ s, (Config.exec ⟨medTask r dX dY dZ thr, m⟩ s).Finished :=
  exists_finished (List.range dZ) _ fun k hk => by
    show medTask r dX dY dZ thr k = .done
    rw [medTask, if_neg (by simpa using hk)]

/-- **C24** The half size handed to C is at least 1 and the window width `2r+1` is the requested
size for odd sizes ≥ 3. -/
theorem halfSize_spec (size : Int) :
    1 ≤ halfSize size ∧ (3 ≤ size → size % 2 = 1 → (2 * halfSize size + 1 : Int) = size) ∧
    (3 ≤ size → size % 2 = 0 → (2 * halfSize size + 1 : Int) = size - 1) := by
  unfold halfSize
  refine ⟨?_, ?_, ?_⟩
  · omega
  · intro h1 h2; omega
  · intro h1 h2; omega

example : window3 (K := ℚ) 1 1 1 2 (fun _ _ x => x) 0 0 0 ≠ [] ∧
    Holds (K := ℚ) 1 1 2 (fun a => a) (fun _ _ x => x) := by
  refine ⟨by decide +kernel, ?_⟩
  intro z hz y hy x hx
  have : z = 0 := by omega
  have : y = 0 := by omega
  subst_vars
  simp

end Tomopy.Corr
