import Verif.Par.Lemmas

/-! Parallel loops in which every loop body stores into one cell of its own.

No single function of /repo; used for the `#pragma omp parallel for` loops of
source/libtomo/prep/stripes_detect3d.c, whose bodies read arrays that the loop does not write,
possibly the own output cell, and write only the own output cell. -/
set_option linter.unusedSectionVars false

namespace Tomopy.Par

variable {L V ι ν : Type} [DecidableEq L] [DecidableEq ι]

/-- Run `p`, then `q` (statement sequencing; stripes_detect3d.c:518-528 and the other loops). -/
def Prog.seq : Prog L V → Prog L V → Prog L V
  | .done, q => q
  | .read l k, q => .read l fun v => (k v).seq q
  | .write l v k, q => .write l v (k.seq q)

/-- The bodies of the voxels `vs` one after the other (inner loops, stripes_detect3d.c:521-527). -/
def Prog.forEach (body : ν → Prog L V) : List ν → Prog L V
  | [] => .done
  | v :: vs => (body v).seq (Prog.forEach body vs)

/-- Cells read by a worker that runs alone on memory `m` (used to state out-of-bounds accesses of
stripes_detect3d.c). -/
def Prog.reads : Prog L V → (L → V) → List L
  | .done, _ => []
  | .read l k, m => l :: (k (m l)).reads m
  | .write l v k, m => k.reads (upd m l v)

theorem run_seq (p q : Prog L V) : ∀ m, (p.seq q).run m = q.run (p.run m) := by
  induction p with
  | done => intro m; rfl
  | read l k ih => intro m; exact ih _ m
  | write l v k ih => intro m; exact ih _

theorem within_seq {R W : L → Prop} {p q : Prog L V} (hp : p.Within R W) (hq : q.Within R W) :
    (p.seq q).Within R W := by
  induction p with
  | done => exact hq
  | read l k ih => exact ⟨hp.1, fun v => ih v (hp.2 v)⟩
  | write l v k ih => exact ⟨hp.1, ih hp.2⟩

theorem within_weaken {R W R' W' : L → Prop} {p : Prog L V} (h : p.Within R W)
    (hr : ∀ l, R l → R' l) (hw : ∀ l, W l → W' l) : p.Within R' W' := by
  induction p with
  | done => trivial
  | read l k ih => exact ⟨hr _ h.1, fun v => ih v (h.2 v)⟩
  | write l v k ih => exact ⟨hw _ h.1, ih h.2⟩

theorem within_forEach {R W : L → Prop} (body : ν → Prog L V) (vs : List ν)
    (h : ∀ v ∈ vs, (body v).Within R W) : (Prog.forEach body vs).Within R W := by
  induction vs with
  | nil => trivial
  | cons v vs ih =>
    exact within_seq (h v List.mem_cons_self) (ih fun w hw => h w (List.mem_cons_of_mem _ hw))

/-- Body `v` reads cells of `Rd` and its own cell, and writes only its own cell. -/
def OwnCell (Rd : L → Prop) (own : ν → L) (body : ν → Prog L V) (v : ν) : Prop :=
  (body v).Within (fun l => Rd l ∨ l = own v) (fun l => l = own v)

theorem forEach_run {Rd : L → Prop} {own : ν → L} {body : ν → Prog L V} (vs : List ν)
    (hb : ∀ v ∈ vs, OwnCell Rd own body v) (hr : ∀ v ∈ vs, ¬ Rd (own v))
    (hi : ∀ v ∈ vs, ∀ w ∈ vs, own v = own w → v = w) (hn : vs.Nodup) :
    ∀ m : L → V,
      (∀ v ∈ vs, (Prog.forEach body vs).run m (own v) = (body v).run m (own v)) ∧
      ∀ l, (∀ v ∈ vs, l ≠ own v) → (Prog.forEach body vs).run m l = m l := by
  induction vs with
  | nil => intro m; exact ⟨by simp, fun _ _ => rfl⟩
  | cons w ws ih =>
    intro m
    obtain ⟨hnot, hn'⟩ := List.nodup_cons.1 hn
    obtain ⟨h1, h2⟩ := ih (fun v hv => hb v (List.mem_cons_of_mem _ hv))
      (fun v hv => hr v (List.mem_cons_of_mem _ hv))
      (fun v hv u hu => hi v (List.mem_cons_of_mem _ hv) u (List.mem_cons_of_mem _ hu)) hn'
      ((body w).run m)
    have hw := hb w List.mem_cons_self
    have frame : ∀ l, l ≠ own w → (body w).run m l = m l := fun l hl => run_frame hw m l hl
    constructor
    · intro v hv
      rw [Prog.forEach, run_seq]
      rcases List.mem_cons.1 hv with rfl | hv
      · refine h2 _ fun u hu e => hnot ?_
        rw [hi v List.mem_cons_self u (List.mem_cons_of_mem _ hu) e]
        exact hu
      · rw [h1 v hv]
        have hne : ∀ l, (Rd l ∨ l = own v) → l ≠ own w := by
          rintro l (h | h) e
          · exact hr w List.mem_cons_self (e ▸ h)
          · have := hi v (List.mem_cons_of_mem _ hv) w List.mem_cons_self (h ▸ e)
            exact hnot (this ▸ hv)
        refine run_congr (hb v (List.mem_cons_of_mem _ hv)) (fun l hl => ?_) _ (Or.inr rfl)
        rcases hl with hl | hl
        · exact frame l (hne l hl)
        · exact frame l (hne l (Or.inr hl))
    · intro l hl
      rw [Prog.forEach, run_seq, h2 l fun v hv => hl v (List.mem_cons_of_mem _ hv)]
      exact frame l (hl w List.mem_cons_self)

/-- A parallel loop: task `i` runs the bodies of the voxels `vox i` in order; whatever the
schedule, in the end every own cell holds what its body alone computes from the initial memory and
every other cell is unchanged. -/
theorem parFor_final {Rd : L → Prop} {own : ν → L} {body : ν → Prog L V} (vox : ι → List ν)
    (hb : ∀ i, ∀ v ∈ vox i, OwnCell Rd own body v) (hr : ∀ i, ∀ v ∈ vox i, ¬ Rd (own v))
    (hi : ∀ i, ∀ v ∈ vox i, ∀ j, ∀ w ∈ vox j, own v = own w → i = j ∧ v = w)
    (hn : ∀ i, (vox i).Nodup) (m : L → V) (sched : List ι)
    (hf : (Config.exec ⟨fun i => Prog.forEach body (vox i), m⟩ sched).Finished) :
    (∀ i, ∀ v ∈ vox i, (Config.exec ⟨fun i => Prog.forEach body (vox i), m⟩ sched).mem (own v)
      = (body v).run m (own v)) ∧
    ∀ l, (∀ i, ∀ v ∈ vox i, l ≠ own v) →
      (Config.exec ⟨fun i => Prog.forEach body (vox i), m⟩ sched).mem l = m l := by
  have hni : NonInterfering (fun i l => Rd l ∨ ∃ v ∈ vox i, l = own v)
      (fun i l => ∃ v ∈ vox i, l = own v) := by
    rintro i j hij l ⟨v, hv, rfl⟩ h
    have key : ∀ w ∈ vox i, own v ≠ own w := fun w hw e => hij (hi j v hv i w hw e).1.symm
    rcases h with (h | ⟨w, hw, e⟩) | ⟨w, hw, e⟩
    · exact hr j v hv h
    · exact key w hw e
    · exact key w hw e
  have hw : ∀ i, (Prog.forEach body (vox i)).Within (fun l => Rd l ∨ ∃ v ∈ vox i, l = own v)
      (fun l => ∃ v ∈ vox i, l = own v) := fun i =>
    within_forEach body _ fun v hv => within_weaken (hb i v hv)
      (fun l hl => hl.imp id fun h => ⟨v, hv, h⟩) (fun l h => ⟨v, hv, h⟩)
  obtain ⟨h1, h2⟩ := exec_finished hni ⟨fun i => Prog.forEach body (vox i), m⟩ hw sched hf
  constructor
  · intro i v hv
    rw [h1 i _ ⟨v, hv, rfl⟩]
    exact (forEach_run (vox i) (hb i) (hr i) (fun v hv w hw e => (hi i v hv i w hw e).2)
      (hn i) m).1 v hv
  · intro l hl
    refine h2 l ?_
    rintro i ⟨v, hv, rfl⟩
    exact hl i v hv rfl

end Tomopy.Par
