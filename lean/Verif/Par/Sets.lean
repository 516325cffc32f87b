import Verif.Par.Stencil

/-! Parallel loops in which every loop body has a set of cells of its own.

No single function of /repo; used for the kernels of source/libtomo/accel/gpu. -/
set_option linter.unusedSectionVars false

namespace Tomopy.Par

variable {L V ι ν : Type} [DecidableEq L] [DecidableEq ι]

/-- Body `v` reads cells of `Rd` and its own cells, and writes only its own cells. -/
def OwnSet (Rd : L → Prop) (own : ν → L → Prop) (body : ν → Prog L V) (v : ν) : Prop :=
  (body v).Within (fun l => Rd l ∨ own v l) (own v)

theorem forEach_run_sets {Rd : L → Prop} {own : ν → L → Prop} {body : ν → Prog L V} (vs : List ν)
    (hb : ∀ v ∈ vs, OwnSet Rd own body v) (hr : ∀ v ∈ vs, ∀ l, own v l → ¬ Rd l)
    (hi : ∀ v ∈ vs, ∀ w ∈ vs, ∀ l, own v l → own w l → v = w) (hn : vs.Nodup) :
    ∀ m : L → V,
      (∀ v ∈ vs, ∀ l, own v l → (Prog.forEach body vs).run m l = (body v).run m l) ∧
      ∀ l, (∀ v ∈ vs, ¬ own v l) → (Prog.forEach body vs).run m l = m l := by
  induction vs with
  | nil => intro m; exact ⟨by simp, fun _ _ => rfl⟩
  | cons w ws ih =>
    intro m
    obtain ⟨hnot, hn'⟩ := List.nodup_cons.1 hn
    obtain ⟨h1, h2⟩ := ih (fun v hv => hb v (List.mem_cons_of_mem _ hv))
      (fun v hv => hr v (List.mem_cons_of_mem _ hv))
      (fun v hv u hu => hi v (List.mem_cons_of_mem _ hv) u (List.mem_cons_of_mem _ hu)) hn'
      ((body w).run m)
    have hw := hb w List.mem_cons_self
    have frame : ∀ l, ¬ own w l → (body w).run m l = m l := fun l hl => run_frame hw m l hl
    constructor
    · intro v hv l hl
      rw [Prog.forEach, run_seq]
      rcases List.mem_cons.1 hv with rfl | hv
      · refine h2 _ fun u hu e => hnot ?_
        rw [hi v List.mem_cons_self u (List.mem_cons_of_mem _ hu) l hl e]
        exact hu
      · rw [h1 v hv l hl]
        have hne : ∀ l, own v l → ¬ own w l := by
          intro l h e
          have := hi v (List.mem_cons_of_mem _ hv) w List.mem_cons_self l h e
          exact hnot (this ▸ hv)
        refine run_congr (hb v (List.mem_cons_of_mem _ hv)) (fun x hx => ?_) _ (Or.inr hl)
        rcases hx with (hx | hx) | hx
        · exact frame x fun h => hr w List.mem_cons_self x h hx
        · exact frame x (hne x hx)
        · exact frame x (hne x hx)
    · intro l hl
      rw [Prog.forEach, run_seq, h2 l fun v hv => hl v (List.mem_cons_of_mem _ hv)]
      exact frame l (hl w List.mem_cons_self)

/-- A parallel loop: task `i` runs the bodies `vox i` in order; whatever the schedule, in the end
every own cell holds what its body alone computes from the initial memory and every other cell is
unchanged. -/
theorem parFor_final_sets {Rd : L → Prop} {own : ν → L → Prop} {body : ν → Prog L V}
    (vox : ι → List ν)
    (hb : ∀ i, ∀ v ∈ vox i, OwnSet Rd own body v) (hr : ∀ i, ∀ v ∈ vox i, ∀ l, own v l → ¬ Rd l)
    (hi : ∀ i, ∀ v ∈ vox i, ∀ j, ∀ w ∈ vox j, ∀ l, own v l → own w l → i = j ∧ v = w)
    (hn : ∀ i, (vox i).Nodup) (m : L → V) (sched : List ι)
    (hf : (Config.exec ⟨fun i => Prog.forEach body (vox i), m⟩ sched).Finished) :
    (∀ i, ∀ v ∈ vox i, ∀ l, own v l →
      (Config.exec ⟨fun i => Prog.forEach body (vox i), m⟩ sched).mem l = (body v).run m l) ∧
    ∀ l, (∀ i, ∀ v ∈ vox i, ¬ own v l) →
      (Config.exec ⟨fun i => Prog.forEach body (vox i), m⟩ sched).mem l = m l := by
  have hni : NonInterfering (fun i l => Rd l ∨ ∃ v ∈ vox i, own v l)
      (fun i l => ∃ v ∈ vox i, own v l) := by
    rintro i j hij l ⟨v, hv, hl⟩ h
    have key : ∀ w ∈ vox i, ¬ own w l := fun w hw e => hij (hi j v hv i w hw l hl e).1.symm
    rcases h with (h | ⟨w, hw, e⟩) | ⟨w, hw, e⟩
    · exact hr j v hv l hl h
    · exact key w hw e
    · exact key w hw e
  have hw : ∀ i, (Prog.forEach body (vox i)).Within (fun l => Rd l ∨ ∃ v ∈ vox i, own v l)
      (fun l => ∃ v ∈ vox i, own v l) := fun i =>
    within_forEach body _ fun v hv => within_weaken (hb i v hv)
      (fun l hl => hl.imp id fun h => ⟨v, hv, h⟩) (fun l h => ⟨v, hv, h⟩)
  obtain ⟨h1, h2⟩ := exec_finished hni ⟨fun i => Prog.forEach body (vox i), m⟩ hw sched hf
  constructor
  · intro i v hv l hl
    rw [h1 i _ ⟨v, hv, hl⟩]
    exact (forEach_run_sets (vox i) (hb i) (hr i)
      (fun v hv w hw l h h' => (hi i v hv i w hw l h h').2) (hn i) m).1 v hv l hl
  · intro l hl
    refine h2 l ?_
    rintro i ⟨v, hv, h⟩
    exact hl i v hv h

end Tomopy.Par
