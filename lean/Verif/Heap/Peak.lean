import Mathlib.Tactic.Ring
import Verif.Heap.Props

/-!
# How much memory a call holds at once

The bytes a routine holds on the C heap at the worst moment of a call, not only when it returns.
-/

set_option linter.unusedSectionVars false

namespace Tomopy.Heap

/-! ## Specification -/

/-- The buffers of the ray tracer: 4 arrays of grid lines, 8 of crossings. -/
def rayBytes (nx ny : Nat) : Nat := 4 * (2 * (nx + 1) + 2 * (ny + 1) + 8 * (nx + ny))

/-- The scratch of `calc_dist` for `m` crossings: two arrays of `m - 1` numbers. -/
def scratchBytes (m : Nat) : Nat := 8 * (m - 1)

/-- The bytes held through the body of a call, by routine: copies of the data (`dy * dt * dx`) and of the images
(`dy * nx * ny`) or of one image, and the buffers of the ray tracer.  No number of iterations and no
number of subsets occurs. -/
def Kernel.held : Kernel → Nat
  | .art c => 4 * (c.dy * c.dt * c.dx) + rayBytes c.nx c.ny
  | .bart c => 4 * (c.dy * c.dt * c.dx) + 8 * (c.nx * c.ny) + rayBytes c.nx c.ny
  | .osem c => 4 * (c.dy * c.dt * c.dx) + 8 * (c.nx * c.ny) + rayBytes c.nx c.ny
  | .fbp c => rayBytes c.nx c.ny
  | .ospmlQuad c => 4 * (c.dt * c.dy * c.dx) + 16 * (c.nx * c.ny) + rayBytes c.nx c.ny
  | .ospmlHybrid c => 4 * (c.dt * c.dy * c.dx) + 16 * (c.nx * c.ny) + rayBytes c.nx c.ny
  | .grad c => 8 * (c.dy * c.dt * c.dx) + 12 * (c.dy * c.nx * c.ny) + 4 * (c.nx * c.ny) + 4 * c.dy +
      rayBytes c.nx c.ny
  | .tikh c => 8 * (c.dy * c.dt * c.dx) + 12 * (c.dy * c.nx * c.ny) + 4 * (c.nx * c.ny) + 4 * c.dy +
      rayBytes c.nx c.ny
  | .tv c => 8 * (c.dy * c.dt * c.dx) + 16 * (c.dy * c.nx * c.ny) + 4 * (c.nx * c.ny) + rayBytes c.nx c.ny
  | .vector c => 4 * (c.dt * c.dy * c.dx) + 12 * (c.nx * c.ny) + rayBytes c.nx c.ny + 4 * (c.nx + c.ny + 2)
  | .vector2 c => 4 * (c.dt * c.dy * c.dx) + 12 * (c.nx * c.ny) + rayBytes c.nx c.ny + 4 * (c.nx + c.ny + 2)
  | .vector3 c => 4 * (c.dt * c.dy * c.dx) + 12 * (c.nx * c.ny) + rayBytes c.nx c.ny + 4 * (c.nx + c.ny + 2)
  | .project c => rayBytes c.nx c.ny + 56
  | .project2 c => rayBytes c.nx c.ny + 56 + 8 * (c.nx + c.ny + 1)
  | .project3 c => rayBytes c.nx c.ny + 56 + 8 * (c.nx + c.ny + 1)
  | .gridrec g => 8 * (g.pdim * g.pdim) + 16 * (g.dt * g.pdim) + 8 * (g.pdim / 2 * g.dt) +
      8 * (if g.filter2d then g.dt * (g.pdim / 2) else g.pdim / 2) + 24 * g.dt + 16 * g.pdim +
      4 * (g.pdim - 1) + 2092 + g.plan1 + g.plan2
  | .medianFilter _ w b => b * w
  | .inpaint c => 5 * c.voxels + 4 * c.window + if c.sorting then 4 * c.window else 0
  | .stripesDetect v w => 4 * v + 4 * w
  | .stripesMask v _ => v
  | .stripeSf _ _ dz => 8 * dz
  | .removeRing c => 8 * c.dy + max 16 (4 * (c.polHeight * c.polWidth) + 8 * c.polHeight +
      max (4 * (c.polHeight * c.polWidth) + 8 * c.polHeight + 8 * (2 * c.rad + 1)) (4 * (c.dy * c.dx) + 8 * c.dy))

/-- The scratch a call adds to them while it traces a ray, if no ray has more crossings than the buffers for
them hold. -/
def Kernel.extra : Kernel → Nat
  | .art c | .bart c | .osem c | .fbp c | .ospmlQuad c | .ospmlHybrid c | .grad c | .tikh c | .tv c =>
      scratchBytes (c.nx + c.ny)
  | .project c => scratchBytes (c.nx + c.ny + 2)
  | _ => 0

/-- No ray has more crossings than the buffers for them hold (proved of the ray tracer in `Verif.Ray.Safety`). -/
def Kernel.fits : Kernel → Prop
  | .art c | .bart c | .osem c | .fbp c | .ospmlQuad c | .ospmlHybrid c | .grad c | .tikh c | .tv c =>
      ∀ s p d, c.csize s p d ≤ c.nx + c.ny
  | .project c => ∀ s p d, c.csize s p d ≤ c.nx + c.ny + 2
  | _ => True

/-! ## Symbolic execution -/

/-- The bytes of the blocks held. -/
def Own.size (vs : Own) : Nat := (vs.map Prod.snd).sum

/-- Never more than `B` bytes are held. -/
def Within (B : Nat) : List Op → Own → Prop
  | [], vs => vs.size ≤ B
  | op :: ops, vs => vs.size ≤ B ∧ ∀ v, astep op vs = some v → Within B ops v

/-- A piece of code runs from `vs` to `w` and never holds more than `B` bytes. -/
structure Runs (B : Nat) (ops : List Op) (vs w : Own) : Prop where
  run : arun ops vs = some w
  le : Within B ops vs

theorem within_head {B : Nat} {ops : List Op} {vs : Own} (h : Within B ops vs) : vs.size ≤ B := by
  cases ops with
  | nil => exact h
  | cons op ops => exact h.1

theorem within_append {B : Nat} {a b : List Op} {vs v : Own} (h1 : Within B a vs) (h : arun a vs = some v)
    (h2 : Within B b v) : Within B (a ++ b) vs := by
  induction a generalizing vs with
  | nil => obtain rfl := Option.some.inj h; exact h2
  | cons op a ih =>
    refine ⟨h1.1, fun u hu => ih (h1.2 u hu) ?_⟩
    simpa only [arun, hu, Option.bind_some] using h

theorem Runs.seq {B : Nat} {a b : List Op} {u v w : Own} (h1 : Runs B a u v) (h2 : Runs B b v w) :
    Runs B (a ++ b) u w :=
  ⟨arun_seq h1.run h2.run, within_append h1.le h1.run h2.le⟩

theorem Runs.keep {B : Nat} {a b : List Op} {u : Own} (h1 : Runs B a u u) (h2 : Runs B b u u) :
    Runs B (a ++ b) u u := h1.seq h2

theorem Runs.nil {B : Nat} {u : Own} (h : u.size ≤ B) : Runs B [] u u := ⟨rfl, h⟩

theorem Runs.loop {B n : Nat} {body : Nat → List Op} {u : Own} (hu : u.size ≤ B) (h : ∀ i, Runs B (body i) u u) :
    Runs B (Heap.loop n body) u u := by
  unfold Heap.loop
  induction List.range n with
  | nil => exact .nil hu
  | cons i l ih => rw [List.flatMap_cons]; exact (h i).keep ih

theorem Runs.ite {B : Nat} {P : Prop} [Decidable P] {a b : List Op} {u v : Own}
    (h1 : P → Runs B a u v) (h2 : ¬P → Runs B b u v) : Runs B (if P then a else b) u v := by
  split_ifs with h
  · exact h1 h
  · exact h2 h

theorem Runs.uses {B : Nat} {xs : List Var} {u : Own} (hu : u.size ≤ B) (h : xs.all (Own.has u) = true) :
    Runs B (Heap.uses xs) u u := by
  refine ⟨arun_uses xs u h, ?_⟩
  unfold Heap.uses
  clear h
  induction xs with
  | nil => exact hu
  | cons x xs ih =>
    refine ⟨hu, fun v hv => ?_⟩
    simp only [astep] at hv
    split_ifs at hv
    obtain rfl := Option.some.inj hv
    exact ih

theorem size_filter (vs : Own) (p : Var × Nat → Bool) : Own.size (vs.filter p) ≤ vs.size := by
  induction vs with
  | nil => exact le_refl _
  | cons e vs ih =>
    rw [List.filter_cons]
    unfold Own.size at *
    split_ifs <;> simp only [List.map_cons, List.sum_cons] <;> omega

theorem Runs.frees {B : Nat} {xs : List Var} {u w : Own} (hu : u.size ≤ B) (h : arun (Heap.frees xs) u = some w) :
    Runs B (Heap.frees xs) u w := by
  refine ⟨h, ?_⟩
  clear h
  unfold Heap.frees
  induction xs generalizing u with
  | nil => exact hu
  | cons x xs ih =>
    refine ⟨hu, fun v hv => ?_⟩
    simp only [astep] at hv
    split_ifs at hv
    obtain rfl := Option.some.inj hv
    exact ih (le_trans (size_filter _ _) hu)

/-- Is the operation an allocation or a use? -/
def Op.grows : Op → Bool
  | .free _ => false
  | _ => true

theorem astep_grows {op : Op} {u v : Own} (ho : op.grows = true) (h : astep op u = some v) : u.size ≤ v.size := by
  cases op with
  | free x => simp [Op.grows] at ho
  | alloc x n =>
    simp only [astep] at h
    split_ifs at h
    obtain rfl := Option.some.inj h
    simp [Own.size]
  | use x =>
    simp only [astep] at h
    split_ifs at h
    obtain rfl := Option.some.inj h
    exact le_refl _

theorem arun_grows {ops : List Op} {u w : Own} (ho : ops.all Op.grows = true) (h : arun ops u = some w) :
    u.size ≤ w.size := by
  induction ops generalizing u with
  | nil => obtain rfl := Option.some.inj h; exact le_refl _
  | cons op ops ih =>
    simp only [List.all_cons, Bool.and_eq_true] at ho
    simp only [arun] at h
    cases hs : astep op u with
    | none => simp [hs] at h
    | some v =>
      rw [hs] at h
      exact le_trans (astep_grows ho.1 hs) (ih ho.2 h)

/-- Code that frees nothing holds most at its end. -/
theorem Runs.grow {B : Nat} {ops : List Op} {u w : Own} (ho : ops.all Op.grows = true) (h : arun ops u = some w)
    (hw : w.size ≤ B) : Runs B ops u w := by
  refine ⟨h, ?_⟩
  induction ops generalizing u with
  | nil => obtain rfl := Option.some.inj h; exact hw
  | cons op ops ih =>
    refine ⟨le_trans (arun_grows ho h) hw, fun v hv => ?_⟩
    simp only [List.all_cons, Bool.and_eq_true] at ho
    exact ih ho.2 (by simpa only [arun, hv, Option.bind_some] using h)

theorem size_cons (e : Var × Nat) (vs : Own) : Own.size (e :: vs) = e.2 + vs.size := by
  simp [Own.size]

/-- Two scratch blocks. -/
theorem Runs.scratch {B : Nat} {x y : Var} {n m : Nat} {xs : List Var} {u : Own} (hxy : x ≠ y)
    (hx : Own.has u x = false) (hy : Own.has u y = false) (hu : u.size + n + m ≤ B)
    (h : xs.all (Own.has ((y, m) :: (x, n) :: u)) = true) :
    Runs B ([.alloc x n, .alloc y m] ++ Heap.uses xs ++ Heap.frees [x, y]) u u := by
  have hs : Own.size ((y, m) :: (x, n) :: u) ≤ B := by rw [size_cons, size_cons]; dsimp only; omega
  have hyx : (x == y) = false := by simpa using hxy
  have hyx' : (y == x) = false := by simpa using hxy.symm
  refine Runs.seq (v := (y, m) :: (x, n) :: u) (Runs.seq (Runs.grow rfl
    (arun_alloc hx (arun_alloc ?_ rfl)) hs) (Runs.uses hs h)) (Runs.frees hs ?_)
  · simp [has_cons, hy, hyx]
  · simp only [Heap.frees, List.map, arun, astep, has_cons, hyx', beq_self_eq_true, Bool.true_or,
      Bool.or_true, if_true, Option.bind_some, List.filter_cons, Bool.not_false, Bool.not_true,
      Bool.false_eq_true, if_false, filter_absent hx, filter_absent hy]

theorem Runs.calcDist {B n m : Nat} {u : Own} (h : rayFits u = true) (hn : n ≤ m)
    (hu : u.size + scratchBytes m ≤ B) : Runs B (Heap.calcDist n) u u := by
  simp only [rayFits, Bool.and_eq_true, Bool.not_eq_true'] at h
  obtain ⟨⟨⟨⟨⟨⟨⟨h1, h2⟩, h3⟩, h4⟩, h5⟩, h6⟩, h7⟩, h8⟩ := h
  unfold scratchBytes at hu
  refine Runs.ite (fun _ => .nil (by omega)) fun _ => ?_
  rw [List.append_assoc, List.append_assoc]
  refine Runs.keep (Runs.scratch (by decide) h5 h6 (by omega) (by simp [has_cons, h1, h2, h3])) ?_
  rw [← List.append_assoc]
  exact Runs.scratch (by decide) h7 h8 (by omega) (by simp [has_cons, h1, h2, h4])

theorem Runs.mono {B B' : Nat} {ops : List Op} {u w : Own} (h : Runs B ops u w) (hB : B ≤ B') :
    Runs B' ops u w := by
  refine ⟨h.run, ?_⟩
  have := h.le
  clear h
  induction ops generalizing u with
  | nil => exact le_trans this hB
  | cons op ops ih => exact ⟨le_trans this.1 hB, fun v hv => ih (this.2 v hv)⟩

/-! ## The routines -/

/-- Sizes of the blocks held. -/
macro "peak_size" : tactic => `(tactic| (
  clear * -
  simp only [Own.size, artOwn, bartOwn, ospmlOwn, ospmlOwn', gradOwn, tvOwn, vectorOwn, vectorOwn', vectorOwn'',
    projectOwn, projectOwn2, rayOwn, List.map_cons, List.map_nil, List.sum_cons, List.sum_nil, rayBytes, scratchBytes]
  omega))

/-- Allocations of a routine. -/
macro "peak_alloc" : tactic => `(tactic| exact Runs.grow rfl (by heap_alloc) (by peak_size))

/-- Frees of a routine. -/
macro "peak_free" : tactic => `(tactic| exact Runs.frees (by peak_size) (by heap_free))

/-- Code that neither takes nor gives back anything in the end. -/
macro "peak_keep" h:term "," s:term "," t:term : tactic => `(tactic| (
  repeat' first
    | with_reducible refine Runs.keep ?_ ?_
    | with_reducible refine Runs.loop $s (fun _ => ?_)
    | with_reducible refine Runs.uses $s ?_
    | with_reducible refine Runs.calcDist ?_ $h $t
  all_goals rfl))

theorem runs_art (c : Scan) (h : ∀ s p d, c.csize s p d ≤ c.nx + c.ny) :
    Runs (4 * (c.dy * c.dt * c.dx) + rayBytes c.nx c.ny + scratchBytes (c.nx + c.ny)) (art c) [] [] := by
  have hs : Own.size (artOwn c) + scratchBytes (c.nx + c.ny) ≤ 4 * (c.dy * c.dt * c.dx) + rayBytes c.nx c.ny + scratchBytes (c.nx + c.ny) := by peak_size
  have hs' : Own.size (artOwn c) ≤ 4 * (c.dy * c.dt * c.dx) + rayBytes c.nx c.ny + scratchBytes (c.nx + c.ny) := Nat.le_of_add_right_le hs
  refine Runs.ite (fun _ => .nil (Nat.zero_le _)) fun _ => ?_
  refine Runs.seq (v := artOwn c) (Runs.seq (v := artOwn c) (by peak_alloc) ?_) (by peak_free)
  simp only [ray, traceUses]
  peak_keep (h _ _ _), hs', hs

theorem runs_bart (c : Scan) (h : ∀ s p d, c.csize s p d ≤ c.nx + c.ny) :
    Runs (4 * (c.dy * c.dt * c.dx) + 8 * (c.nx * c.ny) + rayBytes c.nx c.ny + scratchBytes (c.nx + c.ny))
      (bart c) [] [] := by
  have hs : Own.size (bartOwn c) + scratchBytes (c.nx + c.ny) ≤ 4 * (c.dy * c.dt * c.dx) + 8 * (c.nx * c.ny) + rayBytes c.nx c.ny + scratchBytes (c.nx + c.ny) := by peak_size
  have hs' : Own.size (bartOwn c) ≤ 4 * (c.dy * c.dt * c.dx) + 8 * (c.nx * c.ny) + rayBytes c.nx c.ny + scratchBytes (c.nx + c.ny) := Nat.le_of_add_right_le hs
  refine Runs.ite (fun _ => .nil (Nat.zero_le _)) fun _ => ?_
  refine Runs.seq (v := bartOwn c) (Runs.seq (v := bartOwn c) (by peak_alloc) ?_) (by peak_free)
  simp only [ray, traceUses]
  peak_keep (h _ _ _), hs', hs

theorem runs_fbp (c : Scan) (h : ∀ s p d, c.csize s p d ≤ c.nx + c.ny) :
    Runs (rayBytes c.nx c.ny + scratchBytes (c.nx + c.ny)) (fbp c) [] [] := by
  have hs : Own.size (rayOwn c.nx c.ny) + scratchBytes (c.nx + c.ny) ≤ rayBytes c.nx c.ny + scratchBytes (c.nx + c.ny) := by peak_size
  have hs' : Own.size (rayOwn c.nx c.ny) ≤ rayBytes c.nx c.ny + scratchBytes (c.nx + c.ny) := Nat.le_of_add_right_le hs
  refine Runs.ite (fun _ => .nil (Nat.zero_le _)) fun _ => ?_
  refine Runs.seq (v := rayOwn c.nx c.ny) (Runs.seq (v := rayOwn c.nx c.ny) (by peak_alloc) ?_) (by peak_free)
  simp only [ray, traceUses]
  peak_keep (h _ _ _), hs', hs

theorem runs_ospml (c : Scan) (h : ∀ s p d, c.csize s p d ≤ c.nx + c.ny) :
    Runs (4 * (c.dt * c.dy * c.dx) + 16 * (c.nx * c.ny) + rayBytes c.nx c.ny + scratchBytes (c.nx + c.ny))
      (ospml c) [] [] := by
  have hs : Own.size (ospmlOwn' c) + scratchBytes (c.nx + c.ny) ≤ 4 * (c.dt * c.dy * c.dx) + 16 * (c.nx * c.ny) + rayBytes c.nx c.ny + scratchBytes (c.nx + c.ny) := by peak_size
  have hs' : Own.size (ospmlOwn' c) ≤ 4 * (c.dt * c.dy * c.dx) + 16 * (c.nx * c.ny) + rayBytes c.nx c.ny + scratchBytes (c.nx + c.ny) := Nat.le_of_add_right_le hs
  refine Runs.ite (fun _ => .nil (Nat.zero_le _)) fun _ => ?_
  refine Runs.seq (v := rayOwn c.nx c.ny) (Runs.seq (v := rayOwn c.nx c.ny) (by peak_alloc) ?_) (by peak_free)
  refine Runs.loop (by peak_size) fun i => ?_
  refine Runs.seq (v := ospmlOwn c) (Runs.seq (v := ospmlOwn c) (by peak_alloc) ?_) (by peak_free)
  refine Runs.loop (by peak_size) fun s =>
    Runs.keep (Runs.uses (by peak_size) rfl) (Runs.loop (by peak_size) fun os => ?_)
  refine Runs.seq (v := ospmlOwn' c) ?_ (by peak_free)
  rw [List.append_assoc]
  refine Runs.seq (v := ospmlOwn' c) (by peak_alloc) ?_
  simp only [ray, traceUses]
  peak_keep (h _ _ _), hs', hs

theorem runs_grad (c : Scan) (h : ∀ s p d, c.csize s p d ≤ c.nx + c.ny) :
    Runs (8 * (c.dy * c.dt * c.dx) + 12 * (c.dy * c.nx * c.ny) + 4 * (c.nx * c.ny) + 4 * c.dy +
      rayBytes c.nx c.ny + scratchBytes (c.nx + c.ny)) (grad c) []
      (if c.void then [] else [(.lambda, 4 * c.dy)]) := by
  have hs : Own.size (gradOwn c) + scratchBytes (c.nx + c.ny) ≤ 8 * (c.dy * c.dt * c.dx) + 12 * (c.dy * c.nx * c.ny) + 4 * (c.nx * c.ny) + 4 * c.dy + rayBytes c.nx c.ny + scratchBytes (c.nx + c.ny) := by peak_size
  have hs' : Own.size (gradOwn c) ≤ 8 * (c.dy * c.dt * c.dx) + 12 * (c.dy * c.nx * c.ny) + 4 * (c.nx * c.ny) + 4 * c.dy + rayBytes c.nx c.ny + scratchBytes (c.nx + c.ny) := Nat.le_of_add_right_le hs
  unfold grad
  split_ifs with hc
  · exact .nil (Nat.zero_le _)
  refine Runs.seq (v := gradOwn c) ?_ (by peak_free)
  rw [List.append_assoc]
  refine Runs.seq (v := gradOwn c) (by peak_alloc) ?_
  simp only [ray, traceUses]
  peak_keep (h _ _ _), hs', hs

theorem runs_tv (c : Scan) (h : ∀ s p d, c.csize s p d ≤ c.nx + c.ny) :
    Runs (8 * (c.dy * c.dt * c.dx) + 16 * (c.dy * c.nx * c.ny) + 4 * (c.nx * c.ny) + rayBytes c.nx c.ny +
      scratchBytes (c.nx + c.ny)) (tv c) [] [] := by
  have hs : Own.size (tvOwn c) + scratchBytes (c.nx + c.ny) ≤ 8 * (c.dy * c.dt * c.dx) + 16 * (c.dy * c.nx * c.ny) + 4 * (c.nx * c.ny) + rayBytes c.nx c.ny + scratchBytes (c.nx + c.ny) := by peak_size
  have hs' : Own.size (tvOwn c) ≤ 8 * (c.dy * c.dt * c.dx) + 16 * (c.dy * c.nx * c.ny) + 4 * (c.nx * c.ny) + rayBytes c.nx c.ny + scratchBytes (c.nx + c.ny) := Nat.le_of_add_right_le hs
  refine Runs.ite (fun _ => .nil (Nat.zero_le _)) fun _ => ?_
  refine Runs.seq (v := tvOwn c) ?_ (by peak_free)
  rw [List.append_assoc]
  refine Runs.seq (v := tvOwn c) (by peak_alloc) ?_
  simp only [ray, traceUses]
  peak_keep (h _ _ _), hs', hs

theorem runs_vectorN (k : Nat) (c : Scan) :
    Runs (4 * (c.dt * c.dy * c.dx) + 12 * (c.nx * c.ny) + rayBytes c.nx c.ny + 4 * (c.nx + c.ny + 2))
      (vectorN k c) [] [] := by
  have hs : Own.size (vectorOwn'' c) + scratchBytes 0 ≤ 4 * (c.dt * c.dy * c.dx) + 12 * (c.nx * c.ny) + rayBytes c.nx c.ny + 4 * (c.nx + c.ny + 2) := by peak_size
  have hs' : Own.size (vectorOwn'' c) ≤ 4 * (c.dt * c.dy * c.dx) + 12 * (c.nx * c.ny) + rayBytes c.nx c.ny + 4 * (c.nx + c.ny + 2) := Nat.le_of_add_right_le hs
  refine Runs.seq (v := vectorOwn c.nx c.ny) (Runs.seq (v := vectorOwn c.nx c.ny)
    (by peak_alloc) ?_) (by peak_free)
  refine Runs.loop (by peak_size) fun i => Runs.loop (by peak_size) fun _ => ?_
  refine Runs.seq (v := vectorOwn' c) (Runs.seq (v := vectorOwn' c) (by peak_alloc) ?_)
    (by peak_free)
  refine Runs.loop (by peak_size) fun s => ?_
  refine Runs.seq (v := vectorOwn'' c) ?_ (by peak_free)
  rw [List.append_assoc, List.append_assoc]
  refine Runs.seq (v := vectorOwn' c) (Runs.uses (by peak_size) rfl) ?_
  refine Runs.seq (v := vectorOwn'' c) (by peak_alloc) ?_
  simp only [ray2, traceUses]
  peak_keep (le_refl 0), hs', hs

theorem runs_project (c : Scan) (h : ∀ s p d, c.csize s p d ≤ c.nx + c.ny + 2) :
    Runs (rayBytes c.nx c.ny + 56 + scratchBytes (c.nx + c.ny + 2)) (project c) [] [] := by
  have hs : Own.size (projectOwn c.nx c.ny) + scratchBytes (c.nx + c.ny + 2) ≤ rayBytes c.nx c.ny + 56 + scratchBytes (c.nx + c.ny + 2) := by peak_size
  have hs' : Own.size (projectOwn c.nx c.ny) ≤ rayBytes c.nx c.ny + 56 + scratchBytes (c.nx + c.ny + 2) := Nat.le_of_add_right_le hs
  refine Runs.ite (fun _ => .nil (Nat.zero_le _)) fun _ => ?_
  refine Runs.seq (v := projectOwn c.nx c.ny) ?_ (by peak_free)
  rw [List.append_assoc]
  refine Runs.seq (v := projectOwn c.nx c.ny) (by peak_alloc) ?_
  simp only [ray, traceUses]
  peak_keep (h _ _ _), hs', hs

theorem runs_project2 (c : Scan) :
    Runs (rayBytes c.nx c.ny + 56 + 8 * (c.nx + c.ny + 1)) (project2 c) [] (if c.void then []
      else [(.indy, 4 * (c.nx + c.ny + 1)), (.indx, 4 * (c.nx + c.ny + 1))]) := by
  have hs : Own.size (projectOwn2 c.nx c.ny) + scratchBytes 0 ≤ rayBytes c.nx c.ny + 56 + 8 * (c.nx + c.ny + 1) := by peak_size
  have hs' : Own.size (projectOwn2 c.nx c.ny) ≤ rayBytes c.nx c.ny + 56 + 8 * (c.nx + c.ny + 1) := Nat.le_of_add_right_le hs
  unfold project2
  split_ifs with hc
  · exact .nil (Nat.zero_le _)
  refine Runs.seq (v := projectOwn2 c.nx c.ny) ?_ (by peak_free)
  rw [List.append_assoc]
  refine Runs.seq (v := projectOwn2 c.nx c.ny) (by peak_alloc) ?_
  simp only [ray2, traceUses]
  peak_keep (le_refl 0), hs', hs

/-- The bytes of `gridrec`. -/
def gridBytes (g : GridScan) : Nat :=
  8 * (g.pdim * g.pdim) + 16 * (g.dt * g.pdim) + 8 * (g.pdim / 2 * g.dt) +
      8 * (if g.filter2d then g.dt * (g.pdim / 2) else g.pdim / 2) + 24 * g.dt + 16 * g.pdim +
      4 * (g.pdim - 1) + 2092 + g.plan1 + g.plan2

theorem gridOwn'_size (g : GridScan) : Own.size (gridOwn' g) = gridBytes g := by
  unfold gridBytes gridOwn' gridOwn
  generalize (if g.filter2d = true then g.dt * (g.pdim / 2) else g.pdim / 2) = F
  simp only [Own.size, List.map_cons, List.map_nil, List.sum_cons, List.sum_nil]
  omega

/-- Frees with uses between them. -/
theorem Runs.shrink {B : Nat} {ops : List Op} {u w : Own} (hu : u.size ≤ B)
    (ho : ops.all (fun o => match o with | .alloc _ _ => false | _ => true) = true) (h : arun ops u = some w) :
    Runs B ops u w := by
  refine ⟨h, ?_⟩
  clear h
  induction ops generalizing u with
  | nil => exact hu
  | cons op ops ih =>
    simp only [List.all_cons, Bool.and_eq_true] at ho
    refine ⟨hu, fun v hv => ih ?_ ho.2⟩
    cases op with
    | alloc x n => simp at ho
    | free x =>
      simp only [astep] at hv
      split_ifs at hv
      obtain rfl := Option.some.inj hv
      exact le_trans (size_filter _ _) hu
    | use x =>
      simp only [astep] at hv
      split_ifs at hv
      obtain rfl := Option.some.inj hv
      exact hu

theorem arun_split {a b : List Op} {u w : Own} (h : arun (a ++ b) u = some w) :
    ∃ v, arun a u = some v ∧ arun b v = some w := by
  rw [arun_append] at h
  cases ha : arun a u with
  | none => simp [ha] at h
  | some v => exact ⟨v, rfl, by simpa [ha] using h⟩

theorem arun_gridStart (g : GridScan) : arun ([.alloc .sino (8 * g.pdim),
     .alloc .filphase (8 * (if g.filter2d then g.dt * (g.pdim / 2) else g.pdim / 2))] ++
    mallocMatrix .H .H0 g.pdim g.pdim ++
    [.alloc .wtbl (4 * 513), .alloc .winv (4 * (g.pdim - 1)),
     .alloc .Jz (4 * (g.pdim / 2 * g.dt)), .alloc .Pz (4 * (g.pdim / 2 * g.dt))] ++
    mallocMatrix .Ud .U0 g.dt g.pdim ++ mallocMatrix .Vd .V0 g.dt g.pdim ++
    [.alloc .work (4 * 5), .alloc .work2 (4 * 5)] ++
    [.alloc .sine (4 * g.dt), .alloc .cose (4 * g.dt)]) [] = some (gridOwn g) := by
  simp only [mallocMatrix, List.cons_append, List.nil_append]
  repeat first
    | with_reducible refine arun_alloc rfl ?_
    | with_reducible refine arun_use rfl ?_
  rfl

theorem runs_gridrec (g : GridScan) :
    Runs (gridBytes g) (gridrec g) [] (if g.dy = 0 ∨ g.dt = 0 ∨ g.dx = 0 then [] else [(.work2, 20)]) := by
  refine ⟨arun_gridrec g, ?_⟩
  have ha := arun_gridrec g
  unfold gridrec at ha ⊢
  by_cases hc : g.dy = 0 ∨ g.dt = 0 ∨ g.dx = 0
  · rw [if_pos hc]; exact Nat.zero_le _
  rw [if_neg hc] at ha ⊢
  rw [if_neg hc] at ha
  have hs : Own.size (gridOwn' g) ≤ gridBytes g := (gridOwn'_size g).le
  have hs1 : Own.size (gridOwn g) ≤ gridBytes g := by
    refine le_trans ?_ hs
    unfold gridOwn'
    rw [size_cons, size_cons]
    omega
  have h1 := arun_gridStart g
  have r1 := Runs.grow (B := gridBytes g) rfl h1 hs1
  have r2 := r1.seq (Runs.uses (xs := [.sine, .cose, .wtbl, .winv]) hs1 rfl)
  have r3 := r2.seq (Runs.grow (B := gridBytes g) (ops := [.alloc .plan1 g.plan1, .alloc .plan2 g.plan2]) rfl
    (w := gridOwn' g) (arun_alloc rfl (arun_alloc rfl rfl)) hs)
  have r4 := r3.seq (Runs.uses (xs := [.sino, .H, .H0]) hs rfl)
  have r5 := r4.seq (Runs.loop (n := g.dt) (body := fun _ => uses [.Ud, .U0, .Vd, .V0, .cose, .sine]) hs
    fun _ => Runs.uses hs rfl)
  have r6 := r5.seq (Runs.loop (n := (g.dy + 1) / 2) (body := fun _ =>
      uses [.filphase, .H, .H0] ++
      loop g.dt (fun _ => uses
        [.sine, .cose, .sino, .plan1, .filphase, .Ud, .U0, .Vd, .V0, .Jz, .Pz, .work, .work2,
          .wtbl, .H, .H0]) ++
      uses [.plan2, .H, .H0, .winv]) hs
    fun _ => ((Runs.uses hs rfl).keep (Runs.loop hs fun _ => Runs.uses hs rfl)).keep (Runs.uses hs rfl))
  simp only [List.append_assoc] at r6 ha ⊢
  -- the rest frees
  have key : ∀ {a b : List Op} {w : Own}, Runs (gridBytes g) a [] (gridOwn' g) → arun (a ++ b) [] = some w →
      b.all (fun o => match o with | .alloc _ _ => false | _ => true) = true →
      Within (gridBytes g) (a ++ b) [] := by
    intro a b w ra hab hb
    obtain ⟨v, hv, hb'⟩ := arun_split hab
    rw [ra.run] at hv
    obtain rfl := Option.some.inj hv
    exact within_append ra.le ra.run (Runs.shrink hs hb hb').le
  have := key (b := frees [.sine, .cose, .sino, .wtbl, .filphase, .winv, .work] ++ (freeMatrix .H .H0 ++
    (frees [.Jz, .Pz] ++ (freeMatrix .Ud .U0 ++ (freeMatrix .Vd .V0 ++ frees [.plan1, .plan2]))))) r6
    (by simpa only [List.append_assoc] using ha) rfl
  simpa only [List.append_assoc] using this

theorem runs_medianFilter (v w b : Nat) : Runs (b * w) (medianFilter v w b) [] [] := by
  refine Runs.loop (Nat.zero_le _) fun _ => ?_
  refine Runs.seq (a := [.alloc .valVec (b * w), .use .valVec]) (v := [(.valVec, b * w)]) (Runs.grow rfl rfl ?_)
    (Runs.frees (xs := [.valVec]) ?_ rfl) <;> simp [Own.size]

/-- The bytes of the inpainter. -/
def inpaintBytes (c : InpaintScan) : Nat :=
  5 * c.voxels + 4 * c.window + if c.sorting then 4 * c.window else 0

theorem runs_sweep (c : InpaintScan) : Runs (inpaintBytes c) (inpaintSweep c) (inpaintOwn c) (inpaintOwn c) := by
  have hs : Own.size (inpaintOwn c) ≤ inpaintBytes c := by
    simp only [Own.size, inpaintOwn, inpaintBytes, List.map_cons, List.map_nil, List.sum_cons, List.sum_nil]
    omega
  refine Runs.loop hs fun _ => Runs.ite (fun h => ?_) fun _ => Runs.uses hs rfl
  have hs2 : Own.size ((.values, 4 * c.window) :: inpaintOwn c) ≤ inpaintBytes c := by
    simp only [Own.size, inpaintOwn, inpaintBytes, List.map_cons, List.map_nil, List.sum_cons, List.sum_nil, h,
      if_true]
    omega
  exact Runs.seq (v := (.values, 4 * c.window) :: inpaintOwn c) (Runs.grow rfl rfl hs2)
    (Runs.frees (xs := [.values]) hs2 rfl)

theorem runs_inpaint (c : InpaintScan) : Runs (inpaintBytes c) (inpaint c) [] [] := by
  have hs : Own.size (inpaintOwn c) ≤ inpaintBytes c := by
    simp only [Own.size, inpaintOwn, inpaintBytes, List.map_cons, List.map_nil, List.sum_cons, List.sum_nil]
    omega
  have hr : Runs (inpaintBytes c) (if c.random then uses [.mUpd, .updated] else []) (inpaintOwn c) (inpaintOwn c) :=
    Runs.ite (fun _ => Runs.uses hs rfl) fun _ => .nil hs
  refine Runs.seq (v := inpaintOwn c) (Runs.grow rfl rfl hs)
    (Runs.ite (fun _ => Runs.frees hs rfl) fun _ => ?_)
  refine Runs.seq (v := inpaintOwn c) (Runs.keep (Runs.keep (Runs.keep ?_ hr) ?_) hr) (Runs.frees hs rfl)
  · exact Runs.loop hs fun _ => Runs.keep (runs_sweep c) (Runs.uses hs rfl)
  · exact Runs.loop hs fun _ => Runs.keep (Runs.keep (Runs.uses hs rfl) (runs_sweep c)) (Runs.uses hs rfl)

theorem runs_stripesDetect (v w : Nat) : Runs (4 * v + 4 * w) (stripesDetect v w) [] [] := by
  have hs : Own.size [(.temp3d, 4 * v)] ≤ 4 * v + 4 * w := by simp [Own.size]
  have hs2 : Own.size [(.values, 4 * w), (.temp3d, 4 * v)] ≤ 4 * v + 4 * w := by
    simp only [Own.size, List.map_cons, List.map_nil, List.sum_cons, List.sum_nil]; omega
  refine Runs.seq (v := [(.temp3d, 4 * v)]) (Runs.seq (v := [(.temp3d, 4 * v)]) (Runs.seq (Runs.grow rfl rfl hs) ?_) ?_)
    (Runs.frees (xs := [.temp3d]) hs rfl)
  · exact Runs.loop hs fun _ => Runs.uses hs rfl
  · exact Runs.loop hs fun _ => Runs.seq (v := [(.values, 4 * w), (.temp3d, 4 * v)]) (Runs.grow rfl rfl hs2)
      (Runs.frees (xs := [.values]) hs2 rfl)

theorem runs_stripesMask (v m : Nat) : Runs v (stripesMask v m) [] [] := by
  have hs : Own.size [(.mask, v)] ≤ v := by simp [Own.size]
  refine Runs.seq (v := [(.mask, v)]) (Runs.seq (v := [(.mask, v)]) (Runs.seq (Runs.grow rfl rfl hs) ?_) ?_)
    (Runs.frees (xs := [.mask]) hs rfl)
  · exact Runs.loop hs fun _ => Runs.uses hs rfl
  · exact Runs.loop hs fun _ => Runs.loop hs fun _ => Runs.uses hs rfl

theorem runs_stripeSf (a b c : Nat) : Runs (8 * c) (stripeSf a b c) [] [] := by
  have hs : Own.size [(.smoothRow, 4 * c), (.averageRow, 4 * c)] ≤ 8 * c := by
    simp only [Own.size, List.map_cons, List.map_nil, List.sum_cons, List.sum_nil]; omega
  refine Runs.loop (Nat.zero_le _) fun _ => ?_
  exact Runs.seq (v := [(.smoothRow, 4 * c), (.averageRow, 4 * c)]) (Runs.seq (Runs.seq (Runs.grow rfl rfl hs)
    (Runs.loop hs fun _ => Runs.uses hs rfl)) (Runs.loop hs fun _ => Runs.uses hs rfl)) (Runs.frees hs rfl)

/-- The bytes of `remove_ring`. -/
def ringBytes (c : RingScan) : Nat :=
  8 * c.dy + max 16 (4 * (c.polHeight * c.polWidth) + 8 * c.polHeight +
      max (4 * (c.polHeight * c.polWidth) + 8 * c.polHeight + 8 * (2 * c.rad + 1)) (4 * (c.dy * c.dx) + 8 * c.dy))

theorem runs_medianFast {c : RingScan} {r : Nat} (hr : r ≤ c.rad) :
    Runs (ringBytes c) (medianFast r) (ringOwn' c) (ringOwn' c) := by
  refine Runs.scratch (by decide) rfl rfl ?_ rfl
  simp only [Own.size, ringOwn', ringOwn, ringBytes, List.map_cons, List.map_nil, List.sum_cons, List.sum_nil]
  omega

theorem runs_removeRing (c : RingScan) : Runs (ringBytes c) (removeRing c) [] [] := by
  have h0 : Own.size [(.image, 8 * c.dy)] ≤ ringBytes c := by
    simp only [Own.size, ringBytes, List.map_cons, List.map_nil, List.sum_cons, List.sum_nil]
    omega
  have h1 : Own.size [(.edge, 16), (.image, 8 * c.dy)] ≤ ringBytes c := by
    simp only [Own.size, ringBytes, List.map_cons, List.map_nil, List.sum_cons, List.sum_nil]
    omega
  have h2 : Own.size (ringOwn c) ≤ ringBytes c := by
    simp only [Own.size, ringOwn, ringBytes, List.map_cons, List.map_nil, List.sum_cons, List.sum_nil]
    omega
  have h3 : Own.size (ringOwn' c) ≤ ringBytes c := by
    simp only [Own.size, ringOwn', ringOwn, ringBytes, List.map_cons, List.map_nil, List.sum_cons, List.sum_nil]
    omega
  have h4 : Own.size ((.ring, 8 * c.dy) :: (.ring0, 4 * (c.dy * c.dx)) :: ringOwn c) ≤ ringBytes c := by
    simp only [Own.size, ringOwn, ringBytes, List.map_cons, List.map_nil, List.sum_cons, List.sum_nil]
    omega
  refine Runs.seq (v := [(.image, 8 * c.dy)]) (Runs.seq (Runs.grow rfl rfl h0) ?_)
    (Runs.frees (xs := [.image]) h0 rfl)
  refine Runs.loop h0 fun _ => ?_
  refine Runs.seq (v := (.ring, 8 * c.dy) :: (.ring0, 4 * (c.dy * c.dx)) :: ringOwn c)
    (Runs.seq (v := (.ring, 8 * c.dy) :: (.ring0, 4 * (c.dy * c.dx)) :: ringOwn c)
    (Runs.seq (v := ringOwn c) (Runs.seq (v := ringOwn' c) (Runs.seq (v := ringOwn' c)
    (Runs.seq (v := ringOwn' c) (Runs.seq (v := ringOwn' c) (Runs.seq (v := ringOwn' c)
    (Runs.seq (v := ringOwn' c) (Runs.seq (v := ringOwn c) (Runs.seq (v := ringOwn c)
    (Runs.seq (v := [(.image, 8 * c.dy)]) (Runs.seq (v := [(.image, 8 * c.dy)])
      (Runs.uses h0 rfl) ?_) ?_) ?_) ?_) ?_) ?_) ?_) ?_) ?_) ?_) ?_) ?_) ?_
  · exact Runs.seq (a := [.alloc .edge 16, .use .edge]) (v := [(.edge, 16), (.image, 8 * c.dy)])
      (Runs.grow rfl rfl h1) (Runs.frees (xs := [.edge]) h1 rfl)
  · exact Runs.grow rfl rfl h2
  · exact Runs.uses h2 rfl
  · exact Runs.grow rfl rfl h3
  · exact Runs.uses h3 rfl
  · exact runs_medianFast (by omega)
  · exact runs_medianFast (by omega)
  · exact runs_medianFast (by omega)
  · exact Runs.uses h3 rfl
  · exact Runs.frees h3 rfl
  · exact Runs.grow rfl rfl h4
  · exact Runs.uses h4 rfl
  · exact Runs.shrink h4 rfl rfl

theorem runs_prog (k : Kernel) (h : k.fits) : Runs (k.held + k.extra) k.prog [] k.left := by
  cases k with
  | art c => exact runs_art c h
  | bart c => exact runs_bart c h
  | osem c => exact runs_bart c h
  | fbp c => exact runs_fbp c h
  | ospmlQuad c => exact runs_ospml c h
  | ospmlHybrid c => exact runs_ospml c h
  | grad c => exact runs_grad c h
  | tikh c => exact runs_grad c h
  | tv c => exact runs_tv c h
  | vector c => exact runs_vectorN 1 c
  | vector2 c => exact runs_vectorN 2 c
  | vector3 c => exact runs_vectorN 3 c
  | project c => exact runs_project c h
  | project2 c => exact runs_project2 c
  | project3 c => exact runs_project2 c
  | gridrec g => exact runs_gridrec g
  | medianFilter v w b => exact runs_medianFilter v w b
  | inpaint c => exact runs_inpaint c
  | stripesDetect v w => exact runs_stripesDetect v w
  | stripesMask v m => exact runs_stripesMask v m
  | stripeSf a b c => exact runs_stripeSf a b c
  | removeRing c => exact runs_removeRing c

/-! ## The claim -/

theorem Holds.bytes {base : List (Nat × Nat)} {vs : Own} {st : St} {a : Var → Nat} (h : Holds base vs st a) :
    st.bytes = vs.size + (base.map Prod.snd).sum := by
  unfold St.bytes Own.size
  rw [(h.live.map Prod.snd).sum_eq, List.map_append, List.sum_append, List.map_map]
  rfl

theorem within_prefix {B : Nat} {q r : List Op} {u v : Own} (h : Within B (q ++ r) u) (hq : arun q u = some v) :
    v.size ≤ B := by
  induction q generalizing u with
  | nil => obtain rfl := Option.some.inj hq; exact within_head h
  | cons op q ih =>
    simp only [arun] at hq
    cases hs : astep op u with
    | none => simp [hs] at hq
    | some w =>
      rw [hs] at hq
      exact ih (h.2 w hs) hq

/-- **C184.**  At every moment of a call (after any first part `q` of its operations) the C heap holds at most
`held + extra` bytes more than before the call, whatever the numbers of iterations and subsets. -/
theorem call_peak (k : Kernel) (hk : k.fits) (st : St) (hst : st.WF) {q r : List Op} (hq : k.prog = q ++ r) :
    ∃ st', call q st = some st' ∧ st'.bytes ≤ st.bytes + (k.held + k.extra) := by
  have h0 : Holds st.live [] { st with env := fun _ => none } (fun _ => 0) :=
    ⟨⟨hst.nodup, hst.lt⟩, by simp, by simp, by simp⟩
  have hr := runs_prog k hk
  rw [hq] at hr
  obtain ⟨v, hv, -⟩ := arun_split hr.run
  obtain ⟨st', a, h1, h2⟩ := run_sound q h0 hv
  refine ⟨st', h1, ?_⟩
  have h3 := within_prefix hr.le hv
  rw [h2.bytes]
  unfold St.bytes
  omega

/-! ## The bound is reached -/

/-- A call that does something: the scan is not empty, and there is at least one iteration, subset, slice or voxel
where the routine takes memory inside a loop. -/
def Kernel.works : Kernel → Prop
  | .art c | .bart c | .osem c | .fbp c | .grad c | .tikh c | .tv c | .project c | .project2 c | .project3 c => ¬c.void
  | .ospmlQuad c | .ospmlHybrid c => ¬c.void ∧ 0 < c.iter ∧ 0 < c.blocks
  | .vector c | .vector2 c | .vector3 c => 0 < c.iter ∧ 0 < c.dy
  | .gridrec g => ¬(g.dy = 0 ∨ g.dt = 0 ∨ g.dx = 0)
  | .medianFilter v _ _ => 0 < v
  | .inpaint c => c.sorting = true → 0 < c.masked ∧ 0 < c.voxels
  | .stripesDetect v _ => 0 < v
  | .stripesMask _ _ => True
  | .stripeSf _ slices _ => 0 < slices
  | .removeRing c => 0 < c.slices

/-- At some moment of the code, exactly the blocks `v` are held. -/
def Reaches (ops : List Op) (u v : Own) : Prop := ∃ q r, ops = q ++ r ∧ arun q u = some v

theorem Reaches.here {a b : List Op} {u v : Own} (h : arun a u = some v) : Reaches (a ++ b) u v := ⟨a, b, rfl, h⟩

theorem Reaches.all {a : List Op} {u v : Own} (h : arun a u = some v) : Reaches a u v := ⟨a, [], by simp, h⟩

theorem Reaches.first {a b : List Op} {u v : Own} (h : Reaches a u v) : Reaches (a ++ b) u v := by
  obtain ⟨q, r, rfl, h⟩ := h
  exact ⟨q, r ++ b, by simp, h⟩

theorem Reaches.then {a b : List Op} {u v w : Own} (h : arun a u = some w) (h2 : Reaches b w v) :
    Reaches (a ++ b) u v := by
  obtain ⟨q, r, rfl, h2⟩ := h2
  exact ⟨a ++ q, r, by simp, arun_seq h h2⟩

theorem Reaches.loop {n : Nat} {body : Nat → List Op} {u v : Own} (hn : 0 < n) (h : Reaches (body 0) u v) :
    Reaches (Heap.loop n body) u v := by
  obtain ⟨m, rfl⟩ : ∃ m, n = m + 1 := ⟨n - 1, by omega⟩
  unfold Heap.loop
  rw [List.range_succ_eq_map, List.flatMap_cons]
  exact h.first

theorem arun_rayBuffers (nx ny : Nat) : arun (rayBuffers nx ny) [] = some (rayOwn nx ny) := by heap_alloc

theorem arun_vectorBuffers (nx ny : Nat) : arun (vectorBuffers nx ny) [] = some (vectorOwn nx ny) := by heap_alloc

theorem not_void {c : Scan} (h : ¬c.void) : 0 < c.dy := by
  unfold Scan.void at h
  omega

/-- The body of the loop over the slices of `remove_ring`. -/
def ringSlice (c : RingScan) : List Op :=
  uses [.image] ++
  [.alloc .edge 16, .use .edge, .free .edge] ++
  [.alloc .polar0 (4 * (c.polHeight * c.polWidth)), .alloc .polar (8 * c.polHeight)] ++
  uses [.polar, .polar0, .image] ++
  [.alloc .filtered0 (4 * (c.polHeight * c.polWidth)), .alloc .filtered (8 * c.polHeight)] ++
  uses [.filtered] ++
  medianFast (c.rad / 3) ++ medianFast (2 * c.rad / 3) ++ medianFast c.rad ++
  uses [.polar, .polar0, .filtered, .filtered0] ++
  frees [.filtered0, .filtered] ++
  [.alloc .ring0 (4 * (c.dy * c.dx)), .alloc .ring (8 * c.dy)] ++
  uses [.polar, .polar0, .ring, .ring0, .image] ++
  [.use .polar, .free .polar0, .free .polar, .use .ring, .free .ring0, .free .ring]

/-- What is held when most is held, the scratch of `calc_dist` aside. -/
theorem reaches_held (k : Kernel) (h : k.works) : ∃ v, Reaches k.prog [] v ∧ v.size = k.held := by
  have hospml : ∀ c : Scan, (¬c.void ∧ 0 < c.iter ∧ 0 < c.blocks) → ∃ v, Reaches (ospml c) [] v ∧
      v.size = 4 * (c.dt * c.dy * c.dx) + 16 * (c.nx * c.ny) + rayBytes c.nx c.ny := by
    intro c ⟨hv, hi, hb⟩
    refine ⟨ospmlOwn' c, ?_, by peak_size⟩
    unfold ospml
    rw [if_neg hv]
    refine Reaches.first (Reaches.then (arun_rayBuffers _ _) (Reaches.loop hi ?_))
    refine Reaches.first (Reaches.then (w := ospmlOwn c) (by heap_alloc) (Reaches.loop (not_void hv) ?_))
    refine Reaches.then (w := ospmlOwn c) (by heap_keep) (Reaches.loop hb ?_)
    exact Reaches.first (Reaches.first (Reaches.first (Reaches.all (by heap_alloc))))
  have hvec : ∀ (n : Nat) (c : Scan), 0 < n → (0 < c.iter ∧ 0 < c.dy) → ∃ v, Reaches (vectorN n c) [] v ∧
      v.size = 4 * (c.dt * c.dy * c.dx) + 12 * (c.nx * c.ny) + rayBytes c.nx c.ny + 4 * (c.nx + c.ny + 2) := by
    intro n c hn ⟨hi, hy⟩
    refine ⟨vectorOwn'' c, ?_, by peak_size⟩
    refine Reaches.first (Reaches.then (arun_vectorBuffers _ _) (Reaches.loop hi (Reaches.loop hn ?_)))
    refine Reaches.first (Reaches.then (w := vectorOwn' c) (by heap_alloc) (Reaches.loop hy ?_))
    refine Reaches.first (Reaches.first (Reaches.first (Reaches.then (w := vectorOwn' c) (by heap_keep) ?_)))
    exact Reaches.all (by heap_alloc)
  have hgrad : ∀ c : Scan, ¬c.void → ∃ v, Reaches (grad c) [] v ∧ v.size =
      8 * (c.dy * c.dt * c.dx) + 12 * (c.dy * c.nx * c.ny) + 4 * (c.nx * c.ny) + 4 * c.dy +
      rayBytes c.nx c.ny := by
    intro c hv
    refine ⟨gradOwn c, ?_, by peak_size⟩
    unfold grad
    rw [if_neg hv]
    exact Reaches.first (Reaches.first (Reaches.first (Reaches.all (by heap_alloc))))
  have hbart : ∀ c : Scan, ¬c.void → ∃ v, Reaches (bart c) [] v ∧ v.size =
      4 * (c.dy * c.dt * c.dx) + 8 * (c.nx * c.ny) + rayBytes c.nx c.ny := by
    intro c hv
    refine ⟨bartOwn c, ?_, by peak_size⟩
    unfold bart
    rw [if_neg hv]
    exact Reaches.first (Reaches.first (Reaches.all (by heap_alloc)))
  have hproj : ∀ c : Scan, ¬c.void → ∃ v, Reaches (project2 c) [] v ∧ v.size =
      rayBytes c.nx c.ny + 56 + 8 * (c.nx + c.ny + 1) := by
    intro c hv
    refine ⟨projectOwn2 c.nx c.ny, ?_, by peak_size⟩
    unfold project2
    rw [if_neg hv]
    exact Reaches.first (Reaches.first (Reaches.first (Reaches.all (by heap_alloc))))
  cases k with
  | art c =>
    refine ⟨artOwn c, ?_, by simp only [Kernel.held]; peak_size⟩
    show Reaches (art c) [] _
    unfold art
    rw [if_neg h]
    exact Reaches.first (Reaches.first (Reaches.all (by heap_alloc)))
  | bart c => exact hbart c h
  | osem c => exact hbart c h
  | fbp c =>
    refine ⟨rayOwn c.nx c.ny, ?_, by simp only [Kernel.held]; peak_size⟩
    show Reaches (fbp c) [] _
    unfold fbp
    rw [if_neg h]
    exact Reaches.first (Reaches.first (Reaches.all (by heap_alloc)))
  | ospmlQuad c => exact hospml c h
  | ospmlHybrid c => exact hospml c h
  | grad c => exact hgrad c h
  | tikh c => exact hgrad c h
  | tv c =>
    refine ⟨tvOwn c, ?_, by simp only [Kernel.held]; peak_size⟩
    show Reaches (tv c) [] _
    unfold tv
    rw [if_neg h]
    exact Reaches.first (Reaches.first (Reaches.first (Reaches.all (by heap_alloc))))
  | vector c => exact hvec 1 c (by omega) h
  | vector2 c => exact hvec 2 c (by omega) h
  | vector3 c => exact hvec 3 c (by omega) h
  | project c =>
    refine ⟨projectOwn c.nx c.ny, ?_, by simp only [Kernel.held]; peak_size⟩
    show Reaches (project c) [] _
    unfold project
    rw [if_neg h]
    exact Reaches.first (Reaches.first (Reaches.first (Reaches.all (by heap_alloc))))
  | project2 c => exact hproj c h
  | project3 c => exact hproj c h
  | gridrec g =>
    refine ⟨gridOwn' g, ?_, gridOwn'_size g⟩
    show Reaches (gridrec g) [] _
    unfold gridrec
    rw [if_neg h]
    iterate 9 refine Reaches.first ?_
    exact Reaches.then (arun_seq (arun_gridStart g) (arun_uses _ _ rfl))
      (Reaches.all (arun_alloc rfl (arun_alloc rfl rfl)))
  | medianFilter v w b =>
    refine ⟨[(.valVec, b * w)], Reaches.loop h ?_, by simp [Own.size, Kernel.held]⟩
    exact ⟨[.alloc .valVec (b * w)], [.use .valVec, .free .valVec], rfl, rfl⟩
  | inpaint c =>
    cases hs : c.sorting with
    | false =>
      refine ⟨inpaintOwn c, Reaches.here rfl, ?_⟩
      simp only [Own.size, inpaintOwn, Kernel.held, List.map_cons, List.map_nil, List.sum_cons, List.sum_nil, hs]
      simp only [Bool.false_eq_true, if_false]
      omega
    | true =>
      obtain ⟨hm, hv⟩ := h hs
      refine ⟨(.values, 4 * c.window) :: inpaintOwn c, ?_, ?_⟩
      · show Reaches (inpaint c) [] _
        unfold inpaint
        rw [if_neg (by omega)]
        refine Reaches.then (w := inpaintOwn c) rfl ?_
        iterate 4 refine Reaches.first ?_
        refine Reaches.loop hm (Reaches.first (Reaches.loop hv ?_))
        rw [if_pos hs]
        exact Reaches.first (Reaches.first (Reaches.all rfl))
      · simp only [Own.size, inpaintOwn, Kernel.held, List.map_cons, List.map_nil, List.sum_cons, List.sum_nil, hs]
        simp only [if_true]
        omega
  | stripesDetect v w =>
    refine ⟨[(.values, 4 * w), (.temp3d, 4 * v)], ?_, ?_⟩
    · refine Reaches.first (Reaches.then (w := [(.temp3d, 4 * v)])
        (arun_seq rfl (arun_loop _ _ _ fun _ => rfl)) (Reaches.loop h ?_))
      exact Reaches.first (Reaches.first (Reaches.all rfl))
    · simp only [Own.size, Kernel.held, List.map_cons, List.map_nil, List.sum_cons, List.sum_nil]
      omega
  | stripesMask v m =>
    refine ⟨[(.mask, v)], Reaches.first (Reaches.first (Reaches.first (Reaches.all rfl))), ?_⟩
    simp [Own.size, Kernel.held]
  | stripeSf a b c =>
    refine ⟨[(.smoothRow, 4 * c), (.averageRow, 4 * c)], Reaches.loop h ?_, ?_⟩
    · iterate 3 refine Reaches.first ?_
      exact Reaches.all rfl
    · simp only [Own.size, Kernel.held, List.map_cons, List.map_nil, List.sum_cons, List.sum_nil]
      omega
  | removeRing c =>
    have key : (Kernel.removeRing c).held = 8 * c.dy + 16 ∨
        (Kernel.removeRing c).held = 8 * c.dy + (4 * (c.polHeight * c.polWidth) + 8 * c.polHeight +
          (4 * (c.polHeight * c.polWidth) + 8 * c.polHeight + 8 * (2 * c.rad + 1))) ∨
        (Kernel.removeRing c).held = 8 * c.dy + (4 * (c.polHeight * c.polWidth) + 8 * c.polHeight +
          (4 * (c.dy * c.dx) + 8 * c.dy)) := by
      simp only [Kernel.held]
      omega
    have start : ∀ {v}, Reaches (ringSlice c) [(.image, 8 * c.dy)] v → Reaches (removeRing c) [] v := fun h' =>
      Reaches.first (Reaches.then (w := [(.image, 8 * c.dy)]) rfl (Reaches.loop h h'))
    have h2 : arun (uses [.image] ++ [.alloc .edge 16, .use .edge, .free .edge] ++
        [.alloc .polar0 (4 * (c.polHeight * c.polWidth)), .alloc .polar (8 * c.polHeight)] ++
        uses [.polar, .polar0, .image]) [(.image, 8 * c.dy)] = some (ringOwn c) := rfl
    have h3 := arun_seq (arun_seq h2
      (b := [.alloc .filtered0 (4 * (c.polHeight * c.polWidth)), .alloc .filtered (8 * c.polHeight)])
      (w := ringOwn' c) rfl) (b := uses [.filtered]) (w := ringOwn' c) rfl
    have h4 := arun_seq (arun_seq h3 (arun_medianFast c (c.rad / 3))) (arun_medianFast c (2 * c.rad / 3))
    have h5 := arun_seq (arun_seq (arun_seq h4 (arun_medianFast c c.rad))
      (b := uses [.polar, .polar0, .filtered, .filtered0]) (w := ringOwn' c) rfl)
      (b := frees [.filtered0, .filtered]) (w := ringOwn c) rfl
    rcases key with hk | hk | hk
    · refine ⟨[(.edge, 16), (.image, 8 * c.dy)], start ?_, ?_⟩
      · unfold ringSlice
        iterate 12 refine Reaches.first ?_
        exact ⟨uses [.image] ++ [.alloc .edge 16, .use .edge], [.free .edge], rfl, rfl⟩
      · rw [hk]
        simp only [Own.size, List.map_cons, List.map_nil, List.sum_cons, List.sum_nil]
        omega
    · refine ⟨(.positionArr, 4 * (2 * c.rad + 1)) :: (.medianArr, 4 * (2 * c.rad + 1)) :: ringOwn' c, start ?_, ?_⟩
      · unfold ringSlice
        iterate 5 refine Reaches.first ?_
        refine Reaches.then h4 ?_
        exact Reaches.first (Reaches.first (Reaches.all rfl))
      · rw [hk]
        simp only [Own.size, ringOwn', ringOwn, List.map_cons, List.map_nil, List.sum_cons, List.sum_nil]
        omega
    · refine ⟨(.ring, 8 * c.dy) :: (.ring0, 4 * (c.dy * c.dx)) :: ringOwn c, start ?_, ?_⟩
      · unfold ringSlice
        iterate 2 refine Reaches.first ?_
        exact Reaches.then h5 (Reaches.all rfl)
      · rw [hk]
        simp only [Own.size, ringOwn, List.map_cons, List.map_nil, List.sum_cons, List.sum_nil]
        omega

/-- **And that much is needed: at some moment of every call that does something, exactly `held` bytes more than
before the call are in use.** -/
theorem call_reaches (k : Kernel) (hk : k.works) (st : St) (hst : st.WF) :
    ∃ q r, k.prog = q ++ r ∧ ∃ st', call q st = some st' ∧ st'.bytes = st.bytes + k.held := by
  have h0 : Holds st.live [] { st with env := fun _ => none } (fun _ => 0) :=
    ⟨⟨hst.nodup, hst.lt⟩, by simp, by simp, by simp⟩
  obtain ⟨v, ⟨q, r, hq, hv⟩, hs⟩ := reaches_held k hk
  obtain ⟨st', a, h1, h2⟩ := run_sound q h0 hv
  refine ⟨q, r, hq, st', h1, ?_⟩
  rw [h2.bytes, hs]
  unfold St.bytes
  omega

/-- **In a process that has made the calls `ks`, the call `k` never holds more than what those left behind and its
own bound.** -/
theorem calls_peak (ks : List Kernel) (k : Kernel) (hk : k.fits) (st : St) (hst : st.WF) {q r : List Op}
    (hq : k.prog = q ++ r) : ∃ st1 st2, calls ks st = some st1 ∧ call q st1 = some st2 ∧
      st2.bytes ≤ st.bytes + (ks.map fun k => k.leak.sum).sum + (k.held + k.extra) := by
  obtain ⟨st1, h1, w1, b1, -⟩ := calls_bytes ks st hst
  obtain ⟨st2, h2, b2⟩ := call_peak k hk st1 w1 hq
  exact ⟨st1, st2, h1, h2, by omega⟩

/-! ## Splitting the slices over workers -/

/-- The iterative solvers `recon` runs in threads, each on a chunk of the slices
(`source/tomopy/recon/algorithm.py:414-441`). -/
inductive Solver
  | art | bart | osem | fbp | ospml | grad | tikh | tv

/-- The call a worker makes for `d` slices. -/
def Solver.call (c : Scan) (d : Nat) : Solver → Kernel
  | .art => .art { c with dy := d }
  | .bart => .bart { c with dy := d }
  | .osem => .osem { c with dy := d }
  | .fbp => .fbp { c with dy := d }
  | .ospml => .ospmlQuad { c with dy := d }
  | .grad => .grad { c with dy := d }
  | .tikh => .tikh { c with dy := d }
  | .tv => .tv { c with dy := d }

/-- Bytes for each slice: copies of a sinogram, copies of an image. -/
def Solver.perSlice (c : Scan) : Solver → Nat
  | .fbp => 0
  | .art | .bart | .osem | .ospml => 4 * (c.dt * c.dx)
  | .grad | .tikh => 8 * (c.dt * c.dx) + 12 * (c.nx * c.ny) + 4
  | .tv => 8 * (c.dt * c.dx) + 16 * (c.nx * c.ny)

/-- Bytes for each worker, whatever its share. -/
def Solver.perWorker (c : Scan) (s : Solver) : Nat :=
  rayBytes c.nx c.ny + scratchBytes (c.nx + c.ny) + match s with
    | .art | .fbp => 0
    | .bart | .osem => 8 * (c.nx * c.ny)
    | .ospml => 16 * (c.nx * c.ny)
    | .grad | .tikh | .tv => 4 * (c.nx * c.ny)

theorem solver_bytes (c : Scan) (d : Nat) (s : Solver) :
    (s.call c d).held + (s.call c d).extra = d * s.perSlice c + s.perWorker c := by
  cases s <;> simp only [Solver.call, Solver.perSlice, Solver.perWorker, Kernel.held, Kernel.extra] <;> ring

/-- **All the workers together, at the worst moment of each: as much for the slices as one worker alone would need,
and the fixed part once for each worker.** -/
theorem workers_bytes (c : Scan) (s : Solver) (ds : List Nat) :
    (ds.map fun d => (s.call c d).held + (s.call c d).extra).sum =
      ds.sum * s.perSlice c + ds.length * s.perWorker c := by
  induction ds with
  | nil => simp
  | cons d ds ih =>
    rw [List.map_cons, List.sum_cons, ih, solver_bytes, List.sum_cons, List.length_cons]
    ring

/-! ## Instances -/

example : (Kernel.osem smallScan).fits ∧ (Kernel.osem smallScan).works ∧ (Kernel.vector smallScan).works ∧
    (Kernel.ospmlQuad smallScan).works := by
  refine ⟨fun _ _ _ => ?_, ?_, ?_, ?_⟩
  · show 3 ≤ 3 + 3
    omega
  · show ¬smallScan.void
    decide
  · show 0 < 2 ∧ 0 < 2
    omega
  · show ¬smallScan.void ∧ 0 < 2 ∧ 0 < 1
    decide

/-- The most bytes in use at any moment of a run. -/
def peakOf : List Op → St → Nat
  | [], st => st.bytes
  | op :: ops, st => max st.bytes ((step op st).elim 0 (peakOf ops))

/-- One slice, one view, two pixels on a 2 × 2 grid, one iteration. -/
def tinyScan : Scan := ⟨1, 1, 2, 2, 2, 1, 1, fun _ _ _ => 3⟩

/-- Runs of the machine itself: `osem` on this scan holds 216 bytes and, while it measures a ray with 3
crossings, 16 more; the bound, for rays with 4 crossings, is 240.  Another iteration changes nothing. -/
example : (Kernel.osem tinyScan).held = 216 ∧ (Kernel.osem tinyScan).extra = 24 ∧
    peakOf (Kernel.osem tinyScan).prog { emptyHeap with env := fun _ => none } = 232 ∧
    peakOf (Kernel.osem { tinyScan with iter := 2 }).prog { emptyHeap with env := fun _ => none } = 232 ∧
    peakOf (Kernel.osem { tinyScan with csize := fun _ _ _ => 4 }).prog
      { emptyHeap with env := fun _ => none } = 240 := by
  decide +kernel

/-- Two workers with one slice each. -/
example : ([1, 1].map fun d => (Solver.osem.call smallScan d).held + (Solver.osem.call smallScan d).extra).sum =
    2 * 24 + 2 * 368 := by
  decide +kernel

end Tomopy.Heap
