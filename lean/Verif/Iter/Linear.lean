import Verif.Iter.Grad
import Verif.Iter.Subsets

/-!
# Which reconstructions are linear in the data (C161)

`Sup a b f` says that `f`, applied to a superposition of data and initial images, gives the
superposition of the results.
-/

set_option linter.unusedSectionVars false

namespace Tomopy.Iter

open Function (update)

variable {K : Type*} [Field K] [LinearOrder K] [IsStrictOrderedRing K]

/-! ## Specification -/

/-- The superposition `a x + b y` of two arrays. -/
def sup (a b : K) (x y : Mem K) : Mem K := fun i => a * x i + b * y i

/-! ## Three runs side by side -/

/-- The three results are all undefined, or all defined and related. -/
def R3 {α β γ : Type*} (P : α → β → γ → Prop) : Option α → Option β → Option γ → Prop
  | some x, some y, some z => P x y z
  | none, none, none => True
  | _, _, _ => False

theorem R3.bind {α β γ α' β' γ' : Type*} {P : α → β → γ → Prop} {Q : α' → β' → γ' → Prop}
    {x : Option α} {y : Option β} {z : Option γ} {f : α → Option α'} {g : β → Option β'}
    {h : γ → Option γ'} (h0 : R3 P x y z) (h1 : ∀ u v w, P u v w → R3 Q (f u) (g v) (h w)) :
    R3 Q (x.bind f) (y.bind g) (z.bind h) := by
  match x, y, z, h0 with
  | some x, some y, some z, h0 => exact h1 _ _ _ h0
  | none, none, none, _ => trivial

theorem R3.foldlM {ι α β γ : Type*} {P : α → β → γ → Prop} {f : α → ι → Option α}
    {g : β → ι → Option β} {h : γ → ι → Option γ} (l : List ι)
    (hs : ∀ e x y z, P x y z → R3 P (f x e) (g y e) (h z e)) {x : α} {y : β} {z : γ} (h0 : P x y z) :
    R3 P (l.foldlM f x) (l.foldlM g y) (l.foldlM h z) := by
  induction l generalizing x y z with
  | nil => exact h0
  | cons e l ih => exact R3.bind (hs e _ _ _ h0) fun u v w huvw => ih huvw

theorem foldl3 {ι α β γ : Type*} {P : α → β → γ → Prop} {f : α → ι → α}
    {g : β → ι → β} {h : γ → ι → γ} (l : List ι)
    (hs : ∀ e x y z, P x y z → P (f x e) (g y e) (h z e)) {x : α} {y : β} {z : γ} (h0 : P x y z) :
    P (l.foldl f x) (l.foldl g y) (l.foldl h z) := by
  induction l generalizing x y z with
  | nil => exact h0
  | cons e l ih => exact ih (hs e _ _ _ h0)

theorem R3.iterM {α β γ : Type*} {P : α → β → γ → Prop} {f : α → Option α}
    {g : β → Option β} {h : γ → Option γ} (hs : ∀ x y z, P x y z → R3 P (f x) (g y) (h z)) (n : Nat)
    {x : α} {y : β} {z : γ} (h0 : P x y z) : R3 P (iterM f n x) (iterM g n y) (iterM h n z) := by
  induction n generalizing x y z with
  | zero => exact h0
  | succ n ih => exact R3.bind (hs _ _ _ h0) fun u v w huvw => ih huvw

section

variable {a b : K}

/-- `z` is the superposition of `x` and `y`. -/
abbrev IsSup (a b : K) (x y z : Mem K) : Prop := z = sup a b x y

theorem addAt_sup {x y z : Mem K} (h : IsSup a b x y z) (i : Nat) {u v w : K} (hw : w = a * u + b * v) :
    IsSup a b (addAt x i u) (addAt y i v) (addAt z i w) := by
  subst h hw
  funext k
  unfold addAt sup
  by_cases hk : k = i
  · subst hk
    simp only [Function.update_self]
    ring
  · simp only [Function.update_of_ne hk]

theorem calcSimdata_sup (D : Dims) (s p d : Nat) (ray : Segs K) {m1 m2 m3 x y z : Mem K}
    (hm : IsSup a b m1 m2 m3) (h : IsSup a b x y z) :
    IsSup a b (calcSimdata D s p d ray m1 x) (calcSimdata D s p d ray m2 y)
      (calcSimdata D s p d ray m3 z) := by
  subst hm
  exact foldl3 (P := IsSup a b) ray (fun e x y z h => addAt_sup h _ (by unfold sup; ring)) h

theorem spread_sup (D : Dims) (s : Nat) (ray : Segs K) {u v w : K} (hw : w = a * u + b * v)
    {x y z : Mem K} (h : IsSup a b x y z) :
    IsSup a b (spread D s ray u x) (spread D s ray v y) (spread D s ray w z) := by
  subst hw
  refine foldl3 (P := IsSup a b) ray (fun e x y z h => ?_) h
  exact addAt_sup h _ (by ring)

theorem zeros_sup : IsSup a b (zeros : Mem K) zeros zeros := by
  funext i
  simp [sup, zeros]

/-! ## C161 -/

/-- **C161**: projecting is linear. -/
theorem project_sup (D : Dims) (g : Geom K) (o1 o2 d1 d2 : Mem K) :
    project D g (sup a b o1 o2) (sup a b d1 d2) = sup a b (project D g o1 d1) (project D g o2 d2) := by
  unfold project
  split
  · rfl
  · refine foldl3 (P := IsSup a b) (List.range D.dt) (fun p x y z h => ?_) rfl
    refine foldl3 (P := IsSup a b) (List.range D.dx) (fun d x y z h => ?_) h
    refine foldl3 (P := IsSup a b) (List.range D.dy) (fun s x y z h => ?_) h
    exact calcSimdata_sup D s p d _ rfl h

/-- **C161**: `fbp` is linear. -/
theorem fbp_sup (D : Dims) (g : Geom K) (d1 d2 r1 r2 : Mem K) :
    fbp D g (sup a b d1 d2) (sup a b r1 r2) = sup a b (fbp D g d1 r1) (fbp D g d2 r2) := by
  unfold fbp
  split
  · rfl
  · refine foldl3 (P := IsSup a b) (List.range D.dy) (fun s x y z h => ?_) rfl
    refine foldl3 (P := IsSup a b) (List.range D.dt) (fun p x y z h => ?_) h
    refine foldl3 (P := IsSup a b) (List.range D.dx) (fun d x y z h => ?_) h
    exact spread_sup D s _ rfl h

/-- **C161**: `art` is linear. -/
theorem art_sup (D : Dims) (g : Geom K) (d1 d2 : Mem K) (n : Nat) (r1 r2 : Mem K) :
    art D g (sup a b d1 d2) n (sup a b r1 r2) = sup a b (art D g d1 n r1) (art D g d2 n r2) := by
  unfold art
  split
  · rfl
  · have hstep : ∀ x y, artIter D g (sup a b d1 d2) (sup a b x y) =
        sup a b (artIter D g d1 x) (artIter D g d2 y) := by
      intro x y
      unfold artIter
      let P : Mem K × Mem K → Mem K × Mem K → Mem K × Mem K → Prop :=
        fun u v w => IsSup a b u.1 v.1 w.1 ∧ IsSup a b u.2 v.2 w.2
      refine (foldl3 (P := P) (List.range D.dt) (fun p x y z h => ?_)
        (x := (x, zeros)) (y := (y, zeros)) (z := (sup a b x y, zeros)) ⟨rfl, zeros_sup⟩).1
      refine foldl3 (P := P) (List.range D.dx) (fun d x y z h => ?_) h
      refine foldl3 (P := P) (List.range D.dy) (fun s x y z h => ?_) h
      unfold artStep
      split
      · have hc := calcSimdata_sup D s p d (g 0 p d) h.1 h.2
        refine ⟨spread_sup D s _ ?_ h.1, hc⟩
        rw [congrFun hc]
        unfold sup
        ring
      · exact h
    induction n with
    | zero => rfl
    | succ n ih => rw [Function.iterate_succ_apply', Function.iterate_succ_apply',
        Function.iterate_succ_apply', ih, hstep]

theorem bart_R3 (D : Dims) (g : Geom K) (d1 d2 : Mem K) (n nb : Nat) (ind : List Nat) (r1 r2 : Mem K) :
    R3 (IsSup a b) (bart D g d1 n nb ind r1) (bart D g d2 n nb ind r2)
      (bart D g (sup a b d1 d2) n nb ind (sup a b r1 r2)) := by
  unfold bart osRun
  split
  · exact rfl
  split
  · trivial
  refine R3.bind (P := fun x y z => x = y ∧ y = z) ?_ ?_
  · cases (subsets D.dt nb).mapM (subsetProjs nb ind)
    · trivial
    · exact ⟨rfl, rfl⟩
  rintro bl _ _ ⟨rfl, rfl⟩
  refine R3.iterM (fun x y z hxyz => ?_) n rfl
  refine R3.bind (P := fun (u v w : Mem K × Mem K) => IsSup a b u.1 v.1 w.1 ∧ IsSup a b u.2 v.2 w.2)
    (R3.foldlM _ (fun s x y z h => R3.foldlM _ (fun ps x y z h => ?_) h) ⟨hxyz, zeros_sup⟩)
    fun u v w h => h.1
  refine R3.bind (P := fun (u v w : Acc K) => IsSup a b u.sd v.sd w.sd ∧ u.sumd = v.sumd ∧
    v.sumd = w.sumd ∧ IsSup a b u.upd v.upd w.upd) ?_ ?_
  · refine R3.foldlM _ (fun p u v w h => R3.foldlM _ (fun d u v w h => ?_) h)
      ⟨h.2, rfl, rfl, zeros_sup⟩
    obtain ⟨h1, h2, h3, h4⟩ := h
    have hc := calcSimdata_sup D s p d (g s p d) ‹IsSup a b x.1 y.1 z.1 ∧ _›.1 h1
    unfold accRay
    split
    · refine ⟨hc, by rw [h2], by rw [h3], ?_⟩
      refine foldl3 (P := IsSup a b) (g s p d) (fun e x y z h => ?_) h4
      refine addAt_sup h _ ?_
      show (_ - _) / _ * _ = a * ((_ - _) / _ * _) + b * ((_ - _) / _ * _)
      rw [congrFun hc]
      unfold sup
      ring
    · exact ⟨hc, by rw [h2], by rw [h3], h4⟩
  · rintro u v w ⟨h1, h2, h3, h4⟩
    refine R3.bind (P := IsSup a b) ?_ fun x' y' z' h' => ⟨h', h1⟩
    unfold bartFin
    refine foldl3 (P := IsSup a b) _ (fun n x y z h => ?_) h.1
    rw [h2, h3]
    split
    · refine addAt_sup h _ ?_
      rw [h4]
      unfold sup
      ring
    · exact h

/-- **C161**: `bart` is linear. -/
theorem bart_sup (D : Dims) (g : Geom K) (d1 d2 : Mem K) (n nb : Nat) (ind : List Nat) {r1 r2 x y : Mem K}
    (hx : bart D g d1 n nb ind r1 = some x) (hy : bart D g d2 n nb ind r2 = some y) :
    bart D g (sup a b d1 d2) n nb ind (sup a b r1 r2) = some (sup a b x y) := by
  have h := bart_R3 (a := a) (b := b) D g d1 d2 n nb ind r1 r2
  rw [hx, hy] at h
  match hz : bart D g (sup a b d1 d2) n nb ind (sup a b r1 r2), h with
  | some z, h => rw [show z = _ from h]

/-- **C161**: `sirt` is linear. -/
theorem sirt_sup (D : Dims) (g : Geom K) (d1 d2 : Mem K) (n : Nat) {r1 r2 x y : Mem K}
    (hx : sirt D g d1 n r1 = some x) (hy : sirt D g d2 n r2 = some y) :
    sirt D g (sup a b d1 d2) n (sup a b r1 r2) = some (sup a b x y) :=
  bart_sup D g d1 d2 n 1 [0] hx hy

/-! ## The gradient methods -/

theorem forPix_sup (dy ngx ngy : Nat) {f1 f2 f3 : Nat → Nat → K → K}
    (hf : ∀ s i u v, f3 s i (a * u + b * v) = a * f1 s i u + b * f2 s i v) {x y z : Mem K}
    (h : IsSup a b x y z) :
    IsSup a b (forPix dy ngx ngy f1 x) (forPix dy ngx ngy f2 y) (forPix dy ngx ngy f3 z) := by
  unfold forPix
  refine foldl3 (P := IsSup a b) (List.range dy) (fun s x y z h => ?_) h
  refine foldl3 (P := IsSup a b) (List.range ngy) (fun iy x y z h => ?_) h
  refine foldl3 (P := IsSup a b) (List.range ngx) (fun ix x y z h => ?_) h
  subst h
  funext k
  unfold sup
  by_cases hk : k = s * (ngx * ngy) + iy * ngx + ix
  · subst hk
    simp only [Function.update_self]
    exact hf _ _ _ _
  · simp only [Function.update_of_ne hk]

theorem gradient_sup (D : Dims) (g : Geom K) (d1 d2 : Mem K) (r : K) {x y z : Mem K} (h : IsSup a b x y z) :
    IsSup a b (gradient D g d1 x r) (gradient D g d2 y r) (gradient D g (sup a b d1 d2) z r) := by
  unfold gradient
  let P : Mem K × Mem K → Mem K × Mem K → Mem K × Mem K → Prop :=
    fun u v w => IsSup a b u.1 v.1 w.1 ∧ IsSup a b u.2 v.2 w.2
  refine (foldl3 (P := P) (List.range D.dy) (fun s x' y' z' h' => ?_)
    (x := (zeros, zeros)) (y := (zeros, zeros)) (z := (zeros, zeros)) ⟨zeros_sup, zeros_sup⟩).2
  refine foldl3 (P := P) (List.range D.dt) (fun p x' y' z' h' => ?_) h'
  refine foldl3 (P := P) (List.range D.dx) (fun d x' y' z' h' => ?_) h'
  have hc := calcSimdata_sup D s p d (g s p d) h h'.1
  refine ⟨hc, ?_⟩
  unfold gradRay
  dsimp only
  split
  · refine spread_sup D s _ ?_ h'.2
    rw [congrFun hc]
    unfold sup
    ring
  · exact h'.2

theorem gradRun_R3 (D : Dims) (ngx ngy : Nat) (g : Geom K) (d1 d2 : Mem K) (n : Nat) (r reg0 : K)
    (hreg : 0 ≤ reg0) (e1 e2 e3 : Mem K → Mem K → Mem K)
    (he : ∀ x y z u v w, IsSup a b x y z → IsSup a b u v w → IsSup a b (e1 x u) (e2 y v) (e3 z w))
    (r1 r2 : Mem K) :
    R3 (IsSup a b) (gradRun e1 D ngx ngy g d1 n r reg0 r1) (gradRun e2 D ngx ngy g d2 n r reg0 r2)
      (gradRun e3 D ngx ngy g (sup a b d1 d2) n r reg0 (sup a b r1 r2)) := by
  have hst : ∀ i gr gr0 rc rc0 s, gradStep ngx ngy reg0 i gr gr0 rc rc0 s = some reg0 := by
    intro i gr gr0 rc rc0 s
    unfold gradStep
    rw [if_neg (not_lt.mpr hreg)]
  have hone : ∀ data e i (st : GradSt K), gradIter e D ngx ngy g data r reg0 i st =
      some ⟨forPix D.dy ngx ngy (fun s x v => v - reg0 * (e st.recon (gradient D g data st.recon r)) x)
        st.recon, e st.recon (gradient D g data st.recon r), st.recon⟩ := by
    intro data e i st
    unfold gradIter
    simp only [hst, Option.isSome_some, implies_true, if_true, Option.getD_some]
  have hits : ∀ n i (u v w : GradSt K), IsSup a b u.recon v.recon w.recon →
      R3 (fun u v w : GradSt K => IsSup a b u.recon v.recon w.recon)
        (gradIters e1 D ngx ngy g d1 r reg0 n i u) (gradIters e2 D ngx ngy g d2 r reg0 n i v)
        (gradIters e3 D ngx ngy g (sup a b d1 d2) r reg0 n i w) := by
    intro n
    induction n with
    | zero => exact fun i u v w h => h
    | succ n ih =>
      intro i u v w h
      unfold gradIters
      rw [hone, hone, hone, Option.bind_some, Option.bind_some, Option.bind_some]
      refine ih _ _ _ _ ?_
      dsimp only
      refine forPix_sup _ _ _ (fun s x p q => ?_) h
      have := congrFun (he _ _ _ _ _ _ h (gradient_sup D g d1 d2 r h)) x
      rw [this]
      unfold sup
      ring
  unfold gradRun
  split
  · exact rfl
  · have hdiv : IsSup a b (forPix D.dy ngx ngy (fun _ _ v => v / r) r1)
        (forPix D.dy ngx ngy (fun _ _ v => v / r) r2)
        (forPix D.dy ngx ngy (fun _ _ v => v / r) (sup a b r1 r2)) := by
      refine forPix_sup _ _ _ (fun _ _ _ _ => ?_) rfl
      ring
    simp only [Option.map_eq_bind]
    refine R3.bind (hits n 0 _ _ _ hdiv) fun u v w h => ?_
    show IsSup a b _ _ _
    refine forPix_sup _ _ _ (fun _ _ _ _ => ?_) h
    ring

theorem R3.some {x y : Mem K} {z : Option (Mem K)} (h : R3 (IsSup a b) (some x) (some y) z) :
    z = some (sup a b x y) := by
  match z, h with
  | .some z, h => rw [show z = _ from h]

/-- **C161**: `grad` with a fixed step (`reg_par >= 0`) is linear. -/
theorem grad_sup (D : Dims) (ngx ngy : Nat) (g : Geom K) (d1 d2 : Mem K) (n : Nat) (r reg0 : K)
    (hreg : 0 ≤ reg0) {r1 r2 x y : Mem K} (hx : grad D ngx ngy g d1 n r reg0 r1 = some x)
    (hy : grad D ngx ngy g d2 n r reg0 r2 = some y) :
    grad D ngx ngy g (sup a b d1 d2) n r reg0 (sup a b r1 r2) = some (sup a b x y) := by
  have h := gradRun_R3 (a := a) (b := b) D ngx ngy g d1 d2 n r reg0 hreg (fun _ gr => gr) (fun _ gr => gr)
    (fun _ gr => gr) (fun _ _ _ _ _ _ _ h => h) r1 r2
  unfold grad at hx hy
  rw [hx, hy] at h
  exact h.some

/-- **C161**: `tikh` with a fixed step (`reg_par[0] >= 0`) is linear; the images it is drawn to
(`reg_data`) are superposed as well. -/
theorem tikh_sup (D : Dims) (ngx ngy : Nat) (g : Geom K) (d1 d2 : Mem K) (n : Nat) (r reg0 reg1 : K)
    (hreg : 0 ≤ reg0) (q1 q2 : Mem K) {r1 r2 x y : Mem K}
    (hx : tikh D ngx ngy g d1 n r reg0 reg1 q1 r1 = some x)
    (hy : tikh D ngx ngy g d2 n r reg0 reg1 q2 r2 = some y) :
    tikh D ngx ngy g (sup a b d1 d2) n r reg0 reg1 (sup a b q1 q2) (sup a b r1 r2) =
      some (sup a b x y) := by
  unfold tikh at hx hy
  have h := gradRun_R3 (a := a) (b := b) D ngx ngy g d1 d2 n r reg0 hreg _ _
    (fun rc gr => forPix D.dy ngx ngy (fun _ x v => v + 2 * reg1 * (rc x - (sup a b q1 q2) x)) gr)
    (fun x y z u v w h1 h2 => forPix_sup D.dy ngx ngy (f1 := fun _ i t => t + 2 * reg1 * (x i - q1 i))
      (f2 := fun _ i t => t + 2 * reg1 * (y i - q2 i)) (fun s i t t' => by
      rw [h1]; unfold sup; ring) h2) r1 r2
  rw [hx, hy] at h
  exact h.some

end

/-! ## Methods that are only homogeneous -/

/-- All values of an array multiplied by `c`. -/
def scaled (c : K) (x : Mem K) : Mem K := fun i => c * x i

theorem sup_self (c : K) (x : Mem K) : sup c 0 x x = scaled c x := by
  funext i
  unfold sup scaled
  ring

theorem osem_R3 {c : K} (hc : c ≠ 0) (D : Dims) (g : Geom K) (data : Mem K) (n nb : Nat) (ind : List Nat)
    (recon : Mem K) :
    R3 (fun x y z => x = y ∧ IsSup c 0 x y z) (osem D g data n nb ind recon) (osem D g data n nb ind recon)
      (osem D g (scaled c data) n nb ind (scaled c recon)) := by
  unfold osem osRun
  split
  · exact ⟨rfl, (sup_self c recon).symm⟩
  split
  · trivial
  refine R3.bind (P := fun x y z => x = y ∧ y = z) ?_ ?_
  · cases (subsets D.dt nb).mapM (subsetProjs nb ind)
    · trivial
    · exact ⟨rfl, rfl⟩
  rintro bl _ _ ⟨rfl, rfl⟩
  refine R3.iterM (fun x y z hxyz => ?_) n ⟨rfl, (sup_self c recon).symm⟩
  refine R3.bind (P := fun (u v w : Mem K × Mem K) => u = v ∧ IsSup c 0 u.1 v.1 w.1 ∧ IsSup c 0 u.2 v.2 w.2)
    (R3.foldlM _ (fun s x y z h => R3.foldlM _ (fun ps x y z h => ?_) h)
      ⟨by rw [hxyz.1], hxyz.2, zeros_sup⟩) fun u v w h => ⟨by rw [h.1], h.2.1⟩
  obtain ⟨rfl, h1, h2⟩ := h
  refine R3.bind (P := fun (u v w : Acc K) => u = v ∧ IsSup c 0 u.sd v.sd w.sd ∧ u.sumd = w.sumd ∧
    u.upd = w.upd) ?_ ?_
  · refine R3.foldlM _ (fun p u v w h => R3.foldlM _ (fun d u v w h => ?_) h)
      ⟨rfl, h2, rfl, rfl⟩
    obtain ⟨rfl, h3, h4, h5⟩ := h
    have hcs := calcSimdata_sup D s p d (g s p d) h1 h3
    unfold accRay
    split
    · rename_i hsd
      have e : calcSimdata D s p d (g s p d) z.1 w.sd (D.data s p d) =
          c * calcSimdata D s p d (g s p d) x.1 u.sd (D.data s p d) := by
        rw [congrFun hcs]; unfold sup; ring
      unfold osemMethod
      dsimp only
      rw [e]
      by_cases h0 : calcSimdata D s p d (g s p d) x.1 u.sd (D.data s p d) = 0
      · rw [if_pos h0, if_pos (by rw [h0, mul_zero])]
        trivial
      · rw [if_neg h0, if_neg (mul_ne_zero hc h0)]
        have e2 : scaled c data (D.data s p d) / (c * calcSimdata D s p d (g s p d) x.1 u.sd (D.data s p d)) =
            data (D.data s p d) / calcSimdata D s p d (g s p d) x.1 u.sd (D.data s p d) := by
          unfold scaled
          rw [mul_div_mul_left _ _ hc]
        rw [e2, ← h4, ← h5]
        exact ⟨rfl, hcs, rfl, rfl⟩
    · rw [← h4, ← h5]
      exact ⟨rfl, hcs, rfl, rfl⟩
  · rintro u _ w ⟨rfl, h3, h4, h5⟩
    refine R3.bind (P := fun x y z => x = y ∧ IsSup c 0 x y z) ?_ fun x' y' z' h' =>
      ⟨by rw [h'.1], h'.2, h3⟩
    unfold osemFin
    refine foldl3 (P := fun x y z => x = y ∧ IsSup c 0 x y z) (List.range D.N) (fun n x y z h => ?_) ⟨rfl, h1⟩
    obtain ⟨rfl, h⟩ := h
    rw [← h4, ← h5]
    split
    · refine ⟨rfl, ?_⟩
      subst h
      funext k
      unfold sup
      by_cases hk : k = n + s * D.N
      · subst hk
        simp only [Function.update_self]
        ring
      · simp only [Function.update_of_ne hk]
    · exact ⟨rfl, h⟩

/-- **C161**: `osem` (and `mlem`) is homogeneous. -/
theorem osem_scaled {c : K} (hc : c ≠ 0) (D : Dims) (g : Geom K) (data : Mem K) (n nb : Nat)
    (ind : List Nat) (recon : Mem K) :
    osem D g (scaled c data) n nb ind (scaled c recon) = (osem D g data n nb ind recon).map (scaled c) := by
  have h := osem_R3 hc D g data n nb ind recon
  match hx : osem D g data n nb ind recon, hz : osem D g (scaled c data) n nb ind (scaled c recon) with
  | some x, some z =>
    rw [hx, hz] at h
    rw [Option.map_some, show z = _ from h.2, sup_self]
  | none, none => rfl
  | some x, none => rw [hx, hz] at h; exact h.elim
  | none, some z => rw [hx, hz] at h; exact h.elim

/-- A case of three different runs: two pixels, one ray of lengths 1 and 2 at one angle. -/
example : (bart (K := ℚ) ⟨1, 1, 1, 2⟩ (fun _ _ _ => [(0, 1), (1, 2)]) (fun _ => 5) 1 1 [0] (fun _ => 0)).map
      (fun r => (r 0, r 1)) = some (1, 1) ∧
    (bart (K := ℚ) ⟨1, 1, 1, 2⟩ (fun _ _ _ => [(0, 1), (1, 2)]) (fun _ => 10) 1 1 [0] (fun i => i)).map
      (fun r => (r 0, r 1)) = some (8 / 5, 13 / 5) ∧
    (bart (K := ℚ) ⟨1, 1, 1, 2⟩ (fun _ _ _ => [(0, 1), (1, 2)]) (sup 2 3 (fun _ => 5) (fun _ => 10)) 1 1 [0]
      (sup 2 3 (fun _ => 0) (fun i => i))).map (fun r => (r 0, r 1)) = some (34 / 5, 49 / 5) := by
  decide +kernel

/-- Homogeneity is all that holds for `mlem`: two pixels on one ray, the initial images `(1, 1)` and
`(3, 1)`, and the value 1 in both data sets.  The first pixels of the results are `1 / 2` and `3 / 4`, that
of the sum of the data and images is `4 / 3`. -/
theorem mlem_not_sup :
    (mlem (K := ℚ) ⟨1, 1, 1, 2⟩ (fun _ _ _ => [(0, 1), (1, 1)]) (fun _ => 1) 1 (fun _ => 1)).map (· 0) =
      some (1 / 2) ∧
    (mlem (K := ℚ) ⟨1, 1, 1, 2⟩ (fun _ _ _ => [(0, 1), (1, 1)]) (fun _ => 1) 1
      (fun i => if i = 0 then 3 else 1)).map (· 0) = some (3 / 4) ∧
    (mlem (K := ℚ) ⟨1, 1, 1, 2⟩ (fun _ _ _ => [(0, 1), (1, 1)]) (sup 1 1 (fun _ => 1) (fun _ => 1)) 1
      (sup 1 1 (fun _ => 1) (fun i => if i = 0 then 3 else 1))).map (· 0) = some (4 / 3) := by
  decide +kernel

end Tomopy.Iter
