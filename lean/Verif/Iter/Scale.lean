import Verif.Iter.Linear
import Verif.Iter.Views
import Verif.Iter.Ospml
import Verif.Iter.TvModel

/-!
# The unit of the data (C167)

What a reconstruction does when all data are multiplied by a constant, e.g. because the attenuation is
given in another unit, and what the scale of the initial image means for `mlem` and `osem`.  `scaled c x`
(`Verif.Iter.Linear`) is the array with all values multiplied by `c`.
-/

set_option linter.unusedSectionVars false

namespace Tomopy.Iter

open Function (update)

/-! ## Two runs side by side -/

/-- Both results are undefined, or both are defined and related. -/
def R2 {α β : Type*} (P : α → β → Prop) : Option α → Option β → Prop
  | some x, some y => P x y
  | none, none => True
  | _, _ => False

theorem R2.bind {α β α' β' : Type*} {P : α → β → Prop} {Q : α' → β' → Prop}
    {x : Option α} {y : Option β} {f : α → Option α'} {g : β → Option β'}
    (h0 : R2 P x y) (h1 : ∀ u v, P u v → R2 Q (f u) (g v)) : R2 Q (x.bind f) (y.bind g) := by
  match x, y, h0 with
  | some x, some y, h0 => exact h1 _ _ h0
  | none, none, _ => trivial

theorem R2.foldlM {ι α β : Type*} {P : α → β → Prop} {f : α → ι → Option α} {g : β → ι → Option β}
    (l : List ι) (hs : ∀ e x y, P x y → R2 P (f x e) (g y e)) {x : α} {y : β} (h0 : P x y) :
    R2 P (l.foldlM f x) (l.foldlM g y) := by
  induction l generalizing x y with
  | nil => exact h0
  | cons e l ih => exact R2.bind (hs e _ _ h0) fun u v huv => ih huv

theorem R2.iterM {α β : Type*} {P : α → β → Prop} {f : α → Option α} {g : β → Option β}
    (hs : ∀ x y, P x y → R2 P (f x) (g y)) (n : Nat) {x : α} {y : β} (h0 : P x y) :
    R2 P (iterM f n x) (iterM g n y) := by
  induction n generalizing x y with
  | zero => exact h0
  | succ n ih => exact R2.bind (hs _ _ h0) fun u v huv => ih huv

theorem foldl2 {ι α β : Type*} {P : α → β → Prop} {f : α → ι → α} {g : β → ι → β} (l : List ι)
    (hs : ∀ e x y, P x y → P (f x e) (g y e)) {x : α} {y : β} (h0 : P x y) :
    P (l.foldl f x) (l.foldl g y) := by
  induction l generalizing x y with
  | nil => exact h0
  | cons e l ih => exact ih (hs e _ _ h0)

theorem R2.eq_map {α β : Type*} {h : α → β} {x : Option α} {y : Option β}
    (h0 : R2 (fun u v => v = h u) x y) : y = x.map h := by
  match x, y, h0 with
  | some x, some y, h0 => rw [h0]; rfl
  | none, none, _ => rfl

section

variable {K : Type*} [Field K] [LinearOrder K] [IsStrictOrderedRing K] {c : K}

/-- `y` is `c` times `x`. -/
abbrev IsScaled (c : K) (x y : Mem K) : Prop := y = scaled c x

theorem zeros_scaled : IsScaled c (zeros : Mem K) zeros := by
  funext i
  simp [scaled, zeros]

theorem update_scaled {x y : Mem K} (h : IsScaled c x y) (i : Nat) {u v : K} (hv : v = c * u) :
    IsScaled c (update x i u) (update y i v) := by
  subst h hv
  funext k
  unfold scaled
  by_cases hk : k = i
  · subst hk
    simp only [Function.update_self]
  · simp only [Function.update_of_ne hk]

theorem addAt_scaled {x y : Mem K} (h : IsScaled c x y) (i : Nat) {u v : K} (hv : v = c * u) :
    IsScaled c (addAt x i u) (addAt y i v) :=
  update_scaled h i (by rw [hv, h]; unfold scaled; ring)

theorem calcSimdata_scaled (D : Dims) (s p d : Nat) (ray : Segs K) {m1 m2 x y : Mem K}
    (hm : IsScaled c m1 m2) (h : IsScaled c x y) :
    IsScaled c (calcSimdata D s p d ray m1 x) (calcSimdata D s p d ray m2 y) := by
  subst hm
  exact foldl2 (P := IsScaled c) ray (fun e x y h => addAt_scaled h _ (by unfold scaled; ring)) h

theorem spread_scaled (D : Dims) (s : Nat) (ray : Segs K) {u v : K} (hv : v = c * u) {x y : Mem K}
    (h : IsScaled c x y) : IsScaled c (spread D s ray u x) (spread D s ray v y) := by
  subst hv
  refine foldl2 (P := IsScaled c) ray (fun e x y h => ?_) h
  exact addAt_scaled h _ (by ring)

/-! ## The gradient methods, with given and with automatic steps -/

theorem forPix_scaled (dy ngx ngy : Nat) {f1 f2 : Nat → Nat → K → K}
    (hf : ∀ s i u, s < dy → f2 s i (c * u) = c * f1 s i u) {x y : Mem K} (h : IsScaled c x y) :
    IsScaled c (forPix dy ngx ngy f1 x) (forPix dy ngx ngy f2 y) := by
  have key : ∀ l : List Nat, (∀ s ∈ l, s < dy) → ∀ {x y : Mem K}, IsScaled c x y →
      IsScaled c (l.foldl (fun m s => (List.range ngy).foldl (fun m iy =>
        (List.range ngx).foldl (fun m ix => update m (s * (ngx * ngy) + iy * ngx + ix)
          (f1 s (s * (ngx * ngy) + iy * ngx + ix) (m (s * (ngx * ngy) + iy * ngx + ix)))) m) m) x)
        (l.foldl (fun m s => (List.range ngy).foldl (fun m iy =>
        (List.range ngx).foldl (fun m ix => update m (s * (ngx * ngy) + iy * ngx + ix)
          (f2 s (s * (ngx * ngy) + iy * ngx + ix) (m (s * (ngx * ngy) + iy * ngx + ix)))) m) m) y) := by
    intro l
    induction l with
    | nil => exact fun _ _ _ h => h
    | cons s l ih =>
      intro hl x y h
      refine ih (fun t ht => hl t (List.mem_cons_of_mem _ ht)) ?_
      refine foldl2 (P := IsScaled c) (List.range ngy) (fun iy x y h => ?_) h
      refine foldl2 (P := IsScaled c) (List.range ngx) (fun ix x y h => ?_) h
      refine update_scaled h _ ?_
      subst h
      exact hf _ _ _ (hl s (List.mem_cons_self ..))
  exact key _ (fun s hs => List.mem_range.mp hs) h

theorem gradient_scaled (D : Dims) (g : Geom K) (data : Mem K) (r : K) {x y : Mem K} (h : IsScaled c x y) :
    IsScaled c (gradient D g data x r) (gradient D g (scaled c data) y r) := by
  unfold gradient
  let P : Mem K × Mem K → Mem K × Mem K → Prop := fun u v => IsScaled c u.1 v.1 ∧ IsScaled c u.2 v.2
  refine (foldl2 (P := P) (List.range D.dy) (fun s x' y' h' => ?_)
    (x := (zeros, zeros)) (y := (zeros, zeros)) ⟨zeros_scaled, zeros_scaled⟩).2
  refine foldl2 (P := P) (List.range D.dt) (fun p x' y' h' => ?_) h'
  refine foldl2 (P := P) (List.range D.dx) (fun d x' y' h' => ?_) h'
  have hc := calcSimdata_scaled D s p d (g s p d) h h'.1
  refine ⟨hc, ?_⟩
  unfold gradRay
  dsimp only
  split
  · refine spread_scaled D s _ ?_ h'.2
    rw [congrFun hc]
    unfold scaled
    ring
  · exact h'.2

theorem sumPix_mul (ngx ngy s : Nat) (a : K) {f f' : Nat → K} (hf : ∀ i, f' i = a * f i) :
    sumPix ngx ngy s f' = a * sumPix ngx ngy s f := by
  unfold sumPix
  refine foldl2 (P := fun u v : K => v = a * u) (List.range ngy) (fun iy u v h => ?_) (mul_zero a).symm
  refine foldl2 (P := fun u v : K => v = a * u) (List.range ngx) (fun ix u v h => ?_) h
  rw [h, hf]
  ring

theorem gradStep_scaled (hc : c ≠ 0) (ngx ngy : Nat) (reg0 : K) (i : Nat) {gr gr' gr0 gr0' x x' x0 x0' : Mem K}
    (h1 : IsScaled c gr gr') (h2 : IsScaled c gr0 gr0') (h3 : IsScaled c x x') (h4 : IsScaled c x0 x0')
    (s : Nat) : gradStep ngx ngy reg0 i gr' gr0' x' x0' s = gradStep ngx ngy reg0 i gr gr0 x x0 s := by
  subst h1 h2 h3 h4
  unfold gradStep
  rw [sumPix_mul ngx ngy s (c * c) (f := fun i => (gr i - gr0 i) * (gr i - gr0 i))
      (f' := fun i => (scaled c gr i - scaled c gr0 i) * (scaled c gr i - scaled c gr0 i))
      (fun i => by unfold scaled; ring),
    sumPix_mul ngx ngy s (c * c) (f := fun i => (x i - x0 i) * (gr i - gr0 i))
      (f' := fun i => (scaled c x i - scaled c x0 i) * (scaled c gr i - scaled c gr0 i))
      (fun i => by unfold scaled; ring)]
  have hcc : c * c ≠ 0 := mul_ne_zero hc hc
  simp only [mul_eq_zero, hcc, false_or, mul_div_mul_left _ _ hcc]

/-- `GradSt` of the scaled run. -/
def GradScaled (c : K) (u v : GradSt K) : Prop :=
  IsScaled c u.recon v.recon ∧ IsScaled c u.gr0 v.gr0 ∧ IsScaled c u.recon0 v.recon0

theorem gradRun_scaled (hc : c ≠ 0) (D : Dims) (ngx ngy : Nat) (g : Geom K) (data : Mem K) (n : Nat) (r reg0 : K)
    (e1 e2 : Mem K → Mem K → Mem K)
    (he : ∀ x y u v, IsScaled c x y → IsScaled c u v → IsScaled c (e1 x u) (e2 y v)) (recon : Mem K) :
    R2 (IsScaled c) (gradRun e1 D ngx ngy g data n r reg0 recon)
      (gradRun e2 D ngx ngy g (scaled c data) n r reg0 (scaled c recon)) := by
  have hone : ∀ i (u v : GradSt K), GradScaled c u v →
      R2 (GradScaled c) (gradIter e1 D ngx ngy g data r reg0 i u)
        (gradIter e2 D ngx ngy g (scaled c data) r reg0 i v) := by
    rintro i u v ⟨h1, h2, h3⟩
    have hg := he _ _ _ _ h1 (gradient_scaled D g data r h1)
    have hst := gradStep_scaled hc ngx ngy reg0 i hg h2 h1 h3
    unfold gradIter
    simp only [hst]
    split
    · refine ⟨?_, hg, h1⟩
      dsimp only
      refine forPix_scaled _ _ _ (fun s x t _ => ?_) h1
      rw [congrFun hg]
      unfold scaled
      ring
    · trivial
  have hits : ∀ n i (u v : GradSt K), GradScaled c u v →
      R2 (GradScaled c) (gradIters e1 D ngx ngy g data r reg0 n i u)
        (gradIters e2 D ngx ngy g (scaled c data) r reg0 n i v) := by
    intro n
    induction n with
    | zero => exact fun i u v h => h
    | succ n ih => exact fun i u v h => R2.bind (hone i u v h) fun u v h => ih _ u v h
  have hdiv : IsScaled c (forPix D.dy ngx ngy (fun _ _ v => v / r) recon)
      (forPix D.dy ngx ngy (fun _ _ v => v / r) (scaled c recon)) :=
    forPix_scaled _ _ _ (fun _ _ _ _ => by ring) rfl
  unfold gradRun
  split
  · exact rfl
  · simp only [Option.map_eq_bind]
    refine R2.bind (hits n 0 _ _ ⟨hdiv, zeros_scaled, hdiv⟩) fun u v h => ?_
    exact forPix_scaled _ _ _ (fun _ _ _ _ => by ring) h.1

/-- **C167**: `grad`, whether its steps are given or automatic, with all data and the initial image
multiplied by `c`. -/
theorem grad_scaled (hc : c ≠ 0) (D : Dims) (ngx ngy : Nat) (g : Geom K) (data : Mem K) (n : Nat) (r reg0 : K)
    (recon : Mem K) :
    grad D ngx ngy g (scaled c data) n r reg0 (scaled c recon) =
      (grad D ngx ngy g data n r reg0 recon).map (scaled c) :=
  R2.eq_map (gradRun_scaled hc D ngx ngy g data n r reg0 _ _ (fun _ _ _ _ _ h => h) recon)

/-- **C167**: `tikh`, whether its steps are given or automatic; the image it is drawn to is multiplied as
well, `reg_par` is not. -/
theorem tikh_scaled (hc : c ≠ 0) (D : Dims) (ngx ngy : Nat) (g : Geom K) (data : Mem K) (n : Nat)
    (r reg0 reg1 : K) (q recon : Mem K) :
    tikh D ngx ngy g (scaled c data) n r reg0 reg1 (scaled c q) (scaled c recon) =
      (tikh D ngx ngy g data n r reg0 reg1 q recon).map (scaled c) :=
  R2.eq_map (gradRun_scaled hc D ngx ngy g data n r reg0 _ _ (fun x y u v h1 h2 =>
    forPix_scaled D.dy ngx ngy (fun s i t _ => by rw [h1]; unfold scaled; ring) h2) recon)

/-! ## The linear methods -/

/-- **C167**: `art`. -/
theorem art_scaled (D : Dims) (g : Geom K) (data : Mem K) (n : Nat) (recon : Mem K) :
    art D g (scaled c data) n (scaled c recon) = scaled c (art D g data n recon) := by
  rw [← sup_self c data, ← sup_self c recon, art_sup, sup_self]

/-- **C167**: `fbp`. -/
theorem fbp_scaled (D : Dims) (g : Geom K) (data recon : Mem K) :
    fbp D g (scaled c data) (scaled c recon) = scaled c (fbp D g data recon) := by
  rw [← sup_self c data, ← sup_self c recon, fbp_sup, sup_self]

/-- **C167**: `bart` (and so `sirt`). -/
theorem bart_scaled (D : Dims) (g : Geom K) (data : Mem K) (n nb : Nat) (ind : List Nat) (recon : Mem K) :
    bart D g (scaled c data) n nb ind (scaled c recon) = (bart D g data n nb ind recon).map (scaled c) := by
  have h := bart_R3 (a := c) (b := 0) D g data data n nb ind recon recon
  rw [sup_self, sup_self] at h
  match hx : bart D g data n nb ind recon, hz : bart D g (scaled c data) n nb ind (scaled c recon) with
  | some x, some z => rw [hx, hz] at h; rw [Option.map_some, show z = _ from h, sup_self]
  | none, none => rfl
  | some x, none => rw [hx, hz] at h; exact h.elim
  | none, some z => rw [hx, hz] at h; exact h.elim

end

/-! ## Penalised likelihood -/

theorem penTask_scaled {c : ℝ} (hc : 0 < c) {gam gam' : ℝ → Option ℝ} (hgam : ∀ x, gam' (c * x) = gam x)
    (beta : ℝ) (ngy size base : Nat) {x y : Mem ℝ} (h : IsScaled c x y) (t : Nat × List Nb)
    {u v : Mem ℝ × Mem ℝ} (h1 : IsScaled c⁻¹ u.1 v.1) (h2 : u.2 = v.2) :
    R2 (fun u v : Mem ℝ × Mem ℝ => IsScaled c⁻¹ u.1 v.1 ∧ u.2 = v.2)
      (penTask gam beta ngy size base x u t) (penTask gam' (beta / c) ngy size base y v t) := by
  subst h
  refine R2.foldlM _ (fun nb u v huv => ?_) ⟨h1, h2⟩
  obtain ⟨h1, h2⟩ := huv
  unfold penStep
  split
  · have e : ∀ i j, scaled c x i - scaled c x j = c * (x i - x j) := fun i j => by unfold scaled; ring
    rw [e, hgam]
    simp only [Option.map_eq_bind]
    refine R2.bind (P := Eq) ?_ ?_
    · cases gam (x (t.1 + base) - x (((t.1 + base : Nat) : Int) + nb.1 * ngy + nb.2.1).toNat)
      · trivial
      · exact rfl
    · rintro ga _ rfl
      refine ⟨addAt_scaled h1 _ ?_, ?_⟩
      · rw [div_eq_mul_inv]; ring
      · show addAt u.2 _ _ = addAt v.2 _ _
        rw [h2]
        congr 1
        unfold scaled
        field_simp
  · trivial

theorem pmlPixel_scaled {c : ℝ} (hc : 0 < c) (s N : Nat) {E F G E' F' G' : Mem ℝ} (hE : IsScaled c E E')
    (hF : IsScaled c⁻¹ F F') (hG : G = G') (q : Nat) {x y : Mem ℝ} (h : IsScaled c x y) :
    R2 (IsScaled c) (pmlPixel s N E F G x q) (pmlPixel s N E' F' G' y q) := by
  subst hE hF hG
  have hF0 : scaled c⁻¹ F q = F q / c := by unfold scaled; rw [div_eq_mul_inv]; ring
  have hd : G q * G q - 8 * scaled c E q * (F q / c) = G q * G q - 8 * E q * F q := by
    unfold scaled
    field_simp
  unfold pmlPixel
  rw [hF0, hd]
  by_cases h0 : F q = 0
  · rw [if_neg (by simp [h0]), if_neg (by simp [h0])]
    exact h
  · rw [if_pos h0, if_pos (div_ne_zero h0 hc.ne')]
    split
    · trivial
    · refine update_scaled h _ ?_
      field_simp

/-- The factor function for data in the other unit gives the same run, scaled. -/
theorem ospml_R2 {c : ℝ} (hc : 0 < c) {gam gam' : ℝ → Option ℝ} (hgam : ∀ x, gam' (c * x) = gam x) (beta : ℝ)
    (D : Dims) (ngx ngy : Nat) (g : Geom ℝ) (data : Mem ℝ) (n nb : Nat) (ind : List Nat) (recon : Mem ℝ) :
    R2 (IsScaled c) (ospml gam beta D ngx ngy g data n nb ind recon)
      (ospml gam' (beta / c) D ngx ngy g (scaled c data) n nb ind (scaled c recon)) := by
  unfold ospml osRun
  split
  · exact rfl
  split
  · trivial
  refine R2.bind (P := Eq) ?_ ?_
  · cases (subsets D.dt nb).mapM (subsetProjs nb ind)
    · trivial
    · exact rfl
  rintro bl _ rfl
  refine R2.iterM (fun x y hxy => ?_) n rfl
  refine R2.bind (P := fun (u v : Mem ℝ × Mem ℝ) => IsScaled c u.1 v.1 ∧ IsScaled c u.2 v.2)
    (R2.foldlM _ (fun s x y h => R2.foldlM _ (fun ps x y h => ?_) h) ⟨hxy, zeros_scaled⟩)
    fun u v h => h.1
  obtain ⟨h1, h2⟩ := h
  refine R2.bind (P := fun (u v : Acc ℝ) => IsScaled c u.sd v.sd ∧ u.sumd = v.sumd ∧
    IsScaled c u.upd v.upd) ?_ ?_
  · refine R2.foldlM _ (fun p u v h => R2.foldlM _ (fun d u v h => ?_) h) ⟨h2, rfl, zeros_scaled⟩
    obtain ⟨h3, h4, h5⟩ := h
    have hcs := calcSimdata_scaled D s p d (g s p d) h1 h3
    unfold accRay
    split
    · have e : calcSimdata D s p d (g s p d) y.1 v.sd (D.data s p d) =
          c * calcSimdata D s p d (g s p d) x.1 u.sd (D.data s p d) := by rw [congrFun hcs]; rfl
      unfold pmlMethod
      dsimp only
      rw [e]
      by_cases h0 : calcSimdata D s p d (g s p d) x.1 u.sd (D.data s p d) = 0
      · rw [if_pos h0, if_pos (by rw [h0, mul_zero])]
        trivial
      · rw [if_neg h0, if_neg (mul_ne_zero hc.ne' h0)]
        have e2 : scaled c data (D.data s p d) / (c * calcSimdata D s p d (g s p d) x.1 u.sd (D.data s p d)) =
            data (D.data s p d) / calcSimdata D s p d (g s p d) x.1 u.sd (D.data s p d) := by
          unfold scaled
          rw [mul_div_mul_left _ _ hc.ne']
        rw [e2, ← h4]
        refine ⟨hcs, rfl, ?_⟩
        dsimp only
        refine foldl2 (P := IsScaled c) (g s p d) (fun e x' y' h' => ?_) h5
        refine addAt_scaled h' _ ?_
        rw [h1]
        unfold scaled
        ring
    · rw [← h4]
      exact ⟨hcs, rfl, h5⟩
  · rintro u v ⟨h3, h4, h5⟩
    refine R2.bind (P := IsScaled c) ?_ fun x' y' h' => ⟨h', h3⟩
    unfold pmlFin
    refine R2.bind (P := fun u v : Mem ℝ × Mem ℝ => IsScaled c⁻¹ u.1 v.1 ∧ u.2 = v.2) ?_ ?_
    · exact R2.foldlM _ (fun t u v h => penTask_scaled hc hgam beta ngy _ _ h1 t h.1 h.2) ⟨zeros_scaled, rfl⟩
    · rintro FG FG' ⟨h6, h7⟩
      exact R2.foldlM _ (fun q x' y' h' => pmlPixel_scaled hc s D.N h5 h6 (by rw [h7, h4]) q h') h1

/-- **C167**: `ospml_quad` (and `pml_quad`) with data and initial image multiplied by `c` and `reg_par`
divided by `c`. -/
theorem ospml_quad_scaled {c : ℝ} (hc : 0 < c) (beta : ℝ) (D : Dims) (ngx ngy : Nat) (g : Geom ℝ)
    (data : Mem ℝ) (n nb : Nat) (ind : List Nat) (recon : Mem ℝ) :
    ospml gammaQuad (beta / c) D ngx ngy g (scaled c data) n nb ind (scaled c recon) =
      (ospml gammaQuad beta D ngx ngy g data n nb ind recon).map (scaled c) :=
  R2.eq_map (h := scaled c) (ospml_R2 (gam := gammaQuad) (gam' := gammaQuad) hc (fun _ => rfl) beta D ngx ngy g data n nb ind recon)

/-- **C167**: `ospml_hybrid` (and `pml_hybrid`) with data, initial image and `reg_par[1]` multiplied by `c`
and `reg_par[0]` divided by `c`. -/
theorem ospml_hybrid_scaled {c : ℝ} (hc : 0 < c) (beta delta : ℝ) (D : Dims) (ngx ngy : Nat) (g : Geom ℝ)
    (data : Mem ℝ) (n nb : Nat) (ind : List Nat) (recon : Mem ℝ) :
    ospml (gammaHybrid (c * delta)) (beta / c) D ngx ngy g (scaled c data) n nb ind (scaled c recon) =
      (ospml (gammaHybrid delta) beta D ngx ngy g data n nb ind recon).map (scaled c) := by
  refine R2.eq_map (ospml_R2 hc (fun x => ?_) beta D ngx ngy g data n nb ind recon)
  unfold gammaHybrid
  by_cases hd : delta = 0
  · rw [if_pos hd, if_pos (by rw [hd, mul_zero])]
    by_cases hx : x = 0
    · rw [if_pos hx, if_pos (by rw [hx, mul_zero])]
    · rw [if_neg hx, if_neg (mul_ne_zero hc.ne' hx)]
  · rw [if_neg hd, if_neg (mul_ne_zero hc.ne' hd), mul_div_mul_left _ _ hc.ne']

/-! ## Total variation -/

/-- The state of the scaled run. -/
def TvScaled (c : ℝ) (u v : TvSt) : Prop :=
  IsScaled c u.recon v.recon ∧ IsScaled c u.upd v.upd ∧ IsScaled c u.px v.px ∧ IsScaled c u.py v.py ∧
    IsScaled c u.acc.sd v.acc.sd ∧ IsScaled c u.acc.p1 v.acc.p1 ∧ IsScaled c u.acc.adj v.acc.adj

theorem tvProj_scaled {c : ℝ} (hc : 0 < c) (lam : ℝ) {u v : Mem ℝ × Mem ℝ}
    (h : IsScaled c u.1 v.1 ∧ IsScaled c u.2 v.2) (i : Nat) :
    R2 (fun u v : Mem ℝ × Mem ℝ => IsScaled c u.1 v.1 ∧ IsScaled c u.2 v.2) (tvProj lam u i)
      (tvProj (c * lam) v i) := by
  obtain ⟨h1, h2⟩ := h
  have e : v.1 i * v.1 i + v.2 i * v.2 i = c * c * (u.1 i * u.1 i + u.2 i * u.2 i) := by
    rw [h1, h2]; unfold scaled; ring
  unfold tvProj
  rw [e]
  by_cases hl : lam = 0
  · rw [if_pos hl, if_pos (show c * lam = 0 by rw [hl, mul_zero])]
    have : c * c * (u.1 i * u.1 i + u.2 i * u.2 i) = 0 ↔ u.1 i * u.1 i + u.2 i * u.2 i = 0 := by
      simp [hc.ne']
    simp only [this]
    split
    · trivial
    · exact ⟨update_scaled h1 _ (mul_zero c).symm, update_scaled h2 _ (mul_zero c).symm⟩
  · rw [if_neg hl, if_neg (mul_ne_zero hc.ne' hl)]
    have hs : Real.sqrt (c * c * (u.1 i * u.1 i + u.2 i * u.2 i)) / (c * lam) =
        Real.sqrt (u.1 i * u.1 i + u.2 i * u.2 i) / lam := by
      rw [Real.sqrt_mul (mul_self_nonneg c), Real.sqrt_mul_self hc.le, mul_div_mul_left _ _ hc.ne']
    rw [hs]
    refine ⟨update_scaled h1 _ ?_, update_scaled h2 _ ?_⟩
    · rw [h1]; unfold scaled; ring
    · rw [h2]; unfold scaled; ring

theorem gridLoop_scaled {c : ℝ} (base ngx ngy : Nat) {f f' : Nat → Nat → ℝ → ℝ}
    (hf : ∀ iy ix t, f' iy ix (c * t) = c * f iy ix t) {x y : Mem ℝ} (h : IsScaled c x y) :
    IsScaled c (gridLoop base ngx ngy f x) (gridLoop base ngx ngy f' y) := by
  unfold gridLoop
  refine foldl2 (P := IsScaled c) (List.range ngy) (fun iy x y h => ?_) h
  refine foldl2 (P := IsScaled c) (List.range ngx) (fun ix x y h => ?_) h
  refine update_scaled h _ ?_
  rw [h]
  exact hf _ _ _

theorem tvSlice_scaled {c : ℝ} (hc : 0 < c) (cc r lam : ℝ) (D : Dims) (ngx ngy : Nat) (g : Geom ℝ)
    (data : Mem ℝ) {u v : TvSt} (h : TvScaled c u v) (s : Nat) :
    R2 (TvScaled c) (tvSlice cc r lam D ngx ngy g data u s)
      (tvSlice cc r (c * lam) D ngx ngy g (scaled c data) v s) := by
  obtain ⟨h1, h2, h3, h4, h5, h6, h7⟩ := h
  unfold tvSlice
  simp only [Option.map_eq_bind]
  refine R2.bind (P := fun u v : Mem ℝ × Mem ℝ => IsScaled c u.1 v.1 ∧ IsScaled c u.2 v.2) ?_ ?_
  · unfold tvProjLoop
    refine R2.foldlM _ (fun iy x y h => ?_) ?_
    · refine R2.foldlM _ (fun ix x y h => ?_) h
      exact tvProj_scaled hc lam h _
    unfold tvGrad
    refine foldl2 (P := fun u v : Mem ℝ × Mem ℝ => IsScaled c u.1 v.1 ∧ IsScaled c u.2 v.2)
      (List.range (ngy - 1)) (fun iy x y h => ?_) ⟨h3, h4⟩
    refine foldl2 (P := fun u v : Mem ℝ × Mem ℝ => IsScaled c u.1 v.1 ∧ IsScaled c u.2 v.2)
      (List.range (ngx - 1)) (fun ix x y h => ?_) h
    refine ⟨addAt_scaled h.1 _ ?_, addAt_scaled h.2 _ ?_⟩
    · rw [h1]; unfold scaled; ring
    · rw [h1]; unfold scaled; ring
  · rintro q q' ⟨hq1, hq2⟩
    have ha : (fun a b : TvAcc => IsScaled c a.sd b.sd ∧ IsScaled c a.p1 b.p1 ∧ IsScaled c a.adj b.adj)
        ((List.range D.dt).foldl (fun a p => (List.range D.dx).foldl (fun a d =>
          tvRay cc r D s p d (g s p d) data u.recon a) a) u.acc)
        ((List.range D.dt).foldl (fun a p => (List.range D.dx).foldl (fun a d =>
          tvRay cc r D s p d (g s p d) (scaled c data) v.recon a) a) v.acc) := by
      refine foldl2 (P := fun a b : TvAcc => IsScaled c a.sd b.sd ∧ IsScaled c a.p1 b.p1 ∧
        IsScaled c a.adj b.adj) (List.range D.dt) (fun p x y h => ?_) ⟨h5, h6, h7⟩
      refine foldl2 (P := fun a b : TvAcc => IsScaled c a.sd b.sd ∧ IsScaled c a.p1 b.p1 ∧
        IsScaled c a.adj b.adj) (List.range D.dx) (fun d x y h => ?_) h
      obtain ⟨k1, k2, k3⟩ := h
      have hcs := calcSimdata_scaled D s p d (g s p d) h1 k1
      have hp : IsScaled c
          (update x.p1 (D.data s p d) ((x.p1 (D.data s p d) +
            cc * calcSimdata D s p d (g s p d) u.recon x.sd (D.data s p d) * r -
            cc * data (D.data s p d)) / (1 + cc)))
          (update y.p1 (D.data s p d) ((y.p1 (D.data s p d) +
            cc * calcSimdata D s p d (g s p d) v.recon y.sd (D.data s p d) * r -
            cc * scaled c data (D.data s p d)) / (1 + cc))) := by
        refine update_scaled k2 _ ?_
        rw [congrFun hcs, k2]
        unfold scaled
        ring
      unfold tvRay
      dsimp only
      refine ⟨hcs, hp, ?_⟩
      split
      · refine spread_scaled D s _ ?_ k3
        rw [congrFun hp]
        unfold scaled
        ring
      · exact k3
    obtain ⟨ha1, ha2, ha3⟩ := ha
    have hdiv : ∀ iy ix, tvDiv (s * (ngx * ngy)) ngx q'.1 q'.2 iy ix =
        c * tvDiv (s * (ngx * ngy)) ngx q.1 q.2 iy ix := by
      intro iy ix
      unfold tvDiv
      rw [hq1, hq2]
      unfold scaled
      split <;> split <;> ring
    have hcopy : IsScaled c
        ((List.range (ngx * ngy)).foldl (fun m n =>
          update m (n + s * (ngx * ngy)) (u.upd (n + s * (ngx * ngy)))) u.recon)
        ((List.range (ngx * ngy)).foldl (fun m n =>
          update m (n + s * (ngx * ngy)) (v.upd (n + s * (ngx * ngy)))) v.recon) := by
      refine foldl2 (P := IsScaled c) (List.range (ngx * ngy)) (fun n x y h => ?_) h1
      exact update_scaled h _ (by rw [h2]; rfl)
    have hupd : IsScaled c
        (gridLoop (s * (ngx * ngy)) ngx ngy (fun iy ix t => t - cc * ((List.range D.dt).foldl (fun a p =>
          (List.range D.dx).foldl (fun a d => tvRay cc r D s p d (g s p d) data u.recon a) a)
            u.acc).adj (s * (ngx * ngy) + iy * ngx + ix) +
          cc * tvDiv (s * (ngx * ngy)) ngx q.1 q.2 iy ix) u.upd)
        (gridLoop (s * (ngx * ngy)) ngx ngy (fun iy ix t => t - cc * ((List.range D.dt).foldl (fun a p =>
          (List.range D.dx).foldl (fun a d => tvRay cc r D s p d (g s p d) (scaled c data) v.recon a) a)
            v.acc).adj (s * (ngx * ngy) + iy * ngx + ix) +
          cc * tvDiv (s * (ngx * ngy)) ngx q'.1 q'.2 iy ix) v.upd) := by
      refine gridLoop_scaled _ _ _ (fun iy ix t => ?_) h2
      rw [hdiv, congrFun ha3]
      unfold scaled
      ring
    refine ⟨?_, hupd, hq1, hq2, ha1, ha2, ha3⟩
    refine gridLoop_scaled _ _ _ (fun iy ix t => ?_) hcopy
    rw [congrFun hupd]
    unfold scaled
    ring

/-- **C167**: `tv` with data, initial image and `reg_par` multiplied by `c`. -/
theorem tv_scaled {c : ℝ} (hc : 0 < c) (lam : ℝ) (D : Dims) (ngx ngy : Nat) (g : Geom ℝ) (data : Mem ℝ)
    (n : Nat) (recon : Mem ℝ) :
    tv (c * lam) D ngx ngy g (scaled c data) n (scaled c recon) =
      (tv lam D ngx ngy g data n recon).map (scaled c) := by
  refine R2.eq_map ?_
  unfold tv tvRun
  split
  · exact rfl
  · have hdiv : IsScaled c (forPix D.dy ngx ngy (fun _ _ v => v / gradScale D) recon)
        (forPix D.dy ngx ngy (fun _ _ v => v / gradScale D) (scaled c recon)) :=
      forPix_scaled _ _ _ (fun _ _ _ _ => by ring) rfl
    simp only [Option.map_eq_bind]
    refine R2.bind (P := TvScaled c) (R2.iterM (fun u v h => ?_) n ?_) fun u v h => ?_
    · exact R2.foldlM _ (fun s u v h => tvSlice_scaled hc _ _ lam D ngx ngy g data h s)
        ⟨h.1, h.2.1, h.2.2.1, h.2.2.2.1, zeros_scaled, h.2.2.2.2.2.1, zeros_scaled⟩
    · exact ⟨hdiv, hdiv, zeros_scaled, zeros_scaled, zeros_scaled, zeros_scaled, zeros_scaled⟩
    · exact forPix_scaled _ _ _ (fun _ _ _ _ => by ring) h.1

/-! ## The scale of the initial image of `mlem` and `osem` -/

section

variable {K : Type*} [Field K] [LinearOrder K] [IsStrictOrderedRing K]

/-- The views of the first subset: all of them if there is one subset, otherwise the first entries of
`ind_block`. -/
def firstViews (dt nb : Nat) (ind : List Nat) : List Nat :=
  if nb = 1 then List.range dt else ind.take (dt / nb + if 0 < dt % nb then 1 else 0)

/-- Every pixel that is crossed by a ray is crossed by a ray of these views. -/
def CoveredBy (D : Dims) (g : Geom K) (ps : List Nat) : Prop :=
  ∀ s < D.dy, ∀ n < D.N, ¬ Unseen D g s n → ∃ p ∈ ps, ∃ d < D.dx, ∃ e ∈ g s p d, e.1 = n ∧ e.2 ≠ 0

/-- The second image is `k` times the first one; in the slices `< t` only in the pixels that no ray
crosses, while the others are equal. -/
def Forgets (D : Dims) (g : Geom K) (k : K) (t : Nat) (x y : Mem K) : Prop :=
  ∀ s < D.dy, ∀ n < D.N,
    (s < t → ¬ Unseen D g s n → y (n + s * D.N) = x (n + s * D.N)) ∧
    (t ≤ s ∨ Unseen D g s n → y (n + s * D.N) = k * x (n + s * D.N))

theorem lenIn_uncrossed {D : Dims} {g : Geom K} {s n p d : Nat} (h : Unseen D g s n) (hp : p < D.dt)
    (hd : d < D.dx) : lenIn (g s p d) n = 0 := by
  refine List.sum_eq_zero fun y hy => ?_
  obtain ⟨e, he, rfl⟩ := List.mem_map.mp hy
  split
  · exact h p hp d hd e he ‹_›
  · rfl

theorem lenIn_pos {N : Nat} {ray : Segs K} (hr : SegsOk N ray) {n : Nat} {e : Nat × K} (he : e ∈ ray)
    (h1 : e.1 = n) (h2 : e.2 ≠ 0) : 0 < lenIn ray n := by
  refine lt_of_lt_of_le (lt_of_le_of_ne (hr e he).2 h2.symm) ?_
  refine List.single_le_sum (l := ray.map fun e => if e.1 = n then e.2 else 0) ?_ _
    (List.mem_map.mpr ⟨e, he, if_pos h1⟩)
  intro y hy
  obtain ⟨f, hf, rfl⟩ := List.mem_map.mp hy
  split
  · exact (hr f hf).2
  · exact le_refl _

/-- The total length of the rays of the views `ps` in a pixel they cross. -/
theorem cover_pos {D : Dims} {g : Geom K} (hg : GeomOk D g) {s n : Nat} (hs : s < D.dy) {ps : List Nat}
    (hps : ∀ p ∈ ps, p < D.dt) (h : ∃ p ∈ ps, ∃ d < D.dx, ∃ e ∈ g s p d, e.1 = n ∧ e.2 ≠ 0) :
    0 < ((raysOf D.dx ps).map fun q => lenIn (g s q.1 q.2) n).sum := by
  obtain ⟨p, hp, d, hd, e, he, h1, h2⟩ := h
  refine lt_of_lt_of_le (lenIn_pos (hg s hs p (hps p hp) d hd) he h1 h2) ?_
  refine List.single_le_sum (l := (raysOf D.dx ps).map fun q => lenIn (g s q.1 q.2) n) ?_ _
    (List.mem_map.mpr ⟨(p, d), mem_raysOf.mpr ⟨hp, hd⟩, rfl⟩)
  intro y hy
  obtain ⟨q, hq, rfl⟩ := List.mem_map.mp hy
  have hm := mem_raysOf.mp hq
  exact lenIn_nonneg (hg s hs _ (hps _ hm.1) _ hm.2) n

/-- The line integrals in a slice whose scale has been forgotten. -/
theorem lineSum_forgets {D : Dims} {g : Geom K} (hg : GeomOk D g) {k : K} {t : Nat} {x y : Mem K}
    (h : Forgets D g k t x y) {s p d : Nat} (hs : s < D.dy) (hp : p < D.dt) (hd : d < D.dx) :
    lineSum D.N s (g s p d) y = (if s < t then 1 else k) * lineSum D.N s (g s p d) x := by
  unfold lineSum
  rw [← List.sum_map_mul_left]
  congr 1
  refine List.map_congr_left fun e he => ?_
  have hn := (hg s hs p hp d hd e he).1
  by_cases h0 : e.2 = 0
  · rw [h0]; ring
  have hseen : ¬ Unseen D g s e.1 := fun hu => h0 (hu p hp d hd e he rfl)
  split
  · rename_i hst
    rw [(h s hs e.1 hn).1 hst hseen, one_mul]
  · rename_i hst
    rw [(h s hs e.1 hn).2 (Or.inl (by omega)), mul_assoc]

/-- A subset update of slice `s`: afterwards the scale of this slice has been forgotten, provided that it
already was or that the views of the subset cross all pixels that are crossed at all. -/
theorem osem_block_forgets {D : Dims} {g : Geom K} {data : Mem K} (hg : GeomOk D g) (hd : PosData D data)
    {k : K} (hk : 0 < k) {s t : Nat} (hs : s < D.dy) {ps : List Nat} (hnd : ps.Nodup)
    (hps : ∀ p ∈ ps, p < D.dt) (ht : s < t ∨ s = t ∧ CoveredBy D g ps) {x y : Mem K} (hx : PosImage D x)
    (hy : PosImage D y) (h : Forgets D g k t x y) :
    ∃ x' y', pureBlock osemMethod (osemFin D) D g data s ps x = some x' ∧
      pureBlock osemMethod (osemFin D) D g data s ps y = some y' ∧ PosImage D x' ∧ PosImage D y' ∧
      Forgets D g k (max t (s + 1)) x' y' := by
  obtain ⟨x', e1, p1, v1, u1, f1⟩ := osem_block hg hd hs hnd hps hx
  obtain ⟨y', e2, p2, v2, u2, f2⟩ := osem_block hg hd hs hnd hps hy
  refine ⟨x', y', e1, e2, p1, p2, fun s' hs' n hn => ?_⟩
  by_cases hss : s' = s
  · subst hss
    by_cases hun : Unseen D g s' n
    · have hz : ∀ q ∈ raysOf D.dx ps, lenIn (g s' q.1 q.2) n = 0 := fun q hq =>
        lenIn_uncrossed hun (hps _ (mem_raysOf.mp hq).1) (mem_raysOf.mp hq).2
      refine ⟨fun _ h => absurd hun h, fun _ => ?_⟩
      rw [u1 n hn hz, u2 n hn hz]
      exact (h s' hs' n hn).2 (Or.inr hun)
    · refine ⟨fun _ _ => ?_, fun hh => absurd hh (by
        rintro (hh | hh)
        · omega
        · exact hun hh)⟩
      have w1 := v1 n hn
      have w2 := v2 n hn
      have hU : ((raysOf D.dx ps).map fun q => if sumDist2 (g s' q.1 q.2) ≠ 0 then
          data (D.data s' q.1 q.2) / lineSum D.N s' (g s' q.1 q.2) y * lenIn (g s' q.1 q.2) n else 0).sum *
            (if s' < t then 1 else k) =
          ((raysOf D.dx ps).map fun q => if sumDist2 (g s' q.1 q.2) ≠ 0 then
          data (D.data s' q.1 q.2) / lineSum D.N s' (g s' q.1 q.2) x * lenIn (g s' q.1 q.2) n else 0).sum := by
        rw [← List.sum_map_mul_right]
        congr 1
        refine List.map_congr_left fun q hq => ?_
        rw [lineSum_forgets hg h hs' (hps _ (mem_raysOf.mp hq).1) (mem_raysOf.mp hq).2]
        split
        · split
          · rw [one_mul, mul_one]
          · by_cases h0 : lineSum D.N s' (g s' q.1 q.2) x = 0
            · rw [h0]; simp
            · field_simp
        · rw [zero_mul]
      by_cases hst : s' < t
      · rw [if_pos hst, mul_one] at hU
        by_cases hS : ((raysOf D.dx ps).map fun q => lenIn (g s' q.1 q.2) n).sum = 0
        · have hz : ∀ q ∈ raysOf D.dx ps, lenIn (g s' q.1 q.2) n = 0 := by
            intro q hq
            refine List.all_zero_of_le_zero_le_of_sum_eq_zero ?_ hS (List.mem_map.mpr ⟨q, hq, rfl⟩)
            rintro z hz
            obtain ⟨q, hq, rfl⟩ := List.mem_map.mp hz
            have hm := mem_raysOf.mp hq
            exact lenIn_nonneg (hg s' hs _ (hps _ hm.1) _ hm.2) n
          rw [u1 n hn hz, u2 n hn hz]
          exact (h s' hs' n hn).1 hst hun
        · refine mul_right_cancel₀ hS ?_
          rw [w1, w2, hU, (h s' hs' n hn).1 hst hun]
      · obtain ⟨h3, hcov⟩ := ht.resolve_left hst
        rw [if_neg hst] at hU
        refine mul_right_cancel₀ (cover_pos hg hs hps (hcov s' hs n hn hun)).ne' ?_
        rw [w1, w2, ← hU, (h s' hs' n hn).2 (Or.inl (by omega))]
        ring
  · rw [f1 _ (other_slice hn hss), f2 _ (other_slice hn hss)]
    refine ⟨fun hlt => (h s' hs' n hn).1 (by omega), fun hle => (h s' hs' n hn).2 ?_⟩
    rcases hle with hle | hle
    · exact Or.inl (by omega)
    · exact Or.inr hle

theorem foldlM_forgets {D : Dims} {g : Geom K} {data : Mem K} (hg : GeomOk D g) (hd : PosData D data)
    {k : K} (hk : 0 < k) {s t : Nat} (hs : s < D.dy) (hst : s < t) (l : List (List Nat))
    (hl : ∀ ps ∈ l, ps.Nodup ∧ ∀ p ∈ ps, p < D.dt) {x y : Mem K} (hx : PosImage D x)
    (hy : PosImage D y) (h : Forgets D g k t x y) :
    ∃ x' y', l.foldlM (fun r ps => pureBlock osemMethod (osemFin D) D g data s ps r) x = some x' ∧
      l.foldlM (fun r ps => pureBlock osemMethod (osemFin D) D g data s ps r) y = some y' ∧
      PosImage D x' ∧ PosImage D y' ∧ Forgets D g k t x' y' := by
  induction l generalizing x y with
  | nil => exact ⟨x, y, rfl, rfl, hx, hy, h⟩
  | cons ps l ih =>
    obtain ⟨x1, y1, e1, e2, p1, p2, h1⟩ := osem_block_forgets hg hd hk hs (hl ps (List.mem_cons_self ..)).1
      (hl ps (List.mem_cons_self ..)).2 (Or.inl hst) hx hy h
    rw [max_eq_left (by omega)] at h1
    obtain ⟨x2, y2, e3, e4, p3, p4, h2⟩ := ih (fun q hq => hl q (List.mem_cons_of_mem _ hq)) p1 p2 h1
    refine ⟨x2, y2, ?_, ?_, p3, p4, h2⟩
    · rw [List.foldlM_cons, e1]; exact e3
    · rw [List.foldlM_cons, e2]; exact e4

/-- The first iteration. -/
theorem first_forgets {D : Dims} {g : Geom K} {data : Mem K} (hg : GeomOk D g) (hd : PosData D data)
    {k : K} (hk : 0 < k) {ps : List Nat} {l : List (List Nat)} (hb : BlocksOk D (ps :: l))
    (hcov : CoveredBy D g ps) {x y : Mem K} (hx : PosImage D x)
    (hy : PosImage D y) (h : Forgets D g k 0 x y) :
    ∃ x' y', osIter osemMethod (osemFin D) D g data (ps :: l) x = some x' ∧
      osIter osemMethod (osemFin D) D g data (ps :: l) y = some y' ∧
      PosImage D x' ∧ PosImage D y' ∧ Forgets D g k D.dy x' y' := by
  have hl : ∀ qs ∈ ps :: l, qs.Nodup ∧ ∀ p ∈ qs, p < D.dt :=
    fun qs hqs => ⟨(List.nodup_flatten.mp hb.nodup).1 qs hqs, hb.lt qs hqs⟩
  rw [osIter_pure (osemFin_ok D) hb, osIter_pure (osemFin_ok D) hb]
  have key : ∀ t ≤ D.dy, ∃ x' y',
      (List.range t).foldlM (fun r s => (ps :: l).foldlM (fun r ps =>
        pureBlock osemMethod (osemFin D) D g data s ps r) r) x = some x' ∧
      (List.range t).foldlM (fun r s => (ps :: l).foldlM (fun r ps =>
        pureBlock osemMethod (osemFin D) D g data s ps r) r) y = some y' ∧
      PosImage D x' ∧ PosImage D y' ∧ Forgets D g k t x' y' := by
    intro t ht
    induction t with
    | zero => exact ⟨x, y, rfl, rfl, hx, hy, h⟩
    | succ t ih =>
      obtain ⟨x1, y1, e1, e2, p1, p2, h1⟩ := ih (by omega)
      obtain ⟨x2, y2, e3, e4, p3, p4, h2⟩ := osem_block_forgets hg hd hk (show t < D.dy by omega)
        (hl ps (List.mem_cons_self ..)).1 (hl ps (List.mem_cons_self ..)).2 (Or.inr ⟨rfl, hcov⟩) p1 p2 h1
      rw [max_eq_right (by omega)] at h2
      obtain ⟨x3, y3, e5, e6, p5, p6, h3⟩ := foldlM_forgets hg hd hk (show t < D.dy by omega) (Nat.lt_succ_self t)
        l (fun q hq => hl q (List.mem_cons_of_mem _ hq)) p3 p4 h2
      refine ⟨x3, y3, ?_, ?_, p5, p6, h3⟩
      · rw [List.range_succ, List.foldlM_append, e1]
        simp only [List.foldlM_cons, List.foldlM_nil, e3, Option.bind_eq_bind, Option.bind_some, e5, bind_pure]
      · rw [List.range_succ, List.foldlM_append, e2]
        simp only [List.foldlM_cons, List.foldlM_nil, e4, Option.bind_eq_bind, Option.bind_some, e6, bind_pure]
  exact key D.dy (le_refl _)

theorem later_forgets {D : Dims} {g : Geom K} {data : Mem K} (hg : GeomOk D g) (hd : PosData D data)
    {k : K} (hk : 0 < k) {bl : List (List Nat)} (hb : BlocksOk D bl) (n : Nat) {x y : Mem K}
    (hx : PosImage D x) (hy : PosImage D y) (h : Forgets D g k D.dy x y) :
    ∃ x' y', iterM (osIter osemMethod (osemFin D) D g data bl) n x = some x' ∧
      iterM (osIter osemMethod (osemFin D) D g data bl) n y = some y' ∧
      PosImage D x' ∧ PosImage D y' ∧ Forgets D g k D.dy x' y' := by
  have hl : ∀ qs ∈ bl, qs.Nodup ∧ ∀ p ∈ qs, p < D.dt :=
    fun qs hqs => ⟨(List.nodup_flatten.mp hb.nodup).1 qs hqs, hb.lt qs hqs⟩
  have key : ∀ l : List Nat, (∀ s ∈ l, s < D.dy) → ∀ {x y : Mem K}, PosImage D x → PosImage D y →
      Forgets D g k D.dy x y → ∃ x' y',
      l.foldlM (fun r s => bl.foldlM (fun r ps =>
        pureBlock osemMethod (osemFin D) D g data s ps r) r) x = some x' ∧
      l.foldlM (fun r s => bl.foldlM (fun r ps =>
        pureBlock osemMethod (osemFin D) D g data s ps r) r) y = some y' ∧
      PosImage D x' ∧ PosImage D y' ∧ Forgets D g k D.dy x' y' := by
    intro l
    induction l with
    | nil => exact fun _ x y hx hy h => ⟨x, y, rfl, rfl, hx, hy, h⟩
    | cons s l ih =>
      intro hls x y hx hy h
      have hs := hls s (List.mem_cons_self ..)
      obtain ⟨x1, y1, e1, e2, p1, p2, h1⟩ := foldlM_forgets hg hd hk hs hs bl hl hx hy h
      obtain ⟨x2, y2, e3, e4, p3, p4, h2⟩ := ih (fun t ht => hls t (List.mem_cons_of_mem _ ht)) p1 p2 h1
      refine ⟨x2, y2, ?_, ?_, p3, p4, h2⟩
      · rw [List.foldlM_cons, e1]; exact e3
      · rw [List.foldlM_cons, e2]; exact e4
  induction n generalizing x y with
  | zero => exact ⟨x, y, rfl, rfl, hx, hy, h⟩
  | succ n ih =>
    obtain ⟨x1, y1, e1, e2, p1, p2, h1⟩ := key (List.range D.dy) (fun s hs => List.mem_range.mp hs) hx hy h
    rw [← osIter_pure (osemFin_ok D) hb] at e1 e2
    obtain ⟨x2, y2, e3, e4, p3, p4, h2⟩ := ih p1 p2 h1
    exact ⟨x2, y2, by rw [iterM, e1]; exact e3, by rw [iterM, e2]; exact e4, p3, p4, h2⟩

theorem usedBlocks_head {dt nb : Nat} {ind : List Nat} (hnb : 1 ≤ nb) (h1 : nb ≠ 1) (hl : ind.length = dt) :
    ∃ l, usedBlocks dt nb ind = firstViews dt nb ind :: l := by
  unfold usedBlocks firstViews subsets
  rw [if_neg h1]
  obtain ⟨m, rfl⟩ : ∃ m, nb = m + 1 := ⟨nb - 1, by omega⟩
  rw [subsetsFrom, List.map_cons]
  refine ⟨_, congrArg (· :: _) ?_⟩
  have hle : dt / (m + 1) + (if 0 < dt % (m + 1) then 1 else 0) ≤ dt := by
    by_cases h0 : dt = 0
    · subst h0; simp
    · have : dt / (m + 1) ≤ dt / 2 := Nat.div_le_div_left (by omega) (by omega)
      split <;> omega
  refine List.ext_getElem ?_ fun i h2 h3 => ?_
  · simp [hl, hle, blockRange]
  · have : i < ind.length := by rw [List.length_take] at h3; omega
    simp [show m ≠ 0 by omega, List.getElem?_eq_getElem this, blockRange]

/-- **C167**: after at least one iteration, the scale of the initial image of `osem` matters only in pixels
that no ray crosses — if the first subset crosses every other pixel. -/
theorem osem_init_scale_partial {D : Dims} {g : Geom K} {data : Mem K} (hg : GeomOk D g) (hd : PosData D data)
    {nb : Nat} {ind : List Nat} (hb : BlockArgs D.dt nb ind) (hcov : CoveredBy D g (firstViews D.dt nb ind))
    (hdx : 0 < D.dx) (hdt : 0 < D.dt)
    {k : K} (hk : 0 < k) (n : Nat) {r : Mem K} (hr : PosImage D r) :
    ∃ x y, osem D g data (n + 1) nb ind r = some x ∧ osem D g data (n + 1) nb ind (scaled k r) = some y ∧
      ∀ s < D.dy, ∀ i < D.N, (¬ Unseen D g s i → y (i + s * D.N) = x (i + s * D.N)) ∧
        (Unseen D g s i → y (i + s * D.N) = k * x (i + s * D.N)) := by
  by_cases hdy : D.dy = 0
  · refine ⟨r, scaled k r, ?_, ?_, fun s hs => absurd hs (by omega)⟩
    · unfold osem osRun; rw [if_pos (Or.inl hdy)]
    · unfold osem osRun; rw [if_pos (Or.inl hdy)]
  have h0 : ¬ (D.dy = 0 ∨ D.dt = 0 ∨ D.dx = 0) := by omega
  have hrk : PosImage D (scaled k r) := fun s hs i hi => mul_pos hk (hr s hs i hi)
  have hf0 : Forgets D g k 0 r (scaled k r) := fun s hs i hi => ⟨fun h => absurd h (Nat.not_lt_zero _), fun _ => rfl⟩
  have main : ∀ l, BlocksOk D (firstViews D.dt nb ind :: l) → ∃ x y,
      iterM (osIter osemMethod (osemFin D) D g data (firstViews D.dt nb ind :: l)) (n + 1) r = some x ∧
      iterM (osIter osemMethod (osemFin D) D g data (firstViews D.dt nb ind :: l)) (n + 1) (scaled k r) = some y ∧
      ∀ s < D.dy, ∀ i < D.N, (¬ Unseen D g s i → y (i + s * D.N) = x (i + s * D.N)) ∧
        (Unseen D g s i → y (i + s * D.N) = k * x (i + s * D.N)) := by
    intro l hbl
    obtain ⟨x1, y1, e1, e2, p1, p2, h1⟩ := first_forgets hg hd hk hbl hcov hr hrk hf0
    obtain ⟨x2, y2, e3, e4, p3, p4, h2⟩ := later_forgets hg hd hk hbl n p1 p2 h1
    refine ⟨x2, y2, by rw [iterM, e1]; exact e3, by rw [iterM, e2]; exact e4, fun s hs i hi => ?_⟩
    exact ⟨(h2 s hs i hi).1 hs, fun hu => (h2 s hs i hi).2 (Or.inr hu)⟩
  unfold osem osRun
  rw [if_neg h0, if_neg h0]
  by_cases h1 : nb = 1
  · subst h1
    rw [if_neg one_ne_zero, if_neg one_ne_zero, blocks_single, Option.bind_some, Option.bind_some]
    have e : firstViews D.dt 1 ind = List.range D.dt := if_pos rfl
    have := main [] (by rw [e]; exact blocksOk_single D)
    rw [e] at this
    exact this
  · obtain ⟨hnb, hperm⟩ := hb.resolve_left h1
    rw [if_neg (by omega), if_neg (by omega), (blocks_perm hnb hperm).1, Option.bind_some, Option.bind_some]
    obtain ⟨l, hl⟩ := usedBlocks_head hnb h1 (by rw [hperm.length_eq, List.length_range])
    have hok := blocksOk_perm (D := D) hnb hperm
    rw [hl] at hok ⊢
    exact main l hok

/-- **C167**: after at least one iteration of `mlem`, the scale of the initial image matters only in pixels
that no ray crosses. -/
theorem mlem_init_scale {D : Dims} {g : Geom K} {data : Mem K} (hg : GeomOk D g) (hd : PosData D data)
    (hdx : 0 < D.dx) (hdt : 0 < D.dt) {k : K} (hk : 0 < k) (n : Nat) {r : Mem K} (hr : PosImage D r) :
    ∃ x y, mlem D g data (n + 1) r = some x ∧ mlem D g data (n + 1) (scaled k r) = some y ∧
      ∀ s < D.dy, ∀ i < D.N, (¬ Unseen D g s i → y (i + s * D.N) = x (i + s * D.N)) ∧
        (Unseen D g s i → y (i + s * D.N) = k * x (i + s * D.N)) := by
  refine osem_init_scale_partial hg hd (Or.inl rfl) ?_ hdx hdt hk n hr
  intro s hs i hi hun
  unfold Unseen at hun
  push Not at hun
  obtain ⟨p, hp, d, hd, e, he, h1, h2⟩ := hun
  exact ⟨p, by rw [firstViews, if_pos rfl]; exact List.mem_range.mpr hp, d, hd, e, he, h1, h2⟩

/-- **C167**: so `mlem` started from the same image scales with the data, in all pixels that a ray
crosses. -/
theorem mlem_units {D : Dims} {g : Geom K} {data : Mem K} (hg : GeomOk D g) (hd : PosData D data)
    (hdx : 0 < D.dx) (hdt : 0 < D.dt) {c : K} (hc : 0 < c) (n : Nat) {r : Mem K} (hr : PosImage D r) :
    ∃ x y, mlem D g data (n + 1) r = some x ∧ mlem D g (scaled c data) (n + 1) r = some y ∧
      ∀ s < D.dy, ∀ i < D.N, ¬ Unseen D g s i → y (i + s * D.N) = c * x (i + s * D.N) := by
  obtain ⟨x, z, h1, h2, h3⟩ := mlem_init_scale hg hd hdx hdt (inv_pos.mpr hc) n hr
  have hr' : scaled c (scaled c⁻¹ r) = r := by
    funext i
    unfold scaled
    rw [mul_inv_cancel_left₀ hc.ne']
  have h4 : mlem D g (scaled c data) (n + 1) (scaled c (scaled c⁻¹ r)) = some (scaled c z) := by
    unfold mlem at h2 ⊢
    rw [osem_scaled hc.ne', h2, Option.map_some]
  rw [hr'] at h4
  refine ⟨x, scaled c z, h1, h4, fun s hs i hi hu => ?_⟩
  rw [scaled, (h3 s hs i hi).1 hu]

/-- **C167** (refutation): with a first subset that misses a pixel, the scale of the initial image matters.
Two pixels, the first view crosses one of them and the second view both. -/
theorem osem_init_scale_wrong :
    (osem (K := ℚ) ⟨1, 2, 1, 2⟩ (fun _ p _ => if p = 0 then [(0, 1)] else [(0, 1), (1, 1)]) (fun _ => 1) 1 2
      [0, 1] (fun _ => 1)).map (· 1) = some (1 / 2) ∧
    (osem (K := ℚ) ⟨1, 2, 1, 2⟩ (fun _ p _ => if p = 0 then [(0, 1)] else [(0, 1), (1, 1)]) (fun _ => 1) 1 2
      [0, 1] (scaled 3 (fun _ => 1))).map (· 1) = some (3 / 4) := by
  decide +kernel

/-- The case shows what the theorem about `mlem` says: the same data in one subset, and a third pixel that
no ray crosses. -/
example : (mlem (K := ℚ) ⟨1, 2, 1, 3⟩ (fun _ p _ => if p = 0 then [(0, 1)] else [(0, 1), (1, 1)])
      (fun _ => 1) 1 (fun _ => 1)).map (fun r => (r 0, r 1, r 2)) = some (3 / 4, 1 / 2, 1) ∧
    (mlem (K := ℚ) ⟨1, 2, 1, 3⟩ (fun _ p _ => if p = 0 then [(0, 1)] else [(0, 1), (1, 1)])
      (fun _ => 1) 1 (scaled 3 (fun _ => 1))).map (fun r => (r 0, r 1, r 2)) = some (3 / 4, 1 / 2, 3) := by
  decide +kernel

/-- The hypotheses can be met: a scan of two views with two subsets, the first of which crosses both
pixels. -/
example : ∃ x y, osem (K := ℚ) ⟨1, 2, 1, 2⟩ (fun _ p _ => if p = 0 then [(0, 1)] else [(0, 1), (1, 1)])
      (fun _ => 1) 3 2 [1, 0] (fun _ => 1) = some x ∧
    osem (K := ℚ) ⟨1, 2, 1, 2⟩ (fun _ p _ => if p = 0 then [(0, 1)] else [(0, 1), (1, 1)])
      (fun _ => 1) 3 2 [1, 0] (scaled 5 (fun _ => 1)) = some y ∧ y 0 = x 0 ∧ y 1 = x 1 := by
  obtain ⟨x, y, h1, h2, h3⟩ := osem_init_scale_partial (K := ℚ) (D := ⟨1, 2, 1, 2⟩)
    (g := fun _ p _ => if p = 0 then [(0, 1)] else [(0, 1), (1, 1)]) (data := fun _ => 1) (nb := 2)
    (ind := [1, 0]) (k := 5) (r := fun _ => 1)
    (by
      intro s _ p _ d _ e he
      dsimp only at he ⊢
      split at he
      · simp only [List.mem_singleton] at he
        subst he
        norm_num
      · simp only [List.mem_cons, List.not_mem_nil, or_false] at he
        rcases he with rfl | rfl <;> norm_num)
    (fun _ _ _ _ _ _ => one_pos) (Or.inr ⟨by norm_num, by decide⟩)
    (by
      intro s _ i hi _
      refine ⟨1, by decide, 0, by norm_num, (i, 1), ?_, rfl, one_ne_zero⟩
      have : i < 2 := hi
      interval_cases i <;> simp)
    (by norm_num) (by norm_num) (by norm_num) 2 (fun _ _ _ _ => one_pos)
  have hseen : ∀ i < 2, ¬ Unseen (K := ℚ) ⟨1, 2, 1, 2⟩
      (fun _ p _ => if p = 0 then [(0, 1)] else [(0, 1), (1, 1)]) 0 i := by
    intro i hi hu
    have := hu 1 (by norm_num) 0 (by norm_num) (i, 1) (by interval_cases i <;> simp) rfl
    exact one_ne_zero this
  exact ⟨x, y, h1, h2, (h3 0 (by norm_num) 0 (by norm_num)).1 (hseen 0 (by norm_num)),
    (h3 0 (by norm_num) 1 (by norm_num)).1 (hseen 1 (by norm_num))⟩

end

/-! ## What happens if `reg_par` is left alone -/

/-- **C167** (refutation): with the same `reg_par`, `ospml_quad` and `pml_quad` do not scale with the data.
One ray of lengths 1 and 2 through an image of 2 x 2 pixels, data 12, initial image 1; everything is then
multiplied by 2. -/
theorem ospml_quad_units_wrong :
    ∃ x y, ospml gammaQuad (1 / 4) ⟨1, 1, 1, 4⟩ 2 2 pmlG (fun _ => 12) 1 1 [0] (fun _ => 1) = some x ∧
      ospml gammaQuad (1 / 4) ⟨1, 1, 1, 4⟩ 2 2 pmlG (scaled 2 fun _ => 12) 1 1 [0] (scaled 2 fun _ => 1) =
        some y ∧ x 0 = 2 ∧ y 0 ≠ 2 * x 0 := by
  have run : ∀ a b : ℝ, 0 < a → 0 < b → ∃ x, ospml gammaQuad (1 / 4) ⟨1, 1, 1, 4⟩ 2 2 pmlG (fun _ => b) 1 1 [0]
      (fun _ => a) = some x ∧ 0 ≤ x 0 ∧ x 0 ^ 2 + (1 - a) * x 0 - b / 3 = 0 := by
    intro a b ha hb
    have hls : ∀ p d, lineSum 4 0 (pmlG 0 p d) (fun _ => a) = 3 * a := by
      intro p d
      norm_num [lineSum, pmlG]
      ring
    obtain ⟨x, h1, h2, -⟩ := ospml_block (gam := gammaQuad) (gv := fun _ => 1) (fun _ => rfl) (fun _ => one_pos)
      (beta := 1 / 4) (by norm_num) (D := ⟨1, 1, 1, 4⟩) (ngx := 2) (ngy := 2) rfl (le_refl _) (le_refl _)
      (g := pmlG) (data := fun _ => b) pmlG_ok (s := 0) (by norm_num) (ps := [0]) (by simp) (by simp)
      (r := fun _ => a) (fun _ _ _ _ => hb.le) (fun _ _ => ha.le)
      (fun p _ d _ _ => by rw [hls]; positivity)
    obtain ⟨h3, h4, -⟩ := h2 0 (by norm_num) 0 (by norm_num) _ _ _ rfl rfl rfl
    refine ⟨x, ?_, h3, ?_⟩
    · unfold ospml osRun
      rw [if_neg (by norm_num), if_neg (by norm_num), blocks_single]
      show iterM _ 1 _ = _
      rw [iterM, osIter_pure (pmlFin_ok gammaQuad (1 / 4) ⟨1, 1, 1, 4⟩ 2 2) (blocksOk_single _)]
      simp only [List.range_one, List.foldlM_cons, List.foldlM_nil, h1]
      rfl
    · have hF : specF (fun _ => 1) (1 / 4) 2 2 (0 * 4) (fun _ => a) 0 0 = 1 / 2 := by
        unfold specF
        rw [nbMean_const (by norm_num) (by norm_num)]
        norm_num
      have hG : specG (fun _ => 1) (1 / 4) 2 2 (0 * 4) (fun _ => a) 0 0 = a := by
        unfold specG
        rw [show (fun o => (1 : ℝ) * ((fun _ => a : Mem ℝ) (0 + 0 * 2 + 0 * 4) + nbPix (fun _ => a) 2 (0 * 4) 0 0 o)) =
          fun _ => a + a from funext fun o => one_mul _, nbMean_const (by norm_num) (by norm_num)]
        ring
      have hL : subLen ⟨1, 1, 1, 4⟩ pmlG 0 [0] (0 + 0 * 2) = 1 := by
        norm_num [subLen, raysOf, lenIn, pmlG]
      have hR : subRatio ⟨1, 1, 1, 4⟩ pmlG (fun _ => b) (fun _ => a) 0 [0] (0 + 0 * 2) = b / (3 * a) := by
        have e2 : sumDist2 (pmlG 0 0 0) ≠ 0 := by norm_num [sumDist2, pmlG]
        have e3 : lenIn (pmlG 0 0 0) 0 = 1 := by norm_num [lenIn, pmlG]
        simp [subRatio, raysOf, hls, e2, e3]
      rw [hF, hG, hL, hR] at h4
      have e : x 0 ^ 2 + (1 - a) * x 0 - b / 3 = 2 * (1 / 2) * x (0 + 0 * 2 + 0 * 4) ^ 2 +
          (1 - a) * x (0 + 0 * 2 + 0 * 4) + -(a * (b / (3 * a))) := by
        norm_num
        field_simp
        ring
      rw [e]
      exact h4
  obtain ⟨x, h1, h2, h3⟩ := run 1 12 one_pos (by norm_num)
  obtain ⟨y, h4, h5, h6⟩ := run 2 24 (by norm_num) (by norm_num)
  have hx : x 0 = 2 := by nlinarith
  refine ⟨x, y, h1, ?_, hx, ?_⟩
  · have e1 : (scaled 2 fun _ => (12 : ℝ)) = (fun _ => 24 : Mem ℝ) := by funext i; norm_num [scaled]
    have e2 : (scaled 2 fun _ => (1 : ℝ)) = (fun _ => 2 : Mem ℝ) := by funext i; norm_num [scaled]
    rw [e1, e2]
    exact h4
  · rw [hx]
    intro h
    rw [h] at h6
    norm_num at h6

/-- One iteration of `tv` on 2 x 2 pixels that no ray crosses, `reg_par` 1, all of the image in the first
pixel: its new value is `2 (a - 0.35 · 2 p) - a` where `p = 0.35 a`, but at most 1. -/
theorem tv_one {a : ℝ} (ha : 0 < a) :
    ∃ x, tv 1 ⟨1, 1, 1, 4⟩ 2 2 (fun _ _ _ => []) (fun _ => 0) 1 (fun i => if i = 0 then a else 0) = some x ∧
      x 0 = 2 * (a - 35 / 100 * (2 * (if 35 / 100 * a < 1 then 35 / 100 * a else 1))) - a := by
  have hr : gradScale ⟨1, 1, 1, 4⟩ = Real.sqrt 2 := by
    unfold gradScale
    norm_num
  have h2 : Real.sqrt 2 * Real.sqrt 2 = 2 := Real.mul_self_sqrt (by norm_num)
  have h0 : Real.sqrt 2 ≠ 0 := by positivity
  have hsq : Real.sqrt (35 / 100 * (a / Real.sqrt 2) * (35 / 100 * (a / Real.sqrt 2)) +
      35 / 100 * (a / Real.sqrt 2) * (35 / 100 * (a / Real.sqrt 2))) = 35 / 100 * a := by
    rw [show 35 / 100 * (a / Real.sqrt 2) * (35 / 100 * (a / Real.sqrt 2)) +
      35 / 100 * (a / Real.sqrt 2) * (35 / 100 * (a / Real.sqrt 2)) = (35 / 100 * a) * (35 / 100 * a) by
        field_simp; linarith [h2]]
    exact Real.sqrt_mul_self (by positivity)
  have h : (tv 1 ⟨1, 1, 1, 4⟩ 2 2 (fun _ _ _ => []) (fun _ => 0) 1 (fun i => if i = 0 then a else 0)).map (· 0) =
      some (2 * (a - 35 / 100 * (2 * (if 35 / 100 * a < 1 then 35 / 100 * a else 1))) - a) := by
    simp [tv, hr, tvC, tvRun, iterM, tvIter, tvSlice, tvProjLoop, tvProj, tvGrad, forPix, gridLoop, tvRay,
      calcSimdata, sumDist2, List.range_succ, addAt, zeros, Function.update, tvDiv, Dims.data]
    rw [hsq]
    split
    · field_simp
      ring
    · have : (35 / 100 * a) ≠ 0 := by positivity
      field_simp
      ring
  obtain ⟨x, h1, h3⟩ := Option.map_eq_some_iff.mp h
  exact ⟨x, h1, h3⟩

/-- **C167** (refutation): with the same `reg_par`, `tv` does not scale with data and image. -/
theorem tv_units_wrong :
    ∃ x y, tv 1 ⟨1, 1, 1, 4⟩ 2 2 (fun _ _ _ => []) (fun _ => 0) 1 (fun i => if i = 0 then 1 else 0) = some x ∧
      tv 1 ⟨1, 1, 1, 4⟩ 2 2 (fun _ _ _ => []) (scaled 10 fun _ => 0) 1
        (scaled 10 fun i => if i = 0 then 1 else 0) = some y ∧ y 0 ≠ 10 * x 0 := by
  obtain ⟨x, h1, h2⟩ := tv_one one_pos
  obtain ⟨y, h3, h4⟩ := tv_one (a := 10) (by norm_num)
  refine ⟨x, y, h1, ?_, ?_⟩
  · have e1 : (scaled 10 fun _ => (0 : ℝ)) = (fun _ => 0 : Mem ℝ) := by funext i; norm_num [scaled]
    have e2 : (scaled 10 fun i => if i = 0 then (1 : ℝ) else 0) = (fun i => if i = 0 then 10 else 0 : Mem ℝ) := by
      funext i
      unfold scaled
      by_cases h : i = 0
      · simp [h]
      · simp [h]
    rw [e1, e2]
    exact h3
  · rw [h2, h4]
    norm_num

/-! ## Examples -/

/-- `grad` with automatic steps, two iterations on one pixel: with ten times the data, ten times the
result. -/
example : (grad (K := ℚ) ⟨1, 1, 1, 1⟩ 1 1 (fun _ _ _ => [(0, 2)]) (fun _ => 3) 2 1 (-1) (fun _ => 1)).map (· 0) =
      some (3 / 2) ∧
    (grad (K := ℚ) ⟨1, 1, 1, 1⟩ 1 1 (fun _ _ _ => [(0, 2)]) (scaled 10 fun _ => 3) 2 1 (-1)
      (scaled 10 fun _ => 1)).map (· 0) = some 15 := by
  decide +kernel

/-- A run of `ospml_hybrid` in two units: 2 x 2 pixels, four iterations, both defined. -/
example : ∃ x, ospml (gammaHybrid 3) 1 ⟨1, 1, 1, 4⟩ 2 2 pmlG (fun _ => 5) 4 1 [0] (fun _ => 2) = some x ∧
    ospml (gammaHybrid (10 * 3)) (1 / 10) ⟨1, 1, 1, 4⟩ 2 2 pmlG (scaled 10 fun _ => 5) 4 1 [0]
      (scaled 10 fun _ => 2) = some (scaled 10 x) := by
  obtain ⟨x, hx, -⟩ := ospml_hybrid_positive (beta := 1) (delta := 3) one_pos (by norm_num) (D := ⟨1, 1, 1, 4⟩)
    (ngx := 2) (ngy := 2) rfl (le_refl _) (le_refl _) pmlG_ok (data := fun _ => 5) (num_iter := 4) (nb := 1) (ind := [0])
    (fun _ _ _ _ _ _ => by norm_num) (Or.inl rfl) (recon := fun _ => 2) (fun _ _ _ _ => by norm_num)
  refine ⟨x, hx, ?_⟩
  rw [ospml_hybrid_scaled (by norm_num), hx, Option.map_some]

end Tomopy.Iter
