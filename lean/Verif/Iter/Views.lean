import Verif.Iter.Grad
import Verif.Iter.Osem
import Verif.Sim.VecProps

/-!
# Rearranged and opposite views (C162)

The views of a scan are taken in another order, and some of them from the opposite side.
-/

set_option linter.unusedSectionVars false

namespace Tomopy.Iter

open Function (update)

variable {K : Type*} [Field K] [LinearOrder K] [IsStrictOrderedRing K]

/-! ## Specification -/

/-- View `p` of the first scan and view `p'` of the second one consist of the same rays with the same
data, possibly at other detector pixels and listed in another order. -/
def SameView (D : Dims) (s : Nat) (g : Geom K) (data : Mem K) (p : Nat) (g' : Geom K) (data' : Mem K)
    (p' : Nat) : Prop :=
  ∃ τ : Nat → Nat, ((List.range D.dx).map τ).Perm (List.range D.dx) ∧
    ∀ d < D.dx, (g s p d).Perm (g' s p' (τ d)) ∧ data (D.data s p d) = data' (D.data s p' (τ d))

/-- The second scan consists of the views of the first one; view `p` became view `π p`. -/
structure Rearranged (D : Dims) (g : Geom K) (data : Mem K) (g' : Geom K) (data' : Mem K)
    (π : Nat → Nat) : Prop where
  perm : ((List.range D.dt).map π).Perm (List.range D.dt)
  view : ∀ s < D.dy, ∀ p < D.dt, SameView D s g data p g' data' (π p)

/-! ## Sums over rays -/

/-- A quantity of a ray and its datum that does not depend on the order of the segments. -/
def PermInv (F : Segs K → K → K) : Prop := ∀ r r' : Segs K, r.Perm r' → ∀ v, F r v = F r' v

theorem sum_view {D : Dims} {s p p' : Nat} {g g' : Geom K} {data data' : Mem K}
    (h : SameView D s g data p g' data' p') {F : Segs K → K → K} (hF : PermInv F) :
    ((List.range D.dx).map fun d => F (g s p d) (data (D.data s p d))).sum =
      ((List.range D.dx).map fun d => F (g' s p' d) (data' (D.data s p' d))).sum := by
  obtain ⟨τ, hτ, hv⟩ := h
  rw [← (hτ.map fun d => F (g' s p' d) (data' (D.data s p' d))).sum_eq, List.map_map]
  congr 1
  refine List.map_congr_left fun d hd => ?_
  obtain ⟨h1, h2⟩ := hv d (List.mem_range.mp hd)
  rw [Function.comp_apply, ← h2]
  exact hF _ _ h1 _

theorem sum_block {D : Dims} {s : Nat} {g g' : Geom K} {data data' : Mem K} {π : Nat → Nat}
    {ps ps' : List Nat} (h : ∀ p ∈ ps, SameView D s g data p g' data' (π p))
    (hp : ps'.Perm (ps.map π)) {F : Segs K → K → K} (hF : PermInv F) :
    ((raysOf D.dx ps).map fun q => F (g s q.1 q.2) (data (D.data s q.1 q.2))).sum =
      ((raysOf D.dx ps').map fun q => F (g' s q.1 q.2) (data' (D.data s q.1 q.2))).sum := by
  unfold raysOf
  simp only [List.map_flatMap, list_sum_flatMap, List.map_map, Function.comp_def]
  rw [(hp.map fun p => ((List.range D.dx).map fun d => F (g' s p d) (data' (D.data s p d))).sum).sum_eq,
    List.map_map]
  congr 1
  exact List.map_congr_left fun p hp => sum_view (h p hp) hF

theorem lenIn_perm {r r' : Segs K} (h : r.Perm r') (n : Nat) : lenIn r n = lenIn r' n :=
  (h.map _).sum_eq

theorem lenIn_permInv (n : Nat) : PermInv (K := K) fun r _ => lenIn r n :=
  fun _ _ h _ => (h.map _).sum_eq

theorem sumDist2_perm {r r' : Segs K} (h : r.Perm r') : sumDist2 r = sumDist2 r' := by
  rw [sumDist2_eq, sumDist2_eq]
  exact (h.map _).sum_eq

theorem lineSum_perm' {N s : Nat} {r r' : Segs K} (h : r.Perm r') (m : Mem K) :
    lineSum N s r m = lineSum N s r' m := (h.map _).sum_eq

/-! ## Single blocks -/

theorem slice_cases (N s x : Nat) : (∃ n < N, x = n + s * N) ∨ ¬ (s * N ≤ x ∧ x < s * N + N) := by
  by_cases h : s * N ≤ x ∧ x < s * N + N
  · exact Or.inl ⟨x - s * N, by omega, by omega⟩
  · exact Or.inr h

theorem bart_block_views {D : Dims} {s : Nat} {g g' : Geom K} {data data' : Mem K} {π : Nat → Nat}
    {ps ps' : List Nat} (h : ∀ p ∈ ps, SameView D s g data p g' data' (π p))
    (hp : ps'.Perm (ps.map π)) (hnd : ps.Nodup) (hnd' : ps'.Nodup) (hps : ∀ p ∈ ps, p < D.dt)
    (hps' : ∀ p ∈ ps', p < D.dt) (r : Mem K) :
    pureBlock bartMethod (bartFin D) D g data s ps r = pureBlock bartMethod (bartFin D) D g' data' s ps' r := by
  obtain ⟨r1, e1, v1, f1⟩ := bart_block (D := D) (g := g) (data := data) (s := s) hnd hps r
  obtain ⟨r2, e2, v2, f2⟩ := bart_block (D := D) (g := g') (data := data') (s := s) hnd' hps' r
  rw [e1, e2]
  congr 1
  funext x
  rcases slice_cases D.N s x with ⟨n, hn, rfl⟩ | hx
  · rw [v1 n hn, v2 n hn, sum_block h hp (lenIn_permInv n),
      sum_block h hp (F := fun ray v => if sumDist2 ray ≠ 0 then
        (v - lineSum D.N s ray r) / sumDist2 ray * lenIn ray n else 0) (fun a b hab v => by
          simp only [sumDist2_perm hab, lineSum_perm' hab, lenIn_perm hab])]
  · rw [f1 x hx, f2 x hx]

theorem osem_block_views {D : Dims} {s : Nat} (hs : s < D.dy) {g g' : Geom K} {data data' : Mem K}
    {π : Nat → Nat} {ps ps' : List Nat} (hg : GeomOk D g) (hg' : GeomOk D g') (hd : PosData D data)
    (hd' : PosData D data') (h : ∀ p ∈ ps, SameView D s g data p g' data' (π p))
    (hp : ps'.Perm (ps.map π)) (hnd : ps.Nodup) (hnd' : ps'.Nodup) (hps : ∀ p ∈ ps, p < D.dt)
    (hps' : ∀ p ∈ ps', p < D.dt) {r : Mem K} (hr : PosImage D r) :
    ∃ r1, pureBlock osemMethod (osemFin D) D g data s ps r = some r1 ∧ PosImage D r1 ∧
      pureBlock osemMethod (osemFin D) D g' data' s ps' r = some r1 := by
  obtain ⟨r1, e1, p1, v1, u1, f1⟩ := osem_block hg hd hs hnd hps hr
  obtain ⟨r2, e2, p2, v2, u2, f2⟩ := osem_block hg' hd' hs hnd' hps' hr
  refine ⟨r1, e1, p1, ?_⟩
  rw [e2]
  congr 1
  funext x
  rcases slice_cases D.N s x with ⟨n, hn, rfl⟩ | hx
  · have hsum := sum_block h hp (lenIn_permInv n)
    have hupd := sum_block h hp (F := fun ray v => if sumDist2 ray ≠ 0 then
        v / lineSum D.N s ray r * lenIn ray n else 0) (fun a b hab v => by
          simp only [sumDist2_perm hab, lineSum_perm' hab, lenIn_perm hab])
    have w1 := v1 n hn
    have w2 := v2 n hn
    rw [← hsum, ← hupd, ← w1] at w2
    by_cases h0 : ((raysOf D.dx ps).map fun q => lenIn (g s q.1 q.2) n).sum = 0
    · have z1 : ∀ q ∈ raysOf D.dx ps, lenIn (g s q.1 q.2) n = 0 := by
        intro q hq
        refine List.all_zero_of_le_zero_le_of_sum_eq_zero ?_ h0 (List.mem_map.mpr ⟨q, hq, rfl⟩)
        rintro y hy
        obtain ⟨q, hq, rfl⟩ := List.mem_map.mp hy
        have hm := mem_raysOf.mp hq
        exact lenIn_nonneg (hg s hs _ (hps _ hm.1) _ hm.2) n
      have z2 : ∀ q ∈ raysOf D.dx ps', lenIn (g' s q.1 q.2) n = 0 := by
        intro q hq
        refine List.all_zero_of_le_zero_le_of_sum_eq_zero ?_ (hsum ▸ h0) (List.mem_map.mpr ⟨q, hq, rfl⟩)
        rintro y hy
        obtain ⟨q, hq, rfl⟩ := List.mem_map.mp hy
        have hm := mem_raysOf.mp hq
        exact lenIn_nonneg (hg' s hs _ (hps' _ hm.1) _ hm.2) n
      rw [u1 n hn z1, u2 n hn z2]
    · exact mul_right_cancel₀ h0 w2
  · rw [f1 x hx, f2 x hx]

/-! ## Complete runs -/

theorem foldlM_two {ι α : Type*} {Inv : α → Prop} {Rel : ι → ι → Prop} {f f' : α → ι → Option α}
    (hs : ∀ e e', Rel e e' → ∀ x, Inv x → ∃ y, f x e = some y ∧ Inv y ∧ f' x e' = some y) :
    ∀ {l l' : List ι}, List.Forall₂ Rel l l' → ∀ {x : α}, Inv x →
      ∃ y, l.foldlM f x = some y ∧ Inv y ∧ l'.foldlM f' x = some y := by
  intro l l' h
  induction h with
  | nil => exact fun {x} hx => ⟨x, rfl, hx, rfl⟩
  | cons h1 _ ih =>
    intro x hx
    obtain ⟨y, e1, e2, e3⟩ := hs _ _ h1 x hx
    obtain ⟨z, f1, f2, f3⟩ := ih e2
    refine ⟨z, ?_, f2, ?_⟩
    · rw [List.foldlM_cons, e1]; exact f1
    · rw [List.foldlM_cons, e3]; exact f3

/-- Corresponding blocks of the two scans. -/
structure SameBlocks (D : Dims) (π : Nat → Nat) (ps ps' : List Nat) : Prop where
  perm : ps'.Perm (ps.map π)
  nodup : ps.Nodup
  nodup' : ps'.Nodup
  lt : ∀ p ∈ ps, p < D.dt
  lt' : ∀ p ∈ ps', p < D.dt

theorem osIter_views {mt : Method K} {fin : Nat → Acc K → Mem K → Option (Mem K)} (hfin : FinOk fin)
    {D : Dims} {g g' : Geom K} {data data' : Mem K} {π : Nat → Nat} {bl bl' : List (List Nat)}
    (hb : BlocksOk D bl) (hb' : BlocksOk D bl') (hbb : List.Forall₂ (SameBlocks D π) bl bl')
    {Inv : Mem K → Prop} (hstep : ∀ s < D.dy, ∀ ps ps', SameBlocks D π ps ps' → ∀ r, Inv r →
      ∃ r1, pureBlock mt fin D g data s ps r = some r1 ∧ Inv r1 ∧
        pureBlock mt fin D g' data' s ps' r = some r1) (n : Nat) {r : Mem K} (hr : Inv r) :
    ∃ r1, iterM (osIter mt fin D g data bl) n r = some r1 ∧ Inv r1 ∧
      iterM (osIter mt fin D g' data' bl') n r = some r1 := by
  induction n generalizing r with
  | zero => exact ⟨r, rfl, hr, rfl⟩
  | succ n ih =>
    have hone : ∃ r1, osIter mt fin D g data bl r = some r1 ∧ Inv r1 ∧
        osIter mt fin D g' data' bl' r = some r1 := by
      rw [osIter_pure hfin hb, osIter_pure hfin hb']
      refine foldlM_two (Rel := fun s s' => s = s' ∧ s < D.dy) (Inv := Inv) ?_ ?_ hr
      · rintro s _ ⟨rfl, hs⟩ x hx
        exact foldlM_two (hstep s hs) hbb hx
      · rw [List.forall₂_same]
        exact fun s hs => ⟨rfl, List.mem_range.mp hs⟩
    obtain ⟨r1, e1, e2, e3⟩ := hone
    obtain ⟨r2, f1, f2, f3⟩ := ih e2
    exact ⟨r2, by rw [iterM, e1]; exact f1, f2, by rw [iterM, e3]; exact f3⟩

theorem usedBlocks_map {dt nb : Nat} {ind : List Nat} (hnb : 1 ≤ nb) (h1 : nb ≠ 1) (hl : ind.length = dt)
    (π : Nat → Nat) : usedBlocks dt nb (ind.map π) = (usedBlocks dt nb ind).map (List.map π) := by
  unfold usedBlocks
  rw [List.map_map]
  refine List.map_congr_left fun b hb => ?_
  rw [Function.comp_apply, List.map_map]
  refine List.map_congr_left fun q hq => ?_
  have := subset_bounds hnb hb hq
  rw [Function.comp_apply, if_neg h1, if_neg h1]
  simp [List.getD_eq_getElem?_getD, List.getElem?_map, List.getElem?_eq_getElem (show q < ind.length by omega)]

/-- The two runs use corresponding blocks. -/
theorem osRun_views {mt : Method K} {fin : Nat → Acc K → Mem K → Option (Mem K)} (hfin : FinOk fin)
    {D : Dims} {g g' : Geom K} {data data' : Mem K} {π : Nat → Nat}
    (hπ : ((List.range D.dt).map π).Perm (List.range D.dt)) {nb : Nat} {ind : List Nat}
    (hb : BlockArgs D.dt nb ind)
    {Inv : Mem K → Prop} (hstep : ∀ s < D.dy, ∀ ps ps', SameBlocks D π ps ps' → ∀ r, Inv r →
      ∃ r1, pureBlock mt fin D g data s ps r = some r1 ∧ Inv r1 ∧
        pureBlock mt fin D g' data' s ps' r = some r1) (n : Nat) {r : Mem K} (hr : Inv r) :
    ∃ r1, osRun mt fin D g data n nb ind r = some r1 ∧ Inv r1 ∧
      osRun mt fin D g' data' n nb (ind.map π) r = some r1 := by
  by_cases h0 : D.dy = 0 ∨ D.dt = 0 ∨ D.dx = 0
  · exact ⟨r, by unfold osRun; rw [if_pos h0], hr, by unfold osRun; rw [if_pos h0]⟩
  have hsame : ∀ ps : List Nat, ps.Nodup → (∀ p ∈ ps, p < D.dt) → ∀ ps', ps'.Perm (ps.map π) →
      SameBlocks D π ps ps' := by
    intro ps hnd hlt ps' hp
    have hinj : ∀ p ∈ ps, ∀ q ∈ ps, π p = π q → p = q := by
      intro p hp q hq e
      have hn : ((List.range D.dt).map π).Nodup := hπ.nodup_iff.mpr List.nodup_range
      exact List.inj_on_of_nodup_map hn (List.mem_range.mpr (hlt p hp)) (List.mem_range.mpr (hlt q hq)) e
    refine ⟨hp, hnd, hp.nodup_iff.mpr (hnd.map_on hinj), hlt, fun p hp' => ?_⟩
    obtain ⟨q, hq, rfl⟩ := List.mem_map.mp (hp.mem_iff.mp hp')
    exact List.mem_range.mp (hπ.mem_iff.mp (List.mem_map.mpr ⟨q, List.mem_range.mpr (hlt q hq), rfl⟩))
  by_cases h1 : nb = 1
  · subst h1
    unfold osRun
    rw [if_neg h0, if_neg h0, if_neg one_ne_zero, if_neg one_ne_zero, blocks_single, blocks_single,
      Option.bind_some, Option.bind_some]
    refine osIter_views hfin (blocksOk_single D) (blocksOk_single D) ?_ hstep n hr
    rw [List.forall₂_cons]
    exact ⟨hsame _ List.nodup_range (fun p hp => List.mem_range.mp hp) _ hπ.symm, List.Forall₂.nil⟩
  · obtain ⟨hnb, hperm⟩ := hb.resolve_left h1
    have hperm' : (ind.map π).Perm (List.range D.dt) := (hperm.map π).trans hπ
    unfold osRun
    rw [if_neg h0, if_neg h0, if_neg (by omega), if_neg (by omega), (blocks_perm hnb hperm).1,
      (blocks_perm hnb hperm').1, Option.bind_some, Option.bind_some]
    refine osIter_views hfin (blocksOk_perm hnb hperm) (blocksOk_perm hnb hperm') ?_ hstep n hr
    rw [usedBlocks_map hnb h1 (by rw [hperm.length_eq, List.length_range]), List.forall₂_map_right_iff,
      List.forall₂_same]
    intro ps hps
    have hok := blocksOk_perm (D := D) hnb hperm
    exact hsame ps ((List.nodup_flatten.mp hok.nodup).1 ps hps) (hok.lt ps hps) _ (List.Perm.refl _)

/-! ## C162 -/

/-- **C162**: `bart` gives the same image if the views are rearranged and `ind_block` is renumbered. -/
theorem bart_views {D : Dims} {g g' : Geom K} {data data' : Mem K} {π : Nat → Nat}
    (h : Rearranged D g data g' data' π) {nb : Nat} {ind : List Nat} (hb : BlockArgs D.dt nb ind)
    (n : Nat) (r : Mem K) :
    bart D g data n nb ind r = bart D g' data' n nb (ind.map π) r := by
  obtain ⟨r1, h1, -, h2⟩ := osRun_views (mt := bartMethod) (g := g) (g' := g') (data := data)
    (data' := data') (bartFin_ok D) h.perm hb (Inv := fun _ => True) (fun s hs ps ps' hp r _ => by
      have e := bart_block_views (fun p hp' => h.view s hs p (hp.lt p hp')) hp.perm hp.nodup hp.nodup'
        hp.lt hp.lt' r
      obtain ⟨r1, e1, -⟩ := bart_block (D := D) (g := g) (data := data) (s := s) hp.nodup hp.lt r
      exact ⟨r1, e1, trivial, e ▸ e1⟩) n (r := r) trivial
  unfold bart
  rw [h1, h2]

/-- **C162**: `sirt` gives the same image if the views are rearranged. -/
theorem sirt_views {D : Dims} {g g' : Geom K} {data data' : Mem K} {π : Nat → Nat}
    (h : Rearranged D g data g' data' π) (n : Nat) (r : Mem K) :
    sirt D g data n r = sirt D g' data' n r := by
  rw [sirt_eq_bart D g data n [0] r, bart_views h (Or.inl rfl), ← sirt_eq_bart]

/-- **C162**: `osem` gives the same image if the views are rearranged and `ind_block` is renumbered. -/
theorem osem_views {D : Dims} {g g' : Geom K} {data data' : Mem K} {π : Nat → Nat}
    (hg : GeomOk D g) (hg' : GeomOk D g') (hd : PosData D data) (hd' : PosData D data')
    (h : Rearranged D g data g' data' π) {nb : Nat} {ind : List Nat} (hb : BlockArgs D.dt nb ind)
    (n : Nat) {r : Mem K} (hr : PosImage D r) :
    osem D g data n nb ind r = osem D g' data' n nb (ind.map π) r := by
  obtain ⟨r1, h1, -, h2⟩ := osRun_views (mt := osemMethod) (g := g) (g' := g') (data := data)
    (data' := data') (osemFin_ok D) h.perm hb (Inv := PosImage D) (fun s hs ps ps' hp r hr =>
      osem_block_views hs hg hg' hd hd' (fun p hp' => h.view s hs p (hp.lt p hp')) hp.perm hp.nodup
        hp.nodup' hp.lt hp.lt' hr) n hr
  unfold osem
  rw [h1, h2]

/-- **C162**: `mlem` gives the same image if the views are rearranged. -/
theorem mlem_views {D : Dims} {g g' : Geom K} {data data' : Mem K} {π : Nat → Nat}
    (hg : GeomOk D g) (hg' : GeomOk D g') (hd : PosData D data) (hd' : PosData D data')
    (h : Rearranged D g data g' data' π) (n : Nat) {r : Mem K} (hr : PosImage D r) :
    mlem D g data n r = mlem D g' data' n r := by
  rw [mlem_eq_osem D g data n [0] r, osem_views hg hg' hd hd' h (Or.inl rfl) n hr, ← mlem_eq_osem]

theorem sum_rays {D : Dims} {g g' : Geom K} {data data' : Mem K} {π : Nat → Nat}
    (h : Rearranged D g data g' data' π) {s : Nat} (hs : s < D.dy) {F : Segs K → K → K} (hF : PermInv F) :
    ((List.range D.dt).map fun p => ((List.range D.dx).map fun d =>
        F (g s p d) (data (D.data s p d))).sum).sum =
      ((List.range D.dt).map fun p => ((List.range D.dx).map fun d =>
        F (g' s p d) (data' (D.data s p d))).sum).sum := by
  have := sum_block (fun p hp => h.view s hs p (List.mem_range.mp hp)) h.perm.symm hF
  unfold raysOf at this
  simpa only [List.map_flatMap, list_sum_flatMap, List.map_map, Function.comp_def] using this

theorem gradient_views {D : Dims} {g g' : Geom K} {data data' : Mem K} {π : Nat → Nat}
    (h : Rearranged D g data g' data' π) (recon : Mem K) (r : K) :
    gradient D g data recon r = gradient D g' data' recon r := by
  have val : ∀ (g : Geom K) (data : Mem K) x, gradient D g data recon r x =
      ((List.range D.dy).map fun s => ((List.range D.dt).map fun p => ((List.range D.dx).map fun d =>
        (fun s (ray : Segs K) v => if sumDist2 ray ≠ 0 then (ray.map fun e => if e.1 + s * D.N = x then
          2 * r * (lineSum D.N s ray recon * r - v) * e.2 else 0).sum else 0)
          s (g s p d) (data (D.data s p d))).sum).sum).sum := by
    intro g data x
    rw [gradient_eq]
    refine (foldl_additive _ (fun t x => if sumDist2 (g t.1 t.2.1 t.2.2) ≠ 0 then
      ((g t.1 t.2.1 t.2.2).map fun e => if e.1 + t.1 * D.N = x then
        2 * r * (lineSum D.N t.1 (g t.1 t.2.1 t.2.2) recon * r - data (D.data t.1 t.2.1 t.2.2)) * e.2
        else 0).sum else 0) (allRays D) ?_ zeros x).trans ?_
    · intro m t x _
      unfold gradTerm
      split
      · rw [spread_apply]
      · rw [add_zero]
    · unfold allRays
      simp only [zeros, zero_add, List.map_flatMap, list_sum_flatMap, List.map_map, Function.comp_def]
  funext x
  rw [val, val]
  congr 1
  refine List.map_congr_left fun s hs => ?_
  refine sum_rays h (List.mem_range.mp hs) (F := fun ray v => if sumDist2 ray ≠ 0 then
    (ray.map fun e => if e.1 + s * D.N = x then
          2 * r * (lineSum D.N s ray recon * r - v) * e.2 else 0).sum else 0) fun a b hab v => ?_
  simp only [sumDist2_perm hab, lineSum_perm' hab]
  split
  · exact (hab.map _).sum_eq
  · rfl

theorem gradRun_views {D : Dims} {g g' : Geom K} {data data' : Mem K} {π : Nat → Nat}
    (h : Rearranged D g data g' data' π) (extra : Mem K → Mem K → Mem K) (ngx ngy n : Nat) (r reg0 : K)
    (recon : Mem K) :
    gradRun extra D ngx ngy g data n r reg0 recon = gradRun extra D ngx ngy g' data' n r reg0 recon := by
  have hiter : ∀ i st, gradIter extra D ngx ngy g data r reg0 i st =
      gradIter extra D ngx ngy g' data' r reg0 i st := by
    intro i st
    unfold gradIter
    rw [gradient_views h]
  have hits : ∀ n i st, gradIters extra D ngx ngy g data r reg0 n i st =
      gradIters extra D ngx ngy g' data' r reg0 n i st := by
    intro n
    induction n with
    | zero => exact fun _ _ => rfl
    | succ n ih =>
      intro i st
      unfold gradIters
      rw [hiter]
      congr 1
      funext st
      exact ih _ _
  unfold gradRun
  rw [hits]

/-- **C162**: `grad` gives the same image if the views are rearranged, with any kind of step. -/
theorem grad_views {D : Dims} {g g' : Geom K} {data data' : Mem K} {π : Nat → Nat}
    (h : Rearranged D g data g' data' π) (ngx ngy n : Nat) (r reg0 : K) (recon : Mem K) :
    grad D ngx ngy g data n r reg0 recon = grad D ngx ngy g' data' n r reg0 recon :=
  gradRun_views h _ ngx ngy n r reg0 recon

/-- **C162**: `tikh` gives the same image if the views are rearranged, with any kind of step. -/
theorem tikh_views {D : Dims} {g g' : Geom K} {data data' : Mem K} {π : Nat → Nat}
    (h : Rearranged D g data g' data' π) (ngx ngy n : Nat) (r reg0 reg1 : K) (regData recon : Mem K) :
    tikh D ngx ngy g data n r reg0 reg1 regData recon = tikh D ngx ngy g' data' n r reg0 reg1 regData recon :=
  gradRun_views h _ ngx ngy n r reg0 recon

/-- **C162**: `fbp` gives the same image if the views are rearranged. -/
theorem fbp_views {D : Dims} {g g' : Geom K} {data data' : Mem K} {π : Nat → Nat}
    (h : Rearranged D g data g' data' π) (recon : Mem K) :
    fbp D g data recon = fbp D g' data' recon := by
  have val : ∀ (g : Geom K) (data : Mem K) x, (List.range D.dy).foldl (fun m s => (List.range D.dt).foldl
      (fun m p => (List.range D.dx).foldl (fun m d => spread D s (g s p d) (data (D.data s p d)) m) m) m) recon x =
      recon x + ((List.range D.dy).map fun s => ((List.range D.dt).map fun p => ((List.range D.dx).map fun d =>
        (fun s (ray : Segs K) v => (ray.map fun e => if e.1 + s * D.N = x then v * e.2 else 0).sum)
          s (g s p d) (data (D.data s p d))).sum).sum).sum := by
    intro g data x
    refine foldl_additive _ (fun s x => ((List.range D.dt).map fun p => ((List.range D.dx).map fun d =>
        ((g s p d).map fun e => if e.1 + s * D.N = x then data (D.data s p d) * e.2 else 0).sum).sum).sum)
        _ (fun m s x _ => ?_) recon x
    refine foldl_additive _ (fun p x => ((List.range D.dx).map fun d =>
        ((g s p d).map fun e => if e.1 + s * D.N = x then data (D.data s p d) * e.2 else 0).sum).sum)
        _ (fun m p x _ => ?_) m x
    refine foldl_additive _ (fun d x =>
        ((g s p d).map fun e => if e.1 + s * D.N = x then data (D.data s p d) * e.2 else 0).sum)
        _ (fun m d x _ => ?_) m x
    exact spread_apply D s _ _ m x
  unfold fbp
  split
  · rfl
  · funext x
    rw [val, val]
    congr 2
    refine List.map_congr_left fun s hs => ?_
    exact sum_rays h (List.mem_range.mp hs) (F := fun ray v => (ray.map fun e => if e.1 + s * D.N = x then
      v * e.2 else 0).sum) fun a b hab v => (hab.map _).sum_eq

/-- `art` is not in the list: it handles the rays one after the other.  One pixel seen from two angles with
the values 1 and 2 becomes 2 in one order and 1 in the other. -/
theorem art_order_matters :
    art (K := ℚ) ⟨1, 2, 1, 1⟩ (fun _ _ _ => [(0, 1)]) (fun i => i + 1) 1 (fun _ => 0) 0 = 2 ∧
    art (K := ℚ) ⟨1, 2, 1, 1⟩ (fun _ _ _ => [(0, 1)]) (fun i => 2 - i) 1 (fun _ => 0) 0 = 1 := by
  decide +kernel

/-! ## Views of the ray tracer -/

/-- **C162** for the code: the views are rearranged, and any of them may be replaced by the mirrored view
from the opposite side.  The rotation centre is the default, half the width of the detector. -/
theorem tracer_rearranged (rx rz dx dy dt : Nat) (theta theta' : Nat → ℝ) (data data' : Mem ℝ) (π : Nat → Nat)
    (hπ : ((List.range dt).map π).Perm (List.range dt))
    (h : ∀ p < dt, (theta' (π p) = theta p ∧ ∀ s < dy, ∀ d < dx,
        data' (Dims.data ⟨dy, dt, dx, rx * rz⟩ s (π p) d) = data (Dims.data ⟨dy, dt, dx, rx * rz⟩ s p d)) ∨
      (theta' (π p) = theta p + Real.pi ∧ Ray.ClearOfAxes (theta p) ∧ ∀ s < dy, ∀ d < dx,
        data' (Dims.data ⟨dy, dt, dx, rx * rz⟩ s (π p) (dx - 1 - d)) =
          data (Dims.data ⟨dy, dt, dx, rx * rz⟩ s p d))) :
    Rearranged ⟨dy, dt, dx, rx * rz⟩ (tracerGeom rx rz dx (fun _ => (dx : ℝ) / 2) theta) data
      (tracerGeom rx rz dx (fun _ => (dx : ℝ) / 2) theta') data' π := by
  refine ⟨hπ, fun s hs p hp => ?_⟩
  rcases h p hp with ⟨h1, h2⟩ | ⟨h1, hax, h2⟩
  · refine ⟨fun d => d, by simp, fun d hd => ⟨?_, (h2 s hs d hd).symm⟩⟩
    unfold tracerGeom
    rw [h1]
  · refine ⟨fun d => dx - 1 - d, ?_, fun d hd => ⟨?_, (h2 s hs d hd).symm⟩⟩
    · refine (List.perm_ext_iff_of_nodup ?_ List.nodup_range).mpr fun d => ?_
      · refine List.nodup_range.map_on fun a ha b hb e => ?_
        rw [List.mem_range] at ha hb
        dsimp only at ha hb
        omega
      · rw [List.mem_map, List.mem_range]
        constructor
        · rintro ⟨a, ha, rfl⟩
          rw [List.mem_range] at ha
          dsimp only at ha ⊢
          omega
        · intro hd
          dsimp only at hd
          exact ⟨dx - 1 - d, by rw [List.mem_range]; dsimp only; omega, by omega⟩
    · obtain ⟨f1, f2⟩ := Ray.default_center_clear dx
      refine Sim.tracerGeom_opposite rx rz dx _ _ theta theta' hd h1 f2.symm hax ?_ ?_
      · rw [f1]; norm_num
      · rw [f1]; norm_num

/-- A case that meets the hypotheses: two views, exchanged, the first of them from the other side. -/
example (data : Mem ℝ) : Rearranged ⟨1, 2, 3, 4 * 4⟩
    (tracerGeom 4 4 3 (fun _ => ((3 : Nat) : ℝ) / 2) fun p => if p = 0 then 0 else 1) data
    (tracerGeom 4 4 3 (fun _ => ((3 : Nat) : ℝ) / 2) fun p => if p = 0 then 1 else 0 + Real.pi)
    (fun i => if i < 3 then data (i + 3) else data (2 - (i - 3))) (fun p => 1 - p) := by
  refine tracer_rearranged 4 4 3 1 2 _ _ _ _ _ (by decide) fun p hp => ?_
  obtain rfl | rfl : p = 0 ∨ p = 1 := by omega
  · right
    refine ⟨by simp, ?_, fun s hs d hd => ?_⟩
    · intro k
      by_cases hk : k = 0
      · left; simp [hk]
      · right
        have hpi : (1 : ℝ) / Ray.ipiC ≤ Real.pi / 2 := by
          have : (1 : ℝ) / Ray.ipiC ≤ 1 := by
            rw [div_le_one Ray.ipiC_pos]; norm_num [Ray.ipiC]
          have := Real.pi_gt_three
          linarith
        rw [if_pos rfl, zero_sub, abs_neg, abs_mul, abs_of_pos (show 0 < Real.pi / 2 by positivity)]
        have h1 : (1 : ℝ) ≤ |(k : ℝ)| := by
          rw [← Int.cast_abs]; exact_mod_cast Int.one_le_abs hk
        nlinarith [Real.pi_gt_three]
    · obtain rfl : s = 0 := by omega
      unfold Dims.data
      interval_cases d <;> simp
  · left
    refine ⟨by simp, fun s hs d hd => ?_⟩
    obtain rfl : s = 0 := by omega
    unfold Dims.data
    interval_cases d <;> simp

end Tomopy.Iter
