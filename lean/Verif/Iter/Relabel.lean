import Verif.Iter.Views
import Verif.Iter.Art

/-!
# Renumbered pixels (C164)

If the pixels of a scan are renumbered, the methods compute the renumbered image.
-/

set_option linter.unusedSectionVars false

namespace Tomopy.Iter

open Function (update)

variable {K : Type*} [Field K] [LinearOrder K] [IsStrictOrderedRing K]

/-! ## Specification -/

/-- The rays of `g'` are those of `g`, with pixel `n` of every slice called `τ n`. -/
structure Relabels (D : Dims) (τ : Nat → Nat) (g g' : Geom K) : Prop where
  lt : ∀ n < D.N, τ n < D.N
  inj : ∀ n < D.N, ∀ m < D.N, τ n = τ m → n = m
  ray : ∀ s < D.dy, ∀ p < D.dt, ∀ d < D.dx, (g' s p d).Perm ((g s p d).map fun e => (τ e.1, e.2))

/-- Image `r'` is image `r` with pixel `n` of every slice at place `τ n`. -/
def MovedImage (D : Dims) (τ : Nat → Nat) (r r' : Mem K) : Prop :=
  ∀ s < D.dy, ∀ n < D.N, r' (τ n + s * D.N) = r (n + s * D.N)

/-! ## Single rays -/

section Ray

variable {D : Dims} {τ : Nat → Nat} {ray ray' : Segs K}

theorem lenIn_moved (hinj : ∀ n < D.N, ∀ m < D.N, τ n = τ m → n = m) (hr : ∀ e ∈ ray, e.1 < D.N)
    (hp : ray'.Perm (ray.map fun e => (τ e.1, e.2))) {n : Nat} (hn : n < D.N) :
    lenIn ray' (τ n) = lenIn ray n := by
  rw [lenIn_perm hp]
  unfold lenIn
  rw [List.map_map]
  congr 1
  refine List.map_congr_left fun e he => ?_
  rw [Function.comp_apply]
  by_cases h : e.1 = n
  · rw [if_pos h, if_pos (by rw [h])]
  · rw [if_neg h, if_neg fun h' => h (hinj _ (hr e he) _ hn h')]

theorem sumDist2_moved (hp : ray'.Perm (ray.map fun e => (τ e.1, e.2))) : sumDist2 ray' = sumDist2 ray := by
  rw [sumDist2_perm hp, sumDist2_eq, sumDist2_eq, List.map_map]
  rfl

theorem lineSum_moved (hr : ∀ e ∈ ray, e.1 < D.N) (hp : ray'.Perm (ray.map fun e => (τ e.1, e.2)))
    {s : Nat} {r r' : Mem K} (h : ∀ n < D.N, r' (τ n + s * D.N) = r (n + s * D.N)) :
    lineSum D.N s ray' r' = lineSum D.N s ray r := by
  rw [lineSum_perm' hp]
  unfold lineSum
  rw [List.map_map]
  congr 1
  refine List.map_congr_left fun e he => ?_
  rw [Function.comp_apply, h e.1 (hr e he)]

end Ray

namespace Relabels

variable {D : Dims} {τ : Nat → Nat} {g g' : Geom K}

theorem surj (h : Relabels D τ g g') : ∀ m < D.N, ∃ n < D.N, τ n = m := by
  intro m hm
  have := Finset.surj_on_of_inj_on_of_card_le (s := Finset.range D.N) (t := Finset.range D.N)
    (fun n _ => τ n) (fun n hn => Finset.mem_range.mpr (h.lt n (Finset.mem_range.mp hn)))
    (fun n m hn hm e => h.inj n (Finset.mem_range.mp hn) m (Finset.mem_range.mp hm) e) le_rfl m
    (Finset.mem_range.mpr hm)
  obtain ⟨n, hn, e⟩ := this
  exact ⟨n, Finset.mem_range.mp hn, e.symm⟩

theorem geomOk (h : Relabels D τ g g') (hg : GeomOk D g) : GeomOk D g' := by
  intro s hs p hp d hd e he
  obtain ⟨f, hf, rfl⟩ := List.mem_map.mp ((h.ray s hs p hp d hd).mem_iff.mp he)
  exact ⟨h.lt _ (hg s hs p hp d hd f hf).1, (hg s hs p hp d hd f hf).2⟩

theorem posImage (h : Relabels D τ g g') {r r' : Mem K} (hm : MovedImage D τ r r') (hr : PosImage D r) :
    PosImage D r' := by
  intro s hs m hm'
  obtain ⟨n, hn, rfl⟩ := h.surj m hm'
  rw [hm s hs n hn]
  exact hr s hs n hn

theorem sum_slice (h : Relabels D τ g g') (f : Nat → K) :
    ∑ n ∈ Finset.range D.N, f (τ n) = ∑ n ∈ Finset.range D.N, f n := by
  refine Finset.sum_nbij τ (fun n hn => Finset.mem_range.mpr (h.lt n (Finset.mem_range.mp hn)))
    (fun n hn m hm e => h.inj n (Finset.mem_range.mp hn) m (Finset.mem_range.mp hm) e) ?_ fun n _ => rfl
  intro m hm
  obtain ⟨n, hn, e⟩ := h.surj m (Finset.mem_range.mp hm)
  exact ⟨n, Finset.mem_coe.mpr (Finset.mem_range.mpr hn), e⟩

end Relabels

/-! ## Runs on two related images -/

theorem foldlM_rel {ι α : Type*} {R : α → α → Prop} {f f' : α → ι → Option α} {l : List ι}
    (hs : ∀ e ∈ l, ∀ x x', R x x' → ∃ y y', f x e = some y ∧ f' x' e = some y' ∧ R y y') :
    ∀ {x x' : α}, R x x' → ∃ y y', l.foldlM f x = some y ∧ l.foldlM f' x' = some y' ∧ R y y' := by
  induction l with
  | nil => exact fun {x x'} h => ⟨x, x', rfl, rfl, h⟩
  | cons e l ih =>
    intro x x' h
    obtain ⟨y, y', e1, e2, e3⟩ := hs e List.mem_cons_self x x' h
    obtain ⟨z, z', f1, f2, f3⟩ := ih (fun e he => hs e (List.mem_cons_of_mem _ he)) e3
    refine ⟨z, z', ?_, ?_, f3⟩
    · rw [List.foldlM_cons, e1]; exact f1
    · rw [List.foldlM_cons, e2]; exact f2

theorem osIter_rel {mt : Method K} {fin : Nat → Acc K → Mem K → Option (Mem K)} (hfin : FinOk fin)
    {D : Dims} {g g' : Geom K} {data : Mem K} {bl : List (List Nat)} (hb : BlocksOk D bl)
    {R : Mem K → Mem K → Prop} (hstep : ∀ s < D.dy, ∀ ps : List Nat, ps.Nodup → (∀ p ∈ ps, p < D.dt) →
      ∀ r r', R r r' → ∃ r1 r1', pureBlock mt fin D g data s ps r = some r1 ∧
        pureBlock mt fin D g' data s ps r' = some r1' ∧ R r1 r1') (n : Nat) {r r' : Mem K} (hr : R r r') :
    ∃ r1 r1', iterM (osIter mt fin D g data bl) n r = some r1 ∧
      iterM (osIter mt fin D g' data bl) n r' = some r1' ∧ R r1 r1' := by
  induction n generalizing r r' with
  | zero => exact ⟨r, r', rfl, rfl, hr⟩
  | succ n ih =>
    have hone : ∃ r1 r1', osIter mt fin D g data bl r = some r1 ∧
        osIter mt fin D g' data bl r' = some r1' ∧ R r1 r1' := by
      rw [osIter_pure hfin hb, osIter_pure hfin hb]
      refine foldlM_rel (R := R) ?_ hr
      intro s hs x x' hx
      refine foldlM_rel (R := R) ?_ hx
      intro ps hps x x' hx
      exact hstep s (List.mem_range.mp hs) ps ((List.nodup_flatten.mp hb.nodup).1 ps hps) (hb.lt ps hps) x x' hx
    obtain ⟨r1, r1', e1, e2, e3⟩ := hone
    obtain ⟨r2, r2', f1, f2, f3⟩ := ih e3
    exact ⟨r2, r2', by rw [iterM, e1]; exact f1, by rw [iterM, e2]; exact f2, f3⟩

theorem osRun_rel {mt : Method K} {fin : Nat → Acc K → Mem K → Option (Mem K)} (hfin : FinOk fin)
    {D : Dims} {g g' : Geom K} {data : Mem K} {nb : Nat} {ind : List Nat} (hb : BlockArgs D.dt nb ind)
    {R : Mem K → Mem K → Prop} (hstep : ∀ s < D.dy, ∀ ps : List Nat, ps.Nodup → (∀ p ∈ ps, p < D.dt) →
      ∀ r r', R r r' → ∃ r1 r1', pureBlock mt fin D g data s ps r = some r1 ∧
        pureBlock mt fin D g' data s ps r' = some r1' ∧ R r1 r1') (n : Nat) {r r' : Mem K} (hr : R r r') :
    ∃ r1 r1', osRun mt fin D g data n nb ind r = some r1 ∧
      osRun mt fin D g' data n nb ind r' = some r1' ∧ R r1 r1' := by
  by_cases h0 : D.dy = 0 ∨ D.dt = 0 ∨ D.dx = 0
  · exact ⟨r, r', by unfold osRun; rw [if_pos h0], by unfold osRun; rw [if_pos h0], hr⟩
  by_cases h1 : nb = 1
  · subst h1
    unfold osRun
    rw [if_neg h0, if_neg h0, if_neg one_ne_zero, if_neg one_ne_zero, blocks_single,
      Option.bind_some, Option.bind_some]
    exact osIter_rel hfin (blocksOk_single D) hstep n hr
  · obtain ⟨hnb, hperm⟩ := hb.resolve_left h1
    unfold osRun
    rw [if_neg h0, if_neg h0, if_neg (by omega), if_neg (by omega), (blocks_perm hnb hperm).1,
      Option.bind_some, Option.bind_some]
    exact osIter_rel hfin (blocksOk_perm hnb hperm) hstep n hr

/-! ## The methods -/

variable {D : Dims} {τ : Nat → Nat} {g g' : Geom K}

/-- The projections of the renumbered object along the renumbered rays are the same. -/
theorem project_moved (hg : GeomOk D g) (h : Relabels D τ g g') {u u' : Mem K} (hu : MovedImage D τ u u')
    (data : Mem K) {s p d : Nat} (hs : s < D.dy) (hp : p < D.dt) (hd : d < D.dx) :
    project D g' u' data (D.data s p d) = project D g u data (D.data s p d) := by
  rw [project_value D g' _ _ hs hp hd, project_value D g _ _ hs hp hd,
    lineSum_moved (fun e he => (hg 0 (by omega) p hp d hd e he).1) (h.ray 0 (by omega) p hp d hd) (hu s hs)]

theorem bart_block_moved (hg : GeomOk D g) (h : Relabels D τ g g') (data : Mem K) {s : Nat} (hs : s < D.dy)
    {ps : List Nat} (hnd : ps.Nodup) (hps : ∀ p ∈ ps, p < D.dt) {r r' : Mem K} (hr : MovedImage D τ r r') :
    ∃ r1 r1', pureBlock bartMethod (bartFin D) D g data s ps r = some r1 ∧
      pureBlock bartMethod (bartFin D) D g' data s ps r' = some r1' ∧ MovedImage D τ r1 r1' := by
  obtain ⟨r1, e1, v1, f1⟩ := bart_block (D := D) (g := g) (data := data) (s := s) hnd hps r
  obtain ⟨r2, e2, v2, f2⟩ := bart_block (D := D) (g := g') (data := data) (s := s) hnd hps r'
  refine ⟨r1, r2, e1, e2, fun t ht n hn => ?_⟩
  by_cases hts : t = s
  · subst hts
    have hl : ∀ q ∈ raysOf D.dx ps, lenIn (g' t q.1 q.2) (τ n) = lenIn (g t q.1 q.2) n := by
      intro q hq
      have hm := mem_raysOf.mp hq
      exact lenIn_moved h.inj (fun e he => (hg t ht _ (hps _ hm.1) _ hm.2 e he).1)
        (h.ray t ht _ (hps _ hm.1) _ hm.2) hn
    have s1 : ((raysOf D.dx ps).map fun q => lenIn (g' t q.1 q.2) (τ n)) =
        (raysOf D.dx ps).map fun q => lenIn (g t q.1 q.2) n := List.map_congr_left hl
    have s2 : ((raysOf D.dx ps).map fun q => if sumDist2 (g' t q.1 q.2) ≠ 0 then
          (data (D.data t q.1 q.2) - lineSum D.N t (g' t q.1 q.2) r') / sumDist2 (g' t q.1 q.2)
              * lenIn (g' t q.1 q.2) (τ n) else 0) =
        (raysOf D.dx ps).map fun q => if sumDist2 (g t q.1 q.2) ≠ 0 then
          (data (D.data t q.1 q.2) - lineSum D.N t (g t q.1 q.2) r) / sumDist2 (g t q.1 q.2)
              * lenIn (g t q.1 q.2) n else 0 := by
      refine List.map_congr_left fun q hq => ?_
      have hm := mem_raysOf.mp hq
      rw [hl q hq, sumDist2_moved (h.ray t ht _ (hps _ hm.1) _ hm.2),
        lineSum_moved (fun e he => (hg t ht _ (hps _ hm.1) _ hm.2 e he).1)
          (h.ray t ht _ (hps _ hm.1) _ hm.2) (hr t ht)]
    rw [v1 n hn, v2 (τ n) (h.lt n hn), s1, s2, hr t ht n hn]
  · rw [f1 _ (other_slice hn hts), f2 _ (other_slice (h.lt n hn) hts), hr t ht n hn]

theorem osem_block_moved (hg : GeomOk D g) (h : Relabels D τ g g') {data : Mem K} (hdat : PosData D data)
    {s : Nat} (hs : s < D.dy) {ps : List Nat} (hnd : ps.Nodup) (hps : ∀ p ∈ ps, p < D.dt) {r r' : Mem K}
    (hr : PosImage D r ∧ MovedImage D τ r r') :
    ∃ r1 r1', pureBlock osemMethod (osemFin D) D g data s ps r = some r1 ∧
      pureBlock osemMethod (osemFin D) D g' data s ps r' = some r1' ∧
      PosImage D r1 ∧ MovedImage D τ r1 r1' := by
  obtain ⟨hpos, hr⟩ := hr
  obtain ⟨r1, e1, p1, v1, u1, f1⟩ := osem_block hg hdat hs hnd hps hpos
  obtain ⟨r2, e2, p2, v2, u2, f2⟩ := osem_block (h.geomOk hg) hdat hs hnd hps (h.posImage hr hpos)
  refine ⟨r1, r2, e1, e2, p1, fun t ht n hn => ?_⟩
  by_cases hts : t = s
  · subst hts
    have hl : ∀ q ∈ raysOf D.dx ps, lenIn (g' t q.1 q.2) (τ n) = lenIn (g t q.1 q.2) n := by
      intro q hq
      have hm := mem_raysOf.mp hq
      exact lenIn_moved h.inj (fun e he => (hg t ht _ (hps _ hm.1) _ hm.2 e he).1)
        (h.ray t ht _ (hps _ hm.1) _ hm.2) hn
    have s1 : ((raysOf D.dx ps).map fun q => lenIn (g' t q.1 q.2) (τ n)) =
        (raysOf D.dx ps).map fun q => lenIn (g t q.1 q.2) n := List.map_congr_left hl
    have s2 : ((raysOf D.dx ps).map fun q => if sumDist2 (g' t q.1 q.2) ≠ 0 then
          data (D.data t q.1 q.2) / lineSum D.N t (g' t q.1 q.2) r' * lenIn (g' t q.1 q.2) (τ n) else 0) =
        (raysOf D.dx ps).map fun q => if sumDist2 (g t q.1 q.2) ≠ 0 then
          data (D.data t q.1 q.2) / lineSum D.N t (g t q.1 q.2) r * lenIn (g t q.1 q.2) n else 0 := by
      refine List.map_congr_left fun q hq => ?_
      have hm := mem_raysOf.mp hq
      rw [hl q hq, sumDist2_moved (h.ray t ht _ (hps _ hm.1) _ hm.2),
        lineSum_moved (fun e he => (hg t ht _ (hps _ hm.1) _ hm.2 e he).1)
          (h.ray t ht _ (hps _ hm.1) _ hm.2) (hr t ht)]
    have w1 := v1 n hn
    have w2 := v2 (τ n) (h.lt n hn)
    rw [s1, s2, hr t ht n hn, ← w1] at w2
    by_cases h0 : ((raysOf D.dx ps).map fun q => lenIn (g t q.1 q.2) n).sum = 0
    · have z1 : ∀ q ∈ raysOf D.dx ps, lenIn (g t q.1 q.2) n = 0 := by
        intro q hq
        refine List.all_zero_of_le_zero_le_of_sum_eq_zero ?_ h0 (List.mem_map.mpr ⟨q, hq, rfl⟩)
        rintro y hy
        obtain ⟨q, hq, rfl⟩ := List.mem_map.mp hy
        have hm := mem_raysOf.mp hq
        exact lenIn_nonneg (hg t ht _ (hps _ hm.1) _ hm.2) n
      rw [u1 n hn z1, u2 (τ n) (h.lt n hn) (fun q hq => by rw [hl q hq, z1 q hq]), hr t ht n hn]
    · exact mul_right_cancel₀ h0 w2
  · rw [f1 _ (other_slice hn hts), f2 _ (other_slice (h.lt n hn) hts), hr t ht n hn]

theorem bart_moved (hg : GeomOk D g) (h : Relabels D τ g g') (data : Mem K) {nb : Nat} {ind : List Nat}
    (hb : BlockArgs D.dt nb ind) (n : Nat) {r r' : Mem K} (hr : MovedImage D τ r r') :
    ∃ r1 r1', bart D g data n nb ind r = some r1 ∧ bart D g' data n nb ind r' = some r1' ∧
      MovedImage D τ r1 r1' :=
  osRun_rel (bartFin_ok D) hb (fun _ hs _ hnd hps _ _ hr => bart_block_moved hg h data hs hnd hps hr) n hr

theorem sirt_moved (hg : GeomOk D g) (h : Relabels D τ g g') (data : Mem K) (n : Nat) {r r' : Mem K}
    (hr : MovedImage D τ r r') :
    ∃ r1 r1', sirt D g data n r = some r1 ∧ sirt D g' data n r' = some r1' ∧ MovedImage D τ r1 r1' := by
  rw [sirt_eq_bart D g data n [0] r, sirt_eq_bart D g' data n [0] r']
  exact bart_moved hg h data (Or.inl rfl) n hr

theorem osem_moved (hg : GeomOk D g) (h : Relabels D τ g g') {data : Mem K} (hdat : PosData D data)
    {nb : Nat} {ind : List Nat} (hb : BlockArgs D.dt nb ind) (n : Nat) {r r' : Mem K} (hpos : PosImage D r)
    (hr : MovedImage D τ r r') :
    ∃ r1 r1', osem D g data n nb ind r = some r1 ∧ osem D g' data n nb ind r' = some r1' ∧
      MovedImage D τ r1 r1' := by
  obtain ⟨r1, r1', e1, e2, -, e3⟩ := osRun_rel (osemFin_ok D) hb
    (R := fun r r' => PosImage D r ∧ MovedImage D τ r r')
    (fun _ hs _ hnd hps _ _ hr => osem_block_moved hg h hdat hs hnd hps hr) n ⟨hpos, hr⟩
  exact ⟨r1, r1', e1, e2, e3⟩

theorem mlem_moved (hg : GeomOk D g) (h : Relabels D τ g g') {data : Mem K} (hdat : PosData D data) (n : Nat)
    {r r' : Mem K} (hpos : PosImage D r) (hr : MovedImage D τ r r') :
    ∃ r1 r1', mlem D g data n r = some r1 ∧ mlem D g' data n r' = some r1' ∧ MovedImage D τ r1 r1' := by
  rw [mlem_eq_osem D g data n [0] r, mlem_eq_osem D g' data n [0] r']
  exact osem_moved hg h hdat (Or.inl rfl) n hpos hr

theorem art_moved (hg : GeomOk D g) (h : Relabels D τ g g') (data : Mem K) (n : Nat) {r r' : Mem K}
    (hr : MovedImage D τ r r') : MovedImage D τ (art D g data n r) (art D g' data n r') := by
  have hk : ∀ t ∈ artOrder D, ∀ r r' : Mem K, MovedImage D τ r r' →
      MovedImage D τ (kacz D g data r t) (kacz D g' data r' t) := by
    intro t ht r r' hr s hs m hm
    obtain ⟨h1, h2, h3⟩ := mem_artOrder.mp ht
    have h0 : 0 < D.dy := by omega
    have hok : ∀ e ∈ g 0 t.1 t.2.1, e.1 < D.N := fun e he => (hg 0 h0 _ h1 _ h2 e he).1
    have hok' : ∀ e ∈ g' 0 t.1 t.2.1, e.1 < D.N := fun e he => (h.geomOk hg 0 h0 _ h1 _ h2 e he).1
    rw [kacz_pixel hok hm, kacz_pixel hok' (h.lt m hm), hr s hs m hm,
      lenIn_moved h.inj hok (h.ray 0 h0 _ h1 _ h2) hm, sumDist2_moved (h.ray 0 h0 _ h1 _ h2),
      lineSum_moved hok (h.ray 0 h0 _ h1 _ h2) (hr t.2.2 h3)]
  have hf : ∀ (l : List (Nat × Nat × Nat)), (∀ t ∈ l, t ∈ artOrder D) → ∀ r r' : Mem K, MovedImage D τ r r' →
      MovedImage D τ (l.foldl (kacz D g data) r) (l.foldl (kacz D g' data) r') := by
    intro l
    induction l with
    | nil => exact fun _ _ _ hr => hr
    | cons t l ih =>
      intro hl r r' hr
      exact ih (fun t ht => hl t (List.mem_cons_of_mem _ ht)) _ _ (hk t (hl t List.mem_cons_self) r r' hr)
  unfold art
  split
  · exact hr
  · induction n generalizing r r' with
    | zero => exact hr
    | succ n ih =>
      rw [Function.iterate_succ_apply, Function.iterate_succ_apply]
      refine ih ?_
      rw [artIter_eq, artIter_eq]
      exact hf _ (fun t ht => ht) r r' hr

theorem fbp_moved (hg : GeomOk D g) (h : Relabels D τ g g') (data : Mem K) {r r' : Mem K}
    (hr : MovedImage D τ r r') : MovedImage D τ (fbp D g data r) (fbp D g' data r') := by
  intro s hs n hn
  rw [fbp_apply D g data r (fun s hs p hp d hd e he => (hg s hs p hp d hd e he).1) hs hn,
    fbp_apply D g' data r' (fun s hs p hp d hd e he => (h.geomOk hg s hs p hp d hd e he).1) hs (h.lt n hn),
    hr s hs n hn]
  congr 1
  refine Finset.sum_congr rfl fun p hp => Finset.sum_congr rfl fun d hd => ?_
  rw [Finset.mem_range] at hp hd
  rw [lenIn_moved h.inj (fun e he => (hg s hs p hp d hd e he).1) (h.ray s hs p hp d hd) hn]

theorem gradient_moved (hg : GeomOk D g) (h : Relabels D τ g g') (data : Mem K) (r : K) {u u' : Mem K}
    (hu : MovedImage D τ u u') : MovedImage D τ (gradient D g data u r) (gradient D g' data u' r) := by
  intro s hs n hn
  rw [gradient_spec hg data u r hs hn, gradient_spec (h.geomOk hg) data u' r hs (h.lt n hn)]
  unfold gradSpec
  refine Finset.sum_congr rfl fun p hp => Finset.sum_congr rfl fun d hd => ?_
  rw [Finset.mem_range] at hp hd
  have hok := fun e he => (hg s hs p hp d hd e he).1
  rw [lenIn_moved h.inj hok (h.ray s hs p hp d hd) hn, lineSum_moved hok (h.ray s hs p hp d hd) (hu s hs)]

theorem forPix_moved (h : Relabels D τ g g') {ngx ngy ngx' ngy' : Nat} (hN : D.N = ngx * ngy)
    (hN' : D.N = ngx' * ngy') {f f' : Nat → Nat → K → K}
    (hf : ∀ s < D.dy, ∀ n < D.N, ∀ v, f' s (τ n + s * D.N) v = f s (n + s * D.N) v) {m m' : Mem K}
    (hm : MovedImage D τ m m') : MovedImage D τ (forPix D.dy ngx ngy f m) (forPix D.dy ngx' ngy' f' m') := by
  intro s hs n hn
  rw [forPix_pixel hN _ _ hs hn, forPix_pixel hN' _ _ hs (h.lt n hn), hm s hs n hn, hf s hs n hn]

theorem sumPix_moved (h : Relabels D τ g g') {ngx ngy ngx' ngy' : Nat} (hN : D.N = ngx * ngy)
    (hN' : D.N = ngx' * ngy') {s : Nat} {f f' : Nat → K}
    (hf : ∀ n < D.N, f' (τ n + s * D.N) = f (n + s * D.N)) : sumPix ngx' ngy' s f' = sumPix ngx ngy s f := by
  rw [sumPix_eq, sumPix_eq, ← hN, ← hN', ← h.sum_slice fun n => f' (n + s * D.N)]
  exact Finset.sum_congr rfl fun n hn => hf n (Finset.mem_range.mp hn)

theorem gradStep_moved (h : Relabels D τ g g') {ngx ngy ngx' ngy' : Nat} (hN : D.N = ngx * ngy)
    (hN' : D.N = ngx' * ngy') (reg0 : K) (i : Nat) {a a' b b' c c' e e' : Mem K} (ha : MovedImage D τ a a')
    (hb : MovedImage D τ b b') (hc : MovedImage D τ c c') (he : MovedImage D τ e e') {s : Nat} (hs : s < D.dy) :
    gradStep ngx' ngy' reg0 i a' b' c' e' s = gradStep ngx ngy reg0 i a b c e s := by
  unfold gradStep
  rw [sumPix_moved h hN hN' (s := s) (f' := fun x => (a' x - b' x) * (a' x - b' x))
      (f := fun x => (a x - b x) * (a x - b x)) fun n hn => by simp only [ha s hs n hn, hb s hs n hn],
    sumPix_moved h hN hN' (s := s) (f' := fun x => (c' x - e' x) * (a' x - b' x))
      (f := fun x => (c x - e x) * (a x - b x)) fun n hn => by
        simp only [ha s hs n hn, hb s hs n hn, hc s hs n hn, he s hs n hn]]

/-- Both runs stop at the same division by zero, or both give an image, the second the moved first one. -/
def MovedResult (D : Dims) (τ : Nat → Nat) : Option (Mem K) → Option (Mem K) → Prop
  | none, none => True
  | some r, some r' => MovedImage D τ r r'
  | _, _ => False

theorem gradRun_moved (hg : GeomOk D g) (h : Relabels D τ g g') {ngx ngy ngx' ngy' : Nat}
    (hN : D.N = ngx * ngy) (hN' : D.N = ngx' * ngy') {extra extra' : Mem K → Mem K → Mem K}
    (hex : ∀ u u' v v', MovedImage D τ u u' → MovedImage D τ v v' → MovedImage D τ (extra u v) (extra' u' v'))
    (data : Mem K) (n : Nat) (r reg0 : K) {u u' : Mem K} (hu : MovedImage D τ u u') :
    MovedResult D τ (gradRun extra D ngx ngy g data n r reg0 u)
      (gradRun extra' D ngx' ngy' g' data n r reg0 u') := by
  have hits : ∀ n i (st st' : GradSt K), MovedImage D τ st.recon st'.recon → MovedImage D τ st.gr0 st'.gr0 →
      MovedImage D τ st.recon0 st'.recon0 →
      MovedResult D τ ((gradIters extra D ngx ngy g data r reg0 n i st).map fun st =>
          forPix D.dy ngx ngy (fun _ _ v => v * r) st.recon)
        ((gradIters extra' D ngx' ngy' g' data r reg0 n i st').map fun st =>
          forPix D.dy ngx' ngy' (fun _ _ v => v * r) st.recon) := by
    intro n
    induction n with
    | zero =>
      intro i st st' h1 _ _
      exact forPix_moved h hN hN' (fun _ _ _ _ _ => rfl) h1
    | succ n ih =>
      intro i st st' h1 h2 h3
      have hgr := hex _ _ _ _ h1 (gradient_moved hg h data r h1)
      have hst : ∀ s < D.dy, gradStep ngx' ngy' reg0 i (extra' st'.recon (gradient D g' data st'.recon r))
          st'.gr0 st'.recon st'.recon0 s = gradStep ngx ngy reg0 i
          (extra st.recon (gradient D g data st.recon r)) st.gr0 st.recon st.recon0 s :=
        fun s hs => gradStep_moved h hN hN' reg0 i hgr h2 h1 h3 hs
      unfold gradIters gradIter
      by_cases hc : ∀ s < D.dy, (gradStep ngx ngy reg0 i (extra st.recon (gradient D g data st.recon r))
          st.gr0 st.recon st.recon0 s).isSome
      · have hc' : ∀ s < D.dy, (gradStep ngx' ngy' reg0 i (extra' st'.recon (gradient D g' data st'.recon r))
            st'.gr0 st'.recon st'.recon0 s).isSome := fun s hs => by rw [hst s hs]; exact hc s hs
        dsimp only
        rw [if_pos hc, if_pos hc', Option.bind_some, Option.bind_some]
        refine ih (i + 1) _ _ ?_ hgr h1
        dsimp only
        refine forPix_moved h hN hN' (fun s hs m hm v => ?_) h1
        rw [hst s hs, hgr s hs m hm]
      · have hc' : ¬ ∀ s < D.dy, (gradStep ngx' ngy' reg0 i (extra' st'.recon (gradient D g' data st'.recon r))
            st'.gr0 st'.recon st'.recon0 s).isSome :=
          fun hh => hc fun s hs => by rw [← hst s hs]; exact hh s hs
        dsimp only
        rw [if_neg hc, if_neg hc']
        trivial
  unfold gradRun
  split
  · exact hu
  · refine hits n 0 _ _ ?_ (fun _ _ _ _ => rfl) ?_ <;> dsimp only
    · exact forPix_moved h hN hN' (fun _ _ _ _ _ => rfl) hu
    · exact forPix_moved h hN hN' (fun _ _ _ _ _ => rfl) hu

theorem grad_moved (hg : GeomOk D g) (h : Relabels D τ g g') {ngx ngy ngx' ngy' : Nat} (hN : D.N = ngx * ngy)
    (hN' : D.N = ngx' * ngy') (data : Mem K) (n : Nat) (r reg0 : K) {u u' : Mem K} (hu : MovedImage D τ u u') :
    MovedResult D τ (grad D ngx ngy g data n r reg0 u) (grad D ngx' ngy' g' data n r reg0 u') :=
  gradRun_moved hg h hN hN' (fun _ _ _ _ _ hv => hv) data n r reg0 hu

theorem tikh_moved (hg : GeomOk D g) (h : Relabels D τ g g') {ngx ngy ngx' ngy' : Nat} (hN : D.N = ngx * ngy)
    (hN' : D.N = ngx' * ngy') (data : Mem K) (n : Nat) (r reg0 reg1 : K) {q q' u u' : Mem K}
    (hq : MovedImage D τ q q') (hu : MovedImage D τ u u') :
    MovedResult D τ (tikh D ngx ngy g data n r reg0 reg1 q u) (tikh D ngx' ngy' g' data n r reg0 reg1 q' u') :=
  gradRun_moved hg h hN hN' (fun _ _ _ _ h1 h2 => forPix_moved h hN hN' (fun s hs m hm v => by
    rw [h1 s hs m hm, hq s hs m hm]) h2) data n r reg0 hu

end Tomopy.Iter
