import Verif.Iter.Os

/-!
# MLEM / OSEM (C34) and SIRT / BART (C36)
-/

set_option linter.unusedSectionVars false

namespace Tomopy.Iter

variable {K : Type*} [Field K] [LinearOrder K] [IsStrictOrderedRing K]

/-! ## Specifications -/

/-- All rays of the call are lists of segments inside the slice. -/
def GeomOk (D : Dims) (g : Geom K) : Prop :=
  ∀ s < D.dy, ∀ p < D.dt, ∀ d < D.dx, SegsOk D.N (g s p d)

/-- All pixels are positive. -/
def PosImage (D : Dims) (r : Mem K) : Prop := ∀ s < D.dy, ∀ n < D.N, 0 < r (n + s * D.N)

/-- All data are positive. -/
def PosData (D : Dims) (data : Mem K) : Prop :=
  ∀ s < D.dy, ∀ p < D.dt, ∀ d < D.dx, 0 < data (D.data s p d)

/-- The data of every ray that hits the image are the line integrals of the image. -/
def Consistent (D : Dims) (g : Geom K) (data r : Mem K) : Prop :=
  ∀ s < D.dy, ∀ p < D.dt, ∀ d < D.dx, sumDist2 (g s p d) ≠ 0 →
    data (D.data s p d) = lineSum D.N s (g s p d) r

/-- Pixel `n` of slice `s` is crossed by no ray. -/
def Unseen (D : Dims) (g : Geom K) (s n : Nat) : Prop :=
  ∀ p < D.dt, ∀ d < D.dx, ∀ e ∈ g s p d, e.1 = n → e.2 = 0

/-- Two images agree on all slices. -/
def SameImage (D : Dims) (r r' : Mem K) : Prop :=
  ∀ s < D.dy, ∀ n < D.N, r (n + s * D.N) = r' (n + s * D.N)

/-! ## Lemmas -/

theorem osemFin_ok (D : Dims) : FinOk (osemFin (K := K) D) := by
  intro s a b r h1 h2
  unfold osemFin
  rw [h1, h2]

theorem bartFin_ok (D : Dims) : FinOk (bartFin (K := K) D) := by
  intro s a b r h1 h2
  unfold bartFin
  rw [h1, h2]

theorem other_slice {N s s' n : Nat} (hn : n < N) (h : s' ≠ s) :
    ¬ (s * N ≤ n + s' * N ∧ n + s' * N < s * N + N) := by
  rintro ⟨h1, h2⟩
  rcases lt_or_gt_of_ne h with h | h
  · have : (s' + 1) * N ≤ s * N := Nat.mul_le_mul_right N h
    have e : (s' + 1) * N = s' * N + N := by ring
    omega
  · have : (s + 1) * N ≤ s' * N := Nat.mul_le_mul_right N h
    have e : (s + 1) * N = s * N + N := by ring
    omega

theorem lenIn_of_unseen {D : Dims} {g : Geom K} {s n : Nat} (h : Unseen D g s n) {p d : Nat}
    (hp : p < D.dt) (hd : d < D.dx) : lenIn (g s p d) n = 0 := by
  apply List.sum_eq_zero
  intro x hx
  obtain ⟨e, he, rfl⟩ := List.mem_map.mp hx
  split
  · rename_i h1; exact h p hp d hd e he h1
  · rfl

theorem list_sum_nonneg_of {α : Type*} (l : List α) (f : α → K) (h : ∀ a ∈ l, 0 ≤ f a) :
    0 ≤ (l.map f).sum := by
  apply List.sum_nonneg
  intro x hx
  obtain ⟨a, ha, rfl⟩ := List.mem_map.mp hx
  exact h a ha

theorem list_sum_pos_of {α : Type*} (l : List α) (f : α → K) (h : ∀ a ∈ l, 0 ≤ f a) {a : α}
    (ha : a ∈ l) (hpos : 0 < f a) : 0 < (l.map f).sum := by
  have : f a ≤ (l.map f).sum := List.single_le_sum (by
    intro x hx
    obtain ⟨a, ha, rfl⟩ := List.mem_map.mp hx
    exact h a ha) _ (List.mem_map.mpr ⟨a, ha, rfl⟩)
  linarith

theorem exists_ne_of_sum_ne {α : Type*} (l : List α) (f : α → K) (h : (l.map f).sum ≠ 0) :
    ∃ a ∈ l, f a ≠ 0 := by
  by_contra hc
  apply h
  apply List.sum_eq_zero
  intro x hx
  obtain ⟨a, ha, rfl⟩ := List.mem_map.mp hx
  by_contra h0
  exact hc ⟨a, ha, h0⟩

theorem sumDist2_ne_of_lenIn {ray : Segs K} {n : Nat} (h : lenIn ray n ≠ 0) : sumDist2 ray ≠ 0 := by
  obtain ⟨e, he, h1⟩ := exists_ne_of_sum_ne ray _ h
  split at h1
  · exact sumDist2_ne_zero_of he h1
  · exact absurd rfl h1

/-- One OSEM subset update of a positive image with positive data: defined, positive, and the
explicit formula. -/
theorem osem_block {D : Dims} {g : Geom K} {data : Mem K} (hg : GeomOk D g) (hd : PosData D data)
    {s : Nat} (hs : s < D.dy) {ps : List Nat} (hnd : ps.Nodup) (hps : ∀ p ∈ ps, p < D.dt)
    {r : Mem K} (hr : PosImage D r) :
    ∃ r', pureBlock osemMethod (osemFin D) D g data s ps r = some r' ∧ PosImage D r' ∧
      (∀ n < D.N, r' (n + s * D.N) *
          ((raysOf D.dx ps).map fun q => lenIn (g s q.1 q.2) n).sum =
        r (n + s * D.N) * ((raysOf D.dx ps).map fun q => if sumDist2 (g s q.1 q.2) ≠ 0 then
          data (D.data s q.1 q.2) / lineSum D.N s (g s q.1 q.2) r * lenIn (g s q.1 q.2) n
          else 0).sum) ∧
      (∀ n < D.N, (∀ q ∈ raysOf D.dx ps, lenIn (g s q.1 q.2) n = 0) →
        r' (n + s * D.N) = r (n + s * D.N)) ∧
      (∀ x, ¬ (s * D.N ≤ x ∧ x < s * D.N + D.N) → r' x = r x) := by
  have hsim : ∀ p ∈ ps, ∀ d < D.dx, sumDist2 (g s p d) ≠ 0 → 0 < lineSum D.N s (g s p d) r :=
    fun p hp d hdx h => lineSum_pos (hg s hs p (hps p hp) d hdx) (hr s hs) h
  obtain ⟨a, h1, h2, h3⟩ := pureBlock_spec (mt := osemMethod) (fin := osemFin D) (g := g)
    (data := data) (s := s) hnd hps r
    (fun p d => data (D.data s p d) / lineSum D.N s (g s p d) r) (by
      intro p hp d hdx h
      simp only [osemMethod]
      rw [if_neg (hsim p hp d hdx h).ne'])
  obtain ⟨r', h4, h5, h6⟩ := osemFin_apply D s a r
  have hupd : ∀ n, a.upd n = ((raysOf D.dx ps).map fun q => if sumDist2 (g s q.1 q.2) ≠ 0 then
          data (D.data s q.1 q.2) / lineSum D.N s (g s q.1 q.2) r * lenIn (g s q.1 q.2) n
          else 0).sum := by
    intro n
    rw [h3 n]
    congr 1
    apply List.map_congr_left
    intro q _
    rw [updIn_mul osemMethod (fun _ u => u) (fun _ _ _ => rfl)]
  have hq : ∀ q ∈ raysOf D.dx ps, SegsOk D.N (g s q.1 q.2) := fun q hq =>
    hg s hs _ (hps _ (mem_raysOf.mp hq).1) _ (mem_raysOf.mp hq).2
  have hnonneg : ∀ n, ∀ q ∈ raysOf D.dx ps, 0 ≤ (if sumDist2 (g s q.1 q.2) ≠ 0 then
          data (D.data s q.1 q.2) / lineSum D.N s (g s q.1 q.2) r * lenIn (g s q.1 q.2) n
          else 0) := by
    intro n q hqm
    split
    · rename_i h0
      have hm := mem_raysOf.mp hqm
      exact mul_nonneg (div_nonneg (hd s hs _ (hps _ hm.1) _ hm.2).le
        (hsim _ hm.1 _ hm.2 h0).le) (lenIn_nonneg (hq q hqm) n)
    · exact le_refl _
  refine ⟨r', by rw [h1, h4], ?_, ?_, ?_, h6⟩
  · intro s' hs' n hn
    by_cases e : s' = s
    · subst e
      rw [h5 n hn]
      split
      · rename_i hne
        have hne' := hne
        rw [h2 n] at hne
        obtain ⟨q, hqm, hql⟩ := exists_ne_of_sum_ne _ _ hne
        have hm := mem_raysOf.mp hqm
        have hl0 := sumDist2_ne_of_lenIn hql
        have hpos : 0 < lenIn (g s' q.1 q.2) n :=
          lt_of_le_of_ne (lenIn_nonneg (hq q hqm) n) (Ne.symm hql)
        have hsum : 0 < a.sumd n := by
          rw [h2 n]
          exact list_sum_pos_of _ _ (fun q hq' => lenIn_nonneg (hq q hq') n) hqm hpos
        have hu : 0 < a.upd n := by
          rw [hupd n]
          refine list_sum_pos_of _ _ (hnonneg n) hqm ?_
          rw [if_pos hl0]
          exact mul_pos (div_pos (hd s' hs' _ (hps _ hm.1) _ hm.2) (hsim _ hm.1 _ hm.2 hl0)) hpos
        exact mul_pos (hr s' hs' n hn) (div_pos hu hsum)
      · exact hr s' hs' n hn
    · rw [h6 _ (other_slice hn e)]
      exact hr s' hs' n hn
  · intro n hn
    rw [h5 n hn, ← h2 n, ← hupd n]
    split
    · rename_i hne
      rw [mul_assoc, div_mul_cancel₀ _ hne]
    · rename_i hne
      rw [not_not] at hne
      have hz : a.upd n = 0 := by
        rw [hupd n]
        apply List.sum_eq_zero
        intro x hx
        obtain ⟨q, hqm, rfl⟩ := List.mem_map.mp hx
        have hl : lenIn (g s q.1 q.2) n = 0 := by
          by_contra h0
          have hpos : 0 < lenIn (g s q.1 q.2) n :=
            lt_of_le_of_ne (lenIn_nonneg (hq q hqm) n) (Ne.symm h0)
          have : 0 < a.sumd n := by
            rw [h2 n]
            exact list_sum_pos_of _ _ (fun q hq' => lenIn_nonneg (hq q hq') n) hqm hpos
          linarith
        rw [hl]
        simp
      rw [hne, hz]
  · intro n hn hz
    rw [h5 n hn, if_neg]
    rw [not_not, h2 n]
    apply List.sum_eq_zero
    intro x hx
    obtain ⟨q, hqm, rfl⟩ := List.mem_map.mp hx
    exact hz q hqm

/-! ## C34 -/

/-- **C34**: started from a positive image with positive data, `osem` never divides by zero and
its result is positive, for every geometry, number of iterations, number of blocks and
permutation of the projections. -/
theorem osem_positive {D : Dims} {g : Geom K} {data : Mem K} {num_iter nb : Nat} {ind : List Nat}
    (hg : GeomOk D g) (hd : PosData D data) (hb : BlockArgs D.dt nb ind) {recon : Mem K}
    (hr : PosImage D recon) :
    ∃ r', osem D g data num_iter nb ind recon = some r' ∧ PosImage D r' :=
  osRun_inv (osemFin_ok D) hb (PosImage D) (fun s hs ps hnd hps r hr => by
    obtain ⟨r', h1, h2, _⟩ := osem_block hg hd hs hnd hps hr
    exact ⟨r', h1, h2⟩) recon hr

/-- **C34**: the same for `mlem`. -/
theorem mlem_positive {D : Dims} {g : Geom K} {data : Mem K} {num_iter : Nat}
    (hg : GeomOk D g) (hd : PosData D data) {recon : Mem K} (hr : PosImage D recon) :
    ∃ r', mlem D g data num_iter recon = some r' ∧ PosImage D r' :=
  osem_positive hg hd (Or.inl rfl) hr

/-- The total length of all rays of slice `s` in pixel `n` (specification). -/
def sensitivity (D : Dims) (g : Geom K) (s n : Nat) : K :=
  ((raysOf D.dx (List.range D.dt)).map fun q => lenIn (g s q.1 q.2) n).sum

/-- The sum of the data of slice `s` over the rays that hit the image (specification). -/
def counts (D : Dims) (g : Geom K) (data : Mem K) (s : Nat) : K :=
  ((raysOf D.dx (List.range D.dt)).map fun q =>
    if sumDist2 (g s q.1 q.2) ≠ 0 then data (D.data s q.1 q.2) else 0).sum

theorem sum_list_comm {α : Type*} (l : List α) (N : Nat) (f : α → Nat → K) :
    ∑ n ∈ Finset.range N, (l.map fun a => f a n).sum =
      (l.map fun a => ∑ n ∈ Finset.range N, f a n).sum := by
  induction l with
  | nil => simp
  | cons a l ih => simp only [List.map_cons, List.sum_cons, Finset.sum_add_distrib, ih]

theorem mlem_block_counts {D : Dims} {g : Geom K} {data : Mem K} (hg : GeomOk D g)
    (hd : PosData D data) {s : Nat} (hs : s < D.dy) {r : Mem K} (hr : PosImage D r) :
    ∃ r', pureBlock osemMethod (osemFin D) D g data s (List.range D.dt) r = some r' ∧
      PosImage D r' ∧ (∀ x, ¬ (s * D.N ≤ x ∧ x < s * D.N + D.N) → r' x = r x) ∧
      ∑ n ∈ Finset.range D.N, r' (n + s * D.N) * sensitivity D g s n = counts D g data s := by
  have hps : ∀ p ∈ List.range D.dt, p < D.dt := fun p hp => List.mem_range.mp hp
  obtain ⟨r', h1, h2, h3, _, h4⟩ := osem_block hg hd hs List.nodup_range hps hr
  refine ⟨r', h1, h2, h4, ?_⟩
  have e : ∀ n ∈ Finset.range D.N, r' (n + s * D.N) * sensitivity D g s n =
      ((raysOf D.dx (List.range D.dt)).map fun q => r (n + s * D.N) *
        (if sumDist2 (g s q.1 q.2) ≠ 0 then
          data (D.data s q.1 q.2) / lineSum D.N s (g s q.1 q.2) r * lenIn (g s q.1 q.2) n
          else 0)).sum := by
    intro n hn
    rw [List.sum_map_mul_left]
    exact h3 n (Finset.mem_range.mp hn)
  rw [Finset.sum_congr rfl e, sum_list_comm]
  unfold counts
  congr 1
  apply List.map_congr_left
  intro q hqm
  have hm := mem_raysOf.mp hqm
  have hok := hg s hs _ (hps _ hm.1) _ hm.2
  by_cases h0 : sumDist2 (g s q.1 q.2) ≠ 0
  · simp only [if_pos h0]
    have hsim := lineSum_pos hok (hr s hs) h0
    have : ∀ n ∈ Finset.range D.N, r (n + s * D.N) *
        (data (D.data s q.1 q.2) / lineSum D.N s (g s q.1 q.2) r * lenIn (g s q.1 q.2) n) =
        data (D.data s q.1 q.2) / lineSum D.N s (g s q.1 q.2) r *
          (r (n + s * D.N) * lenIn (g s q.1 q.2) n) := by
      intro n _; ring
    rw [Finset.sum_congr rfl this, ← Finset.mul_sum,
      ← lineSum_eq_sum_lenIn (fun e he => (hok e he).1), div_mul_cancel₀ _ hsim.ne']
  · simp only [if_neg h0, mul_zero]
    simp

/-- **C34** (count preservation): after any positive number of `mlem` iterations from a positive
image, the ray-weighted sum of every slice equals the sum of the data over the rays that hit the
image. -/
theorem mlem_counts {D : Dims} {g : Geom K} {data : Mem K} {num_iter : Nat} (hni : 0 < num_iter)
    (hg : GeomOk D g) (hd : PosData D data) (hne : ¬ (D.dy = 0 ∨ D.dt = 0 ∨ D.dx = 0))
    {recon : Mem K} (hr : PosImage D recon) :
    ∃ r', mlem D g data num_iter recon = some r' ∧
      ∀ s < D.dy, ∑ n ∈ Finset.range D.N, r' (n + s * D.N) * sensitivity D g s n =
        counts D g data s := by
  obtain ⟨k, rfl⟩ : ∃ k, num_iter = k + 1 := ⟨num_iter - 1, by omega⟩
  have hmlem : ∀ n, mlem D g data n recon =
      iterM (osIter osemMethod (osemFin D) D g data [List.range D.dt]) n recon := by
    intro n
    unfold mlem osem osRun
    rw [if_neg hne, blocks_single]
    rfl
  rw [hmlem, iterM_succ_last, ← hmlem]
  obtain ⟨r1, h1, hp1⟩ := mlem_positive (num_iter := k) hg hd hr
  rw [h1]
  simp only [Option.bind_some]
  rw [osIter_pure (osemFin_ok D) (blocksOk_single D)]
  -- slice by slice
  have key : ∀ m ≤ D.dy, ∃ r', (List.range m).foldlM (fun r s => [List.range D.dt].foldlM
      (fun r ps => pureBlock osemMethod (osemFin D) D g data s ps r) r) r1 = some r' ∧
      PosImage D r' ∧ ∀ s < m, ∑ n ∈ Finset.range D.N, r' (n + s * D.N) * sensitivity D g s n =
        counts D g data s := by
    intro m
    induction m with
    | zero => intro _; exact ⟨r1, rfl, hp1, by simp⟩
    | succ m ih =>
      intro hm
      obtain ⟨r2, h2, hp2, hc2⟩ := ih (by omega)
      obtain ⟨r3, h3, hp3, hf3, hc3⟩ := mlem_block_counts hg hd (s := m) (by omega) hp2
      refine ⟨r3, ?_, hp3, ?_⟩
      · rw [List.range_succ, List.foldlM_append, h2]
        show (some r2).bind (fun r => [m].foldlM _ r) = some r3
        simp only [Option.bind_some, List.foldlM_cons, List.foldlM_nil, h3]
        rfl
      · intro s hs
        by_cases e : s = m
        · subst e; exact hc3
        · rw [← hc2 s (by omega)]
          apply Finset.sum_congr rfl
          intro n hn
          rw [hf3 _ (other_slice (Finset.mem_range.mp hn) e)]
  obtain ⟨r', h2, _, h3⟩ := key D.dy (le_refl _)
  exact ⟨r', h2, h3⟩

/-- **C34**: a positive image that is consistent with the data is a fixed point of `osem`. -/
theorem osem_consistent_fixed {D : Dims} {g : Geom K} {data : Mem K} {num_iter nb : Nat}
    {ind : List Nat} (hg : GeomOk D g) (hd : PosData D data) (hb : BlockArgs D.dt nb ind)
    {recon : Mem K} (hr : PosImage D recon) (hc : Consistent D g data recon) :
    ∃ r', osem D g data num_iter nb ind recon = some r' ∧ SameImage D r' recon := by
  refine osRun_inv (osemFin_ok D) hb (fun r => SameImage D r recon) ?_ recon (fun _ _ _ _ => rfl)
  intro s hs ps hnd hps r hsame
  have hrp : PosImage D r := fun s' hs' n hn => by rw [hsame s' hs' n hn]; exact hr s' hs' n hn
  obtain ⟨r', h1, _, h3, h4, h5⟩ := osem_block hg hd hs hnd hps hrp
  refine ⟨r', h1, ?_⟩
  intro s' hs' n hn
  by_cases e : s' = s
  · subst e
    rw [← hsame s' hs' n hn]
    by_cases hz : ∀ q ∈ raysOf D.dx ps, lenIn (g s' q.1 q.2) n = 0
    · exact h4 n hn hz
    · have hq : ∀ q ∈ raysOf D.dx ps, SegsOk D.N (g s' q.1 q.2) := fun q hq =>
        hg s' hs' _ (hps _ (mem_raysOf.mp hq).1) _ (mem_raysOf.mp hq).2
      have hpos : 0 < ((raysOf D.dx ps).map fun q => lenIn (g s' q.1 q.2) n).sum := by
        rw [not_forall] at hz
        obtain ⟨q, hz⟩ := hz
        rw [not_forall] at hz
        obtain ⟨hqm, hz⟩ := hz
        exact list_sum_pos_of _ _ (fun q hq' => lenIn_nonneg (hq q hq') n) hqm
          (lt_of_le_of_ne (lenIn_nonneg (hq q hqm) n) (Ne.symm hz))
      have h3' := h3 n hn
      have e2 : ((raysOf D.dx ps).map fun q => if sumDist2 (g s' q.1 q.2) ≠ 0 then
          data (D.data s' q.1 q.2) / lineSum D.N s' (g s' q.1 q.2) r * lenIn (g s' q.1 q.2) n
          else 0) = (raysOf D.dx ps).map fun q => lenIn (g s' q.1 q.2) n := by
        apply List.map_congr_left
        intro q hqm
        have hm := mem_raysOf.mp hqm
        by_cases h0 : sumDist2 (g s' q.1 q.2) ≠ 0
        · rw [if_pos h0, hc s' hs' _ (hps _ hm.1) _ hm.2 h0]
          have : lineSum D.N s' (g s' q.1 q.2) recon = lineSum D.N s' (g s' q.1 q.2) r :=
            lineSum_congr fun e he => (hsame s' hs' e.1 (hq q hqm e he).1).symm
          rw [this, div_self (lineSum_pos (hq q hqm) (hrp s' hs') h0).ne', one_mul]
        · rw [if_neg h0]
          by_contra hne
          exact h0 (sumDist2_ne_of_lenIn (Ne.symm hne))
      rw [e2] at h3'
      exact mul_right_cancel₀ hpos.ne' h3'
  · rw [h5 _ (other_slice hn e)]
    exact hsame s' hs' n hn

/-- **C34**: a pixel that no ray crosses keeps its value in `osem`. -/
theorem osem_unseen {D : Dims} {g : Geom K} {data : Mem K} {num_iter nb : Nat}
    {ind : List Nat} (hg : GeomOk D g) (hd : PosData D data) (hb : BlockArgs D.dt nb ind)
    {recon : Mem K} (hr : PosImage D recon) {s n : Nat} (hn : n < D.N)
    (hu : Unseen D g s n) :
    ∃ r', osem D g data num_iter nb ind recon = some r' ∧ r' (n + s * D.N) = recon (n + s * D.N) := by
  have := osRun_inv (num_iter := num_iter) (mt := osemMethod) (g := g) (data := data)
    (osemFin_ok (K := K) D) hb
    (fun r => PosImage D r ∧ r (n + s * D.N) = recon (n + s * D.N)) (by
    intro s' hs' ps hnd hps r hr
    obtain ⟨r', h1, h2, _, h4, h5⟩ := osem_block hg hd hs' hnd hps hr.1
    refine ⟨r', h1, h2, ?_⟩
    by_cases e : s = s'
    · subst e
      rw [h4 n hn, hr.2]
      intro q hq
      exact lenIn_of_unseen hu (hps _ (mem_raysOf.mp hq).1) (mem_raysOf.mp hq).2
    · rw [h5 _ (other_slice hn e), hr.2]) recon ⟨hr, rfl⟩
  obtain ⟨r', h1, _, h2⟩ := this
  exact ⟨r', h1, h2⟩

/-! ## C36 -/

/-- One BART subset update: always defined, with the explicit formula. -/
theorem bart_block {D : Dims} {g : Geom K} {data : Mem K}
    {s : Nat} {ps : List Nat} (hnd : ps.Nodup) (hps : ∀ p ∈ ps, p < D.dt) (r : Mem K) :
    ∃ r', pureBlock bartMethod (bartFin D) D g data s ps r = some r' ∧
      (∀ n < D.N, r' (n + s * D.N) = r (n + s * D.N) +
        if ((raysOf D.dx ps).map fun q => lenIn (g s q.1 q.2) n).sum ≠ 0 then
          ((raysOf D.dx ps).map fun q => if sumDist2 (g s q.1 q.2) ≠ 0 then
            (data (D.data s q.1 q.2) - lineSum D.N s (g s q.1 q.2) r) / sumDist2 (g s q.1 q.2)
              * lenIn (g s q.1 q.2) n else 0).sum /
          ((raysOf D.dx ps).map fun q => lenIn (g s q.1 q.2) n).sum
        else 0) ∧
      (∀ x, ¬ (s * D.N ≤ x ∧ x < s * D.N + D.N) → r' x = r x) := by
  obtain ⟨a, h1, h2, h3⟩ := pureBlock_spec (mt := bartMethod) (fin := bartFin D) (g := g)
    (data := data) (s := s) hnd hps r
    (fun p d => (data (D.data s p d) - lineSum D.N s (g s p d) r) / sumDist2 (g s p d)) (by
      intro p hp d hdx h; rfl)
  obtain ⟨r', h4, h5, h6⟩ := bartFin_apply D s a r
  refine ⟨r', by rw [h1, h4], ?_, h6⟩
  intro n hn
  rw [h5 n hn, h2 n]
  split
  · congr 2
    rw [h3 n]
    congr 1
    apply List.map_congr_left
    intro q _
    rw [updIn_mul bartMethod (fun _ u => u) (fun _ _ _ => rfl)]
  · rw [add_zero]

/-- **C36**: `bart` (and so `sirt`) is defined for all data and images and leaves an image that is
consistent with the data unchanged. -/
theorem bart_consistent_fixed {D : Dims} {g : Geom K} {data : Mem K} {num_iter nb : Nat}
    {ind : List Nat} (hg : GeomOk D g) (hb : BlockArgs D.dt nb ind)
    {recon : Mem K} (hc : Consistent D g data recon) :
    ∃ r', bart D g data num_iter nb ind recon = some r' ∧ SameImage D r' recon := by
  refine osRun_inv (bartFin_ok D) hb (fun r => SameImage D r recon) ?_ recon (fun _ _ _ _ => rfl)
  intro s hs ps hnd hps r hsame
  obtain ⟨r', h1, h2, h3⟩ := bart_block (D := D) (g := g) (data := data) (s := s) hnd hps r
  refine ⟨r', h1, ?_⟩
  intro s' hs' n hn
  by_cases e : s' = s
  · subst e
    rw [h2 n hn, ← hsame s' hs' n hn]
    have hz : ((raysOf D.dx ps).map fun q => if sumDist2 (g s' q.1 q.2) ≠ 0 then
            (data (D.data s' q.1 q.2) - lineSum D.N s' (g s' q.1 q.2) r) / sumDist2 (g s' q.1 q.2)
              * lenIn (g s' q.1 q.2) n else 0).sum = 0 := by
      apply List.sum_eq_zero
      intro x hx
      obtain ⟨q, hqm, rfl⟩ := List.mem_map.mp hx
      have hm := mem_raysOf.mp hqm
      have hok := hg s' hs' _ (hps _ hm.1) _ hm.2
      split
      · rename_i h0
        rw [hc s' hs' _ (hps _ hm.1) _ hm.2 h0,
          lineSum_congr fun e he => (hsame s' hs' e.1 (hok e he).1).symm]
        simp
      · rfl
    rw [hz]
    simp
  · rw [h3 _ (other_slice hn e)]
    exact hsame s' hs' n hn

theorem sirt_consistent_fixed {D : Dims} {g : Geom K} {data : Mem K} {num_iter : Nat}
    (hg : GeomOk D g) {recon : Mem K} (hc : Consistent D g data recon) :
    ∃ r', sirt D g data num_iter recon = some r' ∧ SameImage D r' recon :=
  bart_consistent_fixed hg (Or.inl rfl) hc

/-- **C36**: a pixel that no ray crosses keeps its value in `bart` (and so `sirt`), for any data
and image; memory outside the volume is not written. -/
theorem bart_unseen {D : Dims} {g : Geom K} {data : Mem K} {num_iter nb : Nat}
    {ind : List Nat} (hb : BlockArgs D.dt nb ind) (recon : Mem K) {s n : Nat} (hn : n < D.N)
    (hu : Unseen D g s n) :
    ∃ r', bart D g data num_iter nb ind recon = some r' ∧ r' (n + s * D.N) = recon (n + s * D.N) := by
  refine osRun_inv (bartFin_ok D) hb (fun r => r (n + s * D.N) = recon (n + s * D.N)) ?_ recon rfl
  intro s' hs' ps hnd hps r hr
  obtain ⟨r', h1, h2, h3⟩ := bart_block (D := D) (g := g) (data := data) (s := s') hnd hps r
  refine ⟨r', h1, ?_⟩
  by_cases e : s = s'
  · subst e
    rw [h2 n hn, hr, if_neg, add_zero]
    rw [not_not]
    apply List.sum_eq_zero
    intro x hx
    obtain ⟨q, hqm, rfl⟩ := List.mem_map.mp hx
    exact lenIn_of_unseen hu (hps _ (mem_raysOf.mp hqm).1) (mem_raysOf.mp hqm).2
  · rw [h3 _ (other_slice hn e), hr]

/-- **C36**: `bart` writes only inside the volume. -/
theorem bart_frame {D : Dims} {g : Geom K} {data : Mem K} {num_iter nb : Nat}
    {ind : List Nat} (hb : BlockArgs D.dt nb ind) (recon : Mem K) {x : Nat} (hx : D.dy * D.N ≤ x) :
    ∃ r', bart D g data num_iter nb ind recon = some r' ∧ r' x = recon x := by
  refine osRun_inv (bartFin_ok D) hb (fun r => r x = recon x) ?_ recon rfl
  intro s' hs' ps hnd hps r hr
  obtain ⟨r', h1, _, h3⟩ := bart_block (D := D) (g := g) (data := data) (s := s') hnd hps r
  refine ⟨r', h1, ?_⟩
  rw [h3 x, hr]
  have : (s' + 1) * D.N ≤ D.dy * D.N := Nat.mul_le_mul_right _ hs'
  have e : (s' + 1) * D.N = s' * D.N + D.N := by ring
  omega

section Examples

/-- Two slices, two projections of two rays over two pixels; the second ray of the second
projection misses. -/
def osD : Dims := ⟨2, 2, 2, 3⟩
def osG : Geom ℚ := fun s p d =>
  if p = 0 then (if d = 0 then [(0, 1), (1, 1)] else [(1, 1)])
  else if d = 0 then [(0, 1 / 2), (1, s + 1)] else []
def osData : Mem ℚ := fun i => i + 1

example : GeomOk osD osG := by unfold GeomOk SegsOk; decide +kernel
example : PosData osD osData := by unfold PosData; decide +kernel
example : PosImage osD (fun _ => (1 : ℚ)) := by unfold PosImage; decide +kernel
example : BlockArgs 2 2 [1, 0] := Or.inr (by decide)
example : Unseen osD osG 1 2 := by unfold Unseen; decide +kernel
/-- Pixels change: the methods do something. -/
example : (mlem osD osG osData 1 (fun _ => 1)).map (· 1) ≠ some 1 := by decide +kernel
example : (sirt osD osG osData 1 (fun _ => 1)).map (· 0) ≠ some 1 := by decide +kernel
/-- A consistent image and its data. -/
example : Consistent osD osG (fun i => ([2, 1, 3 / 2, 0, 2, 1, 5 / 2, 0] : List ℚ).getD i 0)
    (fun _ => 1) := by
  unfold Consistent; decide +kernel

/-- **C34** (refutation for data with zeros): one pixel, one ray, a zero measurement. The first
iteration sets the pixel to zero, the second one computes `0 / 0`. -/
theorem mlem_zero_data_undefined :
    mlem (K := ℚ) ⟨1, 1, 1, 1⟩ (fun _ _ _ => [(0, 1)]) (fun _ => 0) 2 (fun _ => 1) = none := by
  decide +kernel

end Examples

end Tomopy.Iter
