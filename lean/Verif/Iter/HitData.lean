import Verif.Iter.ConvMlem2
import Verif.Iter.Alone

/-! # Data of rays that miss the image (C171)

The ordered-subset methods do not look at the data of rays that miss the image, so the theorems for positive
data need positive data only where a ray hits.  If the data are the line integrals of an image without negative
pixels, the limit of `mlem` has the same line integrals. -/

set_option linter.unusedSectionVars false

namespace Tomopy.Iter

open Filter Topology

section Field

variable {K : Type} [Field K] [LinearOrder K] [IsStrictOrderedRing K]

/-- The data agree on the rays that hit the image. -/
def SameHits (D : Dims) (g : Geom K) (data data' : Mem K) : Prop :=
  ∀ s < D.dy, ∀ p < D.dt, ∀ d < D.dx, sumDist2 (g s p d) ≠ 0 → data (D.data s p d) = data' (D.data s p d)

theorem foldlM_congr_mem {α β : Type} {f f' : β → α → Option β} : ∀ (l : List α) (b : β),
    (∀ a ∈ l, ∀ b, f b a = f' b a) → l.foldlM f b = l.foldlM f' b := by
  intro l
  induction l with
  | nil => intros; rfl
  | cons a as ih =>
    intro b h
    rw [List.foldlM_cons, List.foldlM_cons, h a List.mem_cons_self b]
    congr 1
    funext b'
    exact ih b' fun a' ha' => h a' (List.mem_cons_of_mem _ ha')

theorem accRay_data_congr (mt : Method K) {D : Dims} {s p d : Nat} {ray : Segs K} {data data' : Mem K}
    (h : sumDist2 ray ≠ 0 → data (D.data s p d) = data' (D.data s p d)) (recon : Mem K) (a : Acc K) :
    accRay mt D s p d ray data recon a = accRay mt D s p d ray data' recon a := by
  unfold accRay
  by_cases h0 : sumDist2 ray = 0
  · rw [if_neg (not_not.mpr h0), if_neg (not_not.mpr h0)]
  · rw [if_pos h0, if_pos h0, h h0]

/-- The data of rays that miss the image are not used. -/
theorem osRun_data_congr (mt : Method K) (fin : Nat → Acc K → Mem K → Option (Mem K)) {D : Dims} {g : Geom K}
    {data data' : Mem K} (h : SameHits D g data data') (num_iter : Nat) {nb : Nat} {ind : List Nat}
    (hb : BlockArgs D.dt nb ind) (recon : Mem K) :
    osRun mt fin D g data num_iter nb ind recon = osRun mt fin D g data' num_iter nb ind recon := by
  have key : ∀ blocks : List (List Nat), (∀ b ∈ blocks, ∀ p ∈ b, p < D.dt) →
      osIter mt fin D g data blocks = osIter mt fin D g data' blocks := by
    intro blocks hbl
    funext r
    unfold osIter
    congr 1
    refine foldlM_congr_mem _ _ fun s hs st => foldlM_congr_mem _ _ fun ps hps st => ?_
    unfold osBlock
    congr 1
    unfold accBlock
    refine foldlM_congr_mem _ _ fun p hp a => foldlM_congr_mem _ _ fun d hd a => ?_
    exact accRay_data_congr mt (h s (List.mem_range.mp hs) p (hbl ps hps p hp) d (List.mem_range.mp hd)) _ _
  unfold osRun
  by_cases h0 : D.dy = 0 ∨ D.dt = 0 ∨ D.dx = 0
  · rw [if_pos h0, if_pos h0]
  rw [if_neg h0, if_neg h0]
  rcases hb with hn | ⟨h1, h2⟩
  · subst hn
    rw [if_neg one_ne_zero, if_neg one_ne_zero, blocks_single, Option.bind_some, Option.bind_some,
      key _ (blocksOk_single D).lt]
  · rw [if_neg (by omega), if_neg (by omega), blocks_eq _ _ _ h1 (by rw [h2.length_eq]; simp),
      Option.bind_some, Option.bind_some, key _ (blocksOk_perm h1 h2).lt]

/-- The data of the rays that hit the image are positive. -/
def PosHits (D : Dims) (g : Geom K) (data : Mem K) : Prop :=
  ∀ s < D.dy, ∀ p < D.dt, ∀ d < D.dx, sumDist2 (g s p d) ≠ 0 → 0 < data (D.data s p d)

theorem posHits_fill {D : Dims} {g : Geom K} {data : Mem K} (h : PosHits D g data) :
    ∃ data', PosData D data' ∧ SameHits D g data data' := by
  refine ⟨fun n => if 0 < data n then data n else 1, fun s _ p _ d _ => ?_, fun s hs p hp d hd h0 => ?_⟩
  · dsimp only
    split
    · assumption
    · exact one_pos
  · dsimp only
    rw [if_pos (h s hs p hp d hd h0)]

/-- `osem` keeps positive images positive if the data of the rays that hit are positive. -/
theorem osem_positive_hits {D : Dims} {g : Geom K} {data : Mem K} {num_iter nb : Nat} {ind : List Nat}
    (hg : GeomOk D g) (hd : PosHits D g data) (hb : BlockArgs D.dt nb ind) {recon : Mem K}
    (hr : PosImage D recon) :
    ∃ r', osem D g data num_iter nb ind recon = some r' ∧ PosImage D r' := by
  obtain ⟨data', h1, h2⟩ := posHits_fill hd
  obtain ⟨r', e, h⟩ := osem_positive (num_iter := num_iter) hg h1 hb hr
  exact ⟨r', (osRun_data_congr _ _ h2 num_iter hb recon).trans e, h⟩

end Field

/-- `t` times a logarithm minus its argument is greatest at `t`. -/
theorem mul_log_sub_le {t u : ℝ} (ht : 0 < t) (hu : 0 < u) : t * Real.log u - u ≤ t * Real.log t - t := by
  have h := Real.log_le_sub_one_of_pos (div_pos hu ht)
  rw [Real.log_div hu.ne' ht.ne'] at h
  have := mul_le_mul_of_nonneg_left h ht.le
  have e : t * (u / t - 1) = u - t := by field_simp
  nlinarith

theorem mul_log_sub_lt {t u : ℝ} (ht : 0 < t) (hu : 0 < u) (hne : u ≠ t) :
    t * Real.log u - u < t * Real.log t - t := by
  have h := Real.log_lt_sub_one_of_pos (div_pos hu ht) (fun e => hne (by field_simp at e; exact e))
  rw [Real.log_div hu.ne' ht.ne'] at h
  have := mul_lt_mul_of_pos_left h ht
  have e : t * (u / t - 1) = u - t := by field_simp
  nlinarith

variable {D : Dims} {g : Geom ℝ} {data : Mem ℝ}

/-- **C171**: if the data are the line integrals of an image without negative pixels and are positive wherever a
ray hits, the results of `mlem` converge to an image without negative pixels with the same line integrals. -/
theorem mlem_reproduces (hg : GeomOk D g) {z : Mem ℝ} (hz : ∀ s < D.dy, ∀ n < D.N, 0 ≤ z (n + s * D.N))
    (hc : Consistent D g data z) (hd : PosHits D g data) {recon : Mem ℝ} (hr : PosImage D recon) :
    ∃ (out : ℕ → Mem ℝ) (u : Mem ℝ), (∀ k, mlem D g data k recon = some (out k)) ∧ Consistent D g data u ∧
      ∀ s < D.dy, ∀ n < D.N, 0 ≤ u (n + s * D.N) ∧
        Tendsto (fun k => out k (n + s * D.N)) atTop (𝓝 (u (n + s * D.N))) := by
  obtain ⟨data', h1, h2⟩ := posHits_fill hd
  obtain ⟨out, u, ho, hu⟩ := mlem_converges hg h1 hr
  refine ⟨out, u, fun k => (osRun_data_congr _ _ h2 k (Or.inl rfl) recon).trans (ho k), ?_,
    fun s hs n hn => ⟨(hu s hs).2.1 n hn, (hu s hs).1 n hn⟩⟩
  intro s hs
  obtain ⟨-, -, hpos, hbest⟩ := hu s hs
  have hle := hbest z (hz s hs) fun p hp d hdd h0 => by
    rw [← hc s hs p hp d hdd h0]
    exact hd s hs p hp d hdd h0
  -- every ray contributes at most what the exact line integral would
  by_contra hcon
  push Not at hcon
  obtain ⟨p, hp, d, hdd, h0, hne⟩ := hcon
  refine absurd hle (not_le.mpr ?_)
  unfold logLik
  have hmem : ∀ q ∈ raysOf D.dx (List.range D.dt), q.1 < D.dt ∧ q.2 < D.dx := fun q hq => by
    unfold raysOf at hq
    simp only [List.mem_flatMap, List.mem_map] at hq
    obtain ⟨a, ha, b, hb, rfl⟩ := hq
    exact ⟨List.mem_range.mp ha, List.mem_range.mp hb⟩
  refine List.sum_lt_sum _ _ (fun q hq => ?_) ⟨(p, d), ?_, ?_⟩
  · by_cases hq0 : sumDist2 (g s q.1 q.2) = 0
    · rw [if_neg (not_not.mpr hq0), if_neg (not_not.mpr hq0)]
    · obtain ⟨ha, hb⟩ := hmem q hq
      rw [if_pos hq0, if_pos hq0, ← h2 s hs _ ha _ hb hq0, ← hc s hs _ ha _ hb hq0]
      exact mul_log_sub_le (hd s hs _ ha _ hb hq0) (hpos _ ha _ hb hq0)
  · unfold raysOf
    simp only [List.mem_flatMap, List.mem_map]
    exact ⟨p, List.mem_range.mpr hp, d, List.mem_range.mpr hdd, rfl⟩
  · rw [if_pos h0, if_pos h0, ← h2 s hs p hp d hdd h0, ← hc s hs p hp d hdd h0]
    exact mul_log_sub_lt (hd s hs p hp d hdd h0) (hpos p hp d hdd h0) (fun e => hne e.symm)

/-- Two pixels crossed by one ray, and a second ray that misses with data 0: the assumptions hold. -/
example : ∃ (out : ℕ → Mem ℝ) (u : Mem ℝ),
    (∀ k, mlem ⟨1, 1, 2, 2⟩ (fun _ _ d => if d = 0 then [(0, 1), (1, 2)] else []) (fun n => if n = 0 then 5 else 0) k
      (fun _ => 1) = some (out k)) ∧ u 0 + 2 * u 1 = 5 := by
  obtain ⟨out, u, h1, h2, -⟩ := mlem_reproduces (D := ⟨1, 1, 2, 2⟩)
    (g := fun _ _ d => if d = 0 then [(0, 1), (1, 2)] else []) (data := fun n => if n = 0 then 5 else 0)
    (z := fun n => if n = 0 then 1 else 2) (recon := fun _ => 1)
    (by
      intro s _ p _ d _ e he
      dsimp only at he
      split at he
      · simp only [List.mem_cons, List.not_mem_nil, or_false] at he
        rcases he with rfl | rfl <;> exact ⟨by decide, by norm_num⟩
      · exact absurd he (List.not_mem_nil))
    (by intro s _ n _; dsimp only; split <;> norm_num)
    (by
      intro s hs p hp d hd h0
      have e1 : s = 0 := Nat.lt_one_iff.mp hs
      have e2 : p = 0 := Nat.lt_one_iff.mp hp
      subst e1 e2
      by_cases hd0 : d = 0
      · subst hd0
        norm_num [Dims.data, lineSum]
      · exact absurd (by simp [hd0, sumDist2]) h0)
    (by
      intro s hs p hp d hd h0
      have e1 : s = 0 := Nat.lt_one_iff.mp hs
      have e2 : p = 0 := Nat.lt_one_iff.mp hp
      subst e1 e2
      by_cases hd0 : d = 0
      · subst hd0
        norm_num [Dims.data]
      · exact absurd (by simp [hd0, sumDist2]) h0)
    (fun _ _ _ _ => one_pos)
  refine ⟨out, u, h1, ?_⟩
  have := h2 0 (by decide) 0 (by decide) 0 (by decide) (by norm_num [sumDist2])
  norm_num [Dims.data, lineSum] at this
  linarith

end Tomopy.Iter
