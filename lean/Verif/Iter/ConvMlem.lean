import Verif.Iter.Osem
import Mathlib.Analysis.SpecialFunctions.Log.Basic
import Mathlib.Algebra.BigOperators.Field

/-!
# MLEM and the Poisson likelihood (C139)
-/

set_option linter.unusedSectionVars false

namespace Tomopy.Iter

/-! ## Specification -/

/-- The logarithm of the Poisson likelihood of the data of slice `s`, without the terms that do not
depend on the image, over the rays that hit the image. -/
noncomputable def logLik (D : Dims) (g : Geom ℝ) (data : Mem ℝ) (s : Nat) (r : Mem ℝ) : ℝ :=
  ((raysOf D.dx (List.range D.dt)).map fun q => if sumDist2 (g s q.1 q.2) ≠ 0 then
    data (D.data s q.1 q.2) * Real.log (lineSum D.N s (g s q.1 q.2) r) -
      lineSum D.N s (g s q.1 q.2) r else 0).sum

/-! ## The inequality -/

section Abstract

variable {ι : Type*}

theorem log_gap {u v : ℝ} (hu : 0 < u) (hv : 0 < v) :
    0 ≤ u * Real.log (u / v) - u + v ∧ (u * Real.log (u / v) - u + v = 0 → u = v) := by
  have h := Real.log_le_sub_one_of_pos (div_pos hv hu)
  have e : Real.log (u / v) = - Real.log (v / u) := by
    rw [← Real.log_inv, inv_div]
  have e2 : u * (v / u - 1) = v - u := by field_simp
  constructor
  · rw [e]; nlinarith [mul_le_mul_of_nonneg_left h hu.le]
  · intro h0
    by_contra hne
    have hlt := Real.log_lt_sub_one_of_pos (div_pos hv hu) (by
      intro h1; rw [div_eq_one_iff_eq hu.ne'] at h1; exact hne h1.symm)
    have := mul_lt_mul_of_pos_left hlt hu
    rw [e] at h0
    linarith

/-- The gain of one step is at least the weighted divergence of the new image from the old one. -/
theorem em_gain (Q : Finset ι) (N : Nat) (a : ι → Nat → ℝ) (b : ι → ℝ) (x y : Nat → ℝ)
    (ha : ∀ q ∈ Q, ∀ n < N, 0 ≤ a q n) (hb : ∀ q ∈ Q, 0 < b q)
    (hx : ∀ n < N, 0 < x n) (hy : ∀ n < N, 0 < y n)
    (hAx : ∀ q ∈ Q, 0 < ∑ n ∈ Finset.range N, x n * a q n)
    (hAy : ∀ q ∈ Q, 0 < ∑ n ∈ Finset.range N, y n * a q n)
    (hem : ∀ n < N, y n * ∑ q ∈ Q, a q n =
      x n * ∑ q ∈ Q, b q / (∑ n ∈ Finset.range N, x n * a q n) * a q n) :
    ∑ n ∈ Finset.range N, (∑ q ∈ Q, a q n) * (y n * Real.log (y n / x n) - y n + x n) ≤
    (∑ q ∈ Q, (b q * Real.log (∑ n ∈ Finset.range N, y n * a q n) -
        ∑ n ∈ Finset.range N, y n * a q n)) -
      ∑ q ∈ Q, (b q * Real.log (∑ n ∈ Finset.range N, x n * a q n) -
        ∑ n ∈ Finset.range N, x n * a q n) := by
  obtain ⟨A, hA⟩ : ∃ A : ι → (Nat → ℝ) → ℝ, ∀ q x, A q x = ∑ n ∈ Finset.range N, x n * a q n :=
    ⟨_, fun _ _ => rfl⟩
  simp only [← hA] at hAx hAy hem ⊢
  -- concavity, ray by ray
  have h1 : ∀ q ∈ Q, ∑ n ∈ Finset.range N, x n * (b q / A q x * a q n) * Real.log (y n / x n) ≤
      b q * Real.log (A q y) - b q * Real.log (A q x) := by
    intro q hq
    have px := hAx q hq
    have py := hAy q hq
    have h2 : ∀ n ∈ Finset.range N, x n * (b q / A q x * a q n) * Real.log (y n / x n) ≤
        b q / A q x * ((x n * a q n) * (Real.log (A q y) - Real.log (A q x) - 1) +
          (y n * a q n) * (A q x / A q y)) := by
      intro n hn
      have hn := Finset.mem_range.mp hn
      have hxn := hx n hn
      have hyn := hy n hn
      have hl := Real.log_le_sub_one_of_pos (show 0 < y n / x n * (A q x / A q y) by positivity)
      rw [Real.log_mul (by positivity) (by positivity), Real.log_div px.ne' py.ne'] at hl
      have hw : 0 ≤ b q / A q x * (x n * a q n) :=
        mul_nonneg (div_pos (hb q hq) px).le (mul_nonneg hxn.le (ha q hq n hn))
      have h3 := mul_le_mul_of_nonneg_left hl hw
      have e : x n * (y n / x n) = y n := by field_simp
      have e3 : b q / A q x * (x n * a q n) * (y n / x n * (A q x / A q y) - 1) =
          b q / A q x * ((x n * (y n / x n)) * a q n * (A q x / A q y)) -
          b q / A q x * (x n * a q n) := by ring
      rw [e3, e] at h3
      linarith
    refine (Finset.sum_le_sum h2).trans (le_of_eq ?_)
    rw [← Finset.mul_sum, Finset.sum_add_distrib, ← Finset.sum_mul, ← Finset.sum_mul, ← hA, ← hA]
    field_simp
    ring
  have h4 := Finset.sum_le_sum h1
  rw [Finset.sum_comm] at h4
  have h5 : ∑ n ∈ Finset.range N, ∑ q ∈ Q, x n * (b q / A q x * a q n) * Real.log (y n / x n) =
      ∑ n ∈ Finset.range N, (∑ q ∈ Q, a q n) * (y n * Real.log (y n / x n)) := by
    refine Finset.sum_congr rfl fun n hn => ?_
    rw [← Finset.sum_mul, ← Finset.mul_sum, ← hem n (Finset.mem_range.mp hn)]
    ring
  rw [h5] at h4
  have h6 : ∀ w : Nat → ℝ, ∑ n ∈ Finset.range N, (∑ q ∈ Q, a q n) * w n = ∑ q ∈ Q, A q w := by
    intro w
    simp only [hA, Finset.sum_mul]
    rw [Finset.sum_comm]
    exact Finset.sum_congr rfl fun q _ => Finset.sum_congr rfl fun n _ => mul_comm _ _
  have h7 : ∑ n ∈ Finset.range N, (∑ q ∈ Q, a q n) * (y n * Real.log (y n / x n) - y n + x n) =
      ∑ n ∈ Finset.range N, (∑ q ∈ Q, a q n) * (y n * Real.log (y n / x n)) -
        ∑ q ∈ Q, A q y + ∑ q ∈ Q, A q x := by
    rw [← h6 y, ← h6 x, ← Finset.sum_sub_distrib, ← Finset.sum_add_distrib]
    exact Finset.sum_congr rfl fun n _ => by ring
  rw [h7]
  simp only [Finset.sum_sub_distrib] at h4 ⊢
  linarith

/-- An image that the step does not change has the greatest likelihood. -/
theorem em_fixed_max (Q : Finset ι) (N : Nat) (a : ι → Nat → ℝ) (b : ι → ℝ) (x y : Nat → ℝ)
    (hb : ∀ q ∈ Q, 0 < b q)
    (hx : ∀ n < N, 0 < x n)
    (hAx : ∀ q ∈ Q, 0 < ∑ n ∈ Finset.range N, x n * a q n)
    (hAy : ∀ q ∈ Q, 0 < ∑ n ∈ Finset.range N, y n * a q n)
    (hem : ∀ n < N, x n * ∑ q ∈ Q, a q n =
      x n * ∑ q ∈ Q, b q / (∑ n ∈ Finset.range N, x n * a q n) * a q n) :
    ∑ q ∈ Q, (b q * Real.log (∑ n ∈ Finset.range N, y n * a q n) -
        ∑ n ∈ Finset.range N, y n * a q n) ≤
      ∑ q ∈ Q, (b q * Real.log (∑ n ∈ Finset.range N, x n * a q n) -
        ∑ n ∈ Finset.range N, x n * a q n) := by
  obtain ⟨A, hA⟩ : ∃ A : ι → (Nat → ℝ) → ℝ, ∀ q x, A q x = ∑ n ∈ Finset.range N, x n * a q n :=
    ⟨_, fun _ _ => rfl⟩
  simp only [← hA] at hAx hAy hem ⊢
  have h1 : ∀ q ∈ Q, b q * Real.log (A q y) - A q y ≤
      b q * Real.log (A q x) - A q x + (b q / A q x - 1) * (A q y - A q x) := by
    intro q hq
    have px := hAx q hq
    have py := hAy q hq
    have hl := Real.log_le_sub_one_of_pos (div_pos py px)
    rw [Real.log_div py.ne' px.ne'] at hl
    have h2 := mul_le_mul_of_nonneg_left hl (hb q hq).le
    have e : (b q / A q x - 1) * (A q y - A q x) = b q * (A q y / A q x - 1) - A q y + A q x := by
      field_simp
      ring
    rw [e]
    linarith
  refine (Finset.sum_le_sum h1).trans (le_of_eq ?_)
  rw [Finset.sum_add_distrib, add_eq_left]
  have h3 : ∀ q ∈ Q, (b q / A q x - 1) * (A q y - A q x) =
      ∑ n ∈ Finset.range N, (y n - x n) * (b q / A q x * a q n - a q n) := by
    intro q _
    rw [hA q y, hA q x, ← Finset.sum_sub_distrib, Finset.mul_sum]
    rw [← hA q x]
    exact Finset.sum_congr rfl fun n _ => by ring
  rw [Finset.sum_congr rfl h3, Finset.sum_comm]
  refine Finset.sum_eq_zero fun n hn => ?_
  have hn := Finset.mem_range.mp hn
  have h4 := mul_left_cancel₀ (hx n hn).ne' (hem n hn)
  rw [← Finset.mul_sum, Finset.sum_sub_distrib, ← h4, sub_self, mul_zero]

end Abstract

/-! ## One iteration -/

section One

variable {K : Type*} [Field K] [LinearOrder K] [IsStrictOrderedRing K]

theorem mlem_succ {D : Dims} {g : Geom K} {data : Mem K} (k : Nat) (recon : Mem K) :
    mlem D g data (k + 1) recon = (mlem D g data k recon).bind (mlem D g data 1) := by
  by_cases hne : D.dy = 0 ∨ D.dt = 0 ∨ D.dx = 0
  · have h : ∀ n r, mlem D g data n r = some r := by
      intro n r
      unfold mlem osem osRun
      rw [if_pos hne]
    rw [h, h, Option.bind_some, h]
  · have hmlem : ∀ n r, mlem D g data n r =
        iterM (osIter osemMethod (osemFin D) D g data [List.range D.dt]) n r := by
      intro n r
      unfold mlem osem osRun
      rw [if_neg hne, blocks_single]
      rfl
    rw [hmlem, iterM_succ_last, ← hmlem]
    congr 1
    funext r
    rw [hmlem 1 r]
    simp [iterM]

/-- One iteration of `mlem` from a positive image. -/
theorem mlem_one {D : Dims} {g : Geom K} {data : Mem K} (hg : GeomOk D g) (hd : PosData D data)
    {r : Mem K} (hr : PosImage D r) :
    ∃ r', mlem D g data 1 r = some r' ∧ PosImage D r' ∧ ∀ s < D.dy, ∀ n < D.N,
      (r' (n + s * D.N) * ((raysOf D.dx (List.range D.dt)).map fun q => lenIn (g s q.1 q.2) n).sum =
        r (n + s * D.N) * ((raysOf D.dx (List.range D.dt)).map fun q =>
          if sumDist2 (g s q.1 q.2) ≠ 0 then
          data (D.data s q.1 q.2) / lineSum D.N s (g s q.1 q.2) r * lenIn (g s q.1 q.2) n
          else 0).sum) ∧
      ((∀ q ∈ raysOf D.dx (List.range D.dt), lenIn (g s q.1 q.2) n = 0) →
        r' (n + s * D.N) = r (n + s * D.N)) := by
  by_cases hne : D.dy = 0 ∨ D.dt = 0 ∨ D.dx = 0
  · refine ⟨r, by unfold mlem osem osRun; rw [if_pos hne], hr, fun s hs n hn => ⟨?_, fun _ => rfl⟩⟩
    have : raysOf D.dx (List.range D.dt) = [] := by
      rw [List.eq_nil_iff_forall_not_mem]
      intro q hq
      have := mem_raysOf.mp hq
      rw [List.mem_range] at this
      omega
    rw [this]
    simp
  have hps : ∀ p ∈ List.range D.dt, p < D.dt := fun p hp => List.mem_range.mp hp
  have hmlem : mlem D g data 1 r =
      osIter osemMethod (osemFin D) D g data [List.range D.dt] r := by
    unfold mlem osem osRun
    rw [if_neg hne, blocks_single]
    simp [iterM]
  rw [hmlem, osIter_pure (osemFin_ok D) (blocksOk_single D)]
  have key : ∀ m ≤ D.dy, ∃ r', (List.range m).foldlM (fun r s => [List.range D.dt].foldlM
      (fun r ps => pureBlock osemMethod (osemFin D) D g data s ps r) r) r = some r' ∧
      PosImage D r' ∧ (∀ x, m * D.N ≤ x → r' x = r x) ∧ ∀ s < m, ∀ n < D.N,
      (r' (n + s * D.N) * ((raysOf D.dx (List.range D.dt)).map fun q => lenIn (g s q.1 q.2) n).sum =
        r (n + s * D.N) * ((raysOf D.dx (List.range D.dt)).map fun q =>
          if sumDist2 (g s q.1 q.2) ≠ 0 then
          data (D.data s q.1 q.2) / lineSum D.N s (g s q.1 q.2) r * lenIn (g s q.1 q.2) n
          else 0).sum) ∧
      ((∀ q ∈ raysOf D.dx (List.range D.dt), lenIn (g s q.1 q.2) n = 0) →
        r' (n + s * D.N) = r (n + s * D.N)) := by
    intro m
    induction m with
    | zero => intro _; exact ⟨r, rfl, hr, fun _ _ => rfl, by simp⟩
    | succ m ih =>
      intro hm
      obtain ⟨r2, h2, hp2, hf2, hc2⟩ := ih (by omega)
      obtain ⟨r3, h3, hp3, he3, hu3, hf3⟩ := osem_block (g := g) hg hd (s := m) (by omega)
        List.nodup_range hps hp2
      have hcur : ∀ n < D.N, r2 (n + m * D.N) = r (n + m * D.N) := fun n _ => hf2 _ (by omega)
      refine ⟨r3, ?_, hp3, ?_, ?_⟩
      · rw [List.range_succ, List.foldlM_append, h2]
        show (some r2).bind (fun r => [m].foldlM _ r) = some r3
        simp only [Option.bind_some, List.foldlM_cons, List.foldlM_nil, h3]
        rfl
      · intro x hx
        rw [Nat.succ_mul] at hx
        rw [hf3 x (by omega), hf2 x (by omega)]
      · intro s hs n hn
        by_cases e : s = m
        · subst e
          constructor
          · rw [he3 n hn, hcur n hn]
            congr 2
            apply List.map_congr_left
            intro q hq
            have hm' := mem_raysOf.mp hq
            have hok := hg s (by omega) _ (hps _ hm'.1) _ hm'.2
            rw [lineSum_congr fun e' he' => hcur e'.1 (hok e' he').1]
          · intro h
            rw [hu3 n hn h, hcur n hn]
        · have hfr : r3 (n + s * D.N) = r2 (n + s * D.N) := hf3 _ (other_slice hn e)
          rw [hfr]
          exact hc2 s (by omega) n hn
  obtain ⟨r', h1, h2, -, h4⟩ := key D.dy (le_refl _)
  exact ⟨r', h1, h2, h4⟩

end One

/-! ## C139 -/

section Real

variable {D : Dims} {g : Geom ℝ} {data : Mem ℝ}

open Classical in
/-- The rays of slice `s` that hit the image. -/
noncomputable def hits (D : Dims) (g : Geom ℝ) (s : Nat) : Finset (Nat × Nat) :=
  (raysOf D.dx (List.range D.dt)).toFinset.filter fun q => sumDist2 (g s q.1 q.2) ≠ 0

theorem sum_hits (s : Nat) (f : Nat × Nat → ℝ) :
    ((raysOf D.dx (List.range D.dt)).map fun q => if sumDist2 (g s q.1 q.2) ≠ 0 then f q else 0).sum
      = ∑ q ∈ hits D g s, f q := by
  unfold hits
  rw [Finset.sum_filter, List.sum_toFinset _ (raysOf_nodup List.nodup_range)]

theorem mem_hits {s : Nat} {q : Nat × Nat} :
    q ∈ hits D g s ↔ (q.1 < D.dt ∧ q.2 < D.dx) ∧ sumDist2 (g s q.1 q.2) ≠ 0 := by
  unfold hits
  rw [Finset.mem_filter, List.mem_toFinset, mem_raysOf, List.mem_range]

theorem logLik_eq (hg : GeomOk D g) {s : Nat} (hs : s < D.dy) (r : Mem ℝ) :
    logLik D g data s r = ∑ q ∈ hits D g s, (data (D.data s q.1 q.2) *
      Real.log (∑ n ∈ Finset.range D.N, r (n + s * D.N) * lenIn (g s q.1 q.2) n) -
      ∑ n ∈ Finset.range D.N, r (n + s * D.N) * lenIn (g s q.1 q.2) n) := by
  unfold logLik
  rw [sum_hits]
  refine Finset.sum_congr rfl fun q hq => ?_
  have hm := mem_hits.mp hq
  rw [lineSum_eq_sum_lenIn fun e he => (hg s hs _ hm.1.1 _ hm.1.2 e he).1]

theorem sens_eq (s n : Nat) :
    ((raysOf D.dx (List.range D.dt)).map fun q => lenIn (g s q.1 q.2) n).sum =
      ∑ q ∈ hits D g s, lenIn (g s q.1 q.2) n := by
  rw [← sum_hits]
  congr 1
  apply List.map_congr_left
  intro q _
  split
  · rfl
  · rename_i h
    by_contra hne
    exact h (sumDist2_ne_of_lenIn hne)

private theorem em_eq (hg : GeomOk D g) {s : Nat} (hs : s < D.dy) {r r' : Mem ℝ} {n : Nat}
    (h : r' (n + s * D.N) *
        ((raysOf D.dx (List.range D.dt)).map fun q => lenIn (g s q.1 q.2) n).sum =
        r (n + s * D.N) * ((raysOf D.dx (List.range D.dt)).map fun q =>
          if sumDist2 (g s q.1 q.2) ≠ 0 then
          data (D.data s q.1 q.2) / lineSum D.N s (g s q.1 q.2) r * lenIn (g s q.1 q.2) n
          else 0).sum) :
    r' (n + s * D.N) * ∑ q ∈ hits D g s, lenIn (g s q.1 q.2) n =
      r (n + s * D.N) * ∑ q ∈ hits D g s, data (D.data s q.1 q.2) /
        (∑ n ∈ Finset.range D.N, r (n + s * D.N) * lenIn (g s q.1 q.2) n) *
        lenIn (g s q.1 q.2) n := by
  rw [sens_eq, sum_hits] at h
  rw [h]
  congr 1
  refine Finset.sum_congr rfl fun q hq => ?_
  have hm := mem_hits.mp hq
  rw [lineSum_eq_sum_lenIn fun e he => (hg s hs _ hm.1.1 _ hm.1.2 e he).1]

theorem line_pos (hg : GeomOk D g) {s : Nat} (hs : s < D.dy) {r : Mem ℝ}
    (hr : PosImage D r) (q : Nat × Nat) (hq : q ∈ hits D g s) :
    0 < ∑ n ∈ Finset.range D.N, r (n + s * D.N) * lenIn (g s q.1 q.2) n := by
  have hm := mem_hits.mp hq
  have hok := hg s hs _ hm.1.1 _ hm.1.2
  rw [← lineSum_eq_sum_lenIn fun e he => (hok e he).1]
  exact lineSum_pos hok (hr s hs) hm.2

/-- **C139** (one iteration): the likelihood of no slice decreases, and it stays the same only if
the slice stays the same. -/
theorem mlem_likelihood_step (hg : GeomOk D g) (hd : PosData D data) {r : Mem ℝ}
    (hr : PosImage D r) :
    ∃ r', mlem D g data 1 r = some r' ∧ PosImage D r' ∧ ∀ s < D.dy,
      logLik D g data s r ≤ logLik D g data s r' ∧
      (logLik D g data s r' = logLik D g data s r →
        ∀ n < D.N, r' (n + s * D.N) = r (n + s * D.N)) := by
  obtain ⟨r', h1, h2, h3⟩ := mlem_one hg hd hr
  refine ⟨r', h1, h2, fun s hs => ?_⟩
  have hlen : ∀ q ∈ hits D g s, ∀ n < D.N, 0 ≤ lenIn (g s q.1 q.2) n := fun q hq n _ =>
    have hm := mem_hits.mp hq
    lenIn_nonneg (hg s hs _ hm.1.1 _ hm.1.2) n
  have hgain := em_gain (hits D g s) D.N (fun q n => lenIn (g s q.1 q.2) n)
    (fun q => data (D.data s q.1 q.2)) (fun n => r (n + s * D.N)) (fun n => r' (n + s * D.N))
    hlen (fun q hq => have hm := mem_hits.mp hq; hd s hs _ hm.1.1 _ hm.1.2)
    (hr s hs) (h2 s hs) (line_pos hg hs hr) (line_pos hg hs h2)
    (fun n hn => em_eq hg hs (h3 s hs n hn).1)
  rw [← logLik_eq hg hs, ← logLik_eq hg hs] at hgain
  have hterm : ∀ n ∈ Finset.range D.N, 0 ≤ (∑ q ∈ hits D g s, lenIn (g s q.1 q.2) n) *
      (r' (n + s * D.N) * Real.log (r' (n + s * D.N) / r (n + s * D.N)) - r' (n + s * D.N) +
        r (n + s * D.N)) := fun n hn =>
    mul_nonneg (Finset.sum_nonneg fun q hq => hlen q hq n (Finset.mem_range.mp hn))
      (log_gap (h2 s hs n (Finset.mem_range.mp hn)) (hr s hs n (Finset.mem_range.mp hn))).1
  have hsum := Finset.sum_nonneg hterm
  refine ⟨by linarith, fun heq n hn => ?_⟩
  have h0 := (Finset.sum_eq_zero_iff_of_nonneg hterm).mp (le_antisymm (by linarith) hsum) n
    (Finset.mem_range.mpr hn)
  rcases mul_eq_zero.mp h0 with h | h
  · refine (h3 s hs n hn).2 fun q hq => ?_
    rw [Finset.sum_eq_zero_iff_of_nonneg fun q hq => hlen q hq n hn] at h
    by_contra hne
    have hm := mem_raysOf.mp hq
    rw [List.mem_range] at hm
    exact hne (h q (mem_hits.mpr ⟨hm, sumDist2_ne_of_lenIn hne⟩))
  · exact (log_gap (h2 s hs n hn) (hr s hs n hn)).2 h

/-- **C139**: from positive data and a positive image, more iterations of `mlem` never make the
data less likely. -/
theorem mlem_likelihood (hg : GeomOk D g) (hd : PosData D data) {recon : Mem ℝ}
    (hr : PosImage D recon) {k l : Nat} (hkl : k ≤ l) :
    ∃ r r', mlem D g data k recon = some r ∧ mlem D g data l recon = some r' ∧
      ∀ s < D.dy, logLik D g data s r ≤ logLik D g data s r' := by
  induction l, hkl using Nat.le_induction with
  | base =>
    obtain ⟨r, h, _⟩ := mlem_positive (num_iter := k) hg hd hr
    exact ⟨r, r, h, h, fun _ _ => le_refl _⟩
  | succ l hkl ih =>
    obtain ⟨r, r1, h1, h2, h3⟩ := ih
    obtain ⟨r1', h4, hp⟩ := mlem_positive (num_iter := l) hg hd hr
    rw [h2, Option.some.injEq] at h4
    subst h4
    obtain ⟨r2, h5, -, h6⟩ := mlem_likelihood_step hg hd hp
    refine ⟨r, r2, h1, ?_, fun s hs => (h3 s hs).trans (h6 s hs).1⟩
    rw [mlem_succ, h2, Option.bind_some, h5]

/-- **C139**: a positive image that an iteration of `mlem` leaves unchanged has the greatest
likelihood of all positive images, in every slice. -/
theorem mlem_fixed_max (hg : GeomOk D g) (hd : PosData D data) {r r' : Mem ℝ} (hr : PosImage D r)
    (hfix : mlem D g data 1 r = some r') (hsame : SameImage D r' r) {y : Mem ℝ}
    (hy : PosImage D y) {s : Nat} (hs : s < D.dy) :
    logLik D g data s y ≤ logLik D g data s r := by
  obtain ⟨r1, h1, _, h3⟩ := mlem_one hg hd hr
  rw [hfix, Option.some.injEq] at h1
  subst h1
  rw [logLik_eq hg hs, logLik_eq hg hs]
  refine em_fixed_max (hits D g s) D.N (fun q n => lenIn (g s q.1 q.2) n)
    (fun q => data (D.data s q.1 q.2)) (fun n => r (n + s * D.N)) (fun n => y (n + s * D.N))
    (fun q hq => have hm := mem_hits.mp hq; hd s hs _ hm.1.1 _ hm.1.2)
    (hr s hs) (line_pos hg hs hr) (line_pos hg hs hy) (fun n hn => ?_)
  have := em_eq hg hs (h3 s hs n hn).1
  rw [hsame s hs n hn] at this
  exact this

end Real

section Examples

/-- A ray through two pixels and one through the first of them; the data are not consistent. -/
private def cvG : Geom ℝ := fun _ _ d => if d = 0 then [(0, 1), (1, 1)] else [(0, 2)]

private def cvD : Dims := ⟨2, 3, 2, 2⟩

private theorem cvG_ok : GeomOk cvD cvG := by
  intro s _ p _ d _ e he
  unfold cvG at he
  split at he
  · simp only [List.mem_cons, List.not_mem_nil, or_false] at he
    rcases he with rfl | rfl <;> simp [cvD]
  · simp only [List.mem_cons, List.not_mem_nil, or_false] at he
    subst he; simp [cvD]

example : PosData cvD (fun i => (i : ℝ) + 1) := fun _ _ _ _ _ _ => by positivity

example : PosImage cvD (fun i => (i : ℝ) + 1) := fun _ _ _ _ => by positivity

/-- The hypotheses of `mlem_fixed_max`: an image of ones and its line integrals. -/
example : ∃ r', mlem cvD cvG (fun _ => 2) 1 (fun _ => 1) = some r' ∧ SameImage cvD r' fun _ => 1 := by
  refine osem_consistent_fixed cvG_ok (fun _ _ _ _ _ _ => by norm_num) (Or.inl rfl)
    (fun _ _ _ _ => by norm_num) ?_
  intro s _ p _ d _ _
  by_cases h : d = 0
  · simp [cvG, h, lineSum]; norm_num
  · simp [cvG, h, lineSum]

end Examples

end Tomopy.Iter
