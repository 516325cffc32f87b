import Verif.Iter.TvSaddle
import Verif.Iter.Tv

/-!
# Convergence of `tv` (C150)
-/

set_option linter.unusedSectionVars false

namespace Tomopy.Iter

open Function (update)
open Matrix Filter Topology

/-! ## Values of the loops -/

/-- The addresses visited by the loops over pixels with a right and a lower neighbour. -/
def innerL (base ngx ngy : Nat) : List Nat :=
  (List.range (ngy - 1)).flatMap fun iy => (List.range (ngx - 1)).map fun ix => base + iy * ngx + ix

theorem mem_innerL {base ngx ngy x : Nat} : x ∈ innerL base ngx ngy ↔
    ∃ iy < ngy - 1, ∃ ix < ngx - 1, x = base + iy * ngx + ix := by
  unfold innerL
  simp only [List.mem_flatMap, List.mem_map, List.mem_range]
  constructor
  · rintro ⟨iy, hy, ix, hx, rfl⟩; exact ⟨iy, hy, ix, hx, rfl⟩
  · rintro ⟨iy, hy, ix, hx, rfl⟩; exact ⟨iy, hy, ix, hx, rfl⟩

theorem grid_inj {ngx iy ix jy jx : Nat} (hx : ix < ngx) (hx' : jx < ngx)
    (h : iy * ngx + ix = jy * ngx + jx) : iy = jy ∧ ix = jx := by
  have h0 : 0 < ngx := by omega
  have h1 := congrArg (· % ngx) h
  simp only [Nat.mul_comm _ ngx, Nat.mul_add_mod, Nat.mod_eq_of_lt hx, Nat.mod_eq_of_lt hx'] at h1
  subst h1
  exact ⟨Nat.eq_of_mul_eq_mul_right h0 (by omega), rfl⟩

theorem innerL_nodup (base ngx ngy : Nat) : (innerL base ngx ngy).Nodup := by
  unfold innerL
  rw [List.nodup_flatMap]
  constructor
  · intro iy _
    exact List.Nodup.map (fun a b e => by simpa using e) List.nodup_range
  · refine List.nodup_range.imp ?_
    intro a b hab x h1 h2
    simp only [List.mem_map, List.mem_range] at h1 h2
    obtain ⟨d, hd, rfl⟩ := h1
    obtain ⟨e, he, h⟩ := h2
    exact hab ((grid_inj (ngx := ngx) (by omega) (by omega)
      (show b * ngx + e = a * ngx + d by omega)).1).symm

/-- The projection loop divides by `max(1, |prox0| / lambda)` at every inner pixel and changes
nothing else. -/
theorem tvProjLoop_value {lam : ℝ} (hl : 0 < lam) (base ngx ngy : Nat) (q : Mem ℝ × Mem ℝ) :
    ∃ q', tvProjLoop lam base ngx ngy q = some q' ∧
      (∀ x ∈ innerL base ngx ngy, q'.1 x = q.1 x / Pdhg.discU lam (q.1 x) (q.2 x) ∧
        q'.2 x = q.2 x / Pdhg.discU lam (q.1 x) (q.2 x)) ∧
      ∀ x, x ∉ innerL base ngx ngy → q'.1 x = q.1 x ∧ q'.2 x = q.2 x := by
  have key : ∀ (l : List Nat), l.Nodup → ∀ q : Mem ℝ × Mem ℝ, ∃ q', l.foldlM (tvProj lam) q = some q' ∧
      (∀ x ∈ l, q'.1 x = q.1 x / Pdhg.discU lam (q.1 x) (q.2 x) ∧
        q'.2 x = q.2 x / Pdhg.discU lam (q.1 x) (q.2 x)) ∧
      ∀ x, x ∉ l → q'.1 x = q.1 x ∧ q'.2 x = q.2 x := by
    intro l
    induction l with
    | nil => intro _ q; exact ⟨q, rfl, by simp, fun _ _ => ⟨rfl, rfl⟩⟩
    | cons i l ih =>
      intro hn q
      obtain ⟨hi, hn'⟩ := List.nodup_cons.mp hn
      obtain ⟨q', h1, h2, h3⟩ := ih hn' (update q.1 i (q.1 i / Pdhg.discU lam (q.1 i) (q.2 i)),
        update q.2 i (q.2 i / Pdhg.discU lam (q.1 i) (q.2 i)))
      refine ⟨q', ?_, ?_, ?_⟩
      · rw [List.foldlM_cons, tvProj, if_neg hl.ne']
        exact h1
      · intro x hx
        rcases List.mem_cons.mp hx with rfl | hx
        · have := h3 x hi
          simpa using this
        · have hne : x ≠ i := fun e => hi (e ▸ hx)
          have := h2 x hx
          simpa only [Function.update_of_ne hne] using this
      · intro x hx
        rw [List.mem_cons, not_or] at hx
        have := h3 x hx.2
        simpa only [Function.update_of_ne hx.1] using this
  have e : tvProjLoop lam base ngx ngy q = (innerL base ngx ngy).foldlM (tvProj lam) q := by
    unfold tvProjLoop innerL
    generalize List.range (ngy - 1) = l
    induction l generalizing q with
    | nil => rfl
    | cons iy l ih =>
      rw [List.foldlM_cons, List.flatMap_cons, List.foldlM_append]
      have : (List.range (ngx - 1)).foldlM (fun q ix => tvProj lam q (base + iy * ngx + ix)) q =
          ((List.range (ngx - 1)).map fun ix => base + iy * ngx + ix).foldlM (tvProj lam) q := by
        rw [List.foldlM_map]
      rw [this]
      congr 1
      funext q
      exact ih q
  rw [e]
  exact key _ (innerL_nodup _ _ _) q

theorem tvGrad_other (c : ℝ) (base ngx ngy : Nat) (recon : Mem ℝ) (q : Mem ℝ × Mem ℝ) {x : Nat}
    (hx : x ∉ innerL base ngx ngy) : (tvGrad c base ngx ngy recon q).1 x = q.1 x ∧
      (tvGrad c base ngx ngy recon q).2 x = q.2 x := by
  unfold tvGrad
  refine foldl_inv' _ (fun r : Mem ℝ × Mem ℝ => r.1 x = q.1 x ∧ r.2 x = q.2 x) _ _ ⟨rfl, rfl⟩ ?_
  intro iy hiy r hr
  refine foldl_inv' _ (fun r : Mem ℝ × Mem ℝ => r.1 x = q.1 x ∧ r.2 x = q.2 x) _ _ hr ?_
  intro ix hix r hr
  have hne : x ≠ base + iy * ngx + ix := fun e => hx (mem_innerL.mpr
    ⟨iy, List.mem_range.mp hiy, ix, List.mem_range.mp hix, e⟩)
  simp only [addAt, Function.update_of_ne hne]
  exact hr

theorem lenIn_zero_of {ray : Segs ℝ} (h : sumDist2 ray = 0) (n : Nat) : lenIn ray n = 0 := by
  unfold lenIn
  apply List.sum_eq_zero
  intro x hx
  obtain ⟨e, he, rfl⟩ := List.mem_map.mp hx
  split
  · by_contra h2
    exact sumDist2_ne_zero_of he h2 h
  · rfl

/-- The value of `prox1` after the ray `(p, d)` of slice `s`. -/
noncomputable def newP1 (c r : ℝ) (D : Dims) (g : Geom ℝ) (data recon p1 : Mem ℝ) (s p d : Nat) : ℝ :=
  (p1 (D.data s p d) + c * lineSum D.N s (g s p d) recon * r - c * data (D.data s p d)) / (1 + c)

/-- The rays of one slice. -/
theorem tvRays_value {c r : ℝ} {D : Dims} {g : Geom ℝ} (hg : GeomOk D g) {data recon : Mem ℝ} {s : Nat}
    (hs : s < D.dy) : ∀ (l : List (Nat × Nat)) (a : TvAcc), l.Nodup →
    (∀ q ∈ l, q.1 < D.dt ∧ q.2 < D.dx) → (∀ q ∈ l, a.sd (D.data s q.1 q.2) = 0) →
    ∃ a', l.foldl (fun a q => tvRay c r D s q.1 q.2 (g s q.1 q.2) data recon a) a = a' ∧
      (∀ q ∈ l, a'.p1 (D.data s q.1 q.2) = newP1 c r D g data recon a.p1 s q.1 q.2) ∧
      (∀ n < D.N, a'.adj (n + s * D.N) = a.adj (n + s * D.N) +
        (l.map fun q => r * newP1 c r D g data recon a.p1 s q.1 q.2 * lenIn (g s q.1 q.2) n).sum) ∧
      (∀ s' p d, p < D.dt → d < D.dx → (s' ≠ s ∨ (p, d) ∉ l) →
        a'.p1 (D.data s' p d) = a.p1 (D.data s' p d) ∧ a'.sd (D.data s' p d) = a.sd (D.data s' p d)) ∧
      (∀ s' ≠ s, ∀ n < D.N, a'.adj (n + s' * D.N) = a.adj (n + s' * D.N)) := by
  intro l
  induction l with
  | nil =>
    intro a _ _ _
    exact ⟨a, rfl, by simp, by simp, fun _ _ _ _ _ _ => ⟨rfl, rfl⟩, fun _ _ _ _ => rfl⟩
  | cons q l ih =>
    intro a hn hlt hsd
    obtain ⟨hq, hn'⟩ := List.nodup_cons.mp hn
    obtain ⟨hq1, hq2⟩ := hlt q List.mem_cons_self
    have hne : ∀ s' p d, p < D.dt → d < D.dx → (s' ≠ s ∨ (p, d) ≠ q) →
        D.data s' p d ≠ D.data s q.1 q.2 := by
      intro s' p d hp hd h e
      obtain ⟨e1, e2, e3⟩ := data_inj hp hq1 hd hq2 e
      rcases h with h | h
      · exact h e1
      · exact h (Prod.ext e2 e3)
    obtain ⟨b, hb⟩ : ∃ b, b = tvRay c r D s q.1 q.2 (g s q.1 q.2) data recon a := ⟨_, rfl⟩
    have hbsd : ∀ x, x ≠ D.data s q.1 q.2 → b.sd x = a.sd x := by
      intro x hx
      rw [hb]
      show calcSimdata D s q.1 q.2 _ recon a.sd x = _
      rw [calcSimdata_apply, if_neg (Ne.symm hx), add_zero]
    have hbp : ∀ x, x ≠ D.data s q.1 q.2 → b.p1 x = a.p1 x := by
      intro x hx
      rw [hb]
      exact Function.update_of_ne hx _ _
    have hbq : b.p1 (D.data s q.1 q.2) = newP1 c r D g data recon a.p1 s q.1 q.2 := by
      rw [hb]
      show update a.p1 _ _ _ = _
      rw [Function.update_self, calcSimdata_apply, if_pos rfl, hsd q List.mem_cons_self, zero_add]
      rfl
    have hok : ∀ e ∈ g s q.1 q.2, e.1 < D.N := fun e he => (hg s hs _ hq1 _ hq2 e he).1
    have hbadj : ∀ s', ∀ n < D.N, b.adj (n + s' * D.N) = a.adj (n + s' * D.N) +
        if s' = s then r * newP1 c r D g data recon a.p1 s q.1 q.2 * lenIn (g s q.1 q.2) n else 0 := by
      intro s' n hn
      rw [← hbq]
      have : b.adj = if sumDist2 (g s q.1 q.2) ≠ 0 then
          spread D s (g s q.1 q.2) (r * b.p1 (D.data s q.1 q.2)) a.adj else a.adj := by rw [hb]; rfl
      rw [this]
      by_cases h0 : sumDist2 (g s q.1 q.2) = 0
      · rw [if_neg (not_not.mpr h0), lenIn_zero_of h0, mul_zero, ite_self, add_zero]
      · rw [if_pos h0, spread_pixel hok hn]
    obtain ⟨a', e, h1, h2, h3, h4⟩ := ih b hn' (fun q' hq' => hlt q' (List.mem_cons_of_mem _ hq'))
      (fun q' hq' => by
        obtain ⟨k1, k2⟩ := hlt q' (List.mem_cons_of_mem _ hq')
        rw [hbsd _ (hne s _ _ k1 k2 (Or.inr fun e => hq (by rw [← e]; exact hq')))]
        exact hsd q' (List.mem_cons_of_mem _ hq'))
    have hP : ∀ q' ∈ l, newP1 c r D g data recon b.p1 s q'.1 q'.2 =
        newP1 c r D g data recon a.p1 s q'.1 q'.2 := by
      intro q' hq'
      obtain ⟨k1, k2⟩ := hlt q' (List.mem_cons_of_mem _ hq')
      unfold newP1
      rw [hbp _ (hne s _ _ k1 k2 (Or.inr fun e => hq (by rw [← e]; exact hq')))]
    refine ⟨a', by rw [List.foldl_cons, ← hb]; exact e, ?_, ?_, ?_, ?_⟩
    · intro q' hq'
      rcases List.mem_cons.mp hq' with rfl | hq'
      · rw [(h3 s _ _ hq1 hq2 (Or.inr hq)).1, hbq]
      · rw [h1 q' hq', hP q' hq']
    · intro n hn
      rw [h2 n hn, hbadj s n hn, if_pos rfl, List.map_cons, List.sum_cons, add_assoc]
      congr 2
      congr 1
      apply List.map_congr_left
      intro q' hq'
      rw [hP q' hq']
    · intro s' p d hp hd h
      have hx := hne s' p d hp hd (h.imp_right fun h e => h (e ▸ List.mem_cons_self))
      obtain ⟨k1, k2⟩ := h3 s' p d hp hd (h.imp_right fun h e => h (List.mem_cons_of_mem _ e))
      exact ⟨by rw [k1, hbp _ hx], by rw [k2, hbsd _ hx]⟩
    · intro s' hs' n hn
      rw [h4 s' hs' n hn, hbadj s' n hn, if_neg hs', add_zero]

/-! ## The operator of one slice -/

/-- Pixels with a right and a lower neighbour. -/
abbrev InnerIx (ngx ngy : Nat) := Fin (ngy - 1) × Fin (ngx - 1)

/-- Rays. -/
abbrev RayIx (D : Dims) := Fin D.dt × Fin D.dx

/-- Indices of the dual variable of one slice. -/
abbrev DualIx (D : Dims) (ngx ngy : Nat) := InnerIx ngx ngy ⊕ InnerIx ngx ngy ⊕ RayIx D

/-- Differences to the right. -/
def tvGx (D : Dims) (ngx ngy : Nat) : Matrix (InnerIx ngx ngy) (Fin D.N) ℝ := fun a n =>
  (if (n : Nat) = a.1 * ngx + (a.2 + 1) then 1 else 0) - (if (n : Nat) = a.1 * ngx + a.2 then 1 else 0)

/-- Differences to the next row. -/
def tvGy (D : Dims) (ngx ngy : Nat) : Matrix (InnerIx ngx ngy) (Fin D.N) ℝ := fun a n =>
  (if (n : Nat) = (a.1 + 1) * ngx + a.2 then 1 else 0) - (if (n : Nat) = a.1 * ngx + a.2 then 1 else 0)

/-- Scaled ray sums. -/
noncomputable def tvR (r : ℝ) (D : Dims) (g : Geom ℝ) (s : Nat) : Matrix (RayIx D) (Fin D.N) ℝ :=
  fun b n => r * lenIn (g s b.1 b.2) n

/-- The operator of slice `s`. -/
noncomputable def tvOp (r : ℝ) (D : Dims) (ngx ngy : Nat) (g : Geom ℝ) (s : Nat) :
    Matrix (DualIx D ngx ngy) (Fin D.N) ℝ := Pdhg.tvK (tvGx D ngx ngy) (tvGy D ngx ngy) (tvR r D g s)

/-- Slice `s` of an image. -/
def pix (D : Dims) (s : Nat) (m : Mem ℝ) : Fin D.N → ℝ := fun n => m (n + s * D.N)

/-- Slice `s` of the data. -/
def dat (D : Dims) (s : Nat) (m : Mem ℝ) : RayIx D → ℝ := fun b => m (D.data s b.1 b.2)

/-- Dual variables of slice `s`. -/
def dual (D : Dims) (ngx ngy s : Nat) (st : TvSt) : DualIx D ngx ngy → ℝ :=
  Sum.elim (fun a => st.px (s * (ngx * ngy) + a.1 * ngx + a.2))
    (Sum.elim (fun a => st.py (s * (ngx * ngy) + a.1 * ngx + a.2)) (dat D s st.acc.p1))

theorem sum_fin_at {N k : Nat} (hk : k < N) (x : Fin N → ℝ) :
    ∑ n : Fin N, (if (n : Nat) = k then (1 : ℝ) else 0) * x n = x ⟨k, hk⟩ := by
  rw [Finset.sum_eq_single ⟨k, hk⟩]
  · simp
  · intro n _ hn
    rw [if_neg (fun e => hn (Fin.ext e)), zero_mul]
  · simp

theorem inner_succ {ngx ngy : Nat} (a : InnerIx ngx ngy) :
    (a.1 : Nat) * ngx + (a.2 + 1) < ngx * ngy ∧ (a.1 : Nat) * ngx + a.2 < ngx * ngy ∧
    ((a.1 : Nat) + 1) * ngx + a.2 < ngx * ngy :=
  ⟨inner_lt (by omega) (by omega), inner_lt (by omega) (by omega), inner_lt (by omega) (by omega)⟩

theorem tvGx_mulVec {D : Dims} {ngx ngy : Nat} (hN : D.N = ngx * ngy) (s : Nat) (m : Mem ℝ)
    (a : InnerIx ngx ngy) : (tvGx D ngx ngy *ᵥ pix D s m) a =
      m (s * (ngx * ngy) + a.1 * ngx + (a.2 + 1)) - m (s * (ngx * ngy) + a.1 * ngx + a.2) := by
  obtain ⟨h1, h2, _⟩ := inner_succ a
  rw [← hN] at h1 h2
  simp only [mulVec, dotProduct, tvGx, sub_mul, Finset.sum_sub_distrib]
  rw [sum_fin_at h1, sum_fin_at h2]
  unfold pix
  rw [← hN]
  congr 2 <;> (simp only []; omega)

theorem tvGy_mulVec {D : Dims} {ngx ngy : Nat} (hN : D.N = ngx * ngy) (s : Nat) (m : Mem ℝ)
    (a : InnerIx ngx ngy) : (tvGy D ngx ngy *ᵥ pix D s m) a =
      m (s * (ngx * ngy) + (a.1 + 1) * ngx + a.2) - m (s * (ngx * ngy) + a.1 * ngx + a.2) := by
  obtain ⟨_, h2, h1⟩ := inner_succ a
  rw [← hN] at h1 h2
  simp only [mulVec, dotProduct, tvGy, sub_mul, Finset.sum_sub_distrib]
  rw [sum_fin_at h1, sum_fin_at h2]
  unfold pix
  rw [← hN]
  congr 2 <;> (simp only []; omega)

theorem tvR_mulVec {D : Dims} {g : Geom ℝ} (hg : GeomOk D g) {s : Nat} (hs : s < D.dy) (r : ℝ)
    (m : Mem ℝ) (b : RayIx D) :
    (tvR r D g s *ᵥ pix D s m) b = r * lineSum D.N s (g s b.1 b.2) m := by
  rw [lineSum_eq_sum_lenIn (fun e he => (hg s hs _ b.1.2 _ b.2.2 e he).1), Finset.mul_sum,
    ← Fin.sum_univ_eq_sum_range (fun n => r * (m (n + s * D.N) * lenIn (g s b.1 b.2) n))]
  simp only [mulVec, dotProduct, tvR, pix]
  apply Finset.sum_congr rfl
  intro n _
  ring

/-- Sum over the inner pixels against the indicator of a shifted pixel. -/
theorem sum_inner_at {ngx ngy iy ix sy sx : Nat} (hx : ix < ngx) (hsx : sx ≤ 1) (f : Nat → Nat → ℝ) :
    ∑ a : InnerIx ngx ngy, f a.1 a.2 *
      (if iy * ngx + ix = (a.1 + sy) * ngx + (a.2 + sx) then (1 : ℝ) else 0) =
    if sy ≤ iy ∧ sx ≤ ix ∧ iy - sy < ngy - 1 ∧ ix - sx < ngx - 1 then f (iy - sy) (ix - sx) else 0 := by
  split
  · rename_i h
    obtain ⟨h1, h2, h3, h4⟩ := h
    rw [Finset.sum_eq_single (⟨iy - sy, h3⟩, ⟨ix - sx, h4⟩)]
    · simp only [Nat.sub_add_cancel h1, Nat.sub_add_cancel h2, if_true, mul_one]
    · rintro ⟨a, b⟩ _ hne
      rw [if_neg, mul_zero]
      intro e
      have hb := b.2
      obtain ⟨e1, e2⟩ := grid_inj hx (show (b : Nat) + sx < ngx by omega) e
      simp only at e1 e2
      apply hne
      refine Prod.ext (Fin.ext ?_) (Fin.ext ?_)
      · show (a : Nat) = iy - sy
        omega
      · show (b : Nat) = ix - sx
        omega
    · simp
  · rename_i h
    apply Finset.sum_eq_zero
    rintro ⟨a, b⟩ _
    rw [if_neg, mul_zero]
    intro e
    have ha := a.2
    have hb := b.2
    obtain ⟨e1, e2⟩ := grid_inj hx (show (b : Nat) + sx < ngx by omega) e
    simp only at e1 e2
    apply h
    refine ⟨by omega, by omega, by omega, by omega⟩

/-- The dual variables of slice `s` vanish at pixels without a right or lower neighbour. -/
def ZeroOff (D : Dims) (ngx ngy s : Nat) (st : TvSt) : Prop :=
  ∀ n < D.N, n + s * D.N ∉ innerL (s * (ngx * ngy)) ngx ngy →
    st.px (n + s * D.N) = 0 ∧ st.py (n + s * D.N) = 0

theorem vecMul_tvOp {D : Dims} {ngx ngy : Nat} (hN : D.N = ngx * ngy) {g : Geom ℝ} {s : Nat} (r : ℝ)
    (st : TvSt) (hz : ZeroOff D ngx ngy s st) {iy ix : Nat} (hy : iy < ngy) (hx : ix < ngx)
    (hn : iy * ngx + ix < D.N) :
    (dual D ngx ngy s st ᵥ* tvOp r D ngx ngy g s) ⟨iy * ngx + ix, hn⟩ =
      -tvDiv (s * (ngx * ngy)) ngx st.px st.py iy ix +
      ∑ b : RayIx D, r * st.acc.p1 (D.data s b.1 b.2) * lenIn (g s b.1 b.2) (iy * ngx + ix) := by
  have hoff : ∀ jy jx, jy < ngy → jx < ngx → ¬ (jy < ngy - 1 ∧ jx < ngx - 1) →
      st.px (s * (ngx * ngy) + jy * ngx + jx) = 0 ∧ st.py (s * (ngx * ngy) + jy * ngx + jx) = 0 := by
    intro jy jx h1 h2 h3
    have hlt := inner_lt h1 h2
    rw [← hN] at hlt
    have := hz (jy * ngx + jx) hlt ?_
    · have e : jy * ngx + jx + s * D.N = s * (ngx * ngy) + jy * ngx + jx := by rw [hN]; omega
      rwa [e] at this
    · intro hm
      obtain ⟨ky, hky, kx, hkx, e⟩ := mem_innerL.mp hm
      rw [hN] at e
      obtain ⟨e1, e2⟩ := grid_inj (ngx := ngx) h2 (show kx < ngx by omega)
        (show jy * ngx + jx = ky * ngx + kx by omega)
      apply h3
      omega
  have hoff0 : ∀ (f : Nat → Nat → ℝ), (∀ jy jx, jy < ngy → jx < ngx → ¬ (jy < ngy - 1 ∧ jx < ngx - 1) →
      f jy jx = 0) → (∑ a : InnerIx ngx ngy, f a.1 a.2 *
        (if iy * ngx + ix = (a.1 + 0) * ngx + (a.2 + 0) then (1 : ℝ) else 0)) = f iy ix := by
    intro f hf
    rw [sum_inner_at hx (by omega)]
    simp only [Nat.zero_le, true_and, Nat.sub_zero]
    split
    · rfl
    · rename_i h; exact (hf iy ix hy hx h).symm
  have e1 : (∑ a : InnerIx ngx ngy, st.px (s * (ngx * ngy) + a.1 * ngx + a.2) *
      tvGx D ngx ngy a ⟨iy * ngx + ix, hn⟩) =
      (if ix = 0 then 0 else st.px (s * (ngx * ngy) + iy * ngx + ix - 1)) -
        st.px (s * (ngx * ngy) + iy * ngx + ix) := by
    simp only [tvGx, mul_sub, Finset.sum_sub_distrib]
    congr 1
    · have := sum_inner_at (ngy := ngy) (iy := iy) (sy := 0) (sx := 1) hx (le_refl _)
        (fun jy jx => st.px (s * (ngx * ngy) + jy * ngx + jx))
      simp only [Nat.add_zero] at this
      rw [this]
      by_cases h0 : ix = 0
      · rw [if_pos h0, if_neg (by omega)]
      · rw [if_neg h0]
        have ea : s * (ngx * ngy) + iy * ngx + ix - 1 = s * (ngx * ngy) + iy * ngx + (ix - 1) := by omega
        rw [ea, Nat.sub_zero]
        split
        · rfl
        · rename_i h
          exact (hoff iy (ix - 1) hy (by omega) (by omega)).1.symm
    · have := hoff0 (fun jy jx => st.px (s * (ngx * ngy) + jy * ngx + jx))
        (fun jy jx h1 h2 h3 => (hoff jy jx h1 h2 h3).1)
      simpa only [Nat.add_zero] using this
  have e2 : (∑ a : InnerIx ngx ngy, st.py (s * (ngx * ngy) + a.1 * ngx + a.2) *
      tvGy D ngx ngy a ⟨iy * ngx + ix, hn⟩) =
      (if iy = 0 then 0 else st.py (s * (ngx * ngy) + (iy - 1) * ngx + ix)) -
        st.py (s * (ngx * ngy) + iy * ngx + ix) := by
    simp only [tvGy, mul_sub, Finset.sum_sub_distrib]
    congr 1
    · have := sum_inner_at (ngy := ngy) (iy := iy) (sy := 1) (sx := 0) hx (by omega)
        (fun jy jx => st.py (s * (ngx * ngy) + jy * ngx + jx))
      simp only [Nat.add_zero] at this
      rw [this]
      by_cases h0 : iy = 0
      · rw [if_pos h0, if_neg (by omega)]
      · rw [if_neg h0, Nat.sub_zero]
        split
        · rfl
        · rename_i h
          exact (hoff (iy - 1) ix (by omega) hx (by omega)).2.symm
    · have := hoff0 (fun jy jx => st.py (s * (ngx * ngy) + jy * ngx + jx))
        (fun jy jx h1 h2 h3 => (hoff jy jx h1 h2 h3).2)
      simpa only [Nat.add_zero] using this
  have e3 : (dual D ngx ngy s st ᵥ* tvOp r D ngx ngy g s) ⟨iy * ngx + ix, hn⟩ =
      (∑ a : InnerIx ngx ngy, st.px (s * (ngx * ngy) + a.1 * ngx + a.2) *
        tvGx D ngx ngy a ⟨iy * ngx + ix, hn⟩) +
      ((∑ a : InnerIx ngx ngy, st.py (s * (ngx * ngy) + a.1 * ngx + a.2) *
        tvGy D ngx ngy a ⟨iy * ngx + ix, hn⟩) +
      ∑ b : RayIx D, st.acc.p1 (D.data s b.1 b.2) * tvR r D g s b ⟨iy * ngx + ix, hn⟩) := by
    simp only [vecMul, dotProduct, Fintype.sum_sum_type]
    rfl
  rw [e3, e1, e2]
  have e4 : ∑ b : RayIx D, st.acc.p1 (D.data s b.1 b.2) * tvR r D g s b ⟨iy * ngx + ix, hn⟩ =
      ∑ b : RayIx D, r * st.acc.p1 (D.data s b.1 b.2) * lenIn (g s b.1 b.2) (iy * ngx + ix) := by
    apply Finset.sum_congr rfl
    intro b _
    simp only [tvR]
    ring
  rw [e4]
  unfold tvDiv
  split <;> split <;> ring

/-! ## One slice of one iteration -/

/-- One step on slice `s`: dual step, primal step, extrapolation. -/
structure SliceStep (c r lam : ℝ) (D : Dims) (ngx ngy : Nat) (g : Geom ℝ) (data : Mem ℝ) (s : Nat)
    (st st' : TvSt) : Prop where
  dual : dual D ngx ngy s st' = Pdhg.tvP c lam (dat D s data)
    (dual D ngx ngy s st + c • (tvOp r D ngx ngy g s *ᵥ pix D s st.recon))
  upd : pix D s st'.upd = pix D s st.upd - c • (Iter.dual D ngx ngy s st' ᵥ* tvOp r D ngx ngy g s)
  recon : pix D s st'.recon = (2 : ℝ) • pix D s st'.upd - pix D s st.upd

/-- Slice `s` is the same in two states. -/
structure SameSlice (D : Dims) (s : Nat) (st st' : TvSt) : Prop where
  recon : ∀ n < D.N, st'.recon (n + s * D.N) = st.recon (n + s * D.N)
  upd : ∀ n < D.N, st'.upd (n + s * D.N) = st.upd (n + s * D.N)
  px : ∀ n < D.N, st'.px (n + s * D.N) = st.px (n + s * D.N)
  py : ∀ n < D.N, st'.py (n + s * D.N) = st.py (n + s * D.N)
  p1 : ∀ p < D.dt, ∀ d < D.dx, st'.acc.p1 (D.data s p d) = st.acc.p1 (D.data s p d)
  sd : ∀ p < D.dt, ∀ d < D.dx, st'.acc.sd (D.data s p d) = st.acc.sd (D.data s p d)
  adj : ∀ n < D.N, st'.acc.adj (n + s * D.N) = st.acc.adj (n + s * D.N)

theorem sum_rays_fin (D : Dims) (F : Nat → Nat → ℝ) :
    ((raysOf D.dx (List.range D.dt)).map fun q => F q.1 q.2).sum = ∑ b : RayIx D, F b.1 b.2 := by
  rw [Fintype.sum_prod_type, Fin.sum_univ_eq_sum_range (fun p => ∑ d : Fin D.dx, F p d) D.dt,
    ← sum_range_list]
  unfold raysOf
  rw [List.map_flatMap, list_sum_flatMap]
  congr 1
  apply List.map_congr_left
  intro p _
  rw [List.map_map, Fin.sum_univ_eq_sum_range (fun d => F p d) D.dx, ← sum_range_list]
  rfl

theorem innerL_other {D : Dims} {ngx ngy : Nat} (hN : D.N = ngx * ngy) {s s' n : Nat} (hn : n < D.N)
    (h : s' ≠ s) : n + s' * D.N ∉ innerL (s * (ngx * ngy)) ngx ngy := by
  intro hm
  obtain ⟨ky, hky, kx, hkx, e⟩ := mem_innerL.mp hm
  have hlt := inner_lt (show ky < ngy by omega) (show kx < ngx by omega)
  rw [← hN] at hlt e
  exact h (pix_inj hn hlt (show n + s' * D.N = ky * ngx + kx + s * D.N by omega)).1

theorem tvSlice_value {c r lam : ℝ} (hl : 0 < lam) {D : Dims} {ngx ngy : Nat}
    (hN : D.N = ngx * ngy) {g : Geom ℝ} (hg : GeomOk D g) {data : Mem ℝ} {s : Nat} (hs : s < D.dy)
    {st : TvSt} (hz : ZeroOff D ngx ngy s st)
    (hsd : ∀ p < D.dt, ∀ d < D.dx, st.acc.sd (D.data s p d) = 0)
    (hadj : ∀ n < D.N, st.acc.adj (n + s * D.N) = 0) :
    ∃ st', tvSlice c r lam D ngx ngy g data st s = some st' ∧
      SliceStep c r lam D ngx ngy g data s st st' ∧ ZeroOff D ngx ngy s st' ∧
      ∀ s' ≠ s, SameSlice D s' st st' := by
  have hrays : ∀ a : TvAcc, (List.range D.dt).foldl (fun a p => (List.range D.dx).foldl (fun a d =>
      tvRay c r D s p d (g s p d) data st.recon a) a) a =
      (raysOf D.dx (List.range D.dt)).foldl
        (fun a q => tvRay c r D s q.1 q.2 (g s q.1 q.2) data st.recon a) a := by
    intro a
    simp only [raysOf, List.foldl_flatMap, List.foldl_map]
  obtain ⟨q', hq, hq1, hq2⟩ := tvProjLoop_value hl (s * (ngx * ngy)) ngx ngy
    (tvGrad c (s * (ngx * ngy)) ngx ngy st.recon (st.px, st.py))
  obtain ⟨a', ha, ha1, ha2, ha3, ha4⟩ := tvRays_value (c := c) (r := r) hg (data := data)
    (recon := st.recon) hs (raysOf D.dx (List.range D.dt)) st.acc
    (raysOf_nodup List.nodup_range)
    (fun q hq => ⟨List.mem_range.mp (mem_raysOf.mp hq).1, (mem_raysOf.mp hq).2⟩)
    (fun q hq => hsd _ (List.mem_range.mp (mem_raysOf.mp hq).1) _ (mem_raysOf.mp hq).2)
  unfold tvSlice
  rw [hq, hrays, ha]
  simp only [Option.map_some]
  obtain ⟨upd', hupd⟩ : ∃ u, u = gridLoop (s * (ngx * ngy)) ngx ngy (fun iy ix v =>
      v - c * a'.adj (s * (ngx * ngy) + iy * ngx + ix) +
        c * tvDiv (s * (ngx * ngy)) ngx q'.1 q'.2 iy ix) st.upd := ⟨_, rfl⟩
  obtain ⟨copy, hcopy⟩ : ∃ u, u = (List.range (ngx * ngy)).foldl (fun m n =>
      update m (n + s * (ngx * ngy)) (st.upd (n + s * (ngx * ngy)))) st.recon := ⟨_, rfl⟩
  rw [← hupd, ← hcopy]
  have hcopyv := foldl_pixels (fun n _ => st.upd (n + s * (ngx * ngy))) (s * (ngx * ngy))
      (ngx * ngy) st.recon
  have hpos : ∀ n < D.N, 0 < ngx := by
    intro n hn
    rcases Nat.eq_zero_or_pos ngx with h | h
    · rw [hN, h, Nat.zero_mul] at hn; omega
    · exact h
  have hsplit : ∀ n < D.N, ∃ iy ix, iy < ngy ∧ ix < ngx ∧ n = iy * ngx + ix := by
    intro n hn
    have h0 := hpos n hn
    refine ⟨n / ngx, n % ngx, ?_, Nat.mod_lt _ h0, ?_⟩
    · rw [Nat.div_lt_iff_lt_mul h0, Nat.mul_comm]; omega
    · rw [Nat.mul_comm]; exact (Nat.div_add_mod _ _).symm
  have hq2' : ∀ x, x ∉ innerL (s * (ngx * ngy)) ngx ngy → q'.1 x = st.px x ∧ q'.2 x = st.py x := by
    intro x hx
    obtain ⟨k1, k2⟩ := hq2 x hx
    obtain ⟨k3, k4⟩ := tvGrad_other c (s * (ngx * ngy)) ngx ngy st.recon (st.px, st.py) hx
    exact ⟨k1.trans k3, k2.trans k4⟩
  have hz' : ZeroOff D ngx ngy s ⟨gridLoop (s * (ngx * ngy)) ngx ngy (fun iy ix v =>
      2 * upd' (s * (ngx * ngy) + iy * ngx + ix) - v) copy, upd', q'.1, q'.2, a'⟩ := by
    intro n hn hx
    obtain ⟨k1, k2⟩ := hq2' _ hx
    obtain ⟨k3, k4⟩ := hz n hn hx
    exact ⟨k1.trans k3, k2.trans k4⟩
  refine ⟨_, rfl, ⟨?_, ?_, ?_⟩, hz', ?_⟩
  · -- dual step
    funext j
    rcases j with a | a | b
    · have hm : s * (ngx * ngy) + (a.1 : Nat) * ngx + a.2 ∈ innerL (s * (ngx * ngy)) ngx ngy :=
        mem_innerL.mpr ⟨a.1, a.1.2, a.2, a.2.2, rfl⟩
      obtain ⟨v1, v2⟩ := tvGrad_value c (s * (ngx * ngy)) ngx ngy st.recon (st.px, st.py) a.1.2 a.2.2
      have := (hq1 _ hm).1
      rw [v1, v2] at this
      show q'.1 _ = _ / _
      rw [this]
      simp only [Pi.add_apply, Pi.smul_apply, smul_eq_mul]
      rw [show (tvOp r D ngx ngy g s *ᵥ pix D s st.recon) (.inl a) = _ from tvGx_mulVec hN s st.recon a,
        show (tvOp r D ngx ngy g s *ᵥ pix D s st.recon) (.inr (.inl a)) = _ from
          tvGy_mulVec hN s st.recon a]
      rfl
    · have hm : s * (ngx * ngy) + (a.1 : Nat) * ngx + a.2 ∈ innerL (s * (ngx * ngy)) ngx ngy :=
        mem_innerL.mpr ⟨a.1, a.1.2, a.2, a.2.2, rfl⟩
      obtain ⟨v1, v2⟩ := tvGrad_value c (s * (ngx * ngy)) ngx ngy st.recon (st.px, st.py) a.1.2 a.2.2
      have := (hq1 _ hm).2
      rw [v1, v2] at this
      show q'.2 _ = _ / _
      rw [this]
      simp only [Pi.add_apply, Pi.smul_apply, smul_eq_mul]
      rw [show (tvOp r D ngx ngy g s *ᵥ pix D s st.recon) (.inl a) = _ from tvGx_mulVec hN s st.recon a,
        show (tvOp r D ngx ngy g s *ᵥ pix D s st.recon) (.inr (.inl a)) = _ from
          tvGy_mulVec hN s st.recon a]
      rfl
    · show a'.p1 _ = (_ - _) / _
      rw [ha1 (b.1, b.2) (mem_raysOf.mpr ⟨List.mem_range.mpr b.1.2, b.2.2⟩)]
      simp only [Pi.add_apply, Pi.smul_apply, smul_eq_mul]
      rw [show (tvOp r D ngx ngy g s *ᵥ pix D s st.recon) (.inr (.inr b)) = _ from
        tvR_mulVec hg hs r st.recon b]
      unfold newP1
      have e : dual D ngx ngy s st (.inr (.inr b)) = st.acc.p1 (D.data s b.1 b.2) := rfl
      rw [e, show dat D s data b = data (D.data s b.1 b.2) from rfl]
      congr 2
      ring
  · -- primal step
    funext n
    obtain ⟨iy, ix, hy, hx, e⟩ := hsplit n n.2
    have hn' : iy * ngx + ix < D.N := e ▸ n.2
    obtain rfl : n = ⟨iy * ngx + ix, hn'⟩ := Fin.ext e
    simp only [Pi.sub_apply, Pi.smul_apply, smul_eq_mul]
    rw [vecMul_tvOp hN r _ hz' hy hx hn']
    have ea : s * (ngx * ngy) + iy * ngx + ix = iy * ngx + ix + s * D.N := by rw [hN]; omega
    show upd' (iy * ngx + ix + s * D.N) = st.upd (iy * ngx + ix + s * D.N) - _
    rw [hupd, ← ea, gridLoop_pixel _ _ _ hy hx, ea, ha2 _ hn', hadj _ hn', zero_add,
      sum_rays_fin D (fun p d => r * newP1 c r D g data st.recon st.acc.p1 s p d *
        lenIn (g s p d) (iy * ngx + ix))]
    have : ∑ b : RayIx D, r * newP1 c r D g data st.recon st.acc.p1 s b.1 b.2 *
          lenIn (g s b.1 b.2) (iy * ngx + ix) =
        ∑ b : RayIx D, r * a'.p1 (D.data s b.1 b.2) * lenIn (g s b.1 b.2) (iy * ngx + ix) := by
      apply Finset.sum_congr rfl
      intro b _
      rw [ha1 (b.1, b.2) (mem_raysOf.mpr ⟨List.mem_range.mpr b.1.2, b.2.2⟩)]
    rw [this]
    ring
  · -- extrapolation
    funext n
    obtain ⟨iy, ix, hy, hx, e⟩ := hsplit n n.2
    have hn' : iy * ngx + ix < D.N := e ▸ n.2
    obtain rfl : n = ⟨iy * ngx + ix, hn'⟩ := Fin.ext e
    have ea : s * (ngx * ngy) + iy * ngx + ix = iy * ngx + ix + s * D.N := by rw [hN]; omega
    show gridLoop (s * (ngx * ngy)) ngx ngy _ _ (iy * ngx + ix + s * D.N) =
      2 * upd' (iy * ngx + ix + s * D.N) - st.upd (iy * ngx + ix + s * D.N)
    rw [← ea, gridLoop_pixel _ _ _ hy hx, hcopy, hcopyv, if_pos (by rw [← hN]; omega)]
    congr 2
    rw [← hN]
    omega
  · intro s' hs'
    have hoth : ∀ n < D.N, ¬ (s * (ngx * ngy) ≤ n + s' * D.N ∧
        n + s' * D.N < s * (ngx * ngy) + ngx * ngy) := by
      intro n hn
      rw [← hN]
      exact other_slice hn hs'
    refine ⟨?_, ?_, ?_, ?_, ?_, ?_, ?_⟩
    · intro n hn
      show gridLoop (s * (ngx * ngy)) ngx ngy _ _ (n + s' * D.N) = _
      rw [gridLoop_apply, if_neg (hoth n hn), hcopy, hcopyv, if_neg (hoth n hn)]
    · intro n hn
      show upd' (n + s' * D.N) = _
      rw [hupd, gridLoop_apply, if_neg (hoth n hn)]
    · intro n hn
      exact (hq2' _ (innerL_other hN hn hs')).1
    · intro n hn
      exact (hq2' _ (innerL_other hN hn hs')).2
    · intro p hp d hd
      exact (ha3 s' p d hp hd (Or.inl hs')).1
    · intro p hp d hd
      exact (ha3 s' p d hp hd (Or.inl hs')).2
    · intro n hn
      exact ha4 s' hs' n hn

/-! ## Iterations -/

theorem SameSlice.dual_eq {D : Dims} {ngx ngy : Nat} (hN : D.N = ngx * ngy) {s : Nat} {st st' : TvSt}
    (h : SameSlice D s st st') : dual D ngx ngy s st' = dual D ngx ngy s st := by
  have hadr : ∀ a : InnerIx ngx ngy, ∃ n < D.N,
      s * (ngx * ngy) + (a.1 : Nat) * ngx + a.2 = n + s * D.N := by
    intro a
    refine ⟨a.1 * ngx + a.2, by rw [hN]; exact (inner_succ a).2.1, ?_⟩
    rw [hN]
    omega
  funext j
  rcases j with a | a | b
  · obtain ⟨n, hn, e⟩ := hadr a
    show st'.px _ = st.px _
    rw [e]
    exact h.px n hn
  · obtain ⟨n, hn, e⟩ := hadr a
    show st'.py _ = st.py _
    rw [e]
    exact h.py n hn
  · exact h.p1 _ b.1.2 _ b.2.2

theorem SameSlice.pix_recon {D : Dims} {s : Nat} {st st' : TvSt} (h : SameSlice D s st st') :
    pix D s st'.recon = pix D s st.recon := funext fun n => h.recon n n.2

theorem SameSlice.pix_upd {D : Dims} {s : Nat} {st st' : TvSt} (h : SameSlice D s st st') :
    pix D s st'.upd = pix D s st.upd := funext fun n => h.upd n n.2

theorem SliceStep.of_left {c r lam : ℝ} {D : Dims} {ngx ngy : Nat} (hN : D.N = ngx * ngy) {g : Geom ℝ}
    {data : Mem ℝ} {s : Nat} {a b b' : TvSt} (h : SameSlice D s a b)
    (k : SliceStep c r lam D ngx ngy g data s b b') : SliceStep c r lam D ngx ngy g data s a b' where
  dual := by rw [k.dual, h.dual_eq hN, h.pix_recon]
  upd := by rw [k.upd, h.pix_upd]
  recon := by rw [k.recon, h.pix_upd]

theorem SliceStep.of_right {c r lam : ℝ} {D : Dims} {ngx ngy : Nat} (hN : D.N = ngx * ngy) {g : Geom ℝ}
    {data : Mem ℝ} {s : Nat} {a b b' : TvSt} (k : SliceStep c r lam D ngx ngy g data s a b)
    (h : SameSlice D s b b') : SliceStep c r lam D ngx ngy g data s a b' where
  dual := by rw [h.dual_eq hN, k.dual]
  upd := by rw [h.dual_eq hN, h.pix_upd, k.upd]
  recon := by rw [h.pix_recon, h.pix_upd, k.recon]

theorem SameSlice.zeroOff {D : Dims} {ngx ngy : Nat} {s : Nat} {a b : TvSt} (h : SameSlice D s a b)
    (hz : ZeroOff D ngx ngy s a) : ZeroOff D ngx ngy s b := by
  intro n hn hx
  obtain ⟨k1, k2⟩ := hz n hn hx
  exact ⟨(h.px n hn).trans k1, (h.py n hn).trans k2⟩

theorem SameSlice.trans {D : Dims} {s : Nat} {a b c : TvSt} (h : SameSlice D s a b)
    (k : SameSlice D s b c) : SameSlice D s a c where
  recon n hn := (k.recon n hn).trans (h.recon n hn)
  upd n hn := (k.upd n hn).trans (h.upd n hn)
  px n hn := (k.px n hn).trans (h.px n hn)
  py n hn := (k.py n hn).trans (h.py n hn)
  p1 p hp d hd := (k.p1 p hp d hd).trans (h.p1 p hp d hd)
  sd p hp d hd := (k.sd p hp d hd).trans (h.sd p hp d hd)
  adj n hn := (k.adj n hn).trans (h.adj n hn)

/-- One iteration performs one primal-dual step on every slice. -/
theorem tvIter_value {c r lam : ℝ} (hl : 0 < lam) {D : Dims} {ngx ngy : Nat}
    (hN : D.N = ngx * ngy) {g : Geom ℝ} (hg : GeomOk D g) {data : Mem ℝ} {st : TvSt}
    (hz : ∀ s < D.dy, ZeroOff D ngx ngy s st) :
    ∃ st', tvIter c r lam D ngx ngy g data st = some st' ∧ ∀ s < D.dy,
      SliceStep c r lam D ngx ngy g data s st st' ∧ ZeroOff D ngx ngy s st' := by
  obtain ⟨st0, hst0⟩ : ∃ st0 : TvSt, st0 = { st with acc := ⟨zeros, st.acc.p1, zeros⟩ } := ⟨_, rfl⟩
  have key : ∀ m ≤ D.dy, ∃ st', (List.range m).foldlM (tvSlice c r lam D ngx ngy g data) st0 = some st' ∧
      (∀ s < m, SliceStep c r lam D ngx ngy g data s st0 st' ∧ ZeroOff D ngx ngy s st') ∧
      ∀ s, m ≤ s → SameSlice D s st0 st' := by
    intro m
    induction m with
    | zero =>
      intro _
      exact ⟨st0, rfl, by simp, fun s _ => ⟨fun _ _ => rfl, fun _ _ => rfl, fun _ _ => rfl,
        fun _ _ => rfl, fun _ _ _ _ => rfl, fun _ _ _ _ => rfl, fun _ _ => rfl⟩⟩
    | succ m ih =>
      intro hm
      obtain ⟨st1, e1, f1, g1⟩ := ih (by omega)
      have hsame := g1 m (le_refl _)
      obtain ⟨st2, e2, f2, z2, g2⟩ := tvSlice_value (c := c) (r := r) hl hN hg (data := data) (s := m)
        (by omega) (st := st1) (hsame.zeroOff (by rw [hst0]; exact hz m (by omega)))
        (fun p hp d hd => by rw [hsame.sd p hp d hd, hst0]; rfl)
        (fun n hn => by rw [hsame.adj n hn, hst0]; rfl)
      refine ⟨st2, ?_, ?_, ?_⟩
      · rw [List.range_succ, List.foldlM_append, e1]
        show (some st1).bind (fun r => [m].foldlM _ r) = some st2
        simp only [Option.bind_some, List.foldlM_cons, List.foldlM_nil, e2]
        rfl
      · intro s hs
        by_cases e : s = m
        · subst e
          exact ⟨SliceStep.of_left hN hsame f2, z2⟩
        · obtain ⟨k1, k2⟩ := f1 s (by omega)
          exact ⟨SliceStep.of_right hN k1 (g2 s e), (g2 s e).zeroOff k2⟩
      · intro s hs
        exact (g1 s (by omega)).trans (g2 s (by omega))
  obtain ⟨st', e, f, _⟩ := key D.dy (le_refl _)
  refine ⟨st', ?_, ?_⟩
  · unfold tvIter
    rw [← hst0]
    exact e
  · intro s hs
    obtain ⟨k, z⟩ := f s hs
    refine ⟨?_, z⟩
    rw [hst0] at k
    exact ⟨k.dual, k.upd, k.recon⟩

/-- The state after every number of iterations. -/
theorem tvIters_value {c r lam : ℝ} (hl : 0 < lam) {D : Dims} {ngx ngy : Nat}
    (hN : D.N = ngx * ngy) {g : Geom ℝ} (hg : GeomOk D g) {data : Mem ℝ} {st : TvSt}
    (hz : ∀ s < D.dy, ZeroOff D ngx ngy s st) :
    ∃ S : ℕ → TvSt, S 0 = st ∧ (∀ k, iterM (tvIter c r lam D ngx ngy g data) k st = some (S k)) ∧
      ∀ k, ∀ s < D.dy, SliceStep c r lam D ngx ngy g data s (S k) (S (k + 1)) := by
  have hex : ∀ k, ∃ st', iterM (tvIter c r lam D ngx ngy g data) k st = some st' ∧
      ∀ s < D.dy, ZeroOff D ngx ngy s st' := fun k =>
    iterM_inv _ (fun st => ∀ s < D.dy, ZeroOff D ngx ngy s st) (fun b hb => by
      obtain ⟨b', e, f⟩ := tvIter_value (c := c) (r := r) hl hN hg (data := data) hb
      exact ⟨b', e, fun s hs => (f s hs).2⟩) k st hz
  choose S hS hSz using hex
  refine ⟨S, ?_, hS, ?_⟩
  · have := hS 0
    simp only [iterM] at this
    exact (Option.some.inj this).symm
  · intro k s hs
    obtain ⟨b', e, f⟩ := tvIter_value (c := c) (r := r) hl hN hg (data := data) (hSz k)
    have h1 := hS (k + 1)
    rw [iterM_succ_last, hS k, Option.bind_some, e] at h1
    rw [← Option.some.inj h1]
    exact (f s hs).1

/-! ## Convergence -/

/-- The functional that total variation regularisation minimises on slice `s`: half the squared
residual plus `w` times the sum of the lengths of the discrete gradients. -/
noncomputable def tvEnergy (w : ℝ) (D : Dims) (ngx ngy : Nat) (g : Geom ℝ) (data : Mem ℝ) (s : Nat)
    (u : Mem ℝ) : ℝ :=
  1 / 2 * ∑ p ∈ Finset.range D.dt, ∑ d ∈ Finset.range D.dx,
      (lineSum D.N s (g s p d) u - data (D.data s p d)) ^ 2 +
  w * ∑ iy ∈ Finset.range (ngy - 1), ∑ ix ∈ Finset.range (ngx - 1), Real.sqrt (
      (u (s * (ngx * ngy) + iy * ngx + (ix + 1)) - u (s * (ngx * ngy) + iy * ngx + ix)) ^ 2 +
      (u (s * (ngx * ngy) + (iy + 1) * ngx + ix) - u (s * (ngx * ngy) + iy * ngx + ix)) ^ 2)

/-- Sum of the squares of all differences of slice `s`. -/
noncomputable def gradSq (ngx ngy s : Nat) (u : Mem ℝ) : ℝ :=
  ∑ iy ∈ Finset.range (ngy - 1), ∑ ix ∈ Finset.range (ngx - 1),
    ((u (s * (ngx * ngy) + iy * ngx + (ix + 1)) - u (s * (ngx * ngy) + iy * ngx + ix)) ^ 2 +
     (u (s * (ngx * ngy) + (iy + 1) * ngx + ix) - u (s * (ngx * ngy) + iy * ngx + ix)) ^ 2)

/-- Sum of the squares of all ray sums of slice `s`. -/
noncomputable def raySq (D : Dims) (g : Geom ℝ) (s : Nat) (u : Mem ℝ) : ℝ :=
  ∑ p ∈ Finset.range D.dt, ∑ d ∈ Finset.range D.dx, lineSum D.N s (g s p d) u ^ 2

/-- Sum of the squares of the pixels of slice `s`. -/
noncomputable def pixSq (D : Dims) (s : Nat) (u : Mem ℝ) : ℝ := ∑ n ∈ Finset.range D.N, u (n + s * D.N) ^ 2

/-- The step size `c` is smaller than the inverse of the norm of the operator: `κ < 1` bounds
`c` times the norm on every slice. -/
def StepOk (c r κ : ℝ) (D : Dims) (ngx ngy : Nat) (g : Geom ℝ) : Prop :=
  ∀ s < D.dy, ∀ u, c ^ 2 * (gradSq ngx ngy s u + r ^ 2 * raySq D g s u) ≤ κ ^ 2 * pixSq D s u

theorem sum_inner_fin {ngx ngy : Nat} (F : Nat → Nat → ℝ) :
    ∑ a : InnerIx ngx ngy, F a.1 a.2 =
      ∑ iy ∈ Finset.range (ngy - 1), ∑ ix ∈ Finset.range (ngx - 1), F iy ix := by
  rw [Fintype.sum_prod_type,
    Fin.sum_univ_eq_sum_range (fun iy => ∑ ix : Fin (ngx - 1), F iy ix) (ngy - 1)]
  apply Finset.sum_congr rfl
  intro iy _
  exact Fin.sum_univ_eq_sum_range (fun ix => F iy ix) (ngx - 1)

theorem sum_ray_fin {D : Dims} (F : Nat → Nat → ℝ) :
    ∑ b : RayIx D, F b.1 b.2 = ∑ p ∈ Finset.range D.dt, ∑ d ∈ Finset.range D.dx, F p d := by
  rw [Fintype.sum_prod_type, Fin.sum_univ_eq_sum_range (fun p => ∑ d : Fin D.dx, F p d) D.dt]
  apply Finset.sum_congr rfl
  intro p _
  exact Fin.sum_univ_eq_sum_range (fun d => F p d) D.dx

/-- An image whose slice `s` is given. -/
noncomputable def ofPix (D : Dims) (s : Nat) (x : Fin D.N → ℝ) : Mem ℝ := fun i =>
  if h : s * D.N ≤ i ∧ i < s * D.N + D.N then x ⟨i - s * D.N, by omega⟩ else 0

theorem pix_ofPix (D : Dims) (s : Nat) (x : Fin D.N → ℝ) : pix D s (ofPix D s x) = x := by
  funext n
  unfold pix ofPix
  rw [dif_pos (by omega)]
  congr 1
  exact Fin.ext (by simp)

theorem norm_tvOp {D : Dims} {ngx ngy : Nat} (hN : D.N = ngx * ngy) {g : Geom ℝ} (hg : GeomOk D g)
    {s : Nat} (hs : s < D.dy) (r : ℝ) (u : Mem ℝ) :
    (tvOp r D ngx ngy g s *ᵥ pix D s u) ⬝ᵥ (tvOp r D ngx ngy g s *ᵥ pix D s u) =
      gradSq ngx ngy s u + r ^ 2 * raySq D g s u ∧ pix D s u ⬝ᵥ pix D s u = pixSq D s u := by
  constructor
  · rw [Pdhg.dot_sum]
    unfold gradSq raySq
    rw [← sum_inner_fin (fun iy ix =>
      ((u (s * (ngx * ngy) + iy * ngx + (ix + 1)) - u (s * (ngx * ngy) + iy * ngx + ix)) ^ 2 +
      (u (s * (ngx * ngy) + (iy + 1) * ngx + ix) - u (s * (ngx * ngy) + iy * ngx + ix)) ^ 2)),
      ← sum_ray_fin (fun p d => lineSum D.N s (g s p d) u ^ 2), Finset.mul_sum]
    congr 1
    · apply Finset.sum_congr rfl
      intro a _
      rw [show (tvOp r D ngx ngy g s *ᵥ pix D s u) (.inl a) = _ from tvGx_mulVec hN s u a,
        show (tvOp r D ngx ngy g s *ᵥ pix D s u) (.inr (.inl a)) = _ from tvGy_mulVec hN s u a]
      ring
    · apply Finset.sum_congr rfl
      intro b _
      rw [show (tvOp r D ngx ngy g s *ᵥ pix D s u) (.inr (.inr b)) = _ from tvR_mulVec hg hs r u b]
      ring
  · unfold pixSq
    rw [← Fin.sum_univ_eq_sum_range (fun n => u (n + s * D.N) ^ 2) D.N]
    simp only [dotProduct, pix]
    apply Finset.sum_congr rfl
    intro n _
    ring

theorem tvEnergy_eq {D : Dims} {ngx ngy : Nat} (hN : D.N = ngx * ngy) {g : Geom ℝ} (hg : GeomOk D g)
    {s : Nat} (hs : s < D.dy) {r : ℝ} (hr : 0 < r) (lam : ℝ) (data u : Mem ℝ) :
    tvEnergy (lam / r) D ngx ngy g data s u = Pdhg.tvObj lam (tvGx D ngx ngy) (tvGy D ngx ngy)
      (tvR r D g s) (dat D s data) (pix D s fun i => u i / r) := by
  unfold tvEnergy Pdhg.tvObj
  rw [← sum_inner_fin (fun iy ix => Real.sqrt (
      (u (s * (ngx * ngy) + iy * ngx + (ix + 1)) - u (s * (ngx * ngy) + iy * ngx + ix)) ^ 2 +
      (u (s * (ngx * ngy) + (iy + 1) * ngx + ix) - u (s * (ngx * ngy) + iy * ngx + ix)) ^ 2)),
    ← sum_ray_fin (fun p d => (lineSum D.N s (g s p d) u - data (D.data s p d)) ^ 2), add_comm]
  congr 1
  · rw [Finset.mul_sum, Finset.mul_sum]
    apply Finset.sum_congr rfl
    intro a _
    rw [tvGx_mulVec hN, tvGy_mulVec hN]
    generalize u (s * (ngx * ngy) + a.1 * ngx + (a.2 + 1)) = u1
    generalize u (s * (ngx * ngy) + a.1 * ngx + a.2) = u0
    generalize u (s * (ngx * ngy) + (a.1 + 1) * ngx + a.2) = u2
    have e : (u1 / r - u0 / r) ^ 2 + (u2 / r - u0 / r) ^ 2 =
        ((u1 - u0) ^ 2 + (u2 - u0) ^ 2) / r ^ 2 := by
      field_simp
    rw [e, Real.sqrt_div (by positivity), Real.sqrt_sq hr.le]
    field_simp
  · congr 1
    apply Finset.sum_congr rfl
    intro b _
    rw [tvR_mulVec hg hs]
    have e : lineSum D.N s (g s b.1 b.2) (fun i => u i / r) = lineSum D.N s (g s b.1 b.2) u / r := by
      have := lineSum_add (N := D.N) (s := s) (g s b.1 b.2) (1 / r) 0 u u
      simp only [zero_mul, add_zero] at this
      rw [show (fun i => u i / r) = fun i => 1 / r * u i from funext fun i => by ring, this]
      ring
    rw [e]
    show _ = (r * _ - data (D.data s b.1 b.2)) ^ 2
    field_simp

/-- Convergence for one slice. -/
theorem tv_slice_converges {c r lam κ : ℝ} (hc : 0 < c) (hκ0 : 0 ≤ κ) (hκ : κ < 1) (hl : 0 < lam)
    {D : Dims} {ngx ngy : Nat} (hN : D.N = ngx * ngy) {g : Geom ℝ} (hg : GeomOk D g)
    (hst : StepOk c r κ D ngx ngy g) {data : Mem ℝ} {s : Nat} (hs : s < D.dy) {S : ℕ → TvSt}
    (hS : ∀ k, SliceStep c r lam D ngx ngy g data s (S k) (S (k + 1))) :
    ∃ x : Fin D.N → ℝ, Tendsto (fun k => pix D s (S k).recon) atTop (𝓝 x) ∧
      ∀ x', Pdhg.tvObj lam (tvGx D ngx ngy) (tvGy D ngx ngy) (tvR r D g s) (dat D s data) x ≤
        Pdhg.tvObj lam (tvGx D ngx ngy) (tvGy D ngx ngy) (tvR r D g s) (dat D s data) x' := by
  have hiter : ∀ k, (Pdhg.step (tvOp r D ngx ngy g s) c (Pdhg.tvP c lam (dat D s data)))^[k]
      (pix D s (S 0).upd, dual D ngx ngy s (S 1)) =
        (pix D s (S k).upd, dual D ngx ngy s (S (k + 1))) := by
    intro k
    induction k with
    | zero => rfl
    | succ k ih =>
      rw [Function.iterate_succ_apply', ih]
      unfold Pdhg.step
      simp only
      rw [← (hS k).upd, ← (hS k).recon, ← (hS (k + 1)).dual]
  obtain ⟨κ', h1, h2, h3⟩ : ∃ κ', 0 < κ' ∧ κ' < 1 ∧ κ ≤ κ' :=
    ⟨(κ + 1) / 2, by linarith, by linarith, by linarith⟩
  obtain ⟨z, hz, hlim⟩ := Pdhg.converges (K := tvOp r D ngx ngy g s) hc h1 h2 (fun x => by
      obtain ⟨e1, e2⟩ := norm_tvOp hN hg hs r (ofPix D s x)
      rw [pix_ofPix] at e1 e2
      rw [e1, e2]
      refine (hst s hs _).trans (mul_le_mul_of_nonneg_right (by nlinarith) ?_)
      exact Finset.sum_nonneg fun _ _ => sq_nonneg _)
    (Pdhg.tvP_isProx hc hl (dat D s data)) (Pdhg.saddle_exists hl _ _)
    (pix D s (S 0).upd, dual D ngx ngy s (S 1))
  simp only [hiter] at hlim
  have hupd : Tendsto (fun k => pix D s (S k).upd) atTop (𝓝 z.1) :=
    (continuous_fst.tendsto z).comp hlim
  refine ⟨z.1, ?_, Pdhg.saddle_minimises hl.le hz⟩
  rw [← tendsto_add_atTop_iff_nat 1]
  have e : (fun k => pix D s (S (k + 1)).recon) =
      fun k => (2 : ℝ) • pix D s (S (k + 1)).upd - pix D s (S k).upd := funext fun k => (hS k).recon
  rw [e]
  have := (((tendsto_add_atTop_iff_nat 1).mpr hupd).const_smul (2 : ℝ)).sub hupd
  have e2 : (2 : ℝ) • z.1 - z.1 = z.1 := by rw [two_smul, add_sub_cancel_right]
  rwa [e2] at this

/-- **C150** (partial: the step 0.35 must be smaller than the inverse of the norm of the operator
that maps an image to its differences and scaled ray sums): the results of `tv` converge, as the
number of iterations grows, and the limit minimises the total variation functional with weight
`reg_par[0] / r` on every slice, for every geometry, data, initial image and positive
regularisation parameter. -/
theorem tv_converges_partial {lam κ : ℝ} (hl : 0 < lam) (hκ0 : 0 ≤ κ) (hκ : κ < 1)
    {D : Dims} (hD : ¬ (D.dy = 0 ∨ D.dt = 0 ∨ D.dx = 0)) {ngx ngy : Nat} (hN : D.N = ngx * ngy)
    {g : Geom ℝ} (hg : GeomOk D g) (hst : StepOk tvC (gradScale D) κ D ngx ngy g)
    (data recon : Mem ℝ) :
    ∃ (out : ℕ → Mem ℝ) (u : Mem ℝ),
      (∀ k, tv lam D ngx ngy g data k recon = some (out k)) ∧
      (∀ s < D.dy, ∀ n < D.N, Tendsto (fun k => out k (n + s * D.N)) atTop (𝓝 (u (n + s * D.N)))) ∧
      ∀ s < D.dy, ∀ u', tvEnergy (lam / gradScale D) D ngx ngy g data s u ≤
        tvEnergy (lam / gradScale D) D ngx ngy g data s u' := by
  have hr := gradScale_pos hD
  have hc : 0 < tvC := by unfold tvC; norm_num
  obtain ⟨rc, hrc⟩ : ∃ rc, rc = forPix D.dy ngx ngy (fun _ _ v => v / gradScale D) recon := ⟨_, rfl⟩
  obtain ⟨S, hS0, hS, hstep⟩ := tvIters_value (c := tvC) (r := gradScale D) hl hN hg (data := data)
    (st := ⟨rc, rc, zeros, zeros, ⟨zeros, zeros, zeros⟩⟩) (fun s _ n _ _ => ⟨rfl, rfl⟩)
  have hlim : ∀ s : Fin D.dy, ∃ x : Fin D.N → ℝ, Tendsto (fun k => pix D s (S k).recon) atTop (𝓝 x) ∧
      ∀ x', Pdhg.tvObj lam (tvGx D ngx ngy) (tvGy D ngx ngy) (tvR (gradScale D) D g s)
          (dat D s data) x ≤
        Pdhg.tvObj lam (tvGx D ngx ngy) (tvGy D ngx ngy) (tvR (gradScale D) D g s)
          (dat D s data) x' := fun s =>
    tv_slice_converges hc hκ0 hκ hl hN hg hst s.2 (fun k => hstep k s s.2)
  choose x hx hmin using hlim
  refine ⟨fun k => forPix D.dy ngx ngy (fun _ _ v => v * gradScale D) (S k).recon,
    fun i => if h : i / D.N < D.dy ∧ 0 < D.N then
      x ⟨i / D.N, h.1⟩ ⟨i % D.N, Nat.mod_lt _ h.2⟩ * gradScale D else 0, ?_, ?_, ?_⟩
  · intro k
    unfold tv tvRun
    rw [if_neg hD]
    simp only
    rw [← hrc, hS k]
    rfl
  · intro s hs n hn
    have hNp : 0 < D.N := by omega
    have e1 : (n + s * D.N) / D.N = s := by
      rw [Nat.add_mul_div_right _ _ hNp, Nat.div_eq_of_lt hn, zero_add]
    have e2 : (n + s * D.N) % D.N = n := by rw [Nat.add_mul_mod_self_right, Nat.mod_eq_of_lt hn]
    simp only [forPix_pixel hN _ _ hs hn, e1, e2, hs, hNp, and_self, dif_pos]
    have := ((continuous_apply (⟨n, hn⟩ : Fin D.N)).tendsto _).comp (hx ⟨s, hs⟩)
    exact this.mul_const _
  · intro s hs u'
    rw [tvEnergy_eq hN hg hs hr, tvEnergy_eq hN hg hs hr]
    refine le_trans (le_of_eq ?_) (hmin ⟨s, hs⟩ _)
    congr 1
    funext n
    have hNp : 0 < D.N := by have := n.2; omega
    have e1 : ((n : Nat) + s * D.N) / D.N = s := by
      rw [Nat.add_mul_div_right _ _ hNp, Nat.div_eq_of_lt n.2, zero_add]
    have e2 : ((n : Nat) + s * D.N) % D.N = n := by
      rw [Nat.add_mul_mod_self_right, Nat.mod_eq_of_lt n.2]
    unfold pix
    simp only [e1, e2, hs, hNp, and_self, dif_pos]
    rw [mul_div_assoc, div_self hr.ne', mul_one]

/-! ## When the step is small enough -/

theorem sum_inner_le {N ngx ngy : Nat} (F : Nat → ℝ) (hF : ∀ n, 0 ≤ F n) (φ : InnerIx ngx ngy → Nat)
    (hφ : ∀ a, φ a < N) (hinj : Function.Injective φ) :
    ∑ a : InnerIx ngx ngy, F (φ a) ≤ ∑ n ∈ Finset.range N, F n := by
  rw [← Finset.sum_image (f := F) (g := φ) (s := Finset.univ) (fun a _ b _ e => hinj e)]
  apply Finset.sum_le_sum_of_subset_of_nonneg
  · intro n hn
    obtain ⟨a, _, rfl⟩ := Finset.mem_image.mp hn
    exact Finset.mem_range.mpr (hφ a)
  · intro n _ _
    exact hF n

/-- **C150**: the square of the norm of the difference operator is at most 8. -/
theorem gradSq_le {D : Dims} {ngx ngy : Nat} (hN : D.N = ngx * ngy) (s : Nat) (u : Mem ℝ) :
    gradSq ngx ngy s u ≤ 8 * pixSq D s u := by
  unfold gradSq pixSq
  rw [← sum_inner_fin (fun iy ix =>
      ((u (s * (ngx * ngy) + iy * ngx + (ix + 1)) - u (s * (ngx * ngy) + iy * ngx + ix)) ^ 2 +
      (u (s * (ngx * ngy) + (iy + 1) * ngx + ix) - u (s * (ngx * ngy) + iy * ngx + ix)) ^ 2))]
  have hF : ∀ n, 0 ≤ u (n + s * D.N) ^ 2 := fun n => sq_nonneg _
  have h0 := sum_inner_le (N := D.N) _ hF (fun a : InnerIx ngx ngy => (a.1 : Nat) * ngx + a.2)
    (fun a => by rw [hN]; exact (inner_succ a).2.1)
    (fun a b e => by
      obtain ⟨e1, e2⟩ := grid_inj (show (a.2 : Nat) < ngx by omega) (show (b.2 : Nat) < ngx by omega) e
      exact Prod.ext (Fin.ext e1) (Fin.ext e2))
  have h1 := sum_inner_le (N := D.N) _ hF (fun a : InnerIx ngx ngy => (a.1 : Nat) * ngx + (a.2 + 1))
    (fun a => by rw [hN]; exact (inner_succ a).1)
    (fun a b e => by
      obtain ⟨e1, e2⟩ := grid_inj (show (a.2 : Nat) + 1 < ngx by omega)
        (show (b.2 : Nat) + 1 < ngx by omega) e
      exact Prod.ext (Fin.ext e1) (Fin.ext (by omega)))
  have h2 := sum_inner_le (N := D.N) _ hF (fun a : InnerIx ngx ngy => ((a.1 : Nat) + 1) * ngx + a.2)
    (fun a => by rw [hN]; exact (inner_succ a).2.2)
    (fun a b e => by
      obtain ⟨e1, e2⟩ := grid_inj (show (a.2 : Nat) < ngx by omega) (show (b.2 : Nat) < ngx by omega) e
      exact Prod.ext (Fin.ext (by omega)) (Fin.ext e2))
  have hle : ∀ a : InnerIx ngx ngy,
      ((u (s * (ngx * ngy) + a.1 * ngx + (a.2 + 1)) - u (s * (ngx * ngy) + a.1 * ngx + a.2)) ^ 2 +
      (u (s * (ngx * ngy) + (a.1 + 1) * ngx + a.2) - u (s * (ngx * ngy) + a.1 * ngx + a.2)) ^ 2) ≤
      4 * u (a.1 * ngx + a.2 + s * D.N) ^ 2 + 2 * u (a.1 * ngx + (a.2 + 1) + s * D.N) ^ 2 +
        2 * u ((a.1 + 1) * ngx + a.2 + s * D.N) ^ 2 := by
    intro a
    rw [hN]
    have e0 : (a.1 : Nat) * ngx + a.2 + s * (ngx * ngy) = s * (ngx * ngy) + a.1 * ngx + a.2 := by omega
    have e1 : (a.1 : Nat) * ngx + (a.2 + 1) + s * (ngx * ngy) =
        s * (ngx * ngy) + a.1 * ngx + (a.2 + 1) := by omega
    have e2 : ((a.1 : Nat) + 1) * ngx + a.2 + s * (ngx * ngy) =
        s * (ngx * ngy) + (a.1 + 1) * ngx + a.2 := by omega
    rw [e0, e1, e2]
    nlinarith [sq_nonneg (u (s * (ngx * ngy) + a.1 * ngx + (a.2 + 1)) +
      u (s * (ngx * ngy) + a.1 * ngx + a.2)), sq_nonneg (u (s * (ngx * ngy) + (a.1 + 1) * ngx + a.2) +
      u (s * (ngx * ngy) + a.1 * ngx + a.2))]
  refine (Finset.sum_le_sum fun a _ => hle a).trans ?_
  rw [Finset.sum_add_distrib, Finset.sum_add_distrib, ← Finset.mul_sum, ← Finset.mul_sum,
    ← Finset.mul_sum]
  linarith

/-- **C150**: the condition on the step holds when the squared norm of the scaled projector is less
than `8 / 49`. -/
theorem stepOk_of_projector {D : Dims} {ngx ngy : Nat} (hN : D.N = ngx * ngy) {g : Geom ℝ} {β κ : ℝ}
    (hβ : ∀ s < D.dy, ∀ u, gradScale D ^ 2 * raySq D g s u ≤ β * pixSq D s u)
    (hκ : 49 / 400 * (8 + β) ≤ κ ^ 2) : StepOk tvC (gradScale D) κ D ngx ngy g := by
  intro s hs u
  have h1 := gradSq_le hN s u
  have h2 := hβ s hs u
  have h3 : 0 ≤ pixSq D s u := Finset.sum_nonneg fun _ _ => sq_nonneg _
  have h4 := mul_le_mul_of_nonneg_right hκ h3
  have e : tvC ^ 2 = 49 / 400 := by unfold tvC; norm_num
  rw [e]
  nlinarith

/-! ## When it is not -/

/-- One ray of unit lengths through `n` pixels in a row. -/
def rowG (n : Nat) : Geom ℝ := fun _ _ _ => (List.range n).map fun i => (i, 1)

theorem rowG_ok (n : Nat) : GeomOk ⟨1, 1, 1, n⟩ (rowG n) := by
  intro s _ p _ d _ e he
  unfold rowG at he
  obtain ⟨i, hi, rfl⟩ := List.mem_map.mp he
  exact ⟨List.mem_range.mp hi, zero_le_one⟩

theorem rowG_lenIn {n i : Nat} (hi : i < n) (s p d : Nat) : lenIn (rowG n s p d) i = 1 := by
  unfold lenIn rowG
  rw [List.map_map, sum_range_list]
  simp only [Function.comp]
  rw [Finset.sum_ite_eq' (Finset.range n) i (fun _ => (1 : ℝ)), if_pos (Finset.mem_range.mpr hi)]

theorem gradScale_one (n : Nat) : gradScale ⟨1, 1, 1, n⟩ ^ 2 = 2 := by
  unfold gradScale
  rw [div_pow, Real.sq_sqrt (by norm_num)]
  norm_num

/-- The recurrence of the pixel value. -/
theorem growth {a : ℝ} (ha : 405 / 100 ≤ a) {v w t : ℕ → ℝ} (h0 : w 0 = v 0) (ht0 : t 0 = 0)
    (ht : ∀ k, t (k + 1) = (t k + a * w k) / (1 + tvC)) (hv : ∀ k, v (k + 1) = v k - t (k + 1))
    (hw : ∀ k, w (k + 1) = 2 * v (k + 1) - v k) : ∀ k, 2 * |v k| ≤ |v (k + 1)| := by
  have ec : 1 + tvC = 135 / 100 := by unfold tvC; norm_num
  rw [ec] at ht
  intro k
  induction k with
  | zero =>
    have e : v 1 = -(a / (135 / 100) - 1) * v 0 := by
      rw [hv 0, ht 0, ht0, h0]
      ring
    rw [e, abs_mul, abs_neg]
    apply mul_le_mul_of_nonneg_right _ (abs_nonneg _)
    rw [abs_of_nonneg]
    · linarith [show a / (135 / 100) = a * (100 / 135) by ring]
    · linarith [show a / (135 / 100) = a * (100 / 135) by ring]
  | succ k ih =>
    have e : v (k + 1 + 1) * (135 / 100) = -((2 * a - 235 / 100) * v (k + 1)) + (a - 1) * v k := by
      have h1 := hv k
      rw [hv (k + 1), ht (k + 1), hw k]
      have : t (k + 1) = v k - v (k + 1) := by linarith
      rw [this]
      ring
    have h1 : |(2 * a - 235 / 100) * v (k + 1)| = (2 * a - 235 / 100) * |v (k + 1)| := by
      rw [abs_mul, abs_of_nonneg (by linarith)]
    have h2 : |(a - 1) * v k| = (a - 1) * |v k| := by rw [abs_mul, abs_of_nonneg (by linarith)]
    have h3 : |(2 * a - 235 / 100) * v (k + 1)| - |(a - 1) * v k| ≤ |v (k + 1 + 1)| * (135 / 100) := by
      have : |v (k + 1 + 1)| * (135 / 100) = |v (k + 1 + 1) * (135 / 100)| := by
        rw [abs_mul, abs_of_nonneg (by norm_num : (0 : ℝ) ≤ 135 / 100)]
      rw [this, e]
      have h := abs_sub_abs_le_abs_sub ((2 * a - 235 / 100) * v (k + 1)) ((a - 1) * v k)
      have e2 : -((2 * a - 235 / 100) * v (k + 1)) + (a - 1) * v k =
          -((2 * a - 235 / 100) * v (k + 1) - (a - 1) * v k) := by ring
      rw [e2, abs_neg]
      exact h
    rw [h1, h2] at h3
    have h4 : (a - 1) * |v k| ≤ (a - 1) * (|v (k + 1)| / 2) :=
      mul_le_mul_of_nonneg_left (by linarith) (by linarith)
    have h5 := mul_le_mul_of_nonneg_right ha (abs_nonneg (v (k + 1)))
    nlinarith [abs_nonneg (v (k + 1))]

/-- **C150** (refutation): one angle, one detector pixel, a row of at least 17 pixels crossed with
unit lengths, zero data and the initial image 1: every pixel at least doubles in absolute value with
every iteration, although the zero image has energy 0. -/
theorem tv_diverges {n : Nat} (hn : 17 ≤ n) {lam : ℝ} (hl : 0 < lam) (k : Nat) :
    (∃ out, tv lam ⟨1, 1, 1, n⟩ n 1 (rowG n) (fun _ => 0) k (fun _ => 1) = some out ∧
      ∀ i < n, 2 ^ k ≤ |out i|) ∧
    tvEnergy (lam / gradScale ⟨1, 1, 1, n⟩) ⟨1, 1, 1, n⟩ n 1 (rowG n) (fun _ => 0) 0 (fun _ => 0) = 0 := by
  obtain ⟨D, hDdef⟩ : ∃ D : Dims, D = ⟨1, 1, 1, n⟩ := ⟨_, rfl⟩
  obtain ⟨r, hrdef⟩ : ∃ r, r = gradScale D := ⟨_, rfl⟩
  have hD : ¬ (D.dy = 0 ∨ D.dt = 0 ∨ D.dx = 0) := by rw [hDdef]; simp
  have hN : D.N = n * 1 := by rw [hDdef, Nat.mul_one]
  have hg : GeomOk D (rowG n) := hDdef ▸ rowG_ok n
  have hr : 0 < r := hrdef ▸ gradScale_pos hD
  have hr2 : r ^ 2 = 2 := by rw [hrdef, hDdef]; exact gradScale_one n
  have hdy : 0 < D.dy := by rw [hDdef]; norm_num
  have hDN : D.N = n := by rw [hDdef]
  constructor
  · obtain ⟨rc, hrc⟩ : ∃ rc, rc = forPix D.dy n 1 (fun _ _ v => v / r) (fun _ => (1 : ℝ)) := ⟨_, rfl⟩
    obtain ⟨S, hS0, hS, hstep⟩ := tvIters_value (c := tvC) (r := r) hl hN hg (data := fun _ => 0)
      (st := ⟨rc, rc, zeros, zeros, ⟨zeros, zeros, zeros⟩⟩) (fun s _ n _ _ => ⟨rfl, rfl⟩)
    obtain ⟨b⟩ : Nonempty (RayIx D) := ⟨(⟨0, by rw [hDdef]; norm_num⟩, ⟨0, by rw [hDdef]; norm_num⟩)⟩
    obtain ⟨i0⟩ : Nonempty (Fin D.N) := ⟨⟨0, by omega⟩⟩
    have hsub : ∀ b' : RayIx D, b' = b := by
      intro b'
      have h1 : D.dt = 1 := by rw [hDdef]
      have h2 : D.dx = 1 := by rw [hDdef]
      exact Prod.ext (Fin.ext (by omega)) (Fin.ext (by omega))
    -- one step on constant slices
    have hone : ∀ k, ∀ w v, (∀ i, pix D 0 (S k).recon i = w) → (∀ i, pix D 0 (S k).upd i = v) →
        dual D n 1 0 (S (k + 1)) (.inr (.inr b)) =
          (dual D n 1 0 (S k) (.inr (.inr b)) + tvC * (r * n * w)) / (1 + tvC) ∧
        (∀ i, pix D 0 (S (k + 1)).upd i = v - tvC * (r * dual D n 1 0 (S (k + 1)) (.inr (.inr b)))) ∧
        ∀ i, pix D 0 (S (k + 1)).recon i =
          2 * (v - tvC * (r * dual D n 1 0 (S (k + 1)) (.inr (.inr b)))) - v := by
      intro k w v hw hv
      have hu : ∀ i, pix D 0 (S (k + 1)).upd i =
          v - tvC * (r * dual D n 1 0 (S (k + 1)) (.inr (.inr b))) := by
        intro i
        rw [(hstep k 0 hdy).upd]
        simp only [Pi.sub_apply, Pi.smul_apply, smul_eq_mul]
        rw [hv i]
        congr 2
        simp only [vecMul, dotProduct, Fintype.sum_sum_type]
        rw [Finset.sum_eq_zero (s := (Finset.univ : Finset (InnerIx n 1)))
            (fun a _ => absurd a.1.2 (by omega)),
          Finset.sum_eq_zero (s := (Finset.univ : Finset (InnerIx n 1)))
            (fun a _ => absurd a.1.2 (by omega)), zero_add, zero_add,
          Finset.sum_eq_single b (fun b' _ h => absurd (hsub b') h) (by simp)]
        show _ * (r * lenIn (rowG n 0 b.1 b.2) i) = _
        rw [rowG_lenIn (by rw [← hDN]; exact i.2)]
        ring
      refine ⟨?_, hu, ?_⟩
      · rw [(hstep k 0 hdy).dual]
        show (_ - _ * (0 : ℝ)) / _ = _
        simp only [Pi.add_apply, Pi.smul_apply, smul_eq_mul, mul_zero, sub_zero]
        congr 3
        show ∑ i : Fin D.N, r * lenIn (rowG n 0 b.1 b.2) i * pix D 0 (S k).recon i = _
        have : ∀ i : Fin D.N, r * lenIn (rowG n 0 b.1 b.2) i * pix D 0 (S k).recon i = r * w := by
          intro i
          rw [rowG_lenIn (by rw [← hDN]; exact i.2), hw i, mul_one]
        rw [Finset.sum_congr rfl (fun i _ => this i), Finset.sum_const, Finset.card_univ,
          Fintype.card_fin, nsmul_eq_mul, hDN]
        ring
      · intro i
        rw [(hstep k 0 hdy).recon]
        simp only [Pi.sub_apply, Pi.smul_apply, smul_eq_mul]
        rw [hu i, hv i]
    have hconst : ∀ k, (∀ i, pix D 0 (S k).recon i = pix D 0 (S k).recon i0) ∧
        ∀ i, pix D 0 (S k).upd i = pix D 0 (S k).upd i0 := by
      intro k
      induction k with
      | zero =>
        have : ∀ i, pix D 0 rc i = 1 / r := by
          intro i
          show rc (i + 0 * D.N) = _
          rw [hrc, forPix_pixel hN _ _ hdy i.2]
        rw [hS0]
        exact ⟨fun i => (this i).trans (this i0).symm, fun i => (this i).trans (this i0).symm⟩
      | succ k ih =>
        obtain ⟨-, h2, h3⟩ := hone k _ _ ih.1 ih.2
        exact ⟨fun i => (h3 i).trans (h3 i0).symm, fun i => (h2 i).trans (h2 i0).symm⟩
    have hgrow := growth (a := tvC ^ 2 * r ^ 2 * n) (v := fun k => pix D 0 (S k).upd i0)
      (w := fun k => pix D 0 (S k).recon i0)
      (t := fun k => tvC * (r * dual D n 1 0 (S k) (.inr (.inr b)))) (by
        rw [hr2]
        have : (17 : ℝ) ≤ n := by exact_mod_cast hn
        unfold tvC
        linarith) (by simp only [hS0]) (by
        simp only [hS0]
        show tvC * (r * 0) = 0
        ring) (by
        intro k
        obtain ⟨h1, -, -⟩ := hone k _ _ (hconst k).1 (hconst k).2
        simp only [h1]
        ring) (by
        intro k
        exact (hone k _ _ (hconst k).1 (hconst k).2).2.1 i0) (by
        intro k
        obtain ⟨-, h2, h3⟩ := hone k _ _ (hconst k).1 (hconst k).2
        rw [h3 i0, h2 i0])
    have hv0 : pix D 0 (S 0).upd i0 = 1 / r := by
      rw [hS0]
      show rc (i0 + 0 * D.N) = _
      rw [hrc, forPix_pixel hN _ _ hdy i0.2]
    have hr0 : pix D 0 (S 0).recon i0 = 1 / r := by
      rw [hS0] at hv0 ⊢
      exact hv0
    have hpow : ∀ k, 2 ^ k ≤ |pix D 0 (S k).upd i0| * r := by
      intro k
      induction k with
      | zero => rw [hv0, abs_of_pos (by positivity)]; field_simp; simp
      | succ k ih =>
        have := mul_le_mul_of_nonneg_right (hgrow k) hr.le
        rw [pow_succ]
        linarith
    have hout : 2 ^ k ≤ |pix D 0 (S k).recon i0| * r := by
      cases k with
      | zero => rw [hr0, abs_of_pos (by positivity)]; field_simp; simp
      | succ k =>
        obtain ⟨-, h2, h3⟩ := hone k _ _ (hconst k).1 (hconst k).2
        have e : pix D 0 (S (k + 1)).recon i0 =
            2 * pix D 0 (S (k + 1)).upd i0 - pix D 0 (S k).upd i0 := by rw [h3 i0, h2 i0]
        have h := abs_sub_abs_le_abs_sub (2 * pix D 0 (S (k + 1)).upd i0) (pix D 0 (S k).upd i0)
        rw [← e, abs_mul, abs_two] at h
        have h4 := hgrow k
        have h5 := abs_nonneg (pix D 0 (S (k + 1)).upd i0)
        refine (hpow (k + 1)).trans (mul_le_mul_of_nonneg_right ?_ hr.le)
        linarith
    refine ⟨forPix D.dy n 1 (fun _ _ v => v * r) (S k).recon, ?_, ?_⟩
    · rw [← hDdef]
      unfold tv tvRun
      rw [if_neg hD, ← hrdef]
      simp only
      rw [← hrc, hS k]
      rfl
    · intro i hi
      have h1 := forPix_pixel hN (fun _ _ v => v * r) (S k).recon hdy (show i < D.N by omega)
      rw [Nat.zero_mul, Nat.add_zero] at h1
      rw [h1, abs_mul, abs_of_pos hr]
      have h2 := (hconst k).1 ⟨i, by omega⟩
      have h3 : pix D 0 (S k).recon ⟨i, by omega⟩ = (S k).recon i := by
        show (S k).recon (i + 0 * D.N) = _
        rw [Nat.zero_mul, Nat.add_zero]
      rw [← h3, h2]
      exact hout
  · unfold tvEnergy
    simp [lineSum]

/-! ## The hypotheses can be met -/

example : ∃ (out : ℕ → Mem ℝ) (u : Mem ℝ),
      (∀ k, tv 3 ⟨1, 1, 2, 4⟩ 2 2 tvG (fun i => if i = 0 then 6 else 100) k (fun _ => 1) =
        some (out k)) ∧
      (∀ s < 1, ∀ n < 4, Tendsto (fun k => out k (n + s * 4)) atTop (𝓝 (u (n + s * 4)))) ∧
      ∀ s < 1, ∀ u', tvEnergy (3 / gradScale ⟨1, 1, 2, 4⟩) ⟨1, 1, 2, 4⟩ 2 2 tvG
          (fun i => if i = 0 then 6 else 100) s u ≤
        tvEnergy (3 / gradScale ⟨1, 1, 2, 4⟩) ⟨1, 1, 2, 4⟩ 2 2 tvG
          (fun i => if i = 0 then 6 else 100) s u' := by
  refine tv_converges_partial (κ := 99 / 100) (by norm_num) (by norm_num) (by norm_num)
    (D := ⟨1, 1, 2, 4⟩) (by simp) rfl ?_ ?_ _ _
  · intro s _ p _ d _ e he
    unfold tvG at he
    split at he
    · simp only [List.mem_cons, List.not_mem_nil, or_false] at he
      rcases he with rfl | rfl <;> norm_num
    · simp at he
  · intro s hs u
    have hs' : s = 0 := Nat.lt_one_iff.mp hs
    subst hs'
    have e : gradScale ⟨1, 1, 2, 4⟩ ^ 2 = 1 := by
      unfold gradScale
      norm_num
    rw [e]
    unfold gradSq raySq pixSq tvC
    simp only [Finset.sum_range_succ, Finset.sum_range_zero, tvG, lineSum]
    norm_num
    nlinarith [sq_nonneg (2 * u 0 - u 1), sq_nonneg (u 0 + u 1 + u 2), sq_nonneg (u 1 - u 2),
      sq_nonneg (u 0 + u 1), sq_nonneg (u 0 + u 2), sq_nonneg (u 3), sq_nonneg (u 2), sq_nonneg (u 1),
      sq_nonneg (u 0)]

example : ∃ out, tv 3 ⟨1, 1, 1, 20⟩ 20 1 (rowG 20) (fun _ => 0) 10 (fun _ => 1) = some out ∧
    ∀ i < 20, 2 ^ 10 ≤ |out i| := (tv_diverges (by norm_num) (by norm_num) 10).1

end Tomopy.Iter
