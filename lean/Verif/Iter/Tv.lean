import Verif.Iter.TvModel
import Verif.Iter.Grad

/-!
# Total variation (C68, C69)
-/

set_option linter.unusedSectionVars false

namespace Tomopy.Iter

open Function (update)

/-! ## Loops -/

theorem foldl_fixed {α β : Type*} (f : α → β → α) (a : α) :
    ∀ (l : List β), (∀ b ∈ l, f a b = a) → l.foldl f a = a := by
  intro l
  induction l with
  | nil => intro _; rfl
  | cons b l ih =>
    intro h
    rw [List.foldl_cons, h b List.mem_cons_self]
    exact ih fun b' hb' => h b' (List.mem_cons_of_mem _ hb')

theorem foldlM_fixed {α β : Type} (f : α → β → Option α) (a : α) :
    ∀ (l : List β), (∀ b ∈ l, f a b = some a) → l.foldlM f a = some a := by
  intro l
  induction l with
  | nil => intro _; rfl
  | cons b l ih =>
    intro h
    rw [List.foldlM_cons, h b List.mem_cons_self]
    exact ih fun b' hb' => h b' (List.mem_cons_of_mem _ hb')

theorem gridLoop_apply (base ngx ngy : Nat) (f : Nat → Nat → ℝ → ℝ) (m : Mem ℝ) (x : Nat) :
    gridLoop base ngx ngy f m x = if base ≤ x ∧ x < base + ngx * ngy then
      f ((x - base) / ngx) ((x - base) % ngx) (m x) else m x := by
  have e : gridLoop base ngx ngy f m = (List.range (ngy * ngx)).foldl (fun m n =>
      update m (n + base) ((fun n v => f (n / ngx) (n % ngx) v) n (m (n + base)))) m := by
    rw [← range_mul ngy ngx, List.foldl_flatMap]
    unfold gridLoop
    congr 1
    funext m iy
    rw [List.foldl_map]
    have key : ∀ (l : List Nat), (∀ ix ∈ l, ix < ngx) → ∀ m : Mem ℝ,
        l.foldl (fun m ix => update m (base + iy * ngx + ix)
          (f iy ix (m (base + iy * ngx + ix)))) m =
        l.foldl (fun m ix => update m (iy * ngx + ix + base)
          (f ((iy * ngx + ix) / ngx) ((iy * ngx + ix) % ngx) (m (iy * ngx + ix + base)))) m := by
      intro l
      induction l with
      | nil => intro _ m; rfl
      | cons ix l ih =>
        intro h m
        have hix := h ix List.mem_cons_self
        rw [List.foldl_cons, List.foldl_cons, ih (fun i hi => h i (List.mem_cons_of_mem _ hi))]
        have e1 : (iy * ngx + ix) / ngx = iy := by
          rw [Nat.mul_comm, Nat.mul_add_div (by omega), Nat.div_eq_of_lt hix, add_zero]
        have e2 : (iy * ngx + ix) % ngx = ix := by
          rw [Nat.mul_comm, Nat.mul_add_mod, Nat.mod_eq_of_lt hix]
        have e3 : base + iy * ngx + ix = iy * ngx + ix + base := by omega
        rw [e1, e2, e3]
    exact key _ (fun ix h => List.mem_range.mp h) m
  rw [e]
  refine (foldl_pixels (fun n v => f (n / ngx) (n % ngx) v) base (ngy * ngx) m x).trans ?_
  rw [Nat.mul_comm ngy ngx]

theorem gridLoop_pixel (base : Nat) {ngx ngy : Nat} (f : Nat → Nat → ℝ → ℝ) (m : Mem ℝ)
    {iy ix : Nat} (hy : iy < ngy) (hx : ix < ngx) :
    gridLoop base ngx ngy f m (base + iy * ngx + ix) = f iy ix (m (base + iy * ngx + ix)) := by
  rw [gridLoop_apply, if_pos]
  · have e : base + iy * ngx + ix - base = iy * ngx + ix := by omega
    have e1 : (iy * ngx + ix) / ngx = iy := by
      rw [Nat.mul_comm, Nat.mul_add_div (by omega), Nat.div_eq_of_lt hx, add_zero]
    have e2 : (iy * ngx + ix) % ngx = ix := by
      rw [Nat.mul_comm, Nat.mul_add_mod, Nat.mod_eq_of_lt hx]
    rw [e, e1, e2]
  · have : (iy + 1) * ngx ≤ ngy * ngx := Nat.mul_le_mul_right _ hy
    have e3 : (iy + 1) * ngx = iy * ngx + ngx := by ring
    rw [Nat.mul_comm ngx ngy]
    omega

theorem inner_lt {ngx ngy iy ix : Nat} (hy : iy < ngy) (hx : ix < ngx) :
    iy * ngx + ix < ngx * ngy := by
  have : (iy + 1) * ngx ≤ ngy * ngx := Nat.mul_le_mul_right _ hy
  have e3 : (iy + 1) * ngx = iy * ngx + ngx := by ring
  rw [Nat.mul_comm ngx ngy]
  omega

/-! ## The fixed point -/

/-- The image is constant on every slice. -/
def SliceConst (D : Dims) (v : Nat → ℝ) (m : Mem ℝ) : Prop :=
  ∀ s < D.dy, ∀ n < D.N, m (n + s * D.N) = v s

theorem tvGrad_const (c : ℝ) {D : Dims} {ngx ngy : Nat} (hN : D.N = ngx * ngy) {v : Nat → ℝ}
    {recon : Mem ℝ} (h : SliceConst D v recon) {s : Nat} (hs : s < D.dy) (q : Mem ℝ × Mem ℝ) :
    tvGrad c (s * (ngx * ngy)) ngx ngy recon q = q := by
  unfold tvGrad
  apply foldl_fixed
  intro iy hiy
  apply foldl_fixed
  intro ix hix
  have hiy' := List.mem_range.mp hiy
  have hix' := List.mem_range.mp hix
  have val : ∀ n < ngx * ngy, recon (s * (ngx * ngy) + n) = v s := by
    intro n hn
    have := h s hs n (hN ▸ hn)
    rw [hN, Nat.add_comm] at this
    exact this
  have e1 : recon (s * (ngx * ngy) + iy * ngx + ix) = v s := by
    rw [Nat.add_assoc]; exact val _ (inner_lt (by omega) (by omega))
  have e2 : recon (s * (ngx * ngy) + iy * ngx + ix + 1) = v s := by
    have : s * (ngx * ngy) + iy * ngx + ix + 1 = s * (ngx * ngy) + (iy * ngx + (ix + 1)) := by omega
    rw [this]; exact val _ (inner_lt (by omega) (by omega))
  have e3 : recon (s * (ngx * ngy) + (iy + 1) * ngx + ix) = v s := by
    rw [Nat.add_assoc]; exact val _ (inner_lt (by omega) (by omega))
  rw [e1, e2, e3, sub_self, mul_zero]
  simp [addAt]

theorem tvProjLoop_zero {lam : ℝ} (hl : lam ≠ 0) (base ngx ngy : Nat) :
    tvProjLoop lam base ngx ngy (zeros, zeros) = some (zeros, zeros) := by
  unfold tvProjLoop
  apply foldlM_fixed
  intro iy _
  apply foldlM_fixed
  intro ix _
  unfold tvProj
  rw [if_neg hl]
  simp [zeros]

theorem spread_zero (D : Dims) (s : Nat) (ray : Segs ℝ) (m : Mem ℝ) : spread D s ray 0 m = m := by
  unfold spread
  apply foldl_fixed
  intro e _
  simp [addAt]

/-- The rays of a slice when the image is consistent: nothing is back-projected. -/
theorem tvRays_consistent {c r : ℝ} {D : Dims} {g : Geom ℝ} {data recon : Mem ℝ} {s : Nat}
    (hs : s < D.dy)
    (hc : ∀ p < D.dt, ∀ d < D.dx, sumDist2 (g s p d) ≠ 0 →
      data (D.data s p d) = lineSum D.N s (g s p d) recon * r) :
    ∀ (L : List (Nat × Nat)) (a : TvAcc), L.Nodup → (∀ q ∈ L, q.1 < D.dt ∧ q.2 < D.dx) →
    (∀ q ∈ L, a.sd (D.data s q.1 q.2) = 0) →
    (∀ s' < D.dy, ∀ p < D.dt, ∀ d < D.dx, sumDist2 (g s' p d) ≠ 0 → a.p1 (D.data s' p d) = 0) →
    ∃ a', L.foldl (fun a q => tvRay c r D s q.1 q.2 (g s q.1 q.2) data recon a) a = a' ∧
      a'.adj = a.adj ∧
      (∀ s' < D.dy, ∀ p < D.dt, ∀ d < D.dx, sumDist2 (g s' p d) ≠ 0 →
        a'.p1 (D.data s' p d) = 0) ∧
      (∀ s' ≠ s, ∀ p < D.dt, ∀ d < D.dx, a'.sd (D.data s' p d) = a.sd (D.data s' p d)) := by
  intro L
  induction L with
  | nil => intro a _ _ _ hp; exact ⟨a, rfl, rfl, hp, fun _ _ _ _ _ _ => rfl⟩
  | cons q L ih =>
    intro a hnd hin hsd hp1
    obtain ⟨hq1, hq2⟩ := hin q List.mem_cons_self
    have hnd' := List.nodup_cons.mp hnd
    have hsd0 := hsd q List.mem_cons_self
    -- the state after this ray
    have hadj : (tvRay c r D s q.1 q.2 (g s q.1 q.2) data recon a).adj = a.adj ∧
        (sumDist2 (g s q.1 q.2) ≠ 0 →
          (tvRay c r D s q.1 q.2 (g s q.1 q.2) data recon a).p1 (D.data s q.1 q.2) = 0) := by
      have hz : sumDist2 (g s q.1 q.2) ≠ 0 →
          (a.p1 (D.data s q.1 q.2) +
            c * calcSimdata D s q.1 q.2 (g s q.1 q.2) recon a.sd (D.data s q.1 q.2) * r -
            c * data (D.data s q.1 q.2)) / (1 + c) = 0 := by
        intro h0
        rw [hp1 s hs _ hq1 _ hq2 h0, calcSimdata_apply, if_pos rfl, hsd0, hc _ hq1 _ hq2 h0]
        ring
      constructor
      · simp only [tvRay]
        by_cases h0 : sumDist2 (g s q.1 q.2) ≠ 0
        · rw [if_pos h0, Function.update_self, hz h0, mul_zero, spread_zero]
        · rw [if_neg h0]
      · intro h0
        simp only [tvRay]
        rw [Function.update_self]
        exact hz h0
    obtain ⟨a', h1, h2, h3, h4⟩ := ih (tvRay c r D s q.1 q.2 (g s q.1 q.2) data recon a) hnd'.2
      (fun q' h' => hin q' (List.mem_cons_of_mem _ h')) (by
        intro q' hq'
        have hin' := hin q' (List.mem_cons_of_mem _ hq')
        simp only [tvRay]
        rw [calcSimdata_apply, hsd q' (List.mem_cons_of_mem _ hq'), if_neg, add_zero]
        intro h
        obtain ⟨_, e1, e2⟩ := data_inj hq1 hin'.1 hq2 hin'.2 h
        exact hnd'.1 (by rw [show q = q' from Prod.ext e1 e2]; exact hq')) (by
        intro s' hs' p hp d hd h0
        by_cases e : D.data s' p d = D.data s q.1 q.2
        · obtain ⟨rfl, rfl, rfl⟩ := data_inj hp hq1 hd hq2 e
          exact hadj.2 h0
        · simp only [tvRay]
          rw [Function.update_of_ne e]
          exact hp1 s' hs' p hp d hd h0)
    refine ⟨a', by rw [List.foldl_cons]; exact h1, by rw [h2, hadj.1], h3, ?_⟩
    intro s' hs' p hp d hd
    rw [h4 s' hs' p hp d hd]
    simp only [tvRay]
    rw [calcSimdata_apply, if_neg, add_zero]
    intro h
    exact hs' (data_inj hp hq1 hd hq2 h.symm).1

/-- The invariant of the fixed point. -/
structure TvFix (D : Dims) (g : Geom ℝ) (v : Nat → ℝ) (k : Nat) (st : TvSt) : Prop where
  recon : SliceConst D v st.recon
  upd : SliceConst D v st.upd
  px : st.px = zeros
  py : st.py = zeros
  p1 : ∀ s < D.dy, ∀ p < D.dt, ∀ d < D.dx, sumDist2 (g s p d) ≠ 0 →
    st.acc.p1 (D.data s p d) = 0
  adj : st.acc.adj = zeros
  sd : ∀ s, k ≤ s → ∀ p < D.dt, ∀ d < D.dx, st.acc.sd (D.data s p d) = 0

theorem tvSlice_fixed {c r lam : ℝ} (hl : lam ≠ 0) {D : Dims} {ngx ngy : Nat}
    (hN : D.N = ngx * ngy) {g : Geom ℝ} {data : Mem ℝ} {v : Nat → ℝ}
    (hc : ∀ s < D.dy, ∀ p < D.dt, ∀ d < D.dx, sumDist2 (g s p d) ≠ 0 →
      ∀ m, SliceConst D v m → data (D.data s p d) = lineSum D.N s (g s p d) m * r)
    {s : Nat} (hs : s < D.dy) {st : TvSt} (h : TvFix D g v s st) :
    ∃ st', tvSlice c r lam D ngx ngy g data st s = some st' ∧ TvFix D g v (s + 1) st' := by
  have hrays : ∀ a : TvAcc, (List.range D.dt).foldl (fun a p => (List.range D.dx).foldl (fun a d =>
      tvRay c r D s p d (g s p d) data st.recon a) a) a =
      (raysOf D.dx (List.range D.dt)).foldl
        (fun a q => tvRay c r D s q.1 q.2 (g s q.1 q.2) data st.recon a) a := by
    intro a
    simp only [raysOf, List.foldl_flatMap, List.foldl_map]
  obtain ⟨a', h1, h2, h3, h4⟩ := tvRays_consistent (c := c) (r := r) (g := g) (data := data) hs
    (fun p hp d hd h0 => hc s hs p hp d hd h0 st.recon h.recon)
    (raysOf D.dx (List.range D.dt)) st.acc
    (raysOf_nodup List.nodup_range)
    (fun q hq => ⟨List.mem_range.mp (mem_raysOf.mp hq).1, (mem_raysOf.mp hq).2⟩)
    (fun q hq => h.sd s (le_refl _) _ (List.mem_range.mp (mem_raysOf.mp hq).1) _
      (mem_raysOf.mp hq).2) h.p1
  unfold tvSlice
  rw [h.px, h.py, tvGrad_const c hN h.recon hs, tvProjLoop_zero hl, hrays, h1]
  simp only [Option.map_some]
  have hupd : ∀ (m : Mem ℝ), gridLoop (s * (ngx * ngy)) ngx ngy (fun iy ix v =>
      v - c * a'.adj (s * (ngx * ngy) + iy * ngx + ix) +
        c * tvDiv (s * (ngx * ngy)) ngx zeros zeros iy ix) m = m := by
    intro m
    funext x
    rw [gridLoop_apply]
    split
    · rw [h2, h.adj]
      simp [tvDiv, zeros]
    · rfl
  rw [hupd]
  refine ⟨_, rfl, ?_, h.upd, rfl, rfl, h3, by rw [h2, h.adj], ?_⟩
  · intro s' hs' n hn
    show gridLoop (s * (ngx * ngy)) ngx ngy _ _ (n + s' * D.N) = v s'
    rw [gridLoop_apply]
    have hcopy := foldl_pixels (fun n _ => st.upd (n + s * (ngx * ngy))) (s * (ngx * ngy))
      (ngx * ngy) st.recon (n + s' * D.N)
    rw [hcopy]
    by_cases e : s' = s
    · subst e
      rw [hN] at hn ⊢
      rw [if_pos (by omega), if_pos (by omega)]
      have e1 : s' * (ngx * ngy) + (n + s' * (ngx * ngy) - s' * (ngx * ngy)) / ngx * ngx +
          (n + s' * (ngx * ngy) - s' * (ngx * ngy)) % ngx = n + s' * (ngx * ngy) := by
        rw [Nat.add_sub_cancel, Nat.add_assoc, Nat.mul_comm (n / ngx), Nat.div_add_mod]
        omega
      rw [e1, Nat.add_sub_cancel]
      have := h.upd s' hs' n (hN ▸ hn)
      rw [hN] at this
      rw [this]
      ring
    · rw [← hN, if_neg (other_slice hn e), if_neg (other_slice hn e)]
      exact h.recon s' hs' n hn
  · intro s' hs' p hp d hd
    rw [h4 s' (by omega) p hp d hd]
    exact h.sd s' (by omega) p hp d hd

theorem tvIter_fixed {c r lam : ℝ} (hl : lam ≠ 0) {D : Dims} {ngx ngy : Nat}
    (hN : D.N = ngx * ngy) {g : Geom ℝ} {data : Mem ℝ} {v : Nat → ℝ}
    (hc : ∀ s < D.dy, ∀ p < D.dt, ∀ d < D.dx, sumDist2 (g s p d) ≠ 0 →
      ∀ m, SliceConst D v m → data (D.data s p d) = lineSum D.N s (g s p d) m * r)
    {st : TvSt} (h : ∃ k, TvFix D g v k st) :
    ∃ st', tvIter c r lam D ngx ngy g data st = some st' ∧ ∃ k, TvFix D g v k st' := by
  obtain ⟨k, h⟩ := h
  unfold tvIter
  have h0 : TvFix D g v 0 { st with acc := ⟨zeros, st.acc.p1, zeros⟩ } :=
    ⟨h.recon, h.upd, h.px, h.py, h.p1, rfl, fun _ _ _ _ _ _ => rfl⟩
  have key : ∀ m ≤ D.dy, ∃ st', (List.range m).foldlM (tvSlice c r lam D ngx ngy g data)
      { st with acc := ⟨zeros, st.acc.p1, zeros⟩ } = some st' ∧ TvFix D g v m st' := by
    intro m
    induction m with
    | zero => intro _; exact ⟨_, rfl, h0⟩
    | succ m ih =>
      intro hm
      obtain ⟨st1, e1, f1⟩ := ih (by omega)
      obtain ⟨st2, e2, f2⟩ := tvSlice_fixed (c := c) (r := r) hl hN hc (s := m) (by omega) f1
      refine ⟨st2, ?_, f2⟩
      rw [List.range_succ, List.foldlM_append, e1]
      show (some st1).bind (fun r => [m].foldlM _ r) = some st2
      simp only [Option.bind_some, List.foldlM_cons, List.foldlM_nil, e2]
      rfl
  obtain ⟨st', e, f⟩ := key D.dy (le_refl _)
  exact ⟨st', e, _, f⟩

/-- **C68**: an image that is constant on every slice and consistent with the data is returned
unchanged by `tv`, for every non-zero regularisation parameter, geometry and number of
iterations. -/
theorem tv_constant_fixed {lam : ℝ} (hl : lam ≠ 0) {D : Dims} {ngx ngy : Nat}
    (hN : D.N = ngx * ngy) {g : Geom ℝ} (hg : GeomOk D g) {data recon : Mem ℝ} {v : Nat → ℝ}
    (hv : SliceConst D v recon) (hc : Consistent D g data recon) (num_iter : Nat) :
    ∃ r', tv lam D ngx ngy g data num_iter recon = some r' ∧ SameImage D r' recon := by
  unfold tv tvRun
  by_cases h0 : D.dy = 0 ∨ D.dt = 0 ∨ D.dx = 0
  · rw [if_pos h0]
    exact ⟨recon, rfl, fun _ _ _ _ => rfl⟩
  rw [if_neg h0]
  have hr : gradScale D ≠ 0 := (gradScale_pos h0).ne'
  simp only
  have hrc : SliceConst D (fun s => v s / gradScale D)
      (forPix D.dy ngx ngy (fun _ _ v => v / gradScale D) recon) := by
    intro s hs n hn
    rw [forPix_pixel hN _ _ hs hn, hv s hs n hn]
  have hc' : ∀ s < D.dy, ∀ p < D.dt, ∀ d < D.dx, sumDist2 (g s p d) ≠ 0 →
      ∀ m, SliceConst D (fun s => v s / gradScale D) m →
        data (D.data s p d) = lineSum D.N s (g s p d) m * gradScale D := by
    intro s hs p hp d hd h m hm
    rw [hc s hs p hp d hd h]
    unfold lineSum
    rw [← List.sum_map_mul_right]
    congr 1
    apply List.map_congr_left
    intro e he
    have hlt := (hg s hs p hp d hd e he).1
    rw [hm s hs _ hlt, hv s hs _ hlt]
    field_simp
  have hit := iterM_inv (tvIter tvC (gradScale D) lam D ngx ngy g data)
    (fun st => ∃ k, TvFix D g (fun s => v s / gradScale D) k st)
    (fun st h => tvIter_fixed hl hN hc' h) num_iter
    ⟨forPix D.dy ngx ngy (fun _ _ v => v / gradScale D) recon,
      forPix D.dy ngx ngy (fun _ _ v => v / gradScale D) recon, zeros, zeros, ⟨zeros, zeros, zeros⟩⟩
    ⟨0, hrc, hrc, rfl, rfl, fun _ _ _ _ _ _ _ => rfl, rfl, fun _ _ _ _ _ _ => rfl⟩
  obtain ⟨st', e, k, f⟩ := hit
  rw [e]
  refine ⟨_, rfl, ?_⟩
  intro s hs n hn
  show forPix D.dy ngx ngy (fun _ _ v => v * gradScale D) st'.recon (n + s * D.N) = _
  rw [forPix_pixel hN _ _ hs hn, f.recon s hs n hn, hv s hs n hn]
  field_simp

/-- **C68** (refutation for `reg_par[0] = 0`): started from an image that is constant on the first
slice, for example the default initial image, `tv` without regularisation computes `0 / 0` in the
first iteration, whatever the data. -/
theorem tv_zero_lambda_undefined {D : Dims} {ngx ngy : Nat} (hN : D.N = ngx * ngy) (hx : 2 ≤ ngx)
    (hy : 2 ≤ ngy) (hD : ¬ (D.dy = 0 ∨ D.dt = 0 ∨ D.dx = 0)) {g : Geom ℝ} {data recon : Mem ℝ}
    {v : Nat → ℝ} (hv : SliceConst D v recon) {num_iter : Nat} (hi : 0 < num_iter) :
    tv 0 D ngx ngy g data num_iter recon = none := by
  unfold tv tvRun
  rw [if_neg hD]
  simp only
  have hrc : SliceConst D (fun s => v s / gradScale D)
      (forPix D.dy ngx ngy (fun _ _ v => v / gradScale D) recon) := by
    intro s hs n hn
    rw [forPix_pixel hN _ _ hs hn, hv s hs n hn]
  obtain ⟨k, rfl⟩ : ∃ k, num_iter = k + 1 := ⟨num_iter - 1, by omega⟩
  obtain ⟨y, hyd⟩ : ∃ y, D.dy = y + 1 := ⟨D.dy - 1, by omega⟩
  obtain ⟨a, rfl⟩ : ∃ a, ngx = a + 2 := ⟨ngx - 2, by omega⟩
  obtain ⟨b, rfl⟩ : ∃ b, ngy = b + 2 := ⟨ngy - 2, by omega⟩
  have e : ∀ st : TvSt, SliceConst D (fun s => v s / gradScale D) st.recon → st.px = zeros →
      st.py = zeros → tvSlice tvC (gradScale D) 0 D (a + 2) (b + 2) g data st 0 = none := by
    intro st h1 h2 h3
    unfold tvSlice
    rw [h2, h3, tvGrad_const tvC hN h1 (by omega)]
    have : tvProjLoop 0 (0 * ((a + 2) * (b + 2))) (a + 2) (b + 2) (zeros, zeros) = none := by
      unfold tvProjLoop
      show (List.range (b + 1)).foldlM _ _ = none
      rw [List.range_succ_eq_map, List.foldlM_cons]
      have : (List.range (a + 1)).foldlM (fun q ix =>
          tvProj 0 q (0 * ((a + 2) * (b + 2)) + 0 * (a + 2) + ix)) (zeros, zeros) = none := by
        rw [List.range_succ_eq_map, List.foldlM_cons]
        have : tvProj 0 (zeros, zeros) (0 * ((a + 2) * (b + 2)) + 0 * (a + 2) + 0) = none := by
          simp [tvProj, zeros]
        rw [this]
        rfl
      have e0 : a + 2 - 1 = a + 1 := rfl
      rw [e0, this]
      rfl
    rw [this]
    rfl
  have e2 : ∀ st : TvSt, SliceConst D (fun s => v s / gradScale D) st.recon → st.px = zeros →
      st.py = zeros → tvIter tvC (gradScale D) 0 D (a + 2) (b + 2) g data st = none := by
    intro st h1 h2 h3
    unfold tvIter
    rw [hyd, List.range_succ_eq_map, List.foldlM_cons,
      e { st with acc := ⟨zeros, st.acc.p1, zeros⟩ } h1 h2 h3]
    rfl
  have e3 : iterM (tvIter tvC (gradScale D) 0 D (a + 2) (b + 2) g data) (k + 1)
      ⟨forPix D.dy (a + 2) (b + 2) (fun _ _ v => v / gradScale D) recon,
        forPix D.dy (a + 2) (b + 2) (fun _ _ v => v / gradScale D) recon, zeros, zeros,
        ⟨zeros, zeros, zeros⟩⟩ = none := by
    simp only [iterM]
    rw [e2 _ hrc rfl rfl]
    rfl
  rw [e3]
  rfl

/-! ## C69: the dual steps -/

/-- The dual variable of a pixel lies in the ball of radius `lam`. -/
def InBall (lam : ℝ) (q : Mem ℝ × Mem ℝ) (x : Nat) : Prop :=
  q.1 x * q.1 x + q.2 x * q.2 x ≤ lam * lam

theorem tvProj_spec {lam : ℝ} (hl : 0 < lam) (q : Mem ℝ × Mem ℝ) (i : Nat) :
    ∃ q', tvProj lam q i = some q' ∧ InBall lam q' i ∧
      (∀ x, x ≠ i → q'.1 x = q.1 x ∧ q'.2 x = q.2 x) ∧
      (InBall lam q i → q' = q) := by
  unfold tvProj
  rw [if_neg hl.ne']
  simp only
  have hnn : 0 ≤ q.1 i * q.1 i + q.2 i * q.2 i :=
    add_nonneg (mul_self_nonneg _) (mul_self_nonneg _)
  obtain ⟨w, hw⟩ : ∃ w, w = Real.sqrt (q.1 i * q.1 i + q.2 i * q.2 i) := ⟨_, rfl⟩
  have hw2 : w * w = q.1 i * q.1 i + q.2 i * q.2 i := by rw [hw]; exact Real.mul_self_sqrt hnn
  have hw0 : 0 ≤ w := by rw [hw]; exact Real.sqrt_nonneg _
  rw [← hw]
  refine ⟨_, rfl, ?_, fun x hx => ⟨Function.update_of_ne hx _ _, Function.update_of_ne hx _ _⟩, ?_⟩
  · unfold InBall
    simp only [Function.update_self]
    split
    · rename_i h
      rw [div_lt_one hl] at h
      simp only [div_one]
      rw [← hw2]
      nlinarith
    · rename_i h
      rw [not_lt, one_le_div hl] at h
      have hwp : 0 < w := by linarith
      have e : q.1 i / (w / lam) * (q.1 i / (w / lam)) + q.2 i / (w / lam) * (q.2 i / (w / lam)) =
          (q.1 i * q.1 i + q.2 i * q.2 i) * (lam * lam) / (w * w) := by
        field_simp
      rw [e, ← hw2, mul_div_cancel_left₀ _ (mul_pos hwp hwp).ne']
  · intro h
    unfold InBall at h
    rw [← hw2] at h
    have hle : w ≤ lam := by nlinarith
    have : (if w / lam < 1 then 1 else w / lam) = 1 := by
      split
      · rfl
      · rename_i h'
        rw [not_lt, one_le_div hl] at h'
        rw [le_antisymm hle h', div_self hl.ne']
    rw [this]
    simp only [div_one, Function.update_eq_self]

/-- **C69**: for a positive parameter the projection loop is defined and puts the dual variable of
every pixel with right and lower neighbour into the ball of radius `lam`; a dual variable that is
there already is not changed. -/
theorem tvProjLoop_ball {lam : ℝ} (hl : 0 < lam) (base ngx ngy : Nat) (q : Mem ℝ × Mem ℝ) :
    ∃ q', tvProjLoop lam base ngx ngy q = some q' ∧
      (∀ iy < ngy - 1, ∀ ix < ngx - 1, InBall lam q' (base + iy * ngx + ix)) ∧
      ((∀ x, InBall lam q x) → q' = q) := by
  have key : ∀ (l : List Nat) (q : Mem ℝ × Mem ℝ), ∃ q', l.foldlM (tvProj lam) q = some q' ∧
      (∀ x ∈ l, InBall lam q' x) ∧ (∀ x, InBall lam q x → InBall lam q' x) ∧
      ((∀ x, InBall lam q x) → q' = q) := by
    intro l
    induction l with
    | nil => intro q; exact ⟨q, rfl, by simp, fun _ h => h, fun _ => rfl⟩
    | cons i l ih =>
      intro q
      obtain ⟨q1, h1, h2, h3, h4⟩ := tvProj_spec hl q i
      obtain ⟨q2, k1, k2, k3, k4⟩ := ih q1
      have mono : ∀ x, InBall lam q x → InBall lam q1 x := by
        intro x hx
        by_cases e : x = i
        · rw [e]; exact h2
        · unfold InBall
          rw [(h3 x e).1, (h3 x e).2]
          exact hx
      refine ⟨q2, ?_, ?_, fun x hx => k3 x (mono x hx), ?_⟩
      · rw [List.foldlM_cons, h1]
        exact k1
      · intro x hx
        rcases List.mem_cons.mp hx with rfl | hx
        · exact k3 _ h2
        · exact k2 x hx
      · intro hall
        have := h4 (hall i)
        subst this
        exact k4 hall
  have e : tvProjLoop lam base ngx ngy q = ((List.range (ngy - 1)).flatMap fun iy =>
      (List.range (ngx - 1)).map fun ix => base + iy * ngx + ix).foldlM (tvProj lam) q := by
    unfold tvProjLoop
    generalize List.range (ngy - 1) = l
    induction l generalizing q with
    | nil => rfl
    | cons iy l ih =>
      rw [List.foldlM_cons, List.flatMap_cons, List.foldlM_append]
      have : (List.range (ngx - 1)).foldlM (fun q ix => tvProj lam q (base + iy * ngx + ix)) q =
          ((List.range (ngx - 1)).map fun ix => base + iy * ngx + ix).foldlM (tvProj lam) q := by
        rw [List.foldlM_map]
      rw [this]
      congr 1
      funext q
      exact ih q
  obtain ⟨q', h1, h2, _, h4⟩ := key ((List.range (ngy - 1)).flatMap fun iy =>
      (List.range (ngx - 1)).map fun ix => base + iy * ngx + ix) q
  refine ⟨q', by rw [e, h1], ?_, h4⟩
  intro iy hiy ix hix
  apply h2
  exact List.mem_flatMap.mpr ⟨iy, List.mem_range.mpr hiy,
    List.mem_map.mpr ⟨ix, List.mem_range.mpr hix, rfl⟩⟩

theorem foldl_inv' {α β : Type*} (f : α → β → α) (P : α → Prop) :
    ∀ (l : List β) (a : α), P a → (∀ b ∈ l, ∀ a, P a → P (f a b)) → P (l.foldl f a) := by
  intro l
  induction l with
  | nil => intro a h _; exact h
  | cons b l ih =>
    intro a h hs
    exact ih _ (hs b List.mem_cons_self a h) fun b' hb' => hs b' (List.mem_cons_of_mem _ hb')

theorem foldlM_inv' {α β : Type} (f : α → β → Option α) (P : α → Prop) :
    ∀ (l : List β) (a a' : α), P a → (∀ b ∈ l, ∀ a a', P a → f a b = some a' → P a') →
      l.foldlM f a = some a' → P a' := by
  intro l
  induction l with
  | nil => intro a a' h _ e; cases e; exact h
  | cons b l ih =>
    intro a a' h hs e
    rw [List.foldlM_cons] at e
    cases hb : f a b with
    | none => rw [hb] at e; cases e
    | some a1 =>
      rw [hb] at e
      exact ih a1 a' (hs b List.mem_cons_self a a1 h hb)
        (fun b' hb' => hs b' (List.mem_cons_of_mem _ hb')) e

/-- **C69**: the forward step changes the dual variables only at pixels that have a right and a
lower neighbour. -/
theorem tv_dual_support {c lam : ℝ} {base ngx ngy : Nat} {recon : Mem ℝ} {q q' : Mem ℝ × Mem ℝ}
    (h : tvProjLoop lam base ngx ngy (tvGrad c base ngx ngy recon q) = some q') {x : Nat}
    (hx : ∀ iy < ngy - 1, ∀ ix < ngx - 1, x ≠ base + iy * ngx + ix) :
    q'.1 x = q.1 x ∧ q'.2 x = q.2 x := by
  have h1 : (tvGrad c base ngx ngy recon q).1 x = q.1 x ∧
      (tvGrad c base ngx ngy recon q).2 x = q.2 x := by
    unfold tvGrad
    refine foldl_inv' _ (fun r : Mem ℝ × Mem ℝ => r.1 x = q.1 x ∧ r.2 x = q.2 x) _ _ ⟨rfl, rfl⟩ ?_
    intro iy hiy r hr
    refine foldl_inv' _ (fun r : Mem ℝ × Mem ℝ => r.1 x = q.1 x ∧ r.2 x = q.2 x) _ _ hr ?_
    intro ix hix r hr
    have hne := hx iy (List.mem_range.mp hiy) ix (List.mem_range.mp hix)
    simp only [addAt, Function.update_of_ne hne]
    exact hr
  unfold tvProjLoop at h
  refine foldlM_inv' _ (fun r : Mem ℝ × Mem ℝ => r.1 x = q.1 x ∧ r.2 x = q.2 x) _ _ _ h1 ?_ h
  intro iy hiy r r' hr e
  refine foldlM_inv' _ (fun r : Mem ℝ × Mem ℝ => r.1 x = q.1 x ∧ r.2 x = q.2 x) _ _ _ hr ?_ e
  intro ix hix r r' hr e
  have hne := hx iy (List.mem_range.mp hiy) ix (List.mem_range.mp hix)
  unfold tvProj at e
  simp only at e
  split at e
  · split at e
    · cases e
    · cases e
      simp only [Function.update_of_ne hne]
      exact hr
  · cases e
    simp only [Function.update_of_ne hne]
    exact hr

/-- Summation by parts in one direction. -/
theorem sum_by_parts (n : Nat) (u p : Nat → ℝ) (hp : n ≠ 0 → p (n - 1) = 0) :
    ∑ i ∈ Finset.range n, u i * (if i = 0 then p i else p i - p (i - 1)) =
      -∑ i ∈ Finset.range (n - 1), p i * (u (i + 1) - u i) := by
  have key : ∀ n, ∑ i ∈ Finset.range (n + 1), u i * (if i = 0 then p i else p i - p (i - 1)) =
      u n * p n - ∑ i ∈ Finset.range n, p i * (u (i + 1) - u i) := by
    intro n
    induction n with
    | zero => simp
    | succ n ih =>
      rw [Finset.sum_range_succ, ih, Finset.sum_range_succ _ n]
      simp only [Nat.succ_ne_zero, if_false, Nat.add_sub_cancel]
      ring
  cases n with
  | zero => simp
  | succ n =>
    rw [key n, Nat.add_sub_cancel]
    have := hp (by omega)
    rw [Nat.add_sub_cancel] at this
    rw [this]
    ring

/-- **C69**: the divergence used in the backward step is the negative adjoint of the gradient used
in the forward step, for dual variables that vanish in the last column (`prox0x`) and last row
(`prox0y`), where the forward step never writes. -/
theorem tvDiv_adjoint (base ngx ngy : Nat) (u px py : Mem ℝ)
    (hpx : ∀ iy < ngy, ngx ≠ 0 → px (base + iy * ngx + (ngx - 1)) = 0)
    (hpy : ∀ ix < ngx, ngy ≠ 0 → py (base + (ngy - 1) * ngx + ix) = 0) :
    ∑ iy ∈ Finset.range ngy, ∑ ix ∈ Finset.range ngx,
        u (base + iy * ngx + ix) * tvDiv base ngx px py iy ix =
      -(∑ iy ∈ Finset.range ngy, ∑ ix ∈ Finset.range (ngx - 1), px (base + iy * ngx + ix) *
          (u (base + iy * ngx + ix + 1) - u (base + iy * ngx + ix))) -
      ∑ iy ∈ Finset.range (ngy - 1), ∑ ix ∈ Finset.range ngx, py (base + iy * ngx + ix) *
          (u (base + (iy + 1) * ngx + ix) - u (base + iy * ngx + ix)) := by
  have e : ∀ iy ix, u (base + iy * ngx + ix) * tvDiv base ngx px py iy ix =
      u (base + iy * ngx + ix) * (if ix = 0 then px (base + iy * ngx + ix)
        else px (base + iy * ngx + ix) - px (base + iy * ngx + (ix - 1))) +
      u (base + iy * ngx + ix) * (if iy = 0 then py (base + iy * ngx + ix)
        else py (base + iy * ngx + ix) - py (base + (iy - 1) * ngx + ix)) := by
    intro iy ix
    unfold tvDiv
    rw [mul_add]
    congr 2
    split
    · rfl
    · rw [Nat.add_sub_assoc (by omega)]
  simp only [e, Finset.sum_add_distrib]
  rw [sub_eq_add_neg]
  congr 1
  · rw [← Finset.sum_neg_distrib]
    apply Finset.sum_congr rfl
    intro iy hiy
    exact sum_by_parts ngx (fun ix => u (base + iy * ngx + ix)) (fun ix => px (base + iy * ngx + ix))
      (hpx iy (Finset.mem_range.mp hiy))
  · rw [Finset.sum_comm, Finset.sum_comm (s := Finset.range (ngy - 1)), ← Finset.sum_neg_distrib]
    apply Finset.sum_congr rfl
    intro ix hix
    exact sum_by_parts ngy (fun iy => u (base + iy * ngx + ix)) (fun iy => py (base + iy * ngx + ix))
      (hpy ix (Finset.mem_range.mp hix))

/-- One row of additions at distinct addresses. -/
theorem tvRow_value (a : Nat) (f h : Nat → ℝ) (n : Nat) (q : Mem ℝ × Mem ℝ) (x : Nat) :
    ((List.range n).foldl (fun q ix => (addAt q.1 (a + ix) (f ix), addAt q.2 (a + ix) (h ix))) q).1 x
        = (if a ≤ x ∧ x < a + n then q.1 x + f (x - a) else q.1 x) ∧
    ((List.range n).foldl (fun q ix => (addAt q.1 (a + ix) (f ix), addAt q.2 (a + ix) (h ix))) q).2 x
        = (if a ≤ x ∧ x < a + n then q.2 x + h (x - a) else q.2 x) := by
  induction n with
  | zero =>
    have e : ¬ (a ≤ x ∧ x < a + 0) := by omega
    rw [if_neg e, if_neg e]
    exact ⟨rfl, rfl⟩
  | succ n ih =>
    rw [List.range_succ, List.foldl_append]
    simp only [List.foldl_cons, List.foldl_nil, addAt]
    by_cases e : x = a + n
    · subst e
      have e1 : ¬ (a ≤ a + n ∧ a + n < a + n) := by omega
      have e2 : a ≤ a + n ∧ a + n < a + (n + 1) := by omega
      rw [if_neg e1, if_neg e1] at ih
      rw [if_pos e2, if_pos e2, Nat.add_sub_cancel_left]
      simp only [Function.update_self]
      exact ⟨by rw [← ih.1]; rfl, by rw [← ih.2]; rfl⟩
    · rw [Function.update_of_ne e, Function.update_of_ne e]
      have e1 : (a ≤ x ∧ x < a + n) ↔ (a ≤ x ∧ x < a + (n + 1)) := by omega
      simp only [e1] at ih
      exact ih

/-- **C69**: the forward step adds `c` times the forward differences of the image, to the right and
to the next row, at every pixel that has both neighbours. -/
theorem tvGrad_value (c : ℝ) (base ngx ngy : Nat) (recon : Mem ℝ) (q : Mem ℝ × Mem ℝ) {iy ix : Nat}
    (hy : iy < ngy - 1) (hx : ix < ngx - 1) :
    (tvGrad c base ngx ngy recon q).1 (base + iy * ngx + ix) = q.1 (base + iy * ngx + ix) +
      c * (recon (base + iy * ngx + (ix + 1)) - recon (base + iy * ngx + ix)) ∧
    (tvGrad c base ngx ngy recon q).2 (base + iy * ngx + ix) = q.2 (base + iy * ngx + ix) +
      c * (recon (base + (iy + 1) * ngx + ix) - recon (base + iy * ngx + ix)) := by
  have key : ∀ m, ∀ iy ix, ix < ngx - 1 →
      ((List.range m).foldl (fun q iy => (List.range (ngx - 1)).foldl (fun q ix =>
        (addAt q.1 (base + iy * ngx + ix)
          (c * (recon (base + iy * ngx + ix + 1) - recon (base + iy * ngx + ix))),
         addAt q.2 (base + iy * ngx + ix)
          (c * (recon (base + (iy + 1) * ngx + ix) - recon (base + iy * ngx + ix))))) q) q).1
            (base + iy * ngx + ix) =
        (if iy < m then q.1 (base + iy * ngx + ix) +
          c * (recon (base + iy * ngx + (ix + 1)) - recon (base + iy * ngx + ix))
          else q.1 (base + iy * ngx + ix)) ∧
      ((List.range m).foldl (fun q iy => (List.range (ngx - 1)).foldl (fun q ix =>
        (addAt q.1 (base + iy * ngx + ix)
          (c * (recon (base + iy * ngx + ix + 1) - recon (base + iy * ngx + ix))),
         addAt q.2 (base + iy * ngx + ix)
          (c * (recon (base + (iy + 1) * ngx + ix) - recon (base + iy * ngx + ix))))) q) q).2
            (base + iy * ngx + ix) =
        (if iy < m then q.2 (base + iy * ngx + ix) +
          c * (recon (base + (iy + 1) * ngx + ix) - recon (base + iy * ngx + ix))
          else q.2 (base + iy * ngx + ix)) := by
    intro m
    induction m with
    | zero => intro iy ix _; simp
    | succ m ih =>
      intro iy ix hx
      rw [List.range_succ, List.foldl_append]
      simp only [List.foldl_cons, List.foldl_nil]
      obtain ⟨r1, r2⟩ := tvRow_value (base + m * ngx)
        (fun ix => c * (recon (base + m * ngx + ix + 1) - recon (base + m * ngx + ix)))
        (fun ix => c * (recon (base + (m + 1) * ngx + ix) - recon (base + m * ngx + ix))) (ngx - 1)
        ((List.range m).foldl (fun q iy => (List.range (ngx - 1)).foldl (fun q ix =>
          (addAt q.1 (base + iy * ngx + ix)
            (c * (recon (base + iy * ngx + ix + 1) - recon (base + iy * ngx + ix))),
           addAt q.2 (base + iy * ngx + ix)
            (c * (recon (base + (iy + 1) * ngx + ix) - recon (base + iy * ngx + ix))))) q) q)
        (base + iy * ngx + ix)
      rw [r1, r2, (ih iy ix hx).1, (ih iy ix hx).2]
      by_cases e : iy = m
      · subst e
        have e1 : base + iy * ngx ≤ base + iy * ngx + ix ∧
            base + iy * ngx + ix < base + iy * ngx + (ngx - 1) := by omega
        rw [if_pos e1, if_pos e1, if_neg (lt_irrefl _), if_neg (lt_irrefl _),
          if_pos (Nat.lt_succ_self _), if_pos (Nat.lt_succ_self _), Nat.add_sub_cancel_left]
        exact ⟨rfl, rfl⟩
      · have e1 : ¬ (base + m * ngx ≤ base + iy * ngx + ix ∧
            base + iy * ngx + ix < base + m * ngx + (ngx - 1)) := by
          rcases Nat.lt_or_gt_of_ne e with l | l
          · have := Nat.mul_le_mul_right ngx (show iy + 1 ≤ m from l)
            rw [Nat.add_mul, Nat.one_mul] at this
            omega
          · have := Nat.mul_le_mul_right ngx (show m + 1 ≤ iy from l)
            rw [Nat.add_mul, Nat.one_mul] at this
            omega
        have e2 : iy < m + 1 ↔ iy < m := by omega
        rw [if_neg e1, if_neg e1]
        simp only [e2, and_self]
  have h := key (ngy - 1) iy ix hx
  rw [if_pos hy, if_pos hy] at h
  exact h

/-- **C69**: the divergence of the backward step is the negative adjoint of the operator that the
forward step applies (`tvGrad` with unit step on zero dual variables), for dual variables that
vanish at pixels without a right or lower neighbour, where the forward step never writes. -/
theorem tvDiv_tvGrad (base ngx ngy : Nat) (u px py : Mem ℝ)
    (h : ∀ iy < ngy, ∀ ix < ngx, ix = ngx - 1 ∨ iy = ngy - 1 →
      px (base + iy * ngx + ix) = 0 ∧ py (base + iy * ngx + ix) = 0) :
    ∑ iy ∈ Finset.range ngy, ∑ ix ∈ Finset.range ngx,
        u (base + iy * ngx + ix) * tvDiv base ngx px py iy ix =
      -∑ iy ∈ Finset.range ngy, ∑ ix ∈ Finset.range ngx,
        (px (base + iy * ngx + ix) *
            (tvGrad 1 base ngx ngy u (zeros, zeros)).1 (base + iy * ngx + ix) +
          py (base + iy * ngx + ix) *
            (tvGrad 1 base ngx ngy u (zeros, zeros)).2 (base + iy * ngx + ix)) := by
  rw [tvDiv_adjoint base ngx ngy u px py
    (fun iy hy h0 => (h iy hy _ (by omega) (Or.inl rfl)).1)
    (fun ix hx h0 => (h _ (by omega) ix hx (Or.inr rfl)).2), ← neg_add']
  congr 1
  have cut : ∀ (n m : Nat) (F : Nat → Nat → ℝ), (∀ iy < n, ∀ ix < m, ix = m - 1 ∨ iy = n - 1 →
      F iy ix = 0) → ∑ iy ∈ Finset.range n, ∑ ix ∈ Finset.range m, F iy ix =
        ∑ iy ∈ Finset.range (n - 1), ∑ ix ∈ Finset.range (m - 1), F iy ix := by
    intro n m F hF
    cases n with
    | zero => simp
    | succ n =>
      rw [Finset.sum_range_succ, Nat.add_sub_cancel,
        Finset.sum_eq_zero (s := Finset.range m) (f := fun ix => F n ix)
          (fun ix hix => hF n (by omega) ix (Finset.mem_range.mp hix) (Or.inr (by omega))), add_zero]
      apply Finset.sum_congr rfl
      intro iy hiy
      have hiy' := Finset.mem_range.mp hiy
      cases m with
      | zero => simp
      | succ m =>
        rw [Finset.sum_range_succ, Nat.add_sub_cancel,
          hF iy (by omega) m (by omega) (Or.inl (by omega)), add_zero]
  have cutx : ∀ (n m : Nat) (F : Nat → Nat → ℝ), (∀ iy < n, ∀ ix < m, iy = n - 1 → F iy ix = 0) →
      ∑ iy ∈ Finset.range n, ∑ ix ∈ Finset.range m, F iy ix =
        ∑ iy ∈ Finset.range (n - 1), ∑ ix ∈ Finset.range m, F iy ix := by
    intro n m F hF
    cases n with
    | zero => simp
    | succ n =>
      rw [Finset.sum_range_succ, Nat.add_sub_cancel,
        Finset.sum_eq_zero (s := Finset.range m) (f := fun ix => F n ix)
          (fun ix hix => hF n (by omega) ix (Finset.mem_range.mp hix) (by omega)), add_zero]
  rw [cut ngy ngx _ (fun iy hy ix hx e => by
    rw [(h iy hy ix hx e).1, (h iy hy ix hx e).2, zero_mul, zero_mul, add_zero])]
  rw [cutx ngy (ngx - 1) _ (fun iy hy ix hx e => by
    rw [(h iy hy ix (by omega) (Or.inr e)).1, zero_mul])]
  rw [Finset.sum_comm (s := Finset.range (ngy - 1)) (t := Finset.range ngx),
    cutx ngx (ngy - 1) _ (fun ix hx iy hy e => by
      rw [(h iy (by omega) ix hx (Or.inl e)).2, zero_mul]),
    Finset.sum_comm (s := Finset.range (ngx - 1)), ← Finset.sum_add_distrib]
  apply Finset.sum_congr rfl
  intro iy hiy
  rw [← Finset.sum_add_distrib]
  apply Finset.sum_congr rfl
  intro ix hix
  obtain ⟨v1, v2⟩ := tvGrad_value 1 base ngx ngy u (zeros, zeros) (Finset.mem_range.mp hiy)
    (Finset.mem_range.mp hix)
  rw [v1, v2]
  simp only [zeros, zero_add, one_mul]
  rfl

/-- The tracer's grid coordinates of a flat index, `indi = iy' + ix' * ngridy`
(specification of adjacency: coordinates differ by one in exactly one direction). -/
def Adjacent (ngy i j : Nat) : Prop :=
  ((i / ngy + 1 = j / ngy ∨ j / ngy + 1 = i / ngy) ∧ i % ngy = j % ngy) ∨
  ((i % ngy + 1 = j % ngy ∨ j % ngy + 1 = i % ngy) ∧ i / ngy = j / ngy)

/-- **C69** (partial: square grids): on square grids the pairs of pixels differenced by `tv` are
neighbours on the grid of the projector. -/
theorem tv_neighbours_partial {n iy ix : Nat} (hx : ix + 1 < n) :
    Adjacent n (iy * n + ix) (iy * n + ix + 1) ∧ Adjacent n (iy * n + ix) ((iy + 1) * n + ix) := by
  have h0 : 0 < n := by omega
  have d1 : (iy * n + ix) / n = iy := by
    rw [Nat.mul_comm, Nat.mul_add_div h0, Nat.div_eq_of_lt (by omega), add_zero]
  have m1 : (iy * n + ix) % n = ix := by
    rw [Nat.mul_comm, Nat.mul_add_mod, Nat.mod_eq_of_lt (by omega)]
  have d2 : (iy * n + ix + 1) / n = iy := by
    rw [Nat.add_assoc, Nat.mul_comm, Nat.mul_add_div h0, Nat.div_eq_of_lt hx, add_zero]
  have m2 : (iy * n + ix + 1) % n = ix + 1 := by
    rw [Nat.add_assoc, Nat.mul_comm, Nat.mul_add_mod, Nat.mod_eq_of_lt hx]
  have d3 : ((iy + 1) * n + ix) / n = iy + 1 := by
    rw [Nat.mul_comm, Nat.mul_add_div h0, Nat.div_eq_of_lt (by omega), add_zero]
  have m3 : ((iy + 1) * n + ix) % n = ix := by
    rw [Nat.mul_comm, Nat.mul_add_mod, Nat.mod_eq_of_lt (by omega)]
  exact ⟨Or.inr ⟨Or.inl (by rw [m1, m2]), by rw [d1, d2]⟩,
    Or.inl ⟨Or.inl (by rw [d1, d3]), by rw [m1, m3]⟩⟩

/-- **C69** (refutation): on every grid that is not square (and at least two pixels wide) the
vertical difference at the first pixel is between pixels that are not neighbours on the grid of
the projector. -/
theorem tv_neighbours_wrong {ngx ngy : Nat} (hx : 2 ≤ ngx) (hy : 2 ≤ ngy) (h : ngx ≠ ngy) :
    ¬ Adjacent ngy (0 * ngx + 0) ((0 + 1) * ngx + 0) := by
  have h0 : 0 < ngy := by omega
  have hdm := Nat.div_add_mod ngx ngy
  unfold Adjacent
  simp only [Nat.zero_mul, Nat.zero_add, Nat.add_zero, Nat.one_mul, Nat.zero_div, Nat.zero_mod]
  generalize ngx / ngy = a at *
  generalize ngx % ngy = b at *
  rintro (⟨h1, h2⟩ | ⟨h1, h2⟩)
  · rcases h1 with h1 | h1
    · subst h1 h2; omega
    · omega
  · rcases h1 with h1 | h1
    · subst h1 h2; omega
    · omega

/-! ## The hypotheses can be met -/

section Examples

/-- A 2 x 2 image, two rays, one of which misses the image. -/
def tvG : Geom ℝ := fun _ _ d => if d = 0 then [(0, 1), (1, 2)] else []

example : ∃ r', tv 3 ⟨1, 1, 2, 4⟩ 2 2 tvG (fun i => if i = 0 then 6 else 100) 5 (fun _ => 2) =
    some r' ∧ SameImage ⟨1, 1, 2, 4⟩ r' (fun _ => 2) := by
  refine tv_constant_fixed (by norm_num) rfl ?_ (v := fun _ => 2) (fun _ _ _ _ => rfl) ?_ 5
  · intro s _ p _ d _ e he
    unfold tvG at he
    split at he
    · simp only [List.mem_cons, List.not_mem_nil, or_false] at he
      rcases he with rfl | rfl <;> norm_num
    · simp at he
  · intro s hs p hp d hd h0
    have hs' : s = 0 := Nat.lt_one_iff.mp hs
    have hp' : p = 0 := Nat.lt_one_iff.mp hp
    subst hs' hp'
    by_cases e : d = 0
    · subst e; norm_num [lineSum, tvG, Dims.data]
    · exfalso; apply h0; simp [tvG, e, sumDist2]

example : tv 0 ⟨1, 1, 2, 4⟩ 2 2 tvG (fun i => if i = 0 then 6 else 100) 5 (fun _ => 2) = none :=
  tv_zero_lambda_undefined rfl (le_refl _) (le_refl _) (by simp) (v := fun _ => 2)
    (fun _ _ _ _ => rfl) (by norm_num)

example : (tvGrad 2 0 3 2 (fun n => (n : ℝ) ^ 2) (zeros, zeros)).2 1 = 30 := by
  have h := (tvGrad_value 2 0 3 2 (fun n => (n : ℝ) ^ 2) (zeros, zeros) (iy := 0) (ix := 1)
    (by norm_num) (by norm_num)).2
  norm_num [zeros] at h
  exact h

example : ∃ px py : Mem ℝ, px 0 ≠ 0 ∧ py 1 ≠ 0 ∧
    ∀ iy < 3, ∀ ix < 3, ix = 3 - 1 ∨ iy = 3 - 1 →
      px (0 + iy * 3 + ix) = 0 ∧ py (0 + iy * 3 + ix) = 0 := by
  refine ⟨fun n => if n = 0 then 1 else 0, fun n => if n = 1 then 2 else 0, by norm_num,
    by norm_num, fun iy _ ix _ e => ?_⟩
  constructor <;> exact if_neg (by omega)

end Examples

end Tomopy.Iter
