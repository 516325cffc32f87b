import Verif.Iter.Basic

/-!
# Projection and back-projection in C (C31, C32)
-/

set_option linter.unusedSectionVars false

namespace Tomopy.Iter

variable {K : Type*} [Field K] [LinearOrder K] [IsStrictOrderedRing K]

/-- The sum over all rays that picks one address picks one ray. -/
theorem sum_data_single (D : Dims) (F : Nat → Nat → Nat → K) {s p d : Nat} (hs : s < D.dy)
    (hp : p < D.dt) (hd : d < D.dx) :
    (∑ p' ∈ Finset.range D.dt, ∑ d' ∈ Finset.range D.dx, ∑ s' ∈ Finset.range D.dy,
      if D.data s' p' d' = D.data s p d then F s' p' d' else 0) = F s p d := by
  rw [Finset.sum_eq_single p]
  · rw [Finset.sum_eq_single d]
    · rw [Finset.sum_eq_single s]
      · rw [if_pos rfl]
      · intro s' _ h
        rw [if_neg]
        intro e
        exact h (data_inj hp hp hd hd e).1
      · intro h
        exact absurd (Finset.mem_range.mpr hs) h
    · intro d' hd' h
      apply Finset.sum_eq_zero
      intro s' _
      rw [if_neg]
      intro e
      exact h (data_inj hp hp (Finset.mem_range.mp hd') hd e).2.2
    · intro h
      exact absurd (Finset.mem_range.mpr hd) h
  · intro p' hp' h
    apply Finset.sum_eq_zero
    intro d' hd'
    apply Finset.sum_eq_zero
    intro s' _
    rw [if_neg]
    intro e
    exact h (data_inj (Finset.mem_range.mp hp') hp (Finset.mem_range.mp hd') hd e).2.1
  · intro h
    exact absurd (Finset.mem_range.mpr hp) h

theorem project_apply (D : Dims) (g : Geom K) (obj data : Mem K) (x : Nat) :
    project D g obj data x = data x + ∑ p ∈ Finset.range D.dt, ∑ d ∈ Finset.range D.dx,
      ∑ s ∈ Finset.range D.dy, if D.data s p d = x then lineSum D.N s (g 0 p d) obj else 0 := by
  unfold project
  split
  · rename_i h
    rcases h with h | h | h <;> simp [h]
  · rw [foldl_additive _ (fun p x => ∑ d ∈ Finset.range D.dx, ∑ s ∈ Finset.range D.dy,
        if D.data s p d = x then lineSum D.N s (g 0 p d) obj else 0)]
    · rw [sum_range_list]
    · intro m p x _
      rw [foldl_additive _ (fun d x => ∑ s ∈ Finset.range D.dy,
        if D.data s p d = x then lineSum D.N s (g 0 p d) obj else 0)]
      · rw [sum_range_list]
      · intro m d x _
        rw [foldl_additive _ (fun s x => if D.data s p d = x then lineSum D.N s (g 0 p d) obj else 0)]
        · rw [sum_range_list]
        · intro m s x _
          exact calcSimdata_apply D s p d (g 0 p d) obj m x

/-- **C31**: the value of the projector: each data element of the call is increased by the line
integral of its own slice along its own ray (with the rotation centre of the first slice). -/
theorem project_value (D : Dims) (g : Geom K) (obj data : Mem K) {s p d : Nat} (hs : s < D.dy)
    (hp : p < D.dt) (hd : d < D.dx) :
    project D g obj data (D.data s p d) = data (D.data s p d) + lineSum D.N s (g 0 p d) obj := by
  rw [project_apply, sum_data_single D (fun s p d => lineSum D.N s (g 0 p d) obj) hs hp hd]

/-- **C31**: memory outside the data array is not written. -/
theorem project_frame (D : Dims) (g : Geom K) (obj data : Mem K) (x : Nat)
    (hx : D.dy * D.dt * D.dx ≤ x) : project D g obj data x = data x := by
  rw [project_apply]
  rw [Finset.sum_eq_zero, add_zero]
  intro p hp
  apply Finset.sum_eq_zero
  intro d hd
  apply Finset.sum_eq_zero
  intro s hs
  rw [if_neg]
  rintro rfl
  have hp := Finset.mem_range.mp hp
  have hd := Finset.mem_range.mp hd
  have hs := Finset.mem_range.mp hs
  have h1 := pix_lt hp hs
  have h2 := pix_lt hd h1
  unfold Dims.data at hx
  have : d + (p + s * D.dt) * D.dx = d + p * D.dx + s * D.dt * D.dx := by ring
  omega

/-- **C31**: linear in the object. -/
theorem project_linear (D : Dims) (g : Geom K) (a b : K) (u v : Mem K) {s p d : Nat}
    (hs : s < D.dy) (hp : p < D.dt) (hd : d < D.dx) :
    project D g (fun i => a * u i + b * v i) zeros (D.data s p d) =
      a * project D g u zeros (D.data s p d) + b * project D g v zeros (D.data s p d) := by
  rw [project_value D g _ _ hs hp hd, project_value D g _ _ hs hp hd,
    project_value D g _ _ hs hp hd, lineSum_add]
  simp [zeros]

/-- **C31**: a non-negative object has non-negative projections. -/
theorem project_nonneg (D : Dims) (g : Geom K) (u : Mem K) {s p d : Nat}
    (hs : s < D.dy) (hp : p < D.dt) (hd : d < D.dx) (hg : SegsOk D.N (g 0 p d))
    (hu : ∀ n < D.N, 0 ≤ u (n + s * D.N)) : 0 ≤ project D g u zeros (D.data s p d) := by
  rw [project_value D g _ _ hs hp hd]
  simpa [zeros] using lineSum_nonneg hg hu

/-- **C31**: the zero object has zero projections. -/
theorem project_zero (D : Dims) (g : Geom K) {s p d : Nat}
    (hs : s < D.dy) (hp : p < D.dt) (hd : d < D.dx) :
    project D g zeros zeros (D.data s p d) = 0 := by
  rw [project_value D g _ _ hs hp hd]
  simp [zeros, lineSum]

/-- **C31**: the data of slice `s` depend only on slice `s` of the object. -/
theorem project_slicewise (D : Dims) (g : Geom K) (u v : Mem K) {s p d : Nat}
    (hs : s < D.dy) (hp : p < D.dt) (hd : d < D.dx) (hg : SegsOk D.N (g 0 p d))
    (huv : ∀ n < D.N, u (n + s * D.N) = v (n + s * D.N)) :
    project D g u zeros (D.data s p d) = project D g v zeros (D.data s p d) := by
  rw [project_value D g _ _ hs hp hd, project_value D g _ _ hs hp hd]
  rw [lineSum_congr fun e he => huv e.1 (hg e he).1]

/-! ## Adjointness -/

theorem fbp_apply (D : Dims) (g : Geom K) (data recon : Mem K)
    (hg : ∀ s < D.dy, ∀ p < D.dt, ∀ d < D.dx, ∀ e ∈ g s p d, e.1 < D.N) {s n : Nat}
    (hs : s < D.dy) (hn : n < D.N) :
    fbp D g data recon (n + s * D.N) = recon (n + s * D.N) +
      ∑ p ∈ Finset.range D.dt, ∑ d ∈ Finset.range D.dx,
        data (D.data s p d) * lenIn (g s p d) n := by
  unfold fbp
  split
  · rename_i h
    rcases h with h | h | h
    · omega
    · simp [h]
    · simp [h]
  · have key : ∀ (m : Mem K) (s' : Nat), s' < D.dy →
        (List.range D.dt).foldl (fun m p => (List.range D.dx).foldl (fun m d =>
          spread D s' (g s' p d) (data (D.data s' p d)) m) m) m (n + s * D.N) =
        m (n + s * D.N) + ∑ p ∈ Finset.range D.dt, ∑ d ∈ Finset.range D.dx,
          if s = s' then data (D.data s' p d) * lenIn (g s' p d) n else 0 := by
      intro m s' hs'
      have h1 : ∀ (m : Mem K) (p : Nat), p < D.dt →
          (List.range D.dx).foldl (fun m d => spread D s' (g s' p d) (data (D.data s' p d)) m) m
            (n + s * D.N) = m (n + s * D.N) + ∑ d ∈ Finset.range D.dx,
            if s = s' then data (D.data s' p d) * lenIn (g s' p d) n else 0 := by
        intro m p hp
        rw [← sum_range_list]
        have : ∀ (l : List Nat), (∀ d ∈ l, d < D.dx) → ∀ m : Mem K,
            l.foldl (fun m d => spread D s' (g s' p d) (data (D.data s' p d)) m) m (n + s * D.N) =
            m (n + s * D.N) + (l.map fun d =>
              if s = s' then data (D.data s' p d) * lenIn (g s' p d) n else 0).sum := by
          intro l
          induction l with
          | nil => simp
          | cons d l ih =>
            intro hl m
            rw [List.foldl_cons, ih (fun d hd => hl d (List.mem_cons_of_mem _ hd)),
              spread_pixel (hg s' hs' p hp d (hl d (by simp))) hn, List.map_cons, List.sum_cons,
              add_assoc]
        exact this _ (fun d hd => List.mem_range.mp hd) m
      rw [← sum_range_list]
      have : ∀ (l : List Nat), (∀ p ∈ l, p < D.dt) → ∀ m : Mem K,
          l.foldl (fun m p => (List.range D.dx).foldl (fun m d =>
            spread D s' (g s' p d) (data (D.data s' p d)) m) m) m (n + s * D.N) =
          m (n + s * D.N) + (l.map fun p => ∑ d ∈ Finset.range D.dx,
            if s = s' then data (D.data s' p d) * lenIn (g s' p d) n else 0).sum := by
        intro l
        induction l with
        | nil => simp
        | cons p l ih =>
          intro hl m
          rw [List.foldl_cons, ih (fun d hd => hl d (List.mem_cons_of_mem _ hd)),
            h1 _ p (hl p (by simp)), List.map_cons, List.sum_cons, add_assoc]
      exact this _ (fun d hd => List.mem_range.mp hd) m
    have : ∀ (l : List Nat), (∀ p ∈ l, p < D.dy) → ∀ m : Mem K,
        l.foldl (fun m s' => (List.range D.dt).foldl (fun m p => (List.range D.dx).foldl (fun m d =>
          spread D s' (g s' p d) (data (D.data s' p d)) m) m) m) m (n + s * D.N) =
        m (n + s * D.N) + (l.map fun s' => ∑ p ∈ Finset.range D.dt, ∑ d ∈ Finset.range D.dx,
          if s = s' then data (D.data s' p d) * lenIn (g s' p d) n else 0).sum := by
      intro l
      induction l with
      | nil => simp
      | cons s' l ih =>
        intro hl m
        rw [List.foldl_cons, ih (fun d hd => hl d (List.mem_cons_of_mem _ hd)),
          key _ s' (hl s' (by simp)), List.map_cons, List.sum_cons, add_assoc]
    rw [this _ (fun d hd => List.mem_range.mp hd) recon, sum_range_list]
    congr 1
    rw [Finset.sum_eq_single s]
    · simp
    · intro s' _ h
      apply Finset.sum_eq_zero
      intro p _
      apply Finset.sum_eq_zero
      intro d _
      rw [if_neg (fun e => h e.symm)]
    · intro h
      exact absurd (Finset.mem_range.mpr hs) h

/-- The scalar product of two data arrays (specification). -/
def dataDot (D : Dims) (u v : Mem K) : K :=
  ∑ s ∈ Finset.range D.dy, ∑ p ∈ Finset.range D.dt, ∑ d ∈ Finset.range D.dx,
    u (D.data s p d) * v (D.data s p d)

/-- The scalar product of two volumes (specification). -/
def volDot (D : Dims) (u v : Mem K) : K :=
  ∑ s ∈ Finset.range D.dy, ∑ n ∈ Finset.range D.N, u (n + s * D.N) * v (n + s * D.N)

/-- **C32**: the back-projection loop of `fbp` is the transpose of `project` when all slices of
the call have the same rotation centre (the projector always uses the first centre). -/
theorem fbp_adjoint_partial (D : Dims) (g : Geom K)
    (hg : ∀ s < D.dy, ∀ p < D.dt, ∀ d < D.dx, SegsOk D.N (g s p d))
    (hc : ∀ s < D.dy, ∀ p < D.dt, ∀ d < D.dx, g s p d = g 0 p d) (x y : Mem K) :
    dataDot D (project D g x zeros) y = volDot D x (fbp D g y zeros) := by
  unfold dataDot volDot
  apply Finset.sum_congr rfl
  intro s hs
  have hs := Finset.mem_range.mp hs
  have e1 : ∀ n ∈ Finset.range D.N, x (n + s * D.N) * fbp D g y zeros (n + s * D.N) =
      ∑ p ∈ Finset.range D.dt, ∑ d ∈ Finset.range D.dx,
        y (D.data s p d) * (x (n + s * D.N) * lenIn (g 0 p d) n) := by
    intro n hn
    rw [fbp_apply D g y zeros (fun s hs p hp d hd e he => (hg s hs p hp d hd e he).1) hs
      (Finset.mem_range.mp hn)]
    rw [zeros, zero_add, Finset.mul_sum]
    apply Finset.sum_congr rfl
    intro p hp
    rw [Finset.mul_sum]
    apply Finset.sum_congr rfl
    intro d hd
    rw [hc s hs p (Finset.mem_range.mp hp) d (Finset.mem_range.mp hd)]
    ring
  rw [Finset.sum_congr rfl e1]
  refine Eq.trans ?_ Finset.sum_comm
  apply Finset.sum_congr rfl
  intro p hp
  refine Eq.trans ?_ Finset.sum_comm
  apply Finset.sum_congr rfl
  intro d hd
  have hp := Finset.mem_range.mp hp
  have hd := Finset.mem_range.mp hd
  rw [project_value D g _ _ hs hp hd, ← Finset.mul_sum,
    ← lineSum_eq_sum_lenIn (fun e he => (hg 0 (by omega) p hp d hd e he).1)]
  simp [zeros, mul_comm]

/-- **C32**, the exact condition: the transpose of `project` uses the first centre everywhere. -/
theorem fbp_adjoint_first_center (D : Dims) (g : Geom K)
    (hg : ∀ p < D.dt, ∀ d < D.dx, SegsOk D.N (g 0 p d)) (x y : Mem K) :
    dataDot D (project D g x zeros) y = volDot D x (fbp D (fun _ => g 0) y zeros) := by
  rw [← fbp_adjoint_partial D (fun _ => g 0) (fun s _ => hg) (fun _ _ _ _ _ _ => rfl)]
  rfl

section Example

/-- Two slices of two pixels, two projections of one ray each. -/
def exD : Dims := ⟨2, 2, 1, 2⟩
/-- The rays of the example: different centres for the two slices. -/
def exG : Geom ℚ := fun s p _ =>
  if p = 0 then [(0, 1), (1, 1)] else if s = 0 then [(0, 2)] else [(1, 1/2)]

example : ∀ s < exD.dy, ∀ p < exD.dt, ∀ d < exD.dx, SegsOk exD.N (exG s p d) := by
  unfold SegsOk; decide +kernel

example : ∀ s < exD.dy, ∀ p < exD.dt, ∀ d < exD.dx,
    (fun _ => exG 0 : Geom ℚ) s p d = (fun _ => exG 0 : Geom ℚ) 0 p d := by
  intros; rfl

/-- **C32** fails with different centres: the scalar products differ. -/
theorem fbp_not_adjoint_per_slice_center :
    dataDot exD (project exD exG (fun i => i + 1) zeros) (fun i => i + 1) ≠
      volDot exD (fun i => (i : ℚ) + 1) (fbp exD exG (fun i => i + 1) zeros) := by
  decide +kernel

end Example

end Tomopy.Iter
