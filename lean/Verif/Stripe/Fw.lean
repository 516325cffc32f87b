import Verif.Stripe.FwModel
import Verif.Stripe.Filter
import Mathlib.Analysis.Real.Sqrt

/-! Theorems about the Fourier-wavelet stripe removal (C93). -/
set_option linter.unusedSectionVars false

namespace Tomopy.Stripe
open Phase (rot shiftSrc)

noncomputable section

/-! ### Specification -/

/-- What is known of the wavelets of PyWavelets: filters of even length, and synthesis undoes
analysis for every length of at least one sample. -/
structure Bank.Ok (B : Bank) : Prop where
  two_le : 2 ≤ B.taps
  even : B.taps % 2 = 0
  perfect : ∀ n, 0 < n → ∀ t < n, ∀ j < n,
    ∑ k ∈ Finset.range (B.dlen n), (B.rlo (B.dlen n) t k * B.lo n k j + B.rhi (B.dlen n) t k * B.hi n k j)
      = if t = j then 1 else 0

/-- Constants have constant averages and no details. -/
structure Bank.Const (B : Bank) : Prop where
  sum_lo : ∃ g, ∀ n, 0 < n → ∀ k < B.dlen n, ∑ j ∈ Finset.range n, B.lo n k j = g
  sum_hi : ∀ n, 0 < n → ∀ k < B.dlen n, ∑ j ∈ Finset.range n, B.hi n k j = 0

/-- Equal on the pixels they have. -/
def Same (a b : Im) : Prop := a.r = b.r ∧ a.c = b.c ∧ ∀ t < a.r, ∀ i < a.c, a.get t i = b.get t i

/-! ### Lengths -/

theorem dlen_pos {B : Bank} (hB : 2 ≤ B.taps) {n : Nat} (hn : 0 < n) : 0 < B.dlen n := by
  unfold Bank.dlen; omega

theorem rlen_dlen {B : Bank} (hB : 2 ≤ B.taps) (he : B.taps % 2 = 0) (n : Nat) : n ≤ B.rlen (B.dlen n) := by
  unfold Bank.dlen Bank.rlen; omega

/-! ### Perfect reconstruction in two dimensions -/

theorem idwt2_dwt2 {B : Bank} (hB : B.Ok) {s a : Im} {d : Im × Im × Im} (hr : 0 < s.r) (hc : 0 < s.c)
    (ha : Same a (B.dwt2 s).1) (h1 : Same d.1 (B.dwt2 s).2.1) (h2 : Same d.2.1 (B.dwt2 s).2.2.1)
    (h3 : Same d.2.2 (B.dwt2 s).2.2.2) :
    ∃ o, B.idwt2 a d = .ok o ∧ o.r = B.rlen (B.dlen s.r) ∧ o.c = B.rlen (B.dlen s.c) ∧
      ∀ t < s.r, ∀ i < s.c, o.get t i = s.get t i := by
  have ea : a.r = B.dlen s.r := ha.1
  have ec : a.c = B.dlen s.c := ha.2.1
  refine ⟨_, if_pos ⟨ha.1.trans h1.1.symm, ha.2.1.trans h1.2.1.symm, ha.1.trans h2.1.symm,
    ha.2.1.trans h2.2.1.symm, ha.1.trans h3.1.symm, ha.2.1.trans h3.2.1.symm⟩, ?_, ?_, ?_⟩
  · exact congrArg B.rlen ea
  · exact congrArg B.rlen ec
  intro t ht i hi
  have e : ∀ p ∈ Finset.range a.r, ∀ q ∈ Finset.range a.c,
      B.rlo a.r t p * B.rlo a.c i q * a.get p q + B.rhi a.r t p * B.rlo a.c i q * d.1.get p q +
        B.rlo a.r t p * B.rhi a.c i q * d.2.1.get p q + B.rhi a.r t p * B.rhi a.c i q * d.2.2.get p q =
      ∑ u ∈ Finset.range s.r, ∑ v ∈ Finset.range s.c,
        (B.rlo (B.dlen s.r) t p * B.lo s.r p u + B.rhi (B.dlen s.r) t p * B.hi s.r p u) *
        (B.rlo (B.dlen s.c) i q * B.lo s.c q v + B.rhi (B.dlen s.c) i q * B.hi s.c q v) * s.get u v := by
    intro p hp q hq
    have hp' := Finset.mem_range.1 hp
    have hq' := Finset.mem_range.1 hq
    rw [ha.2.2 p hp' q hq', h1.2.2 p (by rw [h1.1]; rw [ha.1] at hp'; exact hp') q (by rw [h1.2.1]; rw [ha.2.1] at hq'; exact hq'),
      h2.2.2 p (by rw [h2.1]; rw [ha.1] at hp'; exact hp') q (by rw [h2.2.1]; rw [ha.2.1] at hq'; exact hq'),
      h3.2.2 p (by rw [h3.1]; rw [ha.1] at hp'; exact hp') q (by rw [h3.2.1]; rw [ha.2.1] at hq'; exact hq'), ea, ec]
    simp only [Bank.dwt2, Bank.apply]
    simp only [Finset.mul_sum]
    rw [← Finset.sum_add_distrib, ← Finset.sum_add_distrib, ← Finset.sum_add_distrib]
    refine Finset.sum_congr rfl fun u _ => ?_
    rw [← Finset.sum_add_distrib, ← Finset.sum_add_distrib, ← Finset.sum_add_distrib]
    refine Finset.sum_congr rfl fun v _ => ?_
    ring
  change ∑ p ∈ Finset.range a.r, ∑ q ∈ Finset.range a.c, _ = _
  rw [Finset.sum_congr rfl fun p hp => Finset.sum_congr rfl fun q hq => e p hp q hq, ea, ec]
  calc _ = ∑ u ∈ Finset.range s.r, ∑ v ∈ Finset.range s.c,
        (∑ p ∈ Finset.range (B.dlen s.r), (B.rlo (B.dlen s.r) t p * B.lo s.r p u + B.rhi (B.dlen s.r) t p * B.hi s.r p u)) *
        (∑ q ∈ Finset.range (B.dlen s.c), (B.rlo (B.dlen s.c) i q * B.lo s.c q v + B.rhi (B.dlen s.c) i q * B.hi s.c q v)) *
          s.get u v := by
        simp only [Finset.sum_mul_sum]
        simp only [Finset.sum_mul]
        calc _ = ∑ p ∈ Finset.range (B.dlen s.r), ∑ u ∈ Finset.range s.r, ∑ q ∈ Finset.range (B.dlen s.c),
              ∑ v ∈ Finset.range s.c, (B.rlo (B.dlen s.r) t p * B.lo s.r p u + B.rhi (B.dlen s.r) t p * B.hi s.r p u) *
        (B.rlo (B.dlen s.c) i q * B.lo s.c q v + B.rhi (B.dlen s.c) i q * B.hi s.c q v) * s.get u v :=
              Finset.sum_congr rfl fun p _ => Finset.sum_comm
          _ = ∑ u ∈ Finset.range s.r, ∑ p ∈ Finset.range (B.dlen s.r), ∑ q ∈ Finset.range (B.dlen s.c),
              ∑ v ∈ Finset.range s.c, (B.rlo (B.dlen s.r) t p * B.lo s.r p u + B.rhi (B.dlen s.r) t p * B.hi s.r p u) *
        (B.rlo (B.dlen s.c) i q * B.lo s.c q v + B.rhi (B.dlen s.c) i q * B.hi s.c q v) * s.get u v := Finset.sum_comm
          _ = ∑ u ∈ Finset.range s.r, ∑ p ∈ Finset.range (B.dlen s.r), ∑ v ∈ Finset.range s.c,
              ∑ q ∈ Finset.range (B.dlen s.c), (B.rlo (B.dlen s.r) t p * B.lo s.r p u + B.rhi (B.dlen s.r) t p * B.hi s.r p u) *
        (B.rlo (B.dlen s.c) i q * B.lo s.c q v + B.rhi (B.dlen s.c) i q * B.hi s.c q v) * s.get u v :=
              Finset.sum_congr rfl fun u _ => Finset.sum_congr rfl fun p _ => Finset.sum_comm
          _ = _ := Finset.sum_congr rfl fun u _ => Finset.sum_comm
    _ = ∑ u ∈ Finset.range s.r, ∑ v ∈ Finset.range s.c,
        (if t = u then 1 else 0) * (if i = v then 1 else 0) * s.get u v := by
        refine Finset.sum_congr rfl fun u hu => Finset.sum_congr rfl fun v hv => ?_
        rw [hB.perfect s.r hr t ht u (Finset.mem_range.1 hu), hB.perfect s.c hc i hi v (Finset.mem_range.1 hv)]
    _ = s.get t i := by
        rw [Finset.sum_eq_single t, Finset.sum_eq_single i]
        · simp
        · intro v _ hv; rw [if_neg (Ne.symm hv)]; ring
        · intro h; exact absurd (Finset.mem_range.2 hi) h
        · intro u _ hu
          refine Finset.sum_eq_zero fun v _ => ?_
          rw [if_neg (Ne.symm hu)]; ring
        · intro h; exact absurd (Finset.mem_range.2 ht) h

/-! ### Shapes -/

theorem Same.refl (a : Im) : Same a a := ⟨rfl, rfl, fun _ _ _ _ => rfl⟩

/-- Whatever is put in place of the details, reconstruction succeeds and gives at least the shape
that was decomposed. -/
theorem rebuild_shape {B : Bank} (hB : B.Ok) (f : Im → Im) (hf : ∀ v, (f v).r = v.r ∧ (f v).c = v.c) :
    ∀ (level : Nat) (s : Im), 0 < s.r → 0 < s.c →
      ∃ o, fwRebuild B (fwDecompose B level s).1
        ((fwDecompose B level s).2.map fun d => (d.1, f d.2.1, d.2.2)) = .ok o ∧ s.r ≤ o.r ∧ s.c ≤ o.c := by
  intro level
  induction level with
  | zero => intro s _ _; exact ⟨s, rfl, le_refl _, le_refl _⟩
  | succ n ih =>
    intro s hr hc
    obtain ⟨o, h1, h2, h3⟩ := ih (B.dwt2 s).1 (dlen_pos hB.two_le hr) (dlen_pos hB.two_le hc)
    have e : (fwDecompose B (n + 1) s).2.map (fun d => (d.1, f d.2.1, d.2.2)) =
      ((B.dwt2 s).2.1, f (B.dwt2 s).2.2.1, (B.dwt2 s).2.2.2) ::
        (fwDecompose B n (B.dwt2 s).1).2.map fun d => (d.1, f d.2.1, d.2.2) := rfl
    have e1 : (fwDecompose B (n + 1) s).1 = (fwDecompose B n (B.dwt2 s).1).1 := rfl
    rw [e, e1, fwRebuild, h1]
    have h2' : B.dlen s.r ≤ o.r := h2
    have h3' : B.dlen s.c ≤ o.c := h3
    have hf' := hf (B.dwt2 s).2.2.1
    refine ⟨_, if_pos ⟨min_eq_left h2', min_eq_left h3', (min_eq_left h2').trans hf'.1.symm,
      (min_eq_left h3').trans hf'.2.symm, min_eq_left h2', min_eq_left h3'⟩, ?_, ?_⟩
    · change s.r ≤ B.rlen (min (B.dlen s.r) o.r)
      rw [min_eq_left h2']; exact rlen_dlen hB.two_le hB.even _
    · change s.c ≤ B.rlen (min (B.dlen s.c) o.c)
      rw [min_eq_left h3']; exact rlen_dlen hB.two_le hB.even _

theorem fwShift_fits (pad : Bool) (dx : Nat) : dx + fwShift pad dx ≤ fwRows pad dx := by
  unfold fwShift fwRows
  cases pad
  · simp
  · simp; omega

/-- **C93** For every number of levels, also far beyond the size of the data, the reconstruction
succeeds and the result has the shape of the slice. -/
theorem fw_total {B : Bank} (hB : B.Ok) (level : Nat) (sigma : ℝ) (pad : Bool) {dx dz : Nat} (hx : 0 < dx)
    (hz : 0 < dz) (X : Nat → Nat → ℝ) : ∃ Y, fwSlice B level sigma pad dx dz X = .ok Y := by
  have hrow := fwShift_fits pad dx
  obtain ⟨o, h1, h2, h3⟩ := rebuild_shape hB (fwDampen sigma) (fun v => ⟨rfl, rfl⟩) level
    (fwPad pad dx dz X) (show 0 < fwRows pad dx by omega) hz
  have h2' : fwRows pad dx ≤ o.r := h2
  have h3' : dz ≤ o.c := h3
  refine ⟨fun t i => o.get (t + fwShift pad dx) i, ?_⟩
  unfold fwSlice
  dsimp only
  rw [h1]
  change (if o.r < dx + fwShift pad dx ∨ o.c < dz then (.error .value : Except PyErr (Nat → Nat → ℝ)) else _) = _
  rw [if_neg (by omega)]

/-! ### Slices that the damping does not touch -/

/-- If damping leaves the details of all levels alone, the slice is reconstructed exactly. -/
theorem rebuild_same {B : Bank} (hB : B.Ok) (f : Im → Im) :
    ∀ (level : Nat) (s : Im), 0 < s.r → 0 < s.c →
      (∀ d ∈ (fwDecompose B level s).2, Same (f d.2.1) d.2.1) →
      ∃ o, fwRebuild B (fwDecompose B level s).1
        ((fwDecompose B level s).2.map fun d => (d.1, f d.2.1, d.2.2)) = .ok o ∧ s.r ≤ o.r ∧ s.c ≤ o.c ∧
        ∀ t < s.r, ∀ i < s.c, o.get t i = s.get t i := by
  intro level
  induction level with
  | zero => intro s _ _ _; exact ⟨s, rfl, le_refl _, le_refl _, fun _ _ _ _ => rfl⟩
  | succ n ih =>
    intro s hr hc hd
    obtain ⟨o, h1, h2, h3, h4⟩ := ih (B.dwt2 s).1 (dlen_pos hB.two_le hr) (dlen_pos hB.two_le hc)
      (fun d hd' => hd d (List.mem_cons_of_mem _ hd'))
    have e : (fwDecompose B (n + 1) s).2.map (fun d => (d.1, f d.2.1, d.2.2)) =
      ((B.dwt2 s).2.1, f (B.dwt2 s).2.2.1, (B.dwt2 s).2.2.2) ::
        (fwDecompose B n (B.dwt2 s).1).2.map fun d => (d.1, f d.2.1, d.2.2) := rfl
    have e1 : (fwDecompose B (n + 1) s).1 = (fwDecompose B n (B.dwt2 s).1).1 := rfl
    rw [e, e1, fwRebuild, h1]
    have h2' : B.dlen s.r ≤ o.r := h2
    have h3' : B.dlen s.c ≤ o.c := h3
    have hv : Same (f (B.dwt2 s).2.2.1) (B.dwt2 s).2.2.1 := hd _ List.mem_cons_self
    obtain ⟨o', g1, g2, g3, g4⟩ := idwt2_dwt2 hB hr hc
      (a := ⟨min (B.dlen s.r) o.r, min (B.dlen s.c) o.c, o.get⟩)
      (d := ((B.dwt2 s).2.1, f (B.dwt2 s).2.2.1, (B.dwt2 s).2.2.2))
      ⟨min_eq_left h2', min_eq_left h3', fun t ht i hi => h4 t (lt_of_lt_of_le ht (min_le_left _ _))
        i (lt_of_lt_of_le hi (min_le_left _ _))⟩ (Same.refl _) hv (Same.refl _)
    refine ⟨o', g1, ?_, ?_, g4⟩
    · rw [g2]; exact rlen_dlen hB.two_le hB.even _
    · rw [g3]; exact rlen_dlen hB.two_le hB.even _

/-- **C93** A slice none of whose details along the detector is changed by the damping is returned
unchanged. -/
theorem fw_unchanged {B : Bank} (hB : B.Ok) (level : Nat) (sigma : ℝ) (pad : Bool) {dx dz : Nat}
    (hx : 0 < dx) (hz : 0 < dz) (X : Nat → Nat → ℝ)
    (h : ∀ d ∈ (fwDecompose B level (fwPad pad dx dz X)).2, Same (fwDampen sigma d.2.1) d.2.1) :
    ∃ Y, fwSlice B level sigma pad dx dz X = .ok Y ∧ ∀ t < dx, ∀ i < dz, Y t i = X t i := by
  have hrow := fwShift_fits pad dx
  obtain ⟨o, h1, h2, h3, h4⟩ := rebuild_same hB (fwDampen sigma) level
    (fwPad pad dx dz X) (show 0 < fwRows pad dx by omega) hz h
  have h2' : fwRows pad dx ≤ o.r := h2
  have h3' : dz ≤ o.c := h3
  refine ⟨fun t i => o.get (t + fwShift pad dx) i, ?_, ?_⟩
  · unfold fwSlice
    dsimp only
    rw [h1]
    change (if o.r < dx + fwShift pad dx ∨ o.c < dz then (.error .value : Except PyErr (Nat → Nat → ℝ)) else _) = _
    rw [if_neg (by omega)]
  · intro t ht i hi
    have := h4 (t + fwShift pad dx) (show t + fwShift pad dx < fwRows pad dx by omega) i hi
    refine this.trans ?_
    simp only [fwPad]
    rw [if_pos ⟨by omega, by omega⟩, Nat.add_sub_cancel]

theorem dampen_zero (sigma : ℝ) {v : Im} (h : ∀ t < v.r, ∀ i < v.c, v.get t i = 0) (hc : 0 < v.c) :
    Same (fwDampen sigma v) v := by
  refine ⟨rfl, rfl, fun t ht i hi => ?_⟩
  rw [h t ht i hi]
  unfold fwDampen
  simp only
  have : ∀ u l, dft v.r (fun t => ((v.get t (shiftSrc v.c l) : ℝ) : ℂ)) u = 0 := by
    intro u l
    unfold dft
    refine Finset.sum_eq_zero fun j hj => ?_
    dsimp only
    rw [h j (Finset.mem_range.1 hj) _ (Phase.shiftSrc_lt _ _ hc)]
    simp
  simp only [this]
  unfold idft
  simp

/-- Equal columns have no details along the detector, on any level. -/
theorem decompose_equal_columns {B : Bank} (hB : 2 ≤ B.taps) (hC : B.Const) : ∀ (level : Nat) (s : Im), 0 < s.r → 0 < s.c →
    (∀ t < s.r, ∀ i < s.c, s.get t i = s.get t 0) →
    ∀ d ∈ (fwDecompose B level s).2, (0 < d.2.1.r ∧ 0 < d.2.1.c) ∧ ∀ t < d.2.1.r, ∀ i < d.2.1.c, d.2.1.get t i = 0 := by
  intro level
  induction level with
  | zero => intro s _ _ _ d hd; exact absurd hd List.not_mem_nil
  | succ n ih =>
    intro s hr hc hs d hd
    have hsum : ∀ (f g : Nat → Nat → Nat → ℝ) (k l : Nat), (B.apply f g s).get k l =
        (∑ i ∈ Finset.range s.r, f s.r k i * s.get i 0) * ∑ j ∈ Finset.range s.c, g s.c l j := by
      intro f g k l
      unfold Bank.apply
      dsimp only
      rw [Finset.sum_mul_sum]
      refine Finset.sum_congr rfl fun i hi => Finset.sum_congr rfl fun j hj => ?_
      rw [hs i (Finset.mem_range.1 hi) j (Finset.mem_range.1 hj)]
      ring
    rcases List.mem_cons.1 hd with rfl | hd'
    · refine ⟨⟨dlen_pos hB hr, dlen_pos hB hc⟩, fun t _ i hi => ?_⟩
      change (B.apply B.lo B.hi s).get t i = 0
      rw [hsum, hC.sum_hi _ hc i hi, mul_zero]
    · refine ih (B.dwt2 s).1 (dlen_pos hB hr) (dlen_pos hB hc) (fun t _ i hi => ?_) d hd'
      change (B.apply B.lo B.lo s).get t i = (B.apply B.lo B.lo s).get t 0
      obtain ⟨g, hg⟩ := hC.sum_lo
      rw [hsum, hsum, hg _ hc i hi, hg _ hc 0 (dlen_pos hB hc)]

/-- **C93** A slice without stripes (all columns equal) is returned unchanged, for every number of
levels, every damping and with or without padding. -/
theorem fw_no_stripes {B : Bank} (hB : B.Ok) (hC : B.Const) (level : Nat) (sigma : ℝ) (pad : Bool) {dx dz : Nat}
    (hx : 0 < dx) (hz : 0 < dz) {X : Nat → Nat → ℝ} {u : Nat → ℝ} (hX : ∀ t < dx, ∀ i < dz, X t i = u t) :
    ∃ Y, fwSlice B level sigma pad dx dz X = .ok Y ∧ ∀ t < dx, ∀ i < dz, Y t i = X t i := by
  refine fw_unchanged hB level sigma pad hx hz X fun d hd => ?_
  have hrow := fwShift_fits pad dx
  obtain ⟨h1, h2⟩ := decompose_equal_columns hB.two_le hC level (fwPad pad dx dz X)
    (show 0 < fwRows pad dx by omega) hz (fun t ht i hi => by
      simp only [fwPad]
      split_ifs with h
      · rw [hX _ (by omega) i hi, hX _ (by omega) 0 hz]
      · rfl) d hd
  exact dampen_zero sigma h2 h1.2

/-! ### The damping -/

theorem shiftSrc_ishiftSrc {n u : Nat} (hu : u < n) : shiftSrc n (ishiftSrc n u) = u := by
  unfold shiftSrc ishiftSrc
  rw [Nat.mod_add_mod]
  have : u + n / 2 + (n - n / 2) = u + n := by omega
  rw [this, Nat.add_mod_right, Nat.mod_eq_of_lt hu]

/-- The factor of frequency zero. -/
def fwGain (my : Nat) (sigma : ℝ) : ℝ := if my % 2 = 0 then 1 - lowGain sigma else 0

theorem fwDamp_zero {my : Nat} (h : 0 < my) (sigma : ℝ) : fwDamp my sigma (ishiftSrc my 0) = fwGain my sigma := by
  have e : ishiftSrc my 0 = my / 2 := by
    unfold ishiftSrc
    rw [Nat.zero_add, Nat.mod_eq_of_lt (by omega)]
  rw [e]
  unfold fwDamp fwGain lowGain
  simp only
  split_ifs with h2
  · have : (my : ℝ) = 2 * (my / 2 : Nat) := by
      exact_mod_cast (show my = 2 * (my / 2) by omega)
    rw [show (-(my : ℝ) + 2 * (my / 2 : Nat) + 1) / 2 = 1 / 2 by rw [← this]; ring]
    congr 3
    field_simp
    norm_num
  · have : (my : ℝ) = 2 * (my / 2 : Nat) + 1 := by
      exact_mod_cast (show my = 2 * (my / 2) + 1 by omega)
    rw [show (-(my : ℝ) + 2 * (my / 2 : Nat) + 1) / 2 = 0 by linarith]
    simp

/-- **C93** Damping works on the spectrum of each column: frequency `u` is multiplied by the entry of
`damp` at its place in the shifted order. -/
theorem dampen_column (sigma : ℝ) (v : Im) {t l : Nat} (hl : l < v.c) :
    (fwDampen sigma v).get t l = (idft v.r (fun u => dft v.r (fun t => (v.get t l : ℂ)) u *
      (fwDamp v.r sigma (ishiftSrc v.r u) : ℂ)) t).re := by
  unfold fwDampen
  simp only
  unfold idft
  congr 2
  refine Finset.sum_congr rfl fun u hu => ?_
  dsimp only
  rw [shiftSrc_ishiftSrc (Finset.mem_range.1 hu), shiftSrc_ishiftSrc hl]

theorem sum_idft {n : Nat} (hn : 0 < n) (y : Nat → ℂ) : ∑ t ∈ Finset.range n, idft n y t = y 0 := by
  unfold idft
  rw [← Finset.sum_div, Finset.sum_comm]
  have e : ∀ k ∈ Finset.range n, ∑ t ∈ Finset.range n, y k * rot n ((t : Int) * k) =
      if k = 0 then y 0 * n else 0 := by
    intro k hk
    rw [← Finset.mul_sum, Phase.sum_rot n hn]
    simp only [Phase.dvd_small n k (Finset.mem_range.1 hk)]
    split_ifs with h
    · rw [h]
    · ring
  rw [Finset.sum_congr rfl e, Finset.sum_ite_eq', if_pos (Finset.mem_range.2 hn)]
  have : (n : ℂ) ≠ 0 := by exact_mod_cast hn.ne'
  field_simp

/-- **C93** The sum of every column of details is multiplied by 0 if the number of rows is odd, and by
`1 - exp (-1 / (8 sigma²))` if it is even. -/
theorem dampen_sum (sigma : ℝ) {v : Im} (hr : 0 < v.r) {l : Nat} (hl : l < v.c) :
    ∑ t ∈ Finset.range v.r, (fwDampen sigma v).get t l = fwGain v.r sigma * ∑ t ∈ Finset.range v.r, v.get t l := by
  simp only [dampen_column sigma v hl]
  rw [← Complex.re_sum, sum_idft hr, fwDamp_zero hr, Complex.re_mul_ofReal, mul_comm]
  congr 1
  unfold dft
  rw [Complex.re_sum]
  refine Finset.sum_congr rfl fun t _ => ?_
  simp [Phase.rot_zero]

/-- **C93** A column of constant details is multiplied by that factor: removed completely only when the
number of rows is odd. -/
theorem dampen_constant (sigma : ℝ) {v : Im} (hr : 0 < v.r) {l : Nat} (hl : l < v.c) {c : ℝ}
    (hv : ∀ t < v.r, v.get t l = c) (t : Nat) : (fwDampen sigma v).get t l = fwGain v.r sigma * c := by
  rw [dampen_column sigma v hl]
  have hd : ∀ u ∈ Finset.range v.r, dft v.r (fun t => (v.get t l : ℂ)) u *
      (fwDamp v.r sigma (ishiftSrc v.r u) : ℂ) * rot v.r ((t : Int) * u) =
      if u = 0 then (c : ℂ) * v.r * (fwGain v.r sigma : ℂ) else 0 := by
    intro u hu
    have : dft v.r (fun t => (v.get t l : ℂ)) u = if u = 0 then (c : ℂ) * v.r else 0 := by
      unfold dft
      have e : ∀ j ∈ Finset.range v.r, (v.get j l : ℂ) * rot v.r (-(j * u)) = (c : ℂ) * rot v.r (j * (-(u : Int))) := by
        intro j hj
        rw [hv j (Finset.mem_range.1 hj), mul_neg]
      rw [Finset.sum_congr rfl e, ← Finset.mul_sum, Phase.sum_rot _ hr]
      simp only [dvd_neg, Phase.dvd_small v.r u (Finset.mem_range.1 hu)]
      split_ifs <;> simp
    rw [this]
    split_ifs with h
    · rw [h, fwDamp_zero hr]
      simp [Phase.rot_zero]
    · ring
  unfold idft
  rw [Finset.sum_congr rfl hd, Finset.sum_ite_eq', if_pos (Finset.mem_range.2 hr)]
  have : (v.r : ℂ) ≠ 0 := by exact_mod_cast hr.ne'
  rw [show (c : ℂ) * v.r * (fwGain v.r sigma : ℂ) / v.r = ((fwGain v.r sigma * c : ℝ) : ℂ) by
    push_cast; field_simp, Complex.ofReal_re]

/-- **C93** (what is false) Stripes are constant along the angles, so are their details; with an even
number of rows of coefficients they stay. -/
theorem dampen_even_keeps {sigma : ℝ} (hs : sigma ≠ 0) {v : Im} (hr : 0 < v.r) (he : v.r % 2 = 0) {l : Nat}
    (hl : l < v.c) {c : ℝ} (hc : c ≠ 0) (hv : ∀ t < v.r, v.get t l = c) (t : Nat) :
    (fwDampen sigma v).get t l ≠ 0 := by
  rw [dampen_constant sigma hr hl hv]
  unfold fwGain
  rw [if_pos he]
  have := lowGain_lt_one hs
  exact mul_ne_zero (by linarith) hc

/-- Pure stripes on all levels: averages of stripes are stripes, and their other details vanish. -/
theorem stripes_dwt {B : Bank} (hB : 2 ≤ B.taps) (hC : B.Const) {s : Im} (hr : 0 < s.r)
    (hs : ∀ t < s.r, ∀ i < s.c, s.get t i = s.get 0 i) :
    (∀ t < B.dlen s.r, ∀ i, (B.dwt2 s).1.get t i = (B.dwt2 s).1.get 0 i) ∧
    (∀ t < B.dlen s.r, ∀ i, (B.dwt2 s).2.2.1.get t i = (B.dwt2 s).2.2.1.get 0 i) ∧
    (∀ t < B.dlen s.r, ∀ i, (B.dwt2 s).2.1.get t i = 0) ∧
    ∀ t < B.dlen s.r, ∀ i, (B.dwt2 s).2.2.2.get t i = 0 := by
  have hsum : ∀ (f g : Nat → Nat → Nat → ℝ) (k l : Nat), (B.apply f g s).get k l =
      (∑ i ∈ Finset.range s.r, f s.r k i) * ∑ j ∈ Finset.range s.c, g s.c l j * s.get 0 j := by
    intro f g k l
    unfold Bank.apply
    dsimp only
    rw [Finset.sum_mul_sum]
    refine Finset.sum_congr rfl fun i hi => Finset.sum_congr rfl fun j hj => ?_
    rw [hs i (Finset.mem_range.1 hi) j (Finset.mem_range.1 hj)]
    ring
  obtain ⟨g, hg⟩ := hC.sum_lo
  refine ⟨fun t ht i => ?_, fun t ht i => ?_, fun t ht i => ?_, fun t ht i => ?_⟩
  · change (B.apply _ _ s).get t i = (B.apply _ _ s).get 0 i
    rw [hsum, hsum, hg _ hr t ht, hg _ hr 0 (dlen_pos hB hr)]
  · change (B.apply _ _ s).get t i = (B.apply _ _ s).get 0 i
    rw [hsum, hsum, hg _ hr t ht, hg _ hr 0 (dlen_pos hB hr)]
  · change (B.apply _ _ s).get t i = 0
    rw [hsum, hC.sum_hi _ hr t ht, zero_mul]
  · change (B.apply _ _ s).get t i = 0
    rw [hsum, hC.sum_hi _ hr t ht, zero_mul]

/-- Every level of a pure stripe image damps its details by the factor of frequency zero. -/
theorem fw_stripes {B : Bank} (hB : 2 ≤ B.taps) (hC : B.Const) (sigma : ℝ) : ∀ (level : Nat) (s : Im), 0 < s.r →
    (∀ t < s.r, ∀ i < s.c, s.get t i = s.get 0 i) →
    ∀ d ∈ (fwDecompose B level s).2, ∀ t < d.2.1.r, ∀ i < d.2.1.c,
      (fwDampen sigma d.2.1).get t i = fwGain d.2.1.r sigma * d.2.1.get t i := by
  intro level
  induction level with
  | zero => intro s _ _ d hd; exact absurd hd List.not_mem_nil
  | succ n ih =>
    intro s hr hs d hd
    obtain ⟨h1, h2, -, -⟩ := stripes_dwt hB hC hr hs
    rcases List.mem_cons.1 hd with rfl | hd'
    · intro t ht i hi
      rw [h2 t ht i]
      exact dampen_constant sigma (dlen_pos hB hr) hi (fun t ht => h2 t ht i) t
    · exact ih (B.dwt2 s).1 (dlen_pos hB hr) (fun t ht i _ => h1 t ht i) d hd'

/-- **C93** The default number of levels is the smallest `l` with `2 ^ l` at least every dimension. -/
theorem fw_level_default (a b c : Nat) :
    (a ≤ 2 ^ fwLevel (a, b, c) none ∧ b ≤ 2 ^ fwLevel (a, b, c) none ∧ c ≤ 2 ^ fwLevel (a, b, c) none) ∧
    ∀ l, a ≤ 2 ^ l → b ≤ 2 ^ l → c ≤ 2 ^ l → fwLevel (a, b, c) none ≤ l := by
  unfold fwLevel
  have h := Nat.le_pow_clog (b := 2) (by norm_num) (max a (max b c))
  refine ⟨⟨le_trans (le_max_left _ _) h, le_trans (le_trans (le_max_left _ _) (le_max_right _ _)) h,
    le_trans (le_trans (le_max_right _ _) (le_max_right _ _)) h⟩, fun l h1 h2 h3 => ?_⟩
  exact Nat.clog_le_of_le_pow (max_le h1 (max_le h2 h3))

/-- **C93** For every number of cores, chunk size and schedule, every slice of the result is the
result of that slice. -/
theorem fw_distributed {B : Bank} (hB : B.Ok) (cpu : Nat) (debug : Bool) {n dx dz : Nat} (hx : 0 < dx) (hz : 0 < dz)
    (level : Nat) (sigma : ℝ) (pad : Bool) (ncore nchunk : Option Nat) (m m' : Mproc.Cell → Nat → Nat → ℝ)
    (res : Mproc.Buf)
    (h : Mproc.DistributeJobs cpu debug
      ⟨n, [0], none, fun _ => false, removeStripeFw B level sigma pad dx dz, ncore, nchunk,
        fun _ => false⟩ (fun _ => false) m m' res) :
    ∀ s < n, fwSlice B level sigma pad dx dz (m (.caller 0, s)) = .ok (m' (res, s)) := by
  intro s hs
  have hf : Mproc.InPlaceSlicewise (removeStripeFw B level sigma pad dx dz)
      (fun row => row.map (fwOr B level sigma pad dx dz)) :=
    ⟨fun _ => rfl, fun _ => rfl, fun _ => List.length_map ..⟩
  have key := Mproc.inplace_result_partial hf (by simp) (by simp) rfl h s hs
  have key' : m' (res, s) = fwOr B level sigma pad dx dz (m (.caller 0, s)) := by simpa using key
  obtain ⟨Y, hY⟩ := fw_total hB level sigma pad hx hz (m (.caller 0, s))
  rw [key', fwOr, hY]

/-! ### An instance: the Haar wavelet -/

/-- `pywt`'s 'haar' with symmetric extension: the last sample of an odd length counts twice. -/
def haar : Bank where
  taps := 2
  lo n k j := if j = 2 * k then (if 2 * k + 1 = n then √2 else √2 / 2)
    else if j = 2 * k + 1 then √2 / 2 else 0
  hi n k j := if 2 * k + 1 = n then 0 else if j = 2 * k then √2 / 2
    else if j = 2 * k + 1 then -(√2 / 2) else 0
  rlo _ t k := if k = t / 2 then √2 / 2 else 0
  rhi _ t k := if k = t / 2 then (if t % 2 = 0 then √2 / 2 else -(√2 / 2)) else 0

theorem haar_ok : haar.Ok := by
  refine ⟨le_refl _, rfl, fun n hn t ht j hj => ?_⟩
  have h2 : √2 * √2 = (2 : ℝ) := Real.mul_self_sqrt (by norm_num)
  have hd : haar.dlen n = (n + 1) / 2 := rfl
  rw [Finset.sum_eq_single (t / 2)]
  · simp only [haar]
    rw [if_pos trivial, if_pos trivial]
    split_ifs <;> first | omega | nlinarith
  · intro k _ hk
    simp only [haar]
    rw [if_neg hk, if_neg hk]
    ring
  · intro h
    exact absurd (Finset.mem_range.2 (by rw [hd]; omega)) h

theorem haar_const : haar.Const := by
  have hd : ∀ n, haar.dlen n = (n + 1) / 2 := fun n => rfl
  have split : ∀ (n k : Nat) (a b : ℝ), 2 * k < n →
      ∑ j ∈ Finset.range n, (if j = 2 * k then a else if j = 2 * k + 1 then b else 0) =
        a + if 2 * k + 1 < n then b else 0 := by
    intro n k a b hk
    have e : ∀ j ∈ Finset.range n, (if j = 2 * k then a else if j = 2 * k + 1 then b else 0) =
        (if j = 2 * k then a else 0) + if j = 2 * k + 1 then b else 0 := by
      intro j _
      split_ifs <;> first | omega | ring
    rw [Finset.sum_congr rfl e, Finset.sum_add_distrib, Finset.sum_ite_eq', Finset.sum_ite_eq',
      if_pos (Finset.mem_range.2 hk)]
    simp only [Finset.mem_range]
  refine ⟨⟨√2, fun n hn k hk => ?_⟩, fun n hn k hk => ?_⟩
  · rw [hd] at hk
    change ∑ j ∈ Finset.range n, (if j = 2 * k then (if 2 * k + 1 = n then √2 else √2 / 2)
      else if j = 2 * k + 1 then √2 / 2 else 0) = √2
    rw [split n k _ _ (by omega)]
    split_ifs <;> first | omega | ring
  · rw [hd] at hk
    change ∑ j ∈ Finset.range n, (if 2 * k + 1 = n then 0 else if j = 2 * k then √2 / 2
      else if j = 2 * k + 1 then -(√2 / 2) else 0) = 0
    split_ifs with h
    · exact Finset.sum_const_zero
    · rw [split n k _ _ (by omega), if_pos (by omega)]
      ring

/-- Nine angles, five columns and four levels of the Haar wavelet, padded: the result exists, and a
slice without stripes is returned unchanged. -/
example (X : Nat → Nat → ℝ) : ∃ Y, fwSlice haar 4 2 true 9 5 X = .ok Y :=
  fw_total haar_ok 4 2 true (by norm_num) (by norm_num) X

example : ∃ Y, fwSlice haar 4 2 true 9 5 (fun t _ => (t : ℝ) ^ 2) = .ok Y ∧
    ∀ t < 9, ∀ i < 5, Y t i = (t : ℝ) ^ 2 :=
  fw_no_stripes haar_ok haar_const 4 2 true (by norm_num) (by norm_num) (u := fun t => (t : ℝ) ^ 2)
    fun _ _ _ _ => rfl

/-- Four rows of details 1 and `sigma = 2`: the damped details are not zero. -/
example : (fwDampen 2 ⟨4, 1, fun _ _ => 1⟩).get 0 0 ≠ 0 :=
  dampen_even_keeps (by norm_num) (by norm_num) rfl (by norm_num) one_ne_zero (fun _ _ => rfl) 0

end

end Tomopy.Stripe
