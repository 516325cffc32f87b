import Verif.Gridrec.Slices
import Verif.Gridrec.Window
import Mathlib.Data.Rat.Cast.Order

/-!
# gridrec: convolution and correction tables (C71), centre of the second slice (C70)
-/

set_option linter.unusedSectionVars false

namespace Tomopy.Gridrec

/-! ## `legendre` -/

/-- Legendre polynomials by Bonnet's recursion `j P_j = (2 j - 1) x P_(j-1) - (j - 1) P_(j-2)`. -/
def legP {K : Type} [Field K] (x : K) : Nat → K
  | 0 => 1
  | 1 => x
  | j + 2 => ((2 * ((j : K) + 2) - 1) * x * legP x (j + 1) - ((j : K) + 1) * legP x j) / ((j : K) + 2)

theorem legLoop_spec {K : Type} [Field K] [CharZero K] (coefs : Nat → K) (x : K) (cnt j : Nat)
    (y : K) :
    legLoop coefs x cnt (j + 2) (legP x j) (legP x (j + 1)) y =
      y + ∑ i ∈ Finset.range cnt,
        if (j + 2 + i) % 2 = 0 then legP x (j + 2 + i) * coefs ((j + 2 + i) / 2) else 0 := by
  induction cnt generalizing j y with
  | zero => simp [legLoop]
  | succ cnt ih =>
    have hj : ((j : K) + 2) ≠ 0 := by exact_mod_cast (show j + 2 ≠ 0 by omega)
    have e : -(2 * -(x * legP x (j + 1)) + legP x j) +
        (legP x j + -(x * legP x (j + 1))) / ((j + 2 : Nat) : K) = legP x (j + 2) := by
      rw [legP]; push_cast; field_simp; ring
    rw [legLoop]
    simp only [e]
    rw [show j + 2 + 1 = (j + 1) + 2 by ring, ih (j + 1), Finset.sum_range_succ']
    have e2 : ∀ i, j + 1 + 2 + i = j + 2 + (i + 1) := by intro i; ring
    simp only [e2, Nat.add_zero]
    split <;> ring

/-- C71: `legendre` computes the sum of `coefs(k) P_(2k)(x)` for `k = 0 .. n / 2`. -/
theorem legendre_spec {K : Type} [Field K] [CharZero K] (n : Nat) (coefs : Nat → K) (x : K) :
    legendre n coefs x = ∑ k ∈ Finset.range (n / 2 + 1), coefs k * legP x (2 * k) := by
  have h := legLoop_spec coefs x (n - 1) 0 (coefs 0)
  simp only [legP, zero_add] at h
  unfold legendre
  rw [h]
  have key : ∀ N, (∑ i ∈ Finset.range N,
      if (2 + i) % 2 = 0 then legP x (2 + i) * coefs ((2 + i) / 2) else 0) =
      ∑ k ∈ Finset.range ((N + 1) / 2), coefs (k + 1) * legP x (2 * (k + 1)) := by
    intro N
    induction N with
    | zero => simp
    | succ N ih =>
      rw [Finset.sum_range_succ, ih]
      rcases Nat.mod_two_eq_zero_or_one N with hN | hN
      · rw [if_pos (by omega), show (N + 1 + 1) / 2 = (N + 1) / 2 + 1 by omega,
          Finset.sum_range_succ, show (2 + N) / 2 = (N + 1) / 2 + 1 by omega,
          show 2 + N = 2 * ((N + 1) / 2 + 1) by omega]
        ring
      · rw [if_neg (by omega), show (N + 1 + 1) / 2 = (N + 1) / 2 by omega, add_zero]
  rw [key, Finset.sum_range_succ', show (n - 1 + 1) / 2 = n / 2 by omega]
  simp [legP, add_comm]

/-- With `nt = 20` only the eleven elements of `coefs` are read. -/
theorem legendre_reads {K : Type} [Field K] [CharZero K] (f g : Nat → K)
    (h : ∀ k < 11, f k = g k) (x : K) : legendre 20 f x = legendre 20 g x := by
  rw [legendre_spec, legendre_spec]
  refine Finset.sum_congr rfl fun k hk => ?_
  rw [h k (Finset.mem_range.1 hk)]

/-! ## The window table -/

theorem legLoop_cast (cf : Nat → ℚ) (x : ℚ) (cnt j : Nat) (a b y : ℚ) :
    ((legLoop cf x cnt j a b y : ℚ) : ℝ) =
      legLoop (fun i => (cf i : ℝ)) (x : ℝ) cnt j (a : ℝ) (b : ℝ) (y : ℝ) := by
  induction cnt generalizing j a b y with
  | zero => rfl
  | succ cnt ih =>
    rw [legLoop, legLoop]
    rw [ih]
    split <;> push_cast <;> rfl

theorem coefs_cast (i : Nat) : ((coefs i : ℚ) : ℝ) = coefs i := by
  unfold coefs
  split <;> norm_num

theorem legendre_cast (n : Nat) (x : ℚ) :
    ((legendre n coefs x : ℚ) : ℝ) = legendre n coefs (x : ℝ) := by
  unfold legendre
  rw [legLoop_cast, coefs_cast]
  simp only [coefs_cast]
  norm_num

theorem wtbl_cast (i : Nat) : ((wtbl i : ℚ) : ℝ) = wtbl i := by
  unfold wtbl
  split
  · norm_num
  · push_cast
    rw [legendre_cast, legendre_cast]
    push_cast
    rfl

theorem wtbl_ratio (i : Nat) :
    (wtbl i : ℚ) = legendre 20 coefs ((i : ℚ) / ltbl) / legendre 20 coefs 0 := by
  unfold wtbl
  split
  · rename_i h
    subst h
    have := legendre_zero_pos
    rw [Nat.cast_zero, zero_div, div_self (ne_of_gt this)]
  · rfl

theorem wtbl_step (i : Nat) (h : i < 512) : (wtbl (i + 1) : ℚ) < wtbl i := by
  rw [wtbl_ratio, wtbl_ratio]
  exact div_lt_div_of_pos_right (legendre_step i h) legendre_zero_pos

theorem wtbl_last : 0 < (wtbl 512 : ℚ) := by
  rw [wtbl_ratio]
  exact div_pos legendre_last_pos legendre_zero_pos

/-- C71: the window table decreases strictly. -/
theorem wtbl_lt {i j : Nat} (h : i < j) (hj : j ≤ 512) : (wtbl j : ℝ) < wtbl i := by
  rw [← wtbl_cast, ← wtbl_cast]
  have : (wtbl j : ℚ) < wtbl i := by
    induction j with
    | zero => omega
    | succ j ih =>
      rcases Nat.lt_or_ge i j with h' | h'
      · exact (wtbl_step j (by omega)).trans (ih h' (by omega))
      · have : i = j := by omega
        subst this
        exact wtbl_step i (by omega)
  exact_mod_cast this

/-- C71: every entry of the window table is positive, so the correction table never divides by
zero. -/
theorem wtbl_pos {i : Nat} (h : i ≤ 512) : 0 < (wtbl i : ℝ) := by
  have h5 : 0 < (wtbl 512 : ℝ) := by rw [← wtbl_cast]; exact_mod_cast wtbl_last
  rcases Nat.lt_or_ge i 512 with h' | h'
  · exact h5.trans (wtbl_lt h' (le_refl _))
  · have : i = 512 := by omega
    subst this; exact h5

/-! ## The correction -/

/-- The window at a distance of `d` pixels, as tabulated. -/
noncomputable def window (pd : Nat) (d : Nat) : ℝ :=
  wtbl (roundf ((d : ℝ) * ((ltbl : ℝ) / (((pd / 2 - 1 : Nat) : ℝ) + 1 / 2)))).toNat

/-- The position of output index `j` relative to the rotation axis, the origin of the transform. -/
def axisOffset (pd n : Nat) (j : Nat) : Int := (j : Int) - offset pd n

/-- The transform index of output `j` is its position relative to the axis, modulo `pdim`. -/
theorem wrapIdx_axis (pd n j : Nat) :
    ∃ t : Int, wrapIdx pd n j = axisOffset pd n j + t * pd := by
  unfold wrapIdx axisOffset
  split
  · exact ⟨1, by ring⟩
  · exact ⟨0, by ring⟩

theorem corr_eq (m n j : Nat) (hm : 1 ≤ m) :
    corr (2 * m) n j = (-1) ^ (axisOffset (2 * m) n j + 1).natAbs * pswfNorm /
      window (2 * m) (axisOffset (2 * m) n j + 1).natAbs := by
  unfold corr winv window
  have e : (j : Int) + pad (2 * m) n - ((2 * m / 2 - 1 : Nat) : Int) =
      axisOffset (2 * m) n j + 1 := by
    unfold axisOffset offset
    omega
  simp only [e]

theorem pswfNorm_pos : 0 < pswfNorm := by
  unfold pswfNorm
  have := Real.pi_pos
  positivity

theorem window_pos (pd : Nat) (d : Nat) (hd : d ≤ pd / 2 - 1) : 0 < window pd d := by
  have := pswf_index (linv := pd / 2 - 1) (i := d) hd
  refine wtbl_pos ?_
  have h2 := this.2
  simp only [ltbl] at h2 ⊢
  omega

/-- C71 (part): the factor applied to a pixel at position `(d, e)` relative to the rotation axis has
the checkerboard sign `(-1)^(d + e)` and the reciprocal of the window at distance `|d + 1|`,
`|e + 1|`.  Missing for the full property: the distances should be `|d|`, `|e|`
(`correction_asymmetric`). -/
theorem correction_partial (m nx ny j k : Nat) (hm : 1 ≤ m) :
    corr (2 * m) ny j * corr (2 * m) nx k =
      (-1) ^ (axisOffset (2 * m) ny j + axisOffset (2 * m) nx k).natAbs * pswfNorm ^ 2 /
        (window (2 * m) (axisOffset (2 * m) ny j + 1).natAbs *
          window (2 * m) (axisOffset (2 * m) nx k + 1).natAbs) := by
  rw [corr_eq m ny j hm, corr_eq m nx k hm]
  have e : ∀ a b : Int, (-1 : ℝ) ^ (a + 1).natAbs * (-1) ^ (b + 1).natAbs = (-1) ^ (a + b).natAbs := by
    intro a b
    rw [← pow_add]
    rw [neg_one_pow_eq_pow_mod_two, neg_one_pow_eq_pow_mod_two (n := (a + b).natAbs)]
    congr 1
    omega
  rw [div_mul_div_comm, ← e (axisOffset (2 * m) ny j) (axisOffset (2 * m) nx k)]
  congr 1
  generalize (-1 : ℝ) ^ (axisOffset (2 * m) ny j + 1).natAbs = a
  generalize (-1 : ℝ) ^ (axisOffset (2 * m) nx k + 1).natAbs = b
  ring

/-- C71 is false of the code: for every detector up to 1024 pixels and every `d >= 1`, the pixels at
positions `d` and `-d` from the rotation axis get factors of different magnitude. -/
theorem correction_asymmetric (m n : Nat) (hm : 8 ≤ m) (hm2 : m ≤ 512) (j1 j2 d : Nat) (hd : 1 ≤ d)
    (hdm : d + 1 ≤ m - 1) (h1 : axisOffset (2 * m) n j1 = d) (h2 : axisOffset (2 * m) n j2 = -d) :
    |corr (2 * m) n j1| ≠ |corr (2 * m) n j2| := by
  rw [corr_eq m n j1 (by omega), corr_eq m n j2 (by omega), h1, h2]
  have n1 : ((d : Int) + 1).natAbs = d + 1 := by omega
  have n2 : (-(d : Int) + 1).natAbs = d - 1 := by omega
  rw [n1, n2]
  have p1 : 0 < window (2 * m) (d + 1) := window_pos _ _ (by omega)
  have p2 : 0 < window (2 * m) (d - 1) := window_pos _ _ (by omega)
  have hlt : window (2 * m) (d + 1) < window (2 * m) (d - 1) := by
    unfold window
    have e : 2 * m / 2 - 1 = m - 1 := by omega
    rw [e]
    set f : ℝ := (ltbl : ℝ) / (((m - 1 : Nat) : ℝ) + 1 / 2) with hf
    have hmR : ((m - 1 : Nat) : ℝ) = (m : ℝ) - 1 := by
      rw [Nat.cast_sub (by omega)]; norm_num
    have hm2' : (m : ℝ) ≤ 512 := by exact_mod_cast hm2
    have hm1' : (8 : ℝ) ≤ m := by exact_mod_cast hm
    have hf1 : 1 ≤ f := by
      rw [hf, le_div_iff₀ (by rw [hmR]; linarith), hmR]
      norm_num [ltbl]; linarith
    have hb := pswf_index (linv := m - 1) (i := d + 1) (by omega)
    have ha := pswf_index (linv := m - 1) (i := d - 1) (by omega)
    rw [← hf] at hb ha
    refine wtbl_lt ?_ ?_
    · have hstep : roundf (((d - 1 : Nat) : ℝ) * f) + 1 ≤ roundf (((d + 1 : Nat) : ℝ) * f) := by
        unfold roundf
        rw [← Int.floor_add_one]
        refine Int.floor_mono ?_
        rw [Nat.cast_sub hd]
        push_cast
        nlinarith
      omega
    · have := hb.2
      simp only [ltbl] at this
      omega
  rw [abs_div, abs_div, abs_mul, abs_mul, abs_pow, abs_pow, abs_neg, abs_one, one_pow, one_pow,
    abs_of_pos p1, abs_of_pos p2, one_mul, abs_of_pos pswfNorm_pos]
  intro h
  have := div_lt_div_of_pos_left pswfNorm_pos p1 hlt
  exact absurd h (ne_of_gt this)

/-- A 15 pixel detector: columns 9 and 7 lie at distance one from the axis (column 8). -/
example : pdim 15 = 2 * 8 ∧ axisOffset 16 15 9 = (1 : Nat) ∧ axisOffset 16 15 7 = -(1 : Nat) := by
  refine ⟨by simp [pdim, pdimFrom], by decide, by decide⟩

/-! ## The second slice of a pair uses the wrong centre -/

/-- A one-pixel detector, one projection at angle zero, a filter passing only the lowest frequency
and a 2 x 2 grid. -/
noncomputable def demoCall : Call where
  dt := 1
  dx := 1
  ngx := 2
  ngy := 2
  theta := fun _ => 0
  filt := fun _ j => if j = 1 then 1 else 0

theorem demo_wsum : ∃ A : ℝ, 0 < A ∧ wsum 16 1 0 1 0 0 = A := by
  refine ⟨(wtbl 512 + wtbl 256 + wtbl 0 + wtbl 256 + wtbl 512) ^ 2, ?_, ?_⟩
  · have h1 := wtbl_pos (i := 512) (by norm_num)
    have h2 := wtbl_pos (i := 256) (by norm_num)
    have h3 := wtbl_pos (i := 0) (by norm_num)
    positivity
  · have r2 : ⌊(1 : ℝ) / 2⌋ = 0 := by rw [Int.floor_eq_iff]; norm_num
    have r3 : ⌊(256 : ℝ) + 1 / 2⌋ = 256 := by rw [Int.floor_eq_iff]; norm_num
    have r4 : ⌊(512 : ℝ) + 1 / 2⌋ = 512 := by rw [Int.floor_eq_iff]; norm_num
    have b1 : box 16 ((1 : Nat) * (1 : ℝ) + (16 / 2 : Nat)) = (7, 11) := by
      have e1 : ⌈((1 : Nat) : ℝ) * 1 + ((16 / 2 : Nat) : ℝ) - (bigL2 : ℝ)⌉ = 7 := by
        norm_num [bigL2]
      have e2 : ⌊((1 : Nat) : ℝ) * 1 + ((16 / 2 : Nat) : ℝ) + (bigL2 : ℝ)⌋ = 11 := by
        norm_num [bigL2]
      unfold box
      rw [e1, e2]; norm_num
    have b2 : box 16 ((1 : Nat) * (0 : ℝ) + (16 / 2 : Nat)) = (6, 10) := by
      have e1 : ⌈((1 : Nat) : ℝ) * 0 + ((16 / 2 : Nat) : ℝ) - (bigL2 : ℝ)⌉ = 6 := by
        norm_num [bigL2]
      have e2 : ⌊((1 : Nat) : ℝ) * 0 + ((16 / 2 : Nat) : ℝ) + (bigL2 : ℝ)⌋ = 10 := by
        norm_num [bigL2]
      unfold box
      rw [e1, e2]; norm_num
    unfold wsum
    simp only [b1, b2]
    have i1 : intRange 7 11 = [7, 8, 9, 10, 11] := by decide
    have i2 : intRange 6 10 = [6, 7, 8, 9, 10] := by decide
    rw [i1, i2]
    have hp : ∀ a b, ph 16 0 0 a b = 1 := by intro a b; simp [ph]
    have q : ∀ (x y : ℝ) (n : Nat), |x - y| * (tblspcg : ℝ) = n →
        (roundf (|x - y| * tblspcg)).toNat = n := by
      intro x y n h
      rw [h]
      unfold roundf
      have : ⌊(n : ℝ) + 1 / 2⌋ = (n : Int) := by
        rw [Int.floor_eq_iff]; push_cast; constructor <;> linarith
      rw [this]; simp
    have t : (tblspcg : ℝ) = 256 := by norm_num [tblspcg, ltbl, bigL]
    simp only [hp, mul_one, List.map_cons, List.map_nil, List.sum_cons, List.sum_nil]
    rw [q (((1 : Nat) : ℝ) + ((16 / 2 : Nat) : ℝ)) ((7 : Int) : ℝ) 512 (by rw [t]; norm_num),
      q (((1 : Nat) : ℝ) + ((16 / 2 : Nat) : ℝ)) ((8 : Int) : ℝ) 256 (by rw [t]; norm_num),
      q (((1 : Nat) : ℝ) + ((16 / 2 : Nat) : ℝ)) ((9 : Int) : ℝ) 0 (by rw [t]; norm_num),
      q (((1 : Nat) : ℝ) + ((16 / 2 : Nat) : ℝ)) ((10 : Int) : ℝ) 256 (by rw [t]; norm_num),
      q (((1 : Nat) : ℝ) + ((16 / 2 : Nat) : ℝ)) ((11 : Int) : ℝ) 512 (by rw [t]; norm_num),
      q (((1 : Nat) : ℝ) * 0 + ((16 / 2 : Nat) : ℝ)) ((6 : Int) : ℝ) 512 (by rw [t]; norm_num),
      q (((1 : Nat) : ℝ) * 0 + ((16 / 2 : Nat) : ℝ)) ((7 : Int) : ℝ) 256 (by rw [t]; norm_num),
      q (((1 : Nat) : ℝ) * 0 + ((16 / 2 : Nat) : ℝ)) ((8 : Int) : ℝ) 0 (by rw [t]; norm_num),
      q (((1 : Nat) : ℝ) * 0 + ((16 / 2 : Nat) : ℝ)) ((9 : Int) : ℝ) 256 (by rw [t]; norm_num),
      q (((1 : Nat) : ℝ) * 0 + ((16 / 2 : Nat) : ℝ)) ((10 : Int) : ℝ) 512 (by rw [t]; norm_num)]
    push_cast
    ring

theorem demo_value : ∃ B : ℝ, 0 < B ∧ ∀ x : ℝ,
    gridrec demoCall 1 (fun _ _ _ => 1) (fun _ => x) 0 0 1 = B * Real.cos (Real.pi * x / 8) := by
  obtain ⟨A, hA, hw⟩ := demo_wsum
  have hpd : pdim demoCall.dx = 2 * 8 := by simp [demoCall, pdim, pdimFrom]
  have hc : corr (2 * 8) 2 1 ≠ 0 := by
    rw [corr_eq 8 2 1 (by norm_num)]
    have e : axisOffset (2 * 8) 2 1 = 0 := by decide
    rw [e]
    have := window_pos (2 * 8) (0 + 1 : Int).natAbs (by decide)
    have := pswfNorm_pos
    positivity
  refine ⟨corr (2 * 8) 2 1 * corr (2 * 8) 2 1 * (2 * (A * (Real.pi / 16))), ?_, ?_⟩
  · have h1 : 0 < corr (2 * 8) 2 1 * corr (2 * 8) 2 1 := mul_self_pos.2 hc
    have := Real.pi_pos
    positivity
  intro x
  unfold gridrec
  simp only [Nat.zero_div, Nat.mul_zero, zero_add, lt_irrefl, if_false, Nat.zero_mod, if_true]
  rw [dft2_pairH]
  simp only [hpd]
  have w1 : wrapIdx (2 * 8) demoCall.ngy 1 = 0 := by decide
  have w2 : wrapIdx (2 * 8) demoCall.ngx (demoCall.ngx - 1 - 0) = 0 := by decide
  rw [w1, w2]
  have hr : List.range demoCall.dt = [0] := rfl
  have hr2 : List.range' 1 (2 * 8 / 2 - 1) = [1, 2, 3, 4, 5, 6, 7] := by decide
  have hth : demoCall.theta 0 = 0 := rfl
  have hdt : demoCall.dt = 1 := rfl
  have hf : ∀ j, j ≠ 1 → filphase (2 * 8) 1 (demoCall.filt 0) x j = 0 := by
    intro j hj
    unfold filphase
    simp [demoCall, hj]
  have hb : ∀ k, dftBack (2 * 8) (sinoRow demoCall.dx (fun _ => 1) fun _ => 0) k = 1 := by
    intro k
    unfold dftBack
    rw [Finset.sum_eq_single 0]
    · simp [sinoRow, demoCall]
    · intro j _ hj
      have : ¬ j < demoCall.dx := by simp only [demoCall]; omega
      simp [sinoRow, this]
    · simp
  rw [hr, hr2, hdt]
  simp only [List.map_cons, List.map_nil, List.sum_cons, List.sum_nil, hth, Real.cos_zero,
    Real.sin_zero, hb, mul_one, add_zero]
  rw [hf 2 (by norm_num), hf 3 (by norm_num), hf 4 (by norm_num), hf 5 (by norm_num),
    hf 6 (by norm_num), hf 7 (by norm_num)]
  have hw' : wsum (2 * 8) 1 0 1 0 0 = A := hw
  rw [hw']
  have hfil : filphase (2 * 8) 1 (demoCall.filt 0) x 1 =
      ((Real.cos (Real.pi * x / 8) : ℂ) - Complex.I * (Real.sin (Real.pi * x / 8) : ℂ)) *
        ((Real.pi / 16 : ℝ) : ℂ) := by
    unfold filphase
    have e : ((1 : Nat) : ℝ) * (2 * Real.pi * x / ((2 * 8 : Nat) : ℝ)) = Real.pi * x / 8 := by
      push_cast; ring
    simp only [e]
    have e2 : Real.pi / ((2 * 8 : Nat) : ℝ) / ((1 : Nat) : ℝ) = Real.pi / 16 := by
      push_cast; ring
    rw [e2]
    simp [demoCall]
  rw [hfil]
  simp only [mul_zero, map_zero, add_zero, map_mul, map_sub, Complex.conj_ofReal, Complex.conj_I]
  generalize Real.cos (Real.pi * x / 8) = cc
  generalize Real.sin (Real.pi * x / 8) = ss
  simp [demoCall]
  ring

/-- C70 is false of the code: two slices with centres 0 and 8; the second is not what it is when
reconstructed alone with its own centre. -/
theorem gridrec_second_centre_wrong :
    gridrec demoCall 2 (fun _ _ _ => 1) (fun s => if s = 0 then 0 else 8) 1 0 1 ≠
      gridrec demoCall 1 (fun _ _ _ => 1) (fun _ => 8) 0 0 1 := by
  rw [gridrec_slices_partial _ _ _ _ _ _ _ (by norm_num)]
  obtain ⟨B, hB, h⟩ := demo_value
  simp only [Nat.reduceDiv, Nat.mul_zero, if_true]
  rw [h 0, h 8]
  have e : Real.pi * 8 / 8 = Real.pi := by ring
  rw [mul_zero, zero_div, Real.cos_zero, e, Real.cos_pi]
  intro h
  linarith

end Tomopy.Gridrec
