import Verif.Fl.NormModel
import Mathlib.Tactic.Linarith
import Mathlib.Tactic.FieldSimp
import Mathlib.Algebra.BigOperators.Group.List.Basic
import Mathlib.Algebra.Order.BigOperators.Group.List

/-!
# `normalize` of detector counts in `float` arithmetic (C178, C179)
-/

set_option linter.unusedSectionVars false

namespace Tomopy.Fl

/-! ## Rounding -/

theorem abs_fl_le (x : ℚ) : |fl x| ≤ |x| + |x| / 2 ^ 24 + 1 / 2 ^ 150 := by
  have h := fl_rel x
  have : |fl x| ≤ |fl x - x| + |x| := by
    calc |fl x| = |(fl x - x) + x| := by ring_nf
      _ ≤ _ := abs_add_le _ _
  linarith

theorem round_fin {x : ℚ} (h : |x| ≤ 2 ^ 126) : F32.round x = .fin (fl x) := by
  unfold F32.round
  rw [if_pos]
  have h1 := abs_fl_le x
  have h2 : (1 : ℚ) / 2 ^ 150 ≤ 1 := by norm_num
  have h3 : |x| / 2 ^ 24 ≤ |x| := div_le_self (abs_nonneg x) (by norm_num)
  have h4 : (2 : ℚ) ^ 126 + 2 ^ 126 + 1 < 2 ^ 128 := by norm_num
  linarith

/-- Every `float` is a multiple of a power of two with at most 24 bits. -/
theorem fl_form (x : ℚ) : ∃ (k e : ℤ), fl x = k * 2 ^ e ∧ |k| ≤ 2 ^ 24 := by
  refine ⟨rne (x / 2 ^ ulpExp x), ulpExp x, rfl, ?_⟩
  have hp := two_zpow_pos (ulpExp x)
  have h := abs_lt_ulp x
  rw [pow_split] at h
  have h2 : |x / 2 ^ ulpExp x| ≤ 2 ^ 24 := by
    rw [abs_div, abs_of_pos hp, div_le_iff₀ hp]
    have : (2 : ℚ) ^ (24 : ℤ) = 2 ^ 24 := by norm_num
    rw [this] at h
    linarith
  rw [abs_le] at h2 ⊢
  constructor
  · exact le_rne (by push_cast; exact h2.1)
  · exact rne_le (by push_cast; exact h2.2)

/-! ## Sums and averages -/

/-- The exact sum of the frames. -/
def SumTree.total (t : SumTree) : ℚ := t.frames.sum

theorem SumTree.frames_ne (t : SumTree) : 0 < t.frames.length := by
  induction t with
  | leaf x => simp [frames]
  | node l r hl hr => simp [frames]; omega

/-- The frames hold counts up to `M`. -/
def Counts (M : ℕ) (t : SumTree) : Prop := ∀ x ∈ t.frames, ∃ k : ℕ, k ≤ M ∧ x = k

theorem total_nat {M : ℕ} {t : SumTree} (h : Counts M t) :
    ∃ n : ℕ, t.total = n ∧ n ≤ t.frames.length * M := by
  unfold SumTree.total
  unfold Counts at h
  generalize t.frames = l at h
  induction l with
  | nil => exact ⟨0, by simp, by simp⟩
  | cons x l ih =>
    obtain ⟨k, hk, hx⟩ := h x (by simp)
    obtain ⟨n, hn, hle⟩ := ih fun y hy => h y (by simp [hy])
    refine ⟨k + n, by simp [hx, hn], ?_⟩
    rw [List.length_cons, Nat.succ_mul]
    omega

/-- Sums of counts up to `2²⁴` are exact in every order. -/
theorem sum_exact {M : ℕ} (t : SumTree) (h : Counts M t) (hs : t.total ≤ 2 ^ 24) :
    t.sumF = .fin t.total := by
  induction t with
  | leaf x => simp [SumTree.sumF, SumTree.total, SumTree.frames]
  | node l r hl hr =>
    have h1 : Counts M l := fun x hx => h x (by simp [SumTree.frames, hx])
    have h2 : Counts M r := fun x hx => h x (by simp [SumTree.frames, hx])
    have e : (SumTree.node l r).total = l.total + r.total := by
      simp [SumTree.total, SumTree.frames]
    obtain ⟨n1, e1, -⟩ := total_nat h1
    obtain ⟨n2, e2, -⟩ := total_nat h2
    rw [e, e1, e2] at hs
    have hb : n1 + n2 ≤ 2 ^ 24 := by exact_mod_cast hs
    have p1 : (0 : ℚ) ≤ n1 := Nat.cast_nonneg _
    have p2 : (0 : ℚ) ≤ n2 := Nat.cast_nonneg _
    have i1 := hl h1 (by rw [e1]; linarith)
    have i2 := hr h2 (by rw [e2]; linarith)
    rw [SumTree.sumF, i1, i2, e, e1, e2, F32.add]
    rw [round_fin (by rw [abs_of_nonneg (by linarith)]; linarith [show (2:ℚ)^24 ≤ 2^126 by norm_num])]
    have := fl_int (m := ((n1 + n2 : ℕ) : ℤ)) (by rw [abs_of_nonneg (by positivity)]; exact_mod_cast hb)
    push_cast at this
    rw [this]

/-- The average of counts that sum to `2²⁴` at most: one rounding of the quotient. -/
theorem mean_rounded {M : ℕ} {r : ℚ → ℚ} (hr : Before r) (t : SumTree) (h : Counts M t)
    (hs : t.total ≤ 2 ^ 24) :
    meanF r t = .fin (fl (r (t.total / t.frames.length))) := by
  unfold meanF
  rw [sum_exact t h hs]
  dsimp only
  obtain ⟨n, e, -⟩ := total_nat h
  have hl : (1 : ℚ) ≤ t.frames.length := by exact_mod_cast t.frames_ne
  have h0 : 0 ≤ t.total / t.frames.length := by rw [e]; positivity
  have h1 : t.total / t.frames.length ≤ 2 ^ 24 := by
    rw [div_le_iff₀ (by linarith)]
    nlinarith
  have b0 : 0 ≤ r (t.total / t.frames.length) := by
    have := hr.mono _ _ h0
    have z := hr.exact 0 (by norm_num)
    push_cast at z
    linarith
  have b1 : r (t.total / t.frames.length) ≤ 2 ^ 24 := by
    have := hr.mono _ _ h1
    have z := hr.exact (2 ^ 24) (by norm_num)
    push_cast at z
    linarith
  rw [round_fin]
  rw [abs_of_nonneg b0]
  exact b1.trans (by norm_num)

/-- The average of counts up to `M` is a finite number between 0 and `M`, and its error is not more
than a rounding. -/
theorem mean_accurate {M : ℕ} (hM : M ≤ 2 ^ 24) {r : ℚ → ℚ} (hr : Before r) (t : SumTree)
    (h : Counts M t) (hs : t.total ≤ 2 ^ 24) :
    ∃ D, meanF r t = .fin D ∧ 0 ≤ D ∧ D ≤ M ∧ 0 ≤ t.total / t.frames.length ∧
      t.total / t.frames.length ≤ M ∧
      |D - t.total / t.frames.length| ≤ M / 2 ^ 24 + M / 2 ^ 52 + 1 / 2 ^ 149 := by
  obtain ⟨n, e, hn⟩ := total_nat h
  have hl : (1 : ℚ) ≤ t.frames.length := by exact_mod_cast t.frames_ne
  have h0 : 0 ≤ t.total / t.frames.length := by rw [e]; positivity
  have h1 : t.total / t.frames.length ≤ M := by
    rw [div_le_iff₀ (by linarith), e]
    have : (n : ℚ) ≤ (t.frames.length * M : ℕ) := by exact_mod_cast hn
    push_cast at this
    linarith
  set x := t.total / t.frames.length with hx
  have b0 : 0 ≤ r x := by
    have := hr.mono _ _ h0
    have z := hr.exact 0 (by norm_num)
    push_cast at z
    linarith
  have b1 : r x ≤ M := by
    have := hr.mono _ _ h1
    have z := hr.exact M (by rw [abs_of_nonneg (by positivity)]; exact_mod_cast hM)
    push_cast at z
    linarith
  refine ⟨_, mean_rounded hr t h hs, fl_nonneg b0, ?_, h0, h1, ?_⟩
  · exact fl_le_int (m := M) (by rw [abs_of_nonneg (by positivity)]; exact_mod_cast hM)
      (by push_cast; exact b1)
  · have e1 := fl_rel (r x)
    have e2 := hr.near x
    rw [abs_of_nonneg b0] at e1
    rw [abs_of_nonneg h0] at e2
    have tri : |fl (r x) - x| ≤ |fl (r x) - r x| + |r x - x| := abs_sub_le _ _ _
    have k1 : r x / 2 ^ 24 ≤ M / 2 ^ 24 := by gcongr
    have k2 : x / 2 ^ 53 ≤ M / 2 ^ 53 := by gcongr
    have k3 : (M : ℚ) / 2 ^ 53 ≤ M / 2 ^ 52 := by
      apply div_le_div_of_nonneg_left (by positivity) (by norm_num) (by norm_num)
    have k4 : (1 : ℚ) / 2 ^ 150 + 1 / 2 ^ 200 ≤ 1 / 2 ^ 149 := by norm_num
    linarith

theorem total_equal {t : SumTree} {v : ℚ} (h : ∀ x ∈ t.frames, x = v) :
    t.total = t.frames.length * v := by
  unfold SumTree.total
  rw [List.eq_replicate_of_mem h]
  simp

/-- **C179, where it holds.**  Equal frames average to that frame if their sum is `2²⁴` at most, in
whatever order they are added. -/
theorem equal_frames_partial {r : ℚ → ℚ} (hr : Before r) (t : SumTree) (v : ℕ)
    (h : ∀ x ∈ t.frames, x = v) (hs : t.frames.length * v ≤ 2 ^ 24) : meanF r t = .fin v := by
  have ht := total_equal h
  have hc : Counts v t := fun x hx => ⟨v, le_refl _, h x hx⟩
  have hl : 1 ≤ t.frames.length := t.frames_ne
  have hb : (t.frames.length : ℚ) * v ≤ 2 ^ 24 := by exact_mod_cast hs
  rw [mean_rounded hr t hc (by rw [ht]; exact hb), ht]
  have hl' : (t.frames.length : ℚ) ≠ 0 := by
    have : (1 : ℚ) ≤ t.frames.length := by exact_mod_cast hl
    linarith
  rw [mul_div_cancel_left₀ _ hl']
  have hv : |(v : ℤ)| ≤ 2 ^ 24 := by
    rw [abs_of_nonneg (by positivity)]
    have : v ≤ t.frames.length * v := Nat.le_mul_of_pos_left _ hl
    exact_mod_cast this.trans hs
  have e1 := hr.exact v hv
  have e2 := fl_int hv
  push_cast at e1 e2
  rw [e1, e2]

/-- So 256 frames of 16 bits are averaged exactly. -/
theorem equal_frames_256 {r : ℚ → ℚ} (hr : Before r) (t : SumTree) (v : ℕ) (hv : v < 2 ^ 16)
    (h : ∀ x ∈ t.frames, x = v) (hs : t.frames.length ≤ 256) : meanF r t = .fin v :=
  equal_frames_partial hr t v h (by
    calc t.frames.length * v ≤ 256 * 2 ^ 16 := Nat.mul_le_mul hs hv.le
      _ = _ := by norm_num)

/-- No `float` is nearer than 1 to an odd integer above `2²⁴`. -/
theorem fl_odd_far (x : ℚ) (m : ℤ) (hm : 2 ^ 24 < m) (hodd : m % 2 = 1) : 1 ≤ |fl x - m| := by
  obtain ⟨k, e, hk, hb⟩ := fl_form x
  rw [hk]
  rcases le_or_gt e 0 with he | he
  · have h1 : (2 : ℚ) ^ e ≤ 1 := zpow_le_one_of_nonpos₀ (by norm_num) he
    have hp := two_zpow_pos e
    have h2 : (k : ℚ) * 2 ^ e ≤ 2 ^ 24 := by
      have : (|k| : ℚ) ≤ 2 ^ 24 := by exact_mod_cast hb
      have hk' := le_abs_self (k : ℚ)
      nlinarith
    have h3 : (2 ^ 24 + 1 : ℚ) ≤ m := by exact_mod_cast hm
    rw [abs_sub_comm]
    refine le_trans ?_ (le_abs_self _)
    linarith
  · obtain ⟨j, rfl⟩ : ∃ j : ℕ, e = (j : ℤ) + 1 := ⟨(e - 1).toNat, by omega⟩
    have : (k : ℚ) * 2 ^ ((j : ℤ) + 1) - m = ((k * 2 ^ (j + 1) - m : ℤ) : ℚ) := by
      push_cast
      rw [← zpow_natCast]
      push_cast
      rfl
    rw [this]
    have hne : (k * 2 ^ (j + 1) - m : ℤ) ≠ 0 := by
      intro h0
      rw [pow_succ] at h0
      have : m = 2 * (k * 2 ^ j) := by linarith
      omega
    have : (1 : ℤ) ≤ |k * 2 ^ (j + 1) - m| := Int.one_le_abs hne
    exact_mod_cast this

/-- **C179 is refuted.**  257 frames of 65535 counts, the largest value of 16 bits, do not average to
65535, in whatever order they are added. -/
theorem equal_frames_257 {r : ℚ → ℚ} (hr : Before r) (t : SumTree)
    (h : ∀ x ∈ t.frames, x = 65535) (hn : t.frames.length = 257) : meanF r t ≠ .fin 65535 := by
  unfold meanF
  cases hs : t.sumF with
  | inf s => simp
  | nan => simp
  | fin S =>
    dsimp only
    have hfar : 1 ≤ |S - (16842495 : ℤ)| := by
      cases t with
      | leaf x => simp [SumTree.frames] at hn
      | node a b =>
        rw [SumTree.sumF] at hs
        have : ∃ x, S = fl x := by
          cases ha : a.sumF with
          | fin p =>
            cases hb : b.sumF with
            | fin q =>
              rw [ha, hb] at hs
              simp only [F32.add, F32.round] at hs
              split at hs
              · exact ⟨_, by injection hs with h; exact h.symm⟩
              · cases hs
            | inf _ => rw [ha, hb] at hs; cases hs
            | nan => rw [ha, hb] at hs; cases hs
          | inf u =>
            cases hb : b.sumF with
            | fin q => rw [ha, hb] at hs; cases hs
            | inf w =>
              rw [ha, hb] at hs
              simp only [F32.add] at hs
              split at hs <;> cases hs
            | nan => rw [ha, hb] at hs; cases hs
          | nan =>
            cases hb : b.sumF with
            | fin q => rw [ha, hb] at hs; cases hs
            | inf _ => rw [ha, hb] at hs; cases hs
            | nan => rw [ha, hb] at hs; cases hs
        obtain ⟨x, rfl⟩ := this
        exact fl_odd_far x 16842495 (by norm_num) (by norm_num)
    rw [hn]
    intro heq
    unfold F32.round at heq
    split at heq
    · injection heq with heq
      set y := S / ((257 : ℕ) : ℚ) with hy
      have hyfar : 1 / 257 ≤ |y - 65535| := by
        have : y - 65535 = (S - (16842495 : ℤ)) / 257 := by rw [hy]; push_cast; field_simp; ring
        rw [this, abs_div, abs_of_pos (by norm_num : (0:ℚ) < 257)]
        gcongr
      set z := r y with hz
      have hlt : |z| < 65536 := by
        rw [abs_lt]
        constructor
        · by_contra hcon
          push Not at hcon
          have := fl_le_int (x := z) (m := -65536) (by norm_num) (by push_cast; exact hcon)
          rw [heq] at this
          norm_num at this
        · by_contra hcon
          push Not at hcon
          have := int_le_fl (x := z) (m := 65536) (by norm_num) (by push_cast; exact hcon)
          rw [heq] at this
          norm_num at this
      have hulp : ulpExp z ≤ -8 := by
        unfold ulpExp
        have : Int.log 2 |z| ≤ 15 := by
          rcases eq_or_ne z 0 with h0 | h0
          · rw [h0]; simp
          · have := (Int.lt_zpow_iff_log_lt (b := 2) (by norm_num) (abs_pos.2 h0) (x := 16)).1
              (by norm_num; exact hlt)
            omega
        omega
      have herr := fl_err z
      rw [heq] at herr
      have hp : (2 : ℚ) ^ ulpExp z ≤ 2 ^ (-8 : ℤ) := zpow_le_zpow_right₀ (by norm_num) hulp
      have hp' : (2 : ℚ) ^ (-8 : ℤ) = 1 / 256 := by norm_num
      rw [hp'] at hp
      have hnear := hr.near y
      rw [← hz] at hnear
      have hyz : |y| ≤ |z| + |z - y| := by
        calc |y| = |z - (z - y)| := by ring_nf
          _ ≤ _ := abs_sub _ _
      have t1 : |z - y| ≤ 1 / 2 ^ 30 := by
        have : |y| ≤ 2 ^ 17 := by
          have h53 : |y| / 2 ^ 53 ≤ |y| / 2 := by
            apply div_le_div_of_nonneg_left (abs_nonneg _) (by norm_num) (by norm_num)
          have : (1 : ℚ) / 2 ^ 200 ≤ 1 := by norm_num
          linarith
        have h2 : |y| / 2 ^ 53 ≤ 2 ^ 17 / 2 ^ 53 := by gcongr
        have h3 : (2 : ℚ) ^ 17 / 2 ^ 53 + 1 / 2 ^ 200 ≤ 1 / 2 ^ 30 := by norm_num
        linarith
      have tri : |y - 65535| ≤ |z - y| + |65535 - z| := by
        calc |y - 65535| = |-(z - y) - (65535 - z)| := by ring_nf
          _ ≤ |-(z - y)| + |65535 - z| := abs_sub _ _
          _ = _ := by rw [abs_neg]
      have : (1 : ℚ) / 2 ^ 30 + 1 / 256 / 2 < 1 / 257 := by norm_num
      linarith
    · cases heq

/-! ## The pixels -/

theorem lF_bounds : 9 / 10000000 ≤ lF ∧ lF ≤ 2 / 1000000 := by
  have h := fl_rel (1 / 1000000)
  rw [abs_of_pos (show (0 : ℚ) < 1 / 1000000 by norm_num), abs_le] at h
  have : (1 : ℚ) / 1000000 / 2 ^ 24 + 1 / 2 ^ 150 ≤ 1 / 10000000 := by norm_num
  unfold lF
  constructor <;> linarith [h.1, h.2]

/-- What `normalize` divides by. -/
def denQ (F D : ℚ) : ℚ := max (fl (F - D)) lF

theorem denQ_pos (F D : ℚ) : 0 < denQ F D :=
  lt_of_lt_of_le (by linarith [lF_bounds.1]) (le_max_right _ _)

theorem sub_fin {a D : ℚ} {M : ℕ} (hM : M ≤ 2 ^ 24) (ha : 0 ≤ a ∧ a ≤ M) (hD : 0 ≤ D ∧ D ≤ M) :
    F32.sub (.fin a) (.fin D) = .fin (fl (a - D)) ∧ |fl (a - D)| ≤ M := by
  have hM' : (M : ℚ) ≤ 2 ^ 24 := by exact_mod_cast hM
  have hmz : |(M : ℤ)| ≤ 2 ^ 24 := by rw [abs_of_nonneg (by positivity)]; exact_mod_cast hM
  have hab : |a - D| ≤ M := by rw [abs_le]; constructor <;> linarith [ha.1, ha.2, hD.1, hD.2]
  constructor
  · simp only [F32.sub, F32.add]
    rw [← sub_eq_add_neg, round_fin]
    exact hab.trans (hM'.trans (by norm_num))
  · rw [abs_le] at hab ⊢
    constructor
    · have := int_le_fl (x := a - D) (m := -(M : ℤ)) (by rw [abs_neg]; exact hmz)
        (by push_cast; exact hab.1)
      push_cast at this
      exact this
    · have := fl_le_int (x := a - D) (m := (M : ℤ)) hmz (by push_cast; exact hab.2)
      push_cast at this
      exact this

/-- **C178, finite.**  Counts up to `M ≤ 2²⁴` and averages between 0 and `M` give a finite number,
never an infinity or NaN, also for dead pixels and for a flat below the dark. -/
theorem normalize_finite {a F D : ℚ} {M : ℕ} (hM : M ≤ 2 ^ 24) (ha : 0 ≤ a ∧ a ≤ M)
    (hF : 0 ≤ F ∧ F ≤ M) (hD : 0 ≤ D ∧ D ≤ M) :
    normPixF none (.fin a) (.fin F) (.fin D) = .fin (fl (fl (a - D) / denQ F D)) := by
  obtain ⟨e1, b1⟩ := sub_fin hM ha hD
  obtain ⟨e2, b2⟩ := sub_fin hM hF hD
  have hd : (if F32.lt (.fin (fl (F - D))) (.fin lF) then F32.fin lF else .fin (fl (F - D)))
      = .fin (denQ F D) := by
    unfold denQ F32.lt
    by_cases h : fl (F - D) < lF
    · simp [h, max_eq_right h.le]
    · simp [h, max_eq_left (not_lt.1 h)]
  unfold normPixF
  dsimp only
  rw [e1, e2, hd]
  have hp := denQ_pos F D
  simp only [F32.div]
  rw [if_neg hp.ne', round_fin]
  rw [abs_div, abs_of_pos hp, div_le_iff₀ hp]
  have hM' : (M : ℚ) ≤ 2 ^ 24 := by exact_mod_cast hM
  have h1 : lF ≤ denQ F D := le_max_right _ _
  have h2 : (2 : ℚ) ^ 24 ≤ 2 ^ 126 * (9 / 10000000) := by norm_num
  have h3 : (2 : ℚ) ^ 126 * (9 / 10000000) ≤ 2 ^ 126 * denQ F D := by
    apply mul_le_mul_of_nonneg_left _ (by norm_num)
    linarith [lF_bounds.1]
  linarith

/-- **C178, cutoff.**  With a cutoff that is a `float` the result is the smaller of the two. -/
theorem normalize_cutoff {a F D c : ℚ} {M : ℕ} (hM : M ≤ 2 ^ 24) (ha : 0 ≤ a ∧ a ≤ M)
    (hF : 0 ≤ F ∧ F ≤ M) (hD : 0 ≤ D ∧ D ≤ M) (hc : |c| ≤ 2 ^ 126) :
    normPixF (some c) (.fin a) (.fin F) (.fin D) = .fin (min (fl (fl (a - D) / denQ F D)) (fl c)) := by
  have h := normalize_finite hM ha hF hD
  unfold normPixF at h ⊢
  dsimp only at h ⊢
  rw [h, round_fin hc]
  unfold F32.lt
  by_cases hlt : fl c < fl (fl (a - D) / denQ F D)
  · simp [hlt, min_eq_right hlt.le]
  · simp [hlt, min_eq_left (not_lt.1 hlt)]

/-- **C178, order.**  A larger raw value never gives a smaller result. -/
theorem normalize_mono {a a' : ℚ} (F D : ℚ) (h : a ≤ a') :
    fl (fl (a - D) / denQ F D) ≤ fl (fl (a' - D) / denQ F D) :=
  fl_mono (div_le_div_of_nonneg_right (fl_mono (by linarith)) (denQ_pos F D).le)

/-- **C178, reference points.**  The dark field is mapped to 0 and, where the flat is not below the
dark plus `l`, the flat field to 1, exactly. -/
theorem normalize_references (F D : ℚ) :
    fl (fl (D - D) / denQ F D) = 0 ∧ (lF ≤ fl (F - D) → fl (fl (F - D) / denQ F D) = 1) := by
  constructor
  · rw [sub_self, fl_zero, zero_div, fl_zero]
  · intro h
    have : denQ F D = fl (F - D) := max_eq_left h
    rw [this, div_self]
    · have := fl_int (m := 1) (by norm_num)
      push_cast at this
      exact this
    · linarith [lF_bounds.1]

/-- **C178, single frames.**  With one flat and one dark of counts up to `2²⁴`, the flat above the
dark, every pixel is the correctly rounded quotient: nothing is lost but the last rounding. -/
theorem normalize_frame {a f d : ℕ} (ha : a ≤ 2 ^ 24) (hf : f ≤ 2 ^ 24) (hd : d < f) :
    normPixF none (.fin a) (.fin f) (.fin d) = .fin (fl (((a : ℚ) - d) / (f - d))) := by
  have hM : (2 ^ 24 : ℕ) ≤ 2 ^ 24 := le_refl _
  have c : ∀ n : ℕ, n ≤ 2 ^ 24 → (0 : ℚ) ≤ n ∧ (n : ℚ) ≤ (2 ^ 24 : ℕ) := fun n hn =>
    ⟨Nat.cast_nonneg _, by exact_mod_cast hn⟩
  have hd' : d ≤ 2 ^ 24 := hd.le.trans hf
  rw [normalize_finite hM (c a ha) (c f hf) (c d hd')]
  have e : ∀ m n : ℕ, m ≤ 2 ^ 24 → n ≤ 2 ^ 24 → fl ((m : ℚ) - n) = (m : ℚ) - n := by
    intro m n hm hn
    have := fl_int (m := (m : ℤ) - n) (by rw [abs_le]; constructor <;> push_cast at * <;> omega)
    push_cast at this
    exact this
  have hden : denQ (f : ℚ) d = (f : ℚ) - d := by
    unfold denQ
    rw [e f d hf hd']
    apply max_eq_left
    have : (d : ℚ) + 1 ≤ f := by exact_mod_cast hd
    linarith [lF_bounds.2]
  rw [hden, e a d ha hd']

/-- **C178, accuracy.**  Raw counts, flats and darks up to `M`; the sums of the flats and of the
darks `2²⁴` at most; flat and dark at least `8 M / 2²⁴` apart (0.032 counts for 16 bits).  Then the
result differs from the exact one, `q = (a - d) / (f - d)` with exact averages, by
`(1 + |q|) (M / 2²¹) / (f - d)` at most, in whatever order the frames are added. -/
theorem normalize_accurate {M : ℕ} (h8 : 8 ≤ M) (hM : M ≤ 2 ^ 24) {r : ℚ → ℚ} (hr : Before r)
    (tf td : SumTree) (hcf : Counts M tf) (hcd : Counts M td) (hsf : tf.total ≤ 2 ^ 24)
    (hsd : td.total ≤ 2 ^ 24) {a : ℕ} (ha : a ≤ M) {f d q : ℚ} (hf : f = tf.total / tf.frames.length)
    (hd : d = td.total / td.frames.length) (hfd : 8 * M / 2 ^ 24 ≤ f - d)
    (hq : q = (a - d) / (f - d)) :
    ∃ v, normPixF none (.fin a) (meanF r tf) (meanF r td) = .fin v ∧
      |v - q| ≤ (1 + |q|) * (M / 2 ^ 21) / (f - d) := by
  obtain ⟨F, eF, F0, F1, f0, f1, hFf⟩ := mean_accurate hM hr tf hcf hsf
  obtain ⟨D, eD, D0, D1, d0, d1, hDd⟩ := mean_accurate hM hr td hcd hsd
  rw [← hf] at f0 f1 hFf
  rw [← hd] at d0 d1 hDd
  have hM8 : (8 : ℚ) ≤ M := by exact_mod_cast h8
  have hMq : (1 : ℚ) ≤ M := by linarith
  have haM : (a : ℚ) ≤ M := by exact_mod_cast ha
  have ha0 : (0 : ℚ) ≤ a := Nat.cast_nonneg _
  refine ⟨_, by rw [eF, eD]; exact normalize_finite hM ⟨ha0, haM⟩ ⟨F0, F1⟩ ⟨D0, D1⟩, ?_⟩
  have small : ∀ x : ℚ, 0 ≤ x → x ≤ M → |fl (x - D) - (x - D)| ≤ M / 2 ^ 24 + 1 / 2 ^ 150 := by
    intro x hx0 hx1
    have h := fl_rel (x - D)
    have hab : |x - D| ≤ M := by rw [abs_le]; constructor <;> linarith
    have : |x - D| / 2 ^ 24 ≤ M / 2 ^ 24 := by gcongr
    linarith
  have tiny : (M : ℚ) / 2 ^ 52 + 1 / 2 ^ 149 + 1 / 2 ^ 149 + M / 2 ^ 52 + 1 / 2 ^ 150 ≤ M / 2 ^ 26 := by
    have a1 : (M : ℚ) / 2 ^ 52 = M / 2 ^ 26 * (1 / 2 ^ 26) := by ring
    have a2 : (1 : ℚ) / 2 ^ 149 + 1 / 2 ^ 149 + 1 / 2 ^ 150 ≤ 1 / 2 ^ 26 / 2 := by norm_num
    have a3 : (1 : ℚ) / 2 ^ 26 ≤ M / 2 ^ 26 := by gcongr
    have a4 : (M : ℚ) / 2 ^ 26 * (1 / 2 ^ 26) ≤ M / 2 ^ 26 * (1 / 4) := by
      apply mul_le_mul_of_nonneg_left (by norm_num) (by positivity)
    linarith
  have eM : (M : ℚ) / 2 ^ 26 = M / 2 ^ 24 / 4 := by ring
  have hu : 0 < (M : ℚ) / 2 ^ 24 := by positivity
  have hN : |fl ((a : ℚ) - D) - (a - d)| ≤ 13 / 4 * (M / 2 ^ 24) := by
    have s := small a ha0 haM
    have t := abs_sub_le (fl ((a : ℚ) - D)) (a - D) (a - d)
    have t2 : |(a : ℚ) - D - (a - d)| = |D - d| := by rw [abs_sub_comm]; ring_nf
    rw [t2] at t
    linarith [show (0:ℚ) ≤ 1 / 2 ^ 149 by norm_num, show (0 : ℚ) ≤ M / 2 ^ 52 by positivity]
  have hDen0 : |fl (F - D) - (f - d)| ≤ 13 / 4 * (M / 2 ^ 24) := by
    have s := small F F0 F1
    have t := abs_sub_le (fl (F - D)) (F - D) (f - d)
    have t2 : |F - D - (f - d)| ≤ |F - f| + |D - d| := by
      calc |F - D - (f - d)| = |(F - f) - (D - d)| := by ring_nf
        _ ≤ _ := abs_sub _ _
    linarith
  set m : ℚ := (M : ℚ) / 2 ^ 24 with hm
  set w : ℚ := f - d with hw
  have hwm : 8 * m ≤ w := by rw [hm]; linarith [show 8 * ((M : ℚ) / 2 ^ 24) = 8 * M / 2 ^ 24 by ring]
  have hw0 : 0 < w := by linarith
  have hwM : w ≤ M := by rw [hw]; linarith
  have hm8 : (8 : ℚ) / 2 ^ 24 ≤ m := by rw [hm]; gcongr
  have hDlow : 19 / 32 * w ≤ fl (F - D) := by
    have := (abs_le.1 hDen0).1
    linarith
  have hden : denQ F D = fl (F - D) := by
    apply max_eq_left
    have : (2 : ℚ) / 1000000 ≤ 19 / 32 * (8 * (8 / 2 ^ 24)) := by norm_num
    linarith [lF_bounds.2]
  rw [hden]
  set N : ℚ := fl ((a : ℚ) - D) with hNdef
  set G : ℚ := fl (F - D) with hG
  have hG0 : 0 < G := by linarith
  have hqw : q * w = a - d := by rw [hq, div_mul_cancel₀ _ hw0.ne']
  have hqa := abs_nonneg q
  -- the quotient of the rounded differences
  have hquot : |N / G - q| ≤ 104 / 19 * m * (1 + |q|) / w := by
    have e1 : N / G - q = ((N - (a - d)) - q * (G - w)) / G := by
      rw [← hqw]
      field_simp
      ring
    have e2 : |(N - (a - d)) - q * (G - w)| ≤ 13 / 4 * m * (1 + |q|) := by
      calc |(N - (a - d)) - q * (G - w)| ≤ |N - (a - d)| + |q * (G - w)| := abs_sub _ _
        _ = |N - (a - d)| + |q| * |G - w| := by rw [abs_mul]
        _ ≤ 13 / 4 * m + |q| * (13 / 4 * m) := by gcongr
        _ = _ := by ring
    rw [e1, abs_div, abs_of_pos hG0]
    calc |(N - (a - d)) - q * (G - w)| / G ≤ (13 / 4 * m * (1 + |q|)) / (19 / 32 * w) := by
          apply div_le_div₀ (by positivity) e2 (by positivity) hDlow
      _ = _ := by field_simp; norm_num
  have hround := fl_rel (N / G)
  have hNG : |N / G| ≤ |q| + |N / G - q| := by
    calc |N / G| = |q + (N / G - q)| := by ring_nf
      _ ≤ _ := abs_add_le _ _
  have tri := abs_sub_le (fl (N / G)) (N / G) q
  set B : ℚ := m * (1 + |q|) / w with hB
  have hB0 : 0 ≤ B := by positivity
  have hq1 : 104 / 19 * m * (1 + |q|) / w = 104 / 19 * B := by rw [hB]; ring
  have hgoal : (1 + |q|) * (M / 2 ^ 21) / w = 8 * B := by rw [hB, hm]; ring
  have hBq : (1 + |q|) / 2 ^ 24 ≤ B := by
    rw [hB, le_div_iff₀ hw0, hm]
    have : (1 + |q|) / 2 ^ 24 * w ≤ (1 + |q|) / 2 ^ 24 * M := by gcongr
    calc (1 + |q|) / 2 ^ 24 * w ≤ (1 + |q|) / 2 ^ 24 * M := this
      _ = _ := by ring
  rw [hq1] at hquot
  rw [hgoal]
  have hlast : |N / G| / 2 ^ 24 + 1 / 2 ^ 150 ≤ B + B := by
    have a1 : |N / G| / 2 ^ 24 ≤ (|q| + 104 / 19 * B) / 2 ^ 24 := by gcongr; linarith
    have a2 : (|q| + 104 / 19 * B) / 2 ^ 24 = |q| / 2 ^ 24 + 104 / 19 / 2 ^ 24 * B := by ring
    have a3 : (104 : ℚ) / 19 / 2 ^ 24 * B ≤ 1 * B := by
      apply mul_le_mul_of_nonneg_right (by norm_num) hB0
    have a4 : (1 + |q|) / 2 ^ 24 = 1 / 2 ^ 24 + |q| / 2 ^ 24 := by ring
    have a5 : (1 : ℚ) / 2 ^ 150 ≤ 1 / 2 ^ 24 := by norm_num
    linarith
  linarith

/-! ## Cases -/

/-- No rounding before the last one (`float` division). -/
theorem before_id : Before (fun x => x) :=
  ⟨fun _ _ h => h, fun _ _ => rfl, fun x => by
    rw [sub_self, abs_zero]
    positivity⟩

/-- Two flats of 40000 and 40001 counts and one dark of 100: the hypotheses of the accuracy hold. -/
example : Counts 65535 (.node (.leaf 40000) (.leaf 40001)) ∧ Counts 65535 (.leaf 100) ∧
    (SumTree.node (.leaf 40000) (.leaf 40001)).total ≤ 2 ^ 24 ∧
    (8 : ℚ) * (65535 : ℕ) / 2 ^ 24 ≤ (SumTree.node (.leaf 40000) (.leaf 40001)).total / 2 - 100 := by
  refine ⟨?_, ?_, ?_, ?_⟩
  · intro x hx
    simp [SumTree.frames] at hx
    rcases hx with rfl | rfl
    · exact ⟨40000, by norm_num, by norm_num⟩
    · exact ⟨40001, by norm_num, by norm_num⟩
  · intro x hx
    simp [SumTree.frames] at hx
    exact ⟨100, by norm_num, by rw [hx]; norm_num⟩
  · norm_num [SumTree.total, SumTree.frames]
  · norm_num [SumTree.total, SumTree.frames]

/-- Frames added one after the other. -/
def chain (v : ℚ) : ℕ → SumTree
  | 0 => .leaf v
  | n + 1 => .node (chain v n) (.leaf v)

theorem chain_frames (v : ℚ) (n : ℕ) : (chain v n).frames = List.replicate (n + 1) v := by
  induction n with
  | zero => rfl
  | succ n ih => rw [chain, SumTree.frames, ih, SumTree.frames, ← List.replicate_succ']

/-- 257 flats of 65535 counts in the order of numpy: the hypotheses of the refutation hold. -/
example : meanF (fun x => x) (chain 65535 256) ≠ .fin 65535 :=
  equal_frames_257 before_id _ (fun x hx => by rw [chain_frames] at hx; exact List.eq_of_mem_replicate hx)
    (by rw [chain_frames, List.length_replicate])

end Tomopy.Fl
