import Verif.Stripe.Fw

/-! The wavelet 'db2' of PyWavelets with symmetric extension, an instance of the filter banks of
`remove_stripe_fw` (source/tomopy/prep/stripe.py:88-176), and what the filter does with stripes on three
angles and two columns. -/
set_option linter.unusedSectionVars false
namespace Tomopy.Stripe

noncomputable section

/-- `pywt.Wavelet('db2').rec_lo` (stripe.py:175). -/
def db2Lo : Nat → ℝ
  | 0 => (1 + √3) / (4 * √2)
  | 1 => (3 + √3) / (4 * √2)
  | 2 => (3 - √3) / (4 * √2)
  | 3 => (1 - √3) / (4 * √2)
  | _ => 0

/-- `pywt.Wavelet('db2').rec_hi` (stripe.py:175). -/
def db2Hi : Nat → ℝ
  | 0 => db2Lo 3
  | 1 => -db2Lo 2
  | 2 => db2Lo 1
  | 3 => -db2Lo 0
  | _ => 0

/-- Weight of sample `j` in coefficient `k` of the analysis with the filter `g` reversed (stripe.py:152):
sample `2 k + 1 - a` of the symmetric extension has weight `g (3 - a)`. -/
def db2Dec (g : Nat → ℝ) (n k j : Nat) : ℝ :=
  ∑ a ∈ Finset.range 4, if Corr.reflect n (2 * (k : Int) + 1 - a) = j then g (3 - a) else 0

/-- Weight of coefficient `k` in sample `t` of the synthesis (stripe.py:175). -/
def db2Rec (g : Nat → ℝ) (t k : Nat) : ℝ := if 2 * k ≤ t + 2 then g (t + 2 - 2 * k) else 0

/-- The wavelet 'db2', mode 'symmetric' (stripe.py:152, 175). -/
def db2 : Bank where
  taps := 4
  lo := db2Dec db2Lo
  hi := db2Dec db2Hi
  rlo _ := db2Rec db2Lo
  rhi _ := db2Rec db2Hi

theorem sum_four (f : Nat → ℝ) : ∑ a ∈ Finset.range 4, f a = f 0 + f 1 + f 2 + f 3 := by
  simp [Finset.sum_range_succ]

theorem sum_pair {m u : Nat} (hu : u + 1 < m) {h : Nat → ℝ} (h0 : ∀ k, k ≠ u → k ≠ u + 1 → h k = 0) :
    ∑ k ∈ Finset.range m, h k = h u + h (u + 1) := by
  have hne : u ≠ u + 1 := by omega
  rw [← Finset.sum_pair hne]
  refine (Finset.sum_subset ?_ ?_).symm
  · intro k hk
    simp only [Finset.mem_insert, Finset.mem_singleton] at hk
    rw [Finset.mem_range]; omega
  · intro k _ hk
    simp only [Finset.mem_insert, Finset.mem_singleton, not_or] at hk
    exact h0 k hk.1 hk.2

theorem db2Lo_big {a : Nat} (h : 4 ≤ a) : db2Lo a = 0 := by
  match a, h with
  | a + 4, _ => rfl

theorem db2Hi_big {a : Nat} (h : 4 ≤ a) : db2Hi a = 0 := by
  match a, h with
  | a + 4, _ => rfl

theorem db2Rec_zero {g : Nat → ℝ} (hg : ∀ a, 4 ≤ a → g a = 0) {t k : Nat} (h : k ≠ t / 2) (h' : k ≠ t / 2 + 1) :
    db2Rec g t k = 0 := by
  unfold db2Rec
  split_ifs
  · exact hg _ (by omega)
  · rfl

theorem db2Rec_even (g : Nat → ℝ) (u : Nat) : db2Rec g (2 * u) u = g 2 ∧ db2Rec g (2 * u) (u + 1) = g 0 := by
  unfold db2Rec
  rw [if_pos (by omega), if_pos (by omega)]
  exact ⟨congrArg g (by omega), congrArg g (by omega)⟩

theorem db2Rec_odd (g : Nat → ℝ) (u : Nat) : db2Rec g (2 * u + 1) u = g 3 ∧ db2Rec g (2 * u + 1) (u + 1) = g 1 := by
  unfold db2Rec
  rw [if_pos (by omega), if_pos (by omega)]
  exact ⟨congrArg g (by omega), congrArg g (by omega)⟩

theorem db2_orth : db2Lo 0 * db2Lo 2 + db2Lo 1 * db2Lo 3 = 0 := by
  have h3 : √3 * √3 = (3 : ℝ) := Real.mul_self_sqrt (by norm_num)
  have h2 : √2 ≠ (0 : ℝ) := by positivity
  simp only [db2Lo]
  field_simp
  linear_combination (-2 : ℝ) * h3

theorem db2_norm : db2Lo 0 ^ 2 + db2Lo 1 ^ 2 + db2Lo 2 ^ 2 + db2Lo 3 ^ 2 = 1 := by
  have h3 : √3 * √3 = (3 : ℝ) := Real.mul_self_sqrt (by norm_num)
  have h2 : √2 * √2 = (2 : ℝ) := Real.mul_self_sqrt (by norm_num)
  have h2' : √2 ≠ (0 : ℝ) := by positivity
  simp only [db2Lo]
  field_simp
  linear_combination (4 : ℝ) * h3 - 16 * h2

theorem reflect_inside {n t : Nat} (h : t < n) : Corr.reflect n (t : Int) = t := by
  unfold Corr.reflect
  have : ((t : Int) % (2 * n)).toNat = t := by
    rw [Int.emod_eq_of_lt (by omega) (by omega)]; omega
  simp only [this, if_pos h]

theorem reflect_bound {n : Nat} (hn : 0 < n) (z : Int) : Corr.reflect n z < n := by
  unfold Corr.reflect
  have h1 := Int.emod_nonneg z (show (2 * (n : Int)) ≠ 0 by omega)
  have h2 := Int.emod_lt_of_pos z (show (0 : Int) < 2 * n by omega)
  dsimp only
  split_ifs <;> omega

/-- 1 where the extension is sample `j`. -/
def extHit (n j : Nat) (z : Int) : ℝ := if Corr.reflect n z = j then 1 else 0

theorem db2Dec_eq (g : Nat → ℝ) (n k j : Nat) : db2Dec g n k j = g 3 * extHit n j (2 * k + 1) +
    g 2 * extHit n j (2 * k) + g 1 * extHit n j (2 * k - 1) + g 0 * extHit n j (2 * k - 2) := by
  have key : ∀ (P : Prop) [Decidable P] (x : ℝ), (if P then x else 0) = x * if P then 1 else 0 := by
    intro P _ x; split_ifs <;> ring
  unfold db2Dec extHit
  rw [sum_four, key, key _ (g (3 - 1)), key _ (g (3 - 2)), key _ (g (3 - 3))]
  rw [show 2 * (k : Int) + 1 - ((0 : Nat) : Int) = 2 * k + 1 by push_cast; ring,
    show 2 * (k : Int) + 1 - ((1 : Nat) : Int) = 2 * k by push_cast; ring,
    show 2 * (k : Int) + 1 - ((2 : Nat) : Int) = 2 * k - 1 by push_cast; ring,
    show 2 * (k : Int) + 1 - ((3 : Nat) : Int) = 2 * k - 2 by push_cast; ring]

/-- 'db2' is one of the wavelets the theorems of C93 are about. -/
theorem db2_ok : db2.Ok := by
  refine ⟨by norm_num [db2], rfl, fun n hn t ht j hj => ?_⟩
  have hd : db2.dlen n = (n + 3) / 2 := rfl
  rw [sum_pair (u := t / 2) (by rw [hd]; omega)]
  swap
  · intro k h1 h2
    simp only [db2]
    rw [db2Rec_zero (fun _ => db2Lo_big) h1 h2, db2Rec_zero (fun _ => db2Hi_big) h1 h2]
    ring
  have ht' : (if t = j then (1 : ℝ) else 0) = extHit n j t := by
    unfold extHit
    rw [reflect_inside ht]
  rw [ht']
  simp only [db2, db2Dec_eq]
  obtain ⟨u, rfl | rfl⟩ : ∃ u, t = 2 * u ∨ t = 2 * u + 1 := ⟨t / 2, by omega⟩
  · rw [show 2 * u / 2 = u by omega, (db2Rec_even db2Lo u).1, (db2Rec_even db2Lo u).2, (db2Rec_even db2Hi u).1,
      (db2Rec_even db2Hi u).2]
    push_cast
    rw [show 2 * ((u : Int) + 1) - 1 = 2 * u + 1 by ring, show 2 * ((u : Int) + 1) - 2 = 2 * u by ring]
    simp only [db2Hi]
    linear_combination (extHit n j (2 * ((u : Int) + 1)) + extHit n j (2 * u - 2)) * db2_orth +
      extHit n j (2 * u) * db2_norm
  · rw [show (2 * u + 1) / 2 = u by omega, (db2Rec_odd db2Lo u).1, (db2Rec_odd db2Lo u).2, (db2Rec_odd db2Hi u).1,
      (db2Rec_odd db2Hi u).2]
    push_cast
    rw [show 2 * ((u : Int) + 1) - 1 = 2 * u + 1 by ring, show 2 * ((u : Int) + 1) - 2 = 2 * u by ring]
    simp only [db2Hi]
    linear_combination (extHit n j (2 * ((u : Int) + 1) + 1) + extHit n j (2 * u - 1)) * db2_orth +
      extHit n j (2 * u + 1) * db2_norm

theorem sum_extHit {n : Nat} (hn : 0 < n) (z : Int) : ∑ j ∈ Finset.range n, extHit n j z = 1 := by
  unfold extHit
  rw [Finset.sum_ite_eq, if_pos (Finset.mem_range.2 (reflect_bound hn z))]

theorem sum_db2Dec (g : Nat → ℝ) {n : Nat} (hn : 0 < n) (k : Nat) :
    ∑ j ∈ Finset.range n, db2Dec g n k j = g 0 + g 1 + g 2 + g 3 := by
  simp only [db2Dec_eq, Finset.sum_add_distrib, ← Finset.mul_sum, sum_extHit hn]
  ring

theorem db2_sum : db2Lo 0 + db2Lo 1 + db2Lo 2 + db2Lo 3 = √2 := by
  have h2 : √2 * √2 = (2 : ℝ) := Real.mul_self_sqrt (by norm_num)
  have h2' : √2 ≠ (0 : ℝ) := by positivity
  simp only [db2Lo]
  field_simp
  linear_combination (-4 : ℝ) * h2

theorem db2_const : db2.Const := by
  refine ⟨⟨√2, fun n hn k _ => ?_⟩, fun n hn k _ => ?_⟩
  · change ∑ j ∈ Finset.range n, db2Dec db2Lo n k j = _
    rw [sum_db2Dec _ hn, db2_sum]
  · change ∑ j ∈ Finset.range n, db2Dec db2Hi n k j = _
    rw [sum_db2Dec _ hn]
    simp only [db2Hi, db2Lo]
    ring

/-! ### Stripes on three angles and two columns -/

theorem db2_small {s : Im} (hr : s.r = 3) (hc : s.c = 2) (hs : ∀ t < 3, ∀ i < 2, s.get t i = s.get 0 i) :
    (db2.dwt2 s).1.get 0 0 - (db2.dwt2 s).1.get 0 1 = s.get 0 0 - s.get 0 1 := by
  have hsum : ∀ l, (db2.dwt2 s).1.get 0 l = √2 * (db2Dec db2Lo 2 l 0 * s.get 0 0 + db2Dec db2Lo 2 l 1 * s.get 0 1) := by
    intro l
    change ∑ i ∈ Finset.range s.r, ∑ j ∈ Finset.range s.c, db2Dec db2Lo s.r 0 i * db2Dec db2Lo s.c l j * s.get i j = _
    rw [hr, hc, ← db2_sum, ← sum_db2Dec db2Lo (show 0 < 3 by norm_num) 0, Finset.sum_mul]
    refine Finset.sum_congr rfl fun i hi => ?_
    have h1 := hs i (Finset.mem_range.1 hi)
    rw [Finset.sum_range_succ, Finset.sum_range_succ, Finset.sum_range_zero, h1 0 (by norm_num), h1 1 (by norm_num)]
    ring
  rw [hsum, hsum]
  have h2 : √2 * √2 = (2 : ℝ) := Real.mul_self_sqrt (by norm_num)
  have h2' : √2 ≠ (0 : ℝ) := by positivity
  have e00 : db2Dec db2Lo 2 0 0 = db2Lo 2 + db2Lo 1 := by
    rw [db2Dec_eq]; norm_num [extHit, Corr.reflect, show Int.toNat 2 = 2 from rfl]
  have e01 : db2Dec db2Lo 2 0 1 = db2Lo 3 + db2Lo 0 := by
    rw [db2Dec_eq]; norm_num [extHit, Corr.reflect, show Int.toNat 2 = 2 from rfl]
  have e10 : db2Dec db2Lo 2 1 0 = db2Lo 3 + db2Lo 0 := by
    rw [db2Dec_eq]; norm_num [extHit, Corr.reflect, show Int.toNat 2 = 2 from rfl]
  have e11 : db2Dec db2Lo 2 1 1 = db2Lo 2 + db2Lo 1 := by
    rw [db2Dec_eq]; norm_num [extHit, Corr.reflect, show Int.toNat 2 = 2 from rfl]
  rw [e00, e01, e10, e11]
  simp only [db2Lo]
  field_simp
  ring

/-- Every level brings the two columns nearer to each other by the factor 4. -/
theorem db2_levels (sigma : ℝ) : ∀ (level : Nat) (s : Im), s.r = 3 → s.c = 2 →
    (∀ t < 3, ∀ i < 2, s.get t i = s.get 0 i) →
    ∃ z, fwRebuild db2 (fwDecompose db2 level s).1
        ((fwDecompose db2 level s).2.map fun d => (d.1, fwDampen sigma d.2.1, d.2.2)) = .ok z ∧
      3 ≤ z.r ∧ 2 ≤ z.c ∧ (∀ t < 3, ∀ i < 2, z.get t i = z.get 0 i) ∧
      z.get 0 0 - z.get 0 1 = (1 / 4) ^ level * (s.get 0 0 - s.get 0 1) := by
  intro level
  induction level with
  | zero => intro s hr hc hs; exact ⟨s, rfl, hr.ge, hc.ge, hs, by simp⟩
  | succ n ih =>
    intro s hr hc hs
    have hs' : ∀ t < s.r, ∀ i < s.c, s.get t i = s.get 0 i := by rw [hr, hc]; exact hs
    obtain ⟨h1, h2, h3, h4⟩ := stripes_dwt (B := db2) (by norm_num [db2]) db2_const (by omega) hs'
    have hdr : db2.dlen s.r = 3 := by rw [hr]; rfl
    have hdc : db2.dlen s.c = 2 := by rw [hc]; rfl
    rw [hdr] at h1 h2 h3 h4
    obtain ⟨z, hz, hzr, hzc, hzs, hzd⟩ := ih (db2.dwt2 s).1 hdr hdc fun t ht i _ => h1 t ht i
    have e1 : (fwDecompose db2 (n + 1) s).1 = (fwDecompose db2 n (db2.dwt2 s).1).1 := rfl
    have e2 : (fwDecompose db2 (n + 1) s).2 = (db2.dwt2 s).2 :: (fwDecompose db2 n (db2.dwt2 s).1).2 := rfl
    rw [e1, e2, List.map_cons]
    unfold fwRebuild
    rw [hz]
    have hV : ∀ t, ∀ i < 2, (fwDampen sigma (db2.dwt2 s).2.2.1).get t i = 0 := by
      intro t i hi
      have hvr : (db2.dwt2 s).2.2.1.r = 3 := hdr
      have hvc : (db2.dwt2 s).2.2.1.c = 2 := hdc
      rw [dampen_constant sigma (v := (db2.dwt2 s).2.2.1) (by omega) (l := i) (by omega)
        (fun t ht => h2 t (by omega) i), hvr]
      simp [fwGain]
    have m1 : min (db2.dwt2 s).2.1.r z.r = 3 := by
      have : (db2.dwt2 s).2.1.r = 3 := hdr
      omega
    have m2 : min (db2.dwt2 s).2.1.c z.c = 2 := by
      have : (db2.dwt2 s).2.1.c = 2 := hdc
      omega
    change ∃ z', db2.idwt2 ⟨min (db2.dwt2 s).2.1.r z.r, min (db2.dwt2 s).2.1.c z.c, z.get⟩ _ = .ok z' ∧ _
    rw [m1, m2]
    unfold Bank.idwt2
    rw [if_pos ⟨hdr.symm, hdc.symm, hdr.symm, hdc.symm, hdr.symm, hdc.symm⟩]
    have hget : ∀ t < 3, ∀ i, ∑ p ∈ Finset.range 3, ∑ q ∈ Finset.range 2,
        (db2.rlo 3 t p * db2.rlo 2 i q * z.get p q + db2.rhi 3 t p * db2.rlo 2 i q * (db2.dwt2 s).2.1.get p q +
          db2.rlo 3 t p * db2.rhi 2 i q * (fwDampen sigma (db2.dwt2 s).2.2.1).get p q +
          db2.rhi 3 t p * db2.rhi 2 i q * (db2.dwt2 s).2.2.2.get p q) =
        √2 / 2 * (db2Rec db2Lo i 0 * z.get 0 0 + db2Rec db2Lo i 1 * z.get 0 1) := by
      intro t ht i
      have hrow : ∑ p ∈ Finset.range 3, db2Rec db2Lo t p = √2 / 2 := by
        have h22 : √2 * √2 = (2 : ℝ) := Real.mul_self_sqrt (by norm_num)
        have h2' : √2 ≠ (0 : ℝ) := by positivity
        rw [sum_pair (u := t / 2) (by omega) fun k h1 h2 => db2Rec_zero (fun _ => db2Lo_big) h1 h2]
        obtain ⟨u, rfl | rfl⟩ : ∃ u, t = 2 * u ∨ t = 2 * u + 1 := ⟨t / 2, by omega⟩
        · rw [show 2 * u / 2 = u by omega, (db2Rec_even db2Lo u).1, (db2Rec_even db2Lo u).2]
          simp only [db2Lo]
          field_simp
          linear_combination (-4 : ℝ) * h22
        · rw [show (2 * u + 1) / 2 = u by omega, (db2Rec_odd db2Lo u).1, (db2Rec_odd db2Lo u).2]
          simp only [db2Lo]
          field_simp
          linear_combination (-4 : ℝ) * h22
      rw [← hrow, Finset.sum_mul]
      refine Finset.sum_congr rfl fun p hp => ?_
      have hp3 := Finset.mem_range.1 hp
      rw [Finset.sum_range_succ, Finset.sum_range_succ, Finset.sum_range_zero, h3 p hp3, h3 p hp3, h4 p hp3, h4 p hp3,
        hV p 0 (by norm_num), hV p 1 (by norm_num), hzs p hp3 0 (by norm_num), hzs p hp3 1 (by norm_num)]
      simp only [db2]
      ring
    refine ⟨_, rfl, by simp [Bank.rlen, db2], by simp [Bank.rlen, db2], fun t ht i _ => ?_, ?_⟩
    · dsimp only
      rw [hget t ht i, hget 0 (by norm_num) i]
    · dsimp only
      rw [hget 0 (by norm_num) 0, hget 0 (by norm_num) 1, pow_succ]
      rw [db2_small hr hc hs] at hzd
      have r0 := db2Rec_even db2Lo 0
      have r1 := db2Rec_odd db2Lo 0
      simp only [Nat.mul_zero, Nat.zero_add] at r0 r1
      rw [r0.1, r0.2, r1.1, r1.2]
      have h2' : √2 ≠ (0 : ℝ) := by positivity
      have : √2 / 2 * (db2Lo 2 * z.get 0 0 + db2Lo 0 * z.get 0 1) - √2 / 2 * (db2Lo 3 * z.get 0 0 + db2Lo 1 * z.get 0 1) =
          1 / 4 * (z.get 0 0 - z.get 0 1) := by
        simp only [db2Lo]
        field_simp
        ring
      rw [this, hzd]
      ring

/-- The filter on stripes of three angles and two columns: with `level` levels the difference of the
columns is divided by `4 ^ level`. -/
theorem fw_db2_columns (sigma : ℝ) (level : Nat) (x : Nat → ℝ) {Y : Nat → Nat → ℝ}
    (h : fwSlice db2 level sigma false 3 2 (fun _ i => x i) = .ok Y) : Y 0 0 - Y 0 1 = (1 / 4) ^ level * (x 0 - x 1) := by
  have hp : ∀ t < 3, ∀ i, (fwPad false 3 2 fun _ i => x i).get t i = x i := by
    intro t ht i
    simp [fwPad, fwShift, fwRows, ht]
  obtain ⟨z, hz, hr, hc, -, hd⟩ := db2_levels sigma level (fwPad false 3 2 fun _ i => x i) rfl rfl
    fun t ht i _ => by rw [hp t ht, hp 0 (by norm_num)]
  unfold fwSlice at h
  dsimp only at h
  rw [hz] at h
  change (if z.r < 3 + fwShift false 3 ∨ z.c < 2 then Except.error PyErr.value
    else .ok fun t i => z.get (t + fwShift false 3) i) = _ at h
  have h0 : fwShift false 3 = 0 := rfl
  rw [h0, if_neg (by omega)] at h
  have hY := Except.ok.inj h
  rw [← hY]
  simp only [Nat.add_zero]
  rw [hd, hp 0 (by norm_num), hp 0 (by norm_num)]

end

end Tomopy.Stripe
