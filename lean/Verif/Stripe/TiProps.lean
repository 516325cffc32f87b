import Verif.Stripe.Ti

/-! Theorems about Titarenko's stripe removal, continued (C82). -/
set_option linter.unusedSectionVars false

namespace Tomopy.Ti
open Matrix

section
variable {K : Type} [Field K] [LinearOrder K] [IsStrictOrderedRing K] {n : Nat}

/-- The differences of the two kernels: first differences and negative second differences. -/
theorem diff_kernel (x : Fin n → K) (k : Nat) :
    diff (kernel 1) x k = ext x k - ext x (k + 1) ∧
    diff (kernel 2) x k = -ext x k + 2 * ext x (k + 1) - ext x (k + 2) := by
  constructor
  · simp [diff, kernel, Finset.sum_range_succ]; ring
  · simp [diff, kernel, Finset.sum_range_succ]; ring

theorem kernel_length (m : Nat) : (kernel (K := K) m).length = if m = 1 then 2 else 3 := by
  unfold kernel; split <;> rfl

/-- `q` minimises the cost for the profile of the block of angles, up to 1e-14 / alpha. -/
def NearlyOptimal (m lo cnt : Nat) (X : Nat → Nat → K) (q : Fin n → K) : Prop :=
  ∃ alpha, getParameter n lo cnt X = some alpha ∧ 0 < alpha ∧ ∀ q',
    cost (kernel m) alpha (meanProfile n lo cnt X) q
      ≤ cost (kernel m) alpha (meanProfile n lo cnt X) q' + 1 / 10 ^ 14 / alpha

/-- **C82** The correction of a block of angles exists and is nearly optimal, if the sums of the
projections are not all equal and the mean profile is not flat (for `m = 2`: not straight). -/
theorem correction_optimal (m lo cnt : Nat) (hn : 3 ≤ n) (hn' : n ≤ 1000000) (hc : 0 < cnt)
    (X : Nat → Nat → K)
    (hs : ∃ t < cnt, ∑ i ∈ Finset.range n, X (lo + t) i ≠ ∑ i ∈ Finset.range n, X lo i)
    (hp : ∃ k < n - ((kernel (K := K) m).length - 1),
      diff (kernel m) (meanProfile n lo cnt X) k ≠ 0) :
    ∃ q, correction n m lo cnt X = some q ∧ NearlyOptimal m lo cnt X q := by
  obtain ⟨_, _, _, _, alpha, ea, hpos, _, _⟩ := (parameter_spec (n := n) lo cnt hc X).2 hs
  have hl := kernel_length (K := K) m
  obtain ⟨q, e, hq⟩ := cgm_optimal (kernel m) (by rw [hl]; split <;> omega)
    (by rw [hl]; split <;> omega) hn' alpha hpos (meanProfile n lo cnt X) hp
  refine ⟨q, ?_, alpha, ea, hpos, hq⟩
  unfold correction
  rw [ea]
  exact e

/-- **C82** The correction is undefined if the sums are all equal or the profile has no
differences. -/
theorem correction_undefined (m lo cnt : Nat) (hn : 3 ≤ n) (hc : 0 < cnt) (X : Nat → Nat → K)
    (h : (∀ t < cnt, ∑ i ∈ Finset.range n, X (lo + t) i = ∑ i ∈ Finset.range n, X lo i) ∨
      ∀ k < n - ((kernel (K := K) m).length - 1),
        diff (kernel m) (meanProfile n lo cnt X) k = 0) :
    correction n m lo cnt X = none := by
  unfold correction
  by_cases hs : ∃ t < cnt, ∑ i ∈ Finset.range n, X (lo + t) i ≠ ∑ i ∈ Finset.range n, X lo i
  · obtain ⟨_, _, _, _, alpha, ea, hpos, _, _⟩ := (parameter_spec (n := n) lo cnt hc X).2 hs
    have hl := kernel_length (K := K) m
    rw [ea]
    refine cgm_flat_undefined (kernel m) (by rw [hl]; split <;> omega)
      (by rw [hl]; split <;> omega) alpha hpos _ (h.resolve_left fun h => ?_)
    obtain ⟨t, ht, hne⟩ := hs
    exact hne (h t ht)
  · push Not at hs
    rw [(parameter_spec (n := n) lo cnt hc X).1 hs]

end

/-! ### The whole function -/

variable {n : Nat}

theorem minImage_spec (nrow : Nat) (hr : 0 < nrow) (hn : 0 < n) (p : Nat → Nat → ℝ) :
    (∃ t < nrow, ∃ i < n, minImage nrow n p = p t i) ∧ ∀ t < nrow, ∀ i < n, minImage nrow n p ≤ p t i := by
  unfold minImage
  set l := (List.range nrow).flatMap fun t => (List.range n).map (p t) with hl
  have hmem : ∀ t < nrow, ∀ i < n, p t i ∈ l := fun t ht i hi =>
    List.mem_flatMap.2 ⟨t, List.mem_range.2 ht, List.mem_map.2 ⟨i, List.mem_range.2 hi, rfl⟩⟩
  refine ⟨?_, fun t ht i hi => (foldl_min_le l _).2 _ (hmem t ht i hi)⟩
  rcases foldl_min_mem l (p 0 0) with e | e
  · exact ⟨0, hr, 0, hn, e⟩
  · obtain ⟨t, ht, e'⟩ := List.mem_flatMap.1 e
    obtain ⟨i, hi, e''⟩ := List.mem_map.1 e'
    exact ⟨t, List.mem_range.1 ht, i, List.mem_range.1 hi, e''.symm⟩

/-- The square of every pixel of the output is the product of the two corrected pixels, plus `alpha`
times the absolute value of the smallest such product. -/
def Combined (nrow n : Nat) (alpha : ℝ) (d1 d2 : Nat → Nat → ℝ) (out : Nat → Nat → Option ℝ) : Prop :=
  ∃ μ, (∃ t < nrow, ∃ i < n, μ = d1 t i * d2 t i) ∧ (∀ t < nrow, ∀ i < n, μ ≤ d1 t i * d2 t i) ∧
    ∀ t < nrow, ∀ i < n,
      (d1 t i * d2 t i + alpha * |μ| < 0 → out t i = none) ∧
      (0 ≤ d1 t i * d2 t i + alpha * |μ| →
        ∃ v, out t i = some v ∧ 0 ≤ v ∧ v ^ 2 = d1 t i * d2 t i + alpha * |μ|)

theorem combine_spec (nrow : Nat) (hr : 0 < nrow) (hn : 0 < n) (alpha : ℝ) (d1 d2 : Nat → Nat → ℝ) :
    Combined nrow n alpha d1 d2 (combine nrow n alpha d1 d2) := by
  obtain ⟨⟨t, ht, i, hi, e⟩, hle⟩ := minImage_spec nrow hr hn fun t i => d1 t i * d2 t i
  refine ⟨_, ⟨t, ht, i, hi, e⟩, hle, fun t _ i _ => ⟨fun h => ?_, fun h => ?_⟩⟩
  · unfold combine
    exact if_pos h
  · unfold combine
    exact ⟨_, if_neg (not_lt.2 h), Real.sqrt_nonneg _, Real.sq_sqrt h⟩

/-- With `alpha ≥ 1` no square root of a negative number is taken. -/
theorem Combined.defined {nrow : Nat} {alpha : ℝ} {d1 d2 : Nat → Nat → ℝ}
    {out : Nat → Nat → Option ℝ} (h : Combined nrow n alpha d1 d2 out) (ha : 1 ≤ alpha) :
    ∀ t < nrow, ∀ i < n, (out t i).isSome := by
  obtain ⟨μ, _, hle, hout⟩ := h
  intro t ht i hi
  have h1 := hle t ht i hi
  have h2 : |μ| ≤ alpha * |μ| := le_mul_of_one_le_left (abs_nonneg _) ha
  have h3 := neg_abs_le μ
  obtain ⟨v, e, _⟩ := (hout t ht i hi).2 (by linarith)
  rw [e]; rfl

/-- **C82** `remove_stripe_ti` without blocks: NaN count as 0; if the sums of the projections are not
all equal and the mean profile is neither flat nor straight, then every pixel of the result is
combined from the sinogram with two nearly optimal corrections added to its columns. -/
theorem ti_value_partial (nrow : Nat) (hr : 0 < nrow) (hn : 3 ≤ n) (hn' : n ≤ 1000000) (alpha : ℝ)
    (X : Nat → Nat → Option ℝ) (Y : Nat → Nat → ℝ) (hY : Y = fun t i => (X t i).getD 0)
    (hs : ∃ t < nrow, ∑ i ∈ Finset.range n, Y t i ≠ ∑ i ∈ Finset.range n, Y 0 i)
    (hp : ∃ k, k + 2 < n ∧
      ∑ t ∈ Finset.range nrow, (Y t k - 2 * Y t (k + 1) + Y t (k + 2)) ≠ 0) :
    ∃ (out : Nat → Nat → Option ℝ) (q1 q2 : Fin n → ℝ), removeTi nrow n 0 alpha X = .ok out ∧
      NearlyOptimal 1 0 nrow Y q1 ∧ NearlyOptimal 2 0 nrow Y q2 ∧
      Combined nrow n alpha (fun t i => Y t i + ext q1 i) (fun t i => Y t i + ext q2 i) out ∧
      (1 ≤ alpha → ∀ t < nrow, ∀ i < n, (out t i).isSome) := by
  obtain ⟨k, hij, hne⟩ := hp
  have hN : (nrow : ℝ) ≠ 0 := by exact_mod_cast (by omega : nrow ≠ 0)
  have hm : ∀ l (hl : l < n), ext (meanProfile n 0 nrow Y) l
      = (∑ t ∈ Finset.range nrow, Y t l) / nrow := fun l hl => by
    unfold ext
    rw [dif_pos hl]
    simp [meanProfile]
  have e : ext (meanProfile n 0 nrow Y) k - 2 * ext (meanProfile n 0 nrow Y) (k + 1)
      + ext (meanProfile n 0 nrow Y) (k + 2) ≠ 0 := by
    rw [hm k (by omega), hm (k + 1) (by omega), hm (k + 2) (by omega)]
    intro hz
    refine hne ?_
    rw [Finset.sum_add_distrib, Finset.sum_sub_distrib, ← Finset.mul_sum]
    field_simp at hz
    linarith
  have hs' : ∃ t < nrow, ∑ i ∈ Finset.range n, Y (0 + t) i ≠ ∑ i ∈ Finset.range n, Y 0 i := by
    simpa using hs
  have h2 : ∃ k < n - ((kernel (K := ℝ) 2).length - 1),
      diff (kernel 2) (meanProfile n 0 nrow Y) k ≠ 0 := by
    refine ⟨k, by rw [kernel_length]; simp; omega, ?_⟩
    rw [(diff_kernel _ k).2]
    intro hz
    exact e (by linarith)
  have h1 : ∃ k < n - ((kernel (K := ℝ) 1).length - 1),
      diff (kernel 1) (meanProfile n 0 nrow Y) k ≠ 0 := by
    by_contra hc
    push Not at hc
    have a1 := hc k (by rw [kernel_length]; simp; omega)
    have a2 := hc (k + 1) (by rw [kernel_length]; simp; omega)
    rw [(diff_kernel _ _).1] at a1 a2
    exact e (by linarith)
  obtain ⟨q1, c1, o1⟩ := correction_optimal 1 0 nrow hn hn' hr Y hs' h1
  obtain ⟨q2, c2, o2⟩ := correction_optimal 2 0 nrow hn hn' hr Y hs' h2
  have hcomb := combine_spec (n := n) nrow hr (by omega) alpha (fun t i => Y t i + ext q1 i)
    (fun t i => Y t i + ext q2 i)
  refine ⟨_, q1, q2, ?_, o1, o2, hcomb, fun ha => hcomb.defined ha⟩
  have r1 : ring nrow n 1 X = .ok (some fun t i => Y t i + ext q1 i) := by
    unfold ring
    rw [if_neg (by rw [kernel_length]; simp; omega)]
    dsimp only
    rw [← hY, c1, hY]
    rfl
  have r2 : ring nrow n 2 X = .ok (some fun t i => Y t i + ext q2 i) := by
    unfold ring
    rw [if_neg (by rw [kernel_length]; simp; omega)]
    dsimp only
    rw [← hY, c2, hY]
    rfl
  unfold removeTi
  simp only [if_true, r1, r2]
  rfl

/-- **C82** Where the method has nothing to do it returns NaN everywhere: if all projections have the
same sum (as in ideal data), or the mean profile is a straight line. -/
theorem ti_undefined (nrow nblock : Nat) (hr : 0 < nrow) (hn : 3 ≤ n) (alpha : ℝ)
    (X : Nat → Nat → Option ℝ) (Y : Nat → Nat → ℝ) (hY : Y = fun t i => (X t i).getD 0)
    (hb : nblock ≤ 1)
    (h : (∀ t < nrow, ∑ i ∈ Finset.range n, Y t i = ∑ i ∈ Finset.range n, Y 0 i) ∨
      ∃ b c : ℝ, ∀ i < n, ∑ t ∈ Finset.range nrow, Y t i = b + c * i) :
    ∃ out, removeTi nrow n nblock alpha X = .ok out ∧ ∀ t i, out t i = none := by
  have hm : ∀ l (hl : l < n), ext (meanProfile n 0 nrow Y) l
      = (∑ t ∈ Finset.range nrow, Y t l) / nrow := fun l hl => by
    unfold ext
    rw [dif_pos hl]
    simp [meanProfile]
  have c2 : correction n 2 0 nrow Y = none := by
    refine correction_undefined 2 0 nrow hn hr Y ?_
    rcases h with h | ⟨b, c, h⟩
    · left; simpa using h
    · right
      intro k hk
      rw [kernel_length] at hk
      simp at hk
      rw [(diff_kernel _ k).2, hm k (by omega), hm (k + 1) (by omega), hm (k + 2) (by omega),
        h k (by omega), h (k + 1) (by omega), h (k + 2) (by omega)]
      push_cast
      ring
  rcases Nat.lt_or_ge 0 nblock with h1 | h1
  · -- one block of all angles
    have hb1 : nblock = 1 := by omega
    subst hb1
    have hd : nrow / 1 = nrow := Nat.div_one nrow
    have hd' : nrow / nrow = 1 := Nat.div_self hr
    have r2 : ringb nrow n 2 nrow X = .ok none := by
      unfold ringb
      rw [if_neg (by omega), if_neg (by rw [kernel_length]; simp; omega)]
      dsimp only
      rw [if_neg]
      rintro ⟨_, hc⟩
      have := hc 0 (by rw [hd']; decide)
      rw [← hY, zero_mul, c2] at this
      simp at this
    have r1 : ∃ o, ringb nrow n 1 nrow X = .ok o := by
      unfold ringb
      rw [if_neg (by omega), if_neg (by rw [kernel_length]; simp; omega)]
      dsimp only
      split <;> exact ⟨_, rfl⟩
    obtain ⟨o, r1⟩ := r1
    unfold removeTi
    simp only [one_ne_zero, if_false, hd, r1, r2]
    cases o <;> exact ⟨_, rfl, fun _ _ => rfl⟩
  · have hb0 : nblock = 0 := by omega
    subst hb0
    have r2 : ring nrow n 2 X = .ok none := by
      unfold ring
      rw [if_neg (by rw [kernel_length]; simp; omega)]
      dsimp only
      rw [← hY, c2]
      rfl
    have r1 : ∃ o, ring nrow n 1 X = .ok o := by
      unfold ring
      rw [if_neg (by rw [kernel_length]; simp; omega)]
      exact ⟨_, rfl⟩
    obtain ⟨o, r1⟩ := r1
    unfold removeTi
    simp only [if_true, r1, r2]
    cases o <;> exact ⟨_, rfl, fun _ _ => rfl⟩

/-- **C82** With blocks: if the corrections of all blocks are defined, the angles in whole blocks are
combined from the sinogram with the corrections of their block.  The angles after the last whole
block are lost: their pixels count as 1 whatever the data. -/
theorem ti_blocks_partial (nrow nblock step : Nat) (hr : 0 < nrow) (hn : 3 ≤ n) (alpha : ℝ)
    (hb : 0 < nblock) (hstep : step = nrow / nblock) (hs : 0 < step) (Y : Nat → Nat → ℝ)
    (q1 q2 : Nat → Fin n → ℝ)
    (h1 : ∀ k < nrow / step, correction n 1 (k * step) step Y = some (q1 k))
    (h2 : ∀ k < nrow / step, correction n 2 (k * step) step Y = some (q2 k)) :
    ∃ out, removeTi nrow n nblock alpha (fun t i => some (Y t i)) = .ok out ∧
      Combined nrow n alpha
        (fun t i => if t < nrow / step * step then Y t i + ext (q1 (t / step)) i else 1)
        (fun t i => if t < nrow / step * step then Y t i + ext (q2 (t / step)) i else 1) out := by
  have key : ∀ m (q : Nat → Fin n → ℝ),
      (∀ k < nrow / step, correction n m (k * step) step Y = some (q k)) →
      ringb nrow n m step (fun t i => some (Y t i)) = .ok (some fun t i =>
        if t < nrow / step * step then Y t i + ext (q (t / step)) i else 1) := by
    intro m q hq
    unfold ringb
    rw [if_neg (by omega), if_neg (by rw [kernel_length]; split <;> omega)]
    dsimp only [Option.getD_some]
    rw [if_pos ⟨fun _ _ _ _ => rfl, fun k hk => by rw [hq k hk]; rfl⟩]
    congr 2
    funext t i
    split
    · rename_i ht
      have : t / step < nrow / step := by
        rw [Nat.div_lt_iff_lt_mul hs]; exact ht
      rw [hq _ this]
      rfl
    · rfl
  refine ⟨_, ?_, combine_spec nrow hr (by omega) alpha _ _⟩
  unfold removeTi
  simp only [if_neg (show nblock ≠ 0 by omega), ← hstep, key 1 q1 h1, key 2 q2 h2]
  rfl

/-- **C82** Angles are lost unless the block length divides their number. -/
theorem ti_lost (nrow step : Nat) (hs : 0 < step) :
    (∃ t < nrow, ¬ t < nrow / step * step) ↔ ¬ step ∣ nrow := by
  have h := Nat.div_add_mod nrow step
  rw [Nat.mul_comm] at h
  have hm := Nat.mod_lt nrow hs
  constructor
  · rintro ⟨t, ht, hn⟩ hd
    rw [Nat.div_mul_cancel hd] at hn
    exact hn ht
  · intro hd
    have : nrow % step ≠ 0 := fun e => hd (Nat.dvd_of_mod_eq_zero e)
    exact ⟨nrow / step * step, by omega, lt_irrefl _⟩

example : ¬ (11 / 3) ∣ 11 := by decide

/-- **C82** More blocks than angles raise ZeroDivisionError; fewer than three columns ValueError. -/
theorem ti_raises (nrow nblock : Nat) (alpha : ℝ) (X : Nat → Nat → Option ℝ) :
    (nrow < nblock → removeTi nrow n nblock alpha X = .error .zeroDivision) ∧
    (n < 3 → nblock ≤ nrow → removeTi nrow n nblock alpha X = .error .value) := by
  constructor
  · intro h
    have h0 : nrow / nblock = 0 := Nat.div_eq_of_lt h
    unfold removeTi
    simp only [if_neg (show nblock ≠ 0 by omega), h0, ringb, if_true]
    rfl
  · intro h hb
    rcases Nat.eq_zero_or_pos nblock with h0 | h0
    · subst h0
      have r2 : ring nrow n 2 X = .error .value := by
        unfold ring; rw [if_pos (by rw [kernel_length]; simpa using h)]
      have r1 : ring nrow n 1 X = .error .value ∨ ∃ o, ring nrow n 1 X = .ok o := by
        unfold ring
        split
        · exact .inl rfl
        · exact .inr ⟨_, rfl⟩
      unfold removeTi
      simp only [if_true, r2]
      rcases r1 with r1 | ⟨o, r1⟩ <;> rw [r1] <;> rfl
    · have hs : nrow / nblock ≠ 0 := by
        have := Nat.div_pos hb h0; omega
      have r2 : ringb nrow n 2 (nrow / nblock) X = .error .value := by
        unfold ringb; rw [if_neg hs, if_pos (by rw [kernel_length]; simpa using h)]
      have r1 : ringb nrow n 1 (nrow / nblock) X = .error .value ∨
          ∃ o, ringb nrow n 1 (nrow / nblock) X = .ok o := by
        unfold ringb
        rw [if_neg hs]
        split
        · exact .inl rfl
        · dsimp only
          split <;> exact .inr ⟨_, rfl⟩
      unfold removeTi
      simp only [if_neg (show nblock ≠ 0 by omega), r2]
      rcases r1 with r1 | ⟨o, r1⟩ <;> rw [r1] <;> rfl

/-- **C82** In blocks a NaN spoils the result: `np.isnan(..) is True` replaces nothing. -/
theorem ti_blocks_nan (nrow nblock : Nat) (hn : 3 ≤ n) (alpha : ℝ) (hb : 0 < nblock)
    (hb' : nblock ≤ nrow) (X : Nat → Nat → Option ℝ) (t i : Nat)
    (ht : t < nrow / (nrow / nblock) * (nrow / nblock)) (hi : i < n) (hx : X t i = none) :
    ∃ out, removeTi nrow n nblock alpha X = .ok out ∧ ∀ t i, out t i = none := by
  have hs : nrow / nblock ≠ 0 := by
    have := Nat.div_pos hb' hb; omega
  have r : ∀ m, ringb nrow n m (nrow / nblock) X = .ok none := by
    intro m
    unfold ringb
    rw [if_neg hs, if_neg (by rw [kernel_length]; split <;> omega)]
    dsimp only
    rw [if_neg]
    rintro ⟨hc, _⟩
    have := hc t ht i hi
    rw [hx] at this
    simp at this
  unfold removeTi
  simp only [if_neg (show nblock ≠ 0 by omega), r]
  exact ⟨_, rfl, fun _ _ => rfl⟩

/-! ### The hypotheses can be met -/

/-- Two angles, three columns. -/
def tiny : Nat → Nat → ℝ := fun t i => if t = 0 then (if i = 1 then 1 else 0) else (if i = 1 then 2 else 0)

example (alpha : ℝ) : ∃ (out : Nat → Nat → Option ℝ) (q1 q2 : Fin 3 → ℝ),
    removeTi 2 3 0 alpha (fun t i => some (tiny t i)) = .ok out ∧
      NearlyOptimal 1 0 2 tiny q1 ∧ NearlyOptimal 2 0 2 tiny q2 ∧
      Combined 2 3 alpha (fun t i => tiny t i + ext q1 i) (fun t i => tiny t i + ext q2 i) out ∧
      (1 ≤ alpha → ∀ t < 2, ∀ i < 3, (out t i).isSome) :=
  ti_value_partial 2 (by decide) (by decide) (by decide) alpha _ tiny rfl
    ⟨1, by decide, by norm_num [tiny, Finset.sum_range_succ]⟩
    ⟨0, by decide, by norm_num [tiny, Finset.sum_range_succ]⟩

/-- Five angles in two blocks of two: the last angle is lost. -/
example (alpha : ℝ) : ∃ (q1 q2 : Nat → Fin 3 → ℝ) (out : Nat → Nat → Option ℝ),
    removeTi 5 3 2 alpha (fun t i => some (tiny (t % 2) i)) = .ok out ∧
      Combined 5 3 alpha (fun t i => if t < 4 then tiny (t % 2) i + ext (q1 (t / 2)) i else 1)
        (fun t i => if t < 4 then tiny (t % 2) i + ext (q2 (t / 2)) i else 1) out := by
  have hc : ∀ m k, m = 1 ∨ m = 2 → k < 2 → ∃ q,
      correction 3 m (k * 2) 2 (fun t i => tiny (t % 2) i) = some q := by
    intro m k hm hk
    have hk : k = 0 ∨ k = 1 := by omega
    obtain ⟨q, e, _⟩ := correction_optimal (n := 3) m (k * 2) 2 (by decide) (by decide) (by decide)
      (fun t i => tiny (t % 2) i)
      ⟨1, by decide, by rcases hk with rfl | rfl <;> norm_num [tiny, Finset.sum_range_succ]⟩
      ⟨0, by rw [kernel_length]; split <;> decide, by
        rcases hk with rfl | rfl <;> rcases hm with rfl | rfl <;>
          first
          | (rw [(diff_kernel _ _).1]; norm_num [ext, meanProfile, tiny, Finset.sum_range_succ])
          | (rw [(diff_kernel _ _).2]; norm_num [ext, meanProfile, tiny, Finset.sum_range_succ])⟩
    exact ⟨q, e⟩
  choose! q hq using hc
  exact ⟨q 1, q 2, ti_blocks_partial 5 2 2 (by decide) (by decide) alpha (by decide) rfl (by decide)
    (fun t i => tiny (t % 2) i) (q 1) (q 2) (fun k hk => hq 1 k (.inl rfl) hk)
    (fun k hk => hq 2 k (.inr rfl) hk)⟩

example (alpha : ℝ) : ∃ out, removeTi 4 5 0 alpha (fun _ i => some (i : ℝ)) = .ok out ∧
    ∀ t i, out t i = none :=
  ti_undefined 4 0 (by decide) (by decide) alpha _ _ rfl (by decide) (.inl fun _ _ => rfl)

end Tomopy.Ti
