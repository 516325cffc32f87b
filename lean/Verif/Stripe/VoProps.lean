import Verif.Stripe.Vo

/-! Theorems about the removal of large and dead stripes (C81). -/
set_option linter.unusedSectionVars false

namespace Tomopy.Stripe
open Tomopy.Num

variable {K : Type} [LinearOrder K] [Field K] [IsStrictOrderedRing K] [FloorRing K]

/-! ### Lemmas -/

/-- At most 40 % of the rows are dropped at either end. -/
theorem nDrop_lt (ratio : K) (nrow : Nat) (h : 0 < nrow) : 2 * nDrop ratio nrow < nrow := by
  have h2 : 5 * nDrop ratio nrow ≤ 2 * nrow := by
    unfold nDrop
    have hn : (0 : K) ≤ (nrow : K) := Nat.cast_nonneg _
    set q := max 0 (min ratio (4 / 5)) with hq
    have hq0 : 0 ≤ q := le_max_left _ _
    have hq1 : q ≤ 4 / 5 := max_le (by norm_num) (min_le_right _ _)
    have hf := Int.floor_le (1 / 2 * q * (nrow : K))
    have h0 : 0 ≤ ⌊1 / 2 * q * (nrow : K)⌋ := Int.floor_nonneg.2 (by positivity)
    have hm : q * (nrow : K) ≤ 4 / 5 * nrow := mul_le_mul_of_nonneg_right hq1 hn
    have h5 : ((5 * ⌊1 / 2 * q * (nrow : K)⌋ : Int) : K) ≤ ((2 * nrow : Int) : K) := by
      push_cast
      linarith
    have h6 := Int.cast_le.1 h5
    omega
  omega

theorem trimmedMean_congr (nrow nd : Nat) (S T : Nat → Nat → K) (i j : Nat)
    (h : ∀ r < nrow, S i r = T j r) : trimmedMean nrow nd S i = trimmedMean nrow nd T j := by
  unfold trimmedMean
  congr 1
  refine Finset.sum_congr rfl fun r hr => ?_
  have := Finset.mem_Ico.1 hr
  exact h r (by omega)

theorem trimmedMean_pos (nrow nd : Nat) (hnd : 2 * nd < nrow) (S : Nat → Nat → K) (i : Nat)
    (h : ∀ r < nrow, 0 < S i r) : 0 < trimmedMean nrow nd S i := by
  unfold trimmedMean
  refine div_pos (Finset.sum_pos (fun r hr => ?_) ⟨nd, Finset.mem_Ico.2 ⟨le_refl _, by omega⟩⟩) ?_
  · have := Finset.mem_Ico.1 hr
    exact h r (by omega)
  · exact_mod_cast (by omega : 0 < nrow - nd - nd)

theorem windowCols_lt {ncol size i c : Nat} (hn : 0 < ncol) (hc : c ∈ windowCols ncol size i) :
    c < ncol := by
  unfold windowCols at hc
  obtain ⟨a, _, e⟩ := List.mem_map.1 hc
  rw [← e]
  exact reflect_lt hn _

theorem length_windowCols (ncol size i : Nat) : (windowCols ncol size i).length = size := by
  simp [windowCols]

/-- The median over the columns where most columns agree. -/
theorem medianCols_majority (ncol size : Nat) (hs : 1 ≤ size) (S : Nat → Nat → K) (i r : Nat) (v : K)
    (h : (windowCols ncol size i).countP (fun c => decide (S c r ≠ v)) ≤ (size - 1) / 2) :
    medianCols ncol size S i r = v := by
  refine (medianCols_isRank ncol size hs S i r).unique ?_
  have := isRank_majority (windowCols ncol size i) (fun c => S c r) v
    (by rw [length_windowCols]; exact h)
    (by intro e; have := length_windowCols ncol size i; rw [e] at this; simp at this; omega)
  rwa [length_windowCols] at this

theorem sortedImage_mem (nrow : Nat) (X : Nat → Nat → K) (i r : Nat) (hr : r < nrow) :
    ∃ t < nrow, sortedImage nrow X i r = X t i := by
  have hc : (sortL (column nrow X i)).length = nrow := by rw [length_sortL]; simp [column]
  unfold sortedImage
  rw [List.getD_eq_getElem _ _ (by rw [hc]; exact hr)]
  have := mem_sortL.1 (List.getElem_mem (l := sortL (column nrow X i)) (n := r) (by rw [hc]; exact hr))
  obtain ⟨t, ht, e⟩ := List.mem_map.1 this
  exact ⟨t, List.mem_range.1 ht, e.symm⟩

/-- Scaling a column scales its sorted values. -/
theorem sortedImage_scale (nrow : Nat) (X u : Nat → Nat → K) (i : Nat) (a : K) (ha : 0 < a)
    (h : ∀ t < nrow, X t i = a * u t i) (r : Nat) :
    sortedImage nrow X i r = a * sortedImage nrow u i r := by
  have e2 : sortL (column nrow X i) = (sortL (column nrow u i)).map fun x => a * x := by
    refine List.Perm.eq_of_pairwise' (pairwise_sortL _) ?_ ?_
    · rw [List.pairwise_map]
      exact (pairwise_sortL _).imp fun {x y} hxy => mul_le_mul_of_nonneg_left hxy ha.le
    · refine (perm_sortL _).trans ?_
      have : column nrow X i = (column nrow u i).map fun x => a * x := by
        unfold column
        rw [List.map_map]
        exact List.map_congr_left fun t ht => h t (List.mem_range.1 ht)
      rw [this]
      exact ((perm_sortL _).map _).symm
  unfold sortedImage
  rw [e2, List.getD_eq_getElem?_getD, List.getD_eq_getElem?_getD, List.getElem?_map]
  cases (sortL (column nrow u i))[r]? <;> simp

/-- A sinogram with multiplicative stripes: column `i` is `a i` times a true column; the true columns
`u` have the same values in different orders; in every window of the filter most columns are
right. -/
structure Striped (nrow ncol size : Nat) (X u : Nat → Nat → K) (a : Nat → K) (p : Nat → K) : Prop where
  pos : ∀ i < ncol, 0 < a i
  eq : ∀ i < ncol, ∀ t < nrow, X t i = a i * u t i
  perm : ∀ i < ncol, (column nrow u i).Perm ((List.range nrow).map p)
  ppos : ∀ t < nrow, 0 < p t
  maj : ∀ i < ncol, (windowCols ncol size i).countP (fun c => decide (a c ≠ 1)) ≤ (size - 1) / 2

section
variable {nrow ncol size : Nat} {X u : Nat → Nat → K} {a p : Nat → K}

/-- `r`-th smallest value of the common profile. -/
def profile (nrow : Nat) (p : Nat → K) (r : Nat) : K := (sortL ((List.range nrow).map p)).getD r 0

theorem Striped.sorted_true (h : Striped nrow ncol size X u a p) {i : Nat} (hi : i < ncol) (r : Nat) :
    sortedImage nrow u i r = profile nrow p r := by
  unfold sortedImage profile
  rw [sortL_perm (h.perm i hi)]

theorem Striped.sorted (h : Striped nrow ncol size X u a p) {i : Nat} (hi : i < ncol) (r : Nat) :
    sortedImage nrow X i r = a i * profile nrow p r := by
  rw [sortedImage_scale nrow X u i (a i) (h.pos i hi) (h.eq i hi) r, h.sorted_true hi]

theorem Striped.smooth (h : Striped nrow ncol size X u a p) (hs : 1 ≤ size) {i : Nat} (hi : i < ncol)
    (r : Nat) : medianCols ncol size (sortedImage nrow X) i r = profile nrow p r := by
  refine medianCols_majority ncol size hs _ i r _ (le_trans ?_ (h.maj i hi))
  refine List.countP_mono_left fun c hc hx => ?_
  simp only [decide_eq_true_eq] at hx ⊢
  intro e
  exact hx (by rw [h.sorted (windowCols_lt (by omega) hc), e, one_mul])

theorem Striped.profile_pos (h : Striped nrow ncol size X u a p) {r : Nat} (hr : r < nrow) :
    0 < profile nrow p r := by
  unfold profile
  have hc : (sortL ((List.range nrow).map p)).length = nrow := by rw [length_sortL]; simp
  rw [List.getD_eq_getElem _ _ (by rw [hc]; exact hr)]
  have := mem_sortL.1 (List.getElem_mem (l := sortL ((List.range nrow).map p)) (n := r)
    (by rw [hc]; exact hr))
  obtain ⟨t, ht, e⟩ := List.mem_map.1 this
  rw [← e]
  exact h.ppos t (List.mem_range.1 ht)

/-- The factors found are the factors of the stripes. -/
theorem Striped.fact (h : Striped nrow ncol size X u a p) (hs : 1 ≤ size) (hr : 0 < nrow) (ratio : K)
    {i : Nat} (hi : i < ncol) : listFact nrow ncol size ratio X i = a i := by
  unfold listFact
  dsimp only
  set nd := nDrop ratio nrow
  have hnd : 2 * nd < nrow := nDrop_lt ratio nrow hr
  have hp := trimmedMean_pos nrow nd hnd (fun _ r => profile nrow p r) 0 fun r hr => h.profile_pos hr
  rw [trimmedMean_congr nrow nd (medianCols ncol size (sortedImage nrow X))
    (fun _ r => profile nrow p r) i 0 fun r _ => h.smooth hs hi r,
    trimmedMean_congr nrow nd (sortedImage nrow X)
    (fun _ r => a i * profile nrow p r) i 0 fun r _ => h.sorted hi r]
  have e : trimmedMean nrow nd (fun _ r => a i * profile nrow p r) 0
      = a i * trimmedMean nrow nd (fun _ r => profile nrow p r) 0 := by
    unfold trimmedMean
    rw [← Finset.mul_sum]; ring
  rw [e, ratioOrOne, if_neg (ne_of_gt hp)]
  field_simp

end

/-! ### Large stripes -/

/-- **C81** What `remove_large_stripe` does with a sinogram of three or more columns.  `f i` is the
factor of column `i`, `marked i` whether the column or a neighbour was detected.  A column that is
not marked is divided by its factor (left alone with `norm=False`); in a marked column the pixels
get the values of the smoothed sorted columns, each rank once; and with a positive factor (or without
normalisation) every pixel gets the value of its own rank. -/
theorem large_value_partial (ag : Argsort K) (nrow ncol : Nat) (hn : 3 ≤ ncol) (snr : K) (size : Nat)
    (ratio : K) (norm : Bool) (X : Nat → Nat → K) :
    ∃ (out : Nat → Nat → Option K) (m : Nat → Bool),
      rsLarge ag nrow ncol snr size ratio norm X = .ok out ∧
      detectStripe ncol (listFact nrow ncol size ratio X) snr = .ok m ∧ ∀ i < ncol,
      ((∀ j < ncol, j ≤ i + 1 → i ≤ j + 1 → m j = false) → ∀ t < nrow, out t i =
        if norm = true ∧ listFact nrow ncol size ratio X i = 0 then none
        else some (X t i / if norm then listFact nrow ncol size ratio X i else 1)) ∧
      (¬ (∀ j < ncol, j ≤ i + 1 → i ≤ j + 1 → m j = false) →
        ∃ ρ : Nat → Nat, (∀ t < nrow, ρ t < nrow) ∧
          (∀ t < nrow, ∀ t' < nrow, ρ t = ρ t' → t = t') ∧
          (∀ t < nrow, out t i = some (medianCols ncol size (sortedImage nrow X) i (ρ t))) ∧
          (norm = false ∨ 0 < listFact nrow ncol size ratio X i → ∀ t < nrow,
            sortedImage nrow X i (ρ t) = X t i)) := by
  obtain ⟨m, hm⟩ := detect_total ncol hn (listFact nrow ncol size ratio X) snr
  unfold rsLarge
  dsimp only
  rw [hm]
  refine ⟨_, m, rfl, rfl, fun i hi => ?_⟩
  have hdil : dilate ncol m i = false ↔ ∀ j < ncol, j ≤ i + 1 → i ≤ j + 1 → m j = false := by
    unfold dilate
    simp only [Bool.or_eq_false_iff, Bool.and_eq_false_iff, decide_eq_false_iff_not]
    constructor
    · rintro ⟨⟨h1, h2⟩, h3⟩ j hj ha hb
      have : j = i ∨ (0 < i ∧ j = i - 1) ∨ j = i + 1 := by omega
      rcases this with rfl | ⟨h0, rfl⟩ | rfl
      · exact h1
      · exact h2.resolve_left (by omega)
      · exact h3.resolve_left (by omega)
    · intro h
      refine ⟨⟨h i hi (by omega) (by omega), ?_⟩, ?_⟩
      · by_cases h0 : 0 < i
        · exact .inr (h _ (by omega) (by omega) (by omega))
        · exact .inl h0
      · by_cases h0 : i + 1 < ncol
        · exact .inr (h _ h0 (by omega) (by omega))
        · exact .inl h0
  refine ⟨fun hk t ht => ?_, fun hk => ?_⟩
  · rw [hdil.2 hk]
    unfold normPixel
    cases norm
    · simp
    · simp
  · have hd : dilate ncol m i = true := by
      by_contra hc
      exact hk (hdil.1 (by simpa using hc))
    simp only [hd, if_true]
    obtain ⟨ρ, h1, h2, h3⟩ := rs_sort_value ag
      (fun _ => medianCols ncol size (sortedImage nrow X)) nrow
      (fun t i => if norm then X t i / listFact nrow ncol size ratio X i else X t i)
      (fun _ _ _ _ _ _ => rfl) i
    refine ⟨ρ, h1, h2, fun t ht => by rw [(h3 t ht).2.2], fun hp t ht => ?_⟩
    have h4 := (h3 t ht).2.1
    cases norm with
    | false => simpa using h4
    | true =>
      have hp := hp.resolve_left (by simp)
      set f := listFact nrow ncol size ratio X i
      simp only [if_true] at h4
      have h5 := sortedImage_scale nrow X (fun t i => X t i / listFact nrow ncol size ratio X i) i f hp
        (fun t _ => by change X t i = f * (X t i / f); field_simp) (ρ t)
      rw [h5, h4]
      change f * (X t i / f) = X t i
      field_simp

/-- **C81** Multiplicative stripes are removed exactly, whatever is detected. -/
theorem large_removes_stripes (ag : Argsort K) {nrow ncol size : Nat} {X u : Nat → Nat → K}
    {a p : Nat → K} (h : Striped nrow ncol size X u a p) (hs : 1 ≤ size) (hr : 0 < nrow)
    (hn : 3 ≤ ncol) (snr ratio : K) :
    ∃ out, rsLarge ag nrow ncol snr size ratio true X = .ok out ∧
      ∀ t < nrow, ∀ i < ncol, out t i = some (u t i) := by
  obtain ⟨out, m, e, hm, hout⟩ := large_value_partial ag nrow ncol hn snr size ratio true X
  refine ⟨out, e, fun t ht i hi => ?_⟩
  obtain ⟨h1, h2⟩ := hout i hi
  have hf := h.fact hs hr ratio hi
  have hap := h.pos i hi
  have hdiv : X t i / a i = u t i := by
    rw [h.eq i hi t ht]; field_simp
  by_cases hk : ∀ j < ncol, j ≤ i + 1 → i ≤ j + 1 → m j = false
  · rw [h1 hk t ht, hf, if_neg (fun hc => (ne_of_gt hap) hc.2), if_pos rfl, hdiv]
  · obtain ⟨ρ, _, _, h5, h6⟩ := h2 hk
    rw [h5 t ht, h.smooth hs hi]
    have h7 := h6 (.inr (hf ▸ hap)) t ht
    rw [h.sorted hi] at h7
    rw [← hdiv, ← h7]
    congr 1
    field_simp

/-- Eight columns with the values 1, 2, 3, 4 in different orders; the fourth column is doubled. -/
def striped8 : Nat → Nat → ℚ := fun t i => (if i = 3 then 2 else 1) * (((t + i) % 4 : Nat) + 1)

theorem striped8_ok : Striped 4 8 5 striped8 (fun t i => (((t + i) % 4 : Nat) + 1 : ℚ))
    (fun i => if i = 3 then 2 else 1) (fun t => (t + 1 : ℚ)) where
  pos := by decide +kernel
  eq := by decide +kernel
  perm := by decide +kernel
  ppos := by decide +kernel
  maj := by decide +kernel

example (ag : Argsort ℚ) (snr ratio : ℚ) : ∃ out, rsLarge ag 4 8 snr 5 ratio true striped8 = .ok out ∧
    ∀ t < 4, ∀ i < 8, out t i = some (((t + i) % 4 : Nat) + 1 : ℚ) :=
  large_removes_stripes ag striped8_ok (by decide) (by decide) (by decide) snr ratio

/-! ### Interpolation -/

theorem keptLeft_spec (mask : Nat → Bool) (h0 : mask 0 = false) : ∀ i, 0 < i →
    keptLeft mask i < i ∧ mask (keptLeft mask i) = false ∧
      ∀ j, keptLeft mask i < j → j < i → mask j = true
  | 0, h => absurd h (by omega)
  | i + 1, _ => by
    rw [keptLeft]
    split
    · rename_i hm
      have hi : 0 < i := Nat.pos_of_ne_zero (fun e => by rw [e, h0] at hm; exact absurd hm (by decide))
      obtain ⟨a, b, c⟩ := keptLeft_spec mask h0 i hi
      refine ⟨by omega, b, fun j h1 h2 => ?_⟩
      rcases Nat.lt_or_ge j i with h | h
      · exact c j h1 h
      · rw [show j = i by omega]; exact hm
    · rename_i hm
      exact ⟨by omega, by simpa using hm, fun j h1 h2 => by omega⟩

theorem keptRight_spec (mask : Nat → Bool) (k : Nat) (hk : mask k = false) : ∀ fuel i, i < k →
    k ≤ i + fuel → i < keptRight mask fuel i ∧ keptRight mask fuel i ≤ k ∧
      mask (keptRight mask fuel i) = false ∧ ∀ j, i < j → j < keptRight mask fuel i → mask j = true
  | 0, i, h1, h2 => by omega
  | fuel + 1, i, h1, h2 => by
    rw [keptRight]
    split
    · rename_i hm
      have hne : i + 1 ≠ k := fun e => by rw [e, hk] at hm; exact absurd hm (by decide)
      obtain ⟨a, b, c, d⟩ := keptRight_spec mask k hk fuel (i + 1) (by omega) (by omega)
      refine ⟨by omega, b, c, fun j h3 h4 => ?_⟩
      rcases Nat.lt_or_ge (i + 1) j with h | h
      · exact d j h h4
      · rw [show j = i + 1 by omega]; exact hm
    · rename_i hm
      exact ⟨by omega, by omega, by simpa using hm, fun j h3 h4 => by omega⟩

/-- `Y` is `Z` with the marked columns replaced: kept columns are unchanged; a marked column lies
between two kept columns with only marked ones in between, and lies on the straight line through
them, row by row. -/
def FilledIn (nrow ncol : Nat) (mask : Nat → Bool) (Z Y : Nat → Nat → Option K) : Prop :=
  ∀ i < ncol, (mask i = false → ∀ t < nrow, Y t i = Z t i) ∧
    (mask i = true → ∃ l r, l < i ∧ i < r ∧ r < ncol ∧ mask l = false ∧ mask r = false ∧
      (∀ j, l < j → j < r → mask j = true) ∧
      ∀ t < nrow, ((Z t l = none ∨ Z t r = none) ∧ Y t i = none) ∨
        ∃ x y w, Z t l = some x ∧ Z t r = some y ∧ Y t i = some w ∧
          (w - x) * ((r : K) - l) = (y - x) * ((i : K) - l))

theorem fillGaps_spec (nrow ncol : Nat) (hr : 2 ≤ nrow) (m : Nat → Bool) (Z : Nat → Nat → Option K) :
    ∃ Y, fillGaps nrow ncol (clearEdges ncol m) Z = .ok Y ∧
      FilledIn nrow ncol (clearEdges ncol m) Z Y := by
  unfold fillGaps
  rw [if_neg (by omega)]
  refine ⟨_, rfl, fun i hi => ⟨fun hk t _ => by simp [hk], fun hk => ?_⟩⟩
  set mask := clearEdges ncol m with hmask
  have hi2 : 2 ≤ i ∧ i + 2 < ncol := by
    rw [hmask] at hk
    unfold clearEdges at hk
    simp only [Bool.and_eq_true, decide_eq_true_eq] at hk
    exact ⟨hk.1.2, hk.2⟩
  have h0 : mask 0 = false := by rw [hmask]; simp [clearEdges]
  have h1 : mask (ncol - 1) = false := by
    rw [hmask]; simp [clearEdges]; omega
  obtain ⟨a1, a2, a3⟩ := keptLeft_spec mask h0 i (by omega)
  obtain ⟨b1, b2, b3, b4⟩ := keptRight_spec mask (ncol - 1) h1 ncol i (by omega) (by omega)
  refine ⟨keptLeft mask i, keptRight mask ncol i, a1, b1, by omega, a2, b3, fun j c1 c2 => ?_,
    fun t _ => ?_⟩
  · rcases Nat.lt_trichotomy j i with h | h | h
    · exact a3 j c1 h
    · rw [h]; exact hk
    · exact b4 j h c2
  · simp only [hk, if_true]
    unfold gapValue
    dsimp only
    generalize keptLeft mask i = l at *
    generalize keptRight mask ncol i = r at *
    rcases hl : Z t l with _ | x
    · exact .inl ⟨.inl rfl, rfl⟩
    · rcases hr' : Z t r with _ | y
      · exact .inl ⟨.inr rfl, rfl⟩
      · refine .inr ⟨x, y, _, rfl, rfl, rfl, ?_⟩
        have hlr : ((r - l : Nat) : K) ≠ 0 := by exact_mod_cast (by omega : r - l ≠ 0)
        rw [Nat.cast_sub (by omega : l ≤ r)] at hlr ⊢
        rw [Nat.cast_sub (by omega : l ≤ i)]
        field_simp
        ring

/-- A filled-in sinogram is constant along a row where the kept pixels are. -/
theorem FilledIn.const {nrow ncol : Nat} {mask : Nat → Bool} {Z Y : Nat → Nat → Option K}
    (h : FilledIn nrow ncol mask Z Y) (u : Nat → K)
    (hZ : ∀ i < ncol, mask i = false → ∀ t < nrow, Z t i = some (u t)) :
    ∀ t < nrow, ∀ i < ncol, Y t i = some (u t) := by
  intro t ht i hi
  obtain ⟨h1, h2⟩ := h i hi
  cases hm : mask i with
  | false => rw [h1 hm t ht]; exact hZ i hi hm t ht
  | true =>
    obtain ⟨l, r, hl, hr, hrn, ml, mr, _, h3⟩ := h2 hm
    have zl := hZ l (by omega) ml t ht
    have zr := hZ r hrn mr t ht
    rcases h3 t ht with ⟨h4, _⟩ | ⟨x, y, w, e1, e2, e3, e4⟩
    · rw [zl, zr] at h4
      simp at h4
    · rw [zl] at e1
      rw [zr] at e2
      injection e1 with e1
      injection e2 with e2
      subst e1 e2
      rw [e3]
      rw [sub_self, zero_mul] at e4
      have hlr : ((r : K) - l) ≠ 0 := by
        rw [sub_ne_zero]; exact_mod_cast (by omega : r ≠ l)
      have := (mul_eq_zero.1 e4).resolve_right hlr
      rw [sub_eq_zero.1 this]

/-- **C81** `remove_stripe_based_interpolation` of a sinogram with at least two rows and three
columns: the columns are divided by their factors (unless `norm=False`), then the marked columns are
filled in by straight lines.  The first two and the last two columns are never marked. -/
theorem interp_value_partial (nrow ncol : Nat) (hr : 2 ≤ nrow) (hn : 3 ≤ ncol) (snr : K) (size : Nat)
    (ratio : K) (norm : Bool) (X : Nat → Nat → K) :
    ∃ out m, rsInterpolation nrow ncol snr size ratio norm X = .ok out ∧
      detectStripe ncol (listFact nrow ncol size ratio X) snr = .ok m ∧
      ∃ mask : Nat → Bool, (∀ i < ncol, mask i = true ↔ 2 ≤ i ∧ i + 2 < ncol ∧
          ∃ j, j ≤ i + 1 ∧ i ≤ j + 1 ∧ m j = true) ∧
        FilledIn nrow ncol mask (fun t i =>
          if norm = true ∧ listFact nrow ncol size ratio X i = 0 then none
          else some (X t i / if norm then listFact nrow ncol size ratio X i else 1)) out := by
  obtain ⟨m, hm⟩ := detect_total ncol hn (listFact nrow ncol size ratio X) snr
  obtain ⟨Y, e, hY⟩ := fillGaps_spec nrow ncol hr (dilate ncol m)
    fun t i => normPixel norm (listFact nrow ncol size ratio X i) (X t i)
  refine ⟨Y, m, ?_, hm, clearEdges ncol (dilate ncol m), fun i hi => ?_, ?_⟩
  · unfold rsInterpolation
    dsimp only
    rw [hm]
    exact e
  · unfold clearEdges dilate
    simp only [Bool.and_eq_true, Bool.or_eq_true, decide_eq_true_eq]
    constructor
    · rintro ⟨⟨h1, h2⟩, h3⟩
      refine ⟨h2, h3, ?_⟩
      rcases h1 with (h1 | h1) | h1
      · exact ⟨i, by omega, by omega, h1⟩
      · exact ⟨i - 1, by omega, by omega, h1.2⟩
      · exact ⟨i + 1, by omega, by omega, h1.2⟩
    · rintro ⟨h2, h3, j, h4, h5, h6⟩
      refine ⟨⟨?_, h2⟩, h3⟩
      have : j = i ∨ j = i - 1 ∨ j = i + 1 := by omega
      rcases this with rfl | rfl | rfl
      · exact .inl (.inl h6)
      · exact .inl (.inr ⟨by omega, h6⟩)
      · exact .inr ⟨by omega, h6⟩
  · have : (fun t i => normPixel norm (listFact nrow ncol size ratio X i) (X t i)) = fun t i =>
        if norm = true ∧ listFact nrow ncol size ratio X i = 0 then none
        else some (X t i / if norm then listFact nrow ncol size ratio X i else 1) := by
      funext t i
      unfold normPixel
      cases norm <;> simp
    rw [← this]
    exact hY

/-- **C81** Multiplicative stripes on a sinogram whose columns are equal are removed exactly. -/
theorem interp_removes_stripes {nrow ncol size : Nat} {X : Nat → Nat → K} {a p : Nat → K}
    (h : Striped nrow ncol size X (fun t _ => p t) a p) (hs : 1 ≤ size) (hr : 2 ≤ nrow)
    (hn : 3 ≤ ncol) (snr ratio : K) :
    ∃ out, rsInterpolation nrow ncol snr size ratio true X = .ok out ∧
      ∀ t < nrow, ∀ i < ncol, out t i = some (p t) := by
  obtain ⟨out, m, e, _, mask, _, hf⟩ := interp_value_partial nrow ncol hr hn snr size ratio true X
  refine ⟨out, e, hf.const p fun i hi _ t ht => ?_⟩
  have hap := h.pos i hi
  rw [h.fact hs (by omega) ratio hi, if_neg (fun hc => (ne_of_gt hap) hc.2), if_pos rfl,
    h.eq i hi t ht]
  congr 1
  field_simp

example (snr ratio : ℚ) : ∃ out,
    rsInterpolation 4 8 snr 5 ratio true (fun t i => (if i = 3 then 2 else 1) * (t + 1 : ℚ)) = .ok out ∧
      ∀ t < 4, ∀ i < 8, out t i = some ((t : ℚ) + 1) :=
  interp_removes_stripes (a := fun i => if i = 3 then 2 else 1) (p := fun t => (t + 1 : ℚ))
    ⟨by decide +kernel, by decide +kernel, by decide +kernel, by decide +kernel, by decide +kernel⟩
    (by decide) (by decide) (by decide) snr ratio

theorem countP_or_le {α : Type} (l : List α) (q q' : α → Bool) :
    l.countP (fun a => q a || q' a) ≤ l.countP q + l.countP q' := by
  induction l with
  | nil => simp
  | cons a l ih =>
    rw [List.countP_cons, List.countP_cons, List.countP_cons]
    cases q a <;> cases q' a <;> simp <;> omega

theorem countP_eq_le_one (n k : Nat) : (List.range n).countP (fun a => decide (a = k)) ≤ 1 := by
  have := List.nodup_iff_count_le_one.1 (List.nodup_range (n := n)) k
  rw [List.count] at this
  refine le_trans (List.countP_mono_left fun a _ h => ?_) this
  simpa using h

/-- **C81** A dead detector column at the edge is not repaired but turned into NaN: if the first
column is 0 and the others are positive, the window has at least five columns and the sinogram at
least as many, then every pixel of the first column becomes 0/0. -/
theorem interp_dead_edge (nrow ncol : Nat) (hr : 2 ≤ nrow) (snr : K) (size : Nat) (hs : 5 ≤ size)
    (hn : size ≤ ncol) (ratio : K) (X : Nat → Nat → K) (h0 : ∀ t < nrow, X t 0 = 0)
    (hpos : ∀ t < nrow, ∀ i < ncol, 0 < i → 0 < X t i) :
    ∃ out, rsInterpolation nrow ncol snr size ratio true X = .ok out ∧
      ∀ t < nrow, out t 0 = none := by
  obtain ⟨out, m, e, _, mask, hm, hf⟩ :=
    interp_value_partial nrow ncol hr (by omega) snr size ratio true X
  refine ⟨out, e, fun t ht => ?_⟩
  have h1 := (hf 0 (by omega)).1 (by
    by_contra hc
    exact absurd ((hm 0 (by omega)).1 (by simpa using hc)).1 (by omega)) t ht
  rw [h1]
  refine if_pos ⟨rfl, ?_⟩
  unfold listFact
  dsimp only
  have hnd := nDrop_lt ratio nrow (by omega)
  have hz : ∀ r < nrow, sortedImage nrow X 0 r = 0 := fun r hr => by
    obtain ⟨t, ht, e⟩ := sortedImage_mem nrow X 0 r hr
    rw [e, h0 t ht]
  have hM : ∀ r < nrow, 0 < medianCols ncol size (sortedImage nrow X) 0 r := by
    intro r hr
    have hrank := medianCols_isRank ncol size (by omega) (sortedImage nrow X) 0 r
    by_contra hc
    have hc := not_lt.1 hc
    have h2 := hrank.2
    rw [List.countP_map] at h2
    have h3 : (windowCols ncol size 0).countP ((fun x => decide
        (x ≤ medianCols ncol size (sortedImage nrow X) 0 r)) ∘ fun c => sortedImage nrow X c r)
        ≤ (windowCols ncol size 0).countP fun c => decide (c = 0) := by
      refine List.countP_mono_left fun c hcw hx => ?_
      simp only [Function.comp, decide_eq_true_eq] at hx ⊢
      by_contra hne
      obtain ⟨t, ht, e⟩ := sortedImage_mem nrow X c r hr
      have := hpos t ht c (windowCols_lt (by omega) hcw) (by omega)
      rw [← e] at this
      exact absurd (le_trans hx hc) (not_le.2 this)
    have h4 : ((windowCols ncol size 0).countP fun c => decide (c = 0)) ≤ 2 := by
      unfold windowCols
      rw [List.countP_map]
      have h5 : (List.range size).countP ((fun c => decide (c = 0)) ∘ fun a : Nat =>
          Corr.reflect ncol (((0 : Nat) : Int) + a - (size / 2 : Nat)))
          ≤ (List.range size).countP (fun a => decide (a = size / 2))
            + (List.range size).countP (fun a => decide (a = size / 2 - 1)) := by
        refine le_trans ?_ (countP_or_le _ _ _)
        refine List.countP_mono_left fun a ha hx => ?_
        have ha := List.mem_range.1 ha
        simp only [Function.comp, decide_eq_true_eq, Bool.or_eq_true] at hx ⊢
        unfold Corr.reflect at hx
        dsimp only at hx
        have hsz : (size / 2 : Nat) < ncol := by omega
        by_cases hge : size / 2 ≤ a
        · rw [Int.emod_eq_of_lt (by omega) (by omega)] at hx
          split at hx <;> omega
        · rw [← Int.add_emod_right, Int.emod_eq_of_lt (by omega) (by omega)] at hx
          split at hx <;> omega
      exact h5.trans (Nat.add_le_add (countP_eq_le_one _ _) (countP_eq_le_one _ _))
    omega
  have hp := trimmedMean_pos nrow _ hnd (medianCols ncol size (sortedImage nrow X)) 0 hM
  rw [ratioOrOne, if_neg (ne_of_gt hp)]
  have : trimmedMean nrow (nDrop ratio nrow) (sortedImage nrow X) 0 = 0 := by
    unfold trimmedMean
    rw [Finset.sum_eq_zero, zero_div]
    intro r hr
    have := Finset.mem_Ico.1 hr
    exact hz r (by omega)
  rw [this, zero_div]

example (snr ratio : ℚ) : ∃ out,
    rsInterpolation 4 8 snr 5 ratio true (fun t i => (i * (t + 1) : ℚ)) = .ok out ∧
      ∀ t < 4, out t 0 = none :=
  interp_dead_edge 4 8 (by decide) snr 5 (by decide) (by decide) ratio _ (by decide +kernel)
    (by decide +kernel)

/-! ### Dead stripes -/

/-- **C81** `remove_dead_stripe(norm=False)`: the marked columns are filled in by straight lines, the
others are unchanged, and so every pixel is defined. -/
theorem dead_value (ag : Argsort K) (nrow ncol : Nat) (hr : 2 ≤ nrow) (hn : 3 ≤ ncol) (snr : K)
    (size : Nat) (X : Nat → Nat → K) :
    ∃ out m, rsDead ag nrow ncol snr size false X = .ok out ∧
      detectStripe ncol (deadFact nrow ncol size X) snr = .ok m ∧
      FilledIn nrow ncol (clearEdges ncol (dilate ncol m)) (fun t i => some (X t i)) out ∧
      (∀ t < nrow, ∀ i < ncol, (out t i).isSome) ∧
      ∀ t < nrow, ∀ i < ncol, i < 2 ∨ ncol ≤ i + 2 → out t i = some (X t i) := by
  obtain ⟨m, hm⟩ := detect_total ncol hn (deadFact nrow ncol size X) snr
  obtain ⟨Y, e, hY⟩ := fillGaps_spec nrow ncol hr (dilate ncol m) fun t i => some (X t i)
  refine ⟨Y, m, ?_, hm, hY, fun t ht i hi => ?_, fun t ht i hi hc => ?_⟩
  · unfold rsDead rsDeadFill
    rw [hm]
    dsimp only
    rw [e]
    simp
  · obtain ⟨h1, h2⟩ := hY i hi
    cases hc : clearEdges ncol (dilate ncol m) i with
    | false => rw [h1 hc t ht]; rfl
    | true =>
      obtain ⟨l, r, _, _, _, _, _, _, h3⟩ := h2 hc
      rcases h3 t ht with ⟨h4, _⟩ | ⟨x, y, w, _, _, e3, _⟩
      · simp at h4
      · rw [e3]; rfl
  · refine (hY i hi).1 ?_ t ht
    unfold clearEdges
    rcases hc with hc | hc
    · rw [decide_eq_false (by omega : ¬ 2 ≤ i)]; simp
    · rw [decide_eq_false (by omega : ¬ i + 2 < ncol)]; simp

/-- The difference of a column to its running mean depends on the column alone. -/
theorem listDiff_congr (nrow : Nat) (X Y : Nat → Nat → K) (i j : Nat)
    (h : ∀ t < nrow, X t i = Y t j) : listDiff nrow X i = listDiff nrow Y j := by
  unfold listDiff
  refine Finset.sum_congr rfl fun t ht => ?_
  have ht := Finset.mem_range.1 ht
  unfold uniform10
  rw [h t ht, Finset.sum_congr rfl fun a _ => h _ (reflect_lt (by omega) _)]

/-- A dead pixel does not differ from its running mean. -/
theorem listDiff_const (nrow : Nat) (X : Nat → Nat → K) (i : Nat) (c : K)
    (h : ∀ t < nrow, X t i = c) : listDiff nrow X i = 0 := by
  unfold listDiff
  refine Finset.sum_eq_zero fun t ht => ?_
  have ht := Finset.mem_range.1 ht
  unfold uniform10
  rw [h t ht, Finset.sum_congr rfl fun a _ => h _ (reflect_lt (by omega) _), Finset.sum_const]
  simp

/-- **C81** Dead columns away from the edges are repaired exactly when the other columns are equal:
suppose the columns `dead` are constant and the others equal `u`, which differs from its running
mean; at most one more than a quarter of the columns is dead, and fewer than half in every window.
Then the result is `u` everywhere. -/
theorem dead_removed (ag : Argsort K) (nrow ncol : Nat) (hr : 2 ≤ nrow) (hn : ncol = 3 ∨ 5 ≤ ncol)
    (snr : K) (hsnr : 0 < snr) (hsnr' : snr ≤ 1000000) (size : Nat) (hs : 1 ≤ size)
    (X : Nat → Nat → K) (u : Nat → K) (dead : Nat → Bool) (v : Nat → K)
    (hX : ∀ t < nrow, ∀ i < ncol, X t i = if dead i then v i else u t)
    (hu : 0 < listDiff nrow (fun t _ => u t) 0)
    (hin : ∀ i < ncol, dead i = true → 2 ≤ i ∧ i + 2 < ncol)
    (hcount : (List.range ncol).countP dead ≤ ncol / 4 + 1)
    (hmaj : ∀ i < ncol, (windowCols ncol size i).countP dead ≤ (size - 1) / 2) :
    ∃ out, rsDead ag nrow ncol snr size false X = .ok out ∧
      ∀ t < nrow, ∀ i < ncol, out t i = some (u t) := by
  obtain ⟨out, m, e, hm, hf, _, _⟩ := dead_value ag nrow ncol hr (by omega) snr size X
  refine ⟨out, e, hf.const u fun i hi hmask t ht => ?_⟩
  have hd1 : ∀ i < ncol, dead i = true → listDiff nrow X i = 0 := fun i hi hd =>
    listDiff_const nrow X i (v i) fun t ht => by rw [hX t ht i hi, hd, if_pos rfl]
  have hd0 : ∀ i < ncol, dead i = false →
      listDiff nrow X i = listDiff nrow (fun t _ => u t) 0 := fun i hi hd =>
    listDiff_congr nrow X (fun t _ => u t) i 0 fun t ht => by rw [hX t ht i hi, hd]; rfl
  have hmed : ∀ i < ncol, medianCols ncol size (fun c _ => listDiff nrow X c) i 0
      = listDiff nrow (fun t _ => u t) 0 := fun i hi => by
    refine medianCols_majority ncol size hs _ i 0 _ (le_trans ?_ (hmaj i hi))
    refine List.countP_mono_left fun c hc hx => ?_
    simp only [decide_eq_true_eq] at hx
    by_contra hd
    exact hx (hd0 c (windowCols_lt (by omega) hc) (by simpa using hd))
  have hfact : ∀ i < ncol, deadFact nrow ncol size X i = if dead i then 0 else 1 := fun i hi => by
    unfold deadFact
    rw [hmed i hi, ratioOrOne, if_neg (ne_of_gt hu)]
    cases hd : dead i with
    | true => rw [hd1 i hi hd]; simp
    | false => rw [hd0 i hi hd]; simp only [Bool.false_eq_true, if_false]; exact div_self (ne_of_gt hu)
  have hd : dead i = false := by
    by_contra hd
    have hd : dead i = true := by simpa using hd
    obtain ⟨m', e', hm'⟩ := detect_outliers ncol hn (deadFact nrow ncol size X) 1 snr hsnr
      (fun i hi => by
        rw [hfact i hi]
        cases dead i with
        | true => right; simp; rw [div_le_one (by norm_num)]; exact hsnr'
        | false => left; rfl)
      (by
        have : (List.range ncol).countP (fun i => decide (1 < deadFact nrow ncol size X i)) = 0 := by
          rw [List.countP_eq_zero]
          intro i hi
          rw [hfact i (List.mem_range.1 hi)]
          cases dead i <;> simp
        omega)
      (by
        refine le_trans (List.countP_mono_left fun i hi hx => ?_) hcount
        simp only [decide_eq_true_eq] at hx
        rw [hfact i (List.mem_range.1 hi)] at hx
        cases h : dead i with
        | true => rfl
        | false => rw [h] at hx; simp at hx)
    rw [hm] at e'
    injection e' with e'
    have hmi : m i = true := by
      rw [e', hm' i hi, hfact i hi, hd]; simp
    obtain ⟨h2, h3⟩ := hin i hi hd
    have : clearEdges ncol (dilate ncol m) i = true := by
      unfold clearEdges dilate
      simp [hmi, h2, h3]
    rw [this] at hmask
    exact absurd hmask (by decide)
  rw [hX t ht i hi, hd]
  rfl

example (ag : Argsort ℚ) : ∃ out,
    rsDead ag 4 9 3 5 false (fun t i => if i = 4 then 7 else (t : ℚ)) = .ok out ∧
      ∀ t < 4, ∀ i < 9, out t i = some (t : ℚ) :=
  dead_removed ag 4 9 (by decide) (.inr (by decide)) 3 (by norm_num) (by norm_num) 5 (by decide) _
    (fun t => (t : ℚ)) (fun i => decide (i = 4)) (fun _ => 7) (by decide +kernel) (by decide +kernel)
    (by decide +kernel) (by decide +kernel) (by decide +kernel)

/-- **C81** A sinogram without stripes (equal columns) passes `remove_all_stripe` unchanged. -/
theorem all_neutral (ag : Argsort K) (nrow ncol : Nat) (hr : 2 ≤ nrow) (hn : ncol = 3 ∨ 5 ≤ ncol)
    (snr : K) (hsnr : 0 < snr) (la sm : Nat) (hla : 1 ≤ la) (hsm : 1 ≤ sm)
    (X : Nat → Nat → K) (u : Nat → K) (hu : ∀ t < nrow, 0 < u t)
    (hX : ∀ t < nrow, ∀ i < ncol, X t i = u t) :
    ∃ out, rsAll ag nrow ncol snr la sm 1 X = .ok out ∧
      ∀ t < nrow, ∀ i < ncol, out t i = some (u t) := by
  -- dead stripes
  have hfill : ∃ Z, rsDeadFill nrow ncol snr la X = .ok Z ∧
      ∀ t < nrow, ∀ i < ncol, Z t i = some (u t) := by
    have hld : ∀ i < ncol, listDiff nrow X i = listDiff nrow (fun t _ => u t) 0 := fun i hi =>
      listDiff_congr nrow X (fun t _ => u t) i 0 fun t ht => hX t ht i hi
    have hflat : ∀ i < ncol, deadFact nrow ncol la X i = 1 := fun i hi => by
      unfold deadFact
      rw [medianCols_majority ncol la hla _ i 0 (listDiff nrow (fun t _ => u t) 0) (by
        have : (windowCols ncol la i).countP (fun c => decide
            (listDiff nrow X c ≠ listDiff nrow (fun t _ => u t) 0)) = 0 := by
          rw [List.countP_eq_zero]
          intro c hc
          simp [hld c (windowCols_lt (by omega) hc)]
        omega), hld i hi, ratioOrOne]
      split
      · rfl
      · rename_i h0; exact div_self h0
    obtain ⟨m, hm, hm0⟩ := detect_flat ncol hn (deadFact nrow ncol la X) 1 snr hsnr hflat
    obtain ⟨Z, e, hZ⟩ := fillGaps_spec nrow ncol hr (dilate ncol m) fun t i => some (X t i)
    refine ⟨Z, ?_, hZ.const u fun i hi _ t ht => by rw [hX t ht i hi]⟩
    unfold rsDeadFill
    rw [hm]
    exact e
  obtain ⟨Z, eZ, hZ⟩ := hfill
  -- large stripes
  have hst : Striped nrow ncol la (fun t i => (Z t i).getD 0) (fun t _ => u t) (fun _ => 1) u :=
    ⟨fun _ _ => one_pos, fun i hi t ht => by rw [hZ t ht i hi]; simp, fun i hi => List.Perm.refl _, hu,
      fun i hi => by
        rw [List.countP_eq_zero.2 fun c _ => by simp]; exact Nat.zero_le _⟩
  obtain ⟨W, eW, hW⟩ := large_removes_stripes ag hst hla (by omega) (by omega) snr (1 / 10)
  unfold rsAll rsDead
  rw [eZ]
  simp only [if_true, eW]
  refine ⟨_, rfl, fun t ht i hi => ?_⟩
  rw [if_pos fun t' ht' i' hi' => by rw [hW t' ht' i' hi']; rfl]
  -- sorting filter
  have hcol : ∀ c < ncol, ∀ r, sortedImage nrow (fun t i => (W t i).getD 0) c r
      = profile nrow u r := fun c hc r => by
    unfold sortedImage profile column
    congr 2
    refine List.map_congr_left fun t ht => ?_
    show (W t c).getD 0 = u t
    rw [hW t (List.mem_range.1 ht) c hc]; rfl
  rw [rs_sort_neutral ag nrow ncol sm 1 _ (fun i hi r hr => by
    unfold rsFilter
    rw [if_pos rfl, hcol i hi]
    refine medianCols_majority ncol sm hsm _ i r _ ?_
    have : (windowCols ncol sm i).countP (fun c => decide
        (sortedImage nrow (fun t i => (W t i).getD 0) c r ≠ profile nrow u r)) = 0 := by
      rw [List.countP_eq_zero]
      intro c hc
      simp [hcol c (windowCols_lt (by omega) hc) r]
    omega) t ht i hi]
  rw [hW t ht i hi]
  rfl

/-- **C81** A single row cannot be interpolated: both functions raise. -/
theorem one_row_raises (ag : Argsort K) (ncol : Nat) (hn : 3 ≤ ncol) (snr ratio : K) (size : Nat)
    (norm : Bool) (X : Nat → Nat → K) :
    rsInterpolation 1 ncol snr size ratio norm X = .error .value ∧
      rsDead ag 1 ncol snr size norm X = .error .value := by
  obtain ⟨m, hm⟩ := detect_total ncol hn (listFact 1 ncol size ratio X) snr
  obtain ⟨m', hm'⟩ := detect_total ncol hn (deadFact 1 ncol size X) snr
  constructor
  · unfold rsInterpolation fillGaps
    dsimp only
    rw [hm]
    rfl
  · unfold rsDead rsDeadFill fillGaps
    rw [hm']
    rfl

end Tomopy.Stripe
