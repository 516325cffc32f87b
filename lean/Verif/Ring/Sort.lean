import Verif.Ring.Model
import Mathlib.Logic.Equiv.Basic
import Mathlib.Tactic.Linarith

/-! The two in-place sorting routines of remove_ring.c: quick sort (lines 185-219) sorts, and one
changed element is put back in order by `bubble_2_arrays` (lines 221-258). -/

set_option linter.unusedSectionVars false

namespace Tomopy.Ring

section
variable {K : Type} [Field K] [LinearOrder K] [IsStrictOrderedRing K] [FloorRing K]

/-- The permutation moves nothing outside `l … r`. -/
def PermOn (l r : Int) (π : Equiv.Perm Int) : Prop := ∀ x, x < l ∨ r < x → π x = x

/-- Values in ascending order on `l … r`. -/
def SortedOn (a : Arr K) (l r : Int) : Prop :=
  ∀ i j, l ≤ i → i ≤ j → j ≤ r → (a i).1 ≤ (a j).1

/-- Values in ascending order on `0 … len - 1` if position `idx` is left out. -/
def SortedEx (a : Arr K) (idx len : Int) : Prop :=
  ∀ i j, 0 ≤ i → i ≤ j → j < len → i ≠ idx → j ≠ idx → (a i).1 ≤ (a j).1

theorem swapA_eq (a : Arr K) (i j : Int) : swapA a i j = a ∘ Equiv.swap i j := by
  funext x
  simp only [swapA, Function.comp, Equiv.swap_apply_def]
  split_ifs <;> rfl

theorem PermOn.refl (l r : Int) : PermOn l r (Equiv.refl Int) := fun _ _ => rfl

theorem PermOn.swap {l r i j : Int} (hi : l ≤ i ∧ i ≤ r) (hj : l ≤ j ∧ j ≤ r) :
    PermOn l r (Equiv.swap i j) := by
  intro x hx
  rw [Equiv.swap_apply_of_ne_of_ne] <;> omega

theorem PermOn.trans {l r : Int} {π ρ : Equiv.Perm Int} (h : PermOn l r π) (h' : PermOn l r ρ) :
    PermOn l r (ρ.trans π) := by
  intro x hx
  rw [Equiv.trans_apply, h' x hx, h x hx]

theorem PermOn.weaken {l r l' r' : Int} {π : Equiv.Perm Int} (h : PermOn l r π) (hl : l' ≤ l)
    (hr : r ≤ r') : PermOn l' r' π := fun x hx => h x (by omega)

theorem PermOn.maps {l r : Int} {π : Equiv.Perm Int} (h : PermOn l r π) {x : Int} (hl : l ≤ x)
    (hr : x ≤ r) : l ≤ π x ∧ π x ≤ r := by
  by_contra hc
  have h1 : π (π x) = π x := h _ (by omega)
  have h2 : π x = x := π.injective h1
  rw [h2] at hc
  exact hc ⟨hl, hr⟩

theorem intRange_foldl_inv {σ : Type} (P : Int → σ → Prop) (f : σ → Int → σ) (a b : Int)
    (hab : a ≤ b + 1) (s0 : σ) (h0 : P a s0)
    (hs : ∀ i s, a ≤ i → i ≤ b → P i s → P (i + 1) (f s i)) :
    P (b + 1) ((intRange a b).foldl f s0) := by
  have key : ∀ n : Nat, a + n ≤ b + 1 →
      P (a + n) (((List.range n).map fun n : Nat => a + n).foldl f s0) := by
    intro n
    induction n with
    | zero => intro _; simpa using h0
    | succ n ih =>
      intro hn
      rw [List.range_succ, List.map_append, List.foldl_append]
      have := hs (a + n) _ (by omega) (by push_cast at hn; omega) (ih (by push_cast at hn; omega))
      simpa [add_assoc] using this
  have h1 : a + ((b + 1 - a).toNat : Int) = b + 1 := by omega
  have := key (b + 1 - a).toNat (by omega)
  rw [h1] at this
  exact this

theorem partition_spec (a : Arr K) (l r piv : Int) (hl : l ≤ piv) (hr : piv ≤ r) :
    ∃ π, PermOn l r π ∧ (partition a l r piv).1 = a ∘ π ∧
      l ≤ (partition a l r piv).2 ∧ (partition a l r piv).2 ≤ r ∧
      (∀ x, l ≤ x → x ≤ (partition a l r piv).2 →
        ((partition a l r piv).1 x).1 ≤ ((partition a l r piv).1 (partition a l r piv).2).1) ∧
      (∀ x, (partition a l r piv).2 < x → x ≤ r →
        ((partition a l r piv).1 (partition a l r piv).2).1 < ((partition a l r piv).1 x).1) := by
  have inv := intRange_foldl_inv
    (fun i (s : Arr K × Int) => (∃ π, PermOn l r π ∧ s.1 = a ∘ π) ∧ l ≤ s.2 ∧ s.2 ≤ i ∧
      (s.1 r).1 = (a piv).1 ∧ (∀ x, l ≤ x → x < s.2 → (s.1 x).1 ≤ (a piv).1) ∧
      (∀ x, s.2 ≤ x → x < i → (a piv).1 < (s.1 x).1))
    (partStep (a piv).1) l (r - 1) (by omega) (swapA a piv r, l)
    ⟨⟨_, PermOn.swap ⟨hl, hr⟩ ⟨by omega, le_refl r⟩, swapA_eq a piv r⟩, le_refl _, le_refl _, by
      dsimp only [swapA]; split_ifs with h h'
      · rw [h]
      · rfl
      · exact absurd rfl h', fun x h1 h2 => by dsimp only at h2; omega, fun x h1 h2 => by dsimp only at h1; omega⟩ (by
      rintro i ⟨b, st⟩ hi1 hi2 ⟨⟨π, hπ, hb⟩, h1, h2, h3, h4, h5⟩
      dsimp only at hb h1 h2 h3 h4 h5
      simp only [partStep]
      split_ifs with hc
      · refine ⟨⟨(Equiv.swap i st).trans π, hπ.trans (PermOn.swap ⟨hi1, by omega⟩
          ⟨h1, by omega⟩), ?_⟩, by dsimp only; omega, by dsimp only; omega, ?_, ?_, ?_⟩
        · dsimp only
          rw [swapA_eq, hb]
          rfl
        · simp only [swapA]
          rw [if_neg (by omega), if_neg (by omega)]
          exact h3
        · intro x hx1 hx2
          dsimp only at hx2
          simp only [swapA]
          split_ifs with e1 e2
          · rcases eq_or_ne i st with e | e
            · rw [← e]; exact hc
            · exact absurd hx2 (by omega)
          · exact hc
          · exact h4 x hx1 (by omega)
        · intro x hx1 hx2
          dsimp only at hx1
          simp only [swapA]
          split_ifs with e1 e2
          · exact h5 st le_rfl (by omega)
          · omega
          · exact h5 x (by omega) (by omega)
      · refine ⟨⟨π, hπ, hb⟩, h1, by dsimp only; omega, h3, h4, ?_⟩
        intro x hx1 hx2
        dsimp only at hx1
        rcases eq_or_ne x i with e | e
        · rw [e]; exact not_le.mp hc
        · exact h5 x hx1 (by omega))
  have hp : partition a l r piv = (swapA ((intRange l (r - 1)).foldl (partStep (a piv).1)
      (swapA a piv r, l)).1 ((intRange l (r - 1)).foldl (partStep (a piv).1)
      (swapA a piv r, l)).2 r, ((intRange l (r - 1)).foldl (partStep (a piv).1)
      (swapA a piv r, l)).2) := rfl
  rw [hp]
  generalize (intRange l (r - 1)).foldl (partStep (a piv).1) (swapA a piv r, l) = s at inv ⊢
  obtain ⟨b, st⟩ := s
  obtain ⟨⟨π, hπ, hb⟩, h1, h2, h3, h4, h5⟩ := inv
  dsimp only at *
  have hst : (swapA b st r st).1 = (a piv).1 := by simp only [swapA, if_pos]; exact h3
  refine ⟨(Equiv.swap st r).trans π, hπ.trans (PermOn.swap ⟨h1, by omega⟩ ⟨by omega, le_rfl⟩), ?_,
    h1, by omega, ?_, ?_⟩
  · rw [swapA_eq, hb]; rfl
  · intro x hx1 hx2
    rw [hst]
    simp only [swapA]
    split_ifs with e1 e2
    · exact h3.le
    · have : st = r := by omega
      rw [this]; exact h3.le
    · exact h4 x hx1 (by omega)
  · intro x hx1 hx2
    rw [hst]
    simp only [swapA]
    rw [if_neg (by omega)]
    split_ifs with e2
    · exact h5 st le_rfl (by omega)
    · exact h5 x (by omega) (by omega)

/-- `quick_sort_2_arrays` returns, permutes the pairs within `left … right` and leaves the values
there in ascending order, for every content of the arrays. -/
theorem quickSort_sorts : ∀ (f : Nat) (a : Arr K) (l r : Int), 0 ≤ l → (r - l + 1).toNat < f →
    ∃ b π, quickSort f a l r = some b ∧ PermOn l r π ∧ b = a ∘ π ∧ SortedOn b l r := by
  intro f
  induction f with
  | zero => intro a l r _ h; omega
  | succ f ih =>
    intro a l r hl0 hf
    rw [quickSort]
    by_cases hlr : l < r
    · rw [if_pos hlr]
      have hdiv : Int.tdiv (l + r) 2 = (l + r) / 2 := Int.tdiv_eq_ediv_of_nonneg (by omega)
      obtain ⟨π, hπ, hb, hp1, hp2, hle, hlt⟩ := partition_spec a l r (Int.tdiv (l + r) 2)
        (by rw [hdiv]; omega) (by rw [hdiv]; omega)
      dsimp only
      generalize partition a l r (Int.tdiv (l + r) 2) = q at hb hp1 hp2 hle hlt
      obtain ⟨b, p⟩ := q
      dsimp only at hb hp1 hp2 hle hlt ⊢
      obtain ⟨b1, π1, e1, hπ1, hb1, hs1⟩ := ih b l (p - 1) hl0 (by omega)
      obtain ⟨b2, π2, e2, hπ2, hb2, hs2⟩ := ih b1 (p + 1) r (by omega) (by omega)
      rw [e1]
      refine ⟨b2, π2.trans (π1.trans π), e2,
        (hπ.trans (hπ1.weaken le_rfl (by omega))).trans (hπ2.weaken (by omega) le_rfl), ?_, ?_⟩
      · rw [hb2, hb1, hb]; rfl
      · -- where the elements are after both recursive calls
        have low : ∀ x, l ≤ x → x < p → b2 x = b (π1 x) ∧ l ≤ π1 x ∧ π1 x ≤ p - 1 := by
          intro x h1 h2
          refine ⟨?_, hπ1.maps h1 (by omega)⟩
          rw [hb2, Function.comp, hπ2 x (by omega), hb1]; rfl
        have mid : b2 p = b p := by
          rw [hb2, Function.comp, hπ2 p (by omega), hb1, Function.comp, hπ1 p (by omega)]
        have high : ∀ x, p < x → x ≤ r → b2 x = b (π2 x) ∧ p + 1 ≤ π2 x ∧ π2 x ≤ r := by
          intro x h1 h2
          have h3 := hπ2.maps (x := x) (by omega) h2
          refine ⟨?_, h3⟩
          rw [hb2, Function.comp, hb1, Function.comp, hπ1 _ (by omega)]
        have lowLe : ∀ x, l ≤ x → x ≤ p → (b2 x).1 ≤ (b p).1 := by
          intro x h1 h2
          rcases eq_or_ne x p with e | e
          · rw [e, mid]
          · obtain ⟨h3, h4, h5⟩ := low x h1 (by omega)
            rw [h3]; exact hle _ h4 (by omega)
        have highLt : ∀ x, p < x → x ≤ r → (b p).1 < (b2 x).1 := by
          intro x h1 h2
          obtain ⟨h3, h4, h5⟩ := high x h1 h2
          rw [h3]; exact hlt _ (by omega) h5
        intro i j hi hij hj
        by_cases hjp : j < p
        · have e : ∀ x, x < p → b2 x = b1 x := fun x hx => by
            rw [hb2, Function.comp, hπ2 x (by omega)]
          rw [e i (by omega), e j hjp]
          exact hs1 i j hi hij (by omega)
        · by_cases hip : p < i
          · exact hs2 i j (by omega) hij hj
          · rcases eq_or_ne j p with e | e
            · rw [e, mid]; exact lowLe i hi (by omega)
            · exact (lowLe i hi (by omega)).trans (highLt j (by omega) hj).le
    · rw [if_neg hlr]
      exact ⟨a, Equiv.refl _, rfl, PermOn.refl _ _, rfl, fun i j h1 h2 h3 => by
        have : i = j := by omega
        rw [this]⟩

theorem sortedEx_swap_left {a : Arr K} {idx len : Int} (h0 : 0 < idx) (hl : idx < len)
    (h : SortedEx a idx len) : SortedEx (swapA a idx (idx - 1)) (idx - 1) len := by
  intro i j h1 h2 h3 h4 h5
  simp only [swapA]
  split_ifs with e1 e2 e3
  · exact le_rfl
  · exact h _ _ (by omega) (by omega) h3 (by omega) (by omega)
  · exact h _ _ h1 (by omega) (by omega) (by omega) (by omega)
  · exact h _ _ h1 h2 h3 (by omega) (by omega)

theorem sortedEx_swap_right {a : Arr K} {idx len : Int} (h0 : 0 ≤ idx) (hl : idx + 1 < len)
    (h : SortedEx a idx len) : SortedEx (swapA a idx (idx + 1)) (idx + 1) len := by
  intro i j h1 h2 h3 h4 h5
  simp only [swapA]
  split_ifs with e1 e2 e3
  · exact le_rfl
  · exact h _ _ (by omega) (by omega) h3 (by omega) (by omega)
  · exact h _ _ h1 (by omega) (by omega) (by omega) (by omega)
  · exact h _ _ h1 h2 h3 (by omega) (by omega)

theorem sortedOn_of_ex {a : Arr K} {idx len : Int} (h : SortedEx a idx len)
    (hL : ∀ j, 0 ≤ j → j < idx → (a j).1 ≤ (a idx).1)
    (hR : ∀ j, idx < j → j < len → (a idx).1 ≤ (a j).1) : SortedOn a 0 (len - 1) := by
  intro i j h1 h2 h3
  rcases eq_or_ne i idx with e | e <;> rcases eq_or_ne j idx with e' | e'
  · rw [e, e']
  · rw [e]; exact hR j (by omega) (by omega)
  · rw [e']; exact hL i h1 (by omega)
  · exact h i j h1 h2 (by omega) e e'

theorem bubble_left : ∀ (f : Nat) (a : Arr K) (idx len : Int), 0 ≤ idx → idx < len → 2 ≤ len →
    idx.toNat < f → SortedEx a idx len → (∀ j, idx < j → j < len → (a idx).1 ≤ (a j).1) →
    ∃ b π, bubble f a idx len = some b ∧ PermOn 0 (len - 1) π ∧ b = a ∘ π ∧
      SortedOn b 0 (len - 1) := by
  intro f
  induction f with
  | zero => intro a idx len _ _ _ h; omega
  | succ f ih =>
    intro a idx len h0 hl h2 hf hs hR
    have done : (∀ j, 0 ≤ j → j < idx → (a j).1 ≤ (a idx).1) →
        ∃ b π, some a = some b ∧ PermOn 0 (len - 1) π ∧ b = a ∘ π ∧ SortedOn b 0 (len - 1) :=
      fun hL => ⟨a, Equiv.refl _, rfl, PermOn.refl _ _, rfl, sortedOn_of_ex hs hL hR⟩
    have step : 0 < idx → (a idx).1 < (a (idx - 1)).1 →
        ∃ b π, bubble f (swapA a idx (idx - 1)) (idx - 1) len = some b ∧ PermOn 0 (len - 1) π ∧
          b = a ∘ π ∧ SortedOn b 0 (len - 1) := by
      intro hi hlt
      obtain ⟨b, π, e, hπ, hb, hso⟩ := ih (swapA a idx (idx - 1)) (idx - 1) len (by omega)
        (by omega) h2 (by omega) (sortedEx_swap_left hi hl hs) (by
          intro j hj1 hj2
          simp only [swapA]
          rw [if_neg (by omega), if_pos trivial]
          split_ifs with e1 e2
          · exact hlt.le
          · omega
          · exact hR j (by omega) hj2)
      refine ⟨b, π.trans (Equiv.swap idx (idx - 1)), e,
        (PermOn.swap ⟨h0, by omega⟩ ⟨by omega, by omega⟩).trans hπ, ?_, hso⟩
      rw [hb, swapA_eq]; rfl
    have nlt : ¬ (a idx).1 < (a (idx - 1)).1 → 0 < idx →
        ∀ j, 0 ≤ j → j < idx → (a j).1 ≤ (a idx).1 := fun hn hi j hj1 hj2 =>
      (hs j (idx - 1) hj1 (by omega) (by omega) (by omega) (by omega)).trans (not_lt.mp hn)
    rw [bubble]
    split_ifs with c1 c2 c3 c4 c5 c6 c7 c8
    · exact step c1.1 c2
    · exact absurd c3 (not_lt.mpr (hR _ (by omega) (by omega)))
    · exact done (nlt c2 c1.1)
    · exact absurd c6 (not_lt.mpr (hR _ (by omega) c5))
    · exact done fun j hj1 hj2 => by omega
    · omega
    · exact step (by omega) c8
    · exact done (nlt c8 (by omega))
    · omega

theorem bubble_right : ∀ (f : Nat) (a : Arr K) (idx len : Int), 0 ≤ idx → idx < len → 2 ≤ len →
    (len - 1 - idx).toNat < f → SortedEx a idx len →
    (∀ j, 0 ≤ j → j < idx → (a j).1 ≤ (a idx).1) →
    ∃ b π, bubble f a idx len = some b ∧ PermOn 0 (len - 1) π ∧ b = a ∘ π ∧
      SortedOn b 0 (len - 1) := by
  intro f
  induction f with
  | zero => intro a idx len _ _ _ h; omega
  | succ f ih =>
    intro a idx len h0 hl h2 hf hs hL
    have done : (∀ j, idx < j → j < len → (a idx).1 ≤ (a j).1) →
        ∃ b π, some a = some b ∧ PermOn 0 (len - 1) π ∧ b = a ∘ π ∧ SortedOn b 0 (len - 1) :=
      fun hR => ⟨a, Equiv.refl _, rfl, PermOn.refl _ _, rfl, sortedOn_of_ex hs hL hR⟩
    have step : idx + 1 < len → (a idx).1 > (a (idx + 1)).1 →
        ∃ b π, bubble f (swapA a idx (idx + 1)) (idx + 1) len = some b ∧ PermOn 0 (len - 1) π ∧
          b = a ∘ π ∧ SortedOn b 0 (len - 1) := by
      intro hi hlt
      obtain ⟨b, π, e, hπ, hb, hso⟩ := ih (swapA a idx (idx + 1)) (idx + 1) len (by omega)
        hi h2 (by omega) (sortedEx_swap_right h0 hi hs) (by
          intro j hj1 hj2
          simp only [swapA]
          rw [if_neg (c := idx + 1 = idx) (by omega), if_pos trivial]
          split_ifs with e1 e2
          · exact hlt.le
          · omega
          · exact hL j hj1 (by omega))
      refine ⟨b, π.trans (Equiv.swap idx (idx + 1)), e,
        (PermOn.swap ⟨h0, by omega⟩ ⟨by omega, by omega⟩).trans hπ, ?_, hso⟩
      rw [hb, swapA_eq]; rfl
    have nlt : ¬ (a idx).1 > (a (idx + 1)).1 → 
        ∀ j, idx < j → j < len → (a idx).1 ≤ (a j).1 := fun hn j hj1 hj2 =>
      (not_lt.mp hn).trans (hs (idx + 1) j (by omega) (by omega) hj2 (by omega) (by omega))
    rw [bubble]
    split_ifs with c1 c2 c3 c4 c5 c6 c7 c8
    · exact absurd c2 (not_lt.mpr (hL _ (by omega) (by omega)))
    · exact step (by omega) c3
    · exact done (nlt c3)
    · exact step c5 c6
    · exact done (nlt c6)
    · omega
    · exact absurd c8 (not_lt.mpr (hL _ (by omega) (by omega)))
    · exact done fun j hj1 hj2 => by omega
    · omega

/-- `bubble_2_arrays` returns and restores the order after one element of a sorted array of at
least two elements has been replaced. -/
theorem bubble_sorts (f : Nat) (a : Arr K) (idx len : Int) (h0 : 0 ≤ idx) (hl : idx < len)
    (h2 : 2 ≤ len) (hf : len.toNat < f) (hs : SortedEx a idx len) :
    ∃ b π, bubble f a idx len = some b ∧ PermOn 0 (len - 1) π ∧ b = a ∘ π ∧
      SortedOn b 0 (len - 1) := by
  by_cases hR : ∀ j, idx < j → j < len → (a idx).1 ≤ (a j).1
  · exact bubble_left f a idx len h0 hl h2 (by omega) hs hR
  · refine bubble_right f a idx len h0 hl h2 (by omega) hs ?_
    push Not at hR
    obtain ⟨j, hj1, hj2, hj3⟩ := hR
    intro i hi1 hi2
    exact (hs i j hi1 (by omega) hj2 (by omega) (by omega)).trans hj3.le

/-- A window of one element (`kernel_rad` 0, as with `rwidth = 0`): the second element is read
although there is none. -/
theorem bubble_one (f : Nat) (a : Arr K) : bubble (f + 1) a 0 1 = none := by
  rw [bubble]
  simp

end

end Tomopy.Ring
