import Verif.Align.Drift
import Mathlib.Tactic.Ring
import Mathlib.Tactic.Linarith
import Mathlib.Tactic.NormNum
import Mathlib.Algebra.Order.Ring.Rat
import Mathlib.Data.Rat.Defs

/-! C52: outcome of the corner search. -/

set_option linter.unusedSectionVars false

namespace Tomopy.Align

variable {K : Type} [Field K] [LinearOrder K] [IsStrictOrderedRing K]

/-! ### Specification -/

/-- All eight coordinates differ by less than `t`. -/
def Near (t : K) (a b : Corners K) : Prop := ∀ i < 8, |a i - b i| < t

theorem foldl_max_lt (f : Nat → K) (t : K) : ∀ (l : List Nat) (m : K),
    l.foldl (fun m i => max m (f i)) m < t ↔ m < t ∧ ∀ i ∈ l, f i < t := by
  intro l
  induction l with
  | nil => intro m; simp
  | cons a l ih =>
    intro m
    rw [List.foldl_cons, ih, max_lt_iff]
    simp only [List.mem_cons, forall_eq_or_imp]
    exact and_assoc

theorem quickDiff_lt (a b : Corners K) (t : K) : quickDiff a b < t ↔ Near t a b := by
  unfold quickDiff Near
  rw [foldl_max_lt (fun i => |a i - b i|)]
  simp only [List.mem_range]
  exact ⟨fun h => h.2, fun h => ⟨h 0 (by omega), h⟩⟩

/-! ### One round -/

theorem judge_other (ref : Corners K) (s : Search K) (nc : Nat × Corners K) (i : Nat)
    (h : i ≠ nc.1) : (judge ref s nc).cnrs i = s.cnrs i ∧ (judge ref s nc).found i = s.found i := by
  unfold judge
  split_ifs <;> simp [h]

theorem foldl_judge_other (ref : Corners K) (i : Nat) : ∀ (l : List (Nat × Corners K)) (s : Search K),
    (∀ nc ∈ l, i ≠ nc.1) → (l.foldl (judge ref) s).cnrs i = s.cnrs i ∧
      (l.foldl (judge ref) s).found i = s.found i := by
  intro l
  induction l with
  | nil => intro s _; exact ⟨rfl, rfl⟩
  | cons nc l ih =>
    intro s h
    rw [List.foldl_cons]
    obtain ⟨a, b⟩ := ih (judge ref s nc) fun x hx => h x (List.mem_cons_of_mem _ hx)
    obtain ⟨c, d⟩ := judge_other ref s nc i (h nc List.mem_cons_self)
    exact ⟨a.trans c, b.trans d⟩

/-- What a round does with one image: images already found keep their corners; for the others the
new corners are compared with the reference and with the previous ones. -/
theorem round_image (n : Nat) (detect : Nat → Nat × Nat → Corners K) (ref : Corners K)
    (ks : Nat × Nat) (s : Search K) (i : Nat) (hi : i < n) :
    let d := detect i ks
    let s' := round n detect ref ks s
    (s.found i = true → s'.cnrs i = s.cnrs i ∧ s'.found i = true) ∧
    (s.found i = false → Near (1 / 10) d (s.cnrs i) → Near 15 d ref →
      s'.cnrs i = s.cnrs i ∧ s'.found i = true) ∧
    (s.found i = false → ¬ (Near (1 / 10) d (s.cnrs i) ∧ Near 15 d ref) →
      s'.cnrs i = d ∧ s'.found i = false) := by
  intro d s'
  have hnd : (missing n s).Nodup := List.nodup_range.filter _
  have main : ∀ (l : List Nat) (s : Search K), l.Nodup → i ∈ l →
      ((l.map fun i => (i, detect i ks)).foldl (judge ref) s).cnrs i = (judge ref s (i, d)).cnrs i ∧
      ((l.map fun i => (i, detect i ks)).foldl (judge ref) s).found i
        = (judge ref s (i, d)).found i := by
    intro l
    induction l with
    | nil => intro s _ h; simp at h
    | cons a l ih =>
      intro s hn hm
      rw [List.nodup_cons] at hn
      rw [List.map_cons, List.foldl_cons]
      by_cases ha : i = a
      · subst ha
        refine foldl_judge_other ref i _ _ ?_
        intro nc hnc
        obtain ⟨b, hb, rfl⟩ := List.mem_map.1 hnc
        rintro rfl
        exact hn.1 hb
      · have hm' : i ∈ l := by simpa [ha] using hm
        obtain ⟨h1, h2⟩ := ih (judge ref s (a, detect a ks)) hn.2 hm'
        obtain ⟨o1, o2⟩ := judge_other ref s (a, detect a ks) i ha
        rw [h1, h2]
        unfold judge at o1 o2 ⊢
        dsimp only at o1 o2 ⊢
        rw [o1]
        split_ifs <;> simp_all
  have hmem : i ∈ missing n s ↔ s.found i = false := by
    unfold missing
    simp [hi]
  refine ⟨?_, ?_, ?_⟩
  · intro hf
    have : ∀ nc ∈ (missing n s).map fun i => (i, detect i ks), i ≠ nc.1 := by
      intro nc hnc
      obtain ⟨b, hb, rfl⟩ := List.mem_map.1 hnc
      rintro rfl
      rw [hmem.1 hb] at hf
      exact absurd hf (by decide)
    obtain ⟨a, b⟩ := foldl_judge_other ref i _ s this
    exact ⟨a, b.trans hf⟩
  · intro hf h1 h2
    obtain ⟨a, b⟩ := main _ s hnd (hmem.2 hf)
    have hj : judge ref s (i, d) = { s with found := fun j => if j = i then true else s.found j } := by
      unfold judge
      rw [if_pos ⟨(quickDiff_lt _ _ _).2 h1, (quickDiff_lt _ _ _).2 h2⟩]
    rw [hj] at a b
    exact ⟨a, b.trans (by simp)⟩
  · intro hf h1
    obtain ⟨a, b⟩ := main _ s hnd (hmem.2 hf)
    have hj : judge ref s (i, d) = { s with cnrs := fun j => if j = i then d else s.cnrs j } := by
      unfold judge
      rw [if_neg fun h => h1 ⟨(quickDiff_lt _ _ _).1 h.1, (quickDiff_lt _ _ _).1 h.2⟩]
    rw [hj] at a b
    exact ⟨a.trans (by simp), b.trans hf⟩

/-! ### The search -/

/-- The state after the rounds with the first `c` kernels. -/
def rounds (n : Nat) (detect : Nat → Nat × Nat → Corners K) (ref : Corners K)
    (ks : List (Nat × Nat)) (s : Search K) (c : Nat) : Search K :=
  (ks.take c).foldl (fun s k => round n detect ref k s) s

theorem rounds_succ (n : Nat) (detect : Nat → Nat × Nat → Corners K) (ref : Corners K)
    (ks : List (Nat × Nat)) (s : Search K) (c : Nat) (k : Nat × Nat) (hk : ks[c]? = some k) :
    rounds n detect ref ks s (c + 1) = round n detect ref k (rounds n detect ref ks s c) := by
  unfold rounds
  rw [List.take_add_one, hk, List.foldl_append]
  rfl

/-- The search ends with the first state in which all corners are found, and raises when there is
none before the kernels are used up. -/
theorem search_eq (n : Nat) (detect : Nat → Nat × Nat → Corners K) (ref : Corners K)
    (ks : List (Nat × Nat)) (s : Search K) : ∀ (m c : Nat), ks.length = c + m →
    (∀ c' < c, allFound n (rounds n detect ref ks s c') = false) →
    (∃ c' ≤ ks.length, allFound n (rounds n detect ref ks s c') = true ∧
      (∀ b < c', allFound n (rounds n detect ref ks s b) = false) ∧
      search n detect ref ks c (rounds n detect ref ks s c) = .ok (rounds n detect ref ks s c')) ∨
    ((∀ c' ≤ ks.length, allFound n (rounds n detect ref ks s c') = false) ∧
      search n detect ref ks c (rounds n detect ref ks s c) = .error .index) := by
  intro m
  induction m with
  | zero =>
    intro c hc hb
    cases ha : allFound n (rounds n detect ref ks s c) with
    | true =>
      refine Or.inl ⟨c, by omega, ha, hb, ?_⟩
      rw [search, if_pos ha]
    | false =>
      refine Or.inr ⟨?_, ?_⟩
      · intro c' hc'
        rcases Nat.lt_or_ge c' c with h | h
        · exact hb c' h
        · obtain rfl : c' = c := by omega
          exact ha
      · rw [search, if_neg (by simp [ha]), if_neg (by omega), List.getElem?_eq_none (by omega)]
  | succ m ih =>
    intro c hc hb
    cases ha : allFound n (rounds n detect ref ks s c) with
    | true =>
      refine Or.inl ⟨c, by omega, ha, hb, ?_⟩
      rw [search, if_pos ha]
    | false =>
      have hlt : c < ks.length := by omega
      have hk := List.getElem?_eq_getElem hlt
      have hs : search n detect ref ks c (rounds n detect ref ks s c)
          = search n detect ref ks (c + 1) (rounds n detect ref ks s (c + 1)) := by
        rw [rounds_succ n detect ref ks s c _ hk]
        rw [search, if_neg (by simp [ha]), if_neg (by omega), hk]
      rw [hs]
      refine ih (c + 1) (by omega) ?_
      intro c' hc'
      rcases Nat.lt_or_ge c' c with h | h
      · exact hb c' h
      · obtain rfl : c' = c := by omega
        exact ha

theorem kernels_length (k2 k1 : Nat) : (kernels k2 k1).length = 225 := by
  simp [kernels, List.length_flatMap]
  decide

/-- The kernels are the sizes given, increased by 0, 2, …, 28 in both directions. -/
theorem kernels_mem (k2 k1 a b : Nat) : (a, b) ∈ kernels k2 k1 ↔
    ∃ i < 15, ∃ j < 15, a = k2 + 2 * i ∧ b = k1 + 2 * j := by
  unfold kernels
  simp only [List.mem_flatMap, List.mem_range, List.mem_map, Prod.mk.injEq]
  constructor
  · rintro ⟨i, hi, j, hj, rfl, rfl⟩; exact ⟨i, hi, j, hj, rfl, rfl⟩
  · rintro ⟨i, hi, j, hj, rfl, rfl⟩; exact ⟨i, hi, j, hj, rfl, rfl⟩

/-- **C52** (outcome).  The search either ends, all corners being found, after at most 225 rounds
and as soon as possible, or all rounds leave corners missing and it raises. -/
theorem drift_outcome (n : Nat) (detect : Nat → Nat × Nat → Corners K) (ref : Corners K) (k2 k1 : Nat) :
    let st := rounds n detect ref (kernels k2 k1) (start detect ref k2 k1)
    (∃ c ≤ 225, (∀ i < n, (st c).found i = true) ∧
      (∀ b < c, ∃ i < n, (st b).found i = false) ∧
      driftCorners n detect ref k2 k1 = .ok (st c)) ∨
    ((∀ c ≤ 225, ∃ i < n, (st c).found i = false) ∧
      driftCorners n detect ref k2 k1 = .error .index) := by
  intro st
  have hall : ∀ s : Search K, allFound n s = true ↔ ∀ i < n, s.found i = true := by
    intro s; unfold allFound; simp
  have hnone : ∀ s : Search K, allFound n s = false ↔ ∃ i < n, s.found i = false := by
    intro s
    rw [← Bool.not_eq_true, hall]
    push Not
    simp
  have h := search_eq n detect ref (kernels k2 k1) (start detect ref k2 k1) 225 0
    (by rw [kernels_length]) (by intro c h; omega)
  rw [kernels_length] at h
  rcases h with ⟨c, hc, h1, h2, h3⟩ | ⟨h1, h2⟩
  · exact Or.inl ⟨c, hc, (hall _).1 h1, fun b hb => (hnone _).1 (h2 b hb), h3⟩
  · exact Or.inr ⟨fun c hc => (hnone _).1 (h1 c hc), h2⟩

/-- **C52** (success).  If the search returns, every image has corners that differ from the
reference by less than 15.1 pixels: they were either detected at once within 15 pixels, or
confirmed to 0.1 pixel by a detection within 15 pixels.  What is missing from the full statement
is the fallback, see `drift_raises`. -/
theorem drift_near_partial (n : Nat) (detect : Nat → Nat × Nat → Corners K) (ref : Corners K)
    (k2 k1 : Nat) (s : Search K) (h : driftCorners n detect ref k2 k1 = .ok s) (i : Nat) (hi : i < n) :
    Near (151 / 10) (s.cnrs i) ref ∧ ∃ k ∈ kernels k2 k1, s.cnrs i = detect i k := by
  have inv : ∀ c, (∃ k ∈ kernels k2 k1,
        (rounds n detect ref (kernels k2 k1) (start detect ref k2 k1) c).cnrs i = detect i k) ∧
      ((rounds n detect ref (kernels k2 k1) (start detect ref k2 k1) c).found i = true →
        Near (151 / 10) ((rounds n detect ref (kernels k2 k1) (start detect ref k2 k1) c).cnrs i) ref) := by
    intro c
    induction c with
    | zero =>
      refine ⟨⟨(k2, k1), (kernels_mem k2 k1 k2 k1).2 ⟨0, by omega, 0, by omega, rfl, rfl⟩, rfl⟩, ?_⟩
      intro hf
      have hf' : decide (quickDiff (detect i (k2, k1)) ref < 15) = true := hf
      have hn := (quickDiff_lt _ _ _).1 (of_decide_eq_true hf')
      intro j hj
      exact (hn j hj).trans (by norm_num)
    | succ c ih =>
      rcases Nat.lt_or_ge c (kernels k2 k1).length with hlt | hge
      · have hk := List.getElem?_eq_getElem hlt
        rw [rounds_succ n detect ref _ _ c _ hk]
        obtain ⟨r1, r2, r3⟩ := round_image n detect ref ((kernels k2 k1)[c])
          (rounds n detect ref (kernels k2 k1) (start detect ref k2 k1) c) i hi
        cases hf : (rounds n detect ref (kernels k2 k1) (start detect ref k2 k1) c).found i with
        | true =>
          obtain ⟨a, b⟩ := r1 hf
          rw [a]
          exact ⟨ih.1, fun _ => ih.2 hf⟩
        | false =>
          by_cases hc : Near (1 / 10) (detect i ((kernels k2 k1)[c]))
              ((rounds n detect ref (kernels k2 k1) (start detect ref k2 k1) c).cnrs i) ∧
              Near 15 (detect i ((kernels k2 k1)[c])) ref
          · obtain ⟨a, b⟩ := r2 hf hc.1 hc.2
            rw [a]
            refine ⟨ih.1, fun _ j hj => ?_⟩
            have h1 := abs_lt.1 (hc.1 j hj)
            have h2 := abs_lt.1 (hc.2 j hj)
            rw [abs_lt]
            constructor <;> linarith [h1.1, h1.2, h2.1, h2.2]
          · obtain ⟨a, b⟩ := r3 hf hc
            rw [a, b]
            exact ⟨⟨_, List.getElem_mem hlt, rfl⟩, fun h => absurd h (by decide)⟩
      · have e : rounds n detect ref (kernels k2 k1) (start detect ref k2 k1) (c + 1)
            = rounds n detect ref (kernels k2 k1) (start detect ref k2 k1) c := by
          unfold rounds
          rw [List.take_of_length_le (by omega), List.take_of_length_le hge]
        rw [e]
        exact ih
  rcases drift_outcome n detect ref k2 k1 with ⟨c, -, h1, -, h2⟩ | ⟨-, h2⟩
  · rw [h2] at h
    injection h with h
    subst h
    exact ⟨(inv c).2 (h1 i hi), (inv c).1⟩
  · rw [h2] at h
    exact absurd h (by simp)

/-- The full statement is false: an image whose corners are never found makes the search raise
`IndexError`; the fallback to the reference corners is never reached. -/
theorem drift_raises (n : Nat) (detect : Nat → Nat × Nat → Corners K) (ref : Corners K) (k2 k1 : Nat)
    (i : Nat) (hi : i < n) (hfar : ∀ k ∈ kernels k2 k1, ¬ Near 15 (detect i k) ref) :
    driftCorners n detect ref k2 k1 = .error .index := by
  rcases drift_outcome n detect ref k2 k1 with ⟨c, -, h1, -, -⟩ | ⟨-, h2⟩
  · exfalso
    have inv : ∀ c, (rounds n detect ref (kernels k2 k1) (start detect ref k2 k1) c).found i = false := by
      intro c
      induction c with
      | zero =>
        show decide (quickDiff (detect i (k2, k1)) ref < 15) = false
        rw [decide_eq_false_iff_not, quickDiff_lt]
        exact hfar _ ((kernels_mem k2 k1 k2 k1).2 ⟨0, by omega, 0, by omega, rfl, rfl⟩)
      | succ c ih =>
        rcases Nat.lt_or_ge c (kernels k2 k1).length with hlt | hge
        · have hk := List.getElem?_eq_getElem hlt
          rw [rounds_succ n detect ref _ _ c _ hk]
          obtain ⟨-, -, r3⟩ := round_image n detect ref ((kernels k2 k1)[c])
            (rounds n detect ref (kernels k2 k1) (start detect ref k2 k1) c) i hi
          exact (r3 ih fun h => hfar _ (List.getElem_mem hlt) h.2).2
        · have e : rounds n detect ref (kernels k2 k1) (start detect ref k2 k1) (c + 1)
              = rounds n detect ref (kernels k2 k1) (start detect ref k2 k1) c := by
            unfold rounds
            rw [List.take_of_length_le (by omega), List.take_of_length_le hge]
          rw [e]
          exact ih
    have := h1 i hi
    rw [inv c] at this
    exact absurd this (by decide)
  · exact h2

/-- Images detected within 15 pixels at once keep these corners. -/
theorem drift_immediate (n : Nat) (detect : Nat → Nat × Nat → Corners K) (ref : Corners K) (k2 k1 : Nat)
    (h : ∀ i < n, Near 15 (detect i (k2, k1)) ref) :
    ∃ s, driftCorners n detect ref k2 k1 = .ok s ∧ ∀ i, s.cnrs i = detect i (k2, k1) := by
  refine ⟨start detect ref k2 k1, ?_, fun _ => rfl⟩
  unfold driftCorners
  rw [search, if_pos]
  unfold allFound
  rw [List.all_eq_true]
  intro i hi
  exact decide_eq_true ((quickDiff_lt _ _ _).2 (h i (List.mem_range.1 hi)))

example : driftCorners (K := ℚ) 2 (fun i _ _ => if i = 0 then 1 else 100) (fun _ => 0) 3 3
    = .error .index :=
  drift_raises 2 _ _ 3 3 1 (by decide) fun k _ h => by
    have := h 0 (by decide)
    norm_num at this

/-- A search that needs a second round. -/
example : ∃ s, driftCorners (K := ℚ) 1 (fun _ k _ => if k.2 = 3 then 20 else 1) (fun _ => 0) 3 3
    = .ok s := by
  rcases drift_outcome (K := ℚ) 1 (fun _ k _ => if k.2 = 3 then 20 else 1) (fun _ => 0) 3 3 with
    ⟨c, -, -, -, h⟩ | ⟨h, -⟩
  · exact ⟨_, h⟩
  · exfalso
    obtain ⟨i, hi, h⟩ := h 3 (by decide)
    obtain rfl : i = 0 := by omega
    revert h
    decide +kernel

end Tomopy.Align
