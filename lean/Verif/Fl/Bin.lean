import Verif.Fl.BinModel
import Verif.Fl.Neg
import Verif.Morph.Sample
import Mathlib.Data.List.Sort

/-!
# Binning in `float` arithmetic
-/

set_option linter.unusedSectionVars false

namespace Tomopy.Fl

open Tomopy.Morph (Sampled downVisits upVisits upLoop newShape axisLen shapeAxis cAxis addr addr_lt
  addr_eq_iff visits0 visits1 visits2)

/-! ## Specification -/

/-- Number of entries between neighbours along an axis of a C-contiguous array. -/
def inner (dy dz : Nat) (axis : Nat) : Nat := match axis with | 0 => dy * dz | 1 => dz | _ => 1

/-- Number of output lines: the dimensions before the axis times the new length of the axis. -/
def outer (dx dy dz b : Nat) (axis : Nat) : Nat :=
  match axis with | 0 => dx / b | 1 => dx * (dy / b) | _ => dx * dy * (dz / b)

/-- Terms of a mean that are divided first and then added up from the left, each step in `float`. -/
def binMean (level : Nat) (l : List F32) : F32 :=
  l.foldl (fun a x => F32.add a (F32.div x (.fin (2 ^ level)))) (.fin 0)

/-- The mean of a list of numbers. -/
def mean (l : List ℚ) : ℚ := l.sum / l.length

/-- A finite `float`. -/
def Float (x : ℚ) : Prop := fl x = x ∧ |x| < 2 ^ 128

/-! ## The loops -/

theorem downLoopF_range (inSize outSize bin : Nat) (data : Nat → F32) (f : Nat → Nat) (n : Nat) :
    ∀ (s : Nat) (out : Nat → F32), s + n ≤ inSize → (∀ j, s ≤ j → j < s + n → f j < outSize) →
    downLoopF inSize outSize bin data ((List.range' s n).map f) s out =
      some fun q => ((List.range' s n).filter fun j => f j = q).foldl
        (fun a j => F32.add a (F32.div (data j) (F32.round bin))) (out q) := by
  induction n with
  | zero => intro s out _ _; rfl
  | succ n ih =>
    intro s out hs hf
    rw [List.range'_succ, List.map_cons, downLoopF,
      if_pos ⟨by omega, hf s (le_refl _) (by omega)⟩,
      ih (s + 1) _ (by omega) fun j h1 h2 => hf j (by omega) (by omega)]
    congr 1
    funext q
    by_cases hq : q = f s
    · rw [List.filter_cons_of_pos (by simp [hq]), List.foldl_cons, if_pos hq]
    · rw [List.filter_cons_of_neg (by simpa using fun h => hq h.symm), if_neg hq]

theorem cell_lt {bin C T l c p : Nat} (hc : c < C) (hl : l < T) (hp : p < bin) :
    (l * bin + p) * C + c < T * (bin * C) := by
  calc (l * bin + p) * C + c < (l * bin + p) * C + C := by omega
    _ = (l * bin + (p + 1)) * C := by ring
    _ ≤ (l * bin + bin) * C := Nat.mul_le_mul_right _ (by omega)
    _ = (l + 1) * (bin * C) := by ring
    _ ≤ T * (bin * C) := Nat.mul_le_mul_right _ hl

/-- The visits of one output entry, in their order. -/
theorem filter_addr (bin C T l c : Nat) (hc : c < C) (hl : l < T) :
    ((List.range' 0 (T * (bin * C))).filter fun j => addr bin C j = l * C + c) =
      (List.range bin).map fun p => (l * bin + p) * C + c := by
  have hC : 0 < C := by omega
  have hinj : ∀ p q, (l * bin + p) * C + c < (l * bin + q) * C + c ↔ p < q := by
    intro p q
    rw [Nat.add_lt_add_iff_right, Nat.mul_lt_mul_right hC]
    omega
  have s1 : (List.range' 0 (T * (bin * C))).Pairwise (· < ·) := List.pairwise_lt_range'
  have s2 : ((List.range bin).map fun p => (l * bin + p) * C + c).Pairwise (· < ·) := by
    rw [List.pairwise_map]
    exact List.pairwise_lt_range.imp fun h => (hinj _ _).2 h
  have s1' := s1.filter (fun j => decide (addr bin C j = l * C + c))
  refine List.Perm.eq_of_pairwise (le := (· < ·)) (fun a b _ _ h h' => absurd h (by omega)) s1' s2 ?_
  refine (List.perm_ext_iff_of_nodup (s1'.imp fun h => Nat.ne_of_lt h) (s2.imp fun h => Nat.ne_of_lt h)).2 ?_
  intro j
  simp only [List.mem_filter, List.mem_range'_1, decide_eq_true_eq, List.mem_map, List.mem_range, Nat.zero_add,
    Nat.zero_le, true_and]
  constructor
  · rintro ⟨h1, h2⟩
    obtain ⟨p, hp, e⟩ := (addr_eq_iff bin C T l c j hc h1).1 h2
    exact ⟨p, hp, e.symm⟩
  · rintro ⟨p, hp, rfl⟩
    have hlt := cell_lt hc hl hp
    exact ⟨hlt, (addr_eq_iff bin C T l c _ hc hlt).2 ⟨p, hp, rfl⟩⟩

theorem round_pow {level : Nat} (h : level ≤ 31) : F32.round ((2 ^ level : Nat) : ℚ) = .fin (2 ^ level) := by
  have e : (((2 ^ level : Nat) : ℤ) : ℚ) = (2 : ℚ) ^ level := by push_cast; rfl
  have hp : (2 : ℚ) ^ level ≤ 2 ^ 126 := pow_le_pow_right₀ (by norm_num) (by omega)
  have hx : |((2 ^ level : Nat) : ℚ)| ≤ 2 ^ 126 := by
    rw [abs_of_nonneg (by positivity)]; push_cast; exact hp
  rw [round_fin hx, fl_exact 1 level (by norm_num) (by omega) (by push_cast; rw [zpow_natCast]; ring)]
  push_cast; rfl

theorem downF_core (inSize outSize level C T : Nat) (hL : level ≤ 31) (data : Nat → F32)
    (h1 : T * (2 ^ level * C) ≤ inSize) (h2 : T * C ≤ outSize) :
    ∃ o, downLoopF inSize outSize (2 ^ level) data
        ((List.range (T * (2 ^ level * C))).map (addr (2 ^ level) C)) 0 (fun _ => .fin 0) = some o ∧
      ∀ l < T, ∀ c < C, o (l * C + c) =
        binMean level ((List.range (2 ^ level)).map fun p => data ((l * 2 ^ level + p) * C + c)) := by
  rw [List.range_eq_range']
  refine ⟨_, downLoopF_range inSize outSize _ data (addr (2 ^ level) C) _ 0 _ (by omega) ?_, ?_⟩
  · intro j _ hj
    exact lt_of_lt_of_le (addr_lt (2 ^ level) C T j (by omega)) h2
  · intro l hl c hc
    show ((List.range' 0 (T * (2 ^ level * C))).filter _).foldl _ _ = _
    rw [filter_addr _ C T l c hc hl, round_pow hL, List.foldl_map]
    unfold binMean
    rw [List.foldl_map]

/-- **What `downsample` computes, bit for bit**, for every shape, axis 0, 1, 2 and level: every output
entry is the running mean (`binMean`) of `2^level` input entries, taken in the order of the axis. -/
theorem downsampleF_val (dx dy dz level : Nat) (hL : level ≤ 31) (axis : Nat) (hax : axis ≤ 2)
    (data : Nat → F32) :
    ∃ o, downsampleF dx dy dz level axis data =
        .ok (some ⟨newShape dx dy dz axis (axisLen dx dy dz axis / 2 ^ level), o⟩) ∧
      ∀ l < outer dx dy dz (2 ^ level) axis, ∀ c < inner dy dz axis,
        o (l * inner dy dz axis + c) = binMean level ((List.range (2 ^ level)).map fun p =>
          data ((l * 2 ^ level + p) * inner dy dz axis + c)) := by
  have hb : ∀ n, n / 2 ^ level * 2 ^ level ≤ n := fun n => Nat.div_mul_le_self _ _
  have h3 : axis = 0 ∨ axis = 1 ∨ axis = 2 := by omega
  rcases h3 with rfl | rfl | rfl
  · have e := visits0 (dx / 2 ^ level) dy dz (2 ^ level)
    obtain ⟨o, ho, hv⟩ := downF_core (dx * dy * dz) (dx / 2 ^ level * dy * dz) level (dy * dz)
      (dx / 2 ^ level) hL data (by
        calc dx / 2 ^ level * (2 ^ level * (dy * dz))
            = (dx / 2 ^ level * 2 ^ level) * (dy * dz) := by ring
          _ ≤ dx * (dy * dz) := Nat.mul_le_mul_right _ (hb dx)
          _ = dx * dy * dz := by ring) (by rw [Nat.mul_assoc])
    refine ⟨o, ?_, hv⟩
    unfold downsampleF
    simp only [shapeAxis, cAxis, newShape, axisLen, downVisits, bind, Except.bind, pure,
      Except.pure, le_refl, Int.toNat_zero, true_and, if_true, Nat.cast_zero,
      show (0 : Int) ≤ 2 by decide]
    rw [e, ho]
    rfl
  · have e := visits1 dx (dy / 2 ^ level) dz (2 ^ level)
    rw [show dx * (dy / 2 ^ level * (2 ^ level * dz))
      = dx * (dy / 2 ^ level) * (2 ^ level * dz) by ring] at e
    obtain ⟨o, ho, hv⟩ := downF_core (dx * dy * dz) (dx * (dy / 2 ^ level) * dz) level dz
      (dx * (dy / 2 ^ level)) hL data (by
        calc dx * (dy / 2 ^ level) * (2 ^ level * dz)
            = dx * (dy / 2 ^ level * 2 ^ level) * dz := by ring
          _ ≤ dx * dy * dz := Nat.mul_le_mul_right _ (Nat.mul_le_mul_left _ (hb dy)))
      (le_refl _)
    refine ⟨o, ?_, hv⟩
    unfold downsampleF
    simp only [shapeAxis, cAxis, newShape, axisLen, downVisits, bind, Except.bind, pure, Nat.cast_one,
      Except.pure, show (0 : Int) ≤ 1 ∧ (1 : Int) ≤ 2 by decide, if_true, Int.toNat_one, and_self]
    rw [e, ho]
    rfl
  · have e := visits2 dx dy (dz / 2 ^ level) (2 ^ level)
    rw [show dx * (dy * (dz / 2 ^ level * 2 ^ level))
      = dx * dy * (dz / 2 ^ level) * (2 ^ level * 1) by ring] at e
    obtain ⟨o, ho, hv⟩ := downF_core (dx * dy * dz) (dx * dy * (dz / 2 ^ level)) level 1
      (dx * dy * (dz / 2 ^ level)) hL data (by
        calc dx * dy * (dz / 2 ^ level) * (2 ^ level * 1)
            = dx * dy * (dz / 2 ^ level * 2 ^ level) := by ring
          _ ≤ dx * dy * dz := Nat.mul_le_mul_left _ (hb dz)) (by omega)
    refine ⟨o, ?_, hv⟩
    unfold downsampleF
    simp only [shapeAxis, cAxis, newShape, axisLen, downVisits, bind, Except.bind, pure,
      Except.pure, show ((2 : Nat) : Int) = 2 from rfl,
      show (0 : Int) ≤ 2 ∧ (2 : Int) ≤ 2 by decide, if_true, and_self,
      show (2 : Int).toNat = 2 from rfl]
    rw [e, ho]
    rfl

theorem upLoop_rangeF (inSize outSize : Nat) (data : Nat → F32) (f : Nat → Nat) (n : Nat) :
    ∀ (s : Nat) (out : Nat → F32), s + n ≤ outSize → (∀ j, s ≤ j → j < s + n → f j < inSize) →
    upLoop inSize outSize data ((List.range' s n).map f) s out =
      some fun q => if s ≤ q ∧ q < s + n then data (f q) else out q := by
  induction n with
  | zero =>
    intro s out _ _
    rw [List.range'_zero, List.map_nil, upLoop]
    congr 1
    funext q
    rw [if_neg (by omega)]
  | succ n ih =>
    intro s out hs hf
    rw [List.range'_succ, List.map_cons, upLoop,
      if_pos ⟨hf s (le_refl _) (by omega), by omega⟩,
      ih (s + 1) _ (by omega) fun j h1 h2 => hf j (by omega) (by omega)]
    congr 1
    funext q
    by_cases hq : q = s
    · subst hq
      rw [if_neg (by omega), if_pos rfl, if_pos (by omega)]
    · rw [if_neg hq]
      by_cases h : s + 1 ≤ q ∧ q < s + 1 + n
      · rw [if_pos h, if_pos (by omega)]
      · rw [if_neg h, if_neg (by omega)]

theorem upF_core (inSize outSize bin C T : Nat) (data : Nat → F32)
    (h1 : T * C ≤ inSize) (h2 : T * (bin * C) ≤ outSize) :
    ∃ o, upLoop inSize outSize data ((List.range (T * (bin * C))).map (addr bin C)) 0
        (fun _ => .fin 0) = some o ∧
      ∀ l < T, ∀ c < C, ∀ p < bin, o ((l * bin + p) * C + c) = data (l * C + c) := by
  rw [List.range_eq_range']
  refine ⟨_, upLoop_rangeF inSize outSize data (addr bin C) _ 0 _ (by omega) ?_, ?_⟩
  · intro j _ hj
    exact lt_of_lt_of_le (addr_lt bin C T j (by omega)) h1
  · intro l hl c hc p hp
    have hlt := cell_lt hc hl hp
    show (if 0 ≤ _ ∧ _ < 0 + T * (bin * C) then _ else _) = _
    rw [if_pos (by omega), (addr_eq_iff bin C T l c _ hc hlt).2 ⟨p, hp, rfl⟩]

/-- Every entry of the input, copied `2^level` times. -/
theorem upsampleF_val (dx dy dz level : Nat) (axis : Nat) (hax : axis ≤ 2) (data : Nat → F32) :
    ∃ o, upsampleF dx dy dz level axis data =
        .ok (some ⟨newShape dx dy dz axis (axisLen dx dy dz axis * 2 ^ level), o⟩) ∧
      ∀ l < outer dx dy dz 1 axis, ∀ c < inner dy dz axis, ∀ p < 2 ^ level,
        o ((l * 2 ^ level + p) * inner dy dz axis + c) = data (l * inner dy dz axis + c) := by
  have h3 : axis = 0 ∨ axis = 1 ∨ axis = 2 := by omega
  rcases h3 with rfl | rfl | rfl
  · have e := visits0 dx dy dz (2 ^ level)
    obtain ⟨o, ho, hv⟩ := upF_core (dx * dy * dz) (dx * 2 ^ level * dy * dz) (2 ^ level) (dy * dz) dx data
      (by rw [Nat.mul_assoc]) (le_of_eq (by ring))
    refine ⟨o, ?_, by simpa [outer, inner] using hv⟩
    unfold upsampleF
    simp only [shapeAxis, cAxis, newShape, axisLen, upVisits, bind, Except.bind, pure,
      Except.pure, le_refl, Int.toNat_zero, true_and, if_true, Nat.cast_zero,
      show (0 : Int) ≤ 2 by decide]
    rw [e, ho]
    rfl
  · have e := visits1 dx dy dz (2 ^ level)
    rw [show dx * (dy * (2 ^ level * dz)) = dx * dy * (2 ^ level * dz) by ring] at e
    obtain ⟨o, ho, hv⟩ := upF_core (dx * dy * dz) (dx * (dy * 2 ^ level) * dz) (2 ^ level) dz (dx * dy) data
      (le_refl _) (le_of_eq (by ring))
    refine ⟨o, ?_, by simpa [outer, inner] using hv⟩
    unfold upsampleF
    simp only [shapeAxis, cAxis, newShape, axisLen, upVisits, bind, Except.bind, pure, Nat.cast_one,
      Except.pure, show (0 : Int) ≤ 1 ∧ (1 : Int) ≤ 2 by decide, if_true, Int.toNat_one, and_self]
    rw [e, ho]
    rfl
  · have e := visits2 dx dy dz (2 ^ level)
    rw [show dx * (dy * (dz * 2 ^ level)) = dx * dy * dz * (2 ^ level * 1) by ring] at e
    obtain ⟨o, ho, hv⟩ := upF_core (dx * dy * dz) (dx * dy * (dz * 2 ^ level)) (2 ^ level) 1 (dx * dy * dz) data
      (by omega) (le_of_eq (by ring))
    refine ⟨o, ?_, by simpa only [outer, inner, Nat.div_one] using hv⟩
    unfold upsampleF
    simp only [shapeAxis, cAxis, newShape, axisLen, upVisits, bind, Except.bind, pure,
      Except.pure, show ((2 : Nat) : Int) = 2 from rfl,
      show (0 : Int) ≤ 2 ∧ (2 : Int) ≤ 2 by decide, if_true, and_self,
      show (2 : Int).toNat = 2 from rfl]
    rw [e, ho]
    rfl

/-- Down after up: every entry becomes the running mean of `2^level` copies of itself. -/
theorem roundtripF_val (dx dy dz level : Nat) (hL : level ≤ 31) (axis : Nat) (hax : axis ≤ 2)
    (data : Nat → F32) :
    ∃ u o, upsampleF dx dy dz level axis data = .ok (some u) ∧
      downsampleF u.shape.1 u.shape.2.1 u.shape.2.2 level axis u.get = .ok (some ⟨(dx, dy, dz), o⟩) ∧
      ∀ q < dx * dy * dz, o q = binMean level (List.replicate (2 ^ level) (data q)) := by
  have hb : 0 < 2 ^ level := by positivity
  obtain ⟨u, hu, hv⟩ := upsampleF_val dx dy dz level axis hax data
  refine ⟨⟨newShape dx dy dz axis (axisLen dx dy dz axis * 2 ^ level), u⟩, ?_⟩
  have hq : ∀ C T q : Nat, q < T * C → ∃ l < T, ∃ c < C, q = l * C + c := by
    intro C T q h
    have hC : 0 < C := Nat.pos_of_mul_pos_left (lt_of_le_of_lt (Nat.zero_le _) h)
    exact ⟨q / C, (Nat.div_lt_iff_lt_mul hC).2 h, q % C, Nat.mod_lt _ hC, (by
      rw [Nat.mul_comm]; exact (Nat.div_add_mod q C).symm)⟩
  have key : ∀ (C T : Nat) (o : Nat → F32), (∀ l < T, ∀ c < C, ∀ p < 2 ^ level,
      u ((l * 2 ^ level + p) * C + c) = data (l * C + c)) → (∀ l < T, ∀ c < C, o (l * C + c) =
        binMean level ((List.range (2 ^ level)).map fun p => u ((l * 2 ^ level + p) * C + c))) →
      ∀ q < T * C, o q = binMean level (List.replicate (2 ^ level) (data q)) := by
    intro C T o h1 h2 q hlt
    obtain ⟨l, hl, c, hc, rfl⟩ := hq C T q hlt
    rw [h2 l hl c hc]
    congr 1
    rw [List.map_congr_left fun p hp => h1 l hl c hc p (List.mem_range.1 hp)]
    simp
  have h3 : axis = 0 ∨ axis = 1 ∨ axis = 2 := by omega
  rcases h3 with rfl | rfl | rfl
  · obtain ⟨o, ho, hw⟩ := downsampleF_val (dx * 2 ^ level) dy dz level hL 0 hax u
    refine ⟨o, hu, ?_, ?_⟩
    · simpa [newShape, axisLen, Nat.mul_div_cancel _ hb] using ho
    · simp only [outer, inner, Nat.mul_div_cancel _ hb, Nat.div_one] at hv hw
      rw [Nat.mul_assoc]
      exact key _ _ o hv hw
  · obtain ⟨o, ho, hw⟩ := downsampleF_val dx (dy * 2 ^ level) dz level hL 1 hax u
    refine ⟨o, hu, ?_, ?_⟩
    · simpa [newShape, axisLen, Nat.mul_div_cancel _ hb] using ho
    · simp only [outer, inner, Nat.mul_div_cancel _ hb, Nat.div_one] at hv hw
      exact key _ _ o hv hw
  · obtain ⟨o, ho, hw⟩ := downsampleF_val dx dy (dz * 2 ^ level) level hL 2 hax u
    refine ⟨o, hu, ?_, ?_⟩
    · simpa [newShape, axisLen, Nat.mul_div_cancel _ hb] using ho
    · simp only [outer, inner, Nat.mul_div_cancel _ hb, Nat.div_one] at hv hw
      have := key _ _ o hv hw
      simpa only [Nat.mul_one] using this

/-! ## One entry -/

theorem div_pow {x : ℚ} {level : Nat} (h : Normal (x / 2 ^ level)) (hx : Float x) :
    F32.div (.fin x) (.fin (2 ^ level)) = .fin (x / 2 ^ level) := by
  have h0 : (2 : ℚ) ^ level ≠ 0 := by positivity
  have hN : Normal x := by
    rcases h with h | h
    · left
      rcases div_eq_zero_iff.1 h with h | h
      · exact h
      · exact absurd h h0
    · right
      refine le_trans h ?_
      rw [abs_div, abs_of_pos (by positivity : (0 : ℚ) < 2 ^ level)]
      exact div_le_self (abs_nonneg _) (one_le_pow₀ (by norm_num))
  have e : x / 2 ^ level = 2 ^ (-(level : ℤ)) * x := by
    rw [zpow_neg, zpow_natCast]; field_simp
  have hfl : fl (x / 2 ^ level) = x / 2 ^ level := by
    rw [e] at h ⊢
    rw [fl_scale _ hN h, hx.1]
  show (if (2 : ℚ) ^ level = 0 then _ else F32.round (x / 2 ^ level)) = _
  rw [if_neg h0]
  unfold F32.round
  rw [hfl, if_pos]
  rw [abs_div, abs_of_pos (by positivity : (0 : ℚ) < 2 ^ level)]
  exact lt_of_le_of_lt (div_le_self (abs_nonneg _) (one_le_pow₀ (by norm_num))) hx.2

theorem round_le {z B : ℚ} (hB : Float B) (h : |z| ≤ |B|) : F32.round z = .fin (fl z) := by
  unfold F32.round
  rw [if_pos]
  have h1 : fl |B| = |B| := by
    rcases abs_cases B with ⟨e, _⟩ | ⟨e, _⟩ <;> rw [e]
    · exact hB.1
    · rw [fl_neg, hB.1]
  have h2 := fl_mono (abs_le.1 h).2
  have h3 := fl_mono (abs_le.1 h).1
  rw [fl_neg] at h3
  rw [h1] at h2 h3
  exact lt_of_le_of_lt (abs_le.2 ⟨h3, h2⟩) hB.2

theorem add_le' {a b B : ℚ} (hB : Float B) (h : |a + b| ≤ |B|) : F32.add (.fin a) (.fin b) = .fin (fl (a + b)) :=
  round_le hB h

theorem fl_div_pow {x : ℚ} {level : Nat} (h : Normal (x / 2 ^ level)) (hx : Float x) :
    fl (x / 2 ^ level) = x / 2 ^ level := by
  have h1 := div_pow h hx
  have h2 : F32.div (.fin x) (.fin (2 ^ level)) = F32.round (x / 2 ^ level) := by
    show (if (2 : ℚ) ^ level = 0 then _ else _) = _
    rw [if_neg (by positivity)]
  rw [h2, round_le hx] at h1
  · exact F32.fin.inj h1
  · rw [abs_div, abs_of_pos (by positivity : (0 : ℚ) < 2 ^ level)]
    exact div_le_self (abs_nonneg _) (one_le_pow₀ (by norm_num))

/-- **Level 1: the correctly rounded mean** of two neighbours. -/
theorem binMean_one {x y : ℚ} (hx : Normal (x / 2) ∧ Float x) (hy : Normal (y / 2) ∧ Float y) :
    binMean 1 [.fin x, .fin y] = .fin (fl ((x + y) / 2)) := by
  have hx1 : Normal (x / 2 ^ 1) := by simpa using hx.1
  have hy1 : Normal (y / 2 ^ 1) := by simpa using hy.1
  have e := fl_div_pow hx1 hx.2
  show F32.add (F32.add (.fin 0) (F32.div (.fin x) (.fin (2 ^ 1)))) (F32.div (.fin y) (.fin (2 ^ 1))) = _
  rw [div_pow hx1 hx.2, div_pow hy1 hy.2, add_le' hx.2, zero_add, e]
  · have e2 : (x + y) / 2 = x / 2 ^ 1 + y / 2 ^ 1 := by ring
    rw [e2]
    rcases le_total |x| |y| with h | h
    · refine add_le' hy.2 ?_
      have := abs_add_le (x / 2 ^ 1) (y / 2 ^ 1)
      rw [abs_div, abs_div] at this
      norm_num at this ⊢
      linarith
    · refine add_le' hx.2 ?_
      have := abs_add_le (x / 2 ^ 1) (y / 2 ^ 1)
      rw [abs_div, abs_div] at this
      norm_num at this ⊢
      linarith
  · rw [zero_add, abs_div, abs_of_pos (by positivity : (0 : ℚ) < 2 ^ 1)]
    exact div_le_self (abs_nonneg _) (by norm_num)

/-! ## Rounding, from the position of a number -/

theorem ulpExp_of {x : ℚ} {j : ℤ} (hj : -149 ≤ j) (h1 : (2 : ℚ) ^ (j + 23) ≤ |x|) (h2 : |x| < 2 ^ (j + 24)) :
    ulpExp x = j := by
  have hx : 0 < |x| := lt_of_lt_of_le (two_zpow_pos _) h1
  have a := (Int.zpow_le_iff_le_log (b := 2) (by norm_num) hx (x := j + 23)).1 (by push_cast; exact h1)
  have b := (Int.lt_zpow_iff_log_lt (b := 2) (by norm_num) hx (x := j + 24)).1 (by push_cast; exact h2)
  unfold ulpExp
  omega

theorem rne_eq {y : ℚ} {n : ℤ} (h : |y - n| < 1 / 2 ∨ (|y - n| ≤ 1 / 2 ∧ n % 2 = 0)) : rne y = n := by
  have hle : |y - n| ≤ 1 / 2 := by
    rcases h with h | h
    · exact h.le
    · exact h.1
  obtain ⟨a, b⟩ := abs_le.1 hle
  by_cases hf : ⌊y⌋ = n
  · unfold rne
    rw [hf]
    split_ifs with c1 c2 c3
    · rfl
    · linarith
    · rfl
    · rcases h with h | h
      · have := (abs_lt.1 h).2
        linarith
      · exact absurd h.2 c3
  · have hn : ⌊y⌋ = n - 1 := by
      have h1 : ⌊y⌋ < n + 1 := Int.floor_lt.2 (by push_cast; linarith)
      have h2 : n - 1 ≤ ⌊y⌋ := Int.le_floor.2 (by push_cast; linarith)
      omega
    unfold rne
    rw [hn]
    push_cast
    split_ifs with c1 c2 c3
    · linarith
    · ring
    · rcases h with h | h
      · have := (abs_lt.1 h).1
        linarith
      · omega
    · ring

/-- The nearest multiple of the unit. -/
theorem fl_at {x : ℚ} {n j : ℤ} (hj : -149 ≤ j) (h1 : (2 : ℚ) ^ (j + 23) ≤ |x|) (h2 : |x| < 2 ^ (j + 24))
    (h : |x / 2 ^ j - n| < 1 / 2 ∨ (|x / 2 ^ j - n| ≤ 1 / 2 ∧ n % 2 = 0)) : fl x = n * 2 ^ j := by
  unfold fl
  rw [ulpExp_of hj h1 h2, rne_eq h]

theorem grid_pow (e : ℤ) (k : Nat) : (2 : ℚ) ^ (e + k) = 2 ^ e * 2 ^ k := by
  rw [zpow_add₀ (by norm_num), zpow_natCast]

theorem grid23 (e : ℤ) : (2 : ℚ) ^ (e + 23) = 2 ^ e * 2 ^ 23 := grid_pow e 23

theorem grid24 (e : ℤ) : (2 : ℚ) ^ (e + 24) = 2 ^ e * 2 ^ 24 := grid_pow e 24

/-- Four equal terms: the error of the third sum is undone by the fourth. -/
theorem quad_pos {y : ℚ} (hy : fl y = y) (hn : 1 / 2 ^ 126 ≤ y) : fl (fl (3 * y) + y) = 4 * y := by
  have hy0 : 0 < y := lt_of_lt_of_le (by norm_num) hn
  have habs : |y| = y := abs_of_pos hy0
  have hlog := normal_log (x := y) (by rw [habs]; exact hn)
  have he : ulpExp y = Int.log 2 |y| - 23 := by unfold ulpExp; omega
  have hge := ulp_ge y
  have b1 : (2 : ℚ) ^ (ulpExp y + 23) ≤ y := by
    have := Int.zpow_log_le_self (b := 2) (by norm_num) (abs_pos.2 hy0.ne')
    rw [he, sub_add_cancel]
    rw [habs] at this ⊢
    exact_mod_cast this
  have b2 := abs_lt_ulp y
  rw [habs] at b2
  have hm : y = (rne (y / 2 ^ ulpExp y) : ℚ) * 2 ^ ulpExp y := hy.symm
  generalize rne (y / 2 ^ ulpExp y) = m at hm
  generalize ulpExp y = e at *
  have ht : (0 : ℚ) < 2 ^ e := two_zpow_pos e
  have p23 : (2 : ℚ) ^ (e + 23) = 2 ^ e * 2 ^ 23 := grid_pow e 23
  have p24 : (2 : ℚ) ^ (e + 24) = 2 ^ e * 2 ^ 24 := grid_pow e 24
  have p1 : (2 : ℚ) ^ (e + 1) = 2 ^ e * 2 := by have := grid_pow e 1; norm_num at this ⊢; exact this
  have p2 : (2 : ℚ) ^ (e + 2) = 2 ^ e * 4 := by have := grid_pow e 2; norm_num at this ⊢; exact this
  have p124 : (2 : ℚ) ^ (e + 1 + 23) = 2 ^ e * 2 ^ 24 := by rw [add_assoc]; exact p24
  have p125 : (2 : ℚ) ^ (e + 1 + 24) = 2 ^ e * 2 ^ 25 := by rw [add_assoc]; exact grid_pow e 25
  have p225 : (2 : ℚ) ^ (e + 2 + 23) = 2 ^ e * 2 ^ 25 := by rw [add_assoc]; exact grid_pow e 25
  have p226 : (2 : ℚ) ^ (e + 2 + 24) = 2 ^ e * 2 ^ 26 := by rw [add_assoc]; exact grid_pow e 26
  rw [p23, hm, mul_comm] at b1
  rw [p24, hm, mul_comm ((2 : ℚ) ^ e)] at b2
  have m1 : (2 : ℤ) ^ 23 ≤ m := by
    have : ((2 ^ 23 : ℤ) : ℚ) ≤ m := le_of_mul_le_mul_right (by push_cast; linarith) ht
    exact_mod_cast this
  have m2 : m < (2 : ℤ) ^ 24 := by exact_mod_cast (mul_lt_mul_iff_of_pos_right ht).1 b2
  clear b1 b2 p24 hlog he hn
  -- the value of the third sum
  obtain ⟨d, hd, hd2, hd0⟩ : ∃ d : ℤ, fl (3 * y) = ((3 * m + d : ℤ) : ℚ) * 2 ^ e ∧
      (-2 ≤ d ∧ d ≤ 2 ∧ (d % 4 = 2 → m % 2 = 0)) ∧ (m = 2 ^ 23 → d = 0) := by
    by_cases h0 : m = 2 ^ 23
    · refine ⟨0, ?_, by omega, fun _ => rfl⟩
      rw [fl_exact 3 (e + 23) (by norm_num) (by omega) (by rw [hm, h0]; push_cast; rw [p23]; ring)]
      rw [hm]; push_cast; ring
    have hx : (3 * y) = ((3 * m : ℤ) : ℚ) * 2 ^ e := by rw [hm]; push_cast; ring
    have hxa : |3 * y| = ((3 * m : ℤ) : ℚ) * 2 ^ e := by
      rw [abs_of_pos (by linarith), hx]
    have key : ∀ k : ℤ, ((k : ℤ) : ℚ) * 2 ^ e ≤ |3 * y| ↔ k ≤ 3 * m := by
      intro k
      rw [hxa, mul_le_mul_iff_of_pos_right ht]
      exact_mod_cast Iff.rfl
    have key2 : ∀ k : ℤ, |3 * y| < ((k : ℤ) : ℚ) * 2 ^ e ↔ 3 * m < k := by
      intro k
      rw [hxa, mul_lt_mul_iff_of_pos_right ht]
      exact_mod_cast Iff.rfl
    by_cases hc : 3 * m < 2 ^ 25
    · have hu : ulpExp (3 * y) = e + 1 := ulpExp_of (by omega)
        (by rw [p124]; have := (key (2 ^ 24)).2 (by omega); push_cast at this; linarith)
        (by rw [p125]; have := (key2 (2 ^ 25)).2 (by omega); push_cast at this; linarith)
      have hr := rne_near (3 * y / 2 ^ (e + 1))
      have hv : fl (3 * y) = (rne (3 * y / 2 ^ (e + 1)) : ℚ) * 2 ^ (e + 1) := by unfold fl; rw [hu]
      generalize rne (3 * y / 2 ^ (e + 1)) = n at hr hv
      have hq : 3 * y / 2 ^ (e + 1) = (3 * m : ℚ) / 2 := by
        rw [p1, hm]; field_simp
      rw [hq] at hr
      obtain ⟨r1, r2⟩ := abs_le.1 hr
      have z1 : 3 * m - 1 ≤ 2 * n := by
        have : ((3 * m - 1 : ℤ) : ℚ) ≤ ((2 * n : ℤ) : ℚ) := by push_cast; linarith
        exact_mod_cast this
      have z2 : 2 * n ≤ 3 * m + 1 := by
        have : ((2 * n : ℤ) : ℚ) ≤ ((3 * m + 1 : ℤ) : ℚ) := by push_cast; linarith
        exact_mod_cast this
      refine ⟨2 * n - 3 * m, ?_, by omega, fun h => absurd h h0⟩
      rw [hv, p1]; push_cast; ring
    · have hu : ulpExp (3 * y) = e + 2 := ulpExp_of (by omega)
        (by rw [p225]; have := (key (2 ^ 25)).2 (by omega); push_cast at this; linarith)
        (by rw [p226]; have := (key2 (2 ^ 26)).2 (by omega); push_cast at this; linarith)
      have hr := rne_near (3 * y / 2 ^ (e + 2))
      have hv : fl (3 * y) = (rne (3 * y / 2 ^ (e + 2)) : ℚ) * 2 ^ (e + 2) := by unfold fl; rw [hu]
      generalize rne (3 * y / 2 ^ (e + 2)) = n at hr hv
      have hq : 3 * y / 2 ^ (e + 2) = (3 * m : ℚ) / 4 := by
        rw [p2, hm]; field_simp
      rw [hq] at hr
      obtain ⟨r1, r2⟩ := abs_le.1 hr
      have z1 : 3 * m - 2 ≤ 4 * n := by
        have : ((3 * m - 2 : ℤ) : ℚ) ≤ ((4 * n : ℤ) : ℚ) := by push_cast; linarith
        exact_mod_cast this
      have z2 : 4 * n ≤ 3 * m + 2 := by
        have : ((4 * n : ℤ) : ℚ) ≤ ((3 * m + 2 : ℤ) : ℚ) := by push_cast; linarith
        exact_mod_cast this
      refine ⟨4 * n - 3 * m, ?_, by omega, fun h => absurd h h0⟩
      rw [hv, p2]; push_cast; ring
  obtain ⟨d1, d2, d3⟩ := hd2
  have hx : fl (3 * y) + y = ((4 * m + d : ℤ) : ℚ) * 2 ^ e := by rw [hd, hm]; push_cast; ring
  have hpos : 0 < 4 * m + d := by omega
  have hxa : |fl (3 * y) + y| = ((4 * m + d : ℤ) : ℚ) * 2 ^ e := by
    rw [hx, abs_of_pos (mul_pos (by exact_mod_cast hpos) ht)]
  have h4 : 4 * y = (m : ℚ) * 2 ^ (e + 2) := by rw [p2, hm]; ring
  rw [h4]
  have hlo : (2 : ℤ) ^ 25 ≤ 4 * m + d := by
    by_cases h0 : m = 2 ^ 23
    · have := hd0 h0; omega
    · omega
  refine fl_at (by omega) ?_ ?_ ?_
  · rw [p225, hxa, mul_comm]
    exact mul_le_mul_of_nonneg_right (by exact_mod_cast hlo) ht.le
  · rw [p226, hxa, mul_comm ((2 : ℚ) ^ e)]
    refine mul_lt_mul_of_pos_right ?_ ht
    have : 4 * m + d < 2 ^ 26 := by omega
    exact_mod_cast this
  · have hq : (fl (3 * y) + y) / 2 ^ (e + 2) - m = (d : ℚ) / 4 := by
      rw [hx, p2]; push_cast; field_simp; ring
    rw [hq, abs_div]
    by_cases h2 : d % 4 = 2
    · right
      refine ⟨?_, d3 h2⟩
      have : |d| ≤ 2 := abs_le.2 ⟨d1, d2⟩
      have : |(d : ℚ)| ≤ 2 := by exact_mod_cast this
      norm_num; linarith
    · left
      have : |d| ≤ 1 := abs_le.2 (by omega)
      have : |(d : ℚ)| ≤ 1 := by exact_mod_cast this
      norm_num; linarith

theorem fl_double {y : ℚ} (hy : fl y = y) : fl (2 * y) = 2 * y := by
  by_cases h0 : y = 0
  · rw [h0, mul_zero, fl_zero]
  have hb := abs_lt_ulp y
  have hge := ulp_ge y
  have hm : y = (rne (y / 2 ^ ulpExp y) : ℚ) * 2 ^ ulpExp y := hy.symm
  generalize rne (y / 2 ^ ulpExp y) = m at hm
  generalize ulpExp y = e at *
  have ht : (0 : ℚ) < 2 ^ e := two_zpow_pos e
  refine fl_exact m (e + 1) ?_ (by omega) (by rw [zpow_add₀ (by norm_num), zpow_one, hm]; ring)
  rw [hm, abs_mul, abs_of_pos ht, pow_split, mul_comm ((2 : ℚ) ^ e)] at hb
  have := (mul_lt_mul_iff_of_pos_right ht).1 hb
  have h2 : |(m : ℚ)| ≤ ((2 ^ 24 : ℤ) : ℚ) := by
    push_cast
    have e : (2 : ℚ) ^ (24 : ℤ) = 2 ^ 24 := by norm_cast
    rw [e] at this
    linarith
  exact_mod_cast h2

theorem quad {y : ℚ} (hy : fl y = y) (hn : Normal y) : fl (fl (3 * y) + y) = 4 * y := by
  rcases hn with h | h
  · rw [h]; simp [fl_zero]
  rcases le_total 0 y with h0 | h0
  · rw [abs_of_nonneg h0] at h
    exact quad_pos hy h
  · rw [abs_of_nonpos h0] at h
    have := quad_pos (y := -y) (by rw [fl_neg, hy]) h
    rw [show 3 * -y = -(3 * y) by ring, fl_neg, show -fl (3 * y) + -y = -(fl (3 * y) + y) by ring, fl_neg] at this
    linarith

/-- **Equal values survive the levels 1 and 2 bit for bit.** -/
theorem binMean_equal {level : Nat} (hL : level ≤ 2) {x : ℚ} (hx : Float x) (hn : Normal (x / 2 ^ level)) :
    binMean level (List.replicate (2 ^ level) (.fin x)) = .fin x := by
  have hd := div_pow hn hx
  have hy := fl_div_pow hn hx
  have hle : ∀ c : ℚ, 0 ≤ c → c ≤ 2 ^ level → |c * (x / 2 ^ level)| ≤ |x| := by
    intro c h0 h1
    rw [abs_mul, abs_div, abs_of_nonneg h0, abs_of_pos (by positivity : (0 : ℚ) < 2 ^ level)]
    rw [← mul_div_assoc, div_le_iff₀ (by positivity), mul_comm]
    exact mul_le_mul_of_nonneg_left h1 (abs_nonneg _)
  have s1 : F32.add (.fin 0) (.fin (x / 2 ^ level)) = .fin (x / 2 ^ level) := by
    rw [add_le' hx (by rw [zero_add, ← one_mul (x / 2 ^ level)]; exact hle 1 (by norm_num) (one_le_pow₀ (by norm_num))),
      zero_add, hy]
  interval_cases level
  · show F32.add (.fin 0) (F32.div (.fin x) (.fin (2 ^ 0))) = _
    rw [hd, s1]; norm_num
  · show F32.add (F32.add (.fin 0) (F32.div (.fin x) (.fin (2 ^ 1)))) (F32.div (.fin x) (.fin (2 ^ 1))) = _
    rw [hd, s1, add_le' hx (by rw [← two_mul]; exact hle 2 (by norm_num) (by norm_num)), ← two_mul, fl_double hy]
    congr 1; ring
  · show F32.add (F32.add (F32.add (F32.add (.fin 0) (F32.div (.fin x) (.fin (2 ^ 2)))) (F32.div (.fin x) (.fin (2 ^ 2))))
      (F32.div (.fin x) (.fin (2 ^ 2)))) (F32.div (.fin x) (.fin (2 ^ 2))) = _
    have hq := quad hy hn
    rw [hd, s1, add_le' hx (by rw [← two_mul]; exact hle 2 (by norm_num) (by norm_num)), ← two_mul, fl_double hy,
      add_le' hx (by rw [show 2 * (x / 2 ^ 2) + x / 2 ^ 2 = 3 * (x / 2 ^ 2) by ring]; exact hle 3 (by norm_num) (by norm_num)),
      show 2 * (x / 2 ^ 2) + x / 2 ^ 2 = 3 * (x / 2 ^ 2) by ring]
    show F32.round _ = _
    unfold F32.round
    have e : 4 * (x / 2 ^ 2) = x := by ring
    rw [hq, e, if_pos hx.2]

/-- **C186, small levels.**  `downsample(upsample(x))` is `x` bit for bit at levels 0, 1 and 2, for every
shape and axis, whatever the finite values are (quotients in the normal range). -/
theorem roundtripF_small (dx dy dz level : Nat) (hL : level ≤ 2) (axis : Nat) (hax : axis ≤ 2) (data : Nat → ℚ)
    (hd : ∀ q < dx * dy * dz, Float (data q) ∧ Normal (data q / 2 ^ level)) :
    ∃ u o, upsampleF dx dy dz level axis (fun q => .fin (data q)) = .ok (some u) ∧
      downsampleF u.shape.1 u.shape.2.1 u.shape.2.2 level axis u.get = .ok (some ⟨(dx, dy, dz), o⟩) ∧
      ∀ q < dx * dy * dz, o q = .fin (data q) := by
  obtain ⟨u, o, h1, h2, h3⟩ := roundtripF_val dx dy dz level (by omega) axis hax fun q => .fin (data q)
  exact ⟨u, o, h1, h2, fun q hq => by rw [h3 q hq, binMean_equal hL (hd q hq).1 (hd q hq).2]⟩

/-! ## Many equal values -/

/-- `y + y + ⋯` from the left, `k` terms. -/
def runs (y : ℚ) (k : Nat) : ℚ := (fun s => fl (s + y))^[k] 0

theorem runs_succ (y : ℚ) (k : Nat) : runs y (k + 1) = fl (runs y k + y) := Function.iterate_succ_apply' _ _ _

theorem runs_nonneg {y : ℚ} (hy : 0 ≤ y) (k : Nat) : 0 ≤ runs y k := by
  induction k with
  | zero => exact le_refl _
  | succ k ih => rw [runs_succ]; exact fl_nonneg (add_nonneg ih hy)

theorem runs_le (k : Nat) (hk : k ≤ 2 ^ 24) : runs 8388611 k ≤ k * 2 ^ 24 := by
  induction k with
  | zero => simp [runs]
  | succ k ih =>
    have h1 := ih (by omega)
    have h2 : fl ((k + 1 : ℚ) * 2 ^ 24) = (k + 1 : ℚ) * 2 ^ 24 :=
      fl_exact (k + 1 : ℤ) 24 (by rw [abs_of_nonneg (by omega)]; exact_mod_cast hk) (by norm_num) (by push_cast; norm_cast)
    rw [runs_succ]
    push_cast
    rw [← h2]
    refine fl_mono ?_
    rw [add_mul]
    have : (8388611 : ℚ) ≤ 1 * 2 ^ 24 := by norm_num
    linarith

theorem runs_scale {L : Nat} (hL : L ≤ 23) (k : Nat) :
    runs (8388611 / 2 ^ L) k = 2 ^ (-(L : ℤ)) * runs 8388611 k := by
  induction k with
  | zero => simp [runs]
  | succ k ih =>
    have h0 := runs_nonneg (y := 8388611) (by norm_num) k
    have hp : (0 : ℚ) < 2 ^ L := by positivity
    have hL2 : (2 : ℚ) ^ L ≤ 2 ^ 23 := pow_le_pow_right₀ (by norm_num) hL
    have e : (2 : ℚ) ^ (-(L : ℤ)) = 1 / 2 ^ L := by rw [zpow_neg, zpow_natCast, one_div]
    rw [runs_succ, runs_succ, ih, ← fl_scale]
    · rw [e]; congr 1; ring
    · right
      rw [abs_of_nonneg (by linarith)]
      have : (1 : ℚ) / 2 ^ 126 ≤ 1 := by norm_num
      linarith
    · right
      rw [e, abs_of_nonneg (mul_nonneg (by positivity) (by linarith))]
      have h1 : (1 : ℚ) ≤ 1 / 2 ^ L * (runs 8388611 k + 8388611) := by
        rw [one_div_mul_eq_div, le_div_iff₀ hp]
        have : (2 : ℚ) ^ 23 ≤ 8388611 := by norm_num
        linarith
      exact le_trans (by norm_num) h1

/-- From 32 copies on, a sum is above the multiple of `2²³` by the largest power of two in the number of
copies only. -/
theorem runs_val : ∀ (k j : Nat), 2 ^ j ≤ k → k < 2 ^ (j + 1) → 5 ≤ j → k ≤ 2 ^ 23 →
    runs 8388611 k = k * 2 ^ 23 + 2 ^ j := by
  intro k
  induction k with
  | zero => intro j h; have : 0 < 2 ^ j := by positivity
            omega
  | succ k ih =>
    intro j h1 h2 h5 hk
    have hj : j ≤ 23 := by
      by_contra hc
      have : 2 ^ 24 ≤ 2 ^ j := Nat.pow_le_pow_right (by norm_num) (by omega)
      omega
    have hj5 : (32 : ℚ) ≤ 2 ^ j := le_trans (by norm_num) (pow_le_pow_right₀ (by norm_num) h5)
    have hz : (2 : ℚ) ^ (j : ℤ) = 2 ^ j := zpow_natCast _ _
    by_cases hb : 2 ^ j ≤ k
    · -- inside a block
      have hj22 : j ≤ 22 := by
        by_contra hc
        have : j = 23 := by omega
        subst this
        omega
      obtain ⟨i, hi⟩ : ∃ i, i + j = 23 := ⟨23 - j, by omega⟩
      have hij : (2 : ℚ) ^ i * 2 ^ j = 2 ^ 23 := by rw [← pow_add, hi]
      rw [runs_succ, ih j hb (by omega) h5 (by omega)]
      have hkq : (2 : ℚ) ^ j ≤ k := by exact_mod_cast hb
      have hkq2 : (k : ℚ) + 1 + 1 ≤ 2 ^ (j + 1) := by exact_mod_cast h2
      have hj22q : (2 : ℚ) ^ j ≤ 2 ^ 22 := pow_le_pow_right₀ (by norm_num) hj22
      have hpos : (0 : ℚ) ≤ k * 2 ^ 23 + 2 ^ j + 8388611 := by positivity
      rw [fl_at (n := ((k : ℤ) + 1) * 2 ^ i + 1) (j := j) (by omega)]
      · push_cast
        rw [hz]
        linear_combination ((k : ℚ) + 1) * hij
      · rw [grid23, hz, abs_of_nonneg hpos]
        nlinarith
      · rw [grid24, hz, abs_of_nonneg hpos]
        rw [pow_succ] at hkq2
        have : (2 : ℚ) ^ j * 2 ^ 24 = 2 ^ j * 2 * 2 ^ 23 := by ring
        rw [this]
        have h3 : ((k : ℚ) + 1 + 1) * 2 ^ 23 ≤ 2 ^ j * 2 * 2 ^ 23 := mul_le_mul_of_nonneg_right hkq2 (by norm_num)
        norm_num at hj22q ⊢
        norm_num at h3
        linarith
      · left
        have : ((k : ℚ) * 2 ^ 23 + 2 ^ j + 8388611) / 2 ^ (j : ℤ) - (((k : ℤ) + 1) * 2 ^ i + 1 : ℤ) = 3 / 2 ^ j := by
          push_cast
          rw [hz, div_sub' (by positivity)]
          congr 1
          linear_combination (-(k : ℚ) - 1) * hij
        rw [this, abs_of_pos (by positivity), div_lt_iff₀ (by positivity)]
        linarith
    · -- the first number of a block
      have hk1 : k + 1 = 2 ^ j := by omega
      by_cases h6 : j = 5
      · subst h6
        have : k = 31 := by omega
        subst this
        decide +kernel
      obtain ⟨i, rfl⟩ : ∃ i, j = i + 1 := ⟨j - 1, by omega⟩
      have hpow : 2 ^ (i + 1) = 2 * 2 ^ i := by rw [pow_succ]; ring
      have hi4 : 32 ≤ 2 ^ i := le_trans (by norm_num) (Nat.pow_le_pow_right (by norm_num) (show 5 ≤ i by omega))
      rw [runs_succ, ih i (by omega) (by omega) (by omega) (by omega)]
      have hkq : (k : ℚ) = 2 * 2 ^ i - 1 := by
        have : ((k + 1 : Nat) : ℚ) = ((2 * 2 ^ i : Nat) : ℚ) := by rw [hk1, hpow]
        push_cast at this
        linarith
      have hi4q : (32 : ℚ) ≤ 2 ^ i := by exact_mod_cast hi4
      have hz2 : (2 : ℚ) ^ ((i + 1 : Nat) : ℤ) = 2 * 2 ^ i := by rw [zpow_natCast, pow_succ]; ring
      have hpos : (0 : ℚ) ≤ k * 2 ^ 23 + 2 ^ i + 8388611 := by positivity
      have hil : (2 : ℚ) ^ i ≤ 2 ^ 22 := pow_le_pow_right₀ (by norm_num) (by omega)
      rw [fl_at (n := 2 ^ 23 + 1) (j := ((i + 1 : Nat) : ℤ)) (by omega)]
      · push_cast at hz2 ⊢
        rw [hkq, hz2, pow_succ]
        ring
      · rw [grid23, hz2, abs_of_nonneg hpos, hkq]
        norm_num at hi4q ⊢
        linarith
      · rw [grid24, hz2, abs_of_nonneg hpos, hkq]
        norm_num at hi4q hil ⊢
        linarith
      · left
        have : ((k : ℚ) * 2 ^ 23 + 2 ^ i + 8388611) / 2 ^ ((i + 1 : Nat) : ℤ) - (2 ^ 23 + 1 : ℤ) =
            (3 - 2 ^ i) / (2 * 2 ^ i) := by
          rw [hz2, hkq, div_sub' (by positivity)]
          congr 1
          push_cast
          ring
        rw [this, abs_div, abs_of_neg (by linarith), abs_of_pos (by positivity), div_lt_iff₀ (by positivity)]
        linarith

theorem binMean_copies {level : Nat} {x : ℚ} (hx : Float x) (hn : Normal (x / 2 ^ level)) (n : Nat)
    (hf : ∀ k < n, |runs (x / 2 ^ level) k + x / 2 ^ level| ≤ 2 ^ 126) :
    binMean level (List.replicate n (.fin x)) = .fin (runs (x / 2 ^ level) n) := by
  induction n with
  | zero => rfl
  | succ n ih =>
    have h := ih fun k hk => hf k (by omega)
    unfold binMean at h ⊢
    rw [List.replicate_succ', List.foldl_append, h, runs_succ]
    show F32.add _ (F32.div (.fin x) (.fin (2 ^ level))) = _
    rw [div_pow hn hx]
    exact round_fin (hf n (by omega))

/-- **The mean of equal values is not that value**: from level 5 to 23, copies of 8388611 average to
8388609, which is below all of them. -/
theorem binMean_large {level : Nat} (h5 : 5 ≤ level) (h23 : level ≤ 23) :
    binMean level (List.replicate (2 ^ level) (.fin 8388611)) = .fin 8388609 := by
  have hp : (0 : ℚ) < 2 ^ level := by positivity
  have hk : 2 ^ level ≤ 2 ^ 23 := Nat.pow_le_pow_right (by norm_num) h23
  have hL2 : (2 : ℚ) ^ level ≤ 2 ^ 23 := pow_le_pow_right₀ (by norm_num) h23
  have e : (2 : ℚ) ^ (-(level : ℤ)) = 1 / 2 ^ level := by rw [zpow_neg, zpow_natCast, one_div]
  have h1 : (1 : ℚ) ≤ 8388611 / 2 ^ level := by
    rw [le_div_iff₀ hp, one_mul]
    exact le_trans hL2 (by norm_num)
  rw [binMean_copies ⟨by exact_mod_cast fl_int (m := 8388611) (by norm_num), by norm_num⟩, runs_scale h23,
    runs_val (2 ^ level) level (le_refl _) (Nat.pow_lt_pow_right (by norm_num) (by omega)) h5 hk, e]
  · congr 1
    push_cast
    field_simp
    norm_num
  · right
    rw [abs_of_nonneg (by linarith)]
    exact le_trans (by norm_num) h1
  · intro k hk'
    rw [runs_scale h23, e]
    have a1 := runs_nonneg (y := 8388611) (by norm_num) k
    have a2 := runs_le k (by omega)
    have hkq : (k : ℚ) ≤ 2 ^ 23 := by exact_mod_cast (by omega : k ≤ 2 ^ 23)
    have a3 : (1 : ℚ) / 2 ^ level ≤ 1 := by
      rw [div_le_one hp]; exact one_le_pow₀ (by norm_num)
    have a4 : 8388611 / (2 : ℚ) ^ level ≤ 8388611 := div_le_self (by norm_num) (one_le_pow₀ (by norm_num))
    rw [abs_of_nonneg (add_nonneg (mul_nonneg (by positivity) a1) (by linarith))]
    have a5 : 1 / (2 : ℚ) ^ level * runs 8388611 k ≤ 1 * (k * 2 ^ 24) := mul_le_mul a3 a2 a1 (by norm_num)
    have a6 : (k : ℚ) * 2 ^ 24 ≤ 2 ^ 23 * 2 ^ 24 := mul_le_mul_of_nonneg_right hkq (by norm_num)
    refine le_trans (add_le_add a5 a4) ?_
    norm_num at a6 ⊢
    linarith

/-- **C186, large levels (refutation).**  At every level from 3 to 23 there is a `float` `x` such that
`downsample(upsample(x))` differs from `x` in every entry of a constant array of any shape, along any axis. -/
theorem roundtripF_fails {level : Nat} (h3 : 3 ≤ level) (h23 : level ≤ 23) :
    ∃ x y : ℚ, Float x ∧ Normal (x / 2 ^ level) ∧ y < x ∧
      ∀ (dx dy dz axis : Nat), axis ≤ 2 → ∃ u o,
        upsampleF dx dy dz level axis (fun _ => .fin x) = .ok (some u) ∧
        downsampleF u.shape.1 u.shape.2.1 u.shape.2.2 level axis u.get = .ok (some ⟨(dx, dy, dz), o⟩) ∧
        ∀ q < dx * dy * dz, o q = .fin y := by
  suffices h : ∃ x y : ℚ, Float x ∧ Normal (x / 2 ^ level) ∧ y < x ∧
      binMean level (List.replicate (2 ^ level) (.fin x)) = .fin y by
    obtain ⟨x, y, h1, h2, h4, h5⟩ := h
    refine ⟨x, y, h1, h2, h4, fun dx dy dz axis hax => ?_⟩
    obtain ⟨u, o, a, b, c⟩ := roundtripF_val dx dy dz level (by omega) axis hax fun _ => .fin x
    exact ⟨u, o, a, b, fun q hq => by rw [c q hq, h5]⟩
  have hf : ∀ m : ℤ, 2 ^ 23 ≤ m → m ≤ 2 ^ 24 → Float (m : ℚ) ∧ Normal ((m : ℚ) / 2 ^ level) := by
    intro m hm hm2
    have hmq : (2 : ℚ) ^ 23 ≤ m := by exact_mod_cast hm
    have hmq2 : (m : ℚ) ≤ 2 ^ 24 := by exact_mod_cast hm2
    have hp : (0 : ℚ) < 2 ^ level := by positivity
    have hL2 : (2 : ℚ) ^ level ≤ 2 ^ 23 := pow_le_pow_right₀ (by norm_num) h23
    have hm0 : (0 : ℚ) ≤ m := le_trans (by norm_num) hmq
    refine ⟨⟨fl_int (by rw [abs_of_nonneg (by omega)]; exact hm2), ?_⟩, Or.inr ?_⟩
    · rw [abs_of_nonneg hm0]
      exact lt_of_le_of_lt hmq2 (by norm_num)
    · rw [abs_of_nonneg (div_nonneg hm0 hp.le)]
      refine le_trans (by norm_num : (1 : ℚ) / 2 ^ 126 ≤ 1) ?_
      rw [le_div_iff₀ hp]
      linarith
  by_cases c3 : level = 3
  · have := hf 12521987 (by norm_num) (by norm_num)
    subst c3
    exact ⟨12521987, 12521986, by simpa using this.1, by simpa using this.2, by norm_num, by decide +kernel⟩
  have h8 := hf 8388611 (by norm_num) (by norm_num)
  by_cases c4 : level = 4
  · subst c4
    exact ⟨8388611, 8388610, by simpa using h8.1, by simpa using h8.2, by norm_num, by decide +kernel⟩
  · exact ⟨8388611, 8388609, by simpa using h8.1, by simpa using h8.2, by norm_num, binMean_large (by omega) h23⟩

/-! ## Counts -/

theorem sum_abs_le {b : ℤ} : ∀ {l : List ℤ}, (∀ c ∈ l, |c| ≤ b) → |l.sum| ≤ l.length * b := by
  intro l
  induction l with
  | nil => intro _; simp
  | cons a l ih =>
    intro h
    have h1 := ih fun c hc => h c (by simp [hc])
    have h2 := h a (by simp)
    have h3 := abs_add_le a l.sum
    rw [List.sum_cons, List.length_cons]
    push_cast
    rw [add_mul]
    omega

theorem fl_count {level : Nat} (hL : level ≤ 31) {c : ℤ} (hc : |c| ≤ 2 ^ 24) :
    F32.round ((c : ℚ) / 2 ^ level) = .fin (c / 2 ^ level) := by
  have hle : |(c : ℚ) / 2 ^ level| ≤ 2 ^ 126 := by
    have h1 : |(c : ℚ)| ≤ 2 ^ 24 := by exact_mod_cast hc
    rw [abs_div, abs_of_pos (by positivity : (0 : ℚ) < 2 ^ level)]
    exact le_trans (div_le_self (abs_nonneg _) (one_le_pow₀ (by norm_num))) (le_trans h1 (by norm_num))
  rw [round_fin hle, fl_exact c (-(level : ℤ)) hc (by omega) (by rw [zpow_neg, zpow_natCast]; rfl)]

/-- **C186, counts.**  Integers of `b` bits are averaged exactly if `b + level ≤ 24`, in any order and
whatever they are: 16-bit detector counts up to level 8. -/
theorem binMean_counts {level b : Nat} (hb : b + level ≤ 24) {l : List ℤ} (hl : l.length = 2 ^ level)
    (hc : ∀ c ∈ l, |c| ≤ 2 ^ b) :
    binMean level (l.map fun c : ℤ => .fin (c : ℚ)) = .fin (mean (l.map fun c : ℤ => (c : ℚ))) := by
  have key : ∀ l : List ℤ, l.length ≤ 2 ^ level → (∀ c ∈ l, |c| ≤ 2 ^ b) →
      binMean level (l.map fun c : ℤ => .fin (c : ℚ)) = .fin ((l.sum : ℚ) / 2 ^ level) := by
    intro l
    induction l using List.reverseRecOn with
    | nil => intro _ _; simp [binMean]
    | append_singleton l a ih =>
      intro h1 h2
      have h3 := ih (by rw [List.length_append] at h1; omega) fun c hc => h2 c (by simp [hc])
      have h4 := sum_abs_le h2
      have h5 : ((l ++ [a]).length : ℤ) * 2 ^ b ≤ 2 ^ 24 := by
        have : (l ++ [a]).length * 2 ^ b ≤ 2 ^ level * 2 ^ b := Nat.mul_le_mul_right _ h1
        rw [← pow_add] at this
        have h6 : 2 ^ (level + b) ≤ 2 ^ 24 := Nat.pow_le_pow_right (by norm_num) (by omega)
        exact_mod_cast le_trans this h6
      have h7 : |a| ≤ 2 ^ 24 := le_trans (h2 a (by simp)) (pow_le_pow_right₀ (by norm_num) (by omega))
      unfold binMean at h3 ⊢
      rw [List.map_append, List.foldl_append, h3, List.map_singleton, List.foldl_cons, List.foldl_nil]
      have h8 : F32.div (.fin (a : ℚ)) (.fin (2 ^ level)) = .fin (a / 2 ^ level) := by
        show (if (2 : ℚ) ^ level = 0 then _ else _) = _
        rw [if_neg (by positivity), fl_count (by omega) h7]
      rw [h8]
      show F32.round _ = _
      rw [← add_div]
      have e : (l.sum : ℚ) + a = ((l ++ [a]).sum : ℤ) := by simp
      rw [e, fl_count (by omega) (le_trans h4 h5)]
  rw [key l hl.le hc]
  unfold mean
  rw [List.length_map, hl]
  have : (l.map fun c : ℤ => (c : ℚ)).sum = ((l.sum : ℤ) : ℚ) := by
    induction l with
    | nil => simp
    | cons a l ih => simp
  rw [this]
  push_cast
  rfl

/-! ## Accuracy -/

theorem pow_lin {n : Nat} (hn : n ≤ 16384) : (1 + 1 / 2 ^ 24 : ℚ) ^ n ≤ 1 + 2 * n / 2 ^ 24 := by
  have h1 : (1 - n * (1 / 2 ^ 24) : ℚ) ≤ (1 - 1 / 2 ^ 24) ^ n := by
    have := one_add_mul_le_pow (a := (-(1 / 2 ^ 24) : ℚ)) (by norm_num) n
    have e : (1 + -(1 / 2 ^ 24) : ℚ) = 1 - 1 / 2 ^ 24 := by ring
    rw [e] at this
    linarith
  have h2 : (1 + 1 / 2 ^ 24 : ℚ) ^ n * (1 - 1 / 2 ^ 24) ^ n ≤ 1 := by
    rw [← mul_pow]
    exact pow_le_one₀ (by norm_num) (by norm_num)
  have hnq : (n : ℚ) ≤ 16384 := by exact_mod_cast hn
  have hn0 : (0 : ℚ) ≤ n := by positivity
  have h4 := pow_one_le n
  generalize (1 + 1 / 2 ^ 24 : ℚ) ^ n = P at *
  generalize (1 - 1 / 2 ^ 24 : ℚ) ^ n = Q at *
  obtain ⟨t, ht⟩ : ∃ t : ℚ, t = n / 2 ^ 24 := ⟨_, rfl⟩
  have t0 : 0 ≤ t := by rw [ht]; positivity
  have t1 : t ≤ 1 / 4 := by rw [ht, div_le_iff₀ (by norm_num)]; linarith
  rw [show (n : ℚ) * (1 / 2 ^ 24) = t by rw [ht]; ring] at h1
  rw [show 2 * (n : ℚ) / 2 ^ 24 = 2 * t by rw [ht]; ring]
  have h5 : P * (1 - t) ≤ 1 := le_trans (mul_le_mul_of_nonneg_left h1 (by linarith)) h2
  by_contra hc
  rw [not_le] at hc
  have h6 : (1 + 2 * t) * (1 - t) ≤ P * (1 - t) := mul_le_mul_of_nonneg_right hc.le (by linarith)
  nlinarith

/-- **C186, accuracy.**  Up to level 13, the mean in `float` is within `2^level / 2²²` of the exact mean,
relative to the mean of the absolute values. -/
theorem binMean_accurate {level : Nat} (hL : level ≤ 13) {l : List ℚ} (hl : l.length = 2 ^ level)
    (hx : ∀ x ∈ l, Float x ∧ Normal (x / 2 ^ level) ∧ |x| ≤ 2 ^ 100) :
    ∃ r, binMean level (l.map .fin) = .fin r ∧
      |r - mean l| ≤ 2 ^ level / 2 ^ 22 * mean (l.map abs) + 1 / 2 ^ 134 := by
  have hp : (0 : ℚ) < 2 ^ level := by positivity
  have hlen : (2 : Nat) ^ level ≤ 2 ^ 13 := Nat.pow_le_pow_right (by norm_num) hL
  have hlenq : (2 : ℚ) ^ level ≤ 2 ^ 13 := pow_le_pow_right₀ (by norm_num) hL
  have h1q : (1 : ℚ) ≤ 2 ^ level := one_le_pow₀ (by norm_num)
  let k := l.map fun x => (x, 1 / (2 : ℚ) ^ level)
  have hk : k.length = 2 ^ level := by simp [k, hl]
  have hE : exactSum k = mean l := by
    simp only [exactSum, k, List.map_map, mean, hl, Function.comp_def]
    rw [List.sum_map_mul_right]
    push_cast
    rw [List.map_id']
    ring
  have hA : absSum k = mean (l.map abs) := by
    simp only [absSum, k, List.map_map, mean, hl, Function.comp_def, List.length_map]
    have : (l.map fun x => |x * (1 / (2 : ℚ) ^ level)|) = l.map fun x => |x| * (1 / 2 ^ level) :=
      List.map_congr_left fun x _ => by rw [abs_mul, abs_of_pos (by positivity : (0 : ℚ) < 1 / 2 ^ level)]
    rw [this, List.sum_map_mul_right]
    push_cast
    ring
  have hA100 : absSum k ≤ 2 ^ 100 := by
    rw [hA]
    unfold mean
    have h0 : ∀ l : List ℚ, (∀ x ∈ l, |x| ≤ 2 ^ 100) → (l.map abs).sum ≤ l.length * 2 ^ 100 := by
      intro l
      induction l with
      | nil => intro _; simp
      | cons a l ih =>
        intro h
        have h1 := ih fun x hx => h x (by simp [hx])
        have h2 := h a (by simp)
        rw [List.map_cons, List.sum_cons, List.length_cons]
        push_cast
        linarith
    have := h0 l fun x hxl => (hx x hxl).2.2
    rw [List.length_map, hl]
    rw [hl] at this
    push_cast at this ⊢
    rw [div_le_iff₀ hp]
    linarith
  have hfold : binMean level (l.map .fin) =
      k.foldl (fun a x => F32.mac true (.fin x.1) (.fin x.2) a) (.fin 0) := by
    simp only [k, List.foldl_map, binMean]
    refine List.foldl_ext _ _ _ fun a x hxl => ?_
    rw [div_pow (hx x hxl).2.1 (hx x hxl).1]
    cases a with
    | fin z =>
      show F32.round (z + x / 2 ^ level) = F32.round (x * (1 / 2 ^ level) + z)
      congr 1; ring
    | inf s => rfl
    | nan => rfl
  refine ⟨_, hfold.trans (fold_fin true (by rw [hk]; omega) hA100), ?_⟩
  have he := lineSumF_err true k
  rw [hE, hA, hk] at he
  refine le_trans he (add_le_add ?_ ?_)
  · have hm : 0 ≤ mean (l.map abs) := hA ▸ absSum_nonneg k
    refine mul_le_mul_of_nonneg_right ?_ hm
    have := pow_lin (n := 2 ^ level + 1) (by omega)
    push_cast at this
    refine le_trans (sub_le_sub_right this 1) ?_
    norm_num at h1q ⊢
    linarith
  · have p2 := pow_bound (n := 2 ^ level) (by omega)
    push_cast
    calc 2 * (2 : ℚ) ^ level * (1 / 2 ^ 150) * (1 + 1 / 2 ^ 24) ^ 2 ^ level
        ≤ 2 * 2 ^ 13 * (1 / 2 ^ 150) * (1 + 99 / 100000) := by
          refine mul_le_mul ?_ p2 (by positivity) (by positivity)
          gcongr
      _ ≤ 1 / 2 ^ 134 := by norm_num

/-- **C186, counts of a whole array.**  An array of 16-bit counts is binned without any rounding error up to
level 8, for every shape and axis. -/
theorem downsampleF_counts (dx dy dz level : Nat) (hL : level ≤ 8) (axis : Nat) (hax : axis ≤ 2)
    (data : Nat → ℤ) (hd : ∀ q, |data q| ≤ 2 ^ 16) :
    ∃ o, downsampleF dx dy dz level axis (fun q => .fin (data q)) =
        .ok (some ⟨newShape dx dy dz axis (axisLen dx dy dz axis / 2 ^ level), o⟩) ∧
      ∀ l < outer dx dy dz (2 ^ level) axis, ∀ c < inner dy dz axis,
        o (l * inner dy dz axis + c) = .fin (mean ((List.range (2 ^ level)).map fun p =>
          (data ((l * 2 ^ level + p) * inner dy dz axis + c) : ℚ))) := by
  obtain ⟨o, h1, h2⟩ := downsampleF_val dx dy dz level (by omega) axis hax fun q => .fin (data q)
  refine ⟨o, h1, fun l hl c hc => ?_⟩
  rw [h2 l hl c hc]
  have h := binMean_counts (level := level) (b := 16) (by omega)
    (l := (List.range (2 ^ level)).map fun p => data ((l * 2 ^ level + p) * inner dy dz axis + c)) (by simp)
    (by intro c hc; obtain ⟨p, _, rfl⟩ := List.mem_map.1 hc; exact hd _)
  rw [List.map_map, List.map_map] at h
  exact h

/-- **C186, accuracy of a whole array.** -/
theorem downsampleF_accurate (dx dy dz level : Nat) (hL : level ≤ 13) (axis : Nat) (hax : axis ≤ 2)
    (data : Nat → ℚ) (hd : ∀ q, Float (data q) ∧ Normal (data q / 2 ^ level) ∧ |data q| ≤ 2 ^ 100) :
    ∃ o : Nat → F32, downsampleF dx dy dz level axis (fun q => .fin (data q)) =
        .ok (some ⟨newShape dx dy dz axis (axisLen dx dy dz axis / 2 ^ level), o⟩) ∧
      ∀ l < outer dx dy dz (2 ^ level) axis, ∀ c < inner dy dz axis,
        ∃ r, o (l * inner dy dz axis + c) = .fin r ∧
          |r - mean ((List.range (2 ^ level)).map fun p => data ((l * 2 ^ level + p) * inner dy dz axis + c))| ≤
            2 ^ level / 2 ^ 22 *
              mean ((List.range (2 ^ level)).map fun p => |data ((l * 2 ^ level + p) * inner dy dz axis + c)|) +
            1 / 2 ^ 134 := by
  obtain ⟨o, h1, h2⟩ := downsampleF_val dx dy dz level (by omega) axis hax fun q => .fin (data q)
  refine ⟨o, h1, fun l hl c hc => ?_⟩
  rw [h2 l hl c hc]
  have h := binMean_accurate hL
    (l := (List.range (2 ^ level)).map fun p => data ((l * 2 ^ level + p) * inner dy dz axis + c)) (by simp)
    (by intro c hc; obtain ⟨p, _, rfl⟩ := List.mem_map.1 hc; exact hd _)
  rw [List.map_map, List.map_map] at h
  exact h

/-! ## Examples -/

/-- value of one entry, for the concrete checks -/
def entry (r : Except PyErr (Option (Sampled F32))) (q : Nat) : Option F32 :=
  match r with
  | .ok (some s) => some (s.get q)
  | _ => none

-- the loops, on a 1×4×3 array of numbers along axis 1
example : entry (downsampleF 1 4 3 1 1 fun q => .fin q) 4 = some (.fin (17 / 2)) := by decide +kernel

-- level 2 repairs the error of the third sum
example : F32.add (.fin (2 * 8388611)) (.fin 8388611) = .fin (3 * 8388611 - 1) ∧
    binMean 2 (List.replicate 4 (.fin 8388611)) = .fin 8388611 := by
  constructor <;> decide +kernel

example : Float 8388611 ∧ Normal (8388611 / 2 ^ 2) :=
  ⟨⟨by exact_mod_cast fl_int (m := 8388611) (by norm_num), by norm_num⟩, Or.inr (by norm_num)⟩

-- level 5, by evaluation
example : binMean 5 (List.replicate 32 (.fin 8388611)) = .fin 8388609 := by decide +kernel

-- counts at level 3 that do not divide evenly
example : binMean 3 ([65535, 65534, 3, 1, 0, 7, 65535, 2].map fun c : ℤ => .fin (c : ℚ)) = .fin (196617 / 8) := by
  decide +kernel

end Tomopy.Fl
