import Verif.Corr.Med2Model
import Verif.Corr.Median3d
import Verif.Fl.OsemProps
import Mathlib.Tactic.IntervalCases

/-!
# The buffer of the median kernels and their agreement (C148, C149)
-/

set_option linter.unusedSectionVars false

namespace Tomopy.Corr
open Tomopy.Num Tomopy.Fl

/-! ## `powf` -/

/-- A number that a `float` can hold (overflow apart). -/
def IsFloat (x : ℚ) : Prop := fl x = x

/-- What is assumed of `powf`: the result is a `float`, and it is the exact power where that is a
`float`. -/
def FaithfulPow (powf : ℚ → Nat → ℚ) : Prop :=
  ∀ d n, IsFloat (powf d n) ∧ (IsFloat (d ^ n) → powf d n = d ^ n)

/-- A correctly rounded `powf`. -/
def RoundedPow (powf : ℚ → Nat → ℚ) : Prop := ∀ d n, powf d n = fl (d ^ n)

theorem cTrunc_int (m : ℤ) : Ray.cTrunc (m : ℚ) = m := by
  unfold Ray.cTrunc
  split <;> simp

theorem isFloat_even {x : ℚ} (h : IsFloat x) (hx : 2 ^ 24 ≤ x) : ∃ m : ℤ, x = ((2 * m : ℤ) : ℚ) := by
  have h0 : x ≠ 0 := by
    have : (0 : ℚ) < 2 ^ 24 := by positivity
    linarith
  have hpos : 0 < x := by
    have : (0 : ℚ) < 2 ^ 24 := by positivity
    linarith
  have he : 1 ≤ ulpExp x := by
    have hl : (24 : ℤ) ≤ Int.log 2 |x| := by
      rw [abs_of_pos hpos]
      rw [← Int.zpow_le_iff_le_log (by norm_num) hpos]
      exact_mod_cast hx
    unfold ulpExp
    omega
  obtain ⟨e, he'⟩ : ∃ e : ℕ, ulpExp x = (e : ℤ) + 1 := ⟨(ulpExp x - 1).toNat, by omega⟩
  refine ⟨rne (x / 2 ^ ulpExp x) * 2 ^ e, ?_⟩
  have h' : fl x = x := h
  rw [← h']
  conv_lhs => unfold fl
  rw [h', he', zpow_add₀ (by norm_num), zpow_natCast, zpow_one]
  push_cast
  ring

theorem sizeTotal_small {powf : ℚ → Nat → ℚ} (hp : FaithfulPow powf) {r n : Nat}
    (h : (2 * r + 1) ^ n < 2 ^ 24) : sizeTotal powf r n = ((2 * r + 1) ^ n : ℕ) := by
  unfold sizeTotal
  have e : ((2 * r + 1 : ℚ)) ^ n = (((2 * r + 1) ^ n : ℕ) : ℤ) := by push_cast; ring
  rw [(hp _ n).2]
  · rw [e, cTrunc_int]
  · unfold IsFloat
    rw [e]
    refine fl_int ?_
    rw [abs_of_nonneg (by positivity)]
    exact_mod_cast h.le

theorem sizeTotal_large {powf : ℚ → Nat → ℚ} (hp : FaithfulPow powf) {r n : Nat}
    (h : 2 ^ 24 ≤ (2 * r + 1) ^ n) : sizeTotal powf r n ≠ ((2 * r + 1) ^ n : ℕ) := by
  intro he
  unfold sizeTotal at he
  have hodd : (2 * r + 1) ^ n % 2 = 1 := by
    rw [← Nat.odd_iff]
    exact Odd.pow ⟨r, rfl⟩
  obtain ⟨hP, -⟩ := hp (2 * (r : ℚ) + 1) n
  generalize (2 * r + 1) ^ n = D at *
  generalize powf (2 * (r : ℚ) + 1) n = P at *
  unfold Ray.cTrunc at he
  split at he
  · have hle : (2 : ℚ) ^ 24 ≤ P := by
      have h1 : ((D : ℤ) : ℚ) ≤ P := by rw [← he]; exact Int.floor_le P
      have h2 : ((2 ^ 24 : ℕ) : ℚ) ≤ ((D : ℤ) : ℚ) := by exact_mod_cast h
      rw [Nat.cast_pow] at h2
      exact le_trans h2 h1
    obtain ⟨m, rfl⟩ := isFloat_even hP hle
    rw [Int.floor_intCast] at he
    omega
  · rename_i hneg
    have : ⌈P⌉ ≤ 0 := Int.ceil_le.mpr (by push_cast; linarith [not_le.mp hneg])
    have : 0 < D := lt_of_lt_of_le (by positivity) h
    omega

theorem sizeTotal_iff {powf : ℚ → Nat → ℚ} (hp : FaithfulPow powf) (r n : Nat) :
    sizeTotal powf r n = ((2 * r + 1) ^ n : ℕ) ↔ (2 * r + 1) ^ n < 2 ^ 24 :=
  ⟨fun h => not_le.mp fun h' => sizeTotal_large hp h' h, sizeTotal_small hp⟩

/-- **C148**: the buffer of the 3D kernels has the length of the window exactly for radii up to
127, i.e. kernels up to 255 voxels wide. -/
theorem medBuffer_exact3 {powf : ℚ → Nat → ℚ} (hp : FaithfulPow powf) (r : Nat) :
    sizeTotal powf r 3 = ((2 * r + 1) ^ 3 : ℕ) ↔ r ≤ 127 := by
  rw [sizeTotal_iff hp]
  constructor
  · intro h
    by_contra hr
    have : 257 ^ 3 ≤ (2 * r + 1) ^ 3 := Nat.pow_le_pow_left (by omega) 3
    norm_num at this h
    omega
  · intro h
    have : (2 * r + 1) ^ 3 ≤ 255 ^ 3 := Nat.pow_le_pow_left (by omega) 3
    norm_num at this ⊢
    omega

/-- **C148**: the buffer of the 2D kernels has the length of the window exactly for radii up to
2047. -/
theorem medBuffer_exact2 {powf : ℚ → Nat → ℚ} (hp : FaithfulPow powf) (r : Nat) :
    sizeTotal powf r 2 = ((2 * r + 1) ^ 2 : ℕ) ↔ r ≤ 2047 := by
  rw [sizeTotal_iff hp]
  constructor
  · intro h
    by_contra hr
    have : 4097 ^ 2 ≤ (2 * r + 1) ^ 2 := Nat.pow_le_pow_left (by omega) 2
    norm_num at this h
    omega
  · intro h
    have : (2 * r + 1) ^ 2 ≤ 4095 ^ 2 := Nat.pow_le_pow_left (by omega) 2
    norm_num at this ⊢
    omega

/-- Odd integers between `2²⁴` and `2²⁵` are halfway between two floats. -/
theorem fl_odd {D : ℕ} (h1 : 2 ^ 24 ≤ D) (h2 : D < 2 ^ 25) :
    (D % 4 = 1 → fl (D : ℚ) = ((D - 1 : ℕ) : ℚ)) ∧ (D % 4 = 3 → fl (D : ℚ) = ((D + 1 : ℕ) : ℚ)) := by
  have hD : (0 : ℚ) < D := by
    have : 0 < D := lt_of_lt_of_le (by positivity) h1
    exact_mod_cast this
  have hu : ulpExp (D : ℚ) = 1 := by
    have hl : Int.log 2 |(D : ℚ)| = 24 := by
      rw [abs_of_pos hD]
      apply le_antisymm
      · rw [← Int.lt_add_one_iff, ← Int.lt_zpow_iff_log_lt (by norm_num) hD]
        exact_mod_cast h2
      · rw [← Int.zpow_le_iff_le_log (by norm_num) hD]
        exact_mod_cast h1
    unfold ulpExp
    rw [hl]
    norm_num
  have key : ∀ m : ℕ, D = 2 * m + 1 →
      fl (D : ℚ) = ((if (m : ℤ) % 2 = 0 then (m : ℤ) else m + 1 : ℤ) : ℚ) * 2 := by
    intro m hm
    unfold fl
    rw [hu, zpow_one]
    have hq : (D : ℚ) / 2 = m + 1 / 2 := by rw [hm]; push_cast; ring
    have hf : ⌊(D : ℚ) / 2⌋ = m := by
      rw [hq, Int.floor_eq_iff]
      push_cast
      constructor <;> linarith
    congr 2
    unfold rne
    rw [hf, hq]
    have e1 : ¬ ((m : ℚ) + 1 / 2 - ((m : ℤ) : ℚ) < 1 / 2) := by push_cast; linarith
    have e2 : ¬ (1 / 2 < (m : ℚ) + 1 / 2 - ((m : ℤ) : ℚ)) := by push_cast; linarith
    rw [if_neg e1, if_neg e2]
  constructor
  · intro h4
    obtain ⟨m, rfl⟩ : ∃ m, D = 4 * m + 1 := ⟨D / 4, by omega⟩
    rw [key (2 * m) (by omega), if_pos (by omega)]
    rw [Nat.add_sub_cancel]
    push_cast
    ring
  · intro h4
    obtain ⟨m, rfl⟩ : ∃ m, D = 4 * m + 3 := ⟨D / 4, by omega⟩
    rw [key (2 * m + 1) (by omega), if_neg (by omega)]
    push_cast
    ring

/-! ## The kernels -/

section
variable {K : Type} [LinearOrder K] [Field K] [IsStrictOrderedRing K]
variable {V : Type} [LinearOrder V] [Zero V]

theorem length_windowIdx2 (r dX dY i j : Nat) :
    (windowIdx2 r dX dY i j).length = (2 * r + 1) ^ 2 := by
  unfold windowIdx2 offs
  simp only [List.length_flatMap, List.length_map, List.length_range]
  simp only [List.map_const', List.sum_replicate_nat, List.length_map, List.length_range]
  ring

theorem vecDecide_exact (thr : K) (dif : V → V → K) {n : Nat} {vs : List V} (h : vs.length = n)
    (x : V) : vecDecide n thr dif vs x = some (if thr = 0 then some ((sortL vs).getD (n / 2) 0)
      else if dif x ((sortL vs).getD (n / 2) 0) ≥ thr then some ((sortL vs).getD (n / 2) 0)
      else none) := by
  unfold vecDecide
  rw [if_neg (by omega), h, Nat.sub_self, List.replicate_zero, List.append_nil]

theorem toNat_size {powf : ℚ → Nat → ℚ} {r n : Nat}
    (h : sizeTotal powf r n = ((2 * r + 1) ^ n : ℕ)) : (sizeTotal powf r n).toNat = (2 * r + 1) ^ n := by
  rw [h, Int.toNat_natCast]

/-- **C148** (partial: radii up to 127): the 3D kernel stays in its buffer and computes what C24
describes. -/
theorem med3F_partial {powf : ℚ → Nat → ℚ} (hp : FaithfulPow powf) {r : Nat} (hr : r ≤ 127)
    (dX dY dZ : Nat) (thr : K) (inp : Nat → K) (i j k : Nat) :
    med3F powf r dX dY dZ thr inp i j k =
      some (medDecide r thr ((windowIdx r dX dY dZ i j k).map inp) (inp (idx3 dX dY i j k))) := by
  unfold med3F
  rw [toNat_size ((medBuffer_exact3 hp r).mpr hr),
    vecDecide_exact _ _ (by rw [List.length_map, length_windowIdx])]
  rfl

theorem sizeTotal_short {powf : ℚ → Nat → ℚ} (hp : RoundedPow powf) {r : Nat} (h1 : 128 ≤ r)
    (h2 : r ≤ 160) (he : r % 2 = 0) : (sizeTotal powf r 3).toNat = (2 * r + 1) ^ 3 - 1 := by
  have l1 : 2 ^ 24 ≤ (2 * r + 1) ^ 3 := by
    have : 257 ^ 3 ≤ (2 * r + 1) ^ 3 := Nat.pow_le_pow_left (by omega) 3
    norm_num at this ⊢
    omega
  have l2 : (2 * r + 1) ^ 3 < 2 ^ 25 := by
    have : (2 * r + 1) ^ 3 ≤ 321 ^ 3 := Nat.pow_le_pow_left (by omega) 3
    norm_num at this ⊢
    omega
  have l3 : (2 * r + 1) ^ 3 % 4 = 1 := by
    have : (2 * r + 1) % 4 = 1 := by omega
    rw [Nat.pow_mod, this]
  unfold sizeTotal
  rw [hp]
  have e : ((2 * r + 1 : ℚ)) ^ 3 = (((2 * r + 1) ^ 3 : ℕ) : ℚ) := by push_cast; ring
  rw [e, (fl_odd l1 l2).1 l3]
  have : ((((2 * r + 1) ^ 3 - 1 : ℕ) : ℚ)) = ((((2 * r + 1) ^ 3 - 1 : ℕ) : ℤ) : ℚ) := by push_cast; rfl
  rw [this, cTrunc_int, Int.toNat_natCast]

/-- **C148** (refutation): with a correctly rounded `powf` the buffer of the 3D kernels is one
element too short for the radii 128, 130, …, 160, whatever the data: a write past the end of
`ValVec`. -/
theorem med3_overflow {powf : ℚ → Nat → ℚ} (hp : RoundedPow powf) {r : Nat} (h1 : 128 ≤ r)
    (h2 : r ≤ 160) (he : r % 2 = 0) (dX dY dZ : Nat) (thr : K) (inp : Nat → K) (inpU : Nat → Nat)
    (i j k : Nat) :
    med3F powf r dX dY dZ thr inp i j k = none ∧ med3U powf r dX dY dZ thr inpU i j k = none := by
  have hs := sizeTotal_short hp h1 h2 he
  constructor <;>
  · first | unfold med3F | unfold med3U
    unfold vecDecide
    rw [hs, if_pos]
    rw [List.length_map, length_windowIdx]
    have : 0 < (2 * r + 1) ^ 3 := by positivity
    omega

/-- **C148** (partial: windows up to 255 voxels wide, 4095 pixels for one slice): the weights of the
inpainter fit in their buffer. -/
theorem gauss_fits_partial {powf : ℚ → Nat → ℚ} (hp : FaithfulPow powf) {W : Nat} (dZ : Nat)
    (h : W ≤ 127 ∨ dZ = 1 ∧ W ≤ 2047) : gaussOverflow powf W dZ = false := by
  unfold gaussOverflow
  split
  · rw [toNat_size ((medBuffer_exact2 hp W).mpr (by omega))]
    simp only [List.length_flatMap, offs, List.map_const', List.sum_replicate_nat, List.length_map,
      List.length_range, decide_eq_false_iff_not, not_lt]
    exact le_of_eq (by ring)
  · rw [toNat_size ((medBuffer_exact3 hp W).mpr (by omega))]
    simp only [List.length_flatMap, offs, List.map_const', List.sum_replicate_nat, List.length_map,
      List.length_range, decide_eq_false_iff_not, not_lt]
    exact le_of_eq (by ring)

/-- **C148** (refutation): the inpainter writes past the end of its weights for the half sizes 128,
130, …, 160 on volumes. -/
theorem gauss_overflow {powf : ℚ → Nat → ℚ} (hp : RoundedPow powf) {W dZ : Nat} (hz : dZ ≠ 1)
    (h1 : 128 ≤ W) (h2 : W ≤ 160) (he : W % 2 = 0) : gaussOverflow powf W dZ = true := by
  unfold gaussOverflow
  rw [if_neg hz, sizeTotal_short hp h1 h2 he]
  simp only [List.length_flatMap, offs, List.map_const', List.sum_replicate_nat, List.length_map,
    List.length_range, decide_eq_true_eq]
  have e : (2 * W + 1) * ((2 * W + 1) * (2 * W + 1)) = (2 * W + 1) ^ 3 := by ring
  have : 0 < (2 * W + 1) ^ 3 := by positivity
  rw [e]
  omega

/-! ## One slice -/

theorem countP_flatMap_replicate {α : Type} (p : α → Bool) (d : Nat) (l : List α) :
    (l.flatMap (List.replicate d)).countP p = d * l.countP p := by
  induction l with
  | nil => simp
  | cons a l ih =>
    rw [List.flatMap_cons, List.countP_append, ih, List.countP_replicate, List.countP_cons]
    split <;> ring

theorem isRank_replicate {l : List V} {k d e : Nat} {v : V} (h : IsRank l k v) (he : e < d) :
    IsRank (l.flatMap (List.replicate d)) (d * k + e) v := by
  unfold IsRank at *
  rw [countP_flatMap_replicate, countP_flatMap_replicate]
  have h1 := Nat.mul_le_mul_left d h.1
  have h2 := Nat.mul_le_mul_left d (show k + 1 ≤ _ from h.2)
  rw [Nat.mul_add, Nat.mul_one] at h2
  omega

theorem window_one_slice (r dX dY i j : Nat) :
    windowIdx r dX dY 1 i j 0 = (windowIdx2 r dX dY i j).flatMap (List.replicate (2 * r + 1)) := by
  unfold windowIdx windowIdx2
  rw [List.flatMap_assoc]
  refine List.flatMap_congr fun a _ => ?_
  rw [List.flatMap_map]
  refine List.flatMap_congr fun b _ => ?_
  have e : ∀ c, idx3 dX dY (nb dX i a) (nb dY j b) (nb 1 0 c) = nb dY j b * dX + nb dX i a := by
    intro c
    have : nb 1 0 c = 0 := by unfold nb; simp only; split <;> omega
    unfold idx3
    rw [this]
    ring
  simp only [e]
  rw [List.map_const', offs, List.length_map, List.length_range]

theorem getD_get (l : List V) (k : Nat) (h : k < l.length) : l.getD k 0 = l[k] := by
  rw [List.getD_eq_getElem?_getD, List.getElem?_eq_getElem h, Option.getD_some]

theorem getD_isRank {l : List V} {k : Nat} (hk : k < l.length) {v : V} (h : IsRank l k v) :
    (sortL l).getD k 0 = v := by
  have hk' : k < (sortL l).length := by rw [length_sortL]; exact hk
  rw [getD_get _ _ hk']
  exact (sortL_isRank l k hk').unique h

theorem mid_one_slice (r : Nat) {l : List V} (h : l.length = (2 * r + 1) ^ 2) :
    (sortL (l.flatMap (List.replicate (2 * r + 1)))).getD ((2 * r + 1) ^ 3 / 2) 0 =
      (sortL l).getD ((2 * r + 1) ^ 2 / 2) 0 := by
  have hpos : 0 < (2 * r + 1) ^ 2 := by positivity
  have hk : (2 * r + 1) ^ 2 / 2 < (sortL l).length := by rw [length_sortL, h]; omega
  rw [getD_get (sortL l) _ hk]
  have e : (2 * r + 1) ^ 3 / 2 = (2 * r + 1) * ((2 * r + 1) ^ 2 / 2) + r := by
    have e1 : (2 * r + 1) ^ 2 / 2 = 2 * r * r + 2 * r := by
      have : (2 * r + 1) ^ 2 = 2 * (2 * r * r + 2 * r) + 1 := by ring
      omega
    have e2 : (2 * r + 1) ^ 3 = 2 * ((2 * r + 1) * (2 * r * r + 2 * r) + r) + 1 := by ring
    rw [e1]
    omega
  apply getD_isRank
  · have : (l.flatMap (List.replicate (2 * r + 1))).length = (2 * r + 1) ^ 3 := by
      have := countP_flatMap_replicate (fun _ => true) (2 * r + 1) l
      rw [List.countP_true, h] at this
      rw [this]; ring
    rw [this]
    have : 0 < (2 * r + 1) ^ 3 := by positivity
    omega
  · rw [e]
    exact isRank_replicate (sortL_isRank l _ hk) (by omega)

/-- **C149**: the 3D kernel on a single slice gives what the 2D kernel gives, for all images, radii
and thresholds, `float` and `uint16`. -/
theorem med_one_slice {powf : ℚ → Nat → ℚ} (hp : FaithfulPow powf) {r : Nat} (hr : r ≤ 127)
    (dX dY : Nat) (thr : K) (inp : Nat → K) (inpU : Nat → Nat) (i j : Nat) :
    medMainF powf r dX dY 1 thr inp i j 0 = medMainF powf r dX dY 0 thr inp i j 0 ∧
    medMainU powf r dX dY 1 thr inpU i j 0 = medMainU powf r dX dY 0 thr inpU i j 0 := by
  have i3 : idx3 dX dY i j 0 = j * dX + i := by unfold idx3; ring
  have n3 := toNat_size ((medBuffer_exact3 hp r).mpr hr)
  have n2 := toNat_size ((medBuffer_exact2 hp r).mpr (by omega))
  constructor
  · unfold medMainF
    rw [if_neg (by norm_num), if_pos rfl]
    unfold med3F med2F
    rw [n3, n2, i3, vecDecide_exact _ _ (by rw [List.length_map, length_windowIdx]),
      vecDecide_exact _ _ (by rw [List.length_map, length_windowIdx2]), window_one_slice,
      List.map_flatMap]
    simp only [List.map_replicate]
    rw [← List.flatMap_map, mid_one_slice r (by rw [List.length_map, length_windowIdx2])]
  · unfold medMainU
    rw [if_neg (by norm_num), if_pos rfl]
    unfold med3U med2U
    rw [n3, n2, i3, vecDecide_exact _ _ (by rw [List.length_map, length_windowIdx]),
      vecDecide_exact _ _ (by rw [List.length_map, length_windowIdx2]), window_one_slice,
      List.map_flatMap]
    simp only [List.map_replicate]
    rw [← List.flatMap_map, mid_one_slice r (by rw [List.length_map, length_windowIdx2])]

/-! ## `uint16` and `float` -/

theorem isRank_map {W : Type} [LinearOrder W] {f : V → W} (hf : StrictMono f) {l : List V} {k : Nat}
    {v : V} (h : IsRank l k v) : IsRank (l.map f) k (f v) := by
  unfold IsRank at *
  rw [List.countP_map, List.countP_map]
  simpa only [Function.comp_def, hf.lt_iff_lt, hf.le_iff_le] using h

theorem vecDecide_map (thr : K) {n : Nat} {vs : List Nat} (h : vs.length = n) (hn : 0 < n) (x : Nat) :
    vecDecide n thr (fun a b => |a - b|) (vs.map (Nat.cast : Nat → K)) x =
      (vecDecide n thr difU vs x).map (Option.map Nat.cast) := by
  rw [vecDecide_exact _ _ (by rw [List.length_map, h]), vecDecide_exact _ _ h]
  have hk : n / 2 < (sortL vs).length := by rw [length_sortL, h]; omega
  have e : (sortL (vs.map (Nat.cast : Nat → K))).getD (n / 2) 0 =
      (((sortL vs).getD (n / 2) 0 : ℕ) : K) := by
    rw [getD_get (sortL vs) _ hk]
    apply getD_isRank (by rw [List.length_map, h]; omega)
    exact isRank_map Nat.strictMono_cast (sortL_isRank vs _ hk)
  rw [e]
  generalize (sortL vs).getD (n / 2) 0 = med
  have e2 : difU x med = |(x : K) - (med : K)| := by
    unfold difU
    push_cast
    rfl
  rw [e2, Option.map_some]
  congr 1
  split
  · rfl
  · split <;> rfl

/-- **C149**: the `uint16` kernels give the same numbers as the `float` kernels on the converted
image. -/
theorem med_uint16_float {powf : ℚ → Nat → ℚ} (hp : FaithfulPow powf) {r : Nat} (hr : r ≤ 127)
    (dX dY dZ : Nat) (thr : K) (inp : Nat → Nat) (i j k : Nat) :
    medMainF powf r dX dY dZ thr (fun a => (inp a : K)) i j k =
      (medMainU powf r dX dY dZ thr inp i j k).map (Option.map Nat.cast) := by
  have n3 := toNat_size ((medBuffer_exact3 hp r).mpr hr)
  have n2 := toNat_size ((medBuffer_exact2 hp r).mpr (by omega))
  unfold medMainF medMainU
  split
  · unfold med2F med2U
    rw [n2, ← vecDecide_map thr (by rw [List.length_map, length_windowIdx2]) (by positivity),
      List.map_map]
    rfl
  · unfold med3F med3U
    rw [n3, ← vecDecide_map thr (by rw [List.length_map, length_windowIdx]) (by positivity),
      List.map_map]
    rfl

/-- **C149**: the window of the 2D kernels lies in the image, and their result is the middle order
statistic of it: the pixel is replaced iff the threshold is zero or it differs from that value by
at least the threshold. -/
theorem med2_spec {powf : ℚ → Nat → ℚ} (hp : FaithfulPow powf) {r : Nat} (hr : r ≤ 2047)
    {dX dY : Nat} (thr : K) (img : Nat → Nat → K) (inp : Nat → K)
    (hi : ∀ y < dY, ∀ x < dX, inp (y * dX + x) = img y x) {i j : Nat} (hx : i < dX) (hy : j < dY) :
    ∃ med, IsRank ((offsets r).flatMap fun a => (offsets r).map fun b =>
        img (coordOr dY j b) (coordOr dX i a)) ((2 * r + 1) ^ 2 / 2) med ∧
      med2F powf r dX dY thr inp i j =
        some (if thr = 0 ∨ thr ≤ |img j i - med| then some med else none) := by
  have n2 := toNat_size ((medBuffer_exact2 hp r).mpr hr)
  have hw : (windowIdx2 r dX dY i j).map inp = (offsets r).flatMap fun a =>
      (offsets r).map fun b => img (coordOr dY j b) (coordOr dX i a) := by
    unfold windowIdx2
    rw [List.map_flatMap]
    refine List.flatMap_congr fun a _ => ?_
    rw [List.map_map]
    refine List.map_congr_left fun b _ => ?_
    simp only [Function.comp, nb_eq]
    exact hi _ (coordOr_lt _ _ _ hy) _ (coordOr_lt _ _ _ hx)
  have hl : ((windowIdx2 r dX dY i j).map inp).length = (2 * r + 1) ^ 2 := by
    rw [List.length_map, length_windowIdx2]
  have hpos : 0 < (2 * r + 1) ^ 2 := by positivity
  refine ⟨(sortL ((windowIdx2 r dX dY i j).map inp)).getD ((2 * r + 1) ^ 2 / 2) 0, ?_, ?_⟩
  · rw [← hw, getD_sortL _ (by rw [hl]; omega)]
    exact sortL_isRank _ _ _
  · unfold med2F
    rw [n2, vecDecide_exact _ _ hl, hi j hy i hx]
    congr 1
    by_cases h0 : thr = 0
    · rw [if_pos h0, if_pos (Or.inl h0)]
    · rw [if_neg h0]
      by_cases h1 : thr ≤ |img j i - (sortL ((windowIdx2 r dX dY i j).map inp)).getD
          ((2 * r + 1) ^ 2 / 2) 0|
      · rw [if_pos h1, if_pos (Or.inr h1)]
      · rw [if_neg h1, if_neg (by tauto)]

end

/-- **C149**: from Python only the 3D kernel is reached, with a radius from 1 on and three
dimensions from 1 on; every other shape is a `ValueError`. -/
theorem medCall_spec (shape : List Nat) (size : Int) :
    (∀ r dx dy dz, medCall shape size = .ok (r, dx, dy, dz) →
      shape = [dz, dy, dx] ∧ 1 ≤ r ∧ 1 ≤ dx ∧ 1 ≤ dy ∧ 1 ≤ dz) ∧
    (medCall shape size = .error .value ↔ shape.length ≠ 3 ∨ 0 ∈ shape) := by
  unfold medCall
  split
  · rename_i dz dy dx
    constructor
    · intro r dx' dy' dz' h
      split at h
      · cases h
      · injection h with h
        simp only [Prod.mk.injEq] at h
        obtain ⟨h1, rfl, rfl, rfl⟩ := h
        have := (halfSize_spec size).1
        refine ⟨rfl, ?_, ?_, ?_, ?_⟩ <;> omega
    · split
      · rename_i h
        simp only [true_iff, List.length_cons, List.length_nil, List.mem_cons, List.not_mem_nil,
          or_false]
        right
        omega
      · rename_i h
        simp only [List.length_cons, List.length_nil, List.mem_cons, List.not_mem_nil, or_false]
        constructor
        · intro h'; cases h'
        · rintro (h' | h')
          · exact absurd rfl h'
          · exact absurd (by omega) h
  · rename_i hne
    constructor
    · intro r dx dy dz h; cases h
    · simp only [true_iff]
      left
      intro h
      rcases shape with _ | ⟨a, _ | ⟨b, _ | ⟨c, _ | ⟨d, t⟩⟩⟩⟩ <;> simp at h
      exact hne a b c rfl

/-! ## The hypotheses can be met -/

example : FaithfulPow (fun d n => fl (d ^ n)) := by
  intro d n
  exact ⟨fl_fl _, fun h => h⟩

example : RoundedPow (fun d n => fl (d ^ n)) := fun _ _ => rfl

/-- A window of 257³ voxels: `med3_overflow` for the constant image. -/
example : med3F (fun d n => fl (d ^ n)) 128 300 300 300 (0 : ℚ) (fun _ => 1) 0 0 0 = none :=
  (med3_overflow (fun _ _ => rfl) (by norm_num) (by norm_num) (by norm_num) 300 300 300 0 _
    (fun _ => 1) 0 0 0).1

example : med2F (fun d n => fl (d ^ n)) 1 3 2 (0 : ℚ) (fun a => (a : ℚ) ^ 2) 1 0 = some (some 4) := by
  decide +kernel

example : med2U (K := ℚ) (fun d n => fl (d ^ n)) 1 3 2 10 (fun a => a ^ 2) 1 0 = some none := by
  decide +kernel

example : medCall [4, 5, 6] 4 = .ok (1, 6, 5, 4) := by decide

example : medCall [4, 0, 6] 4 = .error .value := by decide

end Tomopy.Corr
