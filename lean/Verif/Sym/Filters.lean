import Verif.Sym.Order
import Verif.Sym.Mirror
import Verif.Corr.Filt

/-! C199: the two-dimensional filters and masks of flipped stacks: `median_filter`, `remove_outlier`,
`median_filter_nonfinite` and `circ_mask`. -/

set_option linter.unusedSectionVars false

namespace Tomopy.Sym
open Tomopy.Corr Tomopy.Corr.Filt Tomopy.Num

section
variable {K : Type} [LinearOrder K] [Field K] [IsStrictOrderedRing K]

theorem reorders_flip (b : Bool) (n : Nat) : Reorders n (flipIf b n) := by
  refine ⟨fun t ht => flipIf_lt b ht, fun t ht t' ht' h => ?_⟩
  rw [← flipIf_flipIf b ht, h, flipIf_flipIf b ht']

theorem reflect_flip (b : Bool) (n size i a : Nat) (ho : size % 2 = 1) (hi : i < n) (ha : a < size) :
    flipIf b n (reflect n ((i : Int) + a - (size / 2 : Nat)))
      = reflect n (((flipIf b n i : Nat) : Int) + (flipIf b size a : Nat) - (size / 2 : Nat)) := by
  cases b
  · rfl
  · unfold flipIf
    simp only [if_true]
    exact (window_mirror n size i a ho hi ha).symm

/-- With an odd size, the window of a pixel of the flipped image has the values of the window of the flipped pixel. -/
theorem scipyWindow_flip (bY bx : Bool) (h w size : Nat) (ho : size % 2 = 1) (img img' : Nat → Nat → K)
    (he : ∀ r < h, ∀ c < w, img' r c = img (flipIf bY h r) (flipIf bx w c)) (y x : Nat) (hy : y < h) (hx : x < w) :
    (scipyWindow h w size img' y x).Perm (scipyWindow h w size img (flipIf bY h y) (flipIf bx w x)) := by
  have e : scipyWindow h w size img' y x = ((List.range size).map (flipIf bY size)).flatMap fun (a : Nat) =>
      ((List.range size).map (flipIf bx size)).map fun (b : Nat) =>
        img (reflect h (((flipIf bY h y : Nat) : Int) + a - (size / 2 : Nat)))
          (reflect w (((flipIf bx w x : Nat) : Int) + b - (size / 2 : Nat))) := by
    unfold scipyWindow
    rw [List.flatMap_map]
    refine List.flatMap_congr fun a ha => ?_
    rw [List.map_map]
    refine List.map_congr_left fun b hb => ?_
    dsimp only [Function.comp]
    rw [he _ (Stripe.reflect_lt (by omega) _) _ (Stripe.reflect_lt (by omega) _),
      reflect_flip bY h size y a ho hy (List.mem_range.1 ha), reflect_flip bx w size x b ho hx (List.mem_range.1 hb)]
  rw [e]
  refine ((map_reorders (reorders_flip bY size)).flatMap_right _).trans ?_
  exact List.Perm.flatMap_left _ fun a _ => (map_reorders (reorders_flip bx size)).map _

/-- **C199** With an odd size, `median_filter` of a stack flipped along any of its axes is the flipped result, whichever
axis it filters along. -/
theorem median_filter_flipped (bz bY bx : Bool) (n0 n1 n2 size k : Nat) (ho : size % 2 = 1) (hk : k < 3) (a a' : Nd K)
    (hs : a.shape = [n0, n1, n2]) (hs' : a'.shape = [n0, n1, n2])
    (he : ∀ z < n0, ∀ y < n1, ∀ x < n2, a'.get [z, y, x] = a.get [flipIf bz n0 z, flipIf bY n1 y, flipIf bx n2 x])
    (out out' : List Nat → Option K) (hr : Run (medianF size) a k (.ok out)) (hr' : Run (medianF size) a' k (.ok out')) :
    ∀ z < n0, ∀ y < n1, ∀ x < n2, out' [z, y, x] = out [flipIf bz n0 z, flipIf bY n1 y, flipIf bx n2 x] := by
  intro z hz y hy x hx
  obtain ⟨o, h1, h2⟩ := median_filter_value a n0 n1 n2 hs size (by omega) k hk hr
  obtain ⟨o', h1', h2'⟩ := median_filter_value a' n0 n1 n2 hs' size (by omega) k hk hr'
  cases h1
  cases h1'
  obtain ⟨m, hm, hm2⟩ := h2 _ (flipIf_lt bz hz) _ (flipIf_lt bY hy) _ (flipIf_lt bx hx)
  obtain ⟨m', hm', hm2'⟩ := h2' z hz y hy x hx
  rw [hm, hm']
  congr 1
  rcases (by omega : k = 0 ∨ k = 1 ∨ k = 2) with rfl | rfl | rfl
  · exact (hm2'.perm (scipyWindow_flip bY bx n1 n2 size ho _ _ (fun r hr c hc => he z hz r hr c hc) y x hy hx)).unique hm2
  · exact (hm2'.perm (scipyWindow_flip bz bx n0 n2 size ho _ _ (fun r hr c hc => he r hr y hy c hc) z x hz hx)).unique hm2
  · exact (hm2'.perm (scipyWindow_flip bz bY n0 n1 size ho _ _ (fun r hr c hc => he r hr c hc x hx) z y hz hy)).unique hm2

/-! ### Even sizes -/

theorem countP_range_lt (n m : Nat) : (List.range n).countP (fun b => decide (b < m)) = min n m := by
  induction n with
  | zero => simp
  | succ n ih =>
    rw [List.range_succ, List.countP_append, ih]
    by_cases hn : n < m
    · simp [hn]; omega
    · simp [hn]; omega

theorem countP_range_ge (n m : Nat) : (List.range n).countP (fun b => decide (m ≤ b)) = n - m := by
  induction n with
  | zero => simp
  | succ n ih =>
    rw [List.range_succ, List.countP_append, ih]
    by_cases hn : m ≤ n
    · simp [hn]; omega
    · simp [hn]; omega

theorem countP_columns (h w size : Nat) (g : Nat → K) (y x : Nat) (p : K → Bool) :
    (scipyWindow h w size (fun _ c => g c) y x).countP p
      = size * (List.range size).countP fun (b : Nat) => p (g (reflect w ((x : Int) + b - (size / 2 : Nat)))) := by
  unfold scipyWindow
  rw [List.countP_flatMap]
  simp only [Function.comp_def, List.countP_map, List.map_const', List.length_range, List.sum_replicate, smul_eq_mul]

/-- Zero in the first `c` columns, one in the others. -/
def step (c : Nat) : Nat → K := fun x => if x < c then 0 else 1

theorem reflect_inside (w : Nat) (i : Int) (h0 : 0 ≤ i) (h1 : i < w) : reflect w i = i.toNat := by
  unfold reflect
  dsimp only
  rw [Int.emod_eq_of_lt h0 (by omega), if_pos (by omega)]

theorem step_median (h w k y : Nat) (hk : 0 < k) (hw : 2 * k < w) :
    scipyMedian h w (2 * k) (fun _ c => (step (k + 1) c : K)) y k = 0 := by
  refine (scipyMedian_isRank h w (2 * k) (by omega) _ y k).unique ⟨?_, ?_⟩
  · rw [countP_columns]
    have : ((List.range (2 * k)).countP fun (b : Nat) => decide ((step (k + 1)
        (reflect w ((k : Int) + b - (2 * k / 2 : Nat))) : K) < 0)) = 0 := by
      rw [List.countP_eq_zero]
      intro b _
      unfold step
      split <;> simp
    rw [this]
    omega
  · rw [countP_columns]
    have : ((List.range (2 * k)).countP fun (b : Nat) => decide ((step (k + 1)
        (reflect w ((k : Int) + b - (2 * k / 2 : Nat))) : K) ≤ 0)) = k + 1 := by
      have e : (List.range (2 * k)).countP (fun (b : Nat) => decide ((step (k + 1)
          (reflect w ((k : Int) + b - (2 * k / 2 : Nat))) : K) ≤ 0))
          = (List.range (2 * k)).countP fun b => decide (b < k + 1) := by
        refine List.countP_congr fun b hb => ?_
        have hb := List.mem_range.1 hb
        rw [reflect_inside w _ (by omega) (by omega), show ((k : Int) + b - (2 * k / 2 : Nat)).toNat = b by omega]
        unfold step
        by_cases h : b < k + 1
        · simp [h]
        · simp [h]
      rw [e, countP_range_lt]
      omega
    rw [this]
    have : 2 * k * (2 * k) / 2 = 2 * k * k := by
      rw [show 2 * k * (2 * k) = 2 * (2 * k * k) by ring]
      omega
    rw [this]
    exact Nat.mul_lt_mul_of_pos_left (by omega) (by omega)

theorem step_median_mirrored (h w k y : Nat) (hk : 0 < k) (hw : 2 * k < w) :
    scipyMedian h w (2 * k) (fun _ c => (step (k + 1) (w - 1 - c) : K)) y (w - 1 - k) = 1 := by
  have col : ∀ b < 2 * k, w - 1 - reflect w (((w - 1 - k : Nat) : Int) + b - (2 * k / 2 : Nat)) = 2 * k - b := by
    intro b hb
    rw [reflect_inside w _ (by omega) (by omega)]
    omega
  refine (scipyMedian_isRank h w (2 * k) (by omega) _ y (w - 1 - k)).unique ⟨?_, ?_⟩
  · rw [countP_columns h w (2 * k) (fun c => (step (k + 1) (w - 1 - c) : K))]
    have : ((List.range (2 * k)).countP fun (b : Nat) => decide ((step (k + 1)
        (w - 1 - reflect w (((w - 1 - k : Nat) : Int) + b - (2 * k / 2 : Nat))) : K) < 1)) = k := by
      have e : (List.range (2 * k)).countP (fun (b : Nat) => decide ((step (k + 1)
          (w - 1 - reflect w (((w - 1 - k : Nat) : Int) + b - (2 * k / 2 : Nat))) : K) < 1))
          = (List.range (2 * k)).countP fun b => decide (k ≤ b) := by
        refine List.countP_congr fun b hb => ?_
        have hb := List.mem_range.1 hb
        rw [col b hb]
        unfold step
        by_cases h : k ≤ b
        · simp [h, show 2 * k - b < k + 1 by omega]
        · simp [h, show ¬ 2 * k - b < k + 1 by omega]
      rw [e, countP_range_ge]
      omega
    rw [this]
    have : 2 * k * (2 * k) / 2 = 2 * k * k := by
      rw [show 2 * k * (2 * k) = 2 * (2 * k * k) by ring]
      omega
    rw [this]
  · rw [countP_columns h w (2 * k) (fun c => (step (k + 1) (w - 1 - c) : K))]
    have : ((List.range (2 * k)).countP fun (b : Nat) => decide ((step (k + 1)
        (w - 1 - reflect w (((w - 1 - k : Nat) : Int) + b - (2 * k / 2 : Nat))) : K) ≤ 1)) = 2 * k := by
      have := List.countP_eq_length (l := List.range (2 * k)) (p := fun b => decide ((step (k + 1)
        (w - 1 - reflect w (((w - 1 - k : Nat) : Int) + b - (2 * k / 2 : Nat))) : K) ≤ 1))
      rw [List.length_range] at this
      refine this.2 fun b _ => ?_
      unfold step
      split <;> simp
    rw [this]
    have : 0 < 2 * k * (2 * k) := by positivity
    omega

/-- Specification: `median_filter` (axis 0) of every stack mirrored left to right is the mirrored result. -/
def MedianMirrors (K : Type) [LinearOrder K] [Field K] [IsStrictOrderedRing K] (n h w size : Nat) : Prop :=
  ∀ (a a' : Nd K) (out out' : List Nat → Option K), a.shape = [n, h, w] → a'.shape = [n, h, w] →
    (∀ z < n, ∀ y < h, ∀ x < w, a'.get [z, y, x] = a.get [z, y, w - 1 - x]) →
    Run (medianF size) a 0 (.ok out) → Run (medianF size) a' 0 (.ok out') →
    ∀ z < n, ∀ y < h, ∀ x < w, out' [z, y, x] = out [z, y, w - 1 - x]

/-- **C199** For slices wider than the window, `median_filter` commutes with mirroring exactly if the size is odd. -/
theorem median_filter_mirrors_iff (n h w size : Nat) (hn : 0 < n) (hh : 0 < h) (hs : 0 < size) (hw : size < w) :
    MedianMirrors K n h w size ↔ size % 2 = 1 := by
  constructor
  · intro hm
    by_contra hc
    obtain ⟨k, rfl⟩ : ∃ k, size = 2 * k := ⟨size / 2, by omega⟩
    have hk : 0 < k := by omega
    have run : ∀ a : Nd K, a.shape = [n, h, w] →
        Run (medianF (2 * k)) a 0 (.ok (applyWrites (poolWrites (medianF (2 * k)) a 0))) := fun a ha =>
      Run.done (k := 0) (by rw [ha]; rfl) (List.Perm.refl _)
    have val : ∀ (g : Nat → K) (x : Nat), x < w →
        applyWrites (poolWrites (medianF (2 * k)) (⟨[n, h, w], fun i => g (i.getD 2 0)⟩ : Nd K) 0) [0, 0, x]
          = some (scipyMedian h w (2 * k) (fun _ c => g c) 0 x) := by
      intro g x hx
      obtain ⟨o, h1, h2⟩ := median_filter_value ⟨[n, h, w], fun i => g (i.getD 2 0)⟩ n h w rfl (2 * k) hs 0 (by omega)
        (run _ rfl)
      cases h1
      obtain ⟨m, hm1, hm2⟩ := h2 0 hn 0 hh x hx
      rw [hm1]
      congr 1
      exact IsRank.unique hm2 (scipyMedian_isRank h w (2 * k) hs _ 0 x)
    have := hm ⟨[n, h, w], fun i => step (k + 1) (i.getD 2 0)⟩
      ⟨[n, h, w], fun i => step (k + 1) (w - 1 - i.getD 2 0)⟩ _ _ rfl rfl (fun _ _ _ _ _ _ => rfl) (run _ rfl) (run _ rfl)
      0 hn 0 hh (w - 1 - k) (by omega)
    rw [val (fun c => step (k + 1) (w - 1 - c)) (w - 1 - k) (by omega), val (fun c => step (k + 1) c) _ (by omega),
      show w - 1 - (w - 1 - k) = k by omega, step_median h w k 0 hk hw, step_median_mirrored h w k 0 hk hw] at this
    exact one_ne_zero (Option.some.inj this)
  · intro ho a a' out out' hsa hsa' he hr hr' z hz y hy x hx
    exact median_filter_flipped false false true n h w size 0 ho (by omega) a a' hsa hsa' he out out' hr hr' z hz y hy x hx

example : MedianMirrors ℚ 1 2 9 3 ∧ ¬ MedianMirrors ℚ 1 2 9 4 :=
  ⟨(median_filter_mirrors_iff 1 2 9 3 (by omega) (by omega) (by omega) (by omega)).2 rfl,
    fun h => by simpa using (median_filter_mirrors_iff 1 2 9 4 (by omega) (by omega) (by omega) (by omega)).1 h⟩

/-! ### remove_outlier -/

/-- **C199** With an odd size, `remove_outlier` of a flipped stack is the flipped result, for any number of cores. -/
theorem remove_outlier_flipped_partial (bz bY bx : Bool) (cpu cpu' n h w size : Nat) (hc : 0 < cpu) (hc' : 0 < cpu')
    (ho : size % 2 = 1) (ncore ncore' : Option Nat) (dif : K) (arr arr' : Nat → Nat → Nat → K)
    (he : ∀ z < n, ∀ y < h, ∀ x < w, arr' z y x = arr (flipIf bz n z) (flipIf bY h y) (flipIf bx w x))
    (out out' : Nat → Nat → Nat → Option K) (hr : removeOutlier cpu n h w size ncore dif arr = .ok out)
    (hr' : removeOutlier cpu' n h w size ncore' dif arr' = .ok out') :
    ∀ z < n, ∀ y < h, ∀ x < w, out' z y x = out (flipIf bz n z) (flipIf bY h y) (flipIf bx w x) := by
  intro z hz y hy x hx
  obtain ⟨o, h1, h2⟩ := remove_outlier_spec cpu n h w size hc (by omega) (by omega) ncore dif arr
  obtain ⟨o', h1', h2'⟩ := remove_outlier_spec cpu' n h w size hc' (by omega) (by omega) ncore' dif arr'
  rw [hr] at h1
  rw [hr'] at h1'
  cases h1
  cases h1'
  obtain ⟨m, v, r1, r2, r3, r4, _⟩ := h2 _ (flipIf_lt bz hz) (flipIf bY h y) (flipIf bx w x)
  obtain ⟨m', v', r1', r2', r3', r4', _⟩ := h2' z hz y x
  have hm : m' = m :=
    (r1'.perm (scipyWindow_flip bY bx h w size ho _ _ (fun r hr c hc => he z hz r hr c hc) y x hy hx)).unique r1
  subst hm
  rw [r2, r2']
  rw [he z hz y hy x hx] at r3' r4'
  congr 1
  rcases le_or_gt dif (arr (flipIf bz n z) (flipIf bY h y) (flipIf bx w x) - m') with hd | hd
  · rw [r3 hd, r3' hd]
  · rw [r4 hd, r4' hd]

example : ∃ out out', removeOutlier 4 2 5 6 3 none (1 : ℚ) (fun z y x => z + y * x) = .ok out ∧
    removeOutlier 2 2 5 6 3 (some 1) (1 : ℚ) (fun z y x => z + y * (flipIf true 6 x : Nat)) = .ok out' := by
  obtain ⟨o, h, _⟩ := remove_outlier_spec 4 2 5 6 3 (by omega) (by omega) (by omega) none (1 : ℚ) fun z y x => z + y * x
  obtain ⟨o', h', _⟩ := remove_outlier_spec 2 2 5 6 3 (by omega) (by omega) (by omega) (some 1) (1 : ℚ)
    fun z y x => z + y * (flipIf true 6 x : Nat)
  exact ⟨o, o', h, h'⟩

/-- Two bright pixels beside each other in the second row. -/
def pairImg : Nat → Nat → Nat → ℚ := fun _ y x => if y = 1 ∧ (x = 1 ∨ x = 2) then 1 else 0

/-- **C199** Refutation: with size 2 one pixel of a pair is kept, but removed if the stack is mirrored first. -/
theorem remove_outlier_mirrored_fails : ∃ out out',
    removeOutlier 1 1 2 4 2 none (1 : ℚ) pairImg = .ok out ∧
      removeOutlier 1 1 2 4 2 none (1 : ℚ) (fun z y x => pairImg z y (3 - x)) = .ok out' ∧
      out 0 1 2 = some 1 ∧ out' 0 1 1 = some 0 := by
  obtain ⟨t, h1, h2⟩ := outlierTmp_eq 1 1 2 4 2 (by omega) (by omega) none pairImg
  obtain ⟨t', h1', h2'⟩ := outlierTmp_eq 1 1 2 4 2 (by omega) (by omega) none fun z y x => pairImg z y (3 - x)
  unfold removeOutlier
  rw [h1, h1']
  refine ⟨_, _, rfl, rfl, ?_, ?_⟩
  · rw [h2 0 (by omega) 1 2]
    decide +kernel
  · rw [h2' 0 (by omega) 1 1]
    decide +kernel

/-! ### median_filter_nonfinite -/

theorem nearFinite_flip (bx bY : Bool) (h w size : Nat) (p : Proj K) (x y : Nat) (hx : x < h) (hy : y < w) :
    (nearFinite h w size (fun a b => p (flipIf bx h a) (flipIf bY w b)) x y).Perm
      (nearFinite h w size p (flipIf bx h x) (flipIf bY w y)) := by
  have near : ∀ (c : Bool) (n s i j : Nat), i < n → j < n →
      ((i ≤ j + s ∧ j ≤ i + s) ↔ (flipIf c n i ≤ flipIf c n j + s ∧ flipIf c n j ≤ flipIf c n i + s)) := by
    intro c n s i j hi hj
    unfold flipIf
    cases c
    · exact Iff.rfl
    · simp only [if_true]; omega
  have e : nearFinite h w size (fun a b => p (flipIf bx h a) (flipIf bY w b)) x y
      = ((List.range h).map (flipIf bx h)).flatMap fun a => ((List.range w).map (flipIf bY w)).filterMap fun b =>
        if (a ≤ flipIf bx h x + size / 2 ∧ flipIf bx h x ≤ a + size / 2) ∧
          (b ≤ flipIf bY w y + size / 2 ∧ flipIf bY w y ≤ b + size / 2) then p a b else none := by
    unfold nearFinite
    rw [List.flatMap_map]
    refine List.flatMap_congr fun a ha => ?_
    rw [List.filterMap_map]
    refine List.filterMap_congr fun b hb => ?_
    dsimp only [Function.comp]
    simp only [near bx h (size / 2) a x (List.mem_range.1 ha) hx, near bY w (size / 2) b y (List.mem_range.1 hb) hy]
  rw [e]
  refine ((map_reorders (reorders_flip bx h)).flatMap_right _).trans ?_
  exact List.Perm.flatMap_left _ fun a _ => (map_reorders (reorders_flip bY w)).filterMap _

theorem isNpMedian_perm {l l' : List K} (hp : l.Perm l') {v : K} (h : IsNpMedian l v) : IsNpMedian l' v := by
  obtain ⟨a, b, h1, h2, h3⟩ := h
  rw [hp.length_eq] at h1 h2
  exact ⟨a, b, h1.perm hp, h2.perm hp, h3⟩

/-- **C199** `median_filter_nonfinite` with any size: the projections flipped along any of their axes fail exactly if the
projections fail, and otherwise give the flipped result. -/
theorem nonfinite_flipped (bx bY : Bool) (h w size : Nat) (stack : List (Proj K)) :
    (medianNonfinite h w size (stack.map fun p a b => p (flipIf bx h a) (flipIf bY w b)) = .error .value ↔
      medianNonfinite h w size stack = .error .value) ∧
    ∀ out out', medianNonfinite h w size stack = .ok out →
      medianNonfinite h w size (stack.map fun p a b => p (flipIf bx h a) (flipIf bY w b)) = .ok out' →
      out'.length = out.length ∧ ∀ (i : Nat) (q q' : Proj K), out[i]? = some q → out'[i]? = some q' →
        ∀ x < h, ∀ y < w, q' x y = q (flipIf bx h x) (flipIf bY w y) := by
  constructor
  · rw [← nonfinite_stack_error, ← nonfinite_stack_error]
    constructor
    · rintro ⟨p', hp', x, hx, y, hy, h1, h2⟩
      obtain ⟨p, hp, rfl⟩ := List.mem_map.1 hp'
      refine ⟨p, hp, _, flipIf_lt bx hx, _, flipIf_lt bY hy, h1, ?_⟩
      have := nearFinite_flip bx bY h w size p x y hx hy
      rw [h2] at this
      exact this.symm.eq_nil
    · rintro ⟨p, hp, x, hx, y, hy, h1, h2⟩
      refine ⟨_, List.mem_map.2 ⟨p, hp, rfl⟩, _, flipIf_lt bx hx, _, flipIf_lt bY hy, ?_, ?_⟩
      · rw [flipIf_flipIf bx hx, flipIf_flipIf bY hy, h1]
      · have := nearFinite_flip bx bY h w size p _ _ (flipIf_lt bx hx) (flipIf_lt bY hy)
        rw [flipIf_flipIf bx hx, flipIf_flipIf bY hy, h2] at this
        exact this.eq_nil
  · intro out out' ho ho'
    obtain ⟨l1, v1⟩ := nonfinite_stack h w size stack out ho
    obtain ⟨l2, v2⟩ := nonfinite_stack h w size _ out' ho'
    rw [List.length_map] at l2
    refine ⟨by rw [l1, l2], ?_⟩
    intro i q q' hq hq' x hx y hy
    have hi : i < stack.length := by
      rw [← l1]
      exact (List.getElem?_eq_some_iff.1 hq).1
    have hp : stack[i]? = some stack[i] := List.getElem?_eq_getElem hi
    obtain ⟨a1, a2⟩ := v1 i _ q hp hq
    obtain ⟨b1, b2⟩ := v2 i _ q' (by rw [List.getElem?_map, hp]; rfl) hq'
    cases hv : stack[i] (flipIf bx h x) (flipIf bY w y) with
    | some v => rw [a1 _ _ v hv, b1 x y v hv]
    | none =>
      obtain ⟨v, e1, m1⟩ := a2 _ (flipIf_lt bx hx) _ (flipIf_lt bY hy)
      obtain ⟨v', e2, m2⟩ := b2 x hx y hy
      rw [e1, e2]
      congr 1
      exact (isNpMedian_perm (nearFinite_flip bx bY h w size _ x y hx hy) (m2 hv)).unique (m1 hv)

example : ∃ out out', medianNonfinite 1 4 2 [fun _ y => if y = 1 then none else some (y : ℚ)] = .ok out ∧
    medianNonfinite 1 4 2 ([fun _ y => if y = 1 then none else some (y : ℚ)].map fun p a b =>
      p (flipIf false 1 a) (flipIf true 4 b)) = .ok out' := by
  have key : ∀ st : List (Proj ℚ), (medianNonfinite 1 4 2 st).toOption.isSome = true →
      ∃ out, medianNonfinite 1 4 2 st = .ok out := by
    intro st h
    cases hm : medianNonfinite 1 4 2 st with
    | error e => rw [hm] at h; cases h
    | ok out => exact ⟨out, rfl⟩
  obtain ⟨o, ho⟩ := key [fun _ y => if y = 1 then none else some (y : ℚ)] (by decide +kernel)
  obtain ⟨o', ho'⟩ := key ([fun _ y => if y = 1 then none else some (y : ℚ)].map fun p a b =>
    p (flipIf false 1 a) (flipIf true 4 b)) (by decide +kernel)
  exact ⟨o, o', ho, ho'⟩

/-! ### circ_mask -/

theorem getMask_flip (bi bj : Bool) (n m : Nat) (ratio : K) (i j : Nat) (hi : i < n) (hj : j < m) :
    getMask n m ratio (flipIf bi n i) (flipIf bj m j) = getMask n m ratio i j := by
  have sq : ∀ (b : Bool) (n i : Nat), i < n →
      (((flipIf b n i : Nat) : K) + 1 / 2 - n / 2) ^ 2 = ((i : K) + 1 / 2 - n / 2) ^ 2 := by
    intro b n i hi
    unfold flipIf
    cases b
    · rfl
    · simp only [if_true]
      rw [show n - 1 - i = n - (i + 1) by omega, Nat.cast_sub (by omega)]
      push_cast
      ring
  rw [Bool.eq_iff_iff, getMask_iff, getMask_iff]
  unfold InDisc
  rw [sq bi n i hi, sq bj m j hj]

theorem getMask_swap (n m : Nat) (ratio : K) (i j : Nat) : getMask m n ratio j i = getMask n m ratio i j := by
  rw [Bool.eq_iff_iff, getMask_iff, getMask_iff]
  unfold InDisc
  rw [add_comm, min_comm]

/-- **C199** `circ_mask` of a stack flipped along any of its axes is the flipped result, for every axis, ratio and
value. -/
theorem circ_mask_flipped (b0 b1 b2 : Bool) (axis : Nat) (ratio val : K) (a : Recon.Arr3 K) (i j k : Nat) (hi : i < a.d0)
    (hj : j < a.d1) (hk : k < a.d2) :
    (circMask axis ratio val ⟨a.d0, a.d1, a.d2, fun i j k =>
        a.get (flipIf b0 a.d0 i) (flipIf b1 a.d1 j) (flipIf b2 a.d2 k)⟩).get i j k
      = (circMask axis ratio val a).get (flipIf b0 a.d0 i) (flipIf b1 a.d1 j) (flipIf b2 a.d2 k) := by
  match axis with
  | 0 => simp only [circMask, swap0, getMask_flip b1 b2 a.d1 a.d2 ratio j k hj hk]
  | 1 => simp only [circMask, swap0, getMask_flip b0 b2 a.d0 a.d2 ratio i k hi hk]
  | (_ + 2) => simp only [circMask, swap0, getMask_flip b1 b0 a.d1 a.d0 ratio j i hj hi]

/-- **C199** `circ_mask` of transposed slices gives the transposed slices, also if they are not square. -/
theorem circ_mask_transposed (ratio val : K) (a : Recon.Arr3 K) (i j k : Nat) :
    (circMask 0 ratio val ⟨a.d0, a.d2, a.d1, fun i j k => a.get i k j⟩).get i k j
      = (circMask 0 ratio val a).get i j k := by
  simp only [circMask, swap0, getMask_swap a.d1 a.d2 ratio j k]

example : (circMask 0 (1 : ℚ) 7 ⟨1, 4, 3, fun _ j k => 10 * j + k⟩).get 0 0 1 = 7 ∧
    (circMask 0 (1 : ℚ) 7 ⟨1, 4, 3, fun _ j k => 10 * j + k⟩).get 0 1 1 = 11 := by decide +kernel

end

end Tomopy.Sym
