import Verif.Sym.Filters

/-! C199: `remove_outlier` of mirrored stacks, for every size. -/

set_option linter.unusedSectionVars false

namespace Tomopy.Sym
open Tomopy.Corr Tomopy.Num

section
variable {K : Type} [LinearOrder K] [Field K] [IsStrictOrderedRing K]

theorem countP_window (h w size : Nat) (img : Nat → Nat → K) (y x : Nat) (p : K → Bool) :
    (scipyWindow h w size img y x).countP p = ((List.range size).map fun (a : Nat) =>
      (List.range size).countP fun (b : Nat) => p (img (reflect h ((y : Int) + a - (size / 2 : Nat)))
        (reflect w ((x : Int) + b - (size / 2 : Nat))))).sum := by
  unfold scipyWindow
  rw [List.countP_flatMap]
  simp only [Function.comp_def, List.countP_map]

theorem countP_range_mid (n m : Nat) : (List.range n).countP (fun b => decide (1 ≤ b ∧ b < m)) = min n m - 1 := by
  induction n with
  | zero => simp
  | succ n ih =>
    rw [List.range_succ, List.countP_append, ih, List.countP_singleton]
    by_cases hn : 1 ≤ n ∧ n < m
    · rw [if_pos (decide_eq_true hn)]; omega
    · rw [if_neg (by rw [decide_eq_true_eq]; exact hn)]; omega

theorem countP_range_ends (n m : Nat) (hm : 1 ≤ m) :
    (List.range n).countP (fun b => decide (b = 0 ∨ m ≤ b)) = min n 1 + (n - m) := by
  induction n with
  | zero => simp
  | succ n ih =>
    rw [List.range_succ, List.countP_append, ih, List.countP_singleton]
    by_cases hn : n = 0 ∨ m ≤ n
    · rw [if_pos (decide_eq_true hn)]; omega
    · rw [if_neg (by rw [decide_eq_true_eq]; exact hn)]; omega

/-- Input for the refutation (no code of its own; passed to `remove_outlier`, misc/corr.py:559-612): bright in column 0, in
the columns between `k` and `2k` and in one pixel of column `k`. -/
def combImg (k : Nat) (v : K) : Nat → Nat → K := fun y x =>
  if x = 0 ∨ (k < x ∧ x < 2 * k) ∨ (y = k ∧ x = k) then v else 0

theorem half_sq (k : Nat) : 2 * k * (2 * k) / 2 = 2 * k * k := by
  rw [show 2 * k * (2 * k) = 2 * (2 * k * k) by ring]
  omega

theorem comb_median (h w k : Nat) (hk : 0 < k) (hw : 2 * k < w) (v : K) (hv : 0 < v) :
    scipyMedian h w (2 * k) (combImg k v) k k = v := by
  refine (scipyMedian_isRank h w (2 * k) (by omega) _ k k).unique ⟨?_, ?_⟩
  · rw [countP_window, half_sq]
    have : ∀ t ∈ ((List.range (2 * k)).map fun (a : Nat) => (List.range (2 * k)).countP fun (b : Nat) =>
        decide (combImg k v (reflect h ((k : Int) + a - (2 * k / 2 : Nat)))
          (reflect w ((k : Int) + b - (2 * k / 2 : Nat))) < v)), t ≤ k := by
      intro t ht
      obtain ⟨a, ha, rfl⟩ := List.mem_map.1 ht
      have ha := List.mem_range.1 ha
      refine le_trans (List.countP_mono_left (q := fun b => decide (1 ≤ b ∧ b < k + 1)) ?_)
        (by rw [countP_range_mid]; omega)
      intro b hb hp
      have hb := List.mem_range.1 hb
      rw [reflect_inside w _ (by omega) (by omega), show ((k : Int) + b - (2 * k / 2 : Nat)).toNat = b by omega] at hp
      rw [decide_eq_true_eq] at hp ⊢
      unfold combImg at hp
      by_contra hc
      rw [if_pos (by omega)] at hp
      exact lt_irrefl _ hp
    have := List.sum_le_card_nsmul _ _ this
    rwa [List.length_map, List.length_range, smul_eq_mul] at this
  · have : (scipyWindow h w (2 * k) (combImg k v) k k).countP (fun x => decide (x ≤ v)) = 2 * k * (2 * k) := by
      rw [← length_scipyWindow h w (2 * k) (combImg k v) k k, List.countP_eq_length]
      intro x hx
      unfold scipyWindow at hx
      obtain ⟨a, _, hx⟩ := List.mem_flatMap.1 hx
      obtain ⟨b, _, rfl⟩ := List.mem_map.1 hx
      rw [decide_eq_true_eq]
      unfold combImg
      split
      · exact le_refl _
      · exact hv.le
    rw [this]
    have : 0 < 2 * k * (2 * k) := by positivity
    omega

theorem comb_median_mirrored (h w k : Nat) (hk : 0 < k) (hh : 2 * k ≤ h) (hw : 2 * k < w) (v : K) (hv : 0 < v) :
    scipyMedian h w (2 * k) (fun y x => combImg k v y (w - 1 - x)) k (w - 1 - k) = 0 := by
  refine (scipyMedian_isRank h w (2 * k) (by omega) _ k (w - 1 - k)).unique ⟨?_, ?_⟩
  · have : (scipyWindow h w (2 * k) (fun y x => combImg k v y (w - 1 - x)) k (w - 1 - k)).countP
        (fun x => decide (x < 0)) = 0 := by
      rw [List.countP_eq_zero]
      intro x hx
      unfold scipyWindow at hx
      obtain ⟨a, _, hx⟩ := List.mem_flatMap.1 hx
      obtain ⟨b, _, rfl⟩ := List.mem_map.1 hx
      rw [decide_eq_true_eq]
      unfold combImg
      dsimp only
      split
      · exact not_lt.2 hv.le
      · exact lt_irrefl _
    rw [this]
    omega
  · rw [countP_window, half_sq]
    have row : ∀ a < 2 * k, ∀ q : Nat → Bool, (∀ b < 2 * k, q b = true → b = 0 ∨ k + 1 ≤ b ∨ (b = k ∧ a ≠ k)) →
        (List.range (2 * k)).countP q ≤ (List.range (2 * k)).countP fun (b : Nat) =>
          decide (combImg k v (reflect h ((k : Int) + a - (2 * k / 2 : Nat)))
            (w - 1 - reflect w (((w - 1 - k : Nat) : Int) + b - (2 * k / 2 : Nat))) ≤ 0) := by
      intro a ha q hq
      refine List.countP_mono_left fun b hb hp => ?_
      have hb := List.mem_range.1 hb
      have := hq b hb hp
      rw [reflect_inside w _ (by omega) (by omega), reflect_inside h _ (by omega) (by omega),
        show ((k : Int) + a - (2 * k / 2 : Nat)).toNat = a by omega,
        show w - 1 - (((w - 1 - k : Nat) : Int) + b - (2 * k / 2 : Nat)).toNat = 2 * k - b by omega, decide_eq_true_eq]
      unfold combImg
      rw [if_neg (by omega)]
    obtain ⟨n, hn⟩ : ∃ n, 2 * k = n + 1 := ⟨2 * k - 1, by omega⟩
    have h0 := row 0 (by omega) (fun b => decide (b = 0 ∨ k ≤ b)) (fun b _ hp => by
      rw [decide_eq_true_eq] at hp; omega)
    rw [countP_range_ends _ _ hk] at h0
    obtain ⟨f, hf⟩ : ∃ f : Nat → Nat, (fun (a : Nat) => (List.range (2 * k)).countP fun (b : Nat) =>
          decide (combImg k v (reflect h ((k : Int) + a - (2 * k / 2 : Nat)))
            (w - 1 - reflect w (((w - 1 - k : Nat) : Int) + b - (2 * k / 2 : Nat))) ≤ 0)) = f := ⟨_, rfl⟩
    have e : ∀ a : Nat, (List.range (2 * k)).countP (fun (b : Nat) =>
          decide (combImg k v (reflect h ((k : Int) + a - (2 * k / 2 : Nat)))
            (w - 1 - reflect w (((w - 1 - k : Nat) : Int) + b - (2 * k / 2 : Nat))) ≤ 0)) = f a := fun a => congrFun hf a
    have h0' : k + 1 ≤ f 0 := by rw [← e 0]; exact le_trans (by omega) h0
    have hr' : ∀ a < 2 * k, k ≤ f a := fun a ha => by
      have := row a ha (fun b => decide (b = 0 ∨ k + 1 ≤ b)) (fun b _ hp => by rw [decide_eq_true_eq] at hp; omega)
      rw [countP_range_ends _ _ (by omega), e a] at this
      omega
    rw [hf, hn, List.range_succ_eq_map, List.map_cons, List.sum_cons]
    have := List.card_nsmul_le_sum (((List.range n).map Nat.succ).map f) k (by
      intro x hx
      rw [List.map_map] at hx
      obtain ⟨a, ha, rfl⟩ := List.mem_map.1 hx
      exact hr' _ (by have := List.mem_range.1 ha; simp only [Nat.succ_eq_add_one]; omega))
    rw [List.length_map, List.length_map, List.length_range, smul_eq_mul] at this
    have : (n + 1) * k = n * k + k := by ring
    omega

/-- Specification: `remove_outlier` (axis 0) of every stack mirrored left to right is the mirrored result. -/
def OutlierMirrors (cpu n h w size : Nat) (ncore : Option Nat) (dif : K) : Prop :=
  ∀ (arr : Nat → Nat → Nat → K) (out out' : Nat → Nat → Nat → Option K),
    removeOutlier cpu n h w size ncore dif arr = .ok out →
    removeOutlier cpu n h w size ncore dif (fun z y x => arr z y (w - 1 - x)) = .ok out' →
    ∀ z < n, ∀ y < h, ∀ x < w, out' z y x = out z y (w - 1 - x)

/-- **C199** For every positive threshold and slices larger than the window, `remove_outlier` commutes with mirroring
exactly if the size is odd. -/
theorem remove_outlier_mirrors_iff (cpu n h w size : Nat) (hc : 0 < cpu) (hn : 0 < n) (hs : 0 < size) (hh : size ≤ h)
    (hw : size < w) (ncore : Option Nat) (dif : K) (hd : 0 < dif) :
    OutlierMirrors cpu n h w size ncore dif ↔ size % 2 = 1 := by
  constructor
  · intro hm
    by_contra hodd
    obtain ⟨k, rfl⟩ : ∃ k, size = 2 * k := ⟨size / 2, by omega⟩
    have hk : 0 < k := by omega
    obtain ⟨t, e1, e2⟩ := outlierTmp_eq cpu n h w (2 * k) hc hn ncore fun _ => combImg k dif
    obtain ⟨t', e1', e2'⟩ := outlierTmp_eq cpu n h w (2 * k) hc hn ncore fun _ y x => combImg k dif y (w - 1 - x)
    have r : removeOutlier cpu n h w (2 * k) ncore dif (fun _ => combImg k dif)
        = .ok fun z y x => (t z y x).map (outlierPix dif (combImg k dif y x)) := by
      unfold removeOutlier; rw [e1]
    have r' : removeOutlier cpu n h w (2 * k) ncore dif (fun _ y x => combImg k dif y (w - 1 - x))
        = .ok fun z y x => (t' z y x).map (outlierPix dif (combImg k dif y (w - 1 - x))) := by
      unfold removeOutlier; rw [e1']
    have := hm (fun _ => combImg k dif) _ _ r r' 0 hn k (by omega) (w - 1 - k) (by omega)
    rw [e2' 0 hn, e2 0 hn, show w - 1 - (w - 1 - k) = k by omega, comb_median h w k hk hw dif hd,
      comb_median_mirrored h w k hk hh hw dif hd] at this
    have hp : combImg k dif k k = dif := by
      unfold combImg
      rw [if_pos (Or.inr (Or.inr ⟨rfl, rfl⟩))]
    rw [hp] at this
    simp only [Option.map_some, outlierPix, sub_zero, sub_self, ge_iff_le, le_refl, if_true, not_le.2 hd, if_false,
      Option.some.injEq] at this
    exact hd.ne this
  · intro ho arr out out' hr hr' z hz y hy x hx
    exact remove_outlier_flipped_partial false false true cpu cpu n h w size hc hc ho ncore ncore dif arr _
      (fun _ _ _ _ _ _ => rfl) out out' hr hr' z hz y hy x hx

example : OutlierMirrors 4 2 9 9 3 none (1 / 10 : ℚ) ∧ ¬ OutlierMirrors 4 2 9 9 4 none (1 / 10 : ℚ) :=
  ⟨(remove_outlier_mirrors_iff 4 2 9 9 3 (by omega) (by omega) (by omega) (by omega) (by omega) none _ (by norm_num)).2 rfl,
    fun h => by simpa using (remove_outlier_mirrors_iff 4 2 9 9 4 (by omega) (by omega) (by omega) (by omega) (by omega)
      none _ (by norm_num)).1 h⟩

end

end Tomopy.Sym
