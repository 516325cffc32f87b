import Verif.Sym.Median3d
import Verif.Normalize.Props

/-! C205: gain and offset of the detector pixels cancel in the normalisation. -/

set_option linter.unusedSectionVars false

namespace Tomopy.Sym
open Tomopy.Normalize Tomopy.Num

variable {K : Type} [LinearOrder K] [Field K] [IsStrictOrderedRing K]

/-- What a detector with another gain and offset of every pixel measures (no code of its own; argument of `normalize`,
prep/normalize.py:98). -/
def gainImg (g o : Img K) (im : Img K) : Img K := fun y x => g y x * im y x + o y x

theorem mean_gain {l : List K} (hl : l ≠ []) (g o : K) : mean (l.map fun v => g * v + o) = g * mean l + o := by
  have h : ((l.length : Nat) : K) ≠ 0 := Nat.cast_ne_zero.2 (by have := List.length_pos_iff.2 hl; omega)
  have e : (l.map fun v => g * v + o).sum = g * l.sum + l.length * o := by
    clear h hl
    induction l with
    | nil => simp
    | cons a l ih =>
      rw [List.map_cons, List.sum_cons, List.sum_cons, ih, List.length_cons, Nat.cast_succ]
      ring
  unfold mean
  rw [e, List.length_map]
  field_simp

theorem npMedian_gain {l : List K} (hl : l ≠ []) (g o : K) (hg : 0 < g) :
    npMedian (l.map fun v => g * v + o) = g * npMedian l + o := by
  have hf : StrictMono fun v : K => g * v + o := fun s t hst => by
    have := mul_lt_mul_of_pos_left hst hg
    dsimp only
    linarith
  obtain ⟨a, b, h1, h2, h3⟩ := npMedian_spec hl
  obtain ⟨a', b', h1', h2', h3'⟩ := npMedian_spec (l := l.map fun v => g * v + o) (by simpa using hl)
  rw [List.length_map] at h1' h2'
  rw [h3, h3', h1'.unique (isRank_mono hf h1), h2'.unique (isRank_mono hf h2)]
  ring

theorem average_gain (mode : String) {stack : List (Img K)} (hs : stack ≠ []) (g o : Img K) (hg : ∀ y x, 0 < g y x)
    {f : Img K} (h : average mode stack = .ok f) : average mode (stack.map (gainImg g o)) = .ok (gainImg g o f) := by
  have e : ∀ y x, (stack.map (gainImg g o)).map (fun im => im y x)
      = (stack.map fun im => im y x).map fun v => g y x * v + o y x := by
    intro y x
    rw [List.map_map, List.map_map]
    rfl
  unfold average at h ⊢
  simp only [e]
  by_cases h1 : mode = "mean"
  · rw [if_pos h1] at h ⊢
    cases h
    congr 1
    funext y x
    exact mean_gain (by simpa using hs) _ _
  · rw [if_neg h1] at h ⊢
    by_cases h2 : mode = "median"
    · rw [if_pos h2] at h ⊢
      cases h
      congr 1
      funext y x
      exact npMedian_gain (by simpa using hs) _ _ (hg y x)
    · rw [if_neg h2] at h
      cases h

theorem pix_gain (cutoff : Option K) (a f d g o : K) (hg : 0 < g) (h1 : 1 / 1000000 ≤ f - d)
    (h2 : 1 / 1000000 ≤ g * (f - d)) :
    normalizePix cutoff (g * a + o) (g * f + o) (g * d + o) = normalizePix cutoff a f d := by
  have e : (g * a + o - (g * d + o)) / denominator (g * f + o) (g * d + o) = (a - d) / denominator f d := by
    rw [(denominator_eq_max _ _).1, (denominator_eq_max _ _).1, show g * f + o - (g * d + o) = g * (f - d) by ring,
      max_eq_left h1, max_eq_left h2, show g * a + o - (g * d + o) = g * (a - d) by ring, mul_div_mul_left _ _ hg.ne']
  unfold normalizePix
  rw [e]

/-- **C205** For every gain and offset of the pixels, `normalize` gives the same value wherever flat and dark differ by
at least 1e-6 in both units; the averages may be means or medians. -/
theorem normalize_gain (mode : String) (cutoff : Option K) (arr : Nat → Img K) (flats darks : List (Img K)) (g o f d : Img K)
    (hg : ∀ y x, 0 < g y x) (hf0 : flats ≠ []) (hd0 : darks ≠ []) (hf : average mode flats = .ok f)
    (hd : average mode darks = .ok d) : ∃ out out', normalize mode cutoff arr flats darks = .ok out ∧
      normalize mode cutoff (fun t => gainImg g o (arr t)) (flats.map (gainImg g o)) (darks.map (gainImg g o)) = .ok out' ∧
      ∀ t y x, 1 / 1000000 ≤ f y x - d y x → 1 / 1000000 ≤ g y x * (f y x - d y x) → out' t y x = out t y x := by
  refine ⟨fun t y x => normalizePix cutoff (arr t y x) (f y x) (d y x),
    fun t y x => normalizePix cutoff (gainImg g o (arr t) y x) (gainImg g o f y x) (gainImg g o d y x), ?_, ?_, ?_⟩
  · unfold normalize
    rw [hf, hd]
    rfl
  · unfold normalize
    rw [average_gain mode hf0 g o hg hf, average_gain mode hd0 g o hg hd]
    rfl
  · intro t y x h1 h2
    exact pix_gain cutoff _ _ _ _ _ (hg y x) h1 h2

/-- **C205** These are the only pixels: where the value is not that of the dark and the gain changes, the result is the
same exactly if flat and dark differ by at least 1e-6 in both units. -/
theorem normalize_gain_iff (mode : String) (arr : Nat → Img K) (flats darks : List (Img K)) (g o f d : Img K)
    (hg : ∀ y x, 0 < g y x) (hf0 : flats ≠ []) (hd0 : darks ≠ []) (hf : average mode flats = .ok f)
    (hd : average mode darks = .ok d) : ∃ out out', normalize mode none arr flats darks = .ok out ∧
      normalize mode none (fun t => gainImg g o (arr t)) (flats.map (gainImg g o)) (darks.map (gainImg g o)) = .ok out' ∧
      ∀ t y x, arr t y x ≠ d y x → g y x ≠ 1 →
        (out' t y x = out t y x ↔ 1 / 1000000 ≤ f y x - d y x ∧ 1 / 1000000 ≤ g y x * (f y x - d y x)) := by
  refine ⟨fun t y x => normalizePix none (arr t y x) (f y x) (d y x),
    fun t y x => normalizePix none (gainImg g o (arr t) y x) (gainImg g o f y x) (gainImg g o d y x), ?_, ?_, ?_⟩
  · unfold normalize
    rw [hf, hd]
    rfl
  · unfold normalize
    rw [average_gain mode hf0 g o hg hf, average_gain mode hd0 g o hg hd]
    rfl
  · intro t y x ha hg1
    refine ⟨fun h => ?_, fun h => pix_gain none _ _ _ _ _ (hg y x) h.1 h.2⟩
    have hp := hg y x
    unfold gainImg normalizePix at h
    dsimp only at h
    generalize arr t y x = a at *
    generalize f y x = f at *
    generalize d y x = d at *
    generalize g y x = g at *
    generalize o y x = o at *
    rw [(denominator_eq_max _ _).1, (denominator_eq_max _ _).1, show g * f + o - (g * d + o) = g * (f - d) by ring,
      show g * a + o - (g * d + o) = g * (a - d) by ring] at h
    have hl : (0 : K) < 1 / 1000000 := by norm_num
    have p1 : (0 : K) < max (f - d) (1 / 1000000) := lt_of_lt_of_le hl (le_max_right _ _)
    have p2 : (0 : K) < max (g * (f - d)) (1 / 1000000) := lt_of_lt_of_le hl (le_max_right _ _)
    rw [div_eq_div_iff p2.ne' p1.ne'] at h
    have h' : g * max (f - d) (1 / 1000000) = max (g * (f - d)) (1 / 1000000) :=
      mul_left_cancel₀ (sub_ne_zero.2 ha) (by linear_combination h)
    rw [mul_max_of_nonneg _ _ hp.le] at h'
    have hne : g * (1 / 1000000) ≠ 1 / 1000000 := fun hc => hg1 (mul_right_cancel₀ hl.ne' (by rw [one_mul]; exact hc))
    rcases le_total (g * (1 / 1000000)) (g * (f - d)) with h1 | h1 <;>
      rcases le_total (1 / 1000000) (g * (f - d)) with h2 | h2
    · exact ⟨le_of_mul_le_mul_left h1 hp, h2⟩
    · rw [max_eq_left h1, max_eq_right h2] at h'
      exact ⟨le_of_mul_le_mul_left h1 hp, h'.ge⟩
    · rw [max_eq_right h1, max_eq_left h2] at h'
      exact ⟨le_of_mul_le_mul_left h'.le hp, h2⟩
    · rw [max_eq_right h1, max_eq_right h2] at h'
      exact absurd h' hne

/-- **C205** The same for `normalize_nf` with flats at several places of the scan. -/
theorem normalize_nf_gain (cutoff : Option K) (tomo : Nat → Img K) (total : Nat) (flats darks : List (Img K))
    (locs : List Int) (g o : Img K) (hg : ∀ y x, 0 < g y x) (hd0 : darks ≠ []) (hl : locs.length ≤ flats.length)
    (h1 : ∀ m < locs.length, ∀ y x, 1 / 1000000 ≤ groupFlat flats locs.length m y x - mean (darks.map fun im => im y x))
    (h2 : ∀ m < locs.length, ∀ y x, 1 / 1000000 ≤
      g y x * (groupFlat flats locs.length m y x - mean (darks.map fun im => im y x))) :
    normalizeNf "mean" cutoff (fun t => gainImg g o (tomo t)) total (flats.map (gainImg g o)) (darks.map (gainImg g o)) locs
      = normalizeNf "mean" cutoff tomo total flats darks locs := by
  unfold normalizeNf
  rw [if_pos rfl, if_pos rfl]
  by_cases h0 : locs.length = 0
  · rw [if_pos h0, if_pos h0]
  · rw [if_neg h0, if_neg h0]
    dsimp only
    have hdark : (fun y x => mean ((darks.map (gainImg g o)).map fun im => im y x))
        = gainImg g o fun y x => mean (darks.map fun im => im y x) := by
      funext y x
      have e : (darks.map (gainImg g o)).map (fun im => im y x)
          = (darks.map fun im => im y x).map fun v => g y x * v + o y x := by
        rw [List.map_map, List.map_map]
        rfl
      rw [e]
      exact mean_gain (by simpa using hd0) _ _
    have hper : 0 < flats.length / locs.length := Nat.div_pos hl (by omega)
    have hgrp : ∀ m < locs.length, groupFlat (flats.map (gainImg g o)) locs.length m
        = gainImg g o (groupFlat flats locs.length m) := by
      intro m hm
      funext y x
      unfold groupFlat
      dsimp only
      rw [List.length_map, ← List.map_drop, ← List.map_take]
      have e : (((flats.drop (m * (flats.length / locs.length))).take (flats.length / locs.length)).map
          (gainImg g o)).map (fun im => im y x)
          = (((flats.drop (m * (flats.length / locs.length))).take (flats.length / locs.length)).map
            fun im => im y x).map fun v => g y x * v + o y x := by
        rw [List.map_map, List.map_map]
        rfl
      rw [e]
      refine npMedian_gain ?_ _ _ (hg y x)
      have hb : (m + 1) * (flats.length / locs.length) ≤ flats.length :=
        le_trans (Nat.mul_le_mul_right _ hm) (Nat.mul_div_le _ _)
      rw [Nat.add_mul, Nat.one_mul] at hb
      intro hnil
      have := congrArg List.length hnil
      rw [List.length_map, List.length_take, List.length_drop, List.length_nil] at this
      omega
    rw [hdark]
    congr 2
    refine List.foldl_ext _ _ _ fun s m hm => ?_
    have hm := List.mem_range.1 hm
    unfold nfStep
    dsimp only
    rw [hgrp m hm]
    have e : ∀ t, (fun y x => normalizePix cutoff (gainImg g o (tomo t) y x)
        (gainImg g o (groupFlat flats locs.length m) y x) (gainImg g o (fun y x => mean (darks.map fun im => im y x)) y x))
        = fun y x => normalizePix cutoff (tomo t y x) (groupFlat flats locs.length m y x)
          (mean (darks.map fun im => im y x)) := by
      intro t
      funext y x
      exact pix_gain cutoff _ _ _ _ _ (hg y x) (h1 m hm y x) (h2 m hm y x)
    simp only [e]

example : average (K := ℚ) "mean" [fun _ _ => 4, fun _ _ => 6] = .ok (fun _ _ => 5) := by
  unfold average
  rw [if_pos rfl]
  congr 1
  funext y x
  norm_num [mean]

example : ∀ m < [0, 5].length, ∀ y x : Nat, (1 : ℚ) / 1000000 ≤
    groupFlat [fun _ _ => (3 : ℚ), fun _ _ => 4] [(0 : Int), 5].length m y x - mean ([fun _ _ => (1 : ℚ)].map fun im => im y x) := by
  intro m hm y x
  have : m = 0 ∨ m = 1 := by simp at hm; omega
  rcases this with rfl | rfl <;> norm_num [groupFlat, mean, npMedian, sortL]

end Tomopy.Sym
