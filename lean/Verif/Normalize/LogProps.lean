import Verif.Normalize.LogModel
import Verif.Normalize.Props
import Mathlib.Tactic.FieldSimp
import Mathlib.Tactic.Positivity

/-! C135: `normalize` followed by `minus_log` recovers the attenuation. -/
set_option linter.unusedSectionVars false

namespace Tomopy.Normalize

/-- Specification: counts behind an object of attenuation `p` in a beam that gives `f`, on a detector that
gives `d` without beam. -/
noncomputable def counts (f d p : ℝ) : ℝ := d + (f - d) * Real.exp (-p)

theorem minusLog_exp (p : ℝ) : minusLogPix (Real.exp (-p)) = .fin p := by
  unfold minusLogPix
  rw [if_pos (Real.exp_pos _), Real.log_exp, neg_neg]

theorem transmission (f d p : ℝ) (h : 1 / 1000000 ≤ f - d) :
    normalizePix none (counts f d p) f d = Real.exp (-p) := by
  have hp : 0 < f - d := lt_of_lt_of_le (by norm_num) h
  simp only [normalizePix, denominator]
  rw [if_neg (by unfold floorDenom; exact not_lt.2 h), counts]
  field_simp
  ring

/-- **C135** The attenuation comes back exactly. -/
theorem beer_lambert (f d p : ℝ) (h : 1 / 1000000 ≤ f - d) :
    minusLogPix (normalizePix none (counts f d p) f d) = .fin p := by
  rw [transmission f d p h, minusLog_exp]

/-- **C135** With a positive cutoff, attenuations are bounded below by `-log cutoff` and otherwise the same. -/
theorem beer_lambert_cutoff (f d p c : ℝ) (h : 1 / 1000000 ≤ f - d) (hc : 0 < c) :
    minusLogPix (normalizePix (some c) (counts f d p) f d) = .fin (max p (-Real.log c)) := by
  have ht := transmission f d p h
  have e : normalizePix (some c) (counts f d p) f d = min (Real.exp (-p)) c := by
    rw [← ht]
    simp only [normalizePix]
    split
    · rename_i hlt; exact (min_eq_right hlt.le).symm
    · rename_i hlt; exact (min_eq_left (not_lt.1 hlt)).symm
  rw [e]
  unfold minusLogPix
  rw [if_pos (lt_min (Real.exp_pos _) hc)]
  congr 1
  rcases le_total (Real.exp (-p)) c with hle | hle
  · rw [min_eq_left hle, Real.log_exp, neg_neg, max_eq_left]
    have := Real.log_le_log (Real.exp_pos _) hle
    rw [Real.log_exp] at this
    linarith
  · rw [min_eq_right hle, max_eq_right]
    have := Real.log_le_log hc hle
    rw [Real.log_exp] at this
    linarith

/-- **C135** When the result is finite, infinite or NaN: it depends on the counts and the dark field only,
also where the flat field is not above the dark field. -/
theorem log_defined (a f d : ℝ) :
    ((∃ r, minusLogPix (normalizePix none a f d) = .fin r) ↔ d < a) ∧
    (minusLogPix (normalizePix none a f d) = .inf ↔ a = d) ∧
    (minusLogPix (normalizePix none a f d) = .nan ↔ a < d) := by
  have hp := (denominator_eq_max f d).2
  have e : normalizePix none a f d = (a - d) / denominator f d := rfl
  rw [e]
  unfold minusLogPix
  rcases lt_trichotomy a d with h | h | h
  · have h1 : (a - d) / denominator f d < 0 := div_neg_of_neg_of_pos (by linarith) hp
    rw [if_neg (not_lt.2 h1.le), if_neg h1.ne]
    simp [h, h.ne, not_lt.2 h.le]
  · subst h
    simp
  · have h1 : 0 < (a - d) / denominator f d := div_pos (by linarith) hp
    rw [if_pos h1]
    simp [h, h.ne', not_lt.2 h.le]

/-- **C135** Less light means more attenuation: the result falls strictly with the counts. -/
theorem log_antitone (a b f d : ℝ) (hd : d < a) (hab : a < b) :
    ∃ r s, minusLogPix (normalizePix none a f d) = .fin r ∧
      minusLogPix (normalizePix none b f d) = .fin s ∧ s < r := by
  have hp := (denominator_eq_max f d).2
  have h1 : 0 < (a - d) / denominator f d := div_pos (by linarith) hp
  have h2 : (a - d) / denominator f d < (b - d) / denominator f d :=
    div_lt_div_of_pos_right (by linarith) hp
  refine ⟨_, _, if_pos h1, if_pos (h1.trans h2), ?_⟩
  have := Real.log_lt_log h1 h2
  simp only [normalizePix]
  linarith

/-- **C135** The whole pipeline on stacks: for every averaging mode, data that follow the law of attenuation
with the averaged flat and dark fields give the attenuations. -/
theorem pipeline (mode : String) (flats darks : List (Img ℝ)) (f d : Img ℝ) (p : Nat → Img ℝ)
    (hf : average mode flats = .ok f) (hd : average mode darks = .ok d)
    (h : ∀ y x, 1 / 1000000 ≤ f y x - d y x) :
    ∃ out, normalize mode none (fun t y x => counts (f y x) (d y x) (p t y x)) flats darks = .ok out ∧
      ∀ t y x, minusLog out t y x = .fin (p t y x) := by
  refine ⟨fun t y x => normalizePix none (counts (f y x) (d y x) (p t y x)) (f y x) (d y x), ?_, ?_⟩
  · simp only [normalize, hf, hd]
    rfl
  · exact fun t y x => beer_lambert _ _ _ (h y x)

example : ∃ out, normalize "mean" none
    (fun _ _ _ => counts 5 1 2) [fun _ _ => (4 : ℝ), fun _ _ => 6] [fun _ _ => 1] = .ok out ∧
      ∀ t y x, minusLog out t y x = .fin 2 :=
  pipeline "mean" _ _ (fun _ _ => 5) (fun _ _ => 1) (fun _ _ _ => 2)
    (by simp [average, Num.mean]; norm_num) (by simp [average, Num.mean]) (by norm_num)

end Tomopy.Normalize
