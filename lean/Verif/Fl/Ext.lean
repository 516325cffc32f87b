import Verif.Fl.Round
import Verif.Fl.Model

/-!
# `float` with infinities and NaN
-/

set_option linter.unusedSectionVars false

namespace Tomopy.Fl

/-! ## Model -/

/-- The values of a C `float` (`source/libtomo/recon/osem.c:49-81`): a finite number, an infinity
(negative if the flag is set), NaN.  The two zeros are not distinguished; the sign of a zero is
only visible in a division by it, and the sums that `osem.c:148-183` divides by start with `+0` and
never become `-0`. -/
inductive F32 where
  | fin (q : ℚ)
  | inf (neg : Bool)
  | nan
  deriving DecidableEq

namespace F32

/-- The `float` nearest to a number (`source/libtomo/recon/osem.c:154-181`, every operation):
infinite if it is `2¹²⁸` or more after rounding. -/
def round (x : ℚ) : F32 := if |fl x| < 2 ^ 128 then fin (fl x) else inf (decide (x < 0))

/-- `a + b` (`source/libtomo/recon/osem.c:158`). -/
def add : F32 → F32 → F32
  | fin a, fin b => round (a + b)
  | fin _, inf t => inf t
  | inf s, fin _ => inf s
  | inf s, inf t => if s = t then inf s else nan
  | nan, _ => nan
  | _, nan => nan

/-- `a * b` (`source/libtomo/recon/osem.c:180`). -/
def mul : F32 → F32 → F32
  | fin a, fin b => round (a * b)
  | fin a, inf t => if a = 0 then nan else inf (xor (decide (a < 0)) t)
  | inf s, fin b => if b = 0 then nan else inf (xor s (decide (b < 0)))
  | inf s, inf t => inf (xor s t)
  | nan, _ => nan
  | _, nan => nan

/-- `a / b` (`source/libtomo/recon/osem.c:165,180`); zero divisors are `+0`. -/
def div : F32 → F32 → F32
  | fin a, fin b =>
    if b = 0 then (if a = 0 then nan else inf (decide (a < 0))) else round (a / b)
  | fin _, inf _ => fin 0
  | inf s, fin b => inf (xor s (decide (b < 0)))
  | inf _, inf _ => nan
  | nan, _ => nan
  | _, nan => nan

/-- `c + a * b`, fused if the compiler contracts it (`source/libtomo/recon/osem.c:157,168`,
`utils.c:367`). -/
def mac (fused : Bool) (a b c : F32) : F32 :=
  match fused, a, b, c with
  | true, fin x, fin y, fin z => round (x * y + z)
  | true, fin _, fin _, inf t => inf t
  | true, fin _, fin _, nan => nan
  | _, a, b, c => add (mul a b) c

/-! ## Signs -/

/-- Not negative: a number from zero on, `+∞` or NaN. -/
def NN : F32 → Prop
  | fin q => 0 ≤ q
  | inf s => s = false
  | nan => True

/-- Zero or NaN. -/
def Zn : F32 → Prop
  | fin q => q = 0
  | inf _ => False
  | nan => True

/-- `+∞` or NaN. -/
def Big : F32 → Prop
  | fin _ => False
  | inf s => s = false
  | nan => True

theorem NN.round {x : ℚ} (h : 0 ≤ x) : NN (round x) := by
  unfold F32.round
  split
  · exact fl_nonneg h
  · simp [NN, not_lt.mpr h]

theorem NN.add {a b : F32} (ha : NN a) (hb : NN b) : NN (add a b) := by
  cases a <;> cases b <;> simp_all [F32.add, NN]
  rename_i p q
  exact NN.round (add_nonneg ha hb)

theorem NN.mul {a b : F32} (ha : NN a) (hb : NN b) : NN (mul a b) := by
  cases a <;> cases b <;> simp_all [F32.mul, NN]
  · rename_i p q
    exact NN.round (mul_nonneg ha hb)
  · rename_i p q
    by_cases h : p = 0
    · simp [h]
    · simp [h, not_lt.mpr ha]
  · rename_i p q
    by_cases h : q = 0
    · simp [h]
    · simp [h, not_lt.mpr hb]

theorem NN.div {a b : F32} (ha : NN a) (hb : NN b) : NN (div a b) := by
  cases a <;> cases b <;> simp_all [F32.div, NN]
  rename_i p q
  by_cases h : q = 0
  · by_cases h' : p = 0
    · simp [h, h']
    · simp [h, h', not_lt.mpr ha]
  · rw [if_neg h]
    exact NN.round (div_nonneg ha hb)

theorem NN.mac {f : Bool} {a b c : F32} (ha : NN a) (hb : NN b) (hc : NN c) : NN (mac f a b c) := by
  unfold F32.mac
  split
  · exact NN.round (add_nonneg (mul_nonneg ha hb) hc)
  · exact hc
  · trivial
  · exact (ha.mul hb).add hc

theorem Zn.mul {a b : F32} (ha : Zn a) : Zn (mul a b) := by
  cases a <;> cases b <;> simp_all [F32.mul, Zn, F32.round, fl_zero]

theorem Big.add_right {a b : F32} (ha : NN a) (hb : Big b) : Big (add a b) := by
  cases a <;> cases b <;> simp_all [F32.add, Big, NN]

theorem Big.add_left {a b : F32} (ha : Big a) (hb : NN b) : Big (add a b) := by
  cases a <;> cases b <;> simp_all [F32.add, Big, NN]

/-- A further term keeps a sum infinite or NaN. -/
theorem Big.mac {f : Bool} {a b c : F32} (ha : NN a) (hb : NN b) (hc : Big c) : Big (mac f a b c) := by
  unfold F32.mac
  split
  · exact absurd hc id
  · exact hc
  · trivial
  · exact Big.add_right (ha.mul hb) hc

/-- An infinite or undefined factor and a positive length give an infinite or undefined term. -/
theorem Big.mac_term {f : Bool} {a c : F32} {l : ℚ} (ha : Big a) (hl : 0 < l) (hc : NN c) :
    Big (F32.mac f a (fin l) c) := by
  cases a with
  | fin q => exact absurd ha id
  | inf s =>
    have hs : s = false := ha
    subst hs
    have : F32.mac f (inf false) (fin l) c = F32.add (inf false) c := by
      cases f <;> simp [F32.mac, F32.mul, hl.ne', not_lt.mpr hl.le]
    rw [this]
    exact Big.add_left (a := inf false) rfl hc
  | nan =>
    have : F32.mac f nan (fin l) c = nan := by
      cases f <;> cases c <;> simp [F32.mac, F32.mul, F32.add]
    rw [this]
    trivial

theorem Big.div {a b : F32} (ha : Big a) (hb : NN b) : Big (div a b) := by
  cases a <;> cases b <;> simp_all [F32.div, Big, NN]

/-- A division by zero. -/
theorem Big.div_zero {a : F32} (ha : NN a) : Big (F32.div a (fin 0)) := by
  cases a with
  | fin q =>
    by_cases h : q = 0
    · simp [F32.div, h, Big]
    · have hq : 0 ≤ q := ha
      simp [F32.div, h, Big, not_lt.mpr hq]
  | inf s => have : s = false := ha; simp [F32.div, Big, this]
  | nan => simp [F32.div, Big]

theorem Big.div_zn {a b : F32} (ha : NN a) (hb : Zn b) : Big (F32.div a b) := by
  cases b with
  | fin q => have : q = 0 := hb; subst this; exact Big.div_zero ha
  | inf s => exact absurd hb id
  | nan => cases a <;> trivial

theorem Zn.mac {f : Bool} {a c : F32} {l : ℚ} (ha : Zn a) (hc : Zn c) :
    Zn (F32.mac f a (fin l) c) := by
  cases f <;> cases a <;> cases c <;>
    simp_all [F32.mac, F32.mul, F32.add, Zn, F32.round, fl_zero]

/-- Zero times infinity or NaN. -/
theorem zn_mul_big {a b : F32} (ha : Zn a) (hb : Big b) : F32.mul a b = nan := by
  cases a <;> cases b <;> simp_all [F32.mul, Big, Zn]

end F32

end Tomopy.Fl
