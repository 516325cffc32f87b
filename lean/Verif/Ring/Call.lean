import Verif.Ring.CallModel
import Verif.Ring.Props

/-!
# Arguments that cannot be passed to the C function of `remove_ring` (C177)
-/

set_option linter.unusedSectionVars false

namespace Tomopy.Ring

open Tomopy.Extern (PyVal CTy CVal enter wrap32)

section
variable {K : Type} [Field K] [LinearOrder K] [IsStrictOrderedRing K] [FloorRing K]

/-- A Python number with the value `x`. -/
inductive IsNum : PyVal K → K → Prop
  | float (x : K) : IsNum (.float x) x
  | int (z : Int) : IsNum (.int z) z

/-- A Python number or `None`. -/
inductive IsOptNum : PyVal K → Option K → Prop
  | none : IsOptNum .none none
  | num (v : PyVal K) (x : K) (h : IsNum v x) : IsOptNum v (some x)

/-- A value `ctypes.c_float` takes. -/
def PassesFloat (v : PyVal K) : Prop := ∃ x, IsNum v x

/-- A value `ctypes.c_int` takes. -/
def PassesInt (v : PyVal K) : Prop := ∃ z, v = .int z

theorem centreArg_num {v : PyVal K} {o : Option K} (n : Nat) (h : IsOptNum v o) :
    IsNum (centreArg n v) (o.getD (((n : K) - 1) / 2)) := by
  cases h with
  | none => exact .float _
  | num v x h => cases h with
    | float => exact .float _
    | int z => exact .int z

theorem conv_num {v : PyVal K} {x : K} (h : IsNum v x) :
    Extern.conv (fun z : Int => (z : K)) .float v = .ok (.float x) := by
  cases h <;> rfl

/-- Every parameter of the C function holds the argument of the same meaning. -/
theorem ring_enters (rec len : Nat) (sh : List Nat) {cx cy tmax tmin thr : PyVal K}
    {x y mx mn t : K} (hx : IsNum cx x) (hy : IsNum cy y) (hmx : IsNum tmax mx) (hmn : IsNum tmin mn)
    (ht : IsNum thr t) (dx dy dz th rw im : Int) :
    ∃ vs, ringConvert (.arr rec sh) len [cx, cy, .int dx, .int dy, .int dz, tmax, tmin, thr, .int th,
        .int rw, .int im] = .ok vs ∧
      ringEnter vs = if wrap32 th < 0 ∨ wrap32 rw < 0 then none
        else some ⟨⟨x, y, mx, mn, t, (wrap32 th).toNat, (wrap32 rw).toNat,
          if wrap32 im = 1 then .reflect else .wrap⟩, wrap32 dx, wrap32 dy, wrap32 0, wrap32 len⟩ := by
  refine ⟨[.ptr .floatP rec, .float x, .float y, .int (wrap32 dx), .int (wrap32 dy),
    .int (wrap32 dz), .float mx, .float mn, .float t, .int (wrap32 th), .int (wrap32 rw),
    .int (wrap32 im), .int (wrap32 0), .int (wrap32 len)], ?_, rfl⟩
  cases hx <;> cases hy <;> cases hmx <;> cases hmn <;> cases ht <;> rfl

theorem wrap32_small (n : Nat) (h : n < 2 ^ 31) : wrap32 (n : Int) = n := by
  unfold wrap32
  omega

/-- **C177, where it holds.**  With numbers (or `None`) for the centres, numbers for the thresholds
and integers for `theta_min` and `rwidth`, `remove_ring` does on Python values what `removeRing`,
the subject of C43 to C45 and C74, does on numbers. -/
theorem remove_ring_args_partial (cpu n : Nat) (tg : Trig K) {cx cy tmax tmin thr : PyVal K}
    {ox oy : Option K} {mx mn t : K} (hx : IsOptNum cx ox) (hy : IsOptNum cy oy)
    (hmx : IsNum tmax mx) (hmn : IsNum tmin mn) (ht : IsNum thr t) (th : Int) (rw : Nat)
    (hrw : rw < 2 ^ 31) (mode : String) (ncore nchunk : Option Nat) (h w : Nat) (hh : h < 2 ^ 31)
    (hw : w < 2 ^ 31) (hn : n < 2 ^ 31) (rec : Nat → Img K) (out : Option (Nat → Img K)) :
    removeRingPy cpu n tg ⟨cx, cy, thr, tmax, tmin, .int th, .int rw, .str mode⟩ ncore nchunk h w rec
        out
      = removeRing cpu n tg ox oy mx mn t th rw mode ncore nchunk h w rec out := by
  unfold removeRingPy removeRing parseMode modeNum
  dsimp only
  have htask : ∀ (im : Int) (md : Mode), (0 ≤ im ∧ im < 2) →
      ((if im = 1 then Mode.reflect else Mode.wrap) = md) → 0 ≤ th ∧ th < 180 →
      ringTask tg n h w [centreArg w cx, centreArg h cy, .int w, .int h, .int n, tmax, tmin, thr,
        .int th, .int rw, .int im] = fun (o : Nat → Option (Img K)) slc => fun s =>
        if s ∈ slc.indices n then (o s).bind (removeRingSlice tg ⟨ox.getD (((w : K) - 1) / 2),
          oy.getD (((h : K) - 1) / 2), mx, mn, t, th.toNat, rw, md⟩) else o s := by
    intro im md him hmd hth
    funext o slc s
    have hlen : (slc.indices n).length ≤ n := by
      cases slc with
      | range lo hi => simp [Mproc.Slc.indices]
      | idx i =>
        simp only [Mproc.Slc.indices]
        split_ifs
        · simp; omega
        · simp
    obtain ⟨vs, hvs, hent⟩ := ring_enters 0 (slc.indices n).length [(slc.indices n).length, h, w]
      (centreArg_num w hx) (centreArg_num h hy) hmx hmn ht w h n th rw im
    have e1 : wrap32 th = th := by unfold wrap32; omega
    have e2 : wrap32 im = im := by unfold wrap32; omega
    rw [e1, e2, wrap32_small rw hrw, wrap32_small w hw, wrap32_small h hh,
      wrap32_small _ (by omega), if_neg (by omega), hmd] at hent
    unfold ringTask
    rw [hvs]
    simp [hent, wrap32]
  by_cases h1 : mode.toLower = "wrap"
  · simp only [h1, if_true, thetaOk]
    by_cases hth : 0 ≤ th ∧ th < 180
    · have := htask 0 .wrap (by omega) rfl hth
      simp only [bind, Except.bind, hth, this, and_self, decide_true, not_true_eq_false, if_false]
      cases out <;> rfl
    · simp only [bind, Except.bind, hth, decide_false, not_false_eq_true, if_true]
      rfl
  · by_cases h2 : mode.toLower = "reflect"
    · have hne : ("reflect" : String) ≠ "wrap" := by decide
      simp only [h2, hne, if_false, if_true, thetaOk]
      by_cases hth : 0 ≤ th ∧ th < 180
      · have := htask 1 .reflect (by omega) rfl hth
        simp only [bind, Except.bind, hth, this, and_self, decide_true, not_true_eq_false, if_false]
        cases out <;> rfl
      · simp only [bind, Except.bind, hth, decide_false, not_false_eq_true, if_true]
        rfl
    · simp only [h1, h2, if_false]
      cases out <;> rfl

theorem mapM_error {α β : Type} (f : α → Except PyErr β) (a : α) (e : PyErr) (ha : f a = .error e) :
    ∀ l : List α, a ∈ l → ∃ e', l.mapM f = .error e'
  | [], h => by cases h
  | x :: l, h => by
    rw [List.mapM_cons]
    cases hx : f x with
    | error e' => exact ⟨e', rfl⟩
    | ok y =>
      rcases List.mem_cons.1 h with rfl | h
      · rw [ha] at hx; cases hx
      · obtain ⟨e', he⟩ := mapM_error f a e ha l h
        exact ⟨e', by rw [he]; rfl⟩

/-- What `remove_ring` needs to convert. -/
def Passes (p : RingPy K) : Prop :=
  (p.centerX = .none ∨ PassesFloat p.centerX) ∧ (p.centerY = .none ∨ PassesFloat p.centerY) ∧
  PassesFloat p.threshMax ∧ PassesFloat p.threshMin ∧ PassesFloat p.thresh ∧ PassesInt p.thetaMin ∧
  PassesInt p.rwidth

theorem conv_float_error {v : PyVal K} (h : ¬ PassesFloat v) :
    Extern.conv (fun z : Int => (z : K)) .float v = .error .type := by
  cases v with
  | int z => exact absurd ⟨_, .int z⟩ h
  | float x => exact absurd ⟨_, .float x⟩ h
  | str s => rfl
  | none => rfl
  | arr a s => rfl

theorem conv_int_error {v : PyVal K} (h : ¬ PassesInt v) :
    Extern.conv (fun z : Int => (z : K)) .int v = .error .type := by
  cases v with
  | int z => exact absurd ⟨_, rfl⟩ h
  | float x => rfl
  | str s => rfl
  | none => rfl
  | arr a s => rfl

theorem centreArg_fails {v : PyVal K} (n : Nat) (h : ¬ (v = .none ∨ PassesFloat v)) :
    ¬ PassesFloat (centreArg n v) := by
  cases v with
  | none => exact absurd (.inl rfl) h
  | int z => exact fun h' => h (.inr h')
  | float x => exact fun h' => h (.inr h')
  | str s => exact fun h' => h (.inr h')
  | arr a s => exact fun h' => h (.inr h')

theorem ringTask_fails (tg : Trig K) (n h w : Nat) (p : RingPy K) (hp : ¬ Passes p) (im : Int)
    (o : Nat → Option (Img K)) (slc : Mproc.Slc) :
    ringTask tg n h w [centreArg w p.centerX, centreArg h p.centerY, .int w, .int h, .int n,
      p.threshMax, p.threshMin, p.thresh, p.thetaMin, p.rwidth, .int im] o slc = o := by
  have key : ∀ len : Nat, ∃ e, ringConvert (K := K) (.arr 0 [len, h, w]) len
      [centreArg w p.centerX, centreArg h p.centerY, .int w, .int h, .int n,
      p.threshMax, p.threshMin, p.thresh, p.thetaMin, p.rwidth, .int im] = .error e := by
    intro len
    unfold ringConvert
    rw [if_neg (by simp)]
    unfold Passes at hp
    simp only [not_and_or] at hp
    rcases hp with hc | hc | hc | hc | hc | hc | hc
    · exact mapM_error _ (.float, centreArg w p.centerX) .type
        (conv_float_error (centreArg_fails w (not_or.2 (by simpa using hc)))) _ (by simp [ringTypes])
    · exact mapM_error _ (.float, centreArg h p.centerY) .type
        (conv_float_error (centreArg_fails h (not_or.2 (by simpa using hc)))) _ (by simp [ringTypes])
    · exact mapM_error _ (.float, p.threshMax) .type (conv_float_error hc) _ (by simp [ringTypes])
    · exact mapM_error _ (.float, p.threshMin) .type (conv_float_error hc) _ (by simp [ringTypes])
    · exact mapM_error _ (.float, p.thresh) .type (conv_float_error hc) _ (by simp [ringTypes])
    · exact mapM_error _ (.int, p.thetaMin) .type (conv_int_error hc) _ (by simp [ringTypes])
    · exact mapM_error _ (.int, p.rwidth) .type (conv_int_error hc) _ (by simp [ringTypes])
  unfold ringTask
  obtain ⟨e, he⟩ := key (slc.indices n).length
  dsimp only
  rw [he]

/-- The checks `remove_ring` makes before it starts its tasks. -/
def Checked (cpu n : Nat) (p : RingPy K) (ncore nchunk : Option Nat) : Prop :=
  (∃ im, modeNum p.intMode = .ok im) ∧ thetaOk p.thetaMin = .ok true ∧
  ∃ nc nk, Mproc.getNcoreNchunk cpu n ncore nchunk = .ok (nc, nk) ∧ nc ≠ 0 ∧ ¬ (nk = 0 ∧ 0 < n)

/-- `remove_ring` returns exactly if its checks succeed.  The centres, the thresholds and `rwidth`
have no part in it, whatever they are. -/
theorem remove_ring_returns_iff (cpu n : Nat) (tg : Trig K) (p : RingPy K)
    (ncore nchunk : Option Nat) (h w : Nat) (rec : Nat → Img K) (out : Option (Nat → Img K)) :
    (∃ r, removeRingPy cpu n tg p ncore nchunk h w rec out = .ok r) ↔
      Checked cpu n p ncore nchunk := by
  unfold removeRingPy Checked
  cases hm : modeNum p.intMode with
  | error e => simp [bind, Except.bind]
  | ok im =>
    cases ht : thetaOk p.thetaMin with
    | error e => simp [bind, Except.bind]
    | ok b =>
      cases b with
      | false => simp [bind, Except.bind]
      | true =>
        cases hg : Mproc.getNcoreNchunk cpu n ncore nchunk with
        | error e => simp [bind, Except.bind]
        | ok q =>
          obtain ⟨nc, nk⟩ := q
          by_cases hz : nc = 0
          · simp [bind, Except.bind, hz]
          · by_cases hk : nk = 0 ∧ 0 < n
            · simp [bind, Except.bind, hz, hk]
            · simp only [bind, Except.bind, pure, Except.pure, hz, hk, if_false]
              simp [hz]
              omega

/-- **C177 is refuted.**  If the checks succeed and some argument cannot be passed, `remove_ring`
returns the working array as it was: the uncorrected slices, or what the caller's `out` held. -/
theorem remove_ring_silent (cpu n : Nat) (tg : Trig K) (p : RingPy K) (ncore nchunk : Option Nat)
    (h w : Nat) (rec : Nat → Img K) (out : Option (Nat → Img K)) (hc : Checked cpu n p ncore nchunk)
    (hp : ¬ Passes p) :
    removeRingPy cpu n tg p ncore nchunk h w rec out = .ok fun s => some (out.getD rec s) := by
  obtain ⟨⟨im, hm⟩, ht, nc, nk, hg, hz, hk⟩ := hc
  have hfold : ∀ (L : List Mproc.Slc) (o : Nat → Option (Img K)),
      L.foldl (ringTask tg n h w [centreArg w p.centerX, centreArg h p.centerY, .int w, .int h,
        .int n, p.threshMax, p.threshMin, p.thresh, p.thetaMin, p.rwidth, .int im]) o = o := by
    intro L
    induction L with
    | nil => intro o; rfl
    | cons x L ih => intro o; rw [List.foldl_cons, ringTask_fails tg n h w p hp, ih]
  unfold removeRingPy
  simp [bind, Except.bind, pure, Except.pure, hm, ht, hg, hz, hk, hfold]

/-- `rwidth=15.5`: whenever the call returns with some `rwidth`, it returns with a float as well and
then filters nothing, whatever the arrays, the other arguments, the cores and the chunks are. -/
theorem remove_ring_float_width (cpu n : Nat) (tg : Trig K) (p : RingPy K)
    (ncore nchunk : Option Nat) (h w : Nat) (rec : Nat → Img K) (out : Option (Nat → Img K)) (x : K)
    (hr : ∃ r, removeRingPy cpu n tg p ncore nchunk h w rec out = .ok r) :
    removeRingPy cpu n tg { p with rwidth := .float x } ncore nchunk h w rec out
      = .ok fun s => some (out.getD rec s) := by
  have hc := (remove_ring_returns_iff cpu n tg p ncore nchunk h w rec out).1 hr
  refine remove_ring_silent cpu n tg _ ncore nchunk h w rec out hc ?_
  rintro ⟨-, -, -, -, -, -, z, hz⟩
  cases hz

/-- `theta_min=30.0` passes the test of its range and then stops every task. -/
theorem remove_ring_float_angle (cpu n : Nat) (tg : Trig K) (p : RingPy K)
    (ncore nchunk : Option Nat) (h w : Nat) (rec : Nat → Img K) (out : Option (Nat → Img K)) (x : K)
    (h0 : 0 ≤ x) (h1 : x < 180)
    (hr : ∃ r, removeRingPy cpu n tg p ncore nchunk h w rec out = .ok r) :
    removeRingPy cpu n tg { p with thetaMin := .float x } ncore nchunk h w rec out
      = .ok fun s => some (out.getD rec s) := by
  obtain ⟨hm, -, hg⟩ := (remove_ring_returns_iff cpu n tg p ncore nchunk h w rec out).1 hr
  refine remove_ring_silent cpu n tg _ ncore nchunk h w rec out
    ⟨hm, by simp [thetaOk, h0, h1], hg⟩ ?_
  rintro ⟨-, -, -, -, -, ⟨z, hz⟩, -⟩
  cases hz

/-- The default arguments of `remove_ring` on a stack of 3 slices pass all checks. -/
example : Checked (K := ℚ) 4 3 ⟨.none, .none, .float 300, .float 300, .float (-100), .int 30, .int 30,
    .str "WRAP"⟩ none none :=
  ⟨⟨0, by decide +kernel⟩, by decide +kernel, 3, 1, by decide +kernel, by decide, by decide⟩

/-- They can be passed; a width of 15.5 cannot. -/
example : Passes (K := ℚ) ⟨.none, .none, .float 300, .float 300, .float (-100), .int 30, .int 30,
    .str "WRAP"⟩ ∧
    ¬ Passes (K := ℚ) ⟨.none, .none, .float 300, .float 300, .float (-100), .int 30, .float (31 / 2),
    .str "WRAP"⟩ :=
  ⟨⟨.inl rfl, .inl rfl, ⟨_, .float _⟩, ⟨_, .float _⟩, ⟨_, .float _⟩, ⟨_, rfl⟩, ⟨_, rfl⟩⟩,
    fun h => by obtain ⟨-, -, -, -, -, -, z, hz⟩ := h; cases hz⟩

end

end Tomopy.Ring
