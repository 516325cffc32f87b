import Verif.Accel.OptModel
import Mathlib.Algebra.Order.Group.Nat
import Mathlib.Tactic.Linarith
import Mathlib.Data.List.Basic

/-! Properties of the options of the rotation-based reconstructions (C84). -/

namespace Tomopy.Accel

/-! ### Devices -/

/-- There is a graphics card to use (specification). -/
def HasGpu (B : Build) : Prop := B.cuda = true ∧ 0 < B.devices

instance (B : Build) : Decidable (HasGpu B) := inferInstanceAs (Decidable (_ ∧ _))

theorem options_cases (B : Build) :
    (B.opencv = true ∧ HasGpu B ∧ options B = [cpuDev, gpuDev] ∧ defaultKey B = "gpu".toList) ∨
    (B.opencv = true ∧ ¬ HasGpu B ∧ options B = [cpuDev] ∧ defaultKey B = "cpu".toList) ∨
    (B.opencv = false ∧ HasGpu B ∧ options B = [gpuDev] ∧ defaultKey B = "gpu".toList) ∨
    (B.opencv = false ∧ ¬ HasGpu B ∧ options B = [] ∧ defaultKey B = "cpu".toList) := by
  obtain ⟨o, c, d⟩ := B
  cases o <;> cases c <;> cases d <;>
    simp [options, defaultKey, HasGpu]

theorem find_default (B : Build) (h : options B ≠ []) :
    (options B).find? (·.matches (defaultKey B)) =
      some (if defaultKey B = "gpu".toList then gpuDev else cpuDev) ∧
    (if defaultKey B = "gpu".toList then gpuDev else cpuDev).key = defaultKey B := by
  rcases options_cases B with h1 | h1 | h1 | h1
  · rw [h1.2.2.1, h1.2.2.2]; decide
  · rw [h1.2.2.1, h1.2.2.2]; decide
  · rw [h1.2.2.1, h1.2.2.2]; decide
  · exact absurd h1.2.2.1 h

/-- The exception is raised exactly if neither kind of device is there; otherwise a device from the
list of options is returned, and the list is that of what was compiled and found. -/
theorem device_available (B : Build) (pref : List Char) :
    (getDevice B pref = .error .runtime ↔ B.opencv = false ∧ ¬ HasGpu B) ∧
    ((B.opencv = true ∨ HasGpu B) → ∃ d, getDevice B pref = .ok (some d) ∧
      ((d = cpuDev ∧ B.opencv = true) ∨ (d = gpuDev ∧ HasGpu B))) := by
  have hmem : ∀ d, d ∈ options B →
      (d = cpuDev ∧ B.opencv = true) ∨ (d = gpuDev ∧ HasGpu B) := by
    intro d hd
    rcases options_cases B with h1 | h1 | h1 | h1 <;> rw [h1.2.2.1] at hd <;> simp at hd
    · rcases hd with rfl | rfl
      · exact Or.inl ⟨rfl, h1.1⟩
      · exact Or.inr ⟨rfl, h1.2.1⟩
    · subst hd; exact Or.inl ⟨rfl, h1.1⟩
    · subst hd; exact Or.inr ⟨rfl, h1.2.1⟩
  have hempty : options B = [] ↔ B.opencv = false ∧ ¬ HasGpu B := by
    rcases options_cases B with h1 | h1 | h1 | h1 <;> rw [h1.2.2.1] <;> simp [h1.1, h1.2.1]
  have hok : options B ≠ [] → ∃ d ∈ options B, getDevice B pref = .ok (some d) := by
    intro he
    obtain ⟨hf, hk⟩ := find_default B he
    unfold getDevice
    rw [if_neg he, hf]
    dsimp only
    cases hp : (options B).find? (·.matches pref) with
    | some d => exact ⟨d, List.mem_of_find?_eq_some hp, rfl⟩
    | none =>
      rw [hk, hf]
      exact ⟨_, List.mem_of_find?_eq_some hf, rfl⟩
  refine ⟨⟨?_, ?_⟩, ?_⟩
  · intro h
    by_contra hn
    obtain ⟨d, -, hd⟩ := hok (fun he => hn (hempty.1 he))
    rw [hd] at h
    cases h
  · intro h
    unfold getDevice
    rw [if_pos (hempty.2 h)]
  · intro h
    obtain ⟨d, hd, hd'⟩ := hok (fun he => by
      obtain ⟨h1, h2⟩ := hempty.1 he
      rcases h with h | h
      · rw [h1] at h; cases h
      · exact h2 h)
    exact ⟨d, hd', hmem d hd⟩

theorem getDevice_find (B : Build) (pref : List Char) (d : Device)
    (h : (options B).find? (·.matches pref) = some d) : getDevice B pref = .ok (some d) := by
  have he : options B ≠ [] := by
    intro he
    rw [he] at h
    cases h
  unfold getDevice
  rw [if_neg he, (find_default B he).1]
  dsimp only
  rw [h]

theorem getDevice_none (B : Build) (pref : List Char)
    (he : options B ≠ []) (h : (options B).find? (·.matches pref) = none) :
    getDevice B pref = .ok (some (if HasGpu B then gpuDev else cpuDev)) := by
  unfold getDevice
  rw [if_neg he, (find_default B he).1]
  dsimp only
  rw [h]
  dsimp only
  rw [(find_default B he).2, (find_default B he).1]
  rcases options_cases B with h1 | h1 | h1 | h1
  · rw [h1.2.2.2, if_pos rfl, if_pos h1.2.1]
  · rw [h1.2.2.2, if_neg (by decide), if_neg h1.2.1]
  · rw [h1.2.2.2, if_pos rfl, if_pos h1.2.1]
  · exact absurd h1.2.2.1 he

theorem not_numeric_of_lower {s : List Char} (h : lower s = "cpu".toList ∨ lower s = "gpu".toList) :
    isNumeric s = false := by
  have hd : ∀ ch : Char, ch.isDigit = true → ch.toLower.isDigit = true := by
    intro ch h
    have : ch.toLower = ch := by
      unfold Char.toLower
      rw [dif_neg]
      simp only [Char.isDigit, ge_iff_le, Bool.and_eq_true, decide_eq_true_eq] at h
      intro h'
      have h2 := h.2
      have h3 := h'.1
      exact absurd (UInt32.le_trans h3 h2) (by decide)
    rw [this]
    exact h
  have hno : s.filter Char.isDigit = [] := by
    rw [List.filter_eq_nil_iff]
    intro ch hch hdig
    have h1 : ch.toLower ∈ lower s := List.mem_map_of_mem hch
    have h2 := hd ch hdig
    rcases h with h | h <;> rw [h] at h1 <;> simp at h1 <;> rcases h1 with h1 | h1 | h1 <;>
      rw [h1] at h2 <;> exact absurd h2 (by decide)
  simp [isNumeric, hno]

/-- The name of a device in any case selects it, if it is there. -/
theorem device_named (B : Build) (pref : List Char) :
    (lower pref = "cpu".toList → B.opencv = true → getDevice B pref = .ok (some cpuDev)) ∧
    (lower pref = "gpu".toList → HasGpu B → getDevice B pref = .ok (some gpuDev)) := by
  refine ⟨?_, ?_⟩
  · intro h ho
    have hn := not_numeric_of_lower (Or.inl h)
    apply getDevice_find
    rcases options_cases B with h1 | h1 | h1 | h1 <;> rw [h1.2.2.1] <;>
      simp_all [Device.matches, cpuDev]
  · intro h hg
    have hn := not_numeric_of_lower (Or.inr h)
    apply getDevice_find
    rcases options_cases B with h1 | h1 | h1 | h1 <;> rw [h1.2.2.1] <;>
      simp_all [Device.matches, cpuDev, gpuDev]

/-- Text without digits that names no device selects the graphics card if there is one, and the
processor otherwise; so does the name of a device that is not there. -/
theorem device_default (B : Build) (pref : List Char) (hd : ∀ ch ∈ pref, ch.isDigit = false)
    (h1 : B.opencv = true → lower pref ≠ "cpu".toList)
    (h2 : HasGpu B → lower pref ≠ "gpu".toList) (h : B.opencv = true ∨ HasGpu B) :
    getDevice B pref = .ok (some (if HasGpu B then gpuDev else cpuDev)) := by
  have hn : isNumeric pref = false := by
    have : pref.filter Char.isDigit = [] := by
      rw [List.filter_eq_nil_iff]
      intro ch hch
      rw [hd ch hch]
      decide
    simp [isNumeric, this]
  have hm : ∀ d ∈ options B, Device.matches d pref = false := by
    intro d hdm
    unfold Device.matches
    rw [hn]
    rcases options_cases B with hb | hb | hb | hb <;> rw [hb.2.2.1] at hdm <;> simp at hdm
    · rcases hdm with rfl | rfl
      · simp only [Bool.false_eq_true, if_false, decide_eq_false_iff_not]
        exact fun hh => h1 hb.1 hh.symm
      · simp only [Bool.false_eq_true, if_false, decide_eq_false_iff_not]
        exact fun hh => h2 hb.2.1 hh.symm
    · subst hdm
      have h3 := h1 hb.1
      simp only [Bool.false_eq_true, if_false, decide_eq_false_iff_not]
      exact fun hh => h3 hh.symm
    · subst hdm
      have h3 := h2 hb.2.1
      simp only [Bool.false_eq_true, if_false, decide_eq_false_iff_not]
      exact fun hh => h3 hh.symm
  apply getDevice_none
  · intro he
    rcases options_cases B with hb | hb | hb | hb
    · rw [hb.2.2.1] at he; cases he
    · rw [hb.2.2.1] at he; cases he
    · rw [hb.2.2.1] at he; cases he
    · rcases h with h | h
      · rw [hb.1] at h; cases h
      · exact hb.2.1 h
  · rw [List.find?_eq_none]
    intro d hdm
    rw [hm d hdm]
    decide

/-- The indices shown in the table select the devices. -/
theorem device_index (B : Build) :
    (B.opencv = true → getDevice B ['0'] = .ok (some cpuDev)) ∧
    (HasGpu B → getDevice B ['1'] = .ok (some gpuDev)) := by
  refine ⟨?_, ?_⟩
  · intro h
    apply getDevice_find
    rcases options_cases B with hb | hb | hb | hb <;> rw [hb.2.2.1]
    · decide
    · decide
    · rw [hb.1] at h; cases h
    · rw [hb.1] at h; cases h
  · intro h
    apply getDevice_find
    rcases options_cases B with hb | hb | hb | hb <;> rw [hb.2.2.1]
    · decide
    · exact absurd h hb.2.1
    · decide
    · exact absurd h hb.2.1

/-- Refuted for text with digits: "gpu10" is neither a name nor an index, and selects the processor
although there is a graphics card. -/
theorem device_misread (d : Nat) (hd : 0 < d) :
    getDevice ⟨true, true, d⟩ "gpu10".toList = .ok (some cpuDev) := by
  apply getDevice_find
  have : options ⟨true, true, d⟩ = [cpuDev, gpuDev] := by simp [options, hd]
  rw [this]
  decide

/-- Whatever device is chosen, its code was compiled: a call never returns without running. -/
theorem dispatch_runs (B : Build) (pref : List Char) (d : Device)
    (h : getDevice B pref = .ok (some d)) : dispatch B d = some d := by
  by_cases ha : B.opencv = true ∨ HasGpu B
  · obtain ⟨d', hd', hc⟩ := (device_available B pref).2 ha
    rw [h] at hd'
    cases hd'
    rcases hc with ⟨rfl, hc⟩ | ⟨rfl, hc⟩
    · unfold dispatch
      rw [if_neg (by decide), if_pos hc]
    · unfold dispatch
      rw [if_pos (by decide), if_pos hc.1]
  · push Not at ha
    have := (device_available B pref).1.2 ⟨by simpa using ha.1, ha.2⟩
    rw [this] at h
    cases h

example : getDevice ⟨true, true, 2⟩ "GPU".toList = .ok (some gpuDev) ∧
    getDevice ⟨true, false, 0⟩ "gpu".toList = .ok (some cpuDev) ∧
    getDevice ⟨true, true, 1⟩ "auto".toList = .ok (some gpuDev) ∧
    getDevice ⟨false, true, 0⟩ "gpu".toList = .error .runtime := by decide

/-! ### Interpolation -/

/-- The three names, in any case, select the three modes, for OpenCV and for NPP. -/
theorem interp_named (s : List Char) :
    (upper s = "NN".toList → getChoice opencvChoices s = some 0 ∧ getChoice nppChoices s = some 1) ∧
    (upper s = "LINEAR".toList →
      getChoice opencvChoices s = some 1 ∧ getChoice nppChoices s = some 2) ∧
    (upper s = "CUBIC".toList →
      getChoice opencvChoices s = some 2 ∧ getChoice nppChoices s = some 4) := by
  refine ⟨?_, ?_, ?_⟩ <;> intro h <;> unfold getChoice <;> rw [h] <;> exact ⟨rfl, rfl⟩

/-- A result is always one of the three modes. -/
theorem interp_valid (s : List Char) (v : Int) :
    (getChoice opencvChoices s = some v → v = 0 ∨ v = 1 ∨ v = 2) ∧
    (getChoice nppChoices s = some v → v = 1 ∨ v = 2 ∨ v = 4) := by
  have key : ∀ (l : List (Int × List Char)), getChoice l s = some v → ∃ ch ∈ l, ch.1 = v := by
    intro l h
    unfold getChoice at h
    split at h
    · rename_i ch hch
      cases h
      exact ⟨ch, List.mem_of_find?_eq_some hch, rfl⟩
    · split at h
      · rename_i ch hch
        cases h
        refine ⟨ch, List.mem_of_find?_eq_some hch, ?_⟩
        have := List.find?_some hch
        exact (by simpa using this : readInt s = ch.1).symm
      · cases h
  refine ⟨?_, ?_⟩
  · intro h
    obtain ⟨ch, hm, hv⟩ := key _ h
    simp [opencvChoices] at hm
    rcases hm with rfl | rfl | rfl <;> simp_all
  · intro h
    obtain ⟨ch, hm, hv⟩ := key _ h
    simp [nppChoices] at hm
    rcases hm with rfl | rfl | rfl <;> simp_all

theorem readInt_word (ch : Char) (cs : List Char) (h1 : ch.isWhitespace = false)
    (h2 : ch.isDigit = false) (h3 : ch ≠ '-') (h4 : ch ≠ '+') : readInt (ch :: cs) = 0 := by
  unfold readInt
  rw [List.dropWhile_cons_of_neg (by rw [h1]; decide)]
  dsimp only
  split
  · rename_i heq; cases heq; exact absurd rfl h3
  · rename_i heq; cases heq; exact absurd rfl h4
  · rename_i heq
    simp [digitsVal, h2]

/-- Refuted: text that is no mode stops the program with a message.  Words that do not begin with a
blank, a sign or a digit are read as 0: with OpenCV this silently means nearest neighbours, with NPP
the program aborts. -/
theorem interp_unknown (ch : Char) (cs : List Char) (h1 : ch.isWhitespace = false)
    (h2 : ch.isDigit = false) (h3 : ch ≠ '-') (h4 : ch ≠ '+')
    (hn : upper (ch :: cs) ≠ "NN".toList ∧ upper (ch :: cs) ≠ "LINEAR".toList ∧
      upper (ch :: cs) ≠ "CUBIC".toList) :
    getChoice opencvChoices (ch :: cs) = some 0 ∧ getChoice nppChoices (ch :: cs) = none := by
  have hr := readInt_word ch cs h1 h2 h3 h4
  obtain ⟨ha, hb, hc⟩ := hn
  have e1 : upper "NN".toList = "NN".toList := by decide
  have e2 : upper "LINEAR".toList = "LINEAR".toList := by decide
  have e3 : upper "CUBIC".toList = "CUBIC".toList := by decide
  have hf : ∀ a b c : Int, ([(a, "NN".toList), (b, "LINEAR".toList), (c, "CUBIC".toList)] :
      List (Int × List Char)).find? (fun x => upper x.2 == upper (ch :: cs)) = none := by
    intro a b c
    rw [List.find?_eq_none]
    intro x hx
    simp only [List.mem_cons, List.not_mem_nil, or_false] at hx
    rw [beq_iff_eq]
    rcases hx with rfl | rfl | rfl <;> dsimp only
    · rw [e1]; exact fun h => ha h.symm
    · rw [e2]; exact fun h => hb h.symm
    · rw [e3]; exact fun h => hc h.symm
  refine ⟨?_, ?_⟩
  · unfold getChoice opencvChoices
    rw [hf]
    simp only [hr]
    rfl
  · unfold getChoice nppChoices
    rw [hf]
    simp only [hr]
    rfl

example : getChoice opencvChoices "lanczos".toList = some 0 ∧
    getChoice nppChoices "lanczos".toList = none ∧
    getChoice opencvChoices "7".toList = none ∧ getChoice nppChoices " 4".toList = some 4 := by
  decide

/-! ### Threads -/

/-- The pool has at least one thread; a size between 1 and `2^32 - 1` is taken as it is. -/
theorem pool_size (arg : Int) (hw : Nat) (py env : Option Nat) :
    1 ≤ poolSize arg hw py env ∧
    (0 < arg → arg < 4294967296 → poolSize arg hw py env = arg.toNat) := by
  unfold poolSize
  refine ⟨le_max_right _ _, ?_⟩
  intro h1 h2
  rw [Int.emod_eq_of_lt (by omega) h2]
  have : ¬ arg.toNat ≤ 0 := by omega
  dsimp only
  rw [if_neg this]
  exact max_eq_left (by omega)

/-- With size 0 and no TOMOPY_NUM_THREADS, the pools of all Python threads together have no more
threads than the hardware, or one thread each. -/
theorem pool_no_oversubscription (hw py : Nat) :
    py * poolSize 0 hw (some py) none ≤ max hw py := by
  have h : poolSize 0 hw (some py) none = max (hw / max py 1) 1 := by
    simp [poolSize]
  rw [h]
  rcases le_total (hw / max py 1) 1 with h1 | h1
  · rw [max_eq_right h1]
    omega
  · rw [max_eq_left h1]
    refine le_trans ?_ (le_max_left _ _)
    calc py * (hw / max py 1) ≤ max py 1 * (hw / max py 1) :=
          Nat.mul_le_mul_right _ (le_max_left _ _)
      _ ≤ hw := Nat.mul_div_le ..

/-- Refuted for negative sizes, which are not replaced: the comparison with zero is unsigned. -/
theorem pool_negative (hw : Nat) (py env : Option Nat) :
    poolSize (-1) hw py env = 4294967295 := by
  simp [poolSize]

/-- After any sequence of calls, the counter of running calls is the number of calls that threw. -/
theorem active_leak (calls : List Bool) :
    calls.foldl activeAfter 0 = (calls.count true : Int) := by
  have key : ∀ (calls : List Bool) (a : Int),
      calls.foldl activeAfter a = a + (calls.count true : Int) := by
    intro calls
    induction calls with
    | nil => intro a; simp
    | cons b l ih =>
      intro a
      rw [List.foldl_cons, ih]
      cases b <;> (simp [activeAfter]; try omega)
  rw [key]
  simp

example : [true, false, true].foldl activeAfter 0 = 2 := by decide

/-! ### recon_accelerated -/

/-- Which function is called, or which exception is raised. -/
theorem accelerated_resolve (installed : Bool) (i : Impl) :
    resolve installed i = match i with
      | .fn f => .ok (some f)
      | .none => if installed then .ok none else .error .value
      | .str s => if s = "tomoperi" ∧ installed = true then .ok none else .error .value
      | .other => .error .value := by
  cases i with
  | none => rfl
  | fn f => rfl
  | other => rfl
  | str s =>
    unfold resolve knownImpl
    by_cases h : s = "tomoperi"
    · subst h
      cases installed <;> rfl
    · simp [h]

/-- The search for an implementation always succeeds, also when none is installed. -/
theorem search_never_fails : searchImpl = .ok "tomoperi" := rfl

end Tomopy.Accel
