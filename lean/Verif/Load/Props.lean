import Verif.Load.Model

/-! C200: what `import tomopy` needs, what is missing without the optional library, and which FFT is used. -/

set_option linter.unusedSectionVars false

namespace Tomopy.Load

/-- Specification: the library is found and loads. -/
def Usable (w : World) (l : Lib) : Prop := w.find l = true ∧ w.load l = true

instance (w : World) (l : Lib) : Decidable (Usable w l) := inferInstanceAs (Decidable (_ ∧ _))

/-- Specification: the libraries without which tomopy cannot be imported. -/
def Complete (w : World) : Prop := ∀ l, l ≠ .accel → Usable w l

theorem cSharedLib_usable (w : World) (l : Lib) (e : Bool) (h : Usable w l) : cSharedLib w l e = .ok (some l, []) := by
  unfold cSharedLib
  simp [h.1, h.2]

theorem cSharedLib_required (w : World) (l : Lib) (h : ¬ Usable w l) : cSharedLib w l true = .error (.missing l) := by
  unfold cSharedLib Usable at *
  by_cases h1 : w.find l = true
  · have h2 : w.load l = false := by simpa [h1] using h
    simp [h1, h2]
  · simp [h1]

theorem cSharedLib_optional (w : World) (l : Lib) (h : ¬ Usable w l) : cSharedLib w l false = .ok (none, [l]) := by
  unfold cSharedLib Usable at *
  by_cases h1 : w.find l = true
  · have h2 : w.load l = false := by simpa [h1] using h
    simp [h1, h2]
  · simp [h1]

/-- Specification: the handles of a complete installation. -/
def expected (w : World) (l : Lib) : Option Lib := if l = .accel ∧ ¬ Usable w .accel then none else some l

theorem importExtern_complete (w : World) (h : Complete w) : ∃ s, importExtern w = .ok s ∧
    (∀ l, s.handle l = expected w l) ∧ s.warned = if Usable w .accel then [] else [.accel] := by
  unfold importExtern
  rw [cSharedLib_usable w .recon true (h _ (by decide)), cSharedLib_usable w .gridrec true (h _ (by decide)),
    cSharedLib_usable w .prep true (h _ (by decide)), cSharedLib_usable w .misc true (h _ (by decide))]
  by_cases ha : Usable w .accel
  · rw [cSharedLib_usable w .accel false ha]
    refine ⟨_, rfl, fun l => ?_, by simp [ha]⟩
    cases l <;> simp [expected, ha]
  · rw [cSharedLib_optional w .accel ha]
    refine ⟨_, rfl, fun l => ?_, by simp [ha]⟩
    cases l <;> simp [expected, ha]

/-- Specification: the order in which the required libraries are looked for. -/
def required : List Lib := [.recon, .gridrec, .prep, .misc]

/-- The first missing one of the required libraries is named. -/
theorem importExtern_missing (w : World) (l : Lib) (pre post : List Lib) (hl : required = pre ++ l :: post)
    (hpre : ∀ k ∈ pre, Usable w k) (hm : ¬ Usable w l) : importExtern w = .error (.missing l) := by
  have ha : ∃ a wa, cSharedLib w .accel false = .ok (a, wa) := by
    by_cases ha : Usable w .accel
    · exact ⟨_, _, cSharedLib_usable w .accel false ha⟩
    · exact ⟨_, _, cSharedLib_optional w .accel ha⟩
  obtain ⟨a, wa, ha⟩ := ha
  unfold importExtern
  rw [ha]
  unfold required at hl
  rcases pre with _ | ⟨p1, _ | ⟨p2, _ | ⟨p3, _ | ⟨p4, pre⟩⟩⟩⟩
  · simp only [List.nil_append, List.cons.injEq] at hl
    obtain ⟨rfl, _⟩ := hl
    rw [cSharedLib_required w .recon hm]
  · simp only [List.cons_append, List.nil_append, List.cons.injEq] at hl
    obtain ⟨rfl, rfl, _⟩ := hl
    rw [cSharedLib_usable w .recon true (hpre _ (by simp)), cSharedLib_required w .gridrec hm]
  · simp only [List.cons_append, List.nil_append, List.cons.injEq] at hl
    obtain ⟨rfl, rfl, rfl, _⟩ := hl
    rw [cSharedLib_usable w .recon true (hpre _ (by simp)), cSharedLib_usable w .gridrec true (hpre _ (by simp)),
      cSharedLib_required w .prep hm]
  · simp only [List.cons_append, List.nil_append, List.cons.injEq] at hl
    obtain ⟨rfl, rfl, rfl, rfl, _⟩ := hl
    rw [cSharedLib_usable w .recon true (hpre _ (by simp)), cSharedLib_usable w .gridrec true (hpre _ (by simp)),
      cSharedLib_usable w .prep true (hpre _ (by simp)), cSharedLib_required w .misc hm]
  · exfalso
    have := congrArg List.length hl
    simp at this

theorem importExtern_incomplete (w : World) (h : ¬ Complete w) : ∃ l ∈ required, importExtern w = .error (.missing l) := by
  by_cases h1 : Usable w .recon
  · by_cases h2 : Usable w .gridrec
    · by_cases h3 : Usable w .prep
      · by_cases h4 : Usable w .misc
        · refine absurd (fun l hl => ?_) h
          cases l
          · exact absurd rfl hl
          · exact h1
          · exact h2
          · exact h3
          · exact h4
        · exact ⟨.misc, by decide, importExtern_missing w .misc [.recon, .gridrec, .prep] [] rfl
            (by simp [h1, h2, h3]) h4⟩
      · exact ⟨.prep, by decide, importExtern_missing w .prep [.recon, .gridrec] [.misc] rfl (by simp [h1, h2]) h3⟩
    · exact ⟨.gridrec, by decide, importExtern_missing w .gridrec [.recon] [.prep, .misc] rfl (by simp [h1]) h2⟩
  · exact ⟨.recon, by decide, importExtern_missing w .recon [] [.gridrec, .prep, .misc] rfl (by simp) h1⟩

theorem fftLoader_value (w : World) : fftLoader w = match w.env with
    | some s => .ok s
    | none => match w.mkl with
      | .fine => .ok "mkl_fft"
      | .importError => .ok "numpy.fft"
      | .otherError => .error .otherError := by
  unfold fftLoader
  cases w.env with
  | some s => rfl
  | none => simp only [tryFft, importFft]; cases w.mkl <;> rfl

/-- Specification: mkl_fft is asked for and not there, or found by itself and broken. -/
def FftBroken (w : World) : Prop :=
  (w.env = some "mkl_fft" ∧ w.mkl ≠ .fine) ∨ (w.env = none ∧ w.mkl = .otherError)

/-- Specification: the transforms are those of mkl_fft. -/
def UsesMkl (w : World) : Prop := w.env = some "mkl_fft" ∨ (w.env = none ∧ w.mkl = .fine)

/-- **C200** The whole import: what it needs, what it warns about and what it sets up. -/
theorem import_result (w : World) (hc : Complete w) (hf : ¬ FftBroken w) :
    ∃ s, importTomopy w = .ok s ∧ (∀ l, s.libs.handle l = expected w l) ∧
      (s.libs.warned = if Usable w .accel then [] else [.accel]) ∧ (s.fft = .mkl ↔ UsesMkl w) := by
  obtain ⟨h, e1, e2, e3⟩ := importExtern_complete w hc
  unfold importTomopy
  rw [fftLoader_value, e1]
  unfold FftBroken at hf
  unfold UsesMkl importMisc
  cases he : w.env with
  | none =>
    cases hm : w.mkl with
    | fine => exact ⟨⟨.mkl, h⟩, by simp, e2, e3, by simp⟩
    | importError => exact ⟨⟨.numpy, h⟩, by simp, e2, e3, by simp⟩
    | otherError => exact absurd (Or.inr ⟨he, hm⟩) hf
  | some v =>
    by_cases hv : v = "mkl_fft"
    · subst hv
      cases hm : w.mkl with
      | fine => exact ⟨⟨.mkl, h⟩, by simp, e2, e3, by simp⟩
      | importError => exact absurd (Or.inl ⟨he, by rw [hm]; decide⟩) hf
      | otherError => exact absurd (Or.inl ⟨he, by rw [hm]; decide⟩) hf
    · exact ⟨⟨.numpy, h⟩, by simp [hv], e2, e3, by simp [hv]⟩

/-- **C200** `import tomopy` works exactly if the four required libraries load and mkl_fft is not broken. -/
theorem import_ok_iff (w : World) : (∃ s, importTomopy w = .ok s) ↔ Complete w ∧ ¬ FftBroken w := by
  constructor
  · rintro ⟨s, hs⟩
    unfold importTomopy at hs
    rw [fftLoader_value] at hs
    by_cases hc : Complete w
    · refine ⟨hc, ?_⟩
      obtain ⟨h, e1, _⟩ := importExtern_complete w hc
      rintro (⟨h1, h2⟩ | ⟨h1, h2⟩)
      · rw [h1, e1] at hs
        simp only [importMisc, if_true] at hs
        cases hm : w.mkl with
        | fine => exact h2 hm
        | importError => rw [hm] at hs; cases hs
        | otherError => rw [hm] at hs; cases hs
      · rw [h1, h2] at hs
        cases hs
    · exfalso
      obtain ⟨l, _, hl⟩ := importExtern_incomplete w hc
      rw [hl] at hs
      revert hs
      cases w.env with
      | some v => intro hs; cases hs
      | none => cases w.mkl <;> intro hs <;> cases hs
  · rintro ⟨hc, hf⟩
    obtain ⟨s, hs, _⟩ := import_result w hc hf
    exact ⟨s, hs⟩

/-- **C200** A missing library is named, whether or not the optional one is there. -/
theorem import_names_missing (w : World) (hf : ¬ (w.env = none ∧ w.mkl = .otherError)) (l : Lib) (pre post : List Lib)
    (hl : required = pre ++ l :: post) (hpre : ∀ k ∈ pre, Usable w k) (hm : ¬ Usable w l) :
    importTomopy w = .error (.missing l) := by
  unfold importTomopy
  rw [fftLoader_value, importExtern_missing w l pre post hl hpre hm]
  cases he : w.env with
  | some v => rfl
  | none =>
    cases hk : w.mkl with
    | fine => rfl
    | importError => rfl
    | otherError => exact absurd ⟨he, hk⟩ hf

/-- Specification: the call needs the optional library. -/
def NeedsAccel (name : String) (accelerated : Bool) : Prop :=
  name = "c_accel_mlem" ∨ name = "c_accel_sirt" ∨ (accelerated = true ∧ (name = "c_mlem" ∨ name = "c_sirt"))

theorem lookup_of_mem : ∀ p ∈ externs, externs.lookup p.1 = some p.2 := by decide

theorem accel_names : ∀ p ∈ externs, p.2 = .accel → p.1 = "c_accel_mlem" ∨ p.1 = "c_accel_sirt" := by decide

theorem accel_lib : externs.lookup "c_accel_mlem" = some .accel ∧ externs.lookup "c_accel_sirt" = some .accel ∧
    (externs.lookup "c_mlem").isSome ∧ (externs.lookup "c_sirt").isSome := by decide

/-- **C200** After the import every function that does not need the optional library reaches its own library,
accelerated or not, whatever happened to the optional one. -/
theorem call_ok (w : World) (s : Session) (hs : importTomopy w = .ok s) (name : String) (l : Lib)
    (hn : (name, l) ∈ externs) (accelerated : Bool) (ha : ¬ NeedsAccel name accelerated) :
    call s name accelerated = .ok l := by
  obtain ⟨hc, hf⟩ := (import_ok_iff w).1 ⟨s, hs⟩
  obtain ⟨s', hs', hh, _⟩ := import_result w hc hf
  rw [hs] at hs'
  cases hs'
  unfold call
  have h1 : l ≠ .accel := by
    intro h
    rcases accel_names _ hn h with h | h
    · exact ha (Or.inl h)
    · exact ha (Or.inr (Or.inl h))
  have h2 : ¬ (accelerated = true ∧ (name = "c_mlem" ∨ name = "c_sirt")) := fun h => ha (Or.inr (Or.inr h))
  rw [lookup_of_mem _ hn]
  simp only [if_neg h2, hh, expected, h1, false_and, if_false]

/-- Specification: the functions of the package that call a compiled function and the library they have it from
(source/tomopy/prep/stripe.py:355, 1053, 1171, prep/normalize.py:236, sim/project.py:319, 387, 455, misc/morph.py:243,
misc/corr.py:403-407, 464-468, 848, 1107-1143, recon/vector.py:82, 105, 132). -/
def calls : List (String × String × Lib) :=
  [("remove_stripe_sf", "c_remove_stripe_sf", .prep), ("stripes_detect3d", "c_stripes_detect3d", .prep),
   ("stripes_mask3d", "c_stripesmask3d", .prep), ("normalize_bg", "c_normalize_bg", .prep),
   ("project", "c_project", .recon), ("project2", "c_project2", .recon), ("project3", "c_project3", .recon),
   ("downsample", "c_sample", .misc), ("upsample", "c_sample", .misc),
   ("median_filter3d", "c_median_filt3d_float32", .misc), ("median_filter3d", "c_median_filt3d_uint16", .misc),
   ("remove_outlier3d", "c_median_filt3d_float32", .misc), ("remove_outlier3d", "c_median_filt3d_uint16", .misc),
   ("remove_ring", "c_remove_ring", .misc), ("inpainter_morph", "c_inpainter", .misc),
   ("vector", "c_vector", .recon), ("vector2", "c_vector2", .recon), ("vector3", "c_vector3", .recon)]

theorem calls_exported : ∀ p ∈ calls, (p.2.1, p.2.2) ∈ externs ∧ p.2.1 ≠ "c_mlem" ∧ p.2.1 ≠ "c_sirt" ∧
    p.2.1 ≠ "c_accel_mlem" ∧ p.2.1 ≠ "c_accel_sirt" := by decide

/-- **C200** After the import the functions of the package that call compiled code find it. -/
theorem api_calls_ok (w : World) (s : Session) (hs : importTomopy w = .ok s) (api f : String) (l : Lib)
    (h : (api, f, l) ∈ calls) : call s f false = .ok l := by
  obtain ⟨h1, h2, h3, h4, h5⟩ := calls_exported _ h
  refine call_ok w s hs f l h1 false ?_
  rintro (h | h | ⟨h, _⟩)
  · exact h4 h
  · exact h5 h
  · cases h

/-- **C200** Accelerated calls reach the optional library, or raise ModuleNotFoundError naming it. -/
theorem call_accel (w : World) (s : Session) (hs : importTomopy w = .ok s) (name : String) (accelerated : Bool)
    (ha : NeedsAccel name accelerated) :
    call s name accelerated = if Usable w .accel then .ok .accel else .error (.missing .accel) := by
  obtain ⟨hc, hf⟩ := (import_ok_iff w).1 ⟨s, hs⟩
  obtain ⟨s', hs', hh, _⟩ := import_result w hc hf
  rw [hs] at hs'
  cases hs'
  obtain ⟨k1, k2, k3, k4⟩ := accel_lib
  have key : ∃ l, externs.lookup name = some l ∧
      (if accelerated = true ∧ (name = "c_mlem" ∨ name = "c_sirt") then Lib.accel else l) = .accel := by
    rcases ha with rfl | rfl | ⟨h1, h2⟩
    · exact ⟨_, k1, by split <;> rfl⟩
    · exact ⟨_, k2, by split <;> rfl⟩
    · rcases h2 with rfl | rfl
      · obtain ⟨l, hl⟩ := Option.isSome_iff_exists.1 k3
        exact ⟨l, hl, by simp [h1]⟩
      · obtain ⟨l, hl⟩ := Option.isSome_iff_exists.1 k4
        exact ⟨l, hl, by simp [h1]⟩
  obtain ⟨l, e1, e2⟩ := key
  unfold call
  rw [e1]
  simp only [e2, hh, expected, true_and]
  by_cases hu : Usable w .accel
  · simp [hu]
  · simp [hu]

/-- **C200** Every algorithm `recon` accepts by name has a function, and a function given instead of a name is used as
it is. -/
theorem get_func_known {F : Type} (a : String) (h : (Recon.table0 a).isSome) :
    getFunc (F := F) (.inl a) = .ok (.inl ("c_" ++ a)) := by
  have : (externs.lookup ("c_" ++ a)).isSome = true := by
    unfold Recon.table0 at h
    split at h <;> first | decide | (cases h)
  simp only [getFunc, this, if_true]

theorem get_func_own {F : Type} (f : F) : getFunc (.inr f) = .ok (.inr f) := rfl

/-- **C200** Refutation: a value of TOMOPY_FFT_IMPL that names no implementation is accepted and numpy is used, even if
mkl_fft is there and would be used without the variable. -/
theorem fft_unknown_accepted (w : World) (hc : Complete w) (v : String) (hv : v ≠ "mkl_fft") :
    ∃ s, importTomopy { w with env := some v } = .ok s ∧ s.fft = .numpy := by
  have hc' : Complete { w with env := some v } := hc
  have hf : ¬ FftBroken { w with env := some v } := by
    rintro (⟨h, _⟩ | ⟨h, _⟩)
    · exact hv (Option.some.inj h)
    · cases h
  obtain ⟨s, h1, _, _, h4⟩ := import_result _ hc' hf
  refine ⟨s, h1, ?_⟩
  cases hs : s.fft with
  | numpy => rfl
  | mkl =>
    rcases h4.1 hs with h | ⟨h, _⟩
    · exact absurd (Option.some.inj h) hv
    · cases h

/-- **C200** Refutation: without the variable, an mkl_fft that raises anything but ImportError makes the import fail
although numpy would do. -/
theorem fft_no_fallback (w : World) : importTomopy { w with env := none, mkl := .otherError } = .error .otherError := rfl

/-- A complete installation without the optional library. -/
def noAccel : World := ⟨fun _ => true, fun l => decide (l ≠ .accel), none, .importError⟩

example : Complete noAccel ∧ ¬ FftBroken noAccel ∧ ¬ Usable noAccel .accel :=
  ⟨fun l hl => ⟨rfl, by simp [noAccel, hl]⟩, (by rintro (⟨h, _⟩ | ⟨_, h⟩) <;> cases h), by decide⟩

example : ∃ s, importTomopy { noAccel with env := some "mkl-fft" } = .ok s ∧ s.fft = .numpy :=
  fft_unknown_accepted noAccel (fun l hl => ⟨rfl, by simp [noAccel, hl]⟩) _ (by decide)

example : importTomopy { noAccel with find := fun l => decide (l ≠ .prep) } = .error (.missing .prep) :=
  import_names_missing _ (fun h => by cases h.2) .prep [.recon, .gridrec] [.misc] rfl (by decide) (by decide)

example : NeedsAccel "c_mlem" true ∧ ¬ NeedsAccel "c_mlem" false ∧ ("c_mlem", Lib.recon) ∈ externs :=
  ⟨Or.inr (Or.inr ⟨rfl, Or.inl rfl⟩), by rintro (h | h | ⟨h, _⟩) <;> revert h <;> decide, by decide⟩

end Tomopy.Load
