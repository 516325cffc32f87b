import Verif.Gpu.Props
import Mathlib.Data.Rat.Floor

/-! C194: the call `lprec` of source/tomopy/recon/wrappers.py. -/
set_option linter.unusedSectionVars false

namespace Tomopy.Gpu

variable {T R : Type}

/-! ### Model -/

/-- The options of `lprec` after the defaults have been filled in (wrappers.py:382-393). -/
structure LpOpts where
  lpmethod : String
  filterName : String
  interpType : String
  numIter : Nat
  regPar : ℚ
  gpuList : List Nat

/-- wrappers.py:74-81: the defaults. -/
def lpDefaults : LpOpts := ⟨"fbp", "None", "cubic", 1, 1, [0]⟩

/-- wrappers.py:395-404: the names of the methods. -/
def lpMethods : List String := ["fbp", "grad", "cg", "tv", "em", "tve", "tvl1"]

/-- What is passed to the constructor `lpTransform` (wrappers.py:413-415). -/
structure LpSetup where
  N : Nat
  Nproj : Nat
  simultaneous : Nat
  filterName : String
  center : Int
  interpType : String

/-- A method of the package lprec (wrappers.py:458): setup, method, iterations, regularisation, GPU,
the slices of `recon` and of `tomo`; the new slices of `recon`. -/
abbrev LpLib (T R : Type) := LpSetup → String → Nat → ℚ → Nat → List R → List T → List R

/-- `int` of a number (wrappers.py:415). -/
def pyInt (q : ℚ) : Int := if 0 ≤ q then ⌊q⌋ else ⌈q⌉

/-- `a[b:e]` for a range inside (wrappers.py:458 `recon[ids]`, `tomo[ids]`). -/
def part {α : Type} (a : List α) (c : Nat × Nat) : List α := (a.drop c.1).take (c.2 - c.1)

/-- wrappers.py:436-438: the results of the chunks written one after the other; `gpuOf` is the GPU
that took a chunk.  Every chunk starts from the slices of `recon` that no other chunk writes, so these
are taken from the array before the loop. -/
def writeAll (solve : Nat → List R → List T → List R) (gpuOf : Nat × Nat → Nat) (recon0 : List R)
    (tomo : List T) : List (Nat × Nat) → Nat → List R → List R
  | [], _, r => r
  | c :: cs, shift, r =>
    let o := solve (gpuOf c) (part recon0 c) (part tomo c)
    writeAll solve gpuOf recon0 tomo cs (shift + o.length) (r.take shift ++ o ++ r.drop (shift + o.length))

/-- wrappers.py:332-440 `lprec`: `tomo` is a list of sinograms of `Nproj` angles and `N` pixels.  The
package lprec is installed and its methods do not raise (see C49 for methods that do). -/
def lprec (lib : LpLib T R) (o : LpOpts) (gpuOf : Nat × Nat → Nat) (Nproj N : Nat) (tomo : List T)
    (center : List ℚ) (recon : List R) (_theta : List ℚ) : Except PyErr (List R) := do
  let S ← perGpu N tomo.length o.gpuList.length                        -- 406-411
  match center with
  | [] => .error .index                                                -- 415
  | c0 :: _ =>
    let setup : LpSetup := ⟨N, Nproj, S, o.filterName, pyInt c0, o.interpType⟩
    let ids ← idsList tomo.length S                                    -- 420-422
    if o.lpmethod ∈ lpMethods then                                     -- 436
      .ok (writeAll (lib setup o.lpmethod o.numIter o.regPar) gpuOf recon tomo ids 0 recon)
    else .error .key

/-! ### Specification -/

/-- The method treats every slice by itself, on every GPU and for every size of the chunks. -/
def Slicewise (lib : LpLib T R) (g : Nat → Nat → String → Int → String → String → Nat → ℚ → R → T → R) :
    Prop :=
  ∀ s m k p gpu r t, r.length = t.length → lib s m k p gpu r t
    = List.zipWith (g s.N s.Nproj s.filterName s.center s.interpType m k p) r t

/-! ### Theorems -/

theorem writeAll_spec (solve : Nat → List R → List T → List R) (gpuOf : Nat × Nat → Nat)
    (h : R → T → R) (recon0 : List R) (tomo : List T)
    (hs : ∀ gpu r t, r.length = t.length → solve gpu r t = List.zipWith h r t)
    (hl : recon0.length = tomo.length) (cs : List (Nat × Nat)) :
    ∀ (shift : Nat) (r : List R), writeRows shift cs = cs → (∀ c ∈ cs, c.1 < c.2 ∧ c.2 ≤ tomo.length) →
      shift + (cs.map fun c => c.2 - c.1).sum = tomo.length → r.length = tomo.length →
      r.take shift = (List.zipWith h recon0 tomo).take shift →
      writeAll solve gpuOf recon0 tomo cs shift r = List.zipWith h recon0 tomo := by
  induction cs with
  | nil =>
    intro shift r _ _ hsum hr ht
    simp only [List.map_nil, List.sum_nil, Nat.add_zero] at hsum
    rw [hsum, List.take_of_length_le (by omega),
      List.take_of_length_le (by rw [List.length_zipWith]; omega)] at ht
    exact ht
  | cons c cs ih =>
    intro shift r hw hc hsum hr ht
    obtain ⟨c1, c2⟩ := hc c List.mem_cons_self
    rw [writeRows, List.cons.injEq] at hw
    obtain ⟨w1, w2⟩ := hw
    have e1 : shift = c.1 := by rw [← w1]
    have ho : solve (gpuOf c) (part recon0 c) (part tomo c) = part (List.zipWith h recon0 tomo) c := by
      rw [hs]
      · unfold part
        rw [List.drop_zipWith, List.take_zipWith]
      · unfold part
        simp only [List.length_take, List.length_drop, hl]
    have hlen : (part (List.zipWith h recon0 tomo) c).length = c.2 - c.1 := by
      unfold part
      simp only [List.length_take, List.length_drop, List.length_zipWith, hl]
      omega
    rw [writeAll, ho, hlen]
    have hs1 : (r.take shift ++ part (List.zipWith h recon0 tomo) c).length = shift + (c.2 - c.1) := by
      rw [List.length_append, hlen, List.length_take]
      omega
    refine ih (shift + (c.2 - c.1)) _ w2 (fun q hq => hc q (List.mem_cons_of_mem _ hq)) ?_ ?_ ?_
    · rw [List.map_cons, List.sum_cons] at hsum
      omega
    · rw [List.length_append, hs1, List.length_drop]
      omega
    · rw [List.take_left' hs1, ht]
      unfold part
      rw [← e1, List.take_add]

/-- The chunks cover all slices. -/
theorem chunks_sum (Ns S : Nat) (hS : 0 < S) : ∃ l, idsList Ns S = .ok l ∧ writeRows 0 l = l ∧
    (∀ c ∈ l, c.1 < c.2 ∧ c.2 ≤ Ns) ∧ (l.map fun c => c.2 - c.1).sum = Ns := by
  obtain ⟨l, h1, h2, h3, h4⟩ := ids_partition Ns S hS
  refine ⟨l, h1, h4, fun c hc => ⟨(h3 c hc).1, (h3 c hc).2.1⟩, ?_⟩
  have := congrArg List.length h2
  rw [List.length_flatMap, List.length_range] at this
  simpa using this

/-- **C194** With a method that treats the slices independently, at least one GPU and between one and
4096 pixels, every slice of the result is what the method makes of that slice, whichever GPU takes
which chunk and however the slices are divided; the centre used for all slices is the integer part of
that of the first slice.  (`_partial`: the claim asks for the centre of each slice.) -/
theorem lprec_slices_partial (lib : LpLib T R)
    (g : Nat → Nat → String → Int → String → String → Nat → ℚ → R → T → R) (hg : Slicewise lib g)
    (o : LpOpts) (gpuOf : Nat × Nat → Nat) (Nproj N : Nat) (tomo : List T) (c0 : ℚ) (cs : List ℚ)
    (recon : List R) (theta : List ℚ) (h1 : 1 ≤ N) (h2 : N ≤ 4096) (ht : tomo ≠ [])
    (hgpu : o.gpuList ≠ []) (hm : o.lpmethod ∈ lpMethods) (hl : recon.length = tomo.length) :
    lprec lib o gpuOf Nproj N tomo (c0 :: cs) recon theta = .ok (List.zipWith
      (g N Nproj o.filterName (pyInt c0) o.interpType o.lpmethod o.numIter o.regPar) recon tomo) := by
  have hN : 0 < tomo.length := List.length_pos_iff.2 ht
  have hG : 0 < o.gpuList.length := List.length_pos_iff.2 hgpu
  obtain ⟨S, e1, e2⟩ := narrow_positive N tomo.length o.gpuList.length h1 h2 hN hG
  obtain ⟨l, f1, f2, f3, f4⟩ := chunks_sum tomo.length S e2
  unfold lprec
  rw [e1]
  show (do
    let ids ← idsList tomo.length S
    if o.lpmethod ∈ lpMethods then _ else _) = _
  rw [f1]
  show (if o.lpmethod ∈ lpMethods then _ else _) = _
  rw [if_pos hm, writeAll_spec (lib ⟨N, Nproj, S, o.filterName, pyInt c0, o.interpType⟩ o.lpmethod
    o.numIter o.regPar) gpuOf _ recon tomo (fun gpu r t h => hg _ _ _ _ gpu r t h) hl l 0 recon f2 f3
    (by omega) hl (by simp)]

/-- **C194** (refuted part) The angles, the centres of all slices but the first and the fraction of the
first centre are ignored, for all methods and arguments. -/
theorem lprec_ignores (lib : LpLib T R) (o : LpOpts) (gpuOf : Nat × Nat → Nat) (Nproj N : Nat)
    (tomo : List T) (c0 c1 : ℚ) (cs cs' : List ℚ) (recon : List R) (theta theta' : List ℚ)
    (hc : pyInt c0 = pyInt c1) :
    lprec lib o gpuOf Nproj N tomo (c0 :: cs) recon theta
      = lprec lib o gpuOf Nproj N tomo (c1 :: cs') recon theta' := by
  unfold lprec
  dsimp only
  rw [hc]

/-- A method that shifts the slice to the centre makes the loss visible: slices with centres 3/2 and 7
are both reconstructed with centre 1. -/
theorem lprec_center_lost :
    lprec (T := ℚ) (R := ℚ) (fun s _ _ _ _ r t => List.zipWith (fun _ x => x + s.center) r t) lpDefaults
      (fun _ => 0) 3 4 [10, 20] [3 / 2, 7] [0, 0] [0, 1, 2] = .ok [11, 21] := by
  have h := lprec_slices_partial (T := ℚ) (R := ℚ)
    (fun s _ _ _ _ r t => List.zipWith (fun _ x => x + s.center) r t)
    (fun _ _ _ c _ _ _ _ _ x => x + c) (fun _ _ _ _ _ _ _ _ => rfl) lpDefaults
    (fun _ => 0) 3 4 [10, 20] (3 / 2) [7] [0, 0] [0, 1, 2] (by norm_num) (by norm_num) (by simp)
    (by simp [lpDefaults]) (by simp [lpDefaults, lpMethods]) rfl
  rw [h]
  have e : pyInt (3 / 2) = 1 := by
    unfold pyInt
    rw [if_pos (by norm_num), Int.floor_eq_iff]
    norm_num
  rw [e]
  norm_num

/-- **C194** It raises exactly in these cases: no pixels, no GPU, no slice or more than 4096 pixels
(ZeroDivisionError), no centre (IndexError), unknown method (KeyError). -/
theorem lprec_raises_iff (lib : LpLib T R) (o : LpOpts) (gpuOf : Nat × Nat → Nat) (Nproj N : Nat)
    (tomo : List T) (center : List ℚ) (recon : List R) (theta : List ℚ) :
    (∃ e, lprec lib o gpuOf Nproj N tomo center recon theta = .error e) ↔
      N = 0 ∨ 4096 < N ∨ o.gpuList = [] ∨ tomo = [] ∨ center = [] ∨ o.lpmethod ∉ lpMethods := by
  have hG : o.gpuList = [] ↔ o.gpuList.length = 0 := List.length_eq_zero_iff.symm
  have hT : tomo = [] ↔ tomo.length = 0 := List.length_eq_zero_iff.symm
  rw [hG, hT]
  by_cases h0 : N = 0 ∨ o.gpuList.length = 0
  · have e : perGpu N tomo.length o.gpuList.length = .error .zeroDivision := by
      unfold perGpu; rw [if_pos h0]
    refine ⟨fun _ => ?_, fun _ => ⟨.zeroDivision, ?_⟩⟩
    · rcases h0 with h | h
      · exact Or.inl h
      · exact Or.inr (Or.inr (Or.inl h))
    · unfold lprec
      rw [e]
      rfl
  · have h0' : 0 < N ∧ 0 < o.gpuList.length := by omega
    cases center with
    | nil =>
      refine ⟨fun _ => by simp, fun _ => ⟨.index, ?_⟩⟩
      unfold lprec perGpu
      rw [if_neg h0]
      rfl
    | cons c0 cs =>
      have bad : (4096 < N ∨ tomo.length = 0) →
          ∃ e, lprec lib o gpuOf Nproj N tomo (c0 :: cs) recon theta = .error e := by
        intro h
        have e : perGpu N tomo.length o.gpuList.length = .ok 0 := by
          rcases h with h | h
          · exact (wide_raises N _ _ h h0'.2).1
          · unfold perGpu
            rw [if_neg h0, h, Nat.zero_add, Nat.div_eq_of_lt (show o.gpuList.length - 1 < o.gpuList.length by omega),
              Nat.min_zero]
        refine ⟨.zeroDivision, ?_⟩
        unfold lprec
        rw [e]
        rfl
      by_cases h1 : 4096 < N ∨ tomo.length = 0
      · refine ⟨fun _ => ?_, fun _ => bad h1⟩
        rcases h1 with h | h
        · exact Or.inr (Or.inl h)
        · exact Or.inr (Or.inr (Or.inr (Or.inl h)))
      · obtain ⟨S, e1, e2⟩ := narrow_positive N tomo.length o.gpuList.length h0'.1 (by omega)
          (by omega) h0'.2
        obtain ⟨l, f1, -⟩ := chunks_sum tomo.length S e2
        have key : lprec lib o gpuOf Nproj N tomo (c0 :: cs) recon theta
            = if o.lpmethod ∈ lpMethods then .ok (writeAll (lib ⟨N, Nproj, S, o.filterName, pyInt c0,
              o.interpType⟩ o.lpmethod o.numIter o.regPar) gpuOf recon tomo l 0 recon)
              else .error .key := by
          unfold lprec
          rw [e1]
          show (do
            let ids ← idsList tomo.length S
            if o.lpmethod ∈ lpMethods then _ else _) = _
          rw [f1]
          rfl
        rw [key]
        by_cases hm : o.lpmethod ∈ lpMethods
        · rw [if_pos hm]
          constructor
          · rintro ⟨e, he⟩
            cases he
          · rintro (h | h | h | h | h | h)
            · omega
            · omega
            · omega
            · omega
            · cases h
            · exact absurd hm h
        · rw [if_neg hm]
          exact ⟨fun _ => Or.inr (Or.inr (Or.inr (Or.inr (Or.inr hm)))), fun _ => ⟨_, rfl⟩⟩

/-- **C194** (refuted part) The call in the documentation, `lpmethod='lpfbp'`, always raises. -/
theorem lprec_example_raises (lib : LpLib T R) (o : LpOpts) (ho : o.lpmethod = "lpfbp")
    (gpuOf : Nat × Nat → Nat) (Nproj N : Nat) (tomo : List T) (center : List ℚ) (recon : List R)
    (theta : List ℚ) : ∃ e, lprec lib o gpuOf Nproj N tomo center recon theta = .error e := by
  rw [lprec_raises_iff, ho]
  simp [lpMethods]

end Tomopy.Gpu
