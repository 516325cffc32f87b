import Verif.Wrap.Model
import Verif.Mproc.Props
import Mathlib.Tactic.Linarith
import Mathlib.Tactic.Ring
import Mathlib.Tactic.FieldSimp
import Mathlib.Tactic.NormNum
import Mathlib.Algebra.Field.Rat

/-!
# ASTRA and UFO wrappers: shifts, options, GPUs, cropping
-/

set_option linter.unusedSectionVars false

namespace Tomopy.Wrap

section Astra

variable {K : Type} [Field K] [LinearOrder K] [IsStrictOrderedRing K] [FloorRing K]

/-! ### the shift -/

theorem npRound_near (x : K) : |x - (npRound x : K)| ≤ 1 / 2 := by
  have h1 : (⌊x⌋ : K) ≤ x := Int.floor_le x
  have h2 : x < (⌊x⌋ : K) + 1 := Int.lt_floor_add_one x
  unfold npRound
  rw [abs_le]
  simp only
  split_ifs <;> push_cast <;> constructor <;> linarith

/-- Ties go to the even integer. -/
theorem npRound_even (k : Int) : npRound ((k : K) + 1 / 2) = if k % 2 = 0 then k else k + 1 := by
  have hf : ⌊(k : K) + 1 / 2⌋ = k := by
    rw [Int.floor_eq_iff]; constructor <;> linarith
  unfold npRound
  simp only [hf]
  rw [if_neg (by simp), if_neg (by simp)]

/-- After the shift the rotation axis is within half a pixel of the middle of the detector. -/
theorem axis_centred (ndet : Nat) (center : K) :
    |(center + (shiftOf ndet center : K)) - (ndet : K) / 2| ≤ 1 / 2 := by
  have h := npRound_near ((ndet : K) / 2 - center)
  rw [abs_le] at h ⊢
  unfold shiftOf
  constructor <;> linarith [h.1, h.2]

/-- The shift is the only integer for which that holds, except at ties. -/
theorem shift_unique (ndet : Nat) (center : K) (s : Int)
    (h : |(center + (s : K)) - (ndet : K) / 2| < 1 / 2) : s = shiftOf ndet center := by
  have h1 := axis_centred ndet center
  rw [abs_le] at h1
  rw [abs_lt] at h
  have a1 : ((s - shiftOf ndet center : Int) : K) < ((1 : Int) : K) := by
    push_cast; linarith [h.1, h.2, h1.1, h1.2]
  have a2 : ((-1 : Int) : K) < ((s - shiftOf ndet center : Int) : K) := by
    push_cast; linarith [h.1, h.2, h1.1, h1.2]
  have a1' := Int.cast_lt.1 a1
  have a2' := Int.cast_lt.1 a2
  omega

/-- Rows of the sinogram moved by `s` columns, zeros where there is no data. -/
def moved (ndet : Nat) (s : Int) (a : Nat → Nat → K) (r c : Nat) : K :=
  if 0 ≤ (c : Int) - s ∧ (c : Int) - s < ndet then a r ((c : Int) - s).toNat else 0

theorem rollFlat_same (nang ndet : Nat) (s : Int) (a : Nat → Nat → K) (r c : Nat)
    (k : Nat) (hk : k < ndet) (r' : Nat) (hr' : r' < nang)
    (h : ((r * ndet + c : Nat) : Int) - s = ((r' * ndet + k : Nat) : Int)) :
    rollFlat nang ndet s a r c = a r' k := by
  have hlt : r' * ndet + k < nang * ndet := by
    have : (r' + 1) * ndet ≤ nang * ndet := Nat.mul_le_mul_right _ hr'
    have : (r' + 1) * ndet = r' * ndet + ndet := by ring
    omega
  unfold rollFlat
  simp only
  rw [h, Int.emod_eq_of_lt (by positivity) (by exact_mod_cast hlt)]
  have h1 : ((r' * ndet + k : Nat) : Int).toNat = r' * ndet + k := Int.toNat_natCast _
  rw [h1]
  have h2 : (r' * ndet + k) / ndet = r' := by
    rw [Nat.mul_comm, Nat.mul_add_div (by omega), Nat.div_eq_of_lt hk]; omega
  have h3 : (r' * ndet + k) % ndet = k := by
    rw [Nat.mul_comm, Nat.mul_add_mod, Nat.mod_eq_of_lt hk]
  rw [h2, h3]

/-- Rolling the flattened sinogram and clearing the columns that wrapped around is a shift of each
row with zeros shifted in, for every shift down to minus the width of the detector. -/
theorem sino_shifted (nang ndet : Nat) (s : Int) (a : Nat → Nat → K) (hs : -(ndet : Int) ≤ s)
    (r c : Nat) (hr : r < nang) (hc : c < ndet) :
    shiftSino nang ndet s a r c = moved ndet s a r c := by
  unfold shiftSino moved
  by_cases h0 : s = 0
  · subst h0
    rw [if_pos rfl, if_pos (by omega)]
    simp
  · rw [if_neg h0]
    simp only
    have hb1 : pyBound ndet (if s < 0 then 0 else s) = if s < 0 then 0 else min s ndet := by
      unfold pyBound; split_ifs <;> omega
    have hb2 : pyBound ndet (if (ndet : Int) + s > ndet then (ndet : Int) else ndet + s)
        = if (ndet : Int) + s > ndet then (ndet : Int) else ndet + s := by
      unfold pyBound; split_ifs <;> omega
    rw [hb1, hb2]
    by_cases hin : 0 ≤ (c : Int) - s ∧ (c : Int) - s < ndet
    · rw [if_neg (by split_ifs <;> omega), if_pos hin]
      refine rollFlat_same nang ndet s a r c _ (by omega) r hr ?_
      push_cast
      rw [Int.toNat_of_nonneg hin.1]
      ring
    · rw [if_pos (by split_ifs <;> omega), if_neg hin]

/-- What ASTRA is given on the CPU: the rows moved so that the axis is in the middle, for every
centre up to one detector width to the right of the middle. -/
theorem cpu_sino (nang ndet : Nat) (center : K) (a : Nat → Nat → K)
    (hc : center ≤ 3 / 2 * (ndet : K)) (r c : Nat) (hr : r < nang) (hcd : c < ndet) :
    shiftSino nang ndet (shiftOf ndet center) a r c = moved ndet (shiftOf ndet center) a r c := by
  refine sino_shifted nang ndet _ a ?_ r c hr hcd
  have h := axis_centred ndet center
  rw [abs_le] at h
  have h1 : (((-(ndet : Int) - 1 : Int)) : K) < (shiftOf ndet center : K) := by
    push_cast; linarith [h.1]
  have := Int.cast_lt.1 h1
  omega

example : moved 4 2 (fun r c => (10 * r + c : ℚ)) 1 3 = 11 ∧
    moved 4 2 (fun r c => (10 * r + c : ℚ)) 1 1 = 0 ∧ shiftOf 4 (1 / 3 : ℚ) = 2 ∧
    moved 4 2 (fun r c => (10 * r + c : ℚ)) 1 3 =
      shiftSino 3 4 2 (fun r c => (10 * r + c : ℚ)) 1 3 := by decide +kernel

/-- Refuted beyond that: the end of the second slice is negative and counts from the right, so
columns keep the data of the next projection where zeros belong. -/
theorem sino_garbage (nang ndet m : Nat) (hm : 0 < m) (hmn : m < ndet) (a : Nat → Nat → K)
    (r c : Nat) (hr : r + 1 < nang) (hc : c + m < ndet) :
    shiftSino nang ndet (-(ndet : Int) - m) a r c = a (r + 1) (c + m) ∧
      moved ndet (-(ndet : Int) - m) a r c = 0 := by
  constructor
  · unfold shiftSino
    rw [if_neg (by omega)]
    simp only
    rw [if_neg]
    · refine rollFlat_same nang ndet _ a r c _ hc _ hr ?_
      push_cast
      ring
    · unfold pyBound
      split_ifs <;> omega
  · unfold moved
    rw [if_neg (by omega)]

example : shiftSino 3 4 (-5) (fun r c => (10 * r + c : ℚ)) 0 1 = 12 ∧ shiftOf 4 (7 : ℚ) = -5 := by
  decide +kernel

/-! ### the slices -/

variable {Img : Type}

/-- What ASTRA is asked for slice `i`: with `cuda` the sinogram of the slice and a detector moved by
`center - ndet/2`, else the sinogram moved by whole pixels. -/
def sliceOf (f : Option Nat → K → (Nat → Nat → K) → Img → Img) (cuda : Bool) (g : Option Nat)
    (nang ndet : Nat) (sino : Nat → Nat → K) (center : K) (v : Img) : Img :=
  match cuda with
  | true => f g (center - (ndet : K) / 2) sino v
  | false => f g 0 (shiftSino nang ndet (shiftOf ndet center) sino) v

theorem block_spec (f : Option Nat → K → (Nat → Nat → K) → Img → Img) (cuda : Bool) (g : Option Nat)
    (nang ndet : Nat) (tomo : Nat → Nat → Nat → K) (center : Nat → K) :
    ∀ (ids : List Nat) (v : Nat → Img), ids.Nodup →
      (astraBlock (fun g o s w => .ok (f g o s w)) cuda g nang ndet tomo center ids v).2 = none ∧
      ∀ i, (astraBlock (fun g o s w => .ok (f g o s w)) cuda g nang ndet tomo center ids v).1 i
        = if i ∈ ids then sliceOf f cuda g nang ndet (tomo i) (center i) (v i) else v i := by
  intro ids
  induction ids with
  | nil => intro v _; simp [astraBlock]
  | cons j js ih =>
    intro v hnd
    have hs : astraSlice (fun g o s w => Except.ok (f g o s w)) cuda g nang ndet (tomo j) (center j)
        (v j) = .ok (sliceOf f cuda g nang ndet (tomo j) (center j) (v j)) := by
      cases cuda <;> rfl
    simp only [astraBlock, hs]
    obtain ⟨h1, h2⟩ := ih (Function.update v j
      (sliceOf f cuda g nang ndet (tomo j) (center j) (v j))) (List.nodup_cons.1 hnd).2
    refine ⟨h1, fun i => ?_⟩
    rw [h2 i]
    have hj : j ∉ js := (List.nodup_cons.1 hnd).1
    by_cases hi : i = j
    · subst hi
      rw [if_neg hj, if_pos (List.mem_cons_self ..), Function.update_self]
    · rw [Function.update_of_ne hi]
      by_cases hm : i ∈ js
      · rw [if_pos hm, if_pos (List.mem_cons_of_mem _ hm)]
      · rw [if_neg hm, if_neg (by simp [hi, hm])]

theorem gpu_fold (f : Option Nat → K → (Nat → Nat → K) → Img → Img) (n nang ndet : Nat)
    (tomo : Nat → Nat → Nat → K) (center : Nat → K) :
    ∀ (ps : List (Nat × Mproc.Slc)) (v : Nat → Img),
      (ps.flatMap fun p => p.2.indices n).Nodup → ∀ i,
      (∀ p ∈ ps, i ∈ p.2.indices n →
        (ps.foldl (fun r p => (astraBlock (fun g o s w => .ok (f g o s w)) true (some p.1) nang ndet
          tomo center (p.2.indices n) r).1) v) i
          = sliceOf f true (some p.1) nang ndet (tomo i) (center i) (v i)) ∧
      ((∀ p ∈ ps, i ∉ p.2.indices n) →
        (ps.foldl (fun r p => (astraBlock (fun g o s w => .ok (f g o s w)) true (some p.1) nang ndet
          tomo center (p.2.indices n) r).1) v) i = v i) := by
  intro ps
  induction ps with
  | nil => intro v _ i; simp
  | cons q qs ih =>
    intro v hnd i
    rw [List.flatMap_cons, List.nodup_append'] at hnd
    obtain ⟨hq, hqs, hdis⟩ := hnd
    obtain ⟨_, hb⟩ := block_spec f true (some q.1) nang ndet tomo center (q.2.indices n) v hq
    rw [List.foldl_cons]
    obtain ⟨h1, h2⟩ := ih (astraBlock (fun g o s w => .ok (f g o s w)) true (some q.1) nang ndet
      tomo center (q.2.indices n) v).1 hqs i
    constructor
    · intro p hp hi
      rcases List.mem_cons.1 hp with rfl | hp
      · rw [h2, hb i, if_pos hi]
        intro p' hp' hi'
        exact hdis hi (List.mem_flatMap.2 ⟨p', hp', hi'⟩)
      · rw [h1 p hp hi, hb i, if_neg]
        intro hi'
        exact hdis hi' (List.mem_flatMap.2 ⟨p, hp, hi⟩)
    · intro hno
      rw [h2 (fun p hp => hno p (List.mem_cons_of_mem _ hp)), hb i,
        if_neg (hno q (List.mem_cons_self ..))]

theorem length_evenSlices (axis k : Nat) : (Mproc.evenSlices axis k).length = k := by
  unfold Mproc.evenSlices
  simp only
  rw [Mproc.length_zip_offsets]
  simp [Mproc.evenSizes]

/-- Every slice is reconstructed from its own sinogram, its own centre and its own start, on one of
the GPUs of the list (on the CPU or the default GPU without a list); nothing else is written. -/
theorem astra_slices (f : Option Nat → K → (Nat → Nat → K) → Img → Img) (cpu : Nat)
    (cuda : Bool) (gpus : Option (List Nat)) (hg : gpus ≠ some []) (n nang ndet : Nat) (hn : 1 ≤ n)
    (tomo : Nat → Nat → Nat → K) (center : Nat → K) (v : Nat → Img) :
    ∃ out, astra (fun g o s w => .ok (f g o s w)) cpu cuda gpus n nang ndet tomo center v = .ok out ∧
      (∀ i, i < n → ∃ g, (∀ k, g = some k → cuda = true ∧ ∃ gl, gpus = some gl ∧ k ∈ gl) ∧
        (g = none → cuda = false ∨ gpus = none) ∧
        out i = sliceOf f cuda g nang ndet (tomo i) (center i) (v i)) ∧
      ∀ i, n ≤ i → out i = v i := by
  have hno : ∀ (cuda : Bool) (hc : cuda = false ∨ gpus = none),
      ∃ out, (match astraBlock (fun g o s w => .ok (f g o s w)) cuda none nang ndet tomo center
          (List.range n) v with
        | (r, none) => (Except.ok r : Except PyErr (Nat → Img))
        | (_, some e) => .error e) = .ok out ∧
      (∀ i, i < n → ∃ g, (∀ k, g = some k → cuda = true ∧ ∃ gl, gpus = some gl ∧ k ∈ gl) ∧
        (g = none → cuda = false ∨ gpus = none) ∧
        out i = sliceOf f cuda g nang ndet (tomo i) (center i) (v i)) ∧
      ∀ i, n ≤ i → out i = v i := by
    intro cuda hc
    obtain ⟨h1, h2⟩ := block_spec f cuda none nang ndet tomo center (List.range n) v
      List.nodup_range
    generalize hb : astraBlock (fun g o s w => .ok (f g o s w)) cuda none nang ndet tomo center
      (List.range n) v = b at h1 h2
    obtain ⟨r, e⟩ := b
    dsimp only at h1 h2
    subst h1
    refine ⟨r, rfl, fun i hi => ⟨none, by simp, fun _ => hc, ?_⟩, fun i hi => ?_⟩
    · rw [h2 i, if_pos (List.mem_range.2 hi)]
    · rw [h2 i, if_neg (by rw [List.mem_range]; omega)]
  cases cuda with
  | false =>
    have := hno false (Or.inl rfl)
    cases gpus <;> exact this
  | true =>
    cases gpus with
    | none => exact hno true (Or.inr rfl)
    | some gl =>
      have hgl : gl ≠ [] := fun h => hg (by rw [h])
      have hlen : 0 < gl.length := List.length_pos_iff.2 hgl
      have hco : Mproc.coresOr cpu (some gl.length) = gl.length := by
        cases hl : gl.length with
        | zero => omega
        | succ k => rfl
      have hsl : Mproc.getNcoreSlices cpu n (some gl.length) none
          = .ok (min gl.length n, Mproc.evenSlices n (min gl.length n)) := by
        unfold Mproc.getNcoreSlices
        simp only [hco]
        rw [if_neg (by omega)]
      have hcov := Mproc.evenSlices_cover n (min gl.length n) (by omega)
      have hfull : ((gl.zip (Mproc.evenSlices n (min gl.length n))).flatMap fun p => p.2.indices n)
          = List.range n := by
        have hm : (gl.zip (Mproc.evenSlices n (min gl.length n))).map Prod.snd
            = Mproc.evenSlices n (min gl.length n) := by
          rw [List.map_snd_zip]
          rw [length_evenSlices]
          omega
        have h2 : ((gl.zip (Mproc.evenSlices n (min gl.length n))).flatMap fun p => p.2.indices n)
            = ((gl.zip (Mproc.evenSlices n (min gl.length n))).map Prod.snd).flatMap
              (Mproc.Slc.indices n) := by
          rw [List.flatMap_map]
        rw [h2, hm]
        exact hcov
      refine ⟨_, by unfold astra; simp only [hsl]; rw [if_neg hgl], fun i hi => ?_, fun i hi => ?_⟩
      · have hmem : i ∈ ((gl.zip (Mproc.evenSlices n (min gl.length n))).flatMap
            fun p => p.2.indices n) := by rw [hfull]; exact List.mem_range.2 hi
        obtain ⟨p, hp, hi'⟩ := List.mem_flatMap.1 hmem
        refine ⟨some p.1, fun k hk => ⟨rfl, gl, rfl, ?_⟩, by simp, ?_⟩
        · rw [← Option.some.inj hk]; exact (List.of_mem_zip hp).1
        · exact (gpu_fold f n nang ndet tomo center _ v (by rw [hfull]; exact List.nodup_range)
            i).1 p hp hi'
      · refine (gpu_fold f n nang ndet tomo center _ v (by rw [hfull]; exact List.nodup_range)
            i).2 fun p hp hi' => ?_
        have hmem : i ∈ ((gl.zip (Mproc.evenSlices n (min gl.length n))).flatMap
            fun p => p.2.indices n) := List.mem_flatMap.2 ⟨p, hp, hi'⟩
        rw [hfull, List.mem_range] at hmem
        omega

example : ∃ out, astra (fun g o s _ => .ok (g, o, s 0 0)) 8 true (some [5, 2]) 3 2 4
    (fun i r c => (100 * i + 10 * r + c : ℚ)) (fun i => (i : ℚ) + 1) (fun _ => (none, 7, 7)) = .ok out ∧
    out 0 = (some 5, -1, 0) ∧ out 1 = (some 5, 0, 100) ∧ out 2 = (some 2, 1, 200) ∧
    out 3 = (none, 7, 7) := by
  refine ⟨_, rfl, ?_⟩
  decide +kernel

/-- An empty list of GPUs is a ValueError (of the thread pool). -/
theorem astra_no_gpu (tb : Toolbox K Img) (cpu n nang ndet : Nat) (hcpu : 1 ≤ cpu) (hn : 1 ≤ n)
    (tomo : Nat → Nat → Nat → K) (center : Nat → K) (v : Nat → Img) :
    astra tb cpu true (some []) n nang ndet tomo center v = .error .value := by
  unfold astra Mproc.getNcoreSlices
  have : min cpu n ≠ 0 := by omega
  simp [Mproc.coresOr, this]

/-- Without a list of GPUs the exception of a slice is raised. -/
theorem astra_raises (tb : Toolbox K Img) (cpu : Nat) (cuda : Bool) (n nang ndet : Nat)
    (tomo : Nat → Nat → Nat → K) (center : Nat → K) (v : Nat → Img) (i : Nat) (hi : i < n)
    (e : PyErr) (herr : astraSlice tb cuda none nang ndet (tomo i) (center i) (v i) = .error e) :
    ∃ e', astra tb cpu cuda none n nang ndet tomo center v = .error e' := by
  have key : ∀ (ids : List Nat) (w : Nat → Img), ids.Nodup → i ∈ ids → w i = v i →
      ∃ e', (astraBlock tb cuda none nang ndet tomo center ids w).2 = some e' := by
    intro ids
    induction ids with
    | nil => intro w _ h; simp at h
    | cons j js ih =>
      intro w hnd hm hw
      unfold astraBlock
      cases hs : astraSlice tb cuda none nang ndet (tomo j) (center j) (w j) with
      | error e' => exact ⟨e', rfl⟩
      | ok im =>
        simp only
        have hne : i ≠ j := by
          intro h
          subst h
          rw [hw, herr] at hs
          cases hs
        refine ih _ (List.nodup_cons.1 hnd).2 ?_ ?_
        · rcases List.mem_cons.1 hm with h | h
          · exact absurd h hne
          · exact h
        · rw [Function.update_of_ne hne, hw]
  obtain ⟨e', he⟩ := key (List.range n) v List.nodup_range (List.mem_range.2 hi) rfl
  generalize hb : astraBlock tb cuda none nang ndet tomo center (List.range n) v = b at he
  obtain ⟨r, o⟩ := b
  dsimp only at he
  subst he
  refine ⟨e', ?_⟩
  cases cuda <;> (unfold astra; simp only [hb])

/-- Refuted with a list of GPUs: whatever goes wrong on them, `astra` returns, and slices whose
reconstruction failed hold what was there before. -/
theorem astra_gpu_silent (cpu : Nat) (gl : List Nat) (hgl : gl ≠ []) (e : PyErr)
    (n nang ndet : Nat) (hn : 1 ≤ n) (tomo : Nat → Nat → Nat → K) (center : Nat → K)
    (v : Nat → Img) :
    astra (fun _ _ _ _ => .error e) cpu true (some gl) n nang ndet tomo center v = .ok v := by
  have hb : ∀ (g : Nat) (ids : List Nat) (w : Nat → Img),
      (astraBlock (fun _ _ _ _ => .error e) true (some g) nang ndet tomo center ids w).1 = w := by
    intro g ids w
    cases ids with
    | nil => rfl
    | cons j js => rfl
  have hlen : 0 < gl.length := List.length_pos_iff.2 hgl
  have hco : Mproc.coresOr cpu (some gl.length) = gl.length := by
    cases hl : gl.length with
    | zero => omega
    | succ k => rfl
  unfold astra Mproc.getNcoreSlices
  simp only [hco]
  rw [if_neg (by omega)]
  simp only [if_neg hgl, hb]
  congr 1
  generalize gl.zip _ = ps
  induction ps with
  | nil => rfl
  | cons p ps ih => simp [ih]

end Astra

/-! ### options -/

theorem foldl_defaults {V : Type} : ∀ (ds : List (String × V)) (o : String → Option V) (k : String),
    (∀ x, o k = some x → (ds.foldl setDefault o) k = some x) ∧
    (o k = none → (ds.foldl setDefault o) k = (ds.find? (fun d => d.1 == k)).map Prod.snd) := by
  intro ds
  induction ds with
  | nil => intro o k; simp
  | cons d ds ih =>
    intro o k
    rw [List.foldl_cons]
    obtain ⟨h1, h2⟩ := ih (setDefault o d) k
    constructor
    · intro x hx
      refine h1 x ?_
      unfold setDefault
      split_ifs with h
      · rw [Function.update_of_ne, hx]
        intro hk
        subst hk
        rw [h] at hx
        cases hx
      · exact hx
    · intro hk
      by_cases hd : d.1 = k
      · subst hd
        rw [List.find?_cons_of_pos (by simp)]
        refine h1 d.2 ?_
        unfold setDefault
        rw [if_pos hk, Function.update_self]
      · rw [List.find?_cons_of_neg (by simpa using hd)]
        refine h2 ?_
        unfold setDefault
        split_ifs
        · rw [Function.update_of_ne (Ne.symm hd), hk]
        · exact hk

/-- The defaults of `astra` (`source/tomopy/recon/wrappers.py:76-80`). -/
def astraDefaults : List (String × Option String) :=
  [("proj_type", some "linear"), ("num_iter", some "1"), ("gpu_list", none)]

/-- Options of the caller are kept, missing ones get the default, and `method` is required. -/
theorem astra_options {V : Type} (ds : List (String × V)) (o : String → Option V) :
    (o "method" = none → astraOptions ds o = .error .value) ∧
    ∀ m, o "method" = some m → ∃ o', astraOptions ds o = .ok o' ∧
      (∀ k x, o k = some x → o' k = some x) ∧
      (∀ k, o k = none → o' k = (ds.find? (fun d => d.1 == k)).map Prod.snd) := by
  constructor
  · intro h; unfold astraOptions; rw [if_pos h]
  · intro m hm
    refine ⟨_, by unfold astraOptions; rw [if_neg (by rw [hm]; simp)], ?_, ?_⟩
    · exact fun k x hx => (foldl_defaults ds o k).1 x hx
    · exact fun k hk => (foldl_defaults ds o k).2 hk

/-- With `method` alone: linear projector, one iteration, no GPU list. -/
theorem astra_options_default (m : Option String) :
    ∃ o', astraOptions astraDefaults (fun k => if k = "method" then some m else none) = .ok o' ∧
      o' "method" = some m ∧ o' "proj_type" = some (some "linear") ∧
      o' "num_iter" = some (some "1") ∧ o' "gpu_list" = some none := by
  obtain ⟨o', h, h1, h2⟩ := (astra_options astraDefaults
    (fun k => if k = "method" then some m else none)).2 m (by simp)
  refine ⟨o', h, h1 _ _ (by simp), ?_, ?_, ?_⟩
  · rw [h2 _ (by simp)]; rfl
  · rw [h2 _ (by simp)]; rfl
  · rw [h2 _ (by simp)]; rfl

/-! ### UFO -/

/-- The result of UFO is cropped to the width of the detector in both directions, around the middle
(one pixel less before it than after if the difference is odd). -/
theorem ufo_crop {α : Type} (n w : Nat) (h : w ≤ n) (hw : 0 < w) (arr : Nat → Nat → α) :
    ∃ out, ufoCrop n n w w w arr = .ok out ∧
      ∀ y x, y < w → x < w → out y x = arr ((n - w) / 2 + y) ((n - w) / 2 + x) := by
  have hf : pyBound n (ufoFrom n w) = ((n - w) / 2 : Nat) := by
    unfold ufoFrom pyBound
    rw [Int.tdiv_eq_ediv_of_nonneg (by omega)]
    split_ifs <;> omega
  have ht : pyBound n (ufoTo n w) = ((n + w) / 2 : Nat) := by
    unfold ufoTo pyBound
    rw [Int.tdiv_eq_ediv_of_nonneg (by omega)]
    split_ifs <;> omega
  have hsz : ((((n + w) / 2 : Nat) : Int) - (((n - w) / 2 : Nat) : Int)).toNat = w := by omega
  unfold ufoCrop
  simp only [hf, ht, hsz]
  refine ⟨_, by rw [if_pos (by simp)], fun y x hy hx => ?_⟩
  simp only [Int.toNat_natCast]
  by_cases h1 : w = 1
  · have : y = 0 := by omega
    have : x = 0 := by omega
    subst_vars
    simp
  · rw [if_neg h1, if_neg h1]

example : ∃ out, ufoCrop 7 7 4 4 4 (fun y x => 10 * y + x) = .ok out ∧ out 0 0 = 11 ∧
    out 3 2 = 43 := ⟨_, rfl, rfl, rfl⟩

/-- Refuted for results smaller than the detector: one that is two pixels too small is silently
replaced by one of its elements. -/
theorem ufo_broadcast {α : Type} (n : Nat) (hn : 2 ≤ n) (arr : Nat → Nat → α) :
    ∃ out, ufoCrop n n (n + 2) (n + 2) (n + 2) arr = .ok out ∧
      ∀ y x, out y x = arr (n - 1) (n - 1) := by
  have hf : pyBound n (ufoFrom n (n + 2)) = ((n - 1 : Nat) : Int) := by
    have : ufoFrom n (n + 2) = -1 := by
      unfold ufoFrom
      have : ((n : Int) - ((n + 2 : Nat) : Int)) = -2 := by push_cast; ring
      rw [this]; rfl
    rw [this]
    unfold pyBound
    split_ifs <;> omega
  have ht : pyBound n (ufoTo n (n + 2)) = (n : Int) := by
    unfold ufoTo pyBound
    rw [Int.tdiv_eq_ediv_of_nonneg (by omega)]
    split_ifs <;> omega
  have hsz : ((n : Int) - ((n - 1 : Nat) : Int)).toNat = 1 := by omega
  unfold ufoCrop
  simp only [hf, ht, hsz]
  exact ⟨_, by rw [if_pos (by simp)], fun y x => by simp⟩

/-- UFO reconstructs at the given angles and centres if the angles are equally spaced from the
first one on and all slices have the same centre. -/
theorem ufo_params {K : Type} [Field K] (c t d : K) (n m : Nat) :
    ufoParams (List.replicate (n + 1) c) ((List.range (m + 2)).map fun (k : Nat) => t + k * d)
      = .ok (c, d) := by
  have h : (List.range (m + 2)).map (fun (k : Nat) => t + k * d)
      = (t + ((0 : Nat) : K) * d) :: (t + ((1 : Nat) : K) * d)
        :: (List.range m).map (fun (k : Nat) => t + ((k + 2 : Nat) : K) * d) := by
    rw [List.range_succ_eq_map, List.map_cons, List.map_map, List.range_succ_eq_map, List.map_cons,
      List.map_map]
    rfl
  rw [h, List.replicate_succ]
  simp [ufoParams]

/-- Refuted in general: centres after the first and angles after the second are ignored. -/
theorem ufo_params_ignored {K : Type} [Field K] (c t0 t1 : K) (cs cs' ts ts' : List K) :
    ufoParams (c :: cs) (t0 :: t1 :: ts) = ufoParams (c :: cs') (t0 :: t1 :: ts') := rfl

end Tomopy.Wrap
