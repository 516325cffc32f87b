import Verif.Normalize.AloneModel
import Verif.Normalize.Props
import Verif.Mproc.Props
import Verif.Stripe.Alone

/-! C174: `normalize_bg` and `normalize_roi` correct every projection as if it were alone. -/
set_option linter.unusedSectionVars false
namespace Tomopy.Normalize
open Mproc

variable {K : Type} [Field K] [LinearOrder K] [IsStrictOrderedRing K]

/-- Specification: a projection of `dy × dz` divided by the air lines of its own rows. -/
def bgProj (dy dz air : Nat) (p : Img K) : Img K := fun r c =>
  if r < dy ∧ c < dz then p r c / airLine dz air (p r) c else p r c

theorem split_index {dy dz k r c : Nat} (hr : r < dy) (hc : c < dz) :
    ((k * dy + r) * dz + c) / dz / dy = k ∧ ((k * dy + r) * dz + c) / dz % dy = r ∧
      ((k * dy + r) * dz + c) % dz = c := by
  have hz : 0 < dz := by omega
  have hy : 0 < dy := by omega
  have e1 : ((k * dy + r) * dz + c) / dz = k * dy + r := by
    rw [Nat.add_comm, Nat.add_mul_div_right _ _ hz, Nat.div_eq_of_lt hc, Nat.zero_add]
  rw [e1]
  refine ⟨?_, ?_, ?_⟩
  · rw [Nat.add_comm, Nat.add_mul_div_right _ _ hy, Nat.div_eq_of_lt hr, Nat.zero_add]
  · rw [Nat.add_comm, Nat.add_mul_mod_self_right, Nat.mod_eq_of_lt hr]
  · rw [Nat.add_comm, Nat.add_mul_mod_self_right, Nat.mod_eq_of_lt hc]

/-- The C function on the memory of a block does to each projection what it does to it alone. -/
theorem bgBlock_slicewise {dy dz air : Nat} (h1 : 1 ≤ air) (h2 : air ≤ dz) (h3 : 2 ≤ dz) :
    InPlaceSlicewise (bgBlock (K := K) dy dz air) (fun row => row.modifyHead (bgProj dy dz air)) := by
  refine ⟨fun rows => ?_, fun _ => rfl, fun _ => List.length_modifyHead⟩
  obtain ⟨mem, e, hs, -⟩ := normalize_bg_spec (rows.length * dy) dz air (blockMem dy dz rows) h1 h2 h3
  simp only [bgBlock, e]
  apply List.ext_getElem
  · simp
  · intro k hk hk'
    have hk0 : k < rows.length := by simpa using hk
    rw [List.getElem_mapIdx, List.getElem_map]
    rcases hrow : rows[k] with _ | ⟨p, ps⟩
    · rfl
    · simp only [List.modifyHead_cons, List.cons.injEq, and_true]
      funext r c
      unfold bgProj
      by_cases hrc : r < dy ∧ c < dz
      · rw [if_pos hrc, if_pos hrc]
        have hlt : k * dy + r < rows.length * dy :=
          calc k * dy + r < k * dy + dy := by omega
            _ = (k + 1) * dy := by ring
            _ ≤ _ := Nat.mul_le_mul_right _ hk0
        have hmem : ∀ j < dz, blockMem dy dz rows ((k * dy + r) * dz + j) = p r j := by
          intro j hj
          obtain ⟨e1, e2, e3⟩ := split_index (k := k) hrc.1 hj
          unfold blockMem
          rw [e1, e2, e3, List.getD_eq_getElem _ _ hk0, hrow]
          rfl
        rw [hs _ hlt c hrc.2, hmem c hrc.2]
        congr 1
        unfold airLine
        dsimp only
        have ea : (List.range air).map (fun k' => blockMem dy dz rows ((k * dy + r) * dz + k')) =
            (List.range air).map (p r) := by
          apply List.map_congr_left
          intro j hj
          exact hmem j (lt_of_lt_of_le (List.mem_range.1 hj) h2)
        have eb : (List.range air).map (fun k' => blockMem dy dz rows ((k * dy + r) * dz + (dz - 1 - k'))) =
            (List.range air).map fun k' => p r (dz - 1 - k') := by
          apply List.map_congr_left
          intro j hj
          exact hmem _ (by omega)
        rw [ea, eb]
      · rw [if_neg hrc, if_neg hrc]

/-- When the cores and projections can be divided, and what the chunk size then is. -/
theorem ncn_split (cpu n : Nat) (ncore nchunk : Option Nat) :
    ((∃ nc nk, getNcoreNchunk cpu n ncore nchunk = .ok (nc, nk) ∧ (0 < n → (nk = 0 ↔ nchunk = some 0))) ∧
      (nchunk = none → 0 < n ∧ cpu ≠ 0 ∧ ncore ≠ some 0)) ∨
    (getNcoreNchunk cpu n ncore nchunk = .error .zeroDivision ∧ nchunk = none ∧
      (n = 0 ∨ cpu = 0 ∨ ncore = some 0)) := by
  rcases hg : getNcoreNchunk cpu n ncore nchunk with e | ⟨nc, nk⟩
  · cases nchunk with
    | some c => obtain ⟨nc, h⟩ := Stripe.ncn_some_ok cpu n ncore c; rw [h] at hg; cases hg
    | none =>
      obtain ⟨h1, rfl⟩ := Stripe.ncn_none_error hg
      exact Or.inr ⟨rfl, rfl, h1⟩
  · refine Or.inl ⟨⟨nc, nk, rfl, fun hn => ?_⟩, ?_⟩
    · cases nchunk with
      | none =>
        obtain ⟨h1, h2⟩ := Stripe.ncn_none hg
        refine ⟨fun h0 => ?_, fun h => by cases h⟩
        unfold ceilDiv at h2
        rcases Nat.div_eq_zero_iff.1 (h2.symm.trans h0) with h3 | h3 <;> omega
      | some c =>
        have h1 := Stripe.ncn_some hg
        constructor
        · intro h0
          split at h1
          · omega
          · rw [h1, h0]
        · intro hc
          rw [Option.some.injEq] at hc
          rw [← h1, hc]
          simp
    · rintro rfl
      obtain ⟨h1, h2⟩ := Stripe.ncn_none hg
      rw [Stripe.ncn_none_eq] at hg
      refine ⟨?_, ?_, ?_⟩
      · rcases Nat.eq_zero_or_pos n with rfl | h
        · exfalso; revert hg; simp [ceilDiv]
        · exact h
      · rintro rfl
        revert hg
        cases ncore with
        | none => simp [limitCores]
        | some k => simp only [limitCores]; split_ifs <;> simp_all
      · rintro rfl
        revert hg
        simp [limitCores]

/-- **C174** `normalize_bg` divides every projection by the air lines of its own rows, for every
number of cores, chunk size and schedule; it raises only if `nchunk = 0` takes the axis of the
projections away or there are no projections or cores to divide. -/
theorem normalize_bg_distributed {cpu : Nat} {debug : Bool} {n dy dz air : Nat} {ncore nchunk : Option Nat}
    {tomo : Nat → Img K} {result : Except PyErr (Nat → Img K)} (h1 : 1 ≤ air) (h2 : air ≤ dz) (h3 : 2 ≤ dz)
    (h : NormalizeBg cpu debug n dy dz air ncore nchunk tomo result) :
    (∀ Y, result = .ok Y → ∀ i < n, Y i = bgProj dy dz air (tomo i)) ∧
    (∀ e, result = .error e → (nchunk = some 0 ∧ 0 < n ∧ e = .value) ∨
      (nchunk = none ∧ (n = 0 ∨ cpu = 0 ∨ ncore = some 0) ∧ e = .zeroDivision)) := by
  unfold NormalizeBg at h
  rcases ncn_split cpu n ncore nchunk with ⟨⟨nc, nk, hg, h0⟩, -⟩ | ⟨hg, hc, hz⟩
  · rw [hg] at h
    dsimp only at h
    by_cases hb : nk = 0 ∧ 0 < n
    · rw [if_pos hb] at h
      subst h
      refine ⟨fun _ h => (by cases h), fun e he => ?_⟩
      cases he
      exact Or.inl ⟨(h0 hb.2).1 hb.1, hb.2, rfl⟩
    · rw [if_neg hb] at h
      obtain ⟨m, m', res, hm, hd, rfl⟩ := h
      refine ⟨fun Y hY i hi => ?_, fun _ h => (by cases h)⟩
      cases hY
      have key := inplace_result_partial (bgBlock_slicewise (dy := dy) h1 h2 h3) (by simp) (by simp) rfl hd i hi
      simpa [hm i hi] using key
  · rw [hg] at h
    dsimp only at h
    subst h
    exact ⟨fun _ h => (by cases h), fun e he => by cases he; exact Or.inr ⟨hc, hz, rfl⟩⟩

/-- **C174** Every call of `normalize_bg` ends. -/
theorem normalize_bg_total (cpu : Nat) (debug : Bool) (n dy dz air : Nat) (ncore nchunk : Option Nat)
    (tomo : Nat → Img K) : ∃ r, NormalizeBg cpu debug n dy dz air ncore nchunk tomo r := by
  unfold NormalizeBg
  rcases hg : getNcoreNchunk cpu n ncore nchunk with e | ⟨nc, nk⟩
  · exact ⟨_, rfl⟩
  · dsimp only
    split
    · exact ⟨_, rfl⟩
    · obtain ⟨m', res, hd⟩ := distribute_jobs_total cpu debug
        ⟨n, [0], none, fun _ => false, bgBlock dy dz air, ncore, nchunk, fun _ => false⟩ (fun _ => false)
        (fun c : Mproc.Cell => tomo c.2) nc nk hg
      exact ⟨_, _, m', res, fun _ _ => rfl, hd, rfl⟩

/-- **C174** What `normalize_bg` gives for a projection is what it gives for the array that has only
this projection, whatever the numbers of cores, chunk sizes and schedules of the two calls. -/
theorem normalize_bg_alone {cpu cpu' : Nat} {debug debug' : Bool} {n dy dz air : Nat}
    {ncore nchunk ncore' nchunk' : Option Nat} {tomo : Nat → Img K} {Y : Nat → Img K}
    {r : Except PyErr (Nat → Img K)} (h1 : 1 ≤ air) (h2 : air ≤ dz) (h3 : 2 ≤ dz)
    (h : NormalizeBg cpu debug n dy dz air ncore nchunk tomo (.ok Y)) {s : Nat} (hs : s < n)
    (h' : NormalizeBg cpu' debug' 1 dy dz air ncore' nchunk' (fun _ => tomo s) r)
    (hc : cpu' ≠ 0) (hk : ncore' ≠ some 0) (hk' : nchunk' ≠ some 0) : ∃ Y1, r = .ok Y1 ∧ Y s = Y1 0 := by
  have e := (normalize_bg_distributed h1 h2 h3 h).1 Y rfl s hs
  obtain ⟨g1, g2⟩ := normalize_bg_distributed h1 h2 h3 h'
  rcases r with err | Y1
  · exfalso
    rcases g2 err rfl with ⟨h, _⟩ | ⟨_, h | h | h, _⟩
    · exact hk' h
    · exact absurd h one_ne_zero
    · exact hc h
    · exact hk h
  · exact ⟨Y1, rfl, by rw [e, g1 Y1 rfl 0 one_pos]⟩

example : ∃ Y : Nat → Img ℚ, NormalizeBg 4 false 5 2 3 1 (some 3) none (fun s r c => (s + r + c + 1 : ℚ)) (.ok Y) ∧
    Y 2 1 0 = 1 ∧ Y 2 1 1 = 1 ∧ ∃ r, NormalizeBg 8 true 1 2 3 1 none (some 7) (fun _ r c => (2 + r + c + 1 : ℚ)) r := by
  obtain ⟨r, hr⟩ := normalize_bg_total 4 false 5 2 3 1 (some 3) none (fun s r c => (s + r + c + 1 : ℚ))
  obtain ⟨g1, g2⟩ := normalize_bg_distributed (by decide) (by decide) (by decide) hr
  rcases r with e | Y
  · rcases g2 e rfl with ⟨h, _⟩ | ⟨_, h | h | h, _⟩ <;> cases h
  · refine ⟨Y, hr, ?_, ?_, normalize_bg_total ..⟩ <;> rw [g1 Y rfl 2 (by decide)] <;> decide +kernel

/-! ### normalize_roi -/

/-- `_normalize_roi` on an image without NaN is the function of C56, a NaN image if there is no window. -/
theorem roiNan_some (h w r0 r1 r2 r3 : Nat) (p : Img K) :
    roiNan h w r0 r1 r2 r3 (fun y x => some (p y x)) =
      match normalizeRoi h w r0 r1 r2 r3 p with
      | none => fun _ _ => none
      | some q => fun y x => some (q y x) := by
  have e : (((List.range h).filter fun y => r0 ≤ y ∧ y < r2).flatMap fun y =>
      ((List.range w).filter fun x => r1 ≤ x ∧ x < r3).map fun x => some (p y x)) =
      (roiPixels h w r0 r1 r2 r3 p).map some := by
    unfold roiPixels
    rw [List.map_flatMap]
    simp only [List.map_map]
    rfl
  unfold roiNan normalizeRoi
  simp only
  rw [e]
  by_cases h0 : roiPixels h w r0 r1 r2 r3 p = []
  · simp [h0]
  · have : ((roiPixels h w r0 r1 r2 r3 p).map some).map (·.getD 0) = roiPixels h w r0 r1 r2 r3 p := by
      rw [List.map_map]
      conv_rhs => rw [← List.map_id (roiPixels h w r0 r1 r2 r3 p)]
      rfl
    rw [this, if_neg h0, if_neg (by simp [h0])]
    split <;> rfl

/-- **C174** `normalize_roi` never raises, and what becomes of a projection is decided by its own
window alone: NaN if the window has no pixels, unchanged if their sum is 0, otherwise divided by their
mean; for every number of cores and schedule. -/
theorem normalize_roi_distributed {cpu : Nat} {debug : Bool} {n h w r0 r1 r2 r3 : Nat} {ncore : Option Nat}
    {tomo : Nat → Img K} {result : Except PyErr (Nat → NanImg K)}
    (hr : NormalizeRoi cpu debug n h w r0 r1 r2 r3 ncore tomo result) :
    ∃ Y, result = .ok Y ∧ ∀ i < n,
      (windowSize h w r0 r1 r2 r3 = 0 → ∀ y x, Y i y x = none) ∧
      (windowSize h w r0 r1 r2 r3 ≠ 0 →
        (windowSum h w r0 r1 r2 r3 (tomo i) = 0 → ∀ y x, Y i y x = some (tomo i y x)) ∧
        (windowSum h w r0 r1 r2 r3 (tomo i) ≠ 0 → ∀ y x, Y i y x = some (tomo i y x /
          (windowSum h w r0 r1 r2 r3 (tomo i) / windowSize h w r0 r1 r2 r3)))) := by
  unfold NormalizeRoi at hr
  obtain ⟨nc, hg⟩ := Stripe.ncn_some_ok cpu n ncore 0
  rw [hg] at hr
  dsimp only at hr
  obtain ⟨m, m', res, hm, hd, rfl⟩ := hr
  refine ⟨_, rfl, fun i hi => ?_⟩
  have hf : InPlaceSlicewise (roiBlock (K := K) h w r0 r1 r2 r3)
      (fun row => row.modifyHead (roiNan h w r0 r1 r2 r3)) :=
    ⟨fun _ => rfl, fun _ => rfl, fun _ => List.length_modifyHead⟩
  have key := inplace_result_partial hf (by simp) (by simp) rfl hd i hi
  simp only [List.map_cons, List.map_nil, List.modifyHead_cons, List.getLast?_singleton, Option.some.injEq,
    hm i hi, roiNan_some] at key
  obtain ⟨g1, g2⟩ := normalize_roi_window h w r0 r1 r2 r3 (tomo i)
  refine ⟨fun h0 y x => by rw [key, g1 h0], fun h0 => ⟨fun hs y x => by rw [key, (g2 h0).1 hs], fun hs y x => ?_⟩⟩
  obtain ⟨q, hq, hv, -⟩ := (g2 h0).2 hs
  rw [key, hq]
  have hsz : (windowSize h w r0 r1 r2 r3 : K) ≠ 0 := by exact_mod_cast h0
  have := hv y x
  simp only [Option.some.injEq]
  field_simp
  linarith

/-- **C174** Every call of `normalize_roi` ends. -/
theorem normalize_roi_total (cpu : Nat) (debug : Bool) (n h w r0 r1 r2 r3 : Nat) (ncore : Option Nat)
    (tomo : Nat → Img K) : ∃ r, NormalizeRoi cpu debug n h w r0 r1 r2 r3 ncore tomo r := by
  unfold NormalizeRoi
  rcases hg : getNcoreNchunk cpu n ncore (some 0) with e | ⟨nc, nk⟩
  · exact ⟨_, rfl⟩
  · obtain ⟨m', res, hd⟩ := distribute_jobs_total cpu debug
      ⟨n, [0], none, fun _ => false, roiBlock h w r0 r1 r2 r3, ncore, some 0, fun _ => false⟩ (fun _ => false)
      (fun c : Mproc.Cell => fun y x => some (tomo c.2 y x)) nc nk hg
    exact ⟨_, _, m', res, fun _ _ => rfl, hd, rfl⟩

/-- **C174** What `normalize_roi` gives for a projection is what it gives for the array that has only
this projection. -/
theorem normalize_roi_alone {cpu cpu' : Nat} {debug debug' : Bool} {n h w r0 r1 r2 r3 : Nat}
    {ncore ncore' : Option Nat} {tomo : Nat → Img K} {Y Y1 : Nat → NanImg K}
    (hr : NormalizeRoi cpu debug n h w r0 r1 r2 r3 ncore tomo (.ok Y)) {s : Nat} (hs : s < n)
    (h' : NormalizeRoi cpu' debug' 1 h w r0 r1 r2 r3 ncore' (fun _ => tomo s) (.ok Y1)) : Y s = Y1 0 := by
  obtain ⟨Z, e, g⟩ := normalize_roi_distributed hr
  cases e
  obtain ⟨Z, e, g'⟩ := normalize_roi_distributed h'
  cases e
  funext y x
  obtain ⟨a1, a2⟩ := g s hs
  obtain ⟨b1, b2⟩ := g' 0 one_pos
  by_cases h0 : windowSize h w r0 r1 r2 r3 = 0
  · rw [a1 h0, b1 h0]
  · by_cases hw : windowSum h w r0 r1 r2 r3 (tomo s) = 0
    · rw [(a2 h0).1 hw, (b2 h0).1 hw]
    · rw [(a2 h0).2 hw, (b2 h0).2 hw]

example : ∃ Y Y1 : Nat → NanImg ℚ,
    NormalizeRoi 4 false 5 2 3 0 0 2 2 (some 3) (fun s r c => (s + r + c + 1 : ℚ)) (.ok Y) ∧
    NormalizeRoi 1 true 1 2 3 0 0 2 2 none (fun _ r c => (2 + r + c + 1 : ℚ)) (.ok Y1) ∧
    Y 2 0 0 = some (3 / 4) ∧ Y 2 0 0 = Y1 0 0 0 := by
  obtain ⟨r, hr⟩ := normalize_roi_total 4 false 5 2 3 0 0 2 2 (some 3) (fun s r c => (s + r + c + 1 : ℚ))
  obtain ⟨Y, rfl, g⟩ := normalize_roi_distributed hr
  obtain ⟨r, h'⟩ := normalize_roi_total 1 true 1 2 3 0 0 2 2 none (fun _ r c => (((2 : Nat) : ℚ) + r + c + 1))
  obtain ⟨Y1, rfl, -⟩ := normalize_roi_distributed h'
  have hw : windowSum (K := ℚ) 2 3 0 0 2 2 (fun r c => (((2 : Nat) : ℚ) + r + c + 1)) = 16 := by decide +kernel
  refine ⟨Y, Y1, hr, by exact_mod_cast h', ?_, by rw [normalize_roi_alone hr (by decide) h']⟩
  rw [((g 2 (by decide)).2 (by decide)).2 (by rw [hw]; norm_num), hw]
  norm_num [windowSize]

end Tomopy.Normalize
