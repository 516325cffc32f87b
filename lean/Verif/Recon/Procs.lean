import Verif.Recon.ProcsModel
import Verif.Recon.Lemmas
import Verif.Mproc.Props
import Mathlib.Data.Int.CardIntervalMod

/-! C201: accelerated reconstruction in several processes. -/

set_option linter.unusedSectionVars false

namespace Tomopy.Recon
open Tomopy.Mproc

variable {α β ε : Type}

theorem lookup_zip_none {c : List Nat} {rows : List α} {i : Nat} (h : i ∉ c) : (c.zip rows).lookup i = none := by
  induction c generalizing rows with
  | nil => simp
  | cons a c ih =>
    cases rows with
    | nil => simp
    | cons r rows =>
      have h1 : i ≠ a := fun e => h (e ▸ List.mem_cons_self)
      rw [List.zip_cons_cons, List.lookup_cons, beq_false_of_ne h1]
      exact ih fun hm => h (List.mem_cons_of_mem _ hm)

theorem writeRows_outside (recon : Nat → α) (c : List Nat) (rows : List α) (i : Nat) (h : i ∉ c) :
    writeRows recon c rows i = recon i := by
  unfold writeRows
  rw [lookup_zip_none h]
  rfl

theorem writeRows_map (recon : Nat → α) (c : List Nat) (f : Nat → α) (i : Nat) (h : i ∈ c) :
    writeRows recon c (c.map f) i = f i := by
  unfold writeRows
  induction c with
  | nil => cases h
  | cons a c ih =>
    rw [List.map_cons, List.zip_cons_cons, List.lookup_cons]
    by_cases e : i = a
    · subst e; simp
    · rw [beq_false_of_ne e]
      exact ih ((List.mem_cons.1 h).resolve_left e)

/-- **C201** If the device does not matter to the algorithm, the process pool ends as one group after the other would:
with the same images, also if a group raises, and with the same exception. -/
theorem proc_eq_serial (worker : AccelWorker α β ε) (hw : ∀ d d' rows, worker d rows = worker d' rows) (dev : Option Nat)
    (chunks : List (List Nat)) (hd : chunks.flatten.Nodup) (tomo : Nat → β) (recon : Nat → α) :
    procRecon worker chunks tomo recon = serialRecon worker dev tomo chunks recon := by
  have key : ∀ (cs : List (List Nat)) (r : Nat → α), cs.flatten.Nodup → (∀ i ∈ cs.flatten, r i = recon i) →
      collect (cs.map fun c => (c, worker dev (rowsOf tomo recon c))) r = serialRecon worker dev tomo cs r := by
    intro cs
    induction cs with
    | nil => intro r _ _; rfl
    | cons c cs ih =>
      intro r hn hr
      rw [List.flatten_cons, List.nodup_append] at hn
      have e : rowsOf tomo r c = rowsOf tomo recon c := by
        unfold rowsOf
        refine List.map_congr_left fun i hi => ?_
        rw [hr i (by rw [List.flatten_cons]; exact List.mem_append_left _ hi)]
      rw [List.map_cons, serialRecon, e]
      cases worker dev (rowsOf tomo recon c) with
      | error x => rfl
      | ok rows =>
        rw [collect]
        refine ih _ hn.2.1 fun i hi => ?_
        rw [writeRows_outside r c rows i fun hc => hn.2.2 i hc i hi rfl]
        exact hr i (by rw [List.flatten_cons]; exact List.mem_append_right _ hi)
  have e : futures worker chunks tomo recon = chunks.map fun c => (c, worker dev (rowsOf tomo recon c)) := by
    unfold futures
    rw [List.mapIdx_eq_iff]
    intro i
    rw [List.getElem?_map]
    cases chunks[i]? with
    | none => rfl
    | some c => simp only [Option.map_some, hw (some i) dev]
  unfold procRecon
  rw [e]
  exact key chunks recon hd fun _ _ => rfl

/-- **C201** If groups raise, the exception of the first of them in the order of the slices is raised, whichever process
ends first; the images are those of the groups before it, and all other slices keep the images they had, although they
were computed. -/
theorem proc_raises_first (worker : AccelWorker α β ε) (pre post : List (List Nat)) (c : List Nat) (tomo : Nat → β)
    (recon : Nat → α) (e : ε)
    (hpre : ∀ k p, pre[k]? = some p → ∃ rows, worker (some k) (rowsOf tomo recon p) = .ok rows)
    (hc : worker (some pre.length) (rowsOf tomo recon c) = .error e) :
    procRecon worker (pre ++ c :: post) tomo recon = ((procRecon worker pre tomo recon).1, some e) ∧
      (procRecon worker pre tomo recon).2 = none ∧
      ∀ i, i ∉ pre.flatten → (procRecon worker pre tomo recon).1 i = recon i := by
  have key : ∀ (pre : List (List Nat)) (fs : List (List Nat × Except ε (List α))) (r : Nat → α),
      fs.length = pre.length → (∀ (k : Nat) (p : List Nat), pre[k]? = some p → ∃ rows : List α, fs[k]? = some (p, Except.ok rows)) →
      ∀ rest, collect (fs ++ (c, .error e) :: rest) r = ((collect fs r).1, some e) ∧ (collect fs r).2 = none ∧
        ∀ i, i ∉ pre.flatten → (collect fs r).1 i = r i := by
    intro pre
    induction pre with
    | nil =>
      intro fs r hl _ rest
      obtain rfl := List.length_eq_zero_iff.1 hl
      exact ⟨rfl, rfl, fun _ _ => rfl⟩
    | cons p pre ih =>
      intro fs r hl hf rest
      obtain ⟨rows, hr⟩ := hf 0 p rfl
      cases fs with
      | nil => cases hl
      | cons f fs =>
        simp only [List.getElem?_cons_zero, Option.some.injEq] at hr
        subst hr
        obtain ⟨h1, h2, h3⟩ := ih fs (writeRows r p rows) (by simpa using hl) (fun k q hk => hf (k + 1) q hk) rest
        rw [List.cons_append, collect, collect]
        refine ⟨h1, h2, fun i hi => ?_⟩
        rw [List.flatten_cons, List.mem_append, not_or] at hi
        rw [h3 i hi.2, writeRows_outside r p rows i hi.1]
  have e : futures worker (pre ++ c :: post) tomo recon
      = futures worker pre tomo recon ++ (c, .error e) ::
        (post.mapIdx fun k p => (p, worker (some (pre.length + 1 + k)) (rowsOf tomo recon p))) := by
    unfold futures
    rw [List.mapIdx_append, List.mapIdx_cons]
    simp only [Nat.zero_add, hc]
    congr 2
    refine List.ext_getElem? fun k => ?_
    simp only [List.getElem?_mapIdx]
    congr 1
    funext p
    rw [show k + 1 + pre.length = pre.length + 1 + k by omega]
  unfold procRecon
  rw [e]
  refine key pre _ recon (by simp [futures]) ?_ _
  intro k p hk
  obtain ⟨rows, hr⟩ := hpre k p hk
  refine ⟨rows, ?_⟩
  unfold futures
  rw [List.getElem?_mapIdx, hk, Option.map_some, hr]

theorem serial_slicewise (f : β → α → α) (dev : Option Nat) (tomo : Nat → β) (worker : AccelWorker α β ε)
    (hw : ∀ d rows, worker d rows = .ok (rows.map fun p => f p.1 p.2)) (chunks : List (List Nat)) (r : Nat → α)
    (hn : chunks.flatten.Nodup) :
    (serialRecon worker dev tomo chunks r).2 = none ∧ ∀ i, (serialRecon worker dev tomo chunks r).1 i
      = if i ∈ chunks.flatten then f (tomo i) (r i) else r i := by
  induction chunks generalizing r with
  | nil => exact ⟨rfl, fun i => by simp [serialRecon]⟩
  | cons c cs ih =>
    rw [List.flatten_cons, List.nodup_append] at hn
    have e : (rowsOf tomo r c).map (fun p => f p.1 p.2) = c.map fun i => f (tomo i) (r i) := by
      unfold rowsOf
      rw [List.map_map]
      rfl
    rw [serialRecon, hw, e]
    obtain ⟨h1, h2⟩ := ih (writeRows r c (c.map fun i => f (tomo i) (r i))) hn.2.1
    refine ⟨h1, fun i => ?_⟩
    dsimp only
    rw [h2 i, List.flatten_cons]
    by_cases hc : i ∈ c
    · have hcs : i ∉ cs.flatten := fun h => hn.2.2 i hc i h rfl
      rw [if_neg hcs, writeRows_map r c _ i hc, if_pos (List.mem_append_left _ hc)]
    · by_cases hcs : i ∈ cs.flatten
      · rw [if_pos hcs, writeRows_outside r c _ i hc, if_pos (List.mem_append_right _ hcs)]
      · rw [if_neg hcs, writeRows_outside r c _ i hc, if_neg]
        rw [List.mem_append]
        exact fun h => h.elim hc hcs

theorem chunks_flatten {cpu n : Nat} (hcpu : 1 ≤ cpu) {ncore nchunk : Option Nat} {k : Nat} {slcs : List Slc}
    (h : getNcoreSlices cpu n ncore nchunk = .ok (k, slcs)) : (useChunks n slcs).flatten = List.range n := by
  rw [useChunks_flatten, slices_flatten hcpu h]

/-- **C201** An accelerated algorithm that treats every slice by itself gives the same images for every `ncore`,
`nchunk`, thread limit and device: each slice is reconstructed exactly once, from its own data, centre and start image. -/
theorem accel_slicewise (cpu n : Nat) (hcpu : 1 ≤ cpu) (hn : 1 ≤ n) (ncore nchunk limit : Option Nat)
    (hl : limit ≠ some 0) (f : β → α → α) (worker : AccelWorker α β ε)
    (hw : ∀ d rows, worker d rows = .ok (rows.map fun p => f p.1 p.2)) (dev : Option Nat) (tomo : Nat → β)
    (recon : Nat → α) :
    ∃ out, distAccel cpu n ncore nchunk limit worker dev tomo recon = .ok (some (out, none)) ∧
      ∀ i, out i = if i < n then f (tomo i) (recon i) else recon i := by
  obtain ⟨k, slcs, hs, hcov, hne, hk1, hk2⟩ := ncore_slices_cover cpu n hcpu hn ncore nchunk
  have hfl := chunks_flatten hcpu hs
  have hnd : (useChunks n slcs).flatten.Nodup := by rw [hfl]; exact List.nodup_range
  have hlen : 0 < (useChunks n slcs).length := by
    rw [List.length_pos_iff]
    intro h0
    rw [h0] at hfl
    have := congrArg List.length hfl
    simp at this
    omega
  have hslen : 0 < slcs.length := by
    rw [List.length_pos_iff]
    rintro rfl
    simp [useChunks] at hlen
  obtain ⟨h1, h2⟩ := serial_slicewise f dev tomo worker hw (useChunks n slcs) recon hnd
  have heq := proc_eq_serial worker (fun d d' rows => by rw [hw, hw]) dev (useChunks n slcs) hnd tomo recon
  refine ⟨(serialRecon worker dev tomo (useChunks n slcs) recon).1, ?_, fun i => ?_⟩
  · unfold distAccel
    rw [hs]
    dsimp only
    rw [heq]
    have hpos : limitedCores (if (useChunks n slcs).length < min k slcs.length then (useChunks n slcs).length
        else min k slcs.length) limit ≠ 0 := by
      unfold limitedCores
      cases limit with
      | none => dsimp only; split <;> omega
      | some l =>
        have : l ≠ 0 := fun h => hl (by rw [h])
        dsimp only
        split <;> split <;> omega
    rw [if_neg hpos, ite_self]
    have : serialRecon worker dev tomo (useChunks n slcs) recon
        = ((serialRecon worker dev tomo (useChunks n slcs) recon).1, none) := by rw [← h1]
    rw [this]
  · rw [h2 i, hfl]
    simp only [List.mem_range]

/-- **C201** The groups are dealt to the devices in turn: of `groups` groups device `k` of `devices` gets the same number
as every other one, or one more. -/
theorem devices_balanced (devices groups k counter : Nat) (hk : k < devices) :
    (List.range groups).countP (fun idx => decide (deviceOf devices counter (some idx) = k))
      = groups / devices + if k < groups % devices then 1 else 0 := by
  have h := Nat.count_modEq_card groups (show 0 < devices by omega) k
  rw [Nat.mod_eq_of_lt hk] at h
  rw [← h]
  clear h
  induction groups with
  | zero => rfl
  | succ g ih =>
    rw [List.range_succ, List.countP_append, ih, Nat.count_succ]
    congr 1
    have hd : deviceOf devices counter (some g) = g % devices := rfl
    have hm : (g ≡ k [MOD devices]) ↔ g % devices = k := by rw [Nat.ModEq, Nat.mod_eq_of_lt hk]
    rw [List.countP_singleton, hd]
    by_cases hg : g % devices = k
    · rw [if_pos (decide_eq_true hg), if_pos (hm.2 hg)]
    · rw [if_neg (by rw [decide_eq_true_eq]; exact hg), if_neg fun h => hg (hm.1 h)]

/-- **C201** In every case the device exists; without TOMOPY_DEVICE_NUM the calls of one process take the devices in
turn. -/
theorem device_exists (devices counter : Nat) (env : Option Nat) (h : 0 < devices) :
    deviceOf devices counter env < devices ∧ deviceOf devices counter none = counter % devices := by
  unfold deviceOf
  exact ⟨Nat.mod_lt _ h, by simp⟩

/-- A worker of three slices in three groups that fails on even data. -/
def demoWorker : AccelWorker Nat Nat String := fun _ rows =>
  if rows.any (fun p => p.1 % 2 == 0) then .error "even" else .ok (rows.map fun p => p.1 + p.2)

example : (procRecon demoWorker [[0], [1], [2]] (fun i => 2 * i + 1 - i % 2) (fun _ => 7)).2 = some "even" ∧
    (procRecon demoWorker [[0], [1], [2]] (fun i => 2 * i + 1 - i % 2) (fun _ => 7)).1 0 = 8 ∧
    (procRecon demoWorker [[0], [1], [2]] (fun i => 2 * i + 1 - i % 2) (fun _ => 7)).1 2 = 7 := by decide

example : ∀ (d d' : Option Nat) (rows : List (Nat × Nat)), demoWorker d rows = demoWorker d' rows := fun _ _ _ => rfl

example : ∃ out, distAccel 8 5 none (some 2) none (fun _ rows => .ok (rows.map fun p => p.1 + p.2) : AccelWorker Nat Nat String)
    none (fun i => i) (fun _ => 10) = .ok (some (out, none)) ∧ ∀ i, out i = if i < 5 then i + 10 else 10 :=
  accel_slicewise 8 5 (by omega) (by omega) none (some 2) none (by decide) (fun b a => b + a) _ (fun _ _ => rfl) none _ _

example : (List.range 5).countP (fun idx => decide (deviceOf 2 0 (some idx) = 0)) = 3 := by decide

end Tomopy.Recon
