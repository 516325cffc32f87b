import Verif.Mproc.Model
import Verif.Par.Lemmas
import Mathlib.Data.List.Nodup
import Mathlib.Data.List.Range
import Mathlib.Tactic.Ring
import Mathlib.Data.List.Dedup

/-! Helper lemmas for the work-splitting model. -/
namespace Tomopy.Mproc
open Tomopy.Par

theorem offsets_eq_cons (o : Nat) (ss : List Nat) :
    offsets o ss = o :: (offsets o ss).tail := by
  cases ss <;> rfl

theorem zip_offsets_cons (o s : Nat) (ss : List Nat) :
    List.zipWith Slc.range (offsets o (s :: ss)) (offsets o (s :: ss)).tail
      = Slc.range o (o + s) ::
        List.zipWith Slc.range (offsets (o + s) ss) (offsets (o + s) ss).tail := by
  simp only [offsets, List.tail_cons]
  rw [offsets_eq_cons (o + s) ss]
  simp

theorem flatMap_zip_offsets (n : Nat) (ss : List Nat) :
    ∀ o, o + ss.sum ≤ n →
      (List.zipWith Slc.range (offsets o ss) (offsets o ss).tail).flatMap (Slc.indices n)
        = List.range' o ss.sum := by
  induction ss with
  | nil => intro o _; simp [offsets]
  | cons s ss ih =>
    intro o h
    rw [zip_offsets_cons, List.flatMap_cons, ih (o + s) (by simp at h; omega)]
    simp only [List.sum_cons] at h ⊢
    simp only [Slc.indices]
    rw [show min (o + s) n - o = s by omega]
    rw [List.range'_append_1]

theorem length_zip_offsets (ss : List Nat) : ∀ o,
    (List.zipWith Slc.range (offsets o ss) (offsets o ss).tail).length = ss.length := by
  induction ss with
  | nil => intro o; rfl
  | cons s ss ih => intro o; rw [zip_offsets_cons]; simp [ih]

theorem map_len_zip_offsets (n : Nat) (ss : List Nat) :
    ∀ o, o + ss.sum ≤ n →
      (List.zipWith Slc.range (offsets o ss) (offsets o ss).tail).map
        (fun s => (Slc.indices n s).length) = ss := by
  induction ss with
  | nil => intro o _; simp [offsets]
  | cons s ss ih =>
    intro o h
    rw [zip_offsets_cons]
    simp only [List.sum_cons] at h
    rw [List.map_cons, ih (o + s) (by omega)]
    congr 1
    simp only [Slc.indices, List.length_range']
    omega

theorem sum_map_if (a r k : Nat) :
    ((List.range k).map fun i => a + if i < r then 1 else 0).sum = k * a + min r k := by
  induction k with
  | zero => simp
  | succ k ih =>
    rw [List.range_succ, List.map_append, List.sum_append, ih]
    simp only [List.map_cons, List.map_nil, List.sum_cons, List.sum_nil]
    split <;> (rw [Nat.succ_mul]; omega)

theorem sum_evenSizes (axis k : Nat) (hk : 0 < k) : (evenSizes axis k).sum = axis := by
  unfold evenSizes
  rw [sum_map_if]
  have h1 := Nat.mod_lt axis hk
  rw [Nat.min_eq_left (Nat.le_of_lt h1)]
  exact Nat.div_add_mod axis k

theorem evenSlices_cover (axis k : Nat) (hk : 0 < k) :
    (evenSlices axis k).flatMap (Slc.indices axis) = List.range axis := by
  have h := sum_evenSizes axis k hk
  have := flatMap_zip_offsets axis (evenSizes axis k) 0 (by omega)
  rw [h, ← List.range_eq_range'] at this
  exact this

theorem chunk_cover_aux (n c k : Nat) :
    ((List.range k).map fun j => Slc.range (j * c) (j * c + c)).flatMap (Slc.indices n)
      = List.range (min (k * c) n) := by
  induction k with
  | zero => simp
  | succ k ih =>
    rw [List.range_succ, List.map_append, List.flatMap_append, ih]
    simp only [List.map_cons, List.map_nil, List.flatMap_cons, List.flatMap_nil,
      List.append_nil, Slc.indices]
    rw [Nat.succ_mul]
    rw [List.range_eq_range', List.range_eq_range']
    by_cases h : k * c ≤ n
    · rw [Nat.min_eq_left h]
      have := List.range'_append_1 (s := 0) (m := k * c) (n := min (k * c + c) n - k * c)
      rw [Nat.zero_add] at this
      rw [this]
      congr 1
      omega
    · rw [show min (k * c) n = n by omega, show min (k * c + c) n - k * c = 0 by omega,
        show min (k * c + c) n = n by omega]
      simp

theorem le_ceil_mul (n c : Nat) (hc : 0 < c) : n ≤ (n + c - 1) / c * c := by
  have h := Nat.div_add_mod (n + c - 1) c
  have h2 := Nat.mod_lt (n + c - 1) hc
  rw [Nat.mul_comm] at h
  omega

theorem chunkSlices_cover (n c : Nat) (hc : 0 < c) :
    (chunkSlices n c).flatMap (Slc.indices n) = List.range n := by
  unfold chunkSlices pyRange
  rw [List.map_map]
  have := chunk_cover_aux n c ((n + c - 1) / c)
  rw [Nat.min_eq_right (le_ceil_mul n c hc)] at this
  exact this

theorem idx_cover (n : Nat) :
    ((List.range n).map Slc.idx).flatMap (Slc.indices n) = List.range n := by
  rw [List.flatMap_map]
  have : ∀ (k : Nat), k ≤ n → (List.range k).flatMap (fun i => Slc.indices n (Slc.idx i))
      = List.range k := by
    intro k
    induction k with
    | zero => simp
    | succ k ih =>
      intro h
      rw [List.range_succ, List.flatMap_append, ih (by omega)]
      simp [Slc.indices, show k < n by omega]
  exact this n (Nat.le_refl n)

theorem pyRange_one (n : Nat) : pyRange n 1 = List.range n := by
  simp [pyRange]

theorem jobSlices_cover (n c : Nat) :
    (jobSlices n c).flatMap (Slc.indices n) = List.range n := by
  unfold jobSlices
  split
  · rw [pyRange_one]; exact idx_cover n
  · exact chunkSlices_cover n c (by omega)

/-- every chunk-slice in range is non-empty -/
theorem chunkSlices_nonempty (n c : Nat) (hc : 0 < c) :
    ∀ s ∈ chunkSlices n c, Slc.indices n s ≠ [] := by
  intro s hs
  simp only [chunkSlices, pyRange, List.mem_map, List.mem_range] at hs
  obtain ⟨o, ⟨j, hj, rfl⟩, rfl⟩ := hs
  have : j * c < n := by
    have h1 : j + 1 ≤ (n + c - 1) / c := hj
    rw [Nat.le_div_iff_mul_le hc, Nat.succ_mul] at h1
    omega
  intro h
  have h2 := congrArg List.length h
  simp only [Slc.indices, List.length_range', List.length_nil] at h2
  omega

theorem ceilDiv_le (a b : Nat) (hb : 0 < b) : ceilDiv a b ≤ a := by
  unfold ceilDiv
  rw [Nat.div_le_iff_le_mul hb]
  rcases Nat.eq_zero_or_pos a with h | h
  · subst h; omega
  · have : a * 1 ≤ a * b := Nat.mul_le_mul_left a hb
    cases b with
    | zero => omega
    | succ b =>
      rw [Nat.mul_succ]
      have : b ≤ a * b := Nat.le_mul_of_pos_left b h
      omega

theorem ceilDiv_pos (a b : Nat) (ha : 0 < a) (hb : 0 < b) : 0 < ceilDiv a b := by
  unfold ceilDiv
  exact Nat.div_pos (by omega) hb

/-! ### Programs of single chunks -/

variable {α β : Type}

theorem within_readRows {R W : Cell → Prop} (ins : List Buf) (is : List Nat) :
    ∀ (k : List (List α) → Prog Cell α), (∀ b ∈ ins, ∀ i ∈ is, R (b, i)) →
      (∀ rows, rows.length = is.length → (k rows).Within R W) →
      (readRows ins is k).Within R W := by
  induction is with
  | nil => intro k _ hk; exact hk [] rfl
  | cons i is ih =>
    intro k h hk
    refine within_readAll _ _ ?_ ?_
    · intro l hl
      obtain ⟨b, hb, rfl⟩ := List.mem_map.1 hl
      exact h b hb i List.mem_cons_self
    · intro row _
      refine ih _ (fun b hb j hj => h b hb j (List.mem_cons_of_mem _ hj)) ?_
      intro rows hr
      exact hk _ (by simp [hr])

theorem run_readRows (ins : List Buf) (is : List Nat) :
    ∀ (k : List (List α) → Prog Cell α) (m : Cell → α),
      (readRows ins is k).run m = (k (is.map fun i => ins.map fun b => m (b, i))).run m := by
  induction is with
  | nil => intro k m; rfl
  | cons i is ih =>
    intro k m
    simp only [readRows, run_readAll, ih, List.map_cons, List.map_map]
    rfl

/-- cells a chunk may read -/
def rd (ins : List Buf) (c : List Nat) : Cell → Prop := fun l => l.1 ∈ ins ∧ l.2 ∈ c
/-- cells a chunk may write -/
def wr (ins : List Buf) (out : Buf) (c : List Nat) : Cell → Prop :=
  fun l => (l.1 ∈ ins ∨ l.1 = out) ∧ l.2 ∈ c

theorem rowWrites_mem {ins : List Buf} {is : List Nat} {rows : List (List α)} {p : Cell × α}
    (h : p ∈ rowWrites ins is rows) : p.1.1 ∈ ins ∧ p.1.2 ∈ is := by
  simp only [rowWrites, List.mem_flatMap, List.mem_map] at h
  obtain ⟨a, ha, q, hq, rfl⟩ := h
  exact ⟨(List.of_mem_zip hq).1, (List.of_mem_zip ha).1⟩

theorem outWrites_mem {out : Buf} {is : List Nat} {r : Option (List α)} {p : Cell × α}
    (h : p ∈ outWrites out is r) : p.1.1 = out ∧ p.1.2 ∈ is := by
  cases r with
  | none => cases h
  | some r =>
    simp only [outWrites, List.mem_map] at h
    obtain ⟨a, ha, rfl⟩ := h
    exact ⟨rfl, (List.of_mem_zip ha).1⟩

theorem within_chunkProg (ins : List Buf) (out : Buf) (f : BlockFun α) (c : List Nat) :
    (chunkProg ins out f c).Within (rd ins c) (wr ins out c) := by
  refine within_readRows _ _ _ (fun b hb i hi => ⟨hb, hi⟩) ?_
  intro rows _
  refine within_writeAll _ ?_
  intro p hp
  rcases List.mem_append.1 hp with h | h
  · have := rowWrites_mem h; exact ⟨Or.inl this.1, this.2⟩
  · have := outWrites_mem h; exact ⟨Or.inr this.1, this.2⟩

theorem run_chunkProg (ins : List Buf) (out : Buf) (f : BlockFun α) (c : List Nat)
    (m : Cell → α) :
    (chunkProg ins out f c).run m =
      (Prog.writeAll (outWrites out c (f.ret (c.map fun i => ins.map fun b => m (b, i))))).run
        ((Prog.writeAll (rowWrites ins c
          (f.inplace (c.map fun i => ins.map fun b => m (b, i))))).run m) := by
  unfold chunkProg
  rw [run_readRows, run_writeAll_append]

/-- function that computes each slice from the slices at the same position and does not
modify its arguments -/
theorem run_chunkProg_pure (ins : List Buf) (out : Buf) (f : BlockFun α) (g : List α → α)
    (hret : ∀ rows, f.ret rows = some (rows.map g))
    (c : List Nat) (hn : c.Nodup) (m : Cell → α) (i : Nat) (hi : i ∈ c) :
    (chunkProg ins out f c).run m (out, i) = g (ins.map fun b => m (b, i)) := by
  rw [run_chunkProg, hret, List.map_map]
  have hz : ∀ (h : Nat → α) (c : List Nat), (c.zip (c.map h)) = c.map fun i => (i, h i) := by
    intro h c
    induction c with
    | nil => rfl
    | cons a as ih => simp [ih]
  apply run_writeAll_mem
  · simp only [outWrites, hz, List.map_map]
    refine (List.nodup_map_iff_inj_on hn).2 ?_
    intro x _ y _ e
    simpa using e
  · simp only [outWrites, hz, List.map_map]
    exact List.mem_map.2 ⟨i, hi, rfl⟩

theorem zip_map_self (h : Nat → β) (c : List Nat) :
    (c.zip (c.map h)) = c.map fun i => (i, h i) := by
  induction c with
  | nil => rfl
  | cons a as ih => simp [ih]

theorem rowWrites_nodup (ins : List Buf) (hins : ins.Nodup) (c : List Nat) (hc : c.Nodup)
    (h : Nat → List α) : ((rowWrites ins c (c.map h)).map Prod.fst).Nodup := by
  unfold rowWrites
  rw [zip_map_self, List.flatMap_map, List.map_flatMap]
  rw [List.nodup_flatMap]
  constructor
  · intro i _
    rw [List.map_map]
    have : (List.map (Prod.fst ∘ fun (q : Buf × α) => ((q.1, i), q.2)) (ins.zip (h i)))
        = ((ins.zip (h i)).map Prod.fst).map fun b => (b, i) := by
      rw [List.map_map]; rfl
    rw [this]
    refine List.Nodup.map (fun x y e => by simpa using e) ?_
    have hz : ∀ (l : List Buf) (r : List α), ((l.zip r).map Prod.fst).Sublist l := by
      intro l
      induction l with
      | nil => intro r; simp
      | cons a as ih =>
        intro r
        cases r with
        | nil => simp
        | cons b bs => simpa using ih bs
    exact hins.sublist (hz _ _)
  · refine hc.imp ?_
    intro a b hab l hl hl'
    simp only [List.map_map, List.mem_map] at hl hl'
    obtain ⟨q, _, rfl⟩ := hl
    obtain ⟨q', _, e⟩ := hl'
    exact hab (by simpa using (congrArg Prod.snd e).symm)

/-- function that modifies its argument views in place and returns `None` -/
theorem run_chunkProg_inplace (ins : List Buf) (hins : ins.Nodup) (out : Buf)
    (f : BlockFun α) (h : List α → List α)
    (hlen : ∀ row, (h row).length = row.length)
    (hinp : ∀ rows, f.inplace rows = rows.map h) (hret : ∀ rows, f.ret rows = none)
    (c : List Nat) (hn : c.Nodup) (m : Cell → α) (i : Nat) (hi : i ∈ c) :
    ins.map (fun b => (chunkProg ins out f c).run m (b, i))
      = h (ins.map fun b => m (b, i)) := by
  refine List.ext_getElem (by simp [hlen]) ?_
  intro k hk hk'
  rw [List.getElem_map]
  have e := congrFun (run_chunkProg ins out f c m) (ins[k]'(by simpa using hk), i)
  rw [e, hret]
  simp only [outWrites, Prog.writeAll, Prog.run, hinp, List.map_map]
  apply run_writeAll_mem
  · exact rowWrites_nodup ins hins c hn _
  · unfold rowWrites
    rw [zip_map_self, List.flatMap_map, List.mem_flatMap]
    refine ⟨i, hi, ?_⟩
    rw [List.mem_map]
    simp only [List.length_map] at hk
    refine ⟨(ins[k], (h (ins.map fun b => m (b, i)))[k]), ?_, rfl⟩
    rw [List.mem_iff_getElem]
    exact ⟨k, by simp [hlen]; omega, by simp⟩

/-! ### Pool and serial execution -/

theorem flatMap_get_mem {chunks : List (List Nat)} {n : Nat}
    (hc : chunks.flatten = List.range n) {k i : Nat} {c : List Nat}
    (hk : chunks[k]? = some c) (hi : i ∈ c) : i < n := by
  have : i ∈ chunks.flatten := List.mem_flatten.2 ⟨c, List.mem_of_getElem? hk, hi⟩
  rw [hc] at this
  exact List.mem_range.1 this

theorem flatten_nodup_disjoint : ∀ {chunks : List (List Nat)}, chunks.flatten.Nodup →
    ∀ {k l : Nat} {c d : List Nat}, k ≠ l → chunks[k]? = some c → chunks[l]? = some d →
    ∀ i, i ∈ c → i ∉ d := by
  intro chunks h k l c d hkl hk hl i hic hid
  rw [List.nodup_flatten] at h
  have hp := h.2
  rw [List.pairwise_iff_getElem] at hp
  obtain ⟨hk1, hk2⟩ := List.getElem?_eq_some_iff.1 hk
  obtain ⟨hl1, hl2⟩ := List.getElem?_eq_some_iff.1 hl
  rcases Nat.lt_or_gt_of_ne hkl with hlt | hlt
  · have := hp k l hk1 hl1 hlt
    rw [hk2, hl2] at this
    exact this hic hid
  · have := hp l k hl1 hk1 hlt
    rw [hk2, hl2] at this
    exact this hid hic

/-- footprint of the task of chunk k -/
def rdK (ins : List Buf) (chunks : List (List Nat)) (k : Nat) : Cell → Prop :=
  fun l => ∃ c, chunks[k]? = some c ∧ rd ins c l
def wrK (ins : List Buf) (out : Buf) (chunks : List (List Nat)) (k : Nat) : Cell → Prop :=
  fun l => ∃ c, chunks[k]? = some c ∧ wr ins out c l

theorem within_mono {L V : Type} {R W R' W' : L → Prop} (hR : ∀ l, R l → R' l)
    (hW : ∀ l, W l → W' l) (p : Prog L V) (h : p.Within R W) : p.Within R' W' := by
  induction p with
  | done => trivial
  | read l k ih => exact ⟨hR l h.1, fun v => ih v (h.2 v)⟩
  | write l v k ih => exact ⟨hW l h.1, ih h.2⟩

theorem disjointK (ins : List Buf) (out : Buf) {chunks : List (List Nat)}
    (h : chunks.flatten.Nodup) : NonInterfering (rdK ins chunks) (wrK ins out chunks) := by
  intro k l hkl x hw hx
  obtain ⟨d, hd, hwd⟩ := hw
  rcases hx with ⟨c, hc, hrc⟩ | ⟨c, hc, hwc⟩
  · exact flatten_nodup_disjoint h hkl hc hd x.2 hrc.2 hwd.2
  · exact flatten_nodup_disjoint h hkl hc hd x.2 hwc.2 hwd.2

theorem within_poolTask (ins : List Buf) (out : Buf) (f : BlockFun α)
    (chunks : List (List Nat)) (raises : Nat → Bool) (k : Nat) :
    (poolTask ins out f chunks raises k).Within (rdK ins chunks k) (wrK ins out chunks k) := by
  unfold poolTask
  cases hk : chunks[k]? with
  | none => trivial
  | some c =>
    simp only
    split
    · trivial
    · exact within_mono (fun l h => ⟨c, hk, h⟩) (fun l h => ⟨c, hk, h⟩) _
        (within_chunkProg ins out f c)

/-- program of chunk `k` without raising -/
def chunkK (ins : List Buf) (out : Buf) (f : BlockFun α) (chunks : List (List Nat)) (k : Nat) :
    Prog Cell α := poolTask ins out f chunks (fun _ => false) k

theorem hostRun_eq (ins : List Buf) (out : Buf) (f : BlockFun α) (chunks : List (List Nat))
    (q : List Nat) (m : Cell → α) :
    hostRun ins out f chunks q m = q.foldl (fun m k => (chunkK ins out f chunks k).run m) m := by
  unfold hostRun
  congr 1
  funext m k
  unfold chunkK poolTask
  cases chunks[k]? <;> rfl

theorem queue_fold (raises : Nat → Bool) (n : Nat) (sched : List Nat) : ∀ q : List Nat,
    (∀ k, k ∈ sched.foldl (fun q k => if raises k = true ∧ k < n ∧ k ∉ q then q ++ [k] else q) q
      ↔ k ∈ q ∨ (k ∈ sched ∧ raises k = true ∧ k < n)) ∧
    (q.Nodup →
      (sched.foldl (fun q k => if raises k = true ∧ k < n ∧ k ∉ q then q ++ [k] else q) q).Nodup) := by
  induction sched with
  | nil => intro q; simp
  | cons a as ih =>
    intro q
    simp only [List.foldl_cons]
    obtain ⟨h1, h2⟩ := ih (if raises a = true ∧ a < n ∧ a ∉ q then q ++ [a] else q)
    constructor
    · intro k
      rw [h1 k]
      by_cases hc : raises a = true ∧ a < n ∧ a ∉ q
      · rw [if_pos hc]
        simp only [List.mem_append, List.mem_cons, List.not_mem_nil, or_false]
        constructor
        · rintro ((h | h) | h)
          · exact Or.inl h
          · exact Or.inr ⟨Or.inl h, h ▸ hc.1, h ▸ hc.2.1⟩
          · exact Or.inr ⟨Or.inr h.1, h.2⟩
        · rintro (h | ⟨h | h, h'⟩)
          · exact Or.inl (Or.inl h)
          · exact Or.inl (Or.inr h)
          · exact Or.inr ⟨h, h'⟩
      · rw [if_neg hc]
        simp only [List.mem_cons]
        constructor
        · rintro (h | h)
          · exact Or.inl h
          · exact Or.inr ⟨Or.inr h.1, h.2⟩
        · rintro (h | ⟨h | h, h'⟩)
          · exact Or.inl h
          · subst h
            by_cases hq : k ∈ q
            · exact Or.inl hq
            · exact absurd ⟨h'.1, h'.2, hq⟩ hc
          · exact Or.inr ⟨h, h'⟩
    · intro hq
      refine h2 ?_
      split
      · rename_i hc
        rw [List.nodup_append]
        refine ⟨hq, by simp, ?_⟩
        intro x hx y hy e
        rw [List.mem_singleton] at hy
        subst hy; subst e
        exact hc.2.2 hx
      · exact hq

theorem mem_queueOf {raises : Nat → Bool} {n : Nat} {sched : List Nat} {k : Nat} :
    k ∈ queueOf raises n sched ↔ (k ∈ sched ∧ raises k = true ∧ k < n) := by
  have := (queue_fold raises n sched []).1 k
  simpa [queueOf] using this

theorem nodup_queueOf (raises : Nat → Bool) (n : Nat) (sched : List Nat) :
    (queueOf raises n sched).Nodup := (queue_fold raises n sched []).2 (by simp)

/-- **Key lemma**: any complete pool run leaves in the cells of each chunk what that chunk
alone would have left, and no other cell changes. -/
theorem poolRun_spec (ins : List Buf) (out : Buf) (f : BlockFun α)
    {chunks : List (List Nat)} (hc : chunks.flatten.Nodup) (raises : Nat → Bool)
    (m : Cell → α) (sched : List Nat)
    (hd : PoolDone ins out f chunks raises m sched) :
    (∀ (k : Nat) (c : List Nat), chunks[k]? = some c → ∀ l, wr ins out c l →
      poolRun ins out f chunks raises sched m l = (chunkProg ins out f c).run m l) ∧
    (∀ l, (∀ c ∈ chunks, ¬ wr ins out c l) →
      poolRun ins out f chunks raises sched m l = m l) := by
  have hdis := disjointK ins out hc
  obtain ⟨hA, hB⟩ := exec_finished hdis ⟨poolTask ins out f chunks raises, m⟩
    (within_poolTask ins out f chunks raises) sched hd.1
  have hw := within_poolTask ins out f chunks (fun _ => false)
  obtain ⟨hC, hD⟩ := foldl_run hdis (chunkK ins out f chunks) hw
    (queueOf raises chunks.length sched) (nodup_queueOf _ _ _)
    (Config.exec ⟨poolTask ins out f chunks raises, m⟩ sched).mem
  unfold poolRun
  rw [hostRun_eq]
  constructor
  · intro k c hk l hl
    have hlk : wrK ins out chunks k l := ⟨c, hk, hl⟩
    have hklt : k < chunks.length := (List.getElem?_eq_some_iff.1 hk).1
    have only : ∀ j, j ≠ k → ¬ wrK ins out chunks j l :=
      fun j hj hw => hdis k j (Ne.symm hj) l hw (Or.inr hlk)
    by_cases hr : raises k = true
    · have hq : k ∈ queueOf raises chunks.length sched :=
        mem_queueOf.2 ⟨hd.2 k hklt hr, hr, hklt⟩
      rw [hC k hq l hlk]
      have e : chunkK ins out f chunks k = chunkProg ins out f c := by
        simp [chunkK, poolTask, hk]
      rw [e]
      refine run_congr (within_chunkProg ins out f c) ?_ l (Or.inr hl)
      intro x hx
      have hxk : rdK ins chunks k x ∨ wrK ins out chunks k x :=
        hx.imp (fun h => ⟨c, hk, h⟩) (fun h => ⟨c, hk, h⟩)
      by_cases hxw : wrK ins out chunks k x
      · rw [hA k x hxw]
        simp [poolTask, hk, hr, Prog.run]
      · refine hB x ?_
        intro j hj
        by_cases e : j = k
        · exact hxw (e ▸ hj)
        · exact hdis k j (Ne.symm e) x hj hxk
    · have hq : ∀ j ∈ queueOf raises chunks.length sched, ¬ wrK ins out chunks j l := by
        intro j hj
        refine only j ?_
        intro e
        subst e
        exact hr (mem_queueOf.1 hj).2.1
      rw [hD l hq, hA k l hlk]
      simp [poolTask, hk, hr]
  · intro l hl
    have none : ∀ j, ¬ wrK ins out chunks j l := by
      rintro j ⟨c, hk, hw⟩
      exact hl c (List.mem_of_getElem? hk) hw
    rw [hD l fun j _ => none j]
    exact hB l none

theorem serialRun_spec (ins : List Buf) (out : Buf) (f : BlockFun α)
    {chunks : List (List Nat)} (hc : chunks.flatten.Nodup) (m : Cell → α) :
    (∀ (k : Nat) (c : List Nat), chunks[k]? = some c → ∀ l, wr ins out c l →
      serialRun ins out f chunks (fun _ => false) m l = (chunkProg ins out f c).run m l) ∧
    (∀ l, (∀ c ∈ chunks, ¬ wr ins out c l) →
      serialRun ins out f chunks (fun _ => false) m l = m l) := by
  have hdis := disjointK ins out hc
  have hw := within_poolTask ins out f chunks (fun _ => false)
  obtain ⟨hC, hD⟩ := foldl_run hdis (chunkK ins out f chunks) hw
    (List.range chunks.length) List.nodup_range m
  constructor
  · intro k c hk l hl
    have hklt : k < chunks.length := (List.getElem?_eq_some_iff.1 hk).1
    have e : chunkK ins out f chunks k = chunkProg ins out f c := by
      simp [chunkK, poolTask, hk]
    have := hC k (List.mem_range.2 hklt) l ⟨c, hk, hl⟩
    rw [e] at this
    exact this
  · intro l hl
    refine hD l ?_
    rintro j _ ⟨c, hk, hw⟩
    exact hl c (List.mem_of_getElem? hk) hw

theorem jobChunks_flatten (n nk : Nat) :
    ((jobSlices n nk).map (Slc.indices n)).flatten = List.range n := by
  rw [← List.flatMap_def]
  exact jobSlices_cover n nk

/-- `distribute_jobs` up to the final copy, both branches: every chunk of the axis has been
processed exactly as if alone. -/
theorem dist_core {cpu : Nat} {debug : Bool} {c : Call α} {m m' : Cell → α} {res : Buf}
    (h : DistributeJobs cpu debug c (fun _ => false) m m' res) :
    ∃ m1 : Cell → α,
      m' = copyBack c.n (sharedOut c.shared c.ins c.out) res m1 ∧
      res = resultBuf c.shared c.ins c.out ∧
      (∃ nc nk, getNcoreNchunk cpu c.n c.ncore c.nchunk = .ok (nc, nk) ∧
        ∀ i < c.n, ∃ ch : List Nat, ch ∈ (jobSlices c.n nk).map (Slc.indices c.n) ∧
        ch.Nodup ∧ i ∈ ch ∧ (∀ j ∈ ch, j < c.n) ∧
        ∀ l, wr (sharedIns c.shared 0 c.ins) (sharedOut c.shared c.ins c.out) ch l →
          m1 l = (chunkProg (sharedIns c.shared 0 c.ins) (sharedOut c.shared c.ins c.out) c.f
            ch).run (prepare c.ins c.out m) l) ∧
      (∀ l, ¬ ((l.1 ∈ sharedIns c.shared 0 c.ins ∨
            l.1 = sharedOut c.shared c.ins c.out) ∧ l.2 < c.n) →
          m1 l = prepare c.ins c.out m l) := by
  obtain ⟨nc, nk, hnk, hres, hrun⟩ := h
  have hfl := jobChunks_flatten c.n nk
  have hnd : ((jobSlices c.n nk).map (Slc.indices c.n)).flatten.Nodup := by
    rw [hfl]; exact List.nodup_range
  have find : ∀ i < c.n, ∃ (k : Nat) (ch : List Nat), ((jobSlices c.n nk).map (Slc.indices c.n))[k]? = some ch ∧
      ch.Nodup ∧ i ∈ ch ∧ ∀ j ∈ ch, j < c.n := by
    intro i hi
    have : i ∈ ((jobSlices c.n nk).map (Slc.indices c.n)).flatten := by
      rw [hfl]; exact List.mem_range.2 hi
    obtain ⟨ch, hch, hich⟩ := List.mem_flatten.1 this
    obtain ⟨k, hk⟩ := List.mem_iff_getElem?.1 hch
    refine ⟨k, ch, hk, ?_, hich, ?_⟩
    · exact (List.nodup_flatten.1 hnd).1 ch hch
    · intro j hj
      exact flatMap_get_mem hfl hk hj
  have outside : ∀ l, ¬ ((l.1 ∈ sharedIns c.shared 0 c.ins ∨
      l.1 = sharedOut c.shared c.ins c.out) ∧ l.2 < c.n) →
      ∀ ch ∈ (jobSlices c.n nk).map (Slc.indices c.n),
        ¬ wr (sharedIns c.shared 0 c.ins) (sharedOut c.shared c.ins c.out) ch l := by
    intro l hl ch hch hw
    obtain ⟨k, hk⟩ := List.mem_iff_getElem?.1 hch
    exact hl ⟨hw.1, flatMap_get_mem hfl hk hw.2⟩
  split at hrun
  · obtain ⟨sched, hd, hm⟩ := hrun
    obtain ⟨hA, hB⟩ := poolRun_spec _ _ c.f hnd c.raises _ sched hd
    refine ⟨_, hm, hres, ⟨nc, nk, hnk, ?_⟩, fun l hl => hB l (outside l hl)⟩
    intro i hi
    obtain ⟨k, ch, hk, hn, hic, hlt⟩ := find i hi
    exact ⟨ch, List.mem_of_getElem? hk, hn, hic, hlt, hA k ch hk⟩
  · obtain ⟨hA, hB⟩ := serialRun_spec (sharedIns c.shared 0 c.ins)
      (sharedOut c.shared c.ins c.out) c.f hnd (prepare c.ins c.out m)
    refine ⟨_, hrun, hres, ⟨nc, nk, hnk, ?_⟩, fun l hl => hB l (outside l hl)⟩
    intro i hi
    obtain ⟨k, ch, hk, hn, hic, hlt⟩ := find i hi
    exact ⟨ch, List.mem_of_getElem? hk, hn, hic, hlt, hA k ch hk⟩

theorem prepare_sharedIns (shared : Nat → Bool) (ins : List Nat) (out : Option Nat)
    (m : Cell → α) (i : Nat) :
    (sharedIns shared 0 ins).map (fun b => prepare ins out m (b, i))
      = ins.map fun k => m (.caller k, i) := by
  have : ∀ (pre suf : List Nat),
      (sharedIns shared pre.length suf).map (fun b => prepare (pre ++ suf) out m (b, i))
        = suf.map fun k => m (.caller k, i) := by
    intro pre suf
    induction suf generalizing pre with
    | nil => rfl
    | cons k ks ih =>
      have h := ih (pre ++ [k])
      simp only [List.length_append, List.length_cons, List.length_nil, List.append_assoc,
        List.cons_append, List.nil_append, Nat.zero_add] at h
      simp only [sharedIns, List.map_cons]
      rw [h]
      congr 1
      unfold shareIn
      split
      · rfl
      · simp [prepare]
  have h := this [] ins
  simpa using h

end Tomopy.Mproc
