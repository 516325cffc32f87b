import Verif.Recon.InitModel
import Verif.Recon.Lemmas
import Mathlib.Tactic.Ring
import Mathlib.Tactic.Linarith

/-! C133, C134: initial guesses of other shapes, and blocks of single slices. -/
set_option linter.unusedSectionVars false

namespace Tomopy.Recon

open Tomopy.Mproc

theorem usedSlices_idx (n dt dx : Nat) (ht : 0 < dt) (hx : 0 < dx) (l : List Nat)
    (hl : ∀ i ∈ l, i < n) : usedSlices [n, dt, dx] (l.map Slc.idx) = .ok (l.map Slc.idx) := by
  induction l with
  | nil => rfl
  | cons i l ih =>
    have hi : ¬ n ≤ i := by have := hl i (by simp); omega
    simp only [List.map_cons, usedSlices, pick, if_neg hi, List.cons_ne_nil, if_false]
    rw [ih fun j hj => hl j (by simp [hj])]
    simp [bind, Except.bind, Item.nonempty, ht, hx]

/-- **C134 (refutation)** With `nchunk=0` every call that has data raises `AttributeError`: the centre of a
single slice is a numpy scalar. -/
theorem nchunk_zero_raises (cpu n dt dx gx gy : Nat) (ncore : Option Nat) (hn : 0 < n) (ht : 0 < dt)
    (hx : 0 < dx) : distWrites cpu n dt dx [n, gx, gy] gx gy ncore (some 0) = .error .attribute := by
  obtain ⟨k, rfl⟩ : ∃ k, n = k + 1 := ⟨n - 1, by omega⟩
  unfold distWrites
  simp only [getNcoreSlices, bind, Except.bind]
  have h := usedSlices_idx (k + 1) dt dx ht hx (List.range (k + 1)) (fun i hi => List.mem_range.1 hi)
  rw [h]
  simp only [List.range_succ_eq_map, List.map_cons, List.isEmpty_cons, Bool.false_eq_true, if_false,
    List.mapM_cons]
  rfl

/-- Blocks `lo:hi` only: what is written for each. -/
theorem used_ranges (n dt dx : Nat) (ht : 0 < dt) (hx : 0 < dx) (l : List (Nat × Nat)) :
    usedSlices [n, dt, dx] (l.map fun p => Slc.range p.1 p.2) =
      .ok ((l.filter fun p => p.1 < min p.2 n).map fun p => Slc.range p.1 p.2) := by
  induction l with
  | nil => rfl
  | cons p l ih =>
    simp only [List.map_cons, usedSlices, pick]
    rw [ih]
    simp only [bind, Except.bind, Item.nonempty, List.all_cons, List.all_nil, ht, hx, decide_true,
      Bool.and_true, List.filter_cons]
    by_cases h : p.1 < min p.2 n
    · rw [if_pos (by simpa using by omega), if_pos (by simpa using by omega)]
      simp
    · rw [if_neg (by simpa using by omega), if_neg (by simpa using by omega)]

/-- What is written for blocks of ranges. -/
theorem writes_ranges (cpu n dt dx : Nat) (m : Nat) (t : List Nat) (gx gy : Nat)
    (ncore nchunk : Option Nat) (ht : 0 < dt) (hx : 0 < dx) {k : Nat} {l : List (Nat × Nat)}
    (hs : getNcoreSlices cpu m ncore nchunk = .ok (k, l.map fun p => Slc.range p.1 p.2))
    (hne : ∃ p ∈ l, p.1 < min p.2 n) :
    distWrites cpu n dt dx (m :: t) gx gy ncore nchunk =
      .ok ((l.filter fun p => p.1 < min p.2 n).map fun p =>
        (Slc.range p.1 p.2, p.1 * t.prod, (min p.2 n - p.1) * (gx * gy))) := by
  simp only [distWrites, hs, bind, Except.bind]
  rw [used_ranges n dt dx ht hx]
  simp only
  have hne' : ((l.filter fun p => p.1 < min p.2 n).map fun p => Slc.range p.1 p.2).isEmpty = false := by
    obtain ⟨p, hp, hlt⟩ := hne
    cases hf : (l.filter fun p => p.1 < min p.2 n) with
    | nil =>
      have : p ∈ l.filter fun p => p.1 < min p.2 n := List.mem_filter.2 ⟨hp, by simpa using hlt⟩
      rw [hf] at this
      cases this
    | cons a b => rfl
  rw [hne']
  simp only [Bool.false_eq_true, if_false]
  generalize (l.filter fun p => p.1 < min p.2 n) = q
  induction q with
  | nil => rfl
  | cons p q ih =>
    simp only [List.map_cons, List.mapM_cons, ih]
    rfl

/-- The automatic blocks are ranges that end at the number of slices at the latest. -/
theorem even_ranges (m k : Nat) (hk : 0 < k) :
    ∃ l : List (Nat × Nat), evenSlices m k = l.map (fun p => Slc.range p.1 p.2) ∧
      ∀ p ∈ l, p.1 ≤ p.2 ∧ p.2 ≤ m := by
  have key : ∀ (ss : List Nat) (o : Nat), ∃ l : List (Nat × Nat),
      List.zipWith Slc.range (offsets o ss) (offsets o ss).tail = l.map (fun p => Slc.range p.1 p.2) ∧
      ∀ p ∈ l, p.1 ≤ p.2 ∧ p.2 ≤ o + ss.sum := by
    intro ss
    induction ss with
    | nil => exact fun o => ⟨[], by simp [offsets], by simp⟩
    | cons s ss ih =>
      intro o
      obtain ⟨l, h1, h2⟩ := ih (o + s)
      refine ⟨(o, o + s) :: l, by rw [zip_offsets_cons, h1]; rfl, ?_⟩
      intro p hp
      rcases List.mem_cons.1 hp with rfl | hp
      · simp
      · have := h2 p hp
        simp only [List.sum_cons]
        omega
  obtain ⟨l, h1, h2⟩ := key (evenSizes m k) 0
  refine ⟨l, h1, fun p hp => ?_⟩
  have := h2 p hp
  rw [sum_evenSizes m k hk] at this
  omega

theorem auto_ranges (cpu m : Nat) (ncore : Option Nat) (hc : 1 ≤ cpu) (hm : 1 ≤ m) :
    ∃ k, ∃ l : List (Nat × Nat),
      getNcoreSlices cpu m ncore none = .ok (k, l.map fun p => Slc.range p.1 p.2) ∧
      (∀ p ∈ l, p.1 ≤ p.2 ∧ p.2 ≤ m) ∧
      (l.map fun p => Slc.range p.1 p.2).flatMap (Slc.indices m) = List.range m := by
  have hk0 : 1 ≤ coresOr cpu ncore := by
    unfold coresOr
    split <;> omega
  have hk : 0 < min (coresOr cpu ncore) m := by omega
  obtain ⟨l, h1, h2⟩ := even_ranges m _ hk
  refine ⟨min (coresOr cpu ncore) m, l, ?_, h2, ?_⟩
  · simp only [getNcoreSlices]
    rw [if_neg (by omega), h1]
  · rw [← h1]
    exact evenSlices_cover m _ hk

/-- Every index lies in a block. -/
theorem mem_block {m i : Nat} {l : List (Nat × Nat)}
    (h : (l.map fun p => Slc.range p.1 p.2).flatMap (Slc.indices m) = List.range m) (hi : i < m) :
    ∃ p ∈ l, p.1 ≤ i ∧ i < p.2 := by
  have : i ∈ (l.map fun p => Slc.range p.1 p.2).flatMap (Slc.indices m) := by
    rw [h]; exact List.mem_range.2 hi
  obtain ⟨s, hs, his⟩ := List.mem_flatMap.1 this
  obtain ⟨p, hp, rfl⟩ := List.mem_map.1 hs
  simp only [Slc.indices, List.mem_range'_1] at his
  exact ⟨p, hp, by omega, by omega⟩

theorem indices_filter {m n lo hi : Nat} (h : hi ≤ m) :
    Slc.indices n (.range lo hi) = (Slc.indices m (.range lo hi)).filter (· < n) := by
  simp only [Slc.indices]
  rw [show min hi m = hi by omega]
  have key : ∀ (k lo : Nat), (List.range' lo k).filter (· < n) = List.range' lo (min (lo + k) n - lo) := by
    intro k
    induction k with
    | zero => intro lo; simp [show min lo n - lo = 0 by omega]
    | succ k ih =>
      intro lo
      rw [List.range'_succ, List.filter_cons]
      by_cases e : lo < n
      · rw [if_pos (by simpa using e), ih, show min (lo + (k + 1)) n - lo = (min (lo + 1 + k) n - (lo + 1)) + 1 by
          omega, List.range'_succ]
      · rw [if_neg (by simpa using e), ih, show min (lo + (k + 1)) n - lo = 0 by omega,
          show min (lo + 1 + k) n - (lo + 1) = 0 by omega]
        rfl
  rw [key]
  congr 1
  omega

/-- **C133 (partial)** An initial guess of shape `m :: t` is not compared with the shape of the result.  With
automatic chunks exactly the slices below `m` for which there are data are reconstructed; for at least
`m` slices of data the C code stays inside the array exactly if a slice of the guess has room for
`num_gridx * num_gridy` values. -/
theorem init_recon_safe_iff (cpu n dt dx m : Nat) (t : List Nat) (gx gy : Nat) (ncore : Option Nat)
    (hc : 1 ≤ cpu) (hm : 1 ≤ m) (hn : 1 ≤ n) (ht : 0 < dt) (hx : 0 < dx) :
    ∃ ws, distWrites cpu n dt dx (m :: t) gx gy ncore none = .ok ws ∧
      ws.flatMap (fun w => w.1.indices n) = List.range (min m n) ∧
      (gx * gy ≤ t.prod → ∀ w ∈ ws, w.2.1 + w.2.2 ≤ (m :: t).prod) ∧
      (m ≤ n → (∀ w ∈ ws, w.2.1 + w.2.2 ≤ (m :: t).prod) → gx * gy ≤ t.prod) := by
  obtain ⟨k, l, h1, h2, h3⟩ := auto_ranges cpu m ncore hc hm
  obtain ⟨p0, hp0, hlo0, hhi0⟩ := mem_block h3 (i := 0) (by omega)
  refine ⟨_, writes_ranges cpu n dt dx m t gx gy ncore none ht hx h1 ⟨p0, hp0, by omega⟩, ?_, ?_, ?_⟩
  · rw [List.flatMap_map]
    have e1 : ∀ (l : List (Nat × Nat)), (∀ p ∈ l, p.1 ≤ p.2 ∧ p.2 ≤ m) →
        (l.filter fun p => p.1 < min p.2 n).flatMap (fun p => Slc.indices n (.range p.1 p.2)) =
        ((l.map fun p => Slc.range p.1 p.2).flatMap (Slc.indices m)).filter (· < n) := by
      intro l
      induction l with
      | nil => intro _; rfl
      | cons p l ih =>
        intro h
        have hp := h p (by simp)
        rw [List.map_cons, List.flatMap_cons, List.filter_append, ← indices_filter hp.2,
          ← ih fun q hq => h q (by simp [hq]), List.filter_cons]
        by_cases e : p.1 < min p.2 n
        · rw [if_pos (by simpa using by omega), List.flatMap_cons]
        · rw [if_neg (by simpa using by omega)]
          have : Slc.indices n (.range p.1 p.2) = [] := by
            simp only [Slc.indices]
            rw [show min p.2 n - p.1 = 0 by omega]
            rfl
          rw [this, List.nil_append]
    refine (e1 l h2).trans ?_
    rw [h3]
    have := indices_filter (m := m) (n := n) (lo := 0) (hi := m) le_rfl
    simp only [Slc.indices, Nat.min_self, Nat.sub_zero, ← List.range_eq_range'] at this
    exact this.symm
  · intro hle w hw
    obtain ⟨p, hp, rfl⟩ := List.mem_map.1 hw
    have hpl := h2 p (List.mem_filter.1 hp).1
    have hlt : p.1 < min p.2 n := by simpa using (List.mem_filter.1 hp).2
    simp only [List.prod_cons]
    calc p.1 * t.prod + (min p.2 n - p.1) * (gx * gy)
        ≤ p.1 * t.prod + (min p.2 n - p.1) * t.prod := by gcongr
      _ = (p.1 + (min p.2 n - p.1)) * t.prod := by ring
      _ ≤ m * t.prod := Nat.mul_le_mul_right _ (by omega)
  · intro hmn hall
    obtain ⟨p, hp, hlo, hhi⟩ := mem_block h3 (i := m - 1) (by omega)
    have hpl := h2 p hp
    have := hall _ (List.mem_map.2 ⟨p, List.mem_filter.2 ⟨hp, by simpa using by omega⟩, rfl⟩)
    simp only [List.prod_cons] at this
    have e : p.2 = m := by omega
    rw [e, Nat.min_eq_left hmn] at this
    have e2 : m * t.prod = p.1 * t.prod + (m - p.1) * t.prod := by
      rw [← Nat.add_mul]; congr 1; omega
    rw [e2] at this
    exact Nat.le_of_mul_le_mul_left (Nat.le_of_add_le_add_left this) (by omega)

/-- **C133 (partial)** With chunks of `c` slices and a guess whose slices have the right size, the C code stays
inside the array exactly if there are no more data than slices in the guess, or the chunks fit. -/
theorem init_recon_chunk_iff (cpu n dt dx m c : Nat) (t : List Nat) (gx gy : Nat) (ncore : Option Nat)
    (hc : 1 ≤ c) (hm : 1 ≤ m) (hn : 1 ≤ n) (ht : 0 < dt) (hx : 0 < dx) (hg : gx * gy = t.prod)
    (hpos : 0 < t.prod) :
    ∃ ws, distWrites cpu n dt dx (m :: t) gx gy ncore (some c) = .ok ws ∧
      ((∀ w ∈ ws, w.2.1 + w.2.2 ≤ (m :: t).prod) ↔ n ≤ m ∨ c ∣ m) := by
  obtain ⟨c, rfl⟩ : ∃ d, c = d + 1 := ⟨c - 1, by omega⟩
  have hs : getNcoreSlices cpu m ncore (some (c + 1)) = .ok (min (coresOr cpu ncore) m,
      ((List.range ((m + (c + 1) - 1) / (c + 1))).map fun j => (j * (c + 1), j * (c + 1) + (c + 1))).map
        fun p => Slc.range p.1 p.2) := by
    simp only [getNcoreSlices, chunkSlices, pyRange, List.map_map]
    rfl
  have hq : 0 < (m + (c + 1) - 1) / (c + 1) := Nat.div_pos (by omega) (by omega)
  refine ⟨_, writes_ranges cpu n dt dx m t gx gy ncore _ ht hx hs
    ⟨(0, c + 1), List.mem_map.2 ⟨0, List.mem_range.2 hq, by simp⟩, by simp; omega⟩, ?_⟩
  have hval : ∀ lo hi : Nat, lo ≤ hi → lo * t.prod + (hi - lo) * (gx * gy) = hi * t.prod := by
    intro lo hi h
    rw [hg, ← Nat.add_mul]
    congr 1
    omega
  have hceil := Nat.div_add_mod (m + (c + 1) - 1) (c + 1)
  have hmod := Nat.mod_lt (m + (c + 1) - 1) (show 0 < c + 1 by omega)
  rw [Nat.mul_comm] at hceil
  constructor
  · intro h
    by_contra hcon
    push Not at hcon
    obtain ⟨hnm, hdvd⟩ := hcon
    obtain ⟨j, hj⟩ : ∃ j, (m + (c + 1) - 1) / (c + 1) = j + 1 :=
      ⟨(m + (c + 1) - 1) / (c + 1) - 1, by omega⟩
    rw [hj, Nat.succ_mul] at hceil
    have hne : j * (c + 1) + (c + 1) ≠ m := by
      intro e
      exact hdvd ⟨j + 1, by rw [← e]; ring⟩
    have := h _ (List.mem_map.2 ⟨(j * (c + 1), j * (c + 1) + (c + 1)),
      List.mem_filter.2 ⟨List.mem_map.2 ⟨j, List.mem_range.2 (by omega), rfl⟩, by
        simp only [decide_eq_true_eq]; omega⟩, rfl⟩)
    simp only [List.prod_cons] at this
    rw [hval _ _ (by omega)] at this
    have := Nat.le_of_mul_le_mul_right this hpos
    omega
  · intro h w hw
    obtain ⟨p, hp, rfl⟩ := List.mem_map.1 hw
    have hlt : p.1 < min p.2 n := by simpa using (List.mem_filter.1 hp).2
    obtain ⟨j, hj, rfl⟩ := List.mem_map.1 (List.mem_filter.1 hp).1
    rw [List.mem_range] at hj
    simp only [List.prod_cons] at hlt ⊢
    rw [hval _ _ (by omega)]
    refine Nat.mul_le_mul_right _ ?_
    rcases h with h | ⟨d, rfl⟩
    · omega
    · have hj' : j < d := by
        have : ((c + 1) * d + (c + 1) - 1) / (c + 1) = d := by
          rw [show (c + 1) * d + (c + 1) - 1 = c + (c + 1) * d by omega,
            Nat.add_mul_div_left _ _ (by omega), Nat.div_eq_of_lt (by omega)]
          omega
        omega
      have : (j + 1) * (c + 1) ≤ d * (c + 1) := Nat.mul_le_mul_right _ hj'
      rw [Nat.succ_mul] at this
      rw [Nat.mul_comm (c + 1) d]
      omega

/-- **C133 (partial)** Inside a block, slices after the first are in place only if the sizes agree. -/
theorem init_recon_misplaced (lo s g q : Nat) (hs : lo < s) :
    lo * q + (s - lo) * g = s * q ↔ g = q := by
  have : s * q = lo * q + (s - lo) * q := by rw [← Nat.add_mul]; congr 1; omega
  rw [this]
  constructor
  · intro h
    exact Nat.eq_of_mul_eq_mul_left (by omega) (Nat.add_left_cancel h)
  · rintro rfl; rfl

/-- **C133 (refutation)** A guess of 2 by 2 pixels for a grid of 4 by 4: 16 values are written into 4. -/
theorem init_recon_overflow : distWrites 4 1 10 4 [1, 2, 2] 4 4 none none =
    .ok [(.range 0 1, 0, 16)] := by decide

/-- **C133 (refutation)** A guess with fewer slices: the others are left out without an error. -/
theorem init_recon_fewer : distWrites 1 3 10 4 [2, 4, 4] 4 4 none none =
    .ok [(.range 0 2, 0, 32)] := by decide

/-- A guess of the right shape. -/
example : distWrites 2 3 10 4 [3, 4, 4] 4 4 none none =
    .ok [(.range 0 2, 0, 32), (.range 2 3, 32, 16)] := by decide

end Tomopy.Recon
