import Verif.Inpaint.Model
import Verif.Par.Lemmas
import Mathlib.Algebra.Order.Ring.Rat
import Mathlib.Algebra.Order.Field.Rat
import Mathlib.Algebra.Order.BigOperators.Group.List
import Mathlib.Tactic.Ring
import Mathlib.Tactic.Linarith
import Mathlib.Tactic.FieldSimp

/-! Theorems about morphological inpainting (C26, C27, C59-C61). -/
set_option linter.unusedSectionVars false

namespace Tomopy.Inpaint
open Tomopy.Num Tomopy.Par Tomopy.Corr

variable {K : Type} [LinearOrder K] [Field K] [IsStrictOrderedRing K]

/-! ### C26 -/

/-- Voxels outside the mask still hold the input. -/
def Kept (input : Nat → K) (mask : Nat → Bool) (s : St K) : Prop :=
  ∀ a, mask a = false → s.out a = input a ∧ s.upd a = input a ∧ s.msk a = false

theorem pass_kept {input : Nat → K} {mask : Nat → Bool} {N : Nat} {k : Kernel K} {s s' : St K}
    (h : Kept input mask s) (hp : pass N k s = some s') : Kept input mask s' := by
  unfold pass at hp
  split at hp
  · cases hp
  · cases hp
    intro a ha
    obtain ⟨_, h2, h3⟩ := h a ha
    simp [Kernel.upd', Kernel.msk', h2, h3]

theorem fillLoop_kept {input : Nat → K} {mask : Nat → Bool} {N : Nat} (ker : Nat → Kernel K)
    (fuel : Nat) : ∀ (l : Nat) (s s' : St K), Kept input mask s →
      fillLoop N ker fuel l s = some s' → Kept input mask s' := by
  induction fuel with
  | zero => intro l s s' h hp; cases hp; exact h
  | succ n ih =>
    intro l s s' h hp
    rw [fillLoop] at hp
    cases hq : pass N (ker l) s with
    | none => rw [hq] at hp; cases hp
    | some s1 =>
      rw [hq] at hp
      simp only at hp
      have h1 := pass_kept h hq
      split at hp
      · cases hp; exact h1
      · exact ih _ _ _ h1 hp

theorem iterLoop_kept {input : Nat → K} {mask : Nat → Bool} {N : Nat} (ker : Nat → Kernel K)
    (n : Nat) : ∀ (l : Nat) (s s' : St K), Kept input mask s →
      iterLoop N ker n l s = some s' → Kept input mask s' := by
  induction n with
  | zero => intro l s s' h hp; cases hp; exact h
  | succ n ih =>
    intro l s s' h hp
    rw [iterLoop] at hp
    cases hq : pass N (ker l) s with
    | none => rw [hq] at hp; cases hp
    | some s1 =>
      rw [hq] at hp
      exact ih _ _ _ (pass_kept h hq) hp

theorem kept_mask {input : Nat → K} {mask : Nat → Bool} {s : St K} (h : Kept input mask s) :
    Kept input mask { s with msk := mask } :=
  fun a ha => ⟨(h a ha).1, (h a ha).2.1, ha⟩

theorem smoothIf_kept {input : Nat → K} {mask : Nat → Bool} {g : Geo} {meth : Method}
    {s s' : St K} (h : Kept input mask s) (hp : smoothIf g meth mask s = some s') :
    Kept input mask s' := by
  unfold smoothIf at hp
  split at hp
  · exact pass_kept (kept_mask h) hp
  · cases hp; exact h

/-- **C26** Whatever the geometry, method, weights, number of iterations and random numbers,
data outside the mask is returned unchanged. -/
theorem inpaint_outside_mask (g : Geo) (w : Nat → K) (meth : Method) (iterations : Nat)
    (rnd : Nat → Nat → Nat × Nat) (input out : Nat → K) (mask : Nat → Bool)
    (h : inpaint g w meth iterations rnd input mask = some out) (a : Nat)
    (hm : mask a = false) : out a = input a := by
  have h0 : Kept input mask (⟨fun a => if a < g.N ∧ mask a then 0 else input a,
      fun a => if a < g.N ∧ mask a then 0 else input a, mask⟩ : St K) :=
    fun b hb => by simp [hb]
  unfold inpaint at h
  simp only at h
  split at h
  · cases h; simp [hm]
  · cases h1 : fillLoop g.N (fun l => kernel g w (rnd l) meth) (countMask g.N mask) 0
        ⟨fun a => if a < g.N ∧ mask a then 0 else input a,
          fun a => if a < g.N ∧ mask a then 0 else input a, mask⟩ with
    | none => rw [h1] at h; cases h
    | some s1 =>
      rw [h1] at h
      simp only at h
      have k1 := fillLoop_kept _ _ _ _ _ h0 h1
      cases h2 : smoothIf g meth mask s1 with
      | none => rw [h2] at h; cases h
      | some s2 =>
        rw [h2] at h
        simp only at h
        have k2 := smoothIf_kept k1 h2
        split at h
        · cases h3 : iterLoop g.N (fun l => kernel g w (rnd l) meth) iterations
              (countMask g.N mask) { s2 with msk := mask } with
          | none => rw [h3] at h; cases h
          | some s3 =>
            rw [h3] at h
            simp only at h
            have k3 := iterLoop_kept _ _ _ _ _ (kept_mask k2) h3
            cases h4 : smoothIf g meth mask s3 with
            | none => rw [h4] at h; cases h
            | some s4 =>
              rw [h4] at h
              cases h
              exact (smoothIf_kept k3 h4 a hm).1
        · cases h
          exact (k2 a hm).1

theorem countMask_eq_zero (N : Nat) (m : Nat → Bool) :
    countMask N m = 0 ↔ ∀ a < N, m a = false := by
  unfold countMask
  rw [List.length_eq_zero_iff, List.filter_eq_nil_iff]
  simp

/-- **C26** With an empty mask the input is returned. -/
theorem inpaint_empty_mask (g : Geo) (w : Nat → K) (meth : Method) (iterations : Nat)
    (rnd : Nat → Nat → Nat × Nat) (input : Nat → K) (mask : Nat → Bool)
    (hm : ∀ a < g.N, mask a = false) :
    ∃ out, inpaint g w meth iterations rnd input mask = some out ∧ ∀ a < g.N, out a = input a := by
  unfold inpaint
  simp only
  rw [if_pos ((countMask_eq_zero g.N mask).2 hm)]
  exact ⟨_, rfl, fun a ha => by simp [hm a ha]⟩

/-! ### Geometry facts -/

/-- What the proofs use of a geometry. -/
structure Geo.Ok (g : Geo) : Prop where
  near_lt : ∀ a < g.N, ∀ b ∈ g.near a, b < g.N
  win_lt : ∀ a < g.N, ∀ p ∈ g.win a, p.1 < g.N
  cnt_lt : ∀ a < g.N, ∀ p ∈ g.win a, p.2 < g.full
  win_len : ∀ a < g.N, (g.win a).length ≤ g.full
  self : ∀ a < g.N, a ∈ g.near a
  near_win : ∀ a < g.N, ∀ b ∈ g.near a, b ∈ (g.win a).map Prod.fst
  connected : ∀ P : Nat → Prop, (∃ a < g.N, P a) → (∀ a < g.N, P a → ∀ b ∈ g.near a, P b) →
    ∀ b < g.N, P b

theorem inb_eq_some (dim i : Nat) (d : Int) (i1 : Nat) :
    inb dim i d = some i1 ↔ i1 < dim ∧ (i1 : Int) = i + d := by
  unfold inb
  split
  · rename_i h
    rw [Option.some.injEq]
    constructor
    · rintro rfl; omega
    · rintro ⟨_, h2⟩; omega
  · rename_i h
    constructor
    · intro h'; cases h'
    · rintro ⟨h1, h2⟩; omega

theorem mem_offs (r : Nat) (d : Int) : d ∈ offs r ↔ -(r : Int) ≤ d ∧ d ≤ r := by
  unfold offs
  simp only [List.mem_map, List.mem_range]
  constructor
  · rintro ⟨a, ha, rfl⟩; omega
  · rintro ⟨h1, h2⟩
    exact ⟨(d + r).toNat, by omega, by omega⟩

theorem mem_offs2 (r : Nat) (o : Int × Int) : o ∈ offs2 r ↔ o.1 ∈ offs r ∧ o.2 ∈ offs r := by
  unfold offs2
  simp only [List.mem_flatMap, List.mem_map]
  constructor
  · rintro ⟨a, ha, b, hb, rfl⟩; exact ⟨ha, hb⟩
  · rintro ⟨h1, h2⟩; exact ⟨o.1, h1, o.2, h2, rfl⟩

theorem mem_offs3 (r : Nat) (o : Int × Int × Int) :
    o ∈ offs3 r ↔ o.1 ∈ offs r ∧ o.2.1 ∈ offs r ∧ o.2.2 ∈ offs r := by
  unfold offs3
  simp only [List.mem_flatMap, List.mem_map]
  constructor
  · rintro ⟨a, ha, b, hb, c, hc, rfl⟩; exact ⟨ha, hb, hc⟩
  · rintro ⟨h1, h2, h3⟩; exact ⟨o.1, h1, o.2.1, h2, o.2.2, h3, rfl⟩

theorem length_offs (r : Nat) : (offs r).length = 2 * r + 1 := by simp [offs]

theorem length_offs2 (r : Nat) : (offs2 r).length = (2 * r + 1) ^ 2 := by
  unfold offs2
  simp only [List.length_flatMap, List.length_map, length_offs, List.map_const',
    List.sum_replicate_nat]
  ring

theorem length_offs3 (r : Nat) : (offs3 r).length = (2 * r + 1) ^ 3 := by
  unfold offs3
  simp only [List.length_flatMap, List.length_map, length_offs, List.map_const',
    List.sum_replicate_nat]
  ring

theorem addr2_eq_some (dX dY i j : Nat) (o : Int × Int) (a : Nat) :
    addr2 dX dY i j o = some a ↔ ∃ i1 j1, i1 < dX ∧ j1 < dY ∧ (i1 : Int) = i + o.1 ∧
      (j1 : Int) = j + o.2 ∧ a = j1 * dX + i1 := by
  unfold addr2
  cases h1 : inb dX i o.1 with
  | none =>
    simp only
    constructor
    · intro h; cases h
    · rintro ⟨i1, j1, a1, _, a3, _, _⟩
      rw [(inb_eq_some dX i o.1 i1).2 ⟨a1, a3⟩] at h1; cases h1
  | some i1 =>
    obtain ⟨b1, b2⟩ := (inb_eq_some ..).1 h1
    cases h2 : inb dY j o.2 with
    | none =>
      simp only
      constructor
      · intro h; cases h
      · rintro ⟨i1', j1, _, a2, _, a4, _⟩
        rw [(inb_eq_some dY j o.2 j1).2 ⟨a2, a4⟩] at h2; cases h2
    | some j1 =>
      obtain ⟨b3, b4⟩ := (inb_eq_some ..).1 h2
      simp only [Option.some.injEq]
      constructor
      · rintro rfl; exact ⟨i1, j1, b1, b3, b2, b4, rfl⟩
      · rintro ⟨i1', j1', _, _, a3, a4, rfl⟩
        have : i1' = i1 := by omega
        have : j1' = j1 := by omega
        subst_vars; rfl

theorem addr3_eq_some (dX dY dZ i j k : Nat) (o : Int × Int × Int) (a : Nat) :
    addr3 dX dY dZ i j k o = some a ↔ ∃ i1 j1 k1, i1 < dX ∧ j1 < dY ∧ k1 < dZ ∧
      (i1 : Int) = i + o.1 ∧ (j1 : Int) = j + o.2.1 ∧ (k1 : Int) = k + o.2.2 ∧
      a = idx3 dX dY i1 j1 k1 := by
  unfold addr3
  cases h1 : inb dX i o.1 with
  | none =>
    simp only
    constructor
    · intro h; cases h
    · rintro ⟨i1, j1, k1, a1, _, _, a3, _⟩
      rw [(inb_eq_some dX i o.1 i1).2 ⟨a1, a3⟩] at h1; cases h1
  | some i1 =>
    obtain ⟨b1, b2⟩ := (inb_eq_some ..).1 h1
    cases h2 : inb dY j o.2.1 with
    | none =>
      simp only
      constructor
      · intro h; cases h
      · rintro ⟨i1', j1, k1, _, a2, _, _, a4, _⟩
        rw [(inb_eq_some dY j o.2.1 j1).2 ⟨a2, a4⟩] at h2; cases h2
    | some j1 =>
      obtain ⟨b3, b4⟩ := (inb_eq_some ..).1 h2
      cases h3 : inb dZ k o.2.2 with
      | none =>
        simp only
        constructor
        · intro h; cases h
        · rintro ⟨i1', j1', k1, _, _, a2, _, _, a4, _⟩
          rw [(inb_eq_some dZ k o.2.2 k1).2 ⟨a2, a4⟩] at h3; cases h3
      | some k1 =>
        obtain ⟨b5, b6⟩ := (inb_eq_some ..).1 h3
        simp only [Option.some.injEq]
        constructor
        · rintro rfl; exact ⟨i1, j1, k1, b1, b3, b5, b2, b4, b6, rfl⟩
        · rintro ⟨i1', j1', k1', _, _, _, a3, a4, a5, rfl⟩
          have : i1' = i1 := by omega
          have : j1' = j1 := by omega
          have : k1' = k1 := by omega
          subst_vars; rfl

theorem mem_winOf_fst {O : Type} (os : List O) (addr : O → Option Nat) (a : Nat) :
    a ∈ (winOf os addr).map Prod.fst ↔ ∃ o ∈ os, addr o = some a := by
  unfold winOf
  simp only [List.mem_map, List.mem_filterMap, Prod.exists, Option.map_eq_some_iff]
  constructor
  · rintro ⟨b, c, ⟨o, c', hm, x, hx, he⟩, rfl⟩
    cases he
    exact ⟨o, (List.mem_zipIdx hm).2.2 ▸ List.getElem_mem _, hx⟩
  · rintro ⟨o, ho, hx⟩
    obtain ⟨i, hi, rfl⟩ := List.mem_iff_getElem.1 ho
    refine ⟨a, i, ⟨os[i], i, ?_, a, hx, rfl⟩, rfl⟩
    exact List.mem_zipIdx_iff_getElem?.2 (List.getElem?_eq_getElem hi)

theorem mem_winOf {O : Type} (os : List O) (addr : O → Option Nat) (p : Nat × Nat)
    (h : p ∈ winOf os addr) : p.2 < os.length ∧ ∃ o ∈ os, addr o = some p.1 := by
  refine ⟨?_, (mem_winOf_fst os addr p.1).1 (List.mem_map_of_mem h)⟩
  unfold winOf at h
  simp only [List.mem_filterMap, Prod.exists, Option.map_eq_some_iff] at h
  obtain ⟨o, c, hm, x, _, rfl⟩ := h
  have := (List.mem_zipIdx hm).2.1
  omega

theorem length_winOf {O : Type} (os : List O) (addr : O → Option Nat) :
    (winOf os addr).length ≤ os.length := by
  unfold winOf
  refine (List.length_filterMap_le _ _).trans ?_
  simp

theorem lt2 {dX dY i j : Nat} (hi : i < dX) (hj : j < dY) : j * dX + i < dX * dY := by
  calc j * dX + i < j * dX + dX := by omega
    _ = dX * (j + 1) := by ring
    _ ≤ dX * dY := Nat.mul_le_mul_left _ hj

/-- A property of grid points that spreads to the neighbours along the first coordinate holds on
the whole line. -/
theorem line_spread (n : Nat) (P : Nat → Prop)
    (hs : ∀ a < n, P a → ∀ b < n, (b = a + 1 ∨ a = b + 1) → P b)
    (a : Nat) (ha : a < n) (h : P a) : ∀ b < n, P b := by
  have up : ∀ d, a + d < n → P (a + d) := by
    intro d
    induction d with
    | zero => intro _; exact h
    | succ d ih => intro hd; exact hs (a + d) (by omega) (ih (by omega)) _ hd (Or.inl rfl)
  have down : ∀ d, d ≤ a → P (a - d) := by
    intro d
    induction d with
    | zero => intro _; exact h
    | succ d ih => intro hd; exact hs (a - d) (by omega) (ih (by omega)) _ (by omega) (by omega)
  intro b hb
  rcases Nat.le_total a b with hab | hab
  · have := up (b - a) (by omega)
    rwa [show a + (b - a) = b by omega] at this
  · have := down (a - b) (by omega)
    rwa [show a - (a - b) = b by omega] at this

theorem decode2 {dX dY a : Nat} (h : a < dX * dY) :
    a % dX < dX ∧ a / dX < dY ∧ a / dX * dX + a % dX = a := by
  have hX : 0 < dX := by rcases Nat.eq_zero_or_pos dX with h0 | h0; · subst h0; omega
                         · exact h0
  exact ⟨Nat.mod_lt _ hX, Nat.div_lt_of_lt_mul h, by rw [Nat.mul_comm]; exact Nat.div_add_mod a dX⟩

theorem geo2_ok (dX dY hw : Nat) (h1 : 1 ≤ hw) : (geo2 dX dY hw).Ok where
  near_lt := by
    intro a ha b hb
    obtain ⟨o, _, he⟩ := List.mem_filterMap.1 hb
    obtain ⟨i1, j1, k1, k2, _, _, rfl⟩ := (addr2_eq_some ..).1 he
    exact lt2 k1 k2
  win_lt := by
    intro a ha p hp
    obtain ⟨_, o, _, he⟩ := mem_winOf _ _ p hp
    obtain ⟨i1, j1, k1, k2, _, _, he⟩ := (addr2_eq_some ..).1 he
    rw [he]
    exact lt2 k1 k2
  cnt_lt := by
    intro a ha p hp
    have := (mem_winOf _ _ p hp).1
    rwa [length_offs2] at this
  win_len := by
    intro a ha
    exact (length_winOf _ _).trans (by rw [length_offs2]; exact le_refl _)
  self := by
    intro a ha
    obtain ⟨d1, d2, d3⟩ := decode2 ha
    refine List.mem_filterMap.2 ⟨(0, 0), ?_, ?_⟩
    · rw [mem_offs2, mem_offs]; simp
    · rw [addr2_eq_some]
      exact ⟨_, _, d1, d2, by simp, by simp, d3.symm⟩
  near_win := by
    intro a ha b hb
    obtain ⟨o, ho, he⟩ := List.mem_filterMap.1 hb
    refine (mem_winOf_fst _ _ b).2 ⟨o, ?_, he⟩
    rw [mem_offs2, mem_offs, mem_offs] at ho ⊢
    omega
  connected := by
    rintro P ⟨a, ha, hPa⟩ hs b hb
    obtain ⟨a1, a2, a3⟩ := decode2 ha
    obtain ⟨b1, b2, b3⟩ := decode2 hb
    have step : ∀ i < dX, ∀ j < dY, P (j * dX + i) → ∀ i' < dX, ∀ j' < dY,
        (i' = i + 1 ∨ i = i' + 1 ∨ i' = i) → (j' = j + 1 ∨ j = j' + 1 ∨ j' = j) →
        P (j' * dX + i') := by
      intro i hi j hj hP i' hi' j' hj' e1 e2
      refine hs _ (lt2 hi hj) hP _ (List.mem_filterMap.2
        ⟨((i' : Int) - i, (j' : Int) - j), ?_, ?_⟩)
      · rw [mem_offs2, mem_offs, mem_offs]; simp only; omega
      · rw [addr2_eq_some]
        have h1 : (j * dX + i) % dX = i := by
          rw [Nat.mul_comm, Nat.mul_add_mod, Nat.mod_eq_of_lt hi]
        have h2 : (j * dX + i) / dX = j := by
          rw [Nat.mul_comm, Nat.mul_add_div (by omega), Nat.div_eq_of_lt hi, Nat.add_zero]
        rw [h1, h2]
        exact ⟨i', j', hi', hj', by omega, by omega, rfl⟩
    have r1 : P (a / dX * dX + b % dX) :=
      line_spread dX (fun i => P (a / dX * dX + i))
        (fun i hi hP i' hi' e => step i hi _ a2 hP i' hi' _ a2 (by omega) (by omega))
        _ a1 (by rw [a3]; exact hPa) _ b1
    have r2 := line_spread dY (fun j => P (j * dX + b % dX))
        (fun j hj hP j' hj' e => step _ b1 j hj hP _ b1 j' hj' (by omega) (by omega))
        _ a2 r1 _ b2
    rwa [b3] at r2

theorem decode3 {dX dY dZ a : Nat} (h : a < dX * dY * dZ) :
    a % dX < dX ∧ a / dX % dY < dY ∧ a / (dX * dY) < dZ ∧
      idx3 dX dY (a % dX) (a / dX % dY) (a / (dX * dY)) = a := by
  have hX : 0 < dX := by
    rcases Nat.eq_zero_or_pos dX with h0 | h0
    · subst h0; simp at h
    · exact h0
  have hY : 0 < dY := by
    rcases Nat.eq_zero_or_pos dY with h0 | h0
    · subst h0; simp at h
    · exact h0
  refine ⟨Nat.mod_lt _ hX, Nat.mod_lt _ hY, Nat.div_lt_of_lt_mul h, ?_⟩
  unfold idx3
  have e1 := Nat.div_add_mod a dX
  have e2 := Nat.div_add_mod (a / dX) dY
  rw [← Nat.div_div_eq_div_mul]
  calc dX * dY * (a / dX / dY) + a / dX % dY * dX + a % dX
      = dX * (dY * (a / dX / dY) + a / dX % dY) + a % dX := by ring
    _ = a := by rw [e2, e1]

theorem idx3_decode {dX dY i j k : Nat} (hi : i < dX) (hj : j < dY) :
    idx3 dX dY i j k % dX = i ∧ idx3 dX dY i j k / dX % dY = j ∧
      idx3 dX dY i j k / (dX * dY) = k := by
  have e : idx3 dX dY i j k = dX * (dY * k + j) + i := by unfold idx3; ring
  have hX : 0 < dX := by omega
  have hY : 0 < dY := by omega
  have d : (dX * (dY * k + j) + i) / dX = dY * k + j := by
    rw [Nat.mul_add_div hX, Nat.div_eq_of_lt hi, Nat.add_zero]
  rw [e]
  refine ⟨?_, ?_, ?_⟩
  · rw [Nat.mul_add_mod, Nat.mod_eq_of_lt hi]
  · rw [d, Nat.mul_add_mod, Nat.mod_eq_of_lt hj]
  · rw [← Nat.div_div_eq_div_mul, d, Nat.mul_add_div hY, Nat.div_eq_of_lt hj, Nat.add_zero]

theorem idx3_lt' (dX dY dZ i j k : Nat) (hi : i < dX) (hj : j < dY) (hk : k < dZ) :
    idx3 dX dY i j k < dX * dY * dZ := by
  unfold idx3
  calc dX * dY * k + j * dX + i < dX * dY * k + j * dX + dX := by omega
    _ = dX * (dY * k + (j + 1)) := by ring
    _ ≤ dX * (dY * k + dY) := Nat.mul_le_mul_left _ (by omega)
    _ = dX * dY * (k + 1) := by ring
    _ ≤ dX * dY * dZ := Nat.mul_le_mul_left _ hk

theorem geo3_ok (dX dY dZ hw : Nat) (h1 : 1 ≤ hw) : (geo3 dX dY dZ hw).Ok where
  near_lt := by
    intro a ha b hb
    obtain ⟨o, _, he⟩ := List.mem_filterMap.1 hb
    obtain ⟨i1, j1, k1, k2, k3, k4, _, _, _, rfl⟩ := (addr3_eq_some ..).1 he
    exact idx3_lt' _ _ _ _ _ _ k2 k3 k4
  win_lt := by
    intro a ha p hp
    obtain ⟨_, o, _, he⟩ := mem_winOf _ _ p hp
    obtain ⟨i1, j1, k1, k2, k3, k4, _, _, _, he⟩ := (addr3_eq_some ..).1 he
    rw [he]
    exact idx3_lt' _ _ _ _ _ _ k2 k3 k4
  cnt_lt := by
    intro a ha p hp
    have := (mem_winOf _ _ p hp).1
    rwa [length_offs3] at this
  win_len := by
    intro a ha
    exact (length_winOf _ _).trans (by rw [length_offs3]; exact le_refl _)
  self := by
    intro a ha
    obtain ⟨d1, d2, d3, d4⟩ := decode3 ha
    refine List.mem_filterMap.2 ⟨(0, 0, 0), ?_, ?_⟩
    · rw [mem_offs3, mem_offs]; simp
    · rw [addr3_eq_some]
      exact ⟨_, _, _, d1, d2, d3, by simp, by simp, by simp, d4.symm⟩
  near_win := by
    intro a ha b hb
    obtain ⟨o, ho, he⟩ := List.mem_filterMap.1 hb
    refine (mem_winOf_fst _ _ b).2 ⟨o, ?_, he⟩
    rw [mem_offs3, mem_offs, mem_offs, mem_offs] at ho ⊢
    omega
  connected := by
    rintro P ⟨a, ha, hPa⟩ hs b hb
    obtain ⟨a1, a2, a3, a4⟩ := decode3 ha
    obtain ⟨b1, b2, b3, b4⟩ := decode3 hb
    have step : ∀ i < dX, ∀ j < dY, ∀ k < dZ, P (idx3 dX dY i j k) →
        ∀ i' < dX, ∀ j' < dY, ∀ k' < dZ,
        (i' = i + 1 ∨ i = i' + 1 ∨ i' = i) → (j' = j + 1 ∨ j = j' + 1 ∨ j' = j) →
        (k' = k + 1 ∨ k = k' + 1 ∨ k' = k) → P (idx3 dX dY i' j' k') := by
      intro i hi j hj k hk hP i' hi' j' hj' k' hk' e1 e2 e3
      refine hs _ (idx3_lt' _ _ _ _ _ _ hi hj hk) hP _ (List.mem_filterMap.2
        ⟨((i' : Int) - i, (j' : Int) - j, (k' : Int) - k), ?_, ?_⟩)
      · rw [mem_offs3, mem_offs, mem_offs, mem_offs]; simp only; omega
      · rw [addr3_eq_some]
        obtain ⟨h1, h2, h3⟩ := idx3_decode (k := k) hi hj
        rw [h1, h2, h3]
        exact ⟨i', j', k', hi', hj', hk', by simp, by simp, by simp, rfl⟩
    have r1 : P (idx3 dX dY (b % dX) (a / dX % dY) (a / (dX * dY))) :=
      line_spread dX (fun i => P (idx3 dX dY i (a / dX % dY) (a / (dX * dY))))
        (fun i hi hP i' hi' e => step i hi _ a2 _ a3 hP i' hi' _ a2 _ a3 (by omega) (by omega)
          (by omega))
        _ a1 (by rw [a4]; exact hPa) _ b1
    have r2 : P (idx3 dX dY (b % dX) (b / dX % dY) (a / (dX * dY))) :=
      line_spread dY (fun j => P (idx3 dX dY (b % dX) j (a / (dX * dY))))
        (fun j hj hP j' hj' e => step _ b1 j hj _ a3 hP _ b1 j' hj' _ a3 (by omega) (by omega)
          (by omega)) _ a2 r1 _ b2
    have r3 := line_spread dZ (fun k => P (idx3 dX dY (b % dX) (b / dX % dY) k))
        (fun k hk hP k' hk' e => step _ b1 _ b2 k hk hP _ b1 _ b2 k' hk' (by omega) (by omega)
          (by omega)) _ a3 r2 _ b3
    rwa [b4] at r3

/-- **C26** Memory safety: all addresses of the vicinity and of the window lie in the image, the
weight index lies in the weight table, and the window never overflows the value buffer (any half
size, 2D and 3D). -/
theorem inpaint_in_bounds (dX dY dZ hw : Nat) :
    (∀ a < dX * dY, (∀ b ∈ (geo2 dX dY hw).near a, b < dX * dY) ∧
      (∀ p ∈ (geo2 dX dY hw).win a, p.1 < dX * dY ∧ p.2 < (2 * hw + 1) ^ 2) ∧
      ((geo2 dX dY hw).win a).length ≤ (2 * hw + 1) ^ 2) ∧
    (∀ a < dX * dY * dZ, (∀ b ∈ (geo3 dX dY dZ hw).near a, b < dX * dY * dZ) ∧
      (∀ p ∈ (geo3 dX dY dZ hw).win a, p.1 < dX * dY * dZ ∧ p.2 < (2 * hw + 1) ^ 3) ∧
      ((geo3 dX dY dZ hw).win a).length ≤ (2 * hw + 1) ^ 3) := by
  constructor
  · intro a ha
    refine ⟨?_, ?_, ?_⟩
    · intro b hb
      obtain ⟨o, _, he⟩ := List.mem_filterMap.1 hb
      obtain ⟨i1, j1, k1, k2, _, _, rfl⟩ := (addr2_eq_some ..).1 he
      exact lt2 k1 k2
    · intro p hp
      obtain ⟨hc, o, _, he⟩ := mem_winOf _ _ p hp
      obtain ⟨i1, j1, k1, k2, _, _, he⟩ := (addr2_eq_some ..).1 he
      rw [he]
      exact ⟨lt2 k1 k2, by rwa [length_offs2] at hc⟩
    · exact (length_winOf _ _).trans (by rw [length_offs2])
  · intro a ha
    refine ⟨?_, ?_, ?_⟩
    · intro b hb
      obtain ⟨o, _, he⟩ := List.mem_filterMap.1 hb
      obtain ⟨i1, j1, k1, k2, k3, k4, _, _, _, rfl⟩ := (addr3_eq_some ..).1 he
      exact idx3_lt' _ _ _ _ _ _ k2 k3 k4
    · intro p hp
      obtain ⟨hc, o, _, he⟩ := mem_winOf _ _ p hp
      obtain ⟨i1, j1, k1, k2, k3, k4, _, _, _, he⟩ := (addr3_eq_some ..).1 he
      rw [he]
      exact ⟨idx3_lt' _ _ _ _ _ _ k2 k3 k4, by rwa [length_offs3] at hc⟩
    · exact (length_winOf _ _).trans (by rw [length_offs3])

end Tomopy.Inpaint
