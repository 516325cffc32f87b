import Verif.Stripe.Model3d
import Mathlib.Tactic.Ring
import Mathlib.Tactic.Linarith
import Mathlib.Tactic.Zify
import Mathlib.Data.Int.Interval
import Mathlib.Data.Finset.Card

/-! The parallel loops of stripes_detect3d.c in terms of their bodies. -/
set_option linter.unusedSectionVars false

namespace Tomopy.Stripe
open Tomopy.Par Tomopy.Num

variable {K : Type} [LinearOrder K] [Field K] [IsStrictOrderedRing K] [FloorRing K]

/-- The voxel lies in the volume. -/
def In (dX dY dZ : Nat) (v : Vox) : Prop := v.1 < dX ∧ v.2.1 < dY ∧ v.2.2 < dZ

theorem mem_plane {dX dY dZ k : Nat} {v : Vox} :
    v ∈ plane dX dY dZ k ↔ In dX dY dZ v ∧ v.2.2 = k := by
  obtain ⟨i, j, k'⟩ := v
  unfold plane In
  split
  · rename_i hk
    simp only [List.mem_flatMap, List.mem_map, List.mem_range, Prod.mk.injEq]
    constructor
    · rintro ⟨a, ha, b, hb, rfl, rfl, rfl⟩; exact ⟨⟨hb, ha, hk⟩, rfl⟩
    · rintro ⟨⟨h1, h2, h3⟩, rfl⟩; exact ⟨j, h2, i, h1, rfl, rfl, rfl⟩
  · rename_i hk
    constructor
    · intro h; cases h
    · rintro ⟨⟨_, _, h⟩, e⟩
      dsimp only at h e
      omega

theorem nodup_plane (dX dY dZ k : Nat) : (plane dX dY dZ k).Nodup := by
  unfold plane
  split
  · rw [List.nodup_flatMap]
    constructor
    · intro j _
      exact List.nodup_range.map fun a b h => by simpa using h
    · refine List.nodup_range.imp ?_
      intro a b hab x hx hy
      simp only [List.mem_map] at hx hy
      obtain ⟨_, _, rfl⟩ := hx
      obtain ⟨_, _, h⟩ := hy
      cases h
      exact hab rfl
  · exact List.nodup_nil

theorem mem_planeJ {dX dY dZ j : Nat} {v : Vox} :
    v ∈ planeJ dX dY dZ j ↔ In dX dY dZ v ∧ v.2.1 = j := by
  obtain ⟨i, j', k⟩ := v
  unfold planeJ In
  split
  · rename_i hk
    simp only [List.mem_flatMap, List.mem_map, List.mem_range, Prod.mk.injEq]
    constructor
    · rintro ⟨a, ha, b, hb, rfl, rfl, rfl⟩; exact ⟨⟨ha, hk, hb⟩, rfl⟩
    · rintro ⟨⟨h1, h2, h3⟩, rfl⟩; exact ⟨i, h1, k, h3, rfl, rfl, rfl⟩
  · rename_i hk
    constructor
    · intro h; cases h
    · rintro ⟨⟨_, h, _⟩, e⟩
      dsimp only at h e
      omega

theorem nodup_planeJ (dX dY dZ j : Nat) : (planeJ dX dY dZ j).Nodup := by
  unfold planeJ
  split
  · rw [List.nodup_flatMap]
    constructor
    · intro j _
      exact List.nodup_range.map fun a b h => by simpa using h
    · refine List.nodup_range.imp ?_
      intro a b hab x hx hy
      simp only [List.mem_map] at hx hy
      obtain ⟨_, _, rfl⟩ := hx
      obtain ⟨_, _, h⟩ := hy
      cases h
      exact hab rfl
  · exact List.nodup_nil

/-! ### Addresses -/

theorem idx_bounds {dX dY dZ : Nat} {i j k : Int} (hi : 0 ≤ i) (hi' : i < dX) (hj : 0 ≤ j)
    (hj' : j < dY) (hk : 0 ≤ k) (hk' : k < dZ) :
    0 ≤ idx dX dY i j k ∧ idx dX dY i j k < (dX * dY * dZ : Nat) := by
  unfold idx
  have h1 : (0 : Int) ≤ dX * dY * k := by positivity
  have h2 : 0 ≤ j * dX := by positivity
  refine ⟨by omega, ?_⟩
  have e : (dX : Int) * dY * k + j * dX + dX ≤ dX * dY * dZ := by
    have a : (j + 1) * dX ≤ dY * dX := Int.mul_le_mul_of_nonneg_right (by omega) (by omega)
    have b : (dX * dY : Int) * (k + 1) ≤ dX * dY * dZ :=
      Int.mul_le_mul_of_nonneg_left (by omega) (by positivity)
    calc (dX : Int) * dY * k + j * dX + dX = dX * dY * k + (j + 1) * dX := by ring
      _ ≤ dX * dY * k + dY * dX := by omega
      _ = dX * dY * (k + 1) := by ring
      _ ≤ _ := b
  push_cast
  omega

theorem idx_inj {dX dY : Nat} {i j k i' j' k' : Int} (hi : 0 ≤ i) (hi' : i < dX) (hj : 0 ≤ j)
    (hj' : j < dY) (hI : 0 ≤ i') (hI' : i' < dX) (hJ : 0 ≤ j')
    (hJ' : j' < dY) (h : idx dX dY i j k = idx dX dY i' j' k') : i = i' ∧ j = j' ∧ k = k' := by
  have hX : (0 : Int) < dX := by omega
  have hY : (0 : Int) < dY := by omega
  have e : ∀ i j k : Int, idx dX dY i j k = i + (j + k * dY) * dX := by
    intro i j k; unfold idx; ring
  rw [e, e] at h
  have h1 : i = i' := by
    have := congrArg (· % (dX : Int)) h
    simp only [Int.add_mul_emod_self_right] at this
    rwa [Int.emod_eq_of_lt hi hi', Int.emod_eq_of_lt hI hI'] at this
  have h2 : j + k * dY = j' + k' * dY := by
    have := congrArg (· / (dX : Int)) h
    simp only [Int.add_mul_ediv_right _ _ (ne_of_gt hX)] at this
    rwa [Int.ediv_eq_zero_of_lt hi hi', Int.ediv_eq_zero_of_lt hI hI', zero_add, zero_add] at this
  have h3 : j = j' := by
    have := congrArg (· % (dY : Int)) h2
    simp only [Int.add_mul_emod_self_right] at this
    rwa [Int.emod_eq_of_lt hj hj', Int.emod_eq_of_lt hJ hJ'] at this
  refine ⟨h1, h3, ?_⟩
  have h4 : k * dY = k' * dY := by omega
  exact Int.eq_of_mul_eq_mul_right (ne_of_gt hY) h4

theorem idx_inj_vox {dX dY dZ : Nat} {v w : Vox} (hv : In dX dY dZ v) (hw : In dX dY dZ w)
    (h : idx dX dY v.1 v.2.1 v.2.2 = idx dX dY w.1 w.2.1 w.2.2) : v = w := by
  obtain ⟨i, j, k⟩ := v
  obtain ⟨i', j', k'⟩ := w
  unfold In at hv hw
  dsimp only at hv hw h
  obtain ⟨h1, h2, h3⟩ := idx_inj (by omega) (by omega) (by omega) (by omega) (by omega) (by omega)
    (by omega) (by omega) h
  simp only [Prod.mk.injEq]
  omega

/-! ### Loops -/

/-- A loop over a partition of the voxels: each own cell ends as the body alone leaves it. -/
theorem loopOver_final {dX dY dZ : Nat} {vox : Nat → List Vox} {key : Vox → Nat}
    (hv : ∀ k v, v ∈ vox k ↔ In dX dY dZ v ∧ key v = k) (hn : ∀ k, (vox k).Nodup)
    {c : Int → Cell} (hc : Function.Injective c) {Rd : Cell → Prop} (hr : ∀ a, ¬ Rd (c a))
    {body : Vox → Prog Cell K}
    (hb : ∀ v, In dX dY dZ v → OwnCell Rd (fun v : Vox => c (idx dX dY v.1 v.2.1 v.2.2)) body v)
    {m m' : Cell → K} (h : LoopOver vox body m m') :
    (∀ v, In dX dY dZ v → m' (c (idx dX dY v.1 v.2.1 v.2.2))
      = (body v).run m (c (idx dX dY v.1 v.2.1 v.2.2))) ∧
    ∀ l, (∀ v, In dX dY dZ v → l ≠ c (idx dX dY v.1 v.2.1 v.2.2)) → m' l = m l := by
  obtain ⟨sched, hf, rfl⟩ := h
  obtain ⟨h1, h2⟩ := parFor_final (own := fun v : Vox => c (idx dX dY v.1 v.2.1 v.2.2)) vox
    (fun i v hvi => hb v ((hv i v).1 hvi).1) (fun _ _ _ => hr _)
    (fun i v hvi j w hwj e => by
      obtain ⟨a, a'⟩ := (hv i v).1 hvi
      obtain ⟨b, b'⟩ := (hv j w).1 hwj
      have := idx_inj_vox a b (hc e)
      subst this
      exact ⟨a'.symm.trans b', rfl⟩) hn m sched hf
  refine ⟨fun v hvi => h1 (key v) v ((hv _ _).2 ⟨hvi, rfl⟩), fun l hl => h2 l ?_⟩
  intro i v hvi
  exact hl v ((hv i v).1 hvi).1

theorem loop_final {dX dY dZ : Nat} {c : Int → Cell} (hc : Function.Injective c)
    {Rd : Cell → Prop} (hr : ∀ a, ¬ Rd (c a)) {body : Vox → Prog Cell K}
    (hb : ∀ v, In dX dY dZ v → OwnCell Rd (fun v : Vox => c (idx dX dY v.1 v.2.1 v.2.2)) body v)
    {m m' : Cell → K} (h : Loop dX dY dZ body m m') :
    (∀ v, In dX dY dZ v → m' (c (idx dX dY v.1 v.2.1 v.2.2))
      = (body v).run m (c (idx dX dY v.1 v.2.1 v.2.2))) ∧
    ∀ l, (∀ v, In dX dY dZ v → l ≠ c (idx dX dY v.1 v.2.1 v.2.2)) → m' l = m l :=
  loopOver_final (key := fun v => v.2.2) (fun _ _ => mem_plane) (nodup_plane dX dY dZ) hc hr hb h

theorem loopJ_final {dX dY dZ : Nat} {c : Int → Cell} (hc : Function.Injective c)
    {Rd : Cell → Prop} (hr : ∀ a, ¬ Rd (c a)) {body : Vox → Prog Cell K}
    (hb : ∀ v, In dX dY dZ v → OwnCell Rd (fun v : Vox => c (idx dX dY v.1 v.2.1 v.2.2)) body v)
    {m m' : Cell → K} (h : LoopOver (planeJ dX dY dZ) body m m') :
    (∀ v, In dX dY dZ v → m' (c (idx dX dY v.1 v.2.1 v.2.2))
      = (body v).run m (c (idx dX dY v.1 v.2.1 v.2.2))) ∧
    ∀ l, (∀ v, In dX dY dZ v → l ≠ c (idx dX dY v.1 v.2.1 v.2.2)) → m' l = m l :=
  loopOver_final (key := fun v => v.2.1) (fun _ _ => mem_planeJ) (nodup_planeJ dX dY dZ) hc hr hb h

theorem loop_exists (dX dY dZ : Nat) (body : Vox → Prog Cell K) (m : Cell → K) :
    ∃ m', Loop dX dY dZ body m m' := by
  obtain ⟨s, hs⟩ := exists_finished (List.range dZ)
    ⟨fun k => Prog.forEach body (plane dX dY dZ k), m⟩ (by
      intro k hk
      have : ¬ k < dZ := by simpa using hk
      show Prog.forEach body (plane dX dY dZ k) = .done
      unfold plane
      rw [if_neg this]
      rfl)
  exact ⟨_, s, hs, rfl⟩

theorem loopJ_exists (dX dY dZ : Nat) (body : Vox → Prog Cell K) (m : Cell → K) :
    ∃ m', LoopOver (planeJ dX dY dZ) body m m' := by
  obtain ⟨s, hs⟩ := exists_finished (List.range dY)
    ⟨fun k => Prog.forEach body (planeJ dX dY dZ k), m⟩ (by
      intro k hk
      have : ¬ k < dY := by simpa using hk
      show Prog.forEach body (planeJ dX dY dZ k) = .done
      unfold planeJ
      rw [if_neg this]
      rfl)
  exact ⟨_, s, hs, rfl⟩

/-! ### Counters -/

theorem mem_intRange {a b d : Int} : d ∈ intRange a b ↔ a ≤ d ∧ d ≤ b := by
  unfold intRange
  simp only [List.mem_map, List.mem_range]
  constructor
  · rintro ⟨n, hn, rfl⟩; omega
  · rintro ⟨h1, h2⟩; exact ⟨(d - a).toNat, by omega, by omega⟩

theorem nodup_intRange (a b : Int) : (intRange a b).Nodup := by
  unfold intRange
  exact List.nodup_range.map fun x y h => by simpa using h

theorem length_intRange (a b : Int) : (intRange a b).length = (b + 1 - a).toNat := by
  simp [intRange]

open Classical in
theorem countP_intRange (a b : Int) (q : Int → Prop) :
    (intRange a b).countP (fun d => decide (q d))
      = ((Finset.Icc a b).filter q).card := by
  rw [List.countP_eq_length_filter]
  rw [← List.toFinset_card_of_nodup ((nodup_intRange a b).filter _)]
  congr 1
  ext d
  simp [mem_intRange]

end Tomopy.Stripe
