import Verif.Gridrec.Value
import Verif.Gridrec.Index
import Mathlib.Tactic.LinearCombination

/-!
# gridrec: slices processed in pairs (C70)
-/

set_option linter.unusedSectionVars false

namespace Tomopy.Gridrec

open Complex

/-- The copy loop uses `wrapIdx`. -/
theorem copyPairs_wrap (m n : Nat) (us : List (Int × Int)) (h : copyPairs (2 * m) n = some us)
    (u : Int × Int) (hu : u ∈ us) : u.2 = wrapIdx (2 * m) n u.1.toNat := by
  obtain ⟨h0, h1, h2⟩ := copyPairs_mem m n us h u hu
  unfold wrapIdx
  rw [Int.toNat_of_nonneg h0]
  rcases h2 with ⟨a, b⟩ | ⟨a, b⟩
  · rw [if_pos a, b]
  · rw [if_neg (by omega), b]

/-! ## The transform as a sum over the additions -/

/-- The factor of element `(a, b)` in the two-dimensional transform. -/
noncomputable def ph (pd : Nat) (iu iv a b : Int) : ℂ :=
  exp (-(2 * Real.pi * I * ((a : ℂ) * (iu : ℂ) + (b : ℂ) * (iv : ℂ)) / pd))

theorem foldl_addH (l : List Upd) (H : Int → Int → ℂ) (a b : Int) :
    (l.foldl addH H) a b = H a b + (l.map fun x => if a = x.u ∧ b = x.v then x.val else 0).sum := by
  induction l generalizing H with
  | nil => simp
  | cons x l ih =>
    rw [List.foldl_cons, ih, List.map_cons, List.sum_cons]
    unfold addH
    split <;> ring

/-- All additions are inside `H`. -/
def InH (pd : Nat) (x : Upd) : Prop := (0 ≤ x.u ∧ x.u < pd) ∧ 0 ≤ x.v ∧ x.v < pd

theorem dft2_foldl (pd : Nat) (l : List Upd) (hl : ∀ x ∈ l, InH pd x) (iu iv : Int) :
    dft2 pd (l.foldl addH fun _ _ => 0) iu iv = (l.map fun x => x.val * ph pd iu iv x.u x.v).sum := by
  have e : ∀ (a b : Nat), (l.foldl addH fun _ _ => 0) a b =
      (l.map fun x => if (a : Int) = x.u ∧ (b : Int) = x.v then x.val else 0).sum := by
    intro a b; rw [foldl_addH]; simp
  unfold dft2
  simp only [e]
  clear e
  induction l with
  | nil => simp
  | cons x l ih =>
    simp only [List.map_cons, List.sum_cons, add_mul, Finset.sum_add_distrib]
    rw [ih fun y hy => hl y (by simp [hy])]
    congr 1
    obtain ⟨⟨h1, h2⟩, h3, h4⟩ := hl x (by simp)
    obtain ⟨a, ha⟩ := Int.eq_ofNat_of_zero_le h1
    obtain ⟨b, hb⟩ := Int.eq_ofNat_of_zero_le h3
    rw [ha] at h2; rw [hb] at h4
    rw [Finset.sum_eq_single a, Finset.sum_eq_single b]
    · rw [if_pos ⟨ha.symm, hb.symm⟩, ha, hb]
      simp [ph]
    · intro b' _ hb'
      rw [if_neg, zero_mul]
      rintro ⟨-, h⟩
      exact hb' (by omega)
    · intro h; exact absurd (Finset.mem_range.2 (by omega)) h
    · intro a' _ ha'
      refine Finset.sum_eq_zero fun b' _ => ?_
      rw [if_neg, zero_mul]
      rintro ⟨h, -⟩
      exact ha' (by omega)
    · intro h; exact absurd (Finset.mem_range.2 (by omega)) h

theorem exp_int_two_pi (n : Int) : exp (2 * Real.pi * I * n) = 1 := by
  rw [show (2 * Real.pi * I * n : ℂ) = n * (2 * Real.pi * I) by ring]
  exact Complex.exp_int_mul_two_pi_mul_I n

theorem ph_reflect (pd : Nat) (hpd : pd ≠ 0) (iu iv a b : Int) :
    ph pd iu iv (pd - a) (pd - b) = starRingEnd ℂ (ph pd iu iv a b) := by
  have hp : (pd : ℂ) ≠ 0 := by exact_mod_cast hpd
  unfold ph
  rw [← Complex.exp_conj]
  have e : -(2 * Real.pi * I * (((pd - a : Int) : ℂ) * (iu : ℂ) + ((pd - b : Int) : ℂ) * (iv : ℂ)) /
      pd) = 2 * Real.pi * I * ((-(iu + iv) : Int) : ℂ) +
        2 * Real.pi * I * ((a : ℂ) * (iu : ℂ) + (b : ℂ) * (iv : ℂ)) / pd := by
    push_cast; field_simp; ring
  rw [e, Complex.exp_add, exp_int_two_pi, one_mul]
  congr 1
  simp only [map_neg, map_div₀, map_mul, map_add, Complex.conj_ofReal, Complex.conj_I, map_ofNat,
    Complex.conj_natCast, map_intCast]
  ring

/-- The weight with which frequency `j` of a projection at angle `(co, si)` enters output
`(iu, iv)`. -/
noncomputable def wsum (pd : Nat) (co si : ℝ) (j : Nat) (iu iv : Int) : ℂ :=
  let U := (j : ℝ) * co + (pd / 2 : Nat)
  let V := (j : ℝ) * si + (pd / 2 : Nat)
  ((intRange (box pd U).1 (box pd U).2).map fun (a : Int) =>
    ((intRange (box pd V).1 (box pd V).2).map fun (b : Int) =>
      ((wtbl (roundf (|U - (a : ℝ)| * tblspcg)).toNat *
        wtbl (roundf (|V - (b : ℝ)| * tblspcg)).toNat : ℝ) : ℂ) * ph pd iu iv a b).sum).sum

theorem sum_flatMap {α : Type} (l : List α) (f : α → List Upd) (g : Upd → ℂ) :
    ((l.flatMap f).map g).sum = (l.map fun x => ((f x).map g).sum).sum := by
  induction l with
  | nil => simp
  | cons x l ih => simp [List.flatMap_cons, ih]

theorem freqUpd_sum (pd : Nat) (hpd : pd ≠ 0) (co si : ℝ) (j : Nat) (c1 c2 : ℂ) (iu iv : Int) :
    ((freqUpd pd co si j c1 c2).map fun x => x.val * ph pd iu iv x.u x.v).sum =
      wsum pd co si j iu iv * c1 + starRingEnd ℂ (wsum pd co si j iu iv) * c2 := by
  unfold freqUpd wsum
  simp only
  generalize intRange (box pd ((j : ℝ) * co + (pd / 2 : Nat))).1
    (box pd ((j : ℝ) * co + (pd / 2 : Nat))).2 = lu
  generalize intRange (box pd ((j : ℝ) * si + (pd / 2 : Nat))).1
    (box pd ((j : ℝ) * si + (pd / 2 : Nat))).2 = lv
  rw [sum_flatMap]
  simp only [sum_flatMap]
  induction lu with
  | nil => simp
  | cons a lu ih =>
    rw [List.map_cons, List.sum_cons, ih, List.map_cons, List.sum_cons, map_add]
    have hin : ∀ lv : List Int, (lv.map fun (b : Int) => (List.map (fun x : Upd =>
        x.val * ph pd iu iv x.u x.v)
        [⟨a, b, ((wtbl (roundf (|(j : ℝ) * co + (pd / 2 : Nat) - (a : ℝ)| * tblspcg)).toNat *
          wtbl (roundf (|(j : ℝ) * si + (pd / 2 : Nat) - (b : ℝ)| * tblspcg)).toNat : ℝ) : ℂ) * c1⟩,
         ⟨pd - a, pd - b,
          ((wtbl (roundf (|(j : ℝ) * co + (pd / 2 : Nat) - (a : ℝ)| * tblspcg)).toNat *
          wtbl (roundf (|(j : ℝ) * si + (pd / 2 : Nat) - (b : ℝ)| * tblspcg)).toNat : ℝ) : ℂ) *
          c2⟩]).sum).sum =
        (lv.map fun (b : Int) =>
          ((wtbl (roundf (|(j : ℝ) * co + (pd / 2 : Nat) - (a : ℝ)| * tblspcg)).toNat *
          wtbl (roundf (|(j : ℝ) * si + (pd / 2 : Nat) - (b : ℝ)| * tblspcg)).toNat : ℝ) : ℂ) *
            ph pd iu iv a b).sum * c1 +
        starRingEnd ℂ ((lv.map fun (b : Int) =>
          ((wtbl (roundf (|(j : ℝ) * co + (pd / 2 : Nat) - (a : ℝ)| * tblspcg)).toNat *
          wtbl (roundf (|(j : ℝ) * si + (pd / 2 : Nat) - (b : ℝ)| * tblspcg)).toNat : ℝ) : ℂ) *
            ph pd iu iv a b).sum) * c2 := by
      intro lv
      induction lv with
      | nil => simp
      | cons b lv ih2 =>
        rw [List.map_cons, List.sum_cons, ih2]
        simp only [List.map_cons, List.map_nil, List.sum_cons, List.sum_nil, map_add, map_mul,
          Complex.conj_ofReal, ph_reflect pd hpd]
        ring
    rw [hin]
    ring

theorem freqUpd_in (pd : Nat) (co si : ℝ) (j : Nat) (c1 c2 : ℂ) :
    ∀ x ∈ freqUpd pd co si j c1 c2, InH pd x := by
  intro x hx
  unfold freqUpd at hx
  simp only [List.mem_flatMap, List.mem_cons, List.not_mem_nil, or_false] at hx
  obtain ⟨iu, hiu, iv, hiv, rfl | rfl⟩ := hx
  all_goals
    obtain ⟨u1, u2, -⟩ := box_mem hiu
    obtain ⟨v1, v2, -⟩ := box_mem hiv
    refine ⟨⟨?_, ?_⟩, ?_, ?_⟩ <;> dsimp only <;> omega

/-- The transform of a slice pair as a sum over projections and frequencies. -/
theorem dft2_pairH (c : Call) (center : ℝ) (d1 d2 : Nat → Nat → ℝ) (iu iv : Int) :
    dft2 (pdim c.dx) (pairH c center d1 d2) iu iv =
      ((List.range c.dt).map fun p => ((List.range' 1 (pdim c.dx / 2 - 1)).map fun j =>
        wsum (pdim c.dx) (Real.cos (c.theta p)) (Real.sin (c.theta p)) j iu iv *
          filphase (pdim c.dx) c.dt (c.filt p) center j *
          dftBack (pdim c.dx) (sinoRow c.dx (d1 p) (d2 p)) j +
        starRingEnd ℂ (wsum (pdim c.dx) (Real.cos (c.theta p)) (Real.sin (c.theta p)) j iu iv *
          filphase (pdim c.dx) c.dt (c.filt p) center j) *
          dftBack (pdim c.dx) (sinoRow c.dx (d1 p) (d2 p)) (pdim c.dx - j)).sum).sum := by
  obtain ⟨m, hm, hm8⟩ := pdim_even c.dx
  unfold pairH
  rw [dft2_foldl]
  · rw [sum_flatMap]
    congr 2
    funext p
    unfold projUpd
    rw [sum_flatMap]
    congr 2
    funext j
    rw [freqUpd_sum _ (by omega)]
    rw [map_mul]
    ring
  · intro x hx
    rw [List.mem_flatMap] at hx
    obtain ⟨p, -, hx⟩ := hx
    unfold projUpd at hx
    rw [List.mem_flatMap] at hx
    obtain ⟨j, -, hx⟩ := hx
    exact freqUpd_in _ _ _ _ _ _ x hx

/-! ## Linearity and real output -/

theorem dftBack_pair (pd dx : Nat) (d1 d2 : Nat → ℝ) (k : Nat) :
    dftBack pd (sinoRow dx d1 d2) k =
      dftBack pd (sinoRow dx d1 fun _ => 0) k + I * dftBack pd (sinoRow dx d2 fun _ => 0) k := by
  unfold dftBack
  rw [Finset.mul_sum, ← Finset.sum_add_distrib]
  refine Finset.sum_congr rfl fun j _ => ?_
  unfold sinoRow
  split
  · push_cast; ring
  · ring

theorem dftBack_real (pd dx : Nat) (hpd : pd ≠ 0) (d : Nat → ℝ) (k : Nat) (hk : k ≤ pd) :
    dftBack pd (sinoRow dx d fun _ => 0) (pd - k) =
      starRingEnd ℂ (dftBack pd (sinoRow dx d fun _ => 0) k) := by
  have hp : (pd : ℂ) ≠ 0 := by exact_mod_cast hpd
  unfold dftBack
  rw [map_sum]
  refine Finset.sum_congr rfl fun j _ => ?_
  rw [map_mul, ← Complex.exp_conj]
  have e1 : starRingEnd ℂ (sinoRow dx d (fun _ => 0) j) = sinoRow dx d (fun _ => 0) j := by
    unfold sinoRow
    split <;> simp
  rw [e1]
  congr 1
  have e : (2 * Real.pi * I * ((j : ℂ) * ((pd - k : Nat) : ℂ)) / pd : ℂ) =
      2 * Real.pi * I * ((j : Int) : ℂ) + -(2 * Real.pi * I * ((j : ℂ) * (k : ℂ)) / pd) := by
    rw [Nat.cast_sub hk]; push_cast; field_simp; ring
  rw [e, Complex.exp_add, exp_int_two_pi, one_mul]
  congr 1
  simp only [map_div₀, map_mul, Complex.conj_ofReal, Complex.conj_I, map_ofNat,
    Complex.conj_natCast]
  ring

/-- A pair's transform is that of the first slice plus `i` times that of the second. -/
theorem pair_split (c : Call) (center : ℝ) (d1 d2 : Nat → Nat → ℝ) (iu iv : Int) :
    dft2 (pdim c.dx) (pairH c center d1 d2) iu iv =
      dft2 (pdim c.dx) (pairH c center d1 fun _ _ => 0) iu iv +
        I * dft2 (pdim c.dx) (pairH c center d2 fun _ _ => 0) iu iv := by
  simp only [dft2_pairH]
  have L : ∀ (l : List Nat) (f g h : Nat → ℂ), (∀ x, f x = g x + I * h x) →
      (l.map f).sum = (l.map g).sum + I * (l.map h).sum := by
    intro l f g h e
    induction l with
    | nil => simp
    | cons x l ih => simp only [List.map_cons, List.sum_cons, ih, e]; ring
  refine L _ _ _ _ fun p => L _ _ _ _ fun j => ?_
  rw [dftBack_pair _ _ (d1 p) (d2 p), dftBack_pair _ _ (d1 p) (d2 p)]
  ring

theorem single_real (c : Call) (center : ℝ) (d : Nat → Nat → ℝ) (iu iv : Int) :
    (dft2 (pdim c.dx) (pairH c center d fun _ _ => 0) iu iv).im = 0 := by
  obtain ⟨m, hm, hm8⟩ := pdim_even c.dx
  rw [← Complex.conj_eq_iff_im, dft2_pairH]
  have L : ∀ (l : List Nat) (f : Nat → ℂ), (∀ x ∈ l, starRingEnd ℂ (f x) = f x) →
      starRingEnd ℂ ((l.map f).sum) = (l.map f).sum := by
    intro l f e
    induction l with
    | nil => simp
    | cons x l ih =>
      rw [List.map_cons, List.sum_cons, map_add, e x (by simp), ih fun y hy => e y (by simp [hy])]
  refine L _ _ fun p _ => L _ _ fun j hj => ?_
  rw [List.mem_range'_1] at hj
  rw [dftBack_real _ _ (by omega) _ _ (by omega)]
  simp only [map_add, map_mul, Complex.conj_conj]
  ring

/-! ## The theorems -/

/-- C70 (part): in a call on any number of slices, every slice is reconstructed as if it were alone
and the centre were that of the first slice of its pair.  Missing for the full property: the odd
slices use the centre of the slice before them (`gridrec_second_centre_wrong`). -/
theorem gridrec_slices_partial (c : Call) (dy : Nat) (data : Nat → Nat → Nat → ℝ)
    (center : Nat → ℝ) (s r j : Nat) (hs : s < dy) :
    gridrec c dy data center s r j =
      gridrec c 1 (fun _ => data s) (fun _ => center (2 * (s / 2))) 0 r j := by
  unfold gridrec
  simp only [Nat.zero_div, Nat.mul_zero, Nat.zero_mod, if_true, zero_add, lt_irrefl, if_false]
  rw [pair_split]
  rcases Nat.mod_two_eq_zero_or_one s with h | h
  · have e : 2 * (s / 2) = s := by omega
    rw [if_pos h, e]
    have := single_real c (center s) (fun p i => if s + 1 < dy then data (s + 1) p i else 0)
      (wrapIdx (pdim c.dx) c.ngy j) (wrapIdx (pdim c.dx) c.ngx (c.ngx - 1 - r))
    simp [this]
  · have e : 2 * (s / 2) + 1 = s := by omega
    rw [if_neg (by omega), e]
    simp only [if_pos hs]
    have := single_real c (center (2 * (s / 2))) (data (2 * (s / 2)))
      (wrapIdx (pdim c.dx) c.ngy j) (wrapIdx (pdim c.dx) c.ngx (c.ngx - 1 - r))
    simp [this]

/-- C70: with one rotation centre for all slices, each slice is reconstructed independently of the
others and of how many there are. -/
theorem gridrec_slices_equal_centres (c : Call) (dy : Nat) (data : Nat → Nat → Nat → ℝ) (x : ℝ)
    (s r j : Nat) (hs : s < dy) :
    gridrec c dy data (fun _ => x) s r j = gridrec c 1 (fun _ => data s) (fun _ => x) 0 r j :=
  gridrec_slices_partial c dy data (fun _ => x) s r j hs

/-- C70: slices at even positions use their own centre. -/
theorem gridrec_even_slices (c : Call) (dy : Nat) (data : Nat → Nat → Nat → ℝ)
    (center : Nat → ℝ) (s r j : Nat) (hs : s < dy) (he : s % 2 = 0) :
    gridrec c dy data center s r j =
      gridrec c 1 (fun _ => data s) (fun _ => center s) 0 r j := by
  have e : 2 * (s / 2) = s := by omega
  have := gridrec_slices_partial c dy data center s r j hs
  rwa [e] at this

example : ∃ s dy : Nat, s < dy ∧ s % 2 = 0 ∧ 2 < dy := ⟨2, 4, by norm_num⟩

/-- The centre given for an odd slice has no effect on anything. -/
theorem gridrec_odd_centre_ignored (c : Call) (dy : Nat) (data : Nat → Nat → Nat → ℝ)
    (center center' : Nat → ℝ) (h : ∀ s, s % 2 = 0 → center s = center' s) (s r j : Nat) :
    gridrec c dy data center s r j = gridrec c dy data center' s r j := by
  unfold gridrec
  simp only [h (2 * (s / 2)) (by omega)]

/-- C70: a reconstruction is linear in the data. -/
theorem gridrec_linear (c : Call) (dy : Nat) (d e : Nat → Nat → Nat → ℝ) (a b : ℝ)
    (center : Nat → ℝ) (s r j : Nat) :
    gridrec c dy (fun s p i => a * d s p i + b * e s p i) center s r j =
      a * gridrec c dy d center s r j + b * gridrec c dy e center s r j := by
  have L : ∀ (l : List Nat) (f g h : Nat → ℂ), (∀ x, f x = a * g x + b * h x) →
      (l.map f).sum = a * (l.map g).sum + b * (l.map h).sum := by
    intro l f g h e
    induction l with
    | nil => simp
    | cons x l ih => simp only [List.map_cons, List.sum_cons, ih, e]; ring
  have hb : ∀ (pd dx : Nat) (p1 p2 q1 q2 : Nat → ℝ) (k : Nat),
      dftBack pd (sinoRow dx (fun i => a * p1 i + b * q1 i) (fun i => a * p2 i + b * q2 i)) k =
        a * dftBack pd (sinoRow dx p1 p2) k + b * dftBack pd (sinoRow dx q1 q2) k := by
    intro pd dx p1 p2 q1 q2 k
    unfold dftBack
    rw [Finset.mul_sum, Finset.mul_sum, ← Finset.sum_add_distrib]
    refine Finset.sum_congr rfl fun j _ => ?_
    unfold sinoRow
    split
    · push_cast; ring
    · ring
  have key : ∀ (x : ℝ) (p1 p2 q1 q2 : Nat → Nat → ℝ) (iu iv : Int),
      dft2 (pdim c.dx) (pairH c x (fun p i => a * p1 p i + b * q1 p i)
        (fun p i => a * p2 p i + b * q2 p i)) iu iv =
      a * dft2 (pdim c.dx) (pairH c x p1 p2) iu iv + b * dft2 (pdim c.dx) (pairH c x q1 q2) iu iv := by
    intro x p1 p2 q1 q2 iu iv
    simp only [dft2_pairH]
    refine L _ _ _ _ fun p => L _ _ _ _ fun j => ?_
    rw [hb, hb]
    ring
  unfold gridrec
  simp only
  have e2 : (fun p i => if 2 * (s / 2) + 1 < dy then
      a * d (2 * (s / 2) + 1) p i + b * e (2 * (s / 2) + 1) p i else (0 : ℝ)) =
      fun p i => a * (if 2 * (s / 2) + 1 < dy then d (2 * (s / 2) + 1) p i else 0) +
        b * (if 2 * (s / 2) + 1 < dy then e (2 * (s / 2) + 1) p i else 0) := by
    funext p i
    split <;> simp
  rw [e2, key]
  split
  · simp only [Complex.add_re, Complex.re_ofReal_mul]; ring
  · simp only [Complex.add_im, Complex.im_ofReal_mul]; ring

end Tomopy.Gridrec
