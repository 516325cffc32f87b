import Verif.Probe.Model
import Mathlib.Tactic.Ring
import Mathlib.Tactic.Linarith

/-! C50: scan positions and the images taken there. -/

namespace Tomopy.Probe

/-! ### Specification -/

/-- The list consists of the multiples of the shift at which a probe of `p` pixels lies inside
`n` pixels, in increasing order. -/
structure Covers (p n : Nat) (s : Int) (x : List Int) : Prop where
  increasing : x.Pairwise (· < ·)
  mem : ∀ i, i ∈ x ↔ 0 ≤ i ∧ s ∣ i ∧ i + p ≤ n

/-! ### Coordinates -/

/-- The first `m` multiples of the shift. -/
def mults (s : Int) (m : Nat) : List Int := (List.range m).map fun i : Nat => (i : Int) * s

theorem mults_length (s : Int) (m : Nat) : (mults s m).length = m := by simp [mults]

theorem mults_dropLast (s : Int) (m : Nat) : (mults s (m + 1)).dropLast = mults s m := by
  simp [mults, List.range_succ]

/-- The loop condition in terms of the number of coordinates. -/
abbrev Trim (p n : Nat) (s : Int) (x : List Int) : Prop := (x.length : Int) * s > (n : Int) - p + s

theorem trim_result (p n : Nat) (s : Int) (h0 : ¬ Trim p n s []) :
    ∀ (m : Nat) (t : List Int), While (Trim p n s) List.dropLast (mults s m) t →
      ∃ k ≤ m, t = mults s k ∧ ¬ Trim p n s (mults s k) ∧ (k = m ∨ Trim p n s (mults s (k + 1))) := by
  intro m
  induction m with
  | zero =>
    intro t h
    cases h with
    | done _ h => exact ⟨0, le_refl _, rfl, h, Or.inl rfl⟩
    | step _ _ h _ => exact absurd h h0
  | succ m ih =>
    intro t h
    cases h with
    | done _ h => exact ⟨m + 1, le_refl _, rfl, h, Or.inl rfl⟩
    | step _ _ h h' =>
      rw [mults_dropLast] at h'
      obtain ⟨k, hk, e, h1, h2⟩ := ih t h'
      refine ⟨k, by omega, e, h1, Or.inr ?_⟩
      rcases h2 with rfl | h2
      · exact h
      · exact h2

theorem trim_ends (p n : Nat) (s : Int) (h0 : ¬ Trim p n s []) :
    ∀ m : Nat, ∃ t, While (Trim p n s) List.dropLast (mults s m) t := by
  intro m
  induction m with
  | zero => exact ⟨_, .done _ h0⟩
  | succ m ih =>
    by_cases h : Trim p n s (mults s (m + 1))
    · obtain ⟨t, ht⟩ := ih
      exact ⟨t, .step _ _ h (by rwa [mults_dropLast])⟩
    · exact ⟨_, .done _ h⟩

theorem arange_pos (n : Nat) (s : Int) (hs : 0 < s) :
    arange n s = .ok (mults s (((n : Int) + s - 1) / s).toNat) := by
  unfold arange mults
  rw [if_neg (by omega), if_neg (by omega)]

/-- **C50** (positions).  For a positive shift and a probe that exceeds the projection by at most
one shift, the coordinates along an axis are computed and are exactly the multiples of the shift
at which the probe lies inside the projection, in increasing order. -/
theorem scan_axis_partial (p n : Nat) (s : Int) (hp : 0 < p) (hs : 0 < s) (hfit : (p : Int) ≤ n + s) :
    (∃ x, ScanAxis p n s x) ∧ ∀ x, ScanAxis p n s x → Covers p n s x := by
  have h0 : ¬ Trim p n s [] := by
    unfold Trim; simp only [List.length_nil, Nat.cast_zero, zero_mul]; omega
  refine ⟨?_, ?_⟩
  · obtain ⟨t, ht⟩ := trim_ends p n s h0 (((n : Int) + s - 1) / s).toNat
    exact ⟨t, _, arange_pos n s hs, ht⟩
  · rintro x ⟨x0, e, hw⟩
    rw [arange_pos n s hs] at e
    injection e with e
    subst e
    obtain ⟨k, hk, rfl, h1, h2⟩ := trim_result p n s h0 _ _ hw
    simp only [Trim, mults_length] at h1 h2
    refine ⟨?_, ?_⟩
    · unfold mults
      rw [List.pairwise_map]
      refine List.pairwise_lt_range.imp fun {a b} hab => ?_
      have : (a : Int) < b := by exact_mod_cast hab
      exact Int.mul_lt_mul_of_pos_right this hs
    · intro i
      unfold mults
      simp only [List.mem_map, List.mem_range]
      constructor
      · rintro ⟨a, ha, rfl⟩
        have h3 : ((a : Int) + 1) * s ≤ k * s := by
          apply Int.mul_le_mul_of_nonneg_right _ hs.le
          exact_mod_cast ha
        refine ⟨by positivity, Dvd.intro_left _ rfl, ?_⟩
        have : ((a : Int) + 1) * s = a * s + s := by ring
        omega
      · rintro ⟨hi, ⟨a, rfl⟩, hin⟩
        have ha : 0 ≤ a := by
          by_contra hlt
          have : s * a < 0 := Int.mul_neg_of_pos_of_neg hs (by omega)
          omega
        obtain ⟨a, rfl⟩ := Int.eq_ofNat_of_zero_le ha
        refine ⟨a, ?_, by ring⟩
        by_contra hge
        have hge : k ≤ a := by omega
        rcases h2 with h2 | h2
        · -- all coordinates of `arange` were kept
          have hd := Int.emod_add_mul_ediv ((n : Int) + s - 1) s
          have hm := Int.emod_lt_of_pos ((n : Int) + s - 1) hs
          have hk' : ((n : Int) + s - 1) / s ≤ k := by omega
          have h4 : s * (((n : Int) + s - 1) / s) ≤ s * a :=
            Int.mul_le_mul_of_nonneg_left (by omega) hs.le
          omega
        · push_cast at h2
          have h3 : ((k : Int) + 1) * s ≤ (a + 1) * s := by
            apply Int.mul_le_mul_of_nonneg_right _ hs.le
            omega
          have e1 : ((a : Int) + 1) * s = s * a + s := by ring
          omega

/-- A list of coordinates is determined by `Covers`. -/
theorem Covers.unique {p n : Nat} {s : Int} {x y : List Int} (hx : Covers p n s x)
    (hy : Covers p n s y) : x = y :=
  List.Perm.eq_of_pairwise (fun a b _ _ h1 h2 => absurd h2 (by omega)) hx.increasing hy.increasing
    ((List.perm_ext_iff_of_nodup (hx.increasing.imp (by intro a b h; omega))
      (hy.increasing.imp (by intro a b h; omega))).2 fun a => by rw [hx.mem, hy.mem])

theorem dropLast_loops (p n : Nat) (s : Int) (h0 : Trim p n s []) (t : List Int) :
    ¬ While (Trim p n s) List.dropLast [] t := by
  intro h
  generalize he : ([] : List Int) = x at h
  induction h with
  | done _ h => exact h (he ▸ h0)
  | step x t _ _ ih => subst he; exact ih rfl

/-- The full statement is false: the loop does not end when the probe exceeds the projection by
more than one shift, because removing the last element of an empty array changes nothing. -/
theorem scan_axis_hangs (p n : Nat) (s : Int) (hs : 0 < s) (hbig : (n : Int) + s < p) (x : List Int) :
    ¬ ScanAxis p n s x := by
  rintro ⟨x0, e, hw⟩
  rw [arange_pos n s hs] at e
  injection e with e
  subst e
  have h0 : ∀ m, Trim p n s (mults s m) := by
    intro m
    rw [Trim, mults_length]
    have : (0 : Int) ≤ m * s := by positivity
    omega
  have : ∀ m t, ¬ While (Trim p n s) List.dropLast (mults s m) t := by
    intro m
    induction m with
    | zero => exact dropLast_loops p n s (h0 0)
    | succ m ih =>
      intro t h
      cases h with
      | done _ h => exact h (h0 _)
      | step _ _ _ h => rw [mults_dropLast] at h; exact ih t h
  exact this _ _ hw

/-- A shift of zero, the default for a probe of one pixel, raises. -/
theorem scan_axis_zero (n : Nat) : arange n (shiftOr 1 none) = .error .zeroDivision := rfl

example : Covers 4 11 3 [0, 3, 6] := by
  have h : ScanAxis 4 11 3 [0, 3, 6] :=
    ⟨[0, 3, 6, 9], rfl, .step _ _ (by decide) (.done _ (by decide))⟩
  exact (scan_axis_partial 4 11 3 (by decide) (by decide) (by decide)).2 _ h

example : ¬ ∃ x, ScanAxis 8 4 2 x := fun ⟨x, h⟩ => scan_axis_hangs 8 4 2 (by decide) (by decide) x h

/-! ### Images -/

theorem mapM_ok {α β : Type} (f : α → Except PyErr β) (g : α → β) :
    ∀ l : List α, (∀ a ∈ l, f a = .ok (g a)) → l.mapM f = .ok (l.map g) := by
  intro l
  induction l with
  | nil => intro _; rfl
  | cons a l ih =>
    intro h
    rw [List.mapM_cons, h a List.mem_cons_self, ih fun b hb => h b (List.mem_cons_of_mem _ hb)]
    rfl

/-- Image taken at a position: the probe times the pixels below it. -/
def taken {K : Type} [Mul K] (probe proj : Img K) (i j : Nat) : Img K :=
  ⟨probe.r, probe.c, fun a b => probe.get a b * proj.get (i + a) (j + b)⟩

/-- Two images agree on their pixels. -/
def Same {K : Type} (f g : Img K) : Prop :=
  f.r = g.r ∧ f.c = g.c ∧ ∀ a < f.r, ∀ b < f.c, f.get a b = g.get a b

theorem mulImg_region {K : Type} [Mul K] (probe proj : Img K) (i j : Nat)
    (hi : i + probe.r ≤ proj.r) (hj : j + probe.c ≤ proj.c) :
    ∃ f, mulImg probe (region proj i j probe.r probe.c) = .ok f ∧ Same f (taken probe proj i j) := by
  have hb : ∀ n a : Nat, a ≤ n → pyBound n a = a := by
    intro n a h; unfold pyBound; rw [if_neg (by omega)]; omega
  have er : (region proj i j probe.r probe.c).r = probe.r := by
    show (pyBound proj.r ((i : Int) + probe.r) - pyBound proj.r i).toNat = _
    rw [← Nat.cast_add, hb _ _ hi, hb _ _ (by omega)]
    omega
  have ec : (region proj i j probe.r probe.c).c = probe.c := by
    show (pyBound proj.c ((j : Int) + probe.c) - pyBound proj.c j).toNat = _
    rw [← Nat.cast_add, hb _ _ hj, hb _ _ (by omega)]
    omega
  unfold mulImg
  rw [er, ec]
  simp only [bLen, if_true]
  refine ⟨_, rfl, rfl, rfl, ?_⟩
  intro a ha b hb'
  dsimp only at ha hb' ⊢
  have e1 : (if probe.r = 1 then 0 else a) = a := by split_ifs <;> omega
  have e2 : (if probe.c = 1 then 0 else b) = b := by split_ifs <;> omega
  rw [e1, e2]
  show _ * proj.get ((pyBound proj.r i).toNat + a) ((pyBound proj.c j).toNat + b) = _
  rw [hb _ _ (by omega : i ≤ proj.r), hb _ _ (by omega : j ≤ proj.c)]
  rfl

/-- **C50** (images).  With coordinates that keep the probe inside the projection, one image is
taken at every pair of coordinates, row by row; it has the shape of the probe, and its pixels are
the probe times the pixels of the projection below it. -/
theorem scan_probe_frames {K : Type} [Mul K] (probe proj : Img K) (sx sy : Int) (x y : List Int)
    (hx : Covers probe.r proj.r sx x) (hy : Covers probe.c proj.c sy y) :
    ∃ fs, scanFrames probe proj x y = .ok fs ∧
      List.Forall₂ Same fs ((x.flatMap fun i => y.map fun j => (i, j)).map
        fun ij => taken probe proj ij.1.toNat ij.2.toNat) := by
  have key : ∀ ij ∈ (x.flatMap fun i => y.map fun j => (i, j)),
      ∃ f, mulImg probe (region proj ij.1 ij.2 probe.r probe.c) = .ok f ∧
        Same f (taken probe proj ij.1.toNat ij.2.toNat) := by
    rintro ⟨i, j⟩ h
    simp only [List.mem_flatMap, List.mem_map, Prod.mk.injEq] at h
    obtain ⟨i', hi', j', hj', rfl, rfl⟩ := h
    obtain ⟨a1, -, a3⟩ := (hx.mem _).1 hi'
    obtain ⟨b1, -, b3⟩ := (hy.mem _).1 hj'
    obtain ⟨i, rfl⟩ := Int.eq_ofNat_of_zero_le a1
    obtain ⟨j, rfl⟩ := Int.eq_ofNat_of_zero_le b1
    exact mulImg_region probe proj i j (by omega) (by omega)
  unfold scanFrames
  generalize (x.flatMap fun i => y.map fun j => (i, j)) = l at key
  induction l with
  | nil => exact ⟨[], rfl, .nil⟩
  | cons ij l ih =>
    obtain ⟨fs, e, hfs⟩ := ih fun a ha => key a (List.mem_cons_of_mem _ ha)
    obtain ⟨f, ef, hf⟩ := key ij List.mem_cons_self
    refine ⟨f :: fs, ?_, .cons hf hfs⟩
    rw [List.mapM_cons, ef, e]
    rfl

/-- **C50** (whole function).  For positive shifts and a probe no larger than the projection
`_rect_scan_probe` ends, and every result consists of the images at the positions. -/
theorem rect_scan_probe_partial {K : Type} [Mul K] (probe proj : Img K) (sx sy : Option Int)
    (hr : 0 < probe.r) (hc : 0 < probe.c) (hsx : 0 < shiftOr probe.r sx)
    (hsy : 0 < shiftOr probe.c sy) (hfr : probe.r ≤ proj.r) (hfc : probe.c ≤ proj.c) :
    (∃ res, RectScanProbe probe proj sx sy res) ∧
    ∀ res, RectScanProbe probe proj sx sy res →
      ∃ x y fs, Covers probe.r proj.r (shiftOr probe.r sx) x ∧
        Covers probe.c proj.c (shiftOr probe.c sy) y ∧ res = .ok fs ∧
        List.Forall₂ Same fs ((x.flatMap fun i => y.map fun j => (i, j)).map
          fun ij => taken probe proj ij.1.toNat ij.2.toNat) := by
  obtain ⟨⟨x, hx⟩, hx'⟩ := scan_axis_partial probe.r proj.r _ hr hsx (by omega)
  obtain ⟨⟨y, hy⟩, hy'⟩ := scan_axis_partial probe.c proj.c _ hc hsy (by omega)
  refine ⟨⟨_, x, y, hx, hy, rfl⟩, ?_⟩
  rintro res ⟨x, y, hx, hy, rfl⟩
  obtain ⟨fs, e, h⟩ := scan_probe_frames probe proj _ _ x y (hx' x hx) (hy' y hy)
  exact ⟨x, y, fs, hx' x hx, hy' y hy, e, h⟩

example : ∃ res, RectScanProbe (K := Int) ⟨2, 3, fun _ _ => 1⟩ ⟨5, 7, fun i j => i + 2 * j⟩ none
    (some 2) res :=
  (rect_scan_probe_partial _ _ _ _ (by decide) (by decide) (by decide) (by decide) (by decide)
    (by decide)).1

end Tomopy.Probe
