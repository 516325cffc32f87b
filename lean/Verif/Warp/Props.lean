import Verif.Warp.Model
import Verif.Mproc.Props
import Mathlib.Tactic.Linarith
import Mathlib.Tactic.LinearCombination

/-! C80: distortion correction. -/

namespace Tomopy.Warp

/-! ### Interpolation -/

theorem floor_lt_of (n : Nat) (y : ℝ) (h0 : 0 ≤ y) (h1 : y ≤ (n : ℝ) - 1) :
    0 ≤ ⌊y⌋ ∧ ⌊y⌋.toNat < n ∧ (⌊y⌋.toNat + 1 < n ∨ y - ⌊y⌋ = 0) ∧ ((⌊y⌋.toNat : ℝ) = ⌊y⌋) := by
  have a0 : 0 ≤ ⌊y⌋ := Int.floor_nonneg.2 h0
  have a1 : (⌊y⌋ : ℝ) ≤ y := Int.floor_le y
  have a2 : (⌊y⌋ : ℝ) ≤ ((n : Int) - 1 : Int) := by push_cast; linarith
  have a3 : ⌊y⌋ ≤ (n : Int) - 1 := by exact_mod_cast a2
  refine ⟨a0, by omega, ?_, ?_⟩
  · rcases Nat.lt_or_ge (⌊y⌋.toNat + 1) n with h | h
    · exact Or.inl h
    · right
      have : ⌊y⌋ = (n : Int) - 1 := by omega
      have e : (⌊y⌋ : ℝ) = (n : ℝ) - 1 := by rw [this]; push_cast; ring
      linarith
  · have : ((⌊y⌋.toNat : Int) : ℝ) = (⌊y⌋ : ℝ) := by rw [Int.toNat_of_nonneg a0]
    exact_mod_cast this

/-- The value between the pixels on both sides. -/
theorem lerp_eq (n : Nat) (f : Nat → ℝ) (y : ℝ) (h0 : 0 ≤ y) (h1 : y ≤ (n : ℝ) - 1) :
    lerp n f y = (1 - (y - ⌊y⌋)) * f ⌊y⌋.toNat + (y - ⌊y⌋) * f (⌊y⌋.toNat + 1) := by
  obtain ⟨-, a1, a2, -⟩ := floor_lt_of n y h0 h1
  unfold lerp reflect
  rw [if_pos a1]
  rcases a2 with a2 | a2
  · rw [if_pos a2]
  · rw [a2]; ring

theorem lerp_nat (n : Nat) (f : Nat → ℝ) (k : Nat) (hk : k < n) : lerp n f k = f k := by
  rw [lerp_eq n f k (by positivity) (by
    have : ((k + 1 : Nat) : ℝ) ≤ n := by exact_mod_cast hk
    push_cast at this; linarith)]
  simp

theorem lerp_affine (n : Nat) (a b y : ℝ) (h0 : 0 ≤ y) (h1 : y ≤ (n : ℝ) - 1) :
    lerp n (fun k => a + b * k) y = a + b * y := by
  rw [lerp_eq n _ y h0 h1]
  have := (floor_lt_of n y h0 h1).2.2.2
  push_cast
  rw [this]
  ring

theorem lerp_mem (n : Nat) (f : Nat → ℝ) (lo hi y : ℝ) (h0 : 0 ≤ y) (h1 : y ≤ (n : ℝ) - 1)
    (hf : ∀ k < n, lo ≤ f k ∧ f k ≤ hi) : lo ≤ lerp n f y ∧ lerp n f y ≤ hi := by
  obtain ⟨-, a1, a2, -⟩ := floor_lt_of n y h0 h1
  rw [lerp_eq n f y h0 h1]
  have t0 : 0 ≤ y - ⌊y⌋ := by linarith [Int.floor_le y]
  have t1 : y - ⌊y⌋ < 1 := by linarith [Int.lt_floor_add_one y]
  obtain ⟨b1, b2⟩ := hf _ a1
  generalize y - ⌊y⌋ = t at *
  rcases a2 with a2 | a2
  · obtain ⟨c1, c2⟩ := hf _ a2
    constructor <;> nlinarith
  · subst a2
    constructor <;> linarith

theorem lerp_congr (n : Nat) (f g : Nat → ℝ) (y : ℝ) (h0 : 0 ≤ y) (h1 : y ≤ (n : ℝ) - 1)
    (hf : ∀ k < n, f k = g k) : lerp n f y = lerp n g y := by
  obtain ⟨-, a1, a2, -⟩ := floor_lt_of n y h0 h1
  rw [lerp_eq n f y h0 h1, lerp_eq n g y h0 h1, hf _ a1]
  rcases a2 with a2 | a2
  · rw [hf _ a2]
  · rw [a2]; ring

/-! ### Source positions -/

theorem clip_mem (v : ℝ) (n : Nat) (hn : 0 < n) : 0 ≤ clip v 0 ((n : ℝ) - 1) ∧
    clip v 0 ((n : ℝ) - 1) ≤ (n : ℝ) - 1 := by
  have : (1 : ℝ) ≤ n := by exact_mod_cast hn
  unfold clip
  exact ⟨le_min (le_max_right _ _) (by linarith), min_le_right _ _⟩

theorem clip_id (v : ℝ) (n : Nat) (h0 : 0 ≤ v) (h1 : v ≤ (n : ℝ) - 1) :
    clip v 0 ((n : ℝ) - 1) = v := by
  unfold clip
  rw [max_eq_left h0, min_eq_left h1]

theorem nat_le (n k : Nat) (h : k < n) : (k : ℝ) ≤ (n : ℝ) - 1 := by
  have : ((k + 1 : Nat) : ℝ) ≤ n := by exact_mod_cast h
  push_cast at this; linarith

/-- **C80** (geometry).  The source of a pixel lies on the ray from the distortion centre through
the pixel, at the distance multiplied by the polynomial, if that position is inside the image. -/
theorem src_radial (h w : Nat) (xc yc : ℝ) (fs : List ℝ) (r c : ℝ) (p : ℝ)
    (hp : p = ∑ i ∈ Finset.range fs.length, fs.getD i 0 * Real.sqrt ((c - xc) ^ 2 + (r - yc) ^ 2) ^ i)
    (hx0 : 0 ≤ xc + p * (c - xc)) (hx1 : xc + p * (c - xc) ≤ (w : ℝ) - 1)
    (hy0 : 0 ≤ yc + p * (r - yc)) (hy1 : yc + p * (r - yc) ≤ (h : ℝ) - 1) :
    srcX w xc yc fs r c - xc = p * (c - xc) ∧ srcY h xc yc fs r c - yc = p * (r - yc) := by
  have key : ∀ (l : List ℝ) (k : Nat) (q : ℝ),
      poly q k l = ∑ i ∈ Finset.range l.length, l.getD i 0 * q ^ (k + i) := by
    intro l
    induction l with
    | nil => intro k q; simp [poly]
    | cons a l ih =>
      intro k q
      rw [poly, ih, List.length_cons, Finset.sum_range_succ']
      simp only [List.getD_cons_succ, List.getD_cons_zero, Nat.add_zero]
      rw [add_comm]
      congr 1
      refine Finset.sum_congr rfl fun i _ => ?_
      congr 2
      omega
  have e : factor xc yc fs r c = p := by
    unfold factor
    rw [key, hp]
    simp only [Nat.zero_add]
  unfold srcX srcY
  rw [e, clip_id _ _ hx0 hx1, clip_id _ _ hy0 hy1]
  constructor <;> ring

/-! ### The corrected image -/

/-- **C80** (interpolation).  An image that varies linearly is evaluated at the source position of
every pixel, so the positions used are exactly the source positions. -/
theorem unwarp_affine (h w : Nat) (hh : 0 < h) (hw : 0 < w) (xc yc : ℝ) (fs : List ℝ) (a b d : ℝ)
    (r c : Nat) : unwarp h w xc yc fs (fun i j => a + b * i + d * j) r c =
      a + b * srcY h xc yc fs r c + d * srcX w xc yc fs r c := by
  unfold unwarp bilinear
  have hx : 0 ≤ srcX w xc yc fs r c ∧ srcX w xc yc fs r c ≤ (w : ℝ) - 1 := clip_mem _ w hw
  have hy : 0 ≤ srcY h xc yc fs r c ∧ srcY h xc yc fs r c ≤ (h : ℝ) - 1 := clip_mem _ h hh
  have e1 : (fun i : Nat => lerp w (fun j : Nat => a + b * (i : ℝ) + d * j) (srcX w xc yc fs r c)) =
      fun i : Nat => (a + d * srcX w xc yc fs r c) + b * (i : ℝ) := by
    funext i
    rw [lerp_affine w _ d _ hx.1 hx.2]
    ring
  rw [e1, lerp_affine h _ b _ hy.1 hy.2]
  ring

/-- **C80** (range).  The corrected values lie between the smallest and largest value of the
image. -/
theorem unwarp_range (h w : Nat) (hh : 0 < h) (hw : 0 < w) (xc yc : ℝ) (fs : List ℝ) (f : Frame)
    (lo hi : ℝ) (hf : ∀ r < h, ∀ c < w, lo ≤ f r c ∧ f r c ≤ hi) (r c : Nat) :
    lo ≤ unwarp h w xc yc fs f r c ∧ unwarp h w xc yc fs f r c ≤ hi := by
  obtain ⟨x0, x1⟩ := clip_mem (xc + factor xc yc fs r c * (c - xc)) w hw
  obtain ⟨y0, y1⟩ := clip_mem (yc + factor xc yc fs r c * (r - yc)) h hh
  exact lerp_mem h _ lo hi _ y0 y1 fun i hi' => lerp_mem w _ lo hi _ x0 x1 fun j hj => hf i hi' j hj

theorem lerp_linear (n : Nat) (f g : Nat → ℝ) (a b y : ℝ) :
    lerp n (fun k => a * f k + b * g k) y = a * lerp n f y + b * lerp n g y := by
  unfold lerp; ring

/-- **C80** (linearity). -/
theorem unwarp_linear (h w : Nat) (xc yc : ℝ) (fs : List ℝ) (f g : Frame) (a b : ℝ) (r c : Nat) :
    unwarp h w xc yc fs (fun i j => a * f i j + b * g i j) r c =
      a * unwarp h w xc yc fs f r c + b * unwarp h w xc yc fs g r c := by
  unfold unwarp bilinear
  simp only [lerp_linear]

/-- **C80** (identity).  Without distortion (polynomial 1) nothing changes. -/
theorem unwarp_identity (h w : Nat) (xc yc : ℝ) (fs : List ℝ) (hfs : ∀ x ∈ fs, x = 0) (f : Frame)
    (r c : Nat) (hr : r < h) (hc : c < w) : unwarp h w xc yc (1 :: fs) f r c = f r c := by
  have hz : ∀ (l : List ℝ) (q : ℝ) (k : Nat), (∀ x ∈ l, x = 0) → poly q k l = 0 := by
    intro l q
    induction l with
    | nil => intro k _; rfl
    | cons a l ih =>
      intro k hl
      rw [poly, hl a (by simp), ih _ fun x hx => hl x (by simp [hx])]
      ring
  have e : factor xc yc (1 :: fs) r c = 1 := by
    unfold factor
    rw [poly, hz fs _ _ hfs]
    simp
  have ex : srcX w xc yc (1 :: fs) r c = c := by
    unfold srcX
    rw [e]
    have : xc + 1 * ((c : ℝ) - xc) = c := by ring
    rw [this, clip_id _ _ (by positivity) (nat_le w c hc)]
  have ey : srcY h xc yc (1 :: fs) r c = r := by
    unfold srcY
    rw [e]
    have : yc + 1 * ((r : ℝ) - yc) = r := by ring
    rw [this, clip_id _ _ (by positivity) (nat_le h r hr)]
  unfold unwarp bilinear
  rw [ex, ey, lerp_nat h _ r hr, lerp_nat w _ c hc]

/-- **C80** (centre).  The pixel at the distortion centre stays, whatever the coefficients. -/
theorem unwarp_centre (h w : Nat) (fs : List ℝ) (f : Frame) (r c : Nat) (hr : r < h) (hc : c < w) :
    unwarp h w c r fs f r c = f r c := by
  have ex : srcX w c r fs r c = c := by
    unfold srcX
    rw [sub_self, mul_zero, add_zero, clip_id _ _ (by positivity) (nat_le w c hc)]
  have ey : srcY h c r fs r c = r := by
    unfold srcY
    rw [sub_self, mul_zero, add_zero, clip_id _ _ (by positivity) (nat_le h r hr)]
  unfold unwarp bilinear
  rw [ex, ey, lerp_nat h _ r hr, lerp_nat w _ c hc]

/-- **C80** (jobs).  Every projection is corrected on its own, for all cores, chunks and
schedules. -/
theorem correct_distributed (cpu : Nat) (debug : Bool) (n h w : Nat) (xc yc : ℝ) (fs : List ℝ)
    (ncore nchunk : Option Nat) (m m' : Mproc.Cell → Frame) (res : Mproc.Buf)
    (hd : Mproc.DistributeJobs cpu debug ⟨n, [0], none, fun _ => false, correctProj h w xc yc fs,
      ncore, nchunk, fun _ => false⟩ (fun _ => false) m m' res) :
    ∀ s < n, m' (res, s) = unwarp h w xc yc fs (m (.caller 0, s)) := by
  intro s hs
  have hf : Mproc.InPlaceSlicewise (correctProj h w xc yc fs)
      (fun row => row.modifyHead (unwarp h w xc yc fs)) :=
    ⟨fun _ => rfl, fun _ => rfl, fun row => List.length_modifyHead⟩
  have key := Mproc.inplace_result_partial hf (by simp) (by simp) rfl hd s hs
  simpa using key

example : ∃ (m m' : Mproc.Cell → Frame) (res : Mproc.Buf), Mproc.DistributeJobs 4 false
    ⟨5, [0], none, fun _ => false, correctProj 8 8 3 4 [1, 1 / 10], some 3, none, fun _ => false⟩
    (fun _ => false) m m' res := by
  obtain ⟨m', res, h⟩ := Mproc.distribute_jobs_total 4 false
    ⟨5, [0], none, fun _ => false, correctProj 8 8 3 4 [1, 1 / 10], some 3, none, fun _ => false⟩
    (fun _ => false) (fun _ _ _ => 0) 3 2 (by decide)
  exact ⟨_, m', res, h⟩

/-! ### Sinograms -/

theorem foldl_min_mem (l : List ℝ) (a : ℝ) : l.foldl min a ∈ a :: l ∧ ∀ x ∈ a :: l, l.foldl min a ≤ x := by
  induction l generalizing a with
  | nil => simp
  | cons b l ih =>
    obtain ⟨h1, h2⟩ := ih (min a b)
    rw [List.foldl_cons]
    have h3 := h2 (min a b) (by simp)
    constructor
    · rcases List.mem_cons.1 h1 with h | h
      · rcases min_choice a b with e | e <;> rw [h, e] <;> simp
      · simp [h]
    · intro x hx
      rcases List.mem_cons.1 hx with rfl | hx
      · exact h3.trans (min_le_left _ _)
      · rcases List.mem_cons.1 hx with rfl | hx
        · exact h3.trans (min_le_right _ _)
        · exact h2 x (by simp [hx])

theorem foldl_max_mem (l : List ℝ) (a : ℝ) : l.foldl max a ∈ a :: l ∧ ∀ x ∈ a :: l, x ≤ l.foldl max a := by
  induction l generalizing a with
  | nil => simp
  | cons b l ih =>
    obtain ⟨h1, h2⟩ := ih (max a b)
    rw [List.foldl_cons]
    have h3 := h2 (max a b) (by simp)
    constructor
    · rcases List.mem_cons.1 h1 with h | h
      · rcases max_choice a b with e | e <;> rw [h, e] <;> simp
      · simp [h]
    · intro x hx
      rcases List.mem_cons.1 hx with rfl | hx
      · exact (le_max_left _ _).trans h3
      · rcases List.mem_cons.1 hx with rfl | hx
        · exact (le_max_right _ _).trans h3
        · exact h2 x (by simp [hx])

theorem i16_small (v : Int) (h0 : 0 ≤ v) (h1 : v ≤ 32767) : i16 v = v := by
  unfold i16; omega

/-- Interpolation in a slab of rows equals interpolation in the image. -/
theorem lerp_slab (n a b : Nat) (f : Nat → ℝ) (y : ℝ) (ha : (a : ℝ) ≤ y) (hb : y ≤ (b : ℝ) - 1)
    (hn : b ≤ n) : lerp (b - a) (fun k => f (a + k)) (y - a) = lerp n f y := by
  have hab : a < b := by
    have : (a : ℝ) < b := by linarith
    exact_mod_cast this
  have hn' : (b : ℝ) ≤ n := by exact_mod_cast hn
  have h0 : 0 ≤ y := le_trans (by positivity) ha
  rw [lerp_eq n f y h0 (by linarith), lerp_eq (b - a) _ (y - a) (by linarith) (by
    rw [Nat.cast_sub hab.le]; linarith)]
  have hfl : ⌊y - (a : ℝ)⌋ = ⌊y⌋ - a := Int.floor_sub_natCast y a
  have ha' : (a : Int) ≤ ⌊y⌋ := Int.le_floor.2 (by exact_mod_cast ha)
  rw [hfl]
  have e1 : a + (⌊y⌋ - (a : Int)).toNat = ⌊y⌋.toNat := by omega
  have e2 : a + ((⌊y⌋ - (a : Int)).toNat + 1) = ⌊y⌋.toNat + 1 := by omega
  rw [e1, e2]
  push_cast
  ring

/-- **C80** (sinograms).  For images of up to 32767 rows the corrected sinogram is the row of the
corrected projections.  Missing for the full property: higher images (`sino_overflows`). -/
theorem sino_row_partial (h w ind : Nat) (hi : ind < h) (hh : h ≤ 32767) (hw : 0 < w) (xc yc : ℝ)
    (fs : List ℝ) (f : Frame) :
    ∃ row, sinoRow h w ind xc yc fs f = .ok row ∧ ∀ c < w, row c = unwarp h w xc yc fs f ind c := by
  obtain ⟨w', rfl⟩ : ∃ w', w = w' + 1 := ⟨w - 1, by omega⟩
  have hcl : ∀ c : Nat, 0 ≤ srcY h xc yc fs ind c ∧ srcY h xc yc fs ind c ≤ (h : ℝ) - 1 := fun c =>
    clip_mem _ h (by omega)
  obtain ⟨a, l, hl⟩ : ∃ a l, (List.range (w' + 1)).map (fun c : Nat => srcY h xc yc fs ind c) = a :: l := by
    rw [List.range_succ_eq_map]; exact ⟨_, _, rfl⟩
  have hmem : ∀ x ∈ a :: l, 0 ≤ x ∧ x ≤ (h : ℝ) - 1 := by
    intro x hx
    rw [← hl, List.mem_map] at hx
    obtain ⟨c, -, rfl⟩ := hx
    exact hcl c
  obtain ⟨m1, m2⟩ := foldl_min_mem l a
  obtain ⟨M1, M2⟩ := foldl_max_mem l a
  have n0 := (hmem _ m1).1
  have N1 := (hmem _ M1).2
  have nN : l.foldl min a ≤ l.foldl max a := m2 _ M1
  have fl0 : 0 ≤ ⌊l.foldl min a⌋ := Int.floor_nonneg.2 n0
  have fle : (⌊l.foldl min a⌋ : ℝ) ≤ l.foldl min a := Int.floor_le _
  have cle : l.foldl max a ≤ (⌈l.foldl max a⌉ : ℝ) := Int.le_ceil _
  have ch : ⌈l.foldl max a⌉ ≤ (h : Int) - 1 := Int.ceil_le.2 (by push_cast; linarith)
  have flc : ⌊l.foldl min a⌋ ≤ ⌈l.foldl max a⌉ := by
    have : (⌊l.foldl min a⌋ : ℝ) ≤ ⌈l.foldl max a⌉ := by linarith
    exact_mod_cast this
  have hrows : rowsOf ((List.range (w' + 1)).map fun c : Nat => srcY h xc yc fs ((ind : Int) : ℝ) c) =
      .ok (⌊l.foldl min a⌋, ⌈l.foldl max a⌉ + 1) := by
    rw [Int.cast_natCast, hl, rowsOf, i16_small _ fl0 (by omega),
      i16_small ⌈l.foldl max a⌉ (by omega) (by omega), i16_small _ (by omega) (by omega)]
  unfold sinoRow
  rw [hrows]
  have b1 : (pyBound h ⌊l.foldl min a⌋).toNat = ⌊l.foldl min a⌋.toNat := by unfold pyBound; split <;> omega
  have b2 : (pyBound h (⌈l.foldl max a⌉ + 1)).toNat = (⌈l.foldl max a⌉ + 1).toNat := by
    unfold pyBound; split <;> omega
  refine ⟨_, (show slabRow h (w' + 1) ind xc yc fs f ⌊l.foldl min a⌋ (⌈l.foldl max a⌉ + 1) = _ by
    unfold slabRow
    rw [b1, b2, if_neg (by omega)]), ?_⟩
  intro c hc
  have hcm : srcY h xc yc fs ind c ∈ a :: l := by
    rw [← hl, List.mem_map]
    exact ⟨c, List.mem_range.2 hc, rfl⟩
  have hlo := m2 _ hcm
  have hhi := M2 _ hcm
  rw [Int.cast_natCast]
  unfold unwarp bilinear
  have e : (⌊l.foldl min a⌋ : ℝ) = (⌊l.foldl min a⌋.toNat : ℝ) := by
    have : ((⌊l.foldl min a⌋.toNat : Int) : ℝ) = (⌊l.foldl min a⌋ : ℝ) := by
      rw [Int.toNat_of_nonneg fl0]
    exact_mod_cast this.symm
  have e2 : ((⌈l.foldl max a⌉ + 1).toNat : ℝ) = (⌈l.foldl max a⌉ : ℝ) + 1 := by
    have : (((⌈l.foldl max a⌉ + 1).toNat : Int) : ℝ) = ((⌈l.foldl max a⌉ + 1 : Int) : ℝ) := by
      rw [Int.toNat_of_nonneg (by omega)]
    push_cast at this
    exact_mod_cast this
  rw [e]
  exact lerp_slab h ⌊l.foldl min a⌋.toNat (⌈l.foldl max a⌉ + 1).toNat
    (fun r => lerp (w' + 1) (f r) (srcX (w' + 1) xc yc fs ind c)) _ (by rw [← e]; linarith)
    (by rw [e2]; linarith) (by omega)

/-- C80 is false of the code for higher images: the last row of an image of 32768 rows is not
found, because the end of the slab is computed in 16-bit integers. -/
theorem sino_overflows (w : Nat) (hw : 0 < w) (xc yc : ℝ) (f : Frame) :
    sinoRow 32768 w 32767 xc yc [1] f = .error .runtime := by
  have hsrc : ∀ c : Nat, srcY 32768 xc yc [1] ((32767 : Int) : ℝ) c = 32767 := by
    intro c
    unfold srcY factor
    have : yc + poly (Real.sqrt (((c : ℝ) - xc) ^ 2 + (((32767 : Int) : ℝ) - yc) ^ 2)) 0 [1] *
        (((32767 : Int) : ℝ) - yc) = 32767 := by
      simp [poly]
    rw [this]
    exact clip_id _ _ (by norm_num) (by norm_num)
  have hl : (List.range w).map (fun c : Nat => srcY 32768 xc yc [1] ((32767 : Int) : ℝ) c) =
      List.replicate w 32767 := by
    rw [List.eq_replicate_iff]
    refine ⟨by simp, ?_⟩
    intro x hx
    obtain ⟨c, -, rfl⟩ := List.mem_map.1 hx
    exact hsrc c
  obtain ⟨w', rfl⟩ : ∃ w', w = w' + 1 := ⟨w - 1, by omega⟩
  have hmn : (List.replicate w' (32767 : ℝ)).foldl min 32767 = 32767 := by
    have := (foldl_min_mem (List.replicate w' (32767 : ℝ)) 32767).1
    rw [← List.replicate_succ] at this
    exact List.eq_of_mem_replicate this
  have hmx : (List.replicate w' (32767 : ℝ)).foldl max 32767 = 32767 := by
    have := (foldl_max_mem (List.replicate w' (32767 : ℝ)) 32767).1
    rw [← List.replicate_succ] at this
    exact List.eq_of_mem_replicate this
  have hfl : ⌊(32767 : ℝ)⌋ = 32767 := by norm_num
  have hce : ⌈(32767 : ℝ)⌉ = 32767 := by norm_num
  unfold sinoRow
  rw [hl, List.replicate_succ, rowsOf, hmn, hmx, hfl, hce]
  show slabRow 32768 (w' + 1) 32767 xc yc [1] f (i16 32767) (i16 (i16 32767 + 1)) = _
  have e1 : i16 32767 = 32767 := by decide
  have e2 : i16 (32767 + 1) = -32768 := by decide
  rw [e1, e2]
  unfold slabRow
  exact if_pos (by decide)

/-! ### Coefficient files -/

theorem mapM_map_ok {α β : Type} (f : α → Except PyErr β) (g : β → α) (hg : ∀ x, f (g x) = .ok x)
    (l : List β) : (l.map g).mapM f = .ok l := by
  induction l with
  | nil => rfl
  | cons a l ih => rw [List.map_cons, List.mapM_cons, hg, ih]; rfl

/-- **C80** (files).  A file with one number at the end of every line is read as centre and
coefficients in that order. -/
theorem load_spec {K W : Type} (num : W → Except PyErr K) (text : K → List W)
    (ht : ∀ k, ∃ t, (text k).getLast? = some t ∧ num t = .ok k) (x y : K) (l : List K) :
    loadCoefs num ((x :: y :: l).map text) = .ok (x, y, l) := by
  unfold loadCoefs
  rw [mapM_map_ok _ _ (fun k => by
    obtain ⟨t, h1, h2⟩ := ht k
    rw [lastNum, h1]
    exact h2)]
  rfl

/-- An empty line, such as one at the end of the file, raises. -/
theorem load_blank {K W : Type} (num : W → Except PyErr K) (text : K → List W)
    (ht : ∀ k, ∃ t, (text k).getLast? = some t ∧ num t = .ok k) (l : List K) (rest : List (List W)) :
    loadCoefs num (l.map text ++ [] :: rest) = .error .index := by
  unfold loadCoefs
  have : ∀ l : List K, (l.map text ++ [] :: rest).mapM (lastNum num) = .error .index := by
    intro l
    induction l with
    | nil => rfl
    | cons a l ih =>
      obtain ⟨t, h1, h2⟩ := ht a
      have h3 : lastNum num (text a) = .ok a := by rw [lastNum, h1]; exact h2
      rw [List.map_cons, List.cons_append, List.mapM_cons, ih, h3]
      rfl
  rw [this]
  rfl

example : loadCoefs (fun t : Nat => .ok t) [[7, 3], [4], [9, 9, 1], [0]] = .ok (3, 4, [1, 0]) := rfl

end Tomopy.Warp
