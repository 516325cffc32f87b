import Verif.Fl.Near
import Verif.Fl.OsemProps
import Verif.Iter.ConvMlem

/-!
# Accuracy of one iteration of `mlem` in `float`
-/

set_option linter.unusedSectionVars false

namespace Tomopy.Fl

open Function (update)
open Tomopy.Iter (Dims Segs Geom Mem lenIn lineSum sumDist2 raysOf mem_raysOf raysOf_nodup data_inj)

/-! ## Specification -/

/-- Total length of the rays `L` of slice `s` in pixel `n`. -/
def sensOf (g : Geom ℚ) (s : Nat) (L : List (Nat × Nat)) (n : Nat) : ℚ :=
  (L.map fun q => lenIn (g s q.1 q.2) n).sum

/-- The ratios of data and line integrals of the rays `L`, weighted with the lengths in pixel `n`. -/
def ratioOf (D : Dims) (g : Geom ℚ) (data r : Mem ℚ) (s : Nat) (L : List (Nat × Nat)) (n : Nat) : ℚ :=
  (L.map fun q => if sumDist2 (g s q.1 q.2) ≠ 0 then
    data (D.data s q.1 q.2) / lineSum D.N s (g s q.1 q.2) r * lenIn (g s q.1 q.2) n else 0).sum

/-- The exact EM update of pixel `n` of slice `s`. -/
def emStep (D : Dims) (g : Geom ℚ) (data r : Mem ℚ) (s n : Nat) : ℚ :=
  if sensOf g s (raysOf D.dx (List.range D.dt)) n = 0 then r (n + s * D.N)
  else r (n + s * D.N) * (ratioOf D g data r s (raysOf D.dx (List.range D.dt)) n /
    sensOf g s (raysOf D.dx (List.range D.dt)) n)

/-- Number of segments of a ray in pixel `n`. -/
def cnt (ray : Segs ℚ) (n : Nat) : Nat := ray.countP fun e => e.1 == n

/-- Number of segments of the rays `L` in pixel `n`. -/
def cntOf (g : Geom ℚ) (s : Nat) (L : List (Nat × Nat)) (n : Nat) : Nat :=
  (L.map fun q => cnt (g s q.1 q.2) n).sum

/-- Ordinary magnitudes: lengths zero or from `2⁻²⁰` to `2`, pixels from `2⁻²⁰` to `2²⁰`, data zero
or in the same range, rays of at most `16383` segments and at most `16383` segments per pixel. -/
structure Ordinary (D : Dims) (g : Geom ℚ) (data r : Mem ℚ) : Prop where
  seg : ∀ s < D.dy, ∀ p < D.dt, ∀ d < D.dx, ∀ e ∈ g s p d,
    e.1 < D.N ∧ (e.2 = 0 ∨ (1 / 2 ^ 20 ≤ e.2 ∧ e.2 ≤ 2))
  pix : ∀ s < D.dy, ∀ n < D.N, 1 / 2 ^ 20 ≤ r (n + s * D.N) ∧ r (n + s * D.N) ≤ 2 ^ 20
  dat : ∀ s < D.dy, ∀ p < D.dt, ∀ d < D.dx, data (D.data s p d) = 0 ∨
    (1 / 2 ^ 20 ≤ data (D.data s p d) ∧ data (D.data s p d) ≤ 2 ^ 20)
  len : ∀ s < D.dy, ∀ p < D.dt, ∀ d < D.dx, (g s p d).length ≤ 16383
  cnt : ∀ s < D.dy, ∀ n < D.N, cntOf g s (raysOf D.dx (List.range D.dt)) n ≤ 16383

/-! ## One ray -/

/-- A ray of ordinary segments. -/
def RayOk (N : Nat) (ray : Segs ℚ) : Prop :=
  ∀ e ∈ ray, e.1 < N ∧ (e.2 = 0 ∨ (1 / 2 ^ 20 ≤ e.2 ∧ e.2 ≤ 2))

theorem RayOk.tail {N : Nat} {e : Nat × ℚ} {ray : Segs ℚ} (h : RayOk N (e :: ray)) : RayOk N ray :=
  fun x hx => h x (List.mem_cons_of_mem _ hx)

theorem RayOk.head_nonneg {N : Nat} {e : Nat × ℚ} {ray : Segs ℚ} (h : RayOk N (e :: ray)) :
    0 ≤ e.2 := by
  rcases (h e (by simp)).2 with h | h
  · rw [h]
  · exact le_trans (by norm_num) h.1

theorem simF_val (f : Bool) (D : Dims) (s p d : Nat) (ray : Segs ℚ) (model sd : MemF) :
    simF f D s p d ray model sd (D.data s p d) =
      ray.foldl (fun a e => F32.mac f (model (e.1 + s * D.N)) (.fin e.2) a) (sd (D.data s p d)) := by
  unfold simF
  induction ray generalizing sd with
  | nil => rfl
  | cons e ray ih =>
    rw [List.foldl_cons, List.foldl_cons, ih, Function.update_self]

theorem addLenF_val (ray : Segs ℚ) (m : MemF) (n : Nat) :
    addLenF ray m n = ray.foldl (fun a e => if e.1 = n then F32.add a (.fin e.2) else a) (m n) := by
  unfold addLenF
  induction ray generalizing m with
  | nil => rfl
  | cons e ray ih =>
    rw [List.foldl_cons, List.foldl_cons, ih]
    by_cases h : e.1 = n
    · subst h; rw [Function.update_self, if_pos rfl]
    · rw [Function.update_of_ne (Ne.symm h), if_neg h]

theorem addUpdF_val (f : Bool) (ray : Segs ℚ) (u : F32) (m : MemF) (n : Nat) :
    addUpdF f ray u m n =
      ray.foldl (fun a e => if e.1 = n then F32.mac f u (.fin e.2) a else a) (m n) := by
  unfold addUpdF
  induction ray generalizing m with
  | nil => rfl
  | cons e ray ih =>
    rw [List.foldl_cons, List.foldl_cons, ih]
    by_cases h : e.1 = n
    · subst h; rw [Function.update_self, if_pos rfl]
    · rw [Function.update_of_ne (Ne.symm h), if_neg h]

theorem cnt_cons (e : Nat × ℚ) (ray : Segs ℚ) (n : Nat) :
    cnt (e :: ray) n = (if e.1 = n then 1 else 0) + cnt ray n := by
  unfold cnt
  rw [List.countP_cons]
  by_cases h : e.1 = n <;> simp [h, add_comm]

theorem lenIn_cons (e : Nat × ℚ) (ray : Segs ℚ) (n : Nat) :
    lenIn (e :: ray) n = (if e.1 = n then e.2 else 0) + lenIn ray n := by
  simp [lenIn]

/-- The simulated value of a ray. -/
theorem sim_tracked (f : Bool) {N : Nat} (base : Nat) {r : Mem ℚ} {model : MemF}
    (hr : ∀ n < N, 1 / 2 ^ 20 ≤ r (n + base) ∧ r (n + base) ≤ 2 ^ 20)
    (hm : ∀ n < N, model (n + base) = .fin (r (n + base))) : ∀ (ray : Segs ℚ) (c : Nat) (a : F32) (U : ℚ),
    RayOk N ray → c + ray.length ≤ 16384 → Tracked 0 (1 / 2 ^ 40) (2 ^ 21) c a U →
    Tracked 0 (1 / 2 ^ 40) (2 ^ 21) (c + ray.length)
      (ray.foldl (fun a e => F32.mac f (model (e.1 + base)) (.fin e.2) a) a)
      (U + (ray.map fun e => r (e.1 + base) * e.2).sum) := by
  intro ray
  induction ray with
  | nil => intro c a U _ _ h; simpa using h
  | cons e ray ih =>
    intro c a U hok hc h
    have he := hok e (by simp)
    obtain ⟨h1, h2⟩ := hr e.1 he.1
    have hl := hok.head_nonneg
    rw [List.length_cons] at hc
    have st := h.mac (f := f) (b := model (e.1 + base)) (B := r (e.1 + base)) (l := e.2)
      (by rw [hm e.1 he.1]; exact nearF_fin (le_trans (by norm_num) h1)) (by norm_num) (by omega)
      (by norm_num) (by norm_num) (by norm_num) hl (by
        rcases he.2 with h0 | ⟨h0, _⟩
        · left; rw [h0, mul_zero]
        · right
          calc (1 : ℚ) / 2 ^ 40 = 1 / 2 ^ 20 * (1 / 2 ^ 20) := by norm_num
            _ ≤ r (e.1 + base) * e.2 := mul_le_mul h1 h0 (by norm_num) (le_trans (by norm_num) h1))
      (by
        have h3 : e.2 ≤ 2 := by
          rcases he.2 with h0 | ⟨_, h0⟩
          · rw [h0]; norm_num
          · exact h0
        calc r (e.1 + base) * e.2 ≤ 2 ^ 20 * 2 := mul_le_mul h2 h3 hl (by norm_num)
          _ = 2 ^ 21 := by norm_num)
    have := ih (c + 1) _ _ hok.tail (by omega) st
    rw [List.foldl_cons, List.map_cons, List.sum_cons, List.length_cons]
    rw [show c + (ray.length + 1) = c + 1 + ray.length by omega,
      show U + (r (e.1 + base) * e.2 + (ray.map fun e => r (e.1 + base) * e.2).sum) =
        r (e.1 + base) * e.2 + U + (ray.map fun e => r (e.1 + base) * e.2).sum by ring]
    exact this

/-- The sum of squares of a ray. -/
theorem sq_tracked (f : Bool) {N : Nat} : ∀ (ray : Segs ℚ) (c : Nat) (a : F32) (U : ℚ),
    RayOk N ray → c + ray.length ≤ 16384 → Tracked 0 (1 / 2 ^ 40) 4 c a U →
    Tracked 0 (1 / 2 ^ 40) 4 (c + ray.length)
      (ray.foldl (fun a e => F32.mac f (.fin e.2) (.fin e.2) a) a)
      (ray.foldl (fun a e => a + e.2 * e.2) U) := by
  intro ray
  induction ray with
  | nil => intro c a U _ _ h; simpa using h
  | cons e ray ih =>
    intro c a U hok hc h
    have he := hok e (by simp)
    have hl := hok.head_nonneg
    rw [List.length_cons] at hc
    have st := h.mac (f := f) (b := .fin e.2) (B := e.2) (l := e.2)
      (nearF_fin hl) (by norm_num) (by omega)
      (by norm_num) (by norm_num) (by norm_num) hl (by
        rcases he.2 with h0 | ⟨h0, _⟩
        · left; rw [h0, mul_zero]
        · right
          calc (1 : ℚ) / 2 ^ 40 = 1 / 2 ^ 20 * (1 / 2 ^ 20) := by norm_num
            _ ≤ e.2 * e.2 := mul_le_mul h0 h0 (by norm_num) hl)
      (by
        have h3 : e.2 ≤ 2 := by
          rcases he.2 with h0 | ⟨_, h0⟩
          · rw [h0]; norm_num
          · exact h0
        nlinarith)
    have := ih (c + 1) _ _ hok.tail (by omega) st
    rw [List.foldl_cons, List.foldl_cons, List.length_cons,
      show c + (ray.length + 1) = c + 1 + ray.length by omega, add_comm U]
    exact this

/-- The lengths added to pixel `n`. -/
theorem len_tracked {N n : Nat} : ∀ (ray : Segs ℚ) (c : Nat) (a : F32) (U : ℚ),
    RayOk N ray → c + cnt ray n ≤ 16384 → Tracked 0 (1 / 2 ^ 20) 2 c a U →
    Tracked 0 (1 / 2 ^ 20) 2 (c + cnt ray n)
      (ray.foldl (fun a e => if e.1 = n then F32.add a (.fin e.2) else a) a) (U + lenIn ray n) := by
  intro ray
  induction ray with
  | nil => intro c a U _ _ h; simpa [cnt, lenIn] using h
  | cons e ray ih =>
    intro c a U hok hc h
    have he := hok e (by simp)
    rw [cnt_cons] at hc
    rw [List.foldl_cons, cnt_cons, lenIn_cons]
    by_cases hn : e.1 = n
    · rw [if_pos hn] at hc
      rw [if_pos hn, if_pos hn, if_pos hn]
      have st := h.add (l := e.2) (by omega) (by norm_num) (by norm_num) (by norm_num)
        (by rcases he.2 with h0 | ⟨h0, _⟩
            · left; exact h0
            · right; exact h0)
        (by rcases he.2 with h0 | ⟨_, h0⟩
            · rw [h0]; norm_num
            · exact h0)
      have := ih (c + 1) _ _ hok.tail (by omega) st
      rw [← Nat.add_assoc, ← add_assoc, add_comm U]
      exact this
    · rw [if_neg hn] at hc
      rw [if_neg hn, if_neg hn, if_neg hn, Nat.zero_add, zero_add]
      exact ih c a U hok.tail (by omega) h

/-- The weighted ratios added to pixel `n`. -/
theorem upd_tracked (f : Bool) {N n : Nat} {u : F32} {B : ℚ} (hu : NearF 16385 u B)
    (hB : B = 0 ∨ (1 / 2 ^ 55 ≤ B ∧ B ≤ 2 ^ 60)) : ∀ (ray : Segs ℚ) (c : Nat) (a : F32) (U : ℚ),
    RayOk N ray → c + cnt ray n ≤ 16384 → Tracked 16385 (1 / 2 ^ 75) (2 ^ 61) c a U →
    Tracked 16385 (1 / 2 ^ 75) (2 ^ 61) (c + cnt ray n)
      (ray.foldl (fun a e => if e.1 = n then F32.mac f u (.fin e.2) a else a) a)
      (U + B * lenIn ray n) := by
  intro ray
  induction ray with
  | nil => intro c a U _ _ h; simpa [cnt, lenIn] using h
  | cons e ray ih =>
    intro c a U hok hc h
    have he := hok e (by simp)
    have hl := hok.head_nonneg
    rw [cnt_cons] at hc
    rw [List.foldl_cons, cnt_cons, lenIn_cons]
    by_cases hn : e.1 = n
    · rw [if_pos hn] at hc
      rw [if_pos hn, if_pos hn, if_pos hn]
      have h3 : e.2 ≤ 2 := by
        rcases he.2 with h0 | ⟨_, h0⟩
        · rw [h0]; norm_num
        · exact h0
      have st := h.mac (f := f) hu (by norm_num) (by omega) (by norm_num) (by norm_num)
        (by norm_num) hl (by
          rcases he.2 with h0 | ⟨h0, _⟩
          · left; rw [h0, mul_zero]
          · rcases hB with hB | ⟨hB, _⟩
            · left; rw [hB, zero_mul]
            · right
              calc (1 : ℚ) / 2 ^ 75 = 1 / 2 ^ 55 * (1 / 2 ^ 20) := by norm_num
                _ ≤ B * e.2 := mul_le_mul hB h0 (by norm_num) (le_trans (by norm_num) hB))
        (by
          rcases hB with hB | ⟨_, hB⟩
          · rw [hB, zero_mul]; norm_num
          · calc B * e.2 ≤ 2 ^ 60 * 2 := mul_le_mul hB h3 hl (by norm_num)
              _ = 2 ^ 61 := by norm_num)
      have := ih (c + 1) _ _ hok.tail (by omega) st
      rw [← Nat.add_assoc, mul_add, ← add_assoc, add_comm U]
      exact this
    · rw [if_neg hn] at hc
      rw [if_neg hn, if_neg hn, if_neg hn, Nat.zero_add, zero_add]
      exact ih c a U hok.tail (by omega) h

/-- The factor `upd` of a ray. -/
theorem ratio_near (f : Bool) {D : Dims} {s p d : Nat} {ray : Segs ℚ} {r : Mem ℚ} {model sd : MemF}
    {dat : ℚ} (hr : ∀ n < D.N, 1 / 2 ^ 20 ≤ r (n + s * D.N) ∧ r (n + s * D.N) ≤ 2 ^ 20)
    (hm : ∀ n < D.N, model (n + s * D.N) = .fin (r (n + s * D.N))) (hok : RayOk D.N ray)
    (hlen : ray.length ≤ 16383) (hsd : sd (D.data s p d) = .fin 0) (hne : sumDist2 ray ≠ 0)
    (hdat : dat = 0 ∨ (1 / 2 ^ 20 ≤ dat ∧ dat ≤ 2 ^ 20)) :
    NearF 16385 (F32.div (.fin dat) (simF f D s p d ray model sd (D.data s p d)))
        (dat / lineSum D.N s ray r) ∧
      (dat / lineSum D.N s ray r = 0 ∨ (1 / 2 ^ 55 ≤ dat / lineSum D.N s ray r ∧
        dat / lineSum D.N s ray r ≤ 2 ^ 60)) := by
  have hT := sim_tracked f (s * D.N) hr hm ray 0 (.fin 0) 0 hok (by omega) (Tracked.zero _ _ _)
  rw [simF_val, hsd]
  have hL : (0 : ℚ) + (ray.map fun e => r (e.1 + s * D.N) * e.2).sum = lineSum D.N s ray r := by
    rw [zero_add]; rfl
  rw [hL] at hT
  generalize lineSum D.N s ray r = L at *
  have hLpos : 0 < lineSum D.N s ray r := Tomopy.Iter.lineSum_pos
    (fun e he => ⟨(hok e he).1, by
      rcases (hok e he).2 with h | h
      · rw [h]
      · exact le_trans (by norm_num) h.1⟩)
    (fun n hn => lt_of_lt_of_le (by norm_num) (hr n hn).1) hne
  have hL0 : 0 < L := by rw [← hL]; simpa [lineSum] using hLpos
  have hlo : 1 / 2 ^ 40 ≤ L := by
    rcases hT.low with h | h
    · exact absurd h hL0.ne'
    · exact h
  have hhi : L ≤ 2 ^ 35 := by
    refine le_trans hT.high ?_
    have : ((0 + ray.length : Nat) : ℚ) ≤ 16384 := by
      rw [Nat.zero_add]; exact_mod_cast (by omega : ray.length ≤ 16384)
    calc ((0 + ray.length : Nat) : ℚ) * 2 ^ 21 ≤ 16384 * 2 ^ 21 :=
          mul_le_mul_of_nonneg_right this (by norm_num)
      _ = 2 ^ 35 := by norm_num
  have hB : dat / L = 0 ∨ (1 / 2 ^ 55 ≤ dat / L ∧ dat / L ≤ 2 ^ 60) := by
    rcases hdat with h | ⟨h1, h2⟩
    · left; rw [h, zero_div]
    · right
      constructor
      · rw [le_div_iff₀ hL0]
        calc (1 : ℚ) / 2 ^ 55 * L ≤ 1 / 2 ^ 55 * 2 ^ 35 := mul_le_mul_of_nonneg_left hhi (by norm_num)
          _ = 1 / 2 ^ 20 := by norm_num
          _ ≤ dat := h1
      · rw [div_le_iff₀ hL0]
        calc dat ≤ 2 ^ 20 := h2
          _ = 2 ^ 60 * (1 / 2 ^ 40) := by norm_num
          _ ≤ 2 ^ 60 * L := mul_le_mul_of_nonneg_left hlo (by norm_num)
  refine ⟨?_, hB⟩
  have hd0 : 0 ≤ dat := by
    rcases hdat with h | ⟨h, _⟩
    · rw [h]
    · exact le_trans (by norm_num) h
  refine ((nearF_fin hd0).div hT.near (by omega) hL0 ?_).mono (by omega)
  rcases hB with h | ⟨h1, h2⟩
  · left; exact h
  · right; exact ⟨le_trans (by norm_num) h1, le_trans h2 (by norm_num)⟩

/-- The test `sum_dist2 != 0` is decided as in exact arithmetic. -/
theorem sumSqF_ne (f : Bool) {N : Nat} {ray : Segs ℚ} (hok : RayOk N ray) (hlen : ray.length ≤ 16383) :
    sumSqF f ray ≠ .fin 0 ↔ sumDist2 ray ≠ 0 :=
  (sq_tracked f ray 0 (.fin 0) 0 hok (by omega) (Tracked.zero _ _ _)).near.ne_zero

/-! ## The rays of one slice -/

/-- The image and the data of slice `s` as `float` arrays. -/
structure SliceOk (D : Dims) (g : Geom ℚ) (data r : Mem ℚ) (s : Nat) : Prop where
  ray : ∀ p < D.dt, ∀ d < D.dx, RayOk D.N (g s p d) ∧ (g s p d).length ≤ 16383
  pix : ∀ n < D.N, 1 / 2 ^ 20 ≤ r (n + s * D.N) ∧ r (n + s * D.N) ≤ 2 ^ 20
  dat : ∀ p < D.dt, ∀ d < D.dx, data (D.data s p d) = 0 ∨
    (1 / 2 ^ 20 ≤ data (D.data s p d) ∧ data (D.data s p d) ≤ 2 ^ 20)

theorem acc_tracked {k : OMode} {D : Dims} {g : Geom ℚ} {data r : Mem ℚ} {s : Nat}
    (hs : SliceOk D g data r s) {dataF recon : MemF} (hdF : ∀ i, dataF i = .fin (data i))
    (hrF : ∀ n < D.N, recon (n + s * D.N) = .fin (r (n + s * D.N))) {n : Nat} :
    ∀ (L : List (Nat × Nat)) (a : AccF) (c : Nat) (S U : ℚ), L.Nodup →
    (∀ q ∈ L, q.1 < D.dt ∧ q.2 < D.dx) → (∀ q ∈ L, a.sd (D.data s q.1 q.2) = .fin 0) →
    c + cntOf g s L n ≤ 16384 →
    Tracked 0 (1 / 2 ^ 20) 2 c (a.sumd n) S → Tracked 16385 (1 / 2 ^ 75) (2 ^ 61) c (a.upd n) U →
    Tracked 0 (1 / 2 ^ 20) 2 (c + cntOf g s L n)
      ((L.foldl (fun a q => accRayF k D s q.1 q.2 (g s q.1 q.2) dataF recon a) a).sumd n)
      (S + sensOf g s L n) ∧
    Tracked 16385 (1 / 2 ^ 75) (2 ^ 61) (c + cntOf g s L n)
      ((L.foldl (fun a q => accRayF k D s q.1 q.2 (g s q.1 q.2) dataF recon a) a).upd n)
      (U + ratioOf D g data r s L n) := by
  intro L
  induction L with
  | nil =>
    intro a c S U _ _ _ _ h1 h2
    simp only [cntOf, sensOf, ratioOf, List.map_nil, List.sum_nil, add_zero, List.foldl_nil]
    exact ⟨h1, h2⟩
  | cons q L ih =>
    intro a c S U hnd hb hz hc h1 h2
    rw [List.nodup_cons] at hnd
    have hq := hb q (by simp)
    obtain ⟨hok, hlen⟩ := hs.ray q.1 hq.1 q.2 hq.2
    have ec : cntOf g s (q :: L) n = cnt (g s q.1 q.2) n + cntOf g s L n := by simp [cntOf]
    have es : sensOf g s (q :: L) n = lenIn (g s q.1 q.2) n + sensOf g s L n := by simp [sensOf]
    have er : ratioOf D g data r s (q :: L) n = (if sumDist2 (g s q.1 q.2) ≠ 0 then
        data (D.data s q.1 q.2) / lineSum D.N s (g s q.1 q.2) r * lenIn (g s q.1 q.2) n else 0) +
        ratioOf D g data r s L n := by simp [ratioOf]
    rw [ec] at hc
    rw [List.foldl_cons, ec, es, er, ← Nat.add_assoc, ← add_assoc, ← add_assoc]
    refine ih _ _ _ _ hnd.2 (fun q' hq' => hb q' (List.mem_cons_of_mem _ hq')) ?_ (by omega) ?_ ?_
    · intro q' hq'
      show simF _ _ _ _ _ _ _ _ _ = _
      rw [simF_other, hz q' (List.mem_cons_of_mem _ hq')]
      intro e
      have hq2 := hb q' (List.mem_cons_of_mem _ hq')
      obtain ⟨_, e1, e2⟩ := data_inj hq2.1 hq.1 hq2.2 hq.2 e
      exact hnd.1 (by rw [show q = q' from (Prod.ext e1 e2).symm]; exact hq')
    · show Tracked _ _ _ _ (addLenF _ _ _) _
      rw [addLenF_val]
      exact len_tracked _ _ _ _ hok (by omega) h1
    · show Tracked _ _ _ _ ((if _ then _ else _ : MemF) n) _
      by_cases h0 : sumDist2 (g s q.1 q.2) ≠ 0
      · rw [if_pos ((sumSqF_ne k.sq hok hlen).mpr h0), if_pos h0, addUpdF_val, hdF]
        obtain ⟨hu, hB⟩ := ratio_near k.sim hs.pix hrF hok hlen (hz q (by simp)) h0
          (hs.dat q.1 hq.1 q.2 hq.2)
        exact upd_tracked k.acc hu hB _ _ _ _ hok (by omega) h2
      · rw [if_neg (fun h => h0 ((sumSqF_ne k.sq hok hlen).mp h)), if_neg h0, add_zero]
        exact h2.mono (by norm_num) (by omega)

theorem foldl_nested {α β γ : Type*} (f : β → α → γ → β) (qs : List γ) : ∀ (ps : List α)
    (b : β), ps.foldl (fun b p => qs.foldl (fun b q => f b p q) b) b =
      (ps.flatMap fun p => qs.map fun q => (p, q)).foldl (fun b pq => f b pq.1 pq.2) b := by
  intro ps
  induction ps with
  | nil => intro b; rfl
  | cons p ps ih =>
    intro b
    rw [List.foldl_cons, List.flatMap_cons, List.foldl_append, List.foldl_map]
    exact ih _

/-- One block over all projections of slice `s`. -/
theorem block_near {k : OMode} {D : Dims} {g : Geom ℚ} {data r : Mem ℚ} {s : Nat}
    (hs : SliceOk D g data r s) {dataF : MemF} {st : MemF × MemF} (hdF : ∀ i, dataF i = .fin (data i))
    (hrF : ∀ n < D.N, st.1 (n + s * D.N) = .fin (r (n + s * D.N)))
    (hsd : ∀ p < D.dt, ∀ d < D.dx, st.2 (D.data s p d) = .fin 0) {n : Nat} (hn : n < D.N)
    (hc : cntOf g s (raysOf D.dx (List.range D.dt)) n ≤ 16383) :
    NearF 65535 ((osBlockF k D g dataF s st (List.range D.dt)).1 (n + s * D.N)) (emStep D g data r s n) := by
  show NearF _ (finF _ _ _ _ _) _
  rw [finF_apply D s _ _ hn, hrF n hn]
  have hA := acc_tracked (k := k) hs hdF hrF (n := n) (raysOf D.dx (List.range D.dt))
    ⟨st.2, fun _ => .fin 0, fun _ => .fin 0⟩ 0 0 0 (raysOf_nodup List.nodup_range)
    (fun q hq => by
      have := mem_raysOf.mp hq
      exact ⟨List.mem_range.mp this.1, this.2⟩)
    (fun q hq => by
      have := mem_raysOf.mp hq
      exact hsd _ (List.mem_range.mp this.1) _ this.2) (by omega) (Tracked.zero _ _ _) (Tracked.zero _ _ _)
  have eA : accBlockF k D g s (List.range D.dt) dataF st.1 st.2 =
      (raysOf D.dx (List.range D.dt)).foldl
        (fun a q => accRayF k D s q.1 q.2 (g s q.1 q.2) dataF st.1 a)
        ⟨st.2, fun _ => .fin 0, fun _ => .fin 0⟩ :=
    foldl_nested (fun a p d => accRayF k D s p d (g s p d) dataF st.1 a) _ _ _
  rw [eA]
  obtain ⟨h1, h2⟩ := hA
  unfold emStep
  rw [zero_add, zero_add] at h1 h2
  generalize ratioOf D g data r s (raysOf D.dx (List.range D.dt)) n = U at *
  generalize sensOf g s (raysOf D.dx (List.range D.dt)) n = S at *
  generalize cntOf g s (raysOf D.dx (List.range D.dt)) n = c at *
  generalize (List.foldl (fun a q => accRayF k D s q.1 q.2 (g s q.1 q.2) dataF st.1 a)
        ⟨st.2, fun _ => .fin 0, fun _ => .fin 0⟩ (raysOf D.dx (List.range D.dt))) = a at *
  obtain ⟨p1, p2⟩ := hs.pix n hn
  generalize r (n + s * D.N) = x at *
  have hx0 : 0 ≤ x := le_trans (by norm_num) p1
  by_cases h0 : S = 0
  · rw [if_neg (fun h => (h1.near.ne_zero.mp h) h0), if_pos h0]
    exact (nearF_fin hx0).mono (by omega)
  · rw [if_pos (h1.near.ne_zero.mpr h0), if_neg h0]
    have hSlo : 1 / 2 ^ 20 ≤ S := by
      rcases h1.low with h | h
      · exact absurd h h0
      · exact h
    have hS0 : 0 < S := lt_of_lt_of_le (by norm_num) hSlo
    have hcq : (c : ℚ) ≤ 16384 := by exact_mod_cast (by omega : c ≤ 16384)
    have hShi : S ≤ 2 ^ 15 := le_trans h1.high (by
      calc (c : ℚ) * 2 ≤ 16384 * 2 := mul_le_mul_of_nonneg_right hcq (by norm_num)
        _ = 2 ^ 15 := by norm_num)
    have hUhi : U ≤ 2 ^ 75 := le_trans h2.high (by
      calc (c : ℚ) * 2 ^ 61 ≤ 16384 * 2 ^ 61 := mul_le_mul_of_nonneg_right hcq (by norm_num)
        _ = 2 ^ 75 := by norm_num)
    have hB : U / S = 0 ∨ (1 / 2 ^ 90 ≤ U / S ∧ U / S ≤ 2 ^ 95) := by
      rcases h2.low with h | h
      · left; rw [h, zero_div]
      · right
        constructor
        · rw [le_div_iff₀ hS0]
          calc (1 : ℚ) / 2 ^ 90 * S ≤ 1 / 2 ^ 90 * 2 ^ 15 := mul_le_mul_of_nonneg_left hShi (by norm_num)
            _ = 1 / 2 ^ 75 := by norm_num
            _ ≤ U := h
        · rw [div_le_iff₀ hS0]
          calc U ≤ 2 ^ 75 := hUhi
            _ = 2 ^ 95 * (1 / 2 ^ 20) := by norm_num
            _ ≤ 2 ^ 95 * S := mul_le_mul_of_nonneg_left hSlo (by norm_num)
    have hdiv := h2.near.div h1.near (by omega) hS0 (by
      rcases hB with h | ⟨ha, hb⟩
      · left; exact h
      · right; exact ⟨le_trans (by norm_num) ha, le_trans hb (by norm_num)⟩)
    refine ((nearF_fin hx0).mul hdiv (by omega) ?_).mono (by omega)
    rcases hB with h | ⟨ha, hb⟩
    · left; rw [h, mul_zero]
    · right
      constructor
      · calc (1 : ℚ) / 2 ^ 125 ≤ 1 / 2 ^ 20 * (1 / 2 ^ 90) := by norm_num
          _ ≤ x * (U / S) := mul_le_mul p1 ha (by norm_num) hx0
      · calc x * (U / S) ≤ 2 ^ 20 * 2 ^ 95 :=
              mul_le_mul p2 hb (le_trans (by norm_num) ha) (by norm_num)
          _ ≤ 2 ^ 126 := by norm_num

theorem near_rel {x y : ℚ} (h : Near 65535 x y) : |x - y| ≤ y / 100 := by
  have hb := rho_bound (n := 65535) (by norm_num)
  have h1 := h.2.1
  have h2 := h.2.2
  have hx := h.nonneg
  have hy := h.1
  have a1 : x * rho ^ 65535 ≤ x * (1 + 8 / 1000) := mul_le_mul_of_nonneg_left hb hx
  have a2 : y * rho ^ 65535 ≤ y * (1 + 8 / 1000) := mul_le_mul_of_nonneg_left hb hy
  rw [abs_le]
  constructor <;> linarith

/-! ## Theorems -/

/-- **One iteration of `mlem` in `float` is within 1 % of the exact EM update**, pixel by pixel,
for images, data and lengths of ordinary magnitude, with any way of compiling the multiply-adds:
no overflow, no underflow, no NaN, and the conditions `sum_dist2 != 0` and `sum_dist != 0` are
decided as in exact arithmetic. -/
theorem mlemF_accurate {k : OMode} {D : Dims} {g : Geom ℚ} {data r : Mem ℚ}
    (h : Ordinary D g data r) (hdy : 0 < D.dy) (hdt : 0 < D.dt) (hdx : 0 < D.dx) :
    ∃ rF, mlemF k D g (fun i => .fin (data i)) 1 (fun i => .fin (r i)) = some rF ∧
      ∀ s < D.dy, ∀ n < D.N, ∃ x, rF (n + s * D.N) = .fin x ∧
        |x - emStep D g data r s n| ≤ emStep D g data r s n / 100 := by
  have e : mlemF k D g (fun i => .fin (data i)) 1 (fun i => .fin (r i)) =
      some (osIterF k D g (fun i => .fin (data i)) [List.range D.dt] (fun i => .fin (r i))) := by
    unfold mlemF osemF
    rw [if_neg (by omega), Tomopy.Iter.blocks_single]
    rfl
  refine ⟨_, e, ?_⟩
  have key : ∀ m ≤ D.dy, ∀ s < D.dy,
      (s < m → ∀ n < D.N, NearF 65535 (((List.range m).foldl (fun st s =>
        [List.range D.dt].foldl (osBlockF k D g (fun i => .fin (data i)) s) st)
        ((fun i => .fin (r i), fun _ => .fin 0) : MemF × MemF)).1 (n + s * D.N))
          (emStep D g data r s n)) ∧
      (m ≤ s → (∀ n < D.N, ((List.range m).foldl (fun st s =>
        [List.range D.dt].foldl (osBlockF k D g (fun i => .fin (data i)) s) st)
        ((fun i => .fin (r i), fun _ => .fin 0) : MemF × MemF)).1 (n + s * D.N) =
          .fin (r (n + s * D.N))) ∧
        ∀ p < D.dt, ∀ d < D.dx, ((List.range m).foldl (fun st s =>
        [List.range D.dt].foldl (osBlockF k D g (fun i => .fin (data i)) s) st)
        ((fun i => .fin (r i), fun _ => .fin 0) : MemF × MemF)).2 (D.data s p d) = .fin 0) := by
    intro m
    induction m with
    | zero =>
      intro _ s _
      exact ⟨fun h => absurd h (by omega), fun _ => ⟨fun _ _ => rfl, fun _ _ _ _ => rfl⟩⟩
    | succ m ih =>
      intro hm s hs
      have im := ih (by omega)
      simp only [List.range_succ, List.foldl_append, List.foldl_cons, List.foldl_nil] at im ⊢
      generalize (List.range m).foldl (fun st s =>
        osBlockF k D g (fun i => .fin (data i)) s st (List.range D.dt))
        ((fun i => .fin (r i), fun _ => .fin 0) : MemF × MemF) = st at *
      have hslice : ∀ s' < D.dy, SliceOk D g data r s' := fun s' hs' =>
        ⟨fun p hp d hd => ⟨h.seg s' hs' p hp d hd, h.len s' hs' p hp d hd⟩, h.pix s' hs', h.dat s' hs'⟩
      have hother : ∀ s' ≠ m, ∀ n < D.N,
          (osBlockF k D g (fun i => .fin (data i)) m st (List.range D.dt)).1 (n + s' * D.N) =
          st.1 (n + s' * D.N) := by
        intro s' hne n hn
        refine finF_other D m _ _ ?_
        intro n' hn' e
        exact Tomopy.Iter.other_slice hn hne ⟨by omega, by omega⟩
      constructor
      · intro hsm n hn
        by_cases e : s = m
        · subst e
          have := (im s (by omega)).2 (le_refl _)
          exact block_near (hslice s hs) (fun _ => rfl) this.1 this.2 hn (h.cnt s hs n hn)
        · rw [hother s e n hn]
          exact (im s hs).1 (by omega) n hn
      · intro hms
        have := (im s hs).2 (by omega)
        refine ⟨fun n hn => by rw [hother s (by omega) n hn]; exact this.1 n hn, ?_⟩
        intro p hp d hd
        show (accBlockF _ _ _ _ _ _ _ _).sd _ = _
        refine foldl_inv _ (fun a : AccF => a.sd (D.data s p d) = .fin 0) (List.range D.dt) _
          (fun a p' hp' ha => foldl_inv _ (fun a : AccF => a.sd (D.data s p d) = .fin 0)
            (List.range D.dx) a (fun a' d' hd' ha' => ?_) ha) (this.2 p hp d hd)
        show simF _ _ _ _ _ _ _ _ _ = _
        rw [simF_other, ha']
        intro e
        have := data_inj hp (List.mem_range.mp hp') hd (List.mem_range.mp hd') e
        omega
  intro s hs n hn
  obtain ⟨x, hx, hnx⟩ := (key D.dy (le_refl _) s hs).1 hs n hn
  exact ⟨x, hx, near_rel hnx⟩

/-- For positive data the exact update is one iteration of `Iter.mlem`, the model in exact
arithmetic. -/
theorem emStep_mlem {D : Dims} {g : Geom ℚ} {data r r' : Mem ℚ}
    (h : Ordinary D g data r) (hpos : Tomopy.Iter.PosData D data)
    (hr : Tomopy.Iter.mlem D g data 1 r = some r') :
    ∀ s < D.dy, ∀ n < D.N, r' (n + s * D.N) = emStep D g data r s n := by
  have hg : Tomopy.Iter.GeomOk D g := fun s hs p hp d hd e he => by
    obtain ⟨h1, h2⟩ := h.seg s hs p hp d hd e he
    refine ⟨h1, ?_⟩
    rcases h2 with h2 | h2
    · rw [h2]
    · exact le_trans (by norm_num) h2.1
  have hp : Tomopy.Iter.PosImage D r := fun s hs n hn =>
    lt_of_lt_of_le (by norm_num) (h.pix s hs n hn).1
  obtain ⟨r2, h2, _, h3⟩ := Tomopy.Iter.mlem_one hg hpos hp
  rw [hr] at h2
  cases h2
  intro s hs n hn
  obtain ⟨h4, h5⟩ := h3 s hs n hn
  unfold emStep
  split
  · rename_i h0
    refine h5 ?_
    intro q hq
    have hq' := mem_raysOf.mp hq
    have hnn : ∀ q ∈ raysOf D.dx (List.range D.dt), 0 ≤ lenIn (g s q.1 q.2) n := fun q hq =>
      Tomopy.Iter.lenIn_nonneg (hg s hs _ (List.mem_range.mp (mem_raysOf.mp hq).1) _
        (mem_raysOf.mp hq).2) n
    by_contra hne
    have := Tomopy.Iter.list_sum_pos_of _ (fun q => lenIn (g s q.1 q.2) n) hnn hq
      (lt_of_le_of_ne (hnn q hq) (Ne.symm hne))
    have h0' : ((raysOf D.dx (List.range D.dt)).map fun q => lenIn (g s q.1 q.2) n).sum = 0 := h0
    linarith
  · rename_i h0
    have h0' : ((raysOf D.dx (List.range D.dt)).map fun q => lenIn (g s q.1 q.2) n).sum ≠ 0 := h0
    rw [← mul_div_assoc, eq_div_iff h0]
    exact h4

/-- **Hence one iteration in `float` is within 1 % of one iteration in exact arithmetic.** -/
theorem mlemF_near_mlem {k : OMode} {D : Dims} {g : Geom ℚ} {data r : Mem ℚ}
    (h : Ordinary D g data r) (hpos : Tomopy.Iter.PosData D data) (hdy : 0 < D.dy) (hdt : 0 < D.dt)
    (hdx : 0 < D.dx) :
    ∃ rF r', mlemF k D g (fun i => .fin (data i)) 1 (fun i => .fin (r i)) = some rF ∧
      Tomopy.Iter.mlem D g data 1 r = some r' ∧ ∀ s < D.dy, ∀ n < D.N, ∃ x,
        rF (n + s * D.N) = .fin x ∧ |x - r' (n + s * D.N)| ≤ r' (n + s * D.N) / 100 := by
  obtain ⟨rF, h1, h2⟩ := mlemF_accurate (k := k) h hdy hdt hdx
  have hg : Tomopy.Iter.GeomOk D g := fun s hs p hp d hd e he => by
    obtain ⟨h1, h2⟩ := h.seg s hs p hp d hd e he
    refine ⟨h1, ?_⟩
    rcases h2 with h2 | h2
    · rw [h2]
    · exact le_trans (by norm_num) h2.1
  have hp : Tomopy.Iter.PosImage D r := fun s hs n hn =>
    lt_of_lt_of_le (by norm_num) (h.pix s hs n hn).1
  obtain ⟨r', h3, _, _⟩ := Tomopy.Iter.mlem_one hg hpos hp
  refine ⟨rF, r', h1, h3, fun s hs n hn => ?_⟩
  rw [emStep_mlem h hpos h3 s hs n hn]
  exact h2 s hs n hn

/-! ## A case that meets the hypotheses -/

/-- Two pixels and two rays with lengths that are not exact; start value `10⁻⁶` as in `recon`. -/
example : Ordinary ⟨1, 2, 1, 2⟩ exG (fun i => i + 1) (fun _ => fl (1 / 1000000)) := by
  have hp : (1 : ℚ) / 2 ^ 20 ≤ fl (1 / 1000000) ∧ fl (1 / 1000000) ≤ 2 ^ 20 := by decide +kernel
  refine ⟨?_, fun _ _ _ _ => hp, ?_, ?_, ?_⟩
  · intro s _ p _ d _ e he
    unfold exG at he
    split at he <;> simp at he
    · subst he; norm_num
    · rcases he with rfl | rfl <;> norm_num
  · intro s hs p hp d hd
    right
    simp only [Dims.data] at *
    have : s = 0 := by omega
    have : d = 0 := by omega
    subst s d
    have hp' : p = 0 ∨ p = 1 := by omega
    rcases hp' with rfl | rfl <;> norm_num
  · intro s _ p _ d _
    unfold exG
    split <;> simp
  · intro s hs n _
    have : s = 0 := by simpa using hs
    subst this
    have : ∀ p, cnt (exG 0 p 0) n ≤ 2 := by
      intro p
      unfold cnt exG
      split
      · exact le_trans List.countP_le_length (by simp)
      · exact List.countP_le_length
    have e : raysOf 1 (List.range 2) = [(0, 0), (1, 0)] := by decide
    show cntOf exG 0 (raysOf 1 (List.range 2)) n ≤ 16383
    rw [e]
    have h0 := this 0
    have h1 := this 1
    simp only [cntOf, List.map_cons, List.map_nil, List.sum_cons, List.sum_nil]
    omega

end Tomopy.Fl
