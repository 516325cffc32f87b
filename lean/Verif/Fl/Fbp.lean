import Verif.Fl.Own
import Verif.Fl.Norm
import Verif.Fl.Sum
import Verif.Iter.Project

/-!
# Back-projection in `float` arithmetic
-/

set_option linter.unusedSectionVars false

namespace Tomopy.Fl

open Function (update)
open Tomopy.Iter (Dims Segs Geom Mem)

/-! ## Specification -/

/-- The segments in pixel `n` of slice `s`, in the order of the loops: the place of the ray in the data
and the length. -/
def pixKeys (D : Dims) (g : Geom ℚ) (s n : Nat) : List (Nat × ℚ) :=
  (List.range D.dt).flatMap fun p => (List.range D.dx).flatMap fun d =>
    ((g s p d).filter fun e => e.1 == n).map fun e => (D.data s p d, e.2)

/-- All segments are in pixels of the slice and not negative. -/
def InGrid (D : Dims) (g : Geom ℚ) : Prop :=
  ∀ s < D.dy, ∀ p < D.dt, ∀ d < D.dx, ∀ e ∈ g s p d, e.1 < D.N ∧ 0 ≤ e.2

/-! ## The value of a pixel -/

/-- A cell that every step changes by a fold of its own. -/
theorem fold_cell {ι X : Type*} (f : MemF → ι → MemF) (i : Nat) (c : ι → List X) (h : F32 → X → F32) :
    ∀ (l : List ι), (∀ k ∈ l, ∀ m, f m k i = (c k).foldl h (m i)) → ∀ (m : MemF),
    l.foldl f m i = (l.flatMap c).foldl h (m i) := by
  intro l
  induction l with
  | nil => intro _ m; rfl
  | cons a l ih =>
    intro hf m
    rw [List.foldl_cons, List.flatMap_cons, List.foldl_append,
      ih (fun k hk => hf k (List.mem_cons_of_mem _ hk)), hf a (by simp)]

theorem spreadF_val (f : Bool) (D : Dims) (s n i : Nat) (ray : Segs ℚ) (v : F32) (r : MemF) :
    spreadF f D s ray v r (n + s * D.N) =
      (((ray.filter fun e => e.1 == n).map fun e => (i, e.2)).foldl
        (fun a (x : Nat × ℚ) => F32.mac f v (.fin x.2) a) (r (n + s * D.N))) := by
  unfold spreadF
  induction ray generalizing r with
  | nil => rfl
  | cons e ray ih =>
    rw [List.foldl_cons, ih]
    by_cases h : e.1 = n
    · rw [List.filter_cons_of_pos (by simp [h]), List.map_cons, List.foldl_cons, h, Function.update_self]
    · rw [List.filter_cons_of_neg (by simp [h]), Function.update_of_ne (by omega)]

theorem spreadF_other {f : Bool} {D : Dims} {s s' n : Nat} {ray : Segs ℚ} {v : F32} {r : MemF}
    (hray : ∀ e ∈ ray, e.1 < D.N) (hn : n < D.N) (h : s' ≠ s) :
    spreadF f D s' ray v r (n + s * D.N) = r (n + s * D.N) := by
  refine foldl_inv _ (fun m : MemF => m (n + s * D.N) = r (n + s * D.N)) ray r (fun m e he hm => ?_) rfl
  rw [Function.update_of_ne, hm]
  have := Tomopy.Iter.other_slice (s := s') hn (Ne.symm h)
  have := hray e he
  omega

/-- The rays that reach a cell, one after the other. -/
theorem fbpF_val {f : Bool} {D : Dims} {g : Geom ℚ} {data recon : MemF} (hg : InGrid D g) {s n : Nat}
    (hs : s < D.dy) (hn : n < D.N) :
    fbpF f D g data recon (n + s * D.N) = (pixKeys D g s n).foldl
      (fun a x => F32.mac f (data x.1) (.fin x.2) a) (recon (n + s * D.N)) := by
  by_cases h0 : D.dy = 0 ∨ D.dt = 0 ∨ D.dx = 0
  · unfold fbpF
    rw [if_pos h0]
    have : pixKeys D g s n = [] := by
      unfold pixKeys
      rcases h0 with h | h | h
      · omega
      · rw [h]; rfl
      · rw [h]; simp
    rw [this]; rfl
  unfold fbpF
  rw [if_neg h0]
  rw [fold_cell _ (n + s * D.N) (fun s' => if s' = s then pixKeys D g s n else [])
    (fun a x => F32.mac f (data x.1) (.fin x.2) a)]
  · congr 1
    have : ∀ m, (List.range m).flatMap (fun s' => if s' = s then pixKeys D g s n else []) =
        if s < m then pixKeys D g s n else [] := by
      intro m
      induction m with
      | zero => rfl
      | succ m ih =>
        rw [List.range_succ, List.flatMap_append, ih]
        by_cases h1 : s < m
        · rw [if_pos h1, if_pos (by omega)]
          simp only [List.flatMap_cons, List.flatMap_nil, if_neg (by omega : m ≠ s), List.append_nil]
        · by_cases h2 : m = s
          · subst h2; simp
          · rw [if_neg h1, if_neg (by omega)]
            simp only [List.flatMap_cons, List.flatMap_nil, if_neg h2, List.append_nil]
    rw [this, if_pos hs]
  · intro s' hs' m
    by_cases e : s' = s
    · subst e
      rw [if_pos rfl]
      unfold pixKeys
      refine fold_cell _ _ _ _ _ (fun p _ m => ?_) m
      refine fold_cell _ _ _ _ _ (fun d _ m => ?_) m
      rw [spreadF_val f D s' n (D.data s' p d), List.foldl_map, List.foldl_map]
    · rw [if_neg e]
      refine foldl_inv _ (fun m' : MemF => m' (n + s * D.N) = m (n + s * D.N)) _ _ (fun m1 p hp h1 => ?_) rfl
      refine foldl_inv _ (fun m' : MemF => m' (n + s * D.N) = m (n + s * D.N)) _ _ (fun m2 d hd h2 => ?_) h1
      rw [spreadF_other (fun x hx => (hg s' (List.mem_range.mp hs') p (List.mem_range.mp hp) d
        (List.mem_range.mp hd) x hx).1) hn e, h2]

/-! ## Without overflow -/

theorem absSum_nonneg (l : List (ℚ × ℚ)) : 0 ≤ absSum l :=
  List.sum_nonneg (by intro a ha; obtain ⟨x, -, rfl⟩ := List.mem_map.mp ha; exact abs_nonneg _)

theorem exact_le_abs (l : List (ℚ × ℚ)) : |exactSum l| ≤ absSum l := by
  unfold exactSum absSum
  induction l with
  | nil => simp
  | cons a l ih =>
    simp only [List.map_cons, List.sum_cons]
    exact le_trans (abs_add_le _ _) (add_le_add (le_refl _) ih)

/-- The sum in `float` is at most twice the sum of the absolute values. -/
theorem lineSumF_le (f : Bool) {l : List (ℚ × ℚ)} (hl : l.length ≤ 16383) :
    |lineSumF f l| ≤ 2 * absSum l + 1 := by
  have h := lineSumF_err f l
  have p1 := pow_bound (n := l.length + 1) (by omega)
  have p2 := pow_bound (n := l.length) (by omega)
  have hn : (l.length : ℚ) ≤ 16383 := by exact_mod_cast hl
  have hn0 : (0 : ℚ) ≤ l.length := by positivity
  have hA := absSum_nonneg l
  have hE := exact_le_abs l
  have t1 : ((1 + 1 / 2 ^ 24 : ℚ) ^ (l.length + 1) - 1) * absSum l ≤ 1 * absSum l :=
    mul_le_mul_of_nonneg_right (by linarith) hA
  have t2 : 2 * (l.length : ℚ) * (1 / 2 ^ 150) * (1 + 1 / 2 ^ 24) ^ l.length ≤ 1 := by
    calc 2 * (l.length : ℚ) * (1 / 2 ^ 150) * (1 + 1 / 2 ^ 24) ^ l.length
        ≤ 2 * 16383 * (1 / 2 ^ 150) * (1 + 99 / 100000) := by
          refine mul_le_mul ?_ p2 (by positivity) (by positivity)
          gcongr
      _ ≤ 1 := by norm_num
  have : |lineSumF f l| ≤ |exactSum l| + |lineSumF f l - exactSum l| := by
    have := abs_add_le (exactSum l) (lineSumF f l - exactSum l)
    rwa [add_sub_cancel] at this
  linarith

theorem round_small {x : ℚ} (h : |x| ≤ 2 ^ 120) : F32.round x = .fin (fl x) := round_fin (le_trans h (by norm_num))

/-- The fold of the code is the sum without overflow. -/
theorem fold_fin (f : Bool) {l : List (ℚ × ℚ)} (hl : l.length ≤ 16383) (hA : absSum l ≤ 2 ^ 100) :
    l.foldl (fun a x => F32.mac f (.fin x.1) (.fin x.2) a) (.fin 0) = .fin (lineSumF f l) := by
  induction l using List.reverseRecOn with
  | nil => rfl
  | append_singleton l e ih =>
    rw [List.length_append, List.length_singleton] at hl
    have h3 : absSum (l ++ [e]) = absSum l + |e.1 * e.2| := by simp [absSum]
    rw [h3] at hA
    have hp := abs_nonneg (e.1 * e.2)
    have hA0 := absSum_nonneg l
    rw [List.foldl_append, List.foldl_cons, List.foldl_nil, ih (by omega) (by linarith)]
    have hs : lineSumF f (l ++ [e]) = mulAdd f e.1 e.2 (lineSumF f l) := by simp [lineSumF]
    rw [hs]
    have hb := lineSumF_le f (l := l) (by omega)
    have hb' : |lineSumF f l| ≤ 2 ^ 102 := le_trans hb (by
      have : absSum l ≤ 2 ^ 100 := by linarith
      calc 2 * absSum l + 1 ≤ 2 * 2 ^ 100 + 1 := by linarith
        _ ≤ 2 ^ 102 := by norm_num)
    have hpb : |e.1 * e.2| ≤ 2 ^ 100 := by linarith
    cases f
    · show F32.add (F32.round (e.1 * e.2)) (.fin (lineSumF false l)) = .fin (fl (fl (e.1 * e.2) + lineSumF false l))
      rw [round_small (le_trans hpb (by norm_num))]
      show F32.round _ = _
      refine round_small ?_
      have h1 := fl_rel (e.1 * e.2)
      have h2 : |fl (e.1 * e.2)| ≤ |e.1 * e.2| + |fl (e.1 * e.2) - e.1 * e.2| := by
        have := abs_add_le (e.1 * e.2) (fl (e.1 * e.2) - e.1 * e.2)
        rwa [add_sub_cancel] at this
      have h4 : |e.1 * e.2| / 2 ^ 24 ≤ |e.1 * e.2| := div_le_self hp (by norm_num)
      have h5 : (1 : ℚ) / 2 ^ 150 ≤ 1 := by norm_num
      calc |fl (e.1 * e.2) + lineSumF false l| ≤ |fl (e.1 * e.2)| + |lineSumF false l| := abs_add_le _ _
        _ ≤ 2 ^ 100 + 2 ^ 100 + 1 + 2 ^ 102 := by linarith
        _ ≤ 2 ^ 120 := by norm_num
    · show F32.round (e.1 * e.2 + lineSumF true l) = .fin (fl (e.1 * e.2 + lineSumF true l))
      refine round_small ?_
      calc |e.1 * e.2 + lineSumF true l| ≤ |e.1 * e.2| + |lineSumF true l| := abs_add_le _ _
        _ ≤ 2 ^ 100 + 2 ^ 102 := by linarith
        _ ≤ 2 ^ 120 := by norm_num

/-! ## Properties -/

theorem pixKeys_nonneg {D : Dims} {g : Geom ℚ} (hg : InGrid D g) {s n : Nat} (hs : s < D.dy) :
    ∀ x ∈ pixKeys D g s n, 0 ≤ x.2 := by
  intro x hx
  unfold pixKeys at hx
  simp only [List.mem_flatMap, List.mem_range, List.mem_map, List.mem_filter] at hx
  obtain ⟨p, hp, d, hd, e, ⟨he, -⟩, rfl⟩ := hx
  exact (hg s hs p hp d hd e he).2

theorem sum_flatMap' {α : Type*} (c : α → List ℚ) : ∀ l : List α,
    (l.flatMap c).sum = (l.map fun a => (c a).sum).sum := by
  intro l
  induction l with
  | nil => rfl
  | cons a l ih => rw [List.flatMap_cons, List.sum_append, ih, List.map_cons, List.sum_cons]

/-- The sum over the segments of a pixel is the exact back-projection. -/
theorem pixKeys_sum {D : Dims} {g : Geom ℚ} (hg : InGrid D g) (data : Mem ℚ) {s n : Nat} (hs : s < D.dy)
    (hn : n < D.N) : ((pixKeys D g s n).map fun x => data x.1 * x.2).sum =
      Tomopy.Iter.fbp D g data Tomopy.Iter.zeros (n + s * D.N) := by
  rw [Tomopy.Iter.fbp_apply D g data _ (fun s hs p hp d hd e he => (hg s hs p hp d hd e he).1) hs hn]
  have hz : (Tomopy.Iter.zeros : Mem ℚ) (n + s * D.N) = 0 := rfl
  rw [hz, zero_add]
  unfold pixKeys
  rw [List.map_flatMap, sum_flatMap']
  show _ = ((List.range D.dt).map _).sum
  refine congrArg List.sum (List.map_congr_left fun p _ => ?_)
  rw [List.map_flatMap, sum_flatMap']
  show _ = ((List.range D.dx).map _).sum
  refine congrArg List.sum (List.map_congr_left fun d _ => ?_)
  unfold Tomopy.Iter.lenIn
  induction g s p d with
  | nil => simp
  | cons e ray ih =>
    by_cases h : e.1 = n
    · rw [List.filter_cons_of_pos (by simp [h]), List.map_cons, List.map_cons, List.sum_cons, ih,
        List.map_cons, List.sum_cons, if_pos h]
      ring
    · rw [List.filter_cons_of_neg (by simp [h]), ih, List.map_cons, List.sum_cons, if_neg h, zero_add]

/-- What `fbp` computes without overflow. -/
theorem fbpF_fin {f : Bool} {D : Dims} {g : Geom ℚ} (hg : InGrid D g) {data : Mem ℚ} {s n : Nat}
    (hs : s < D.dy) (hn : n < D.N) (hc : (pixKeys D g s n).length ≤ 16383)
    (hb : Tomopy.Iter.fbp D g (fun i => |data i|) Tomopy.Iter.zeros (n + s * D.N) ≤ 2 ^ 100) :
    fbpF f D g (fun i => .fin (data i)) (fun _ => .fin 0) (n + s * D.N) =
      .fin (projectF f data (pixKeys D g s n)) := by
  rw [fbpF_val hg hs hn]
  have := fold_fin f (l := (pixKeys D g s n).map fun e => (data e.1, e.2)) (by simpa using hc) (by
    refine le_trans (le_of_eq ?_) hb
    rw [← pixKeys_sum hg _ hs hn]
    unfold absSum
    rw [List.map_map]
    refine congrArg List.sum (List.map_congr_left fun e he => ?_)
    show |data e.1 * e.2| = |data e.1| * e.2
    rw [abs_mul, abs_of_nonneg (pixKeys_nonneg hg hs e he)])
  rw [List.foldl_map] at this
  exact this

/-- **C181, accuracy.**  The back-projection in `float` is finite and within 0.1 % of the exact
back-projection of the absolute values (which for data without negative values is the exact result),
for pixels crossed by at most 16383 segments. -/
theorem fbpF_accurate {f : Bool} {D : Dims} {g : Geom ℚ} (hg : InGrid D g) {data : Mem ℚ} {s n : Nat}
    (hs : s < D.dy) (hn : n < D.N) (hc : (pixKeys D g s n).length ≤ 16383)
    (hb : Tomopy.Iter.fbp D g (fun i => |data i|) Tomopy.Iter.zeros (n + s * D.N) ≤ 2 ^ 100) :
    ∃ x, fbpF f D g (fun i => .fin (data i)) (fun _ => .fin 0) (n + s * D.N) = .fin x ∧
      |x - Tomopy.Iter.fbp D g data Tomopy.Iter.zeros (n + s * D.N)| ≤
        (1 / 1000) * Tomopy.Iter.fbp D g (fun i => |data i|) Tomopy.Iter.zeros (n + s * D.N) +
          1 / 2 ^ 134 := by
  refine ⟨_, fbpF_fin hg hs hn hc hb, ?_⟩
  rw [← pixKeys_sum hg data hs hn, ← pixKeys_sum hg (fun i => |data i|) hs hn]
  have he := lineSumF_err f ((pixKeys D g s n).map fun e => (data e.1, e.2))
  have hE : exactSum ((pixKeys D g s n).map fun e => (data e.1, e.2)) =
      ((pixKeys D g s n).map fun e => data e.1 * e.2).sum := by
    simp [exactSum, Function.comp_def]
  have hA : absSum ((pixKeys D g s n).map fun e => (data e.1, e.2)) =
      ((pixKeys D g s n).map fun e => |data e.1| * e.2).sum := by
    unfold absSum
    rw [List.map_map]
    refine congrArg List.sum (List.map_congr_left fun e he => ?_)
    show |data e.1 * e.2| = |data e.1| * e.2
    rw [abs_mul, abs_of_nonneg (pixKeys_nonneg hg hs e he)]
  have hS := absSum_nonneg ((pixKeys D g s n).map fun e => (data e.1, e.2))
  rw [hE, hA, List.length_map] at he
  rw [hA] at hS
  refine le_trans he ?_
  have p1 := pow_bound (n := (pixKeys D g s n).length + 1) (by omega)
  have p2 := pow_bound (n := (pixKeys D g s n).length) (by omega)
  have hnq : ((pixKeys D g s n).length : ℚ) ≤ 16383 := by exact_mod_cast hc
  have hn0 : (0 : ℚ) ≤ (pixKeys D g s n).length := by positivity
  have t1 : ((1 + 1 / 2 ^ 24 : ℚ) ^ ((pixKeys D g s n).length + 1) - 1) *
      ((pixKeys D g s n).map fun e => |data e.1| * e.2).sum ≤
      (1 / 1000) * ((pixKeys D g s n).map fun e => |data e.1| * e.2).sum :=
    mul_le_mul_of_nonneg_right (by linarith) hS
  have t2 : 2 * ((pixKeys D g s n).length : ℚ) * (1 / 2 ^ 150) *
      (1 + 1 / 2 ^ 24) ^ (pixKeys D g s n).length ≤ 1 / 2 ^ 134 := by
    calc 2 * ((pixKeys D g s n).length : ℚ) * (1 / 2 ^ 150) * (1 + 1 / 2 ^ 24) ^ (pixKeys D g s n).length
        ≤ 2 * 16383 * (1 / 2 ^ 150) * (1 + 99 / 100000) := by
          refine mul_le_mul ?_ p2 (by positivity) (by positivity)
          gcongr
      _ ≤ 1 / 2 ^ 134 := by norm_num
  linarith

/-- **C181, order.**  Larger data never give a smaller back-projection, in spite of rounding. -/
theorem fbpF_mono {f : Bool} {D : Dims} {g : Geom ℚ} (hg : InGrid D g) {data data' : Mem ℚ} {s n : Nat}
    (hs : s < D.dy) (hn : n < D.N) (hle : ∀ i, data i ≤ data' i) {x x' : ℚ}
    (hc : (pixKeys D g s n).length ≤ 16383)
    (hb : Tomopy.Iter.fbp D g (fun i => |data i|) Tomopy.Iter.zeros (n + s * D.N) ≤ 2 ^ 100)
    (hb' : Tomopy.Iter.fbp D g (fun i => |data' i|) Tomopy.Iter.zeros (n + s * D.N) ≤ 2 ^ 100)
    (hx : fbpF f D g (fun i => .fin (data i)) (fun _ => .fin 0) (n + s * D.N) = .fin x)
    (hx' : fbpF f D g (fun i => .fin (data' i)) (fun _ => .fin 0) (n + s * D.N) = .fin x') : x ≤ x' := by
  rw [fbpF_fin hg hs hn hc hb] at hx
  rw [fbpF_fin hg hs hn hc hb'] at hx'
  rw [← F32.fin.inj hx, ← F32.fin.inj hx']
  exact projectF_mono f (pixKeys_nonneg hg hs) fun e _ => hle e.1

/-- **C181, sign.**  Data that are not negative give a back-projection that is not negative; it is
NaN nowhere, whatever overflows. -/
theorem fbpF_sign {f : Bool} {D : Dims} {g : Geom ℚ} (hg : InGrid D g) {data : Mem ℚ}
    (hd : ∀ i, 0 ≤ data i) {s n : Nat} (hs : s < D.dy) (hn : n < D.N) :
    Num (fbpF f D g (fun i => .fin (data i)) (fun _ => .fin 0) (n + s * D.N)) := by
  rw [fbpF_val hg hs hn]
  refine foldl_inv _ Num _ _ (fun a x hx ha => ?_) (Or.inr ⟨0, le_refl _, rfl⟩)
  have hp := mul_nonneg (hd x.1) (pixKeys_nonneg hg hs x hx)
  rcases ha with rfl | ⟨q, hq, rfl⟩
  · cases f
    · show Num (F32.add (F32.round (data x.1 * x.2)) (.inf false))
      rcases Num.round hp with h | ⟨q, -, h⟩ <;> rw [h] <;> exact Or.inl (by simp [F32.add])
    · exact Or.inl rfl
  · cases f
    · show Num (F32.add (F32.round (data x.1 * x.2)) (.fin q))
      exact (Num.round hp).add hq
    · exact Num.round (add_nonneg hp hq)

/-- **C181, unseen pixels.**  A pixel that no ray crosses keeps its value, whatever the data are. -/
theorem fbpF_unseen {f : Bool} {D : Dims} {g : Geom ℚ} (hg : InGrid D g) {data recon : MemF} {s n : Nat}
    (hs : s < D.dy) (hn : n < D.N) (h : ∀ p < D.dt, ∀ d < D.dx, ∀ e ∈ g s p d, e.1 ≠ n) :
    fbpF f D g data recon (n + s * D.N) = recon (n + s * D.N) := by
  rw [fbpF_val hg hs hn]
  have : pixKeys D g s n = [] := by
    unfold pixKeys
    rw [List.flatMap_eq_nil_iff]
    intro p hp
    rw [List.flatMap_eq_nil_iff]
    intro d hd
    rw [List.map_eq_nil_iff, List.filter_eq_nil_iff]
    intro e he
    simpa using h p (List.mem_range.mp hp) d (List.mem_range.mp hd) e he
  rw [this]; rfl

/-! ## Examples -/

theorem ownG_grid (dy dt dx : Nat) : InGrid ⟨dy, dt, dx, 4⟩ ownG := by
  intro s _ p _ d _ e he
  obtain ⟨h1, h2⟩ := (ownG_ok s p d).1 e he
  refine ⟨h1, ?_⟩
  rcases h2 with h | h
  · rw [h]
  · exact le_trans (by norm_num) h.1

/-- Pixel 1 of the second slice is crossed by two segments; the hypotheses hold, and the result is
rounded. -/
example : (pixKeys ⟨2, 2, 1, 4⟩ ownG 1 1) = [(2, fl (4 / 3)), (3, fl (1 / 3))] ∧
    fbpF false ⟨2, 2, 1, 4⟩ ownG (fun i => .fin (i + 3)) (fun _ => .fin 0) (1 + 1 * 4) ≠
      .fin (5 * fl (4 / 3) + 6 * fl (1 / 3)) := by
  constructor <;> decide +kernel

example : ∃ x, fbpF true ⟨2, 2, 1, 4⟩ ownG (fun i => .fin ((fun i : Nat => (i : ℚ) + 1) i)) (fun _ => .fin 0)
    (1 + 1 * 4) = .fin x := by
  obtain ⟨x, hx, -⟩ := fbpF_accurate (f := true) (ownG_grid 2 2 1) (data := fun i => (i : ℚ) + 1) (s := 1)
    (n := 1) (by norm_num) (by norm_num) (by decide +kernel) (by decide +kernel)
  exact ⟨x, hx⟩

end Tomopy.Fl
