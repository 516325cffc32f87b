import Verif.Fl.Fbp

/-!
# Negated and rescaled data, in float arithmetic

Rounding to the nearest `float` is symmetric, and away from underflow it commutes with powers of two.
-/

set_option linter.unusedSectionVars false

namespace Tomopy.Fl

open Function (update)
open Tomopy.Iter (Dims Segs Geom subsets subsetProjs)

/-! ## Specification -/

/-- The negative of a `float`; the zeros are one value. -/
def negF : F32 → F32
  | .fin q => .fin (-q)
  | .inf s => .inf (!s)
  | .nan => .nan

/-- The negative of every element. -/
def negM (m : MemF) : MemF := fun i => negF (m i)

/-- A number no operation rounds below the smallest normal `float`. -/
def Normal (x : ℚ) : Prop := x = 0 ∨ 1 / 2 ^ 126 ≤ |x|

/-! ## Rounding -/

theorem rne_neg (y : ℚ) : rne (-y) = -rne y := by
  by_cases hy : y = (⌊y⌋ : ℤ)
  · have h1 : rne y = ⌊y⌋ := by conv_lhs => rw [hy]; exact rne_int _
    have h2 : rne (-y) = -⌊y⌋ := by
      have : -y = ((-⌊y⌋ : ℤ) : ℚ) := by push_cast; linarith
      rw [this, rne_int]
    rw [h1, h2]
  · have h0 := Int.floor_le y
    have h1 := Int.lt_floor_add_one y
    have hlt : (⌊y⌋ : ℚ) < y := lt_of_le_of_ne h0 (Ne.symm hy)
    have hf : ⌊-y⌋ = -⌊y⌋ - 1 := by
      rw [Int.floor_eq_iff]
      push_cast
      constructor <;> linarith
    unfold rne
    rw [hf]
    push_cast
    split_ifs <;> first | omega | (exfalso; linarith)

theorem ulpExp_neg (x : ℚ) : ulpExp (-x) = ulpExp x := by unfold ulpExp; rw [abs_neg]

theorem fl_neg (x : ℚ) : fl (-x) = -fl x := by
  unfold fl
  rw [ulpExp_neg, neg_div, rne_neg]
  push_cast
  ring

/-! ## Operations -/

theorem round_neg (x : ℚ) : F32.round (-x) = negF (F32.round x) := by
  unfold F32.round
  rw [fl_neg, abs_neg]
  by_cases h : |fl x| < 2 ^ 128
  · rw [if_pos h, if_pos h]; rfl
  · rw [if_neg h, if_neg h]
    have hx : x ≠ 0 := by
      rintro rfl
      rw [fl_zero] at h
      norm_num at h
    show F32.inf _ = F32.inf _
    congr 1
    rcases lt_or_gt_of_ne hx with h' | h'
    · simp [h', not_lt.2 h'.le]
    · simp [h', not_lt.2 h'.le]

theorem add_neg' (a b : F32) : F32.add (negF a) (negF b) = negF (F32.add a b) := by
  cases a <;> cases b <;> simp only [negF, F32.add]
  · rw [← neg_add, round_neg]; rfl
  · rename_i s t
    cases s <;> cases t <;> rfl

theorem sub_eq (a b : F32) : F32.sub a b = F32.add a (negF b) := by cases b <;> rfl

theorem sub_neg' (a b : F32) : F32.sub (negF a) (negF b) = negF (F32.sub a b) := by
  rw [sub_eq, sub_eq, add_neg']

theorem sign_neg {x : ℚ} (h : x ≠ 0) : decide (-x < 0) = !decide (x < 0) := by
  rcases lt_or_gt_of_ne h with h' | h'
  · simp [h', not_lt.2 h'.le]
  · simp [h', not_lt.2 h'.le]

theorem mul_neg' (a b : F32) : F32.mul (negF a) b = negF (F32.mul a b) := by
  cases a with
  | nan => cases b <;> rfl
  | fin x =>
    cases b with
    | nan => rfl
    | fin y =>
      show F32.round (-x * y) = _
      rw [neg_mul, round_neg]; rfl
    | inf t =>
      by_cases h : x = 0
      · simp [negF, F32.mul, h]
      · simp only [negF, F32.mul, neg_eq_zero, if_neg h, sign_neg h]
        cases t <;> cases decide (x < 0) <;> rfl
  | inf s =>
    cases b with
    | nan => rfl
    | fin y =>
      by_cases h : y = 0
      · simp [negF, F32.mul, h]
      · simp only [negF, F32.mul, if_neg h]
        cases s <;> cases decide (y < 0) <;> rfl
    | inf t => cases s <;> cases t <;> rfl

theorem div_neg' (a b : F32) : F32.div (negF a) b = negF (F32.div a b) := by
  cases a with
  | nan => cases b <;> rfl
  | fin x =>
    cases b with
    | nan => rfl
    | fin y =>
      by_cases h : y = 0
      · by_cases hx : x = 0
        · simp [negF, F32.div, h, hx]
        · simp only [negF, F32.div, h, if_true, neg_eq_zero, if_neg hx, sign_neg hx]
      · simp only [negF, F32.div, if_neg h, neg_div, round_neg]
    | inf t => simp [negF, F32.div]
  | inf s =>
    cases b with
    | nan => rfl
    | fin y =>
      simp only [negF, F32.div]
      cases s <;> cases decide (y < 0) <;> rfl
    | inf t => rfl

theorem mac_neg (f : Bool) (a b c : F32) : F32.mac f (negF a) b (negF c) = negF (F32.mac f a b c) := by
  have h : F32.add (F32.mul (negF a) b) (negF c) = negF (F32.add (F32.mul a b) c) := by
    rw [mul_neg', add_neg']
  cases f
  · exact h
  cases a <;> cases b <;> cases c <;> first | exact h | rfl | skip
  rename_i x y z
  show F32.round (-x * y + -z) = negF (F32.round (x * y + z))
  rw [show -x * y + -z = -(x * y + z) by ring, round_neg]

/-! ## Kernels -/

theorem negM_update (m : MemF) (i : Nat) (v : F32) : update (negM m) i (negF v) = negM (update m i v) := by
  funext j
  unfold negM
  by_cases h : j = i
  · subst h; simp
  · simp [h]

theorem simF_neg (f : Bool) (D : Dims) (s p d : Nat) (ray : Segs ℚ) (model sd : MemF) :
    simF f D s p d ray (negM model) (negM sd) = negM (simF f D s p d ray model sd) := by
  unfold simF
  induction ray generalizing sd with
  | nil => rfl
  | cons e ray ih =>
    rw [List.foldl_cons, List.foldl_cons, ← ih, ← negM_update, ← mac_neg]
    rfl

theorem spreadF_neg (f : Bool) (D : Dims) (s : Nat) (ray : Segs ℚ) (v : F32) (r : MemF) :
    spreadF f D s ray (negF v) (negM r) = negM (spreadF f D s ray v r) := by
  unfold spreadF
  induction ray generalizing r with
  | nil => rfl
  | cons e ray ih =>
    rw [List.foldl_cons, List.foldl_cons, ← ih, ← negM_update, ← mac_neg]
    rfl

theorem addUpdF_neg (f : Bool) (ray : Segs ℚ) (v : F32) (r : MemF) :
    addUpdF f ray (negF v) (negM r) = negM (addUpdF f ray v r) := by
  unfold addUpdF
  induction ray generalizing r with
  | nil => rfl
  | cons e ray ih =>
    rw [List.foldl_cons, List.foldl_cons, ← ih, ← negM_update, ← mac_neg]
    rfl

theorem fold_neg {ι α : Type*} (n : α → α) (f f' : α → ι → α) (h : ∀ m x, f' (n m) x = n (f m x)) :
    ∀ (l : List ι) (m : α), l.foldl f' (n m) = n (l.foldl f m)
  | [], _ => rfl
  | x :: l, m => by rw [List.foldl_cons, List.foldl_cons, h]; exact fold_neg n f f' h l _

theorem negM_zero : negM (fun _ => .fin 0) = fun _ => .fin 0 := by
  funext i
  simp [negM, negF]

/-- **`project` of the negated object is the negated projection, bit for bit.** -/
theorem projectM_neg (f : Bool) (D : Dims) (g : Geom ℚ) (obj data : MemF) :
    projectM f D g (negM obj) (negM data) = negM (projectM f D g obj data) := by
  unfold projectM
  split
  · rfl
  exact fold_neg _ _ _ (fun _ p => fold_neg _ _ _ (fun _ d => fold_neg _ _ _ (fun _ s => simF_neg ..) _ _) _ _) _ _

/-- **`fbp` of negated data, on a negated image, is the negated reconstruction, bit for bit.** -/
theorem fbpF_neg (f : Bool) (D : Dims) (g : Geom ℚ) (data recon : MemF) :
    fbpF f D g (negM data) (negM recon) = negM (fbpF f D g data recon) := by
  unfold fbpF
  split
  · rfl
  exact fold_neg _ _ _ (fun _ p => fold_neg _ _ _ (fun _ d => fold_neg _ _ _ (fun _ s => spreadF_neg ..) _ _) _ _) _ _

/-- Both arrays of a state negated. -/
def neg2 (st : MemF × MemF) : MemF × MemF := (negM st.1, negM st.2)

theorem artStepF_neg (k : OMode) (D : Dims) (g : Geom ℚ) (data : MemF) (st : MemF × MemF) (p d s : Nat) :
    artStepF k D g (negM data) (neg2 st) p d s = neg2 (artStepF k D g data st p d s) := by
  unfold artStepF neg2
  split
  · dsimp only
    rw [simF_neg, ← spreadF_neg, ← div_neg', ← sub_neg']
    rfl
  · rfl

/-- **`art` of negated data, from a negated image, is the negated reconstruction, bit for bit.** -/
theorem artF_neg (k : OMode) (D : Dims) (g : Geom ℚ) (data : MemF) (num_iter : Nat) (recon : MemF) :
    artF k D g (negM data) num_iter (negM recon) = negM (artF k D g data num_iter recon) := by
  unfold artF
  split
  · rfl
  induction num_iter generalizing recon with
  | zero => rfl
  | succ n ih =>
    rw [Function.iterate_succ_apply, Function.iterate_succ_apply, ← ih]
    congr 1
    unfold artIterF
    have h0 : neg2 (recon, fun _ => F32.fin 0) = (negM recon, fun _ => F32.fin 0) := by
      unfold neg2; rw [negM_zero]
    rw [← h0]
    refine congrArg Prod.fst (a₂ := neg2 _) (fold_neg neg2 _ _ (fun st p => ?_) _ _)
    refine fold_neg neg2 _ _ (fun st d => ?_) _ _
    exact fold_neg neg2 _ _ (fun st s => artStepF_neg k D g data st p d s) _ _

/-- The accumulators of `bart` negated; the sums of lengths stay. -/
def negA (a : AccF) : AccF := ⟨negM a.sd, a.sumd, negM a.upd⟩

theorem bartRayF_neg (k : OMode) (D : Dims) (s p d : Nat) (ray : Segs ℚ) (data recon : MemF) (a : AccF) :
    bartRayF k D s p d ray (negM data) (negM recon) (negA a) = negA (bartRayF k D s p d ray data recon a) := by
  unfold bartRayF negA
  dsimp only
  rw [simF_neg]
  congr 1
  split
  · rw [← addUpdF_neg, ← div_neg', ← sub_neg']
    rfl
  · rfl

theorem bartAccF_neg (k : OMode) (D : Dims) (g : Geom ℚ) (s : Nat) (ps : List Nat) (data recon sd : MemF) :
    bartAccF k D g s ps (negM data) (negM recon) (negM sd) = negA (bartAccF k D g s ps data recon sd) := by
  unfold bartAccF
  have h0 : negA ⟨sd, fun _ => F32.fin 0, fun _ => F32.fin 0⟩ = ⟨negM sd, fun _ => F32.fin 0, fun _ => F32.fin 0⟩ := by
    unfold negA; rw [negM_zero]
  rw [← h0]
  refine fold_neg negA _ _ (fun a p => ?_) _ _
  exact fold_neg negA _ _ (fun a d => bartRayF_neg k D s p d (g s p d) data recon a) _ _

theorem bartFinF_neg (D : Dims) (s : Nat) (a : AccF) (recon : MemF) :
    bartFinF D s (negA a) (negM recon) = negM (bartFinF D s a recon) := by
  unfold bartFinF
  refine fold_neg negM _ _ (fun r n => ?_) _ _
  show (if a.sumd n ≠ .fin 0 then _ else _) = _
  split
  · rw [← negM_update, ← add_neg', ← div_neg']
    rfl
  · rfl

theorem bartBlockF_neg (k : OMode) (D : Dims) (g : Geom ℚ) (data : MemF) (s : Nat) (st : MemF × MemF)
    (ps : List Nat) : bartBlockF k D g (negM data) s (neg2 st) ps = neg2 (bartBlockF k D g data s st ps) := by
  unfold bartBlockF neg2
  dsimp only
  rw [bartAccF_neg, bartFinF_neg]
  rfl

/-- **`bart` of negated data, from a negated image, is the negated reconstruction, bit for bit, and raises for
the same arguments.** -/
theorem bartF_neg (k : OMode) (D : Dims) (g : Geom ℚ) (data : MemF) (num_iter nb : Nat) (ind : List Nat)
    (recon : MemF) :
    bartF k D g (negM data) num_iter nb ind (negM recon) = (bartF k D g data num_iter nb ind recon).map negM := by
  unfold bartF
  split
  · rfl
  split
  · rfl
  rw [Option.map_map]
  congr 1
  funext blocks
  show (bartIterF k D g (negM data) blocks)^[num_iter] (negM recon) =
    negM ((bartIterF k D g data blocks)^[num_iter] recon)
  induction num_iter generalizing recon with
  | zero => rfl
  | succ n ih =>
    rw [Function.iterate_succ_apply, Function.iterate_succ_apply, ← ih]
    congr 1
    unfold bartIterF
    have h0 : neg2 (recon, fun _ => F32.fin 0) = (negM recon, fun _ => F32.fin 0) := by
      unfold neg2; rw [negM_zero]
    rw [← h0]
    refine congrArg Prod.fst (a₂ := neg2 _) (fold_neg neg2 _ _ (fun st s => ?_) _ _)
    exact fold_neg neg2 _ _ (fun st ps => bartBlockF_neg k D g data s st ps) _ _

/-- **The same of `sirt`.** -/
theorem sirtF_neg (k : OMode) (D : Dims) (g : Geom ℚ) (data : MemF) (num_iter : Nat) (recon : MemF) :
    sirtF k D g (negM data) num_iter (negM recon) = (sirtF k D g data num_iter recon).map negM :=
  bartF_neg k D g data num_iter 1 [0] recon

/-! ## Powers of two -/

theorem log_scale {x : ℚ} (hx : 0 < x) (k : ℤ) : Int.log 2 (2 ^ k * x) = Int.log 2 x + k := by
  have hp : (0 : ℚ) < 2 ^ k * x := mul_pos (two_zpow_pos k) hx
  have h1 := Int.zpow_log_le_self (b := 2) (by norm_num) hx
  have h2 := Int.lt_zpow_succ_log_self (b := 2) (by norm_num) x
  have e1 : ((2 : ℕ) : ℚ) ^ (Int.log 2 x + k) ≤ 2 ^ k * x := by
    push_cast at h1 ⊢
    rw [zpow_add₀ (by norm_num), mul_comm]
    exact mul_le_mul_of_nonneg_left h1 (two_zpow_pos k).le
  have e2 : 2 ^ k * x < ((2 : ℕ) : ℚ) ^ (Int.log 2 x + k + 1) := by
    push_cast at h2 ⊢
    rw [show Int.log 2 x + k + 1 = k + (Int.log 2 x + 1) by ring, zpow_add₀ (by norm_num)]
    exact mul_lt_mul_of_pos_left h2 (two_zpow_pos k)
  have h3 := (Int.zpow_le_iff_le_log (by norm_num) hp).1 e1
  have h4 := (Int.lt_zpow_iff_log_lt (by norm_num) hp).1 e2
  omega

theorem normal_log {x : ℚ} (h : 1 / 2 ^ 126 ≤ |x|) : -126 ≤ Int.log 2 |x| := by
  have hp : 0 < |x| := lt_of_lt_of_le (by norm_num) h
  refine (Int.zpow_le_iff_le_log (by norm_num) hp).1 (le_trans (le_of_eq ?_) h)
  push_cast
  rw [zpow_neg, one_div]
  norm_cast

/-- Away from underflow, rounding commutes with powers of two. -/
theorem fl_scale {x : ℚ} (k : ℤ) (h : Normal x) (h' : Normal (2 ^ k * x)) : fl (2 ^ k * x) = 2 ^ k * fl x := by
  by_cases hx : x = 0
  · rw [hx, mul_zero, fl_zero, mul_zero]
  have hk := two_zpow_pos k
  have hx' : (2 : ℚ) ^ k * x ≠ 0 := mul_ne_zero hk.ne' hx
  have h1 := normal_log (h.resolve_left hx)
  have h2 := normal_log (h'.resolve_left hx')
  have habs : |2 ^ k * x| = 2 ^ k * |x| := by rw [abs_mul, abs_of_pos hk]
  have hl := log_scale (abs_pos.2 hx) k
  have hu : ulpExp (2 ^ k * x) = ulpExp x + k := by
    unfold ulpExp
    rw [habs] at h2 ⊢
    rw [hl] at h2 ⊢
    omega
  unfold fl
  rw [hu, zpow_add₀ (by norm_num : (2 : ℚ) ≠ 0)]
  have : 2 ^ k * x / (2 ^ ulpExp x * 2 ^ k) = x / 2 ^ ulpExp x := by
    have := two_zpow_pos (ulpExp x)
    field_simp
  rw [this]
  ring

theorem fl_least : fl (1 / 2 ^ 126) = 1 / 2 ^ 126 :=
  fl_exact 1 (-126) (by norm_num) (by norm_num) (by norm_num [zpow_neg])

theorem normal_fl {x : ℚ} (hx : 0 ≤ x) (h : Normal x) : Normal (fl x) := by
  rcases h with rfl | h
  · exact Or.inl fl_zero
  · refine Or.inr ?_
    rw [abs_of_nonneg hx] at h
    rw [abs_of_nonneg (fl_nonneg hx), ← fl_least]
    exact fl_mono h

theorem normal_add {x y : ℚ} (hx : 0 ≤ x) (hy : 0 ≤ y) (h : Normal x) (h' : Normal y) : Normal (x + y) := by
  rcases h with rfl | h
  · rwa [zero_add]
  · refine Or.inr ?_
    rw [abs_of_nonneg hx] at h
    rw [abs_of_nonneg (add_nonneg hx hy)]
    linarith

/-- `b` is `a` times `2^k`, and neither is small or negative. -/
structure Scaled (k : ℤ) (q : ℚ) : Prop where
  nonneg : 0 ≤ q
  small : Normal q
  small' : Normal (2 ^ k * q)

theorem Scaled.fl {k : ℤ} {q : ℚ} (h : Scaled k q) : Scaled k (fl q) := by
  refine ⟨fl_nonneg h.nonneg, normal_fl h.nonneg h.small, ?_⟩
  rw [← fl_scale k h.small h.small']
  exact normal_fl (mul_nonneg (two_zpow_pos k).le h.nonneg) h.small'

theorem Scaled.add {k : ℤ} {p q : ℚ} (h : Scaled k p) (h' : Scaled k q) : Scaled k (p + q) := by
  refine ⟨add_nonneg h.nonneg h'.nonneg, normal_add h.nonneg h'.nonneg h.small h'.small, ?_⟩
  rw [mul_add]
  exact normal_add (mul_nonneg (two_zpow_pos k).le h.nonneg) (mul_nonneg (two_zpow_pos k).le h'.nonneg)
    h.small' h'.small'

theorem round_inf {x : ℚ} (hx : 0 ≤ x) : F32.round x = .fin (fl x) ∨ F32.round x = .inf false := by
  unfold F32.round
  split
  · exact Or.inl rfl
  · exact Or.inr (by simp [not_lt.2 hx])

theorem mac_inf (f : Bool) {x l : ℚ} (h : 0 ≤ x * l) : F32.mac f (.fin x) (.fin l) (.inf false) = .inf false := by
  cases f
  · show F32.add (F32.round (x * l)) (.inf false) = _
    rcases round_inf h with e | e <;> rw [e] <;> rfl
  · rfl

theorem fold_inf (f : Bool) {l : List (ℚ × ℚ)} (hl : ∀ e ∈ l, 0 ≤ e.1 * e.2) :
    l.foldl (fun a x => F32.mac f (.fin x.1) (.fin x.2) a) (.inf false) = .inf false := by
  induction l with
  | nil => rfl
  | cons e l ih =>
    rw [List.foldl_cons, mac_inf f (hl e (List.mem_cons_self ..))]
    exact ih fun e he => hl e (List.mem_cons_of_mem _ he)

theorem mac_fin (f : Bool) {x l q : ℚ} (h : 0 ≤ x * l) (hq : 0 ≤ q) :
    F32.mac f (.fin x) (.fin l) (.fin q) = .fin (mulAdd f x l q) ∨
    F32.mac f (.fin x) (.fin l) (.fin q) = .inf false := by
  cases f
  · show F32.add (F32.round (x * l)) (.fin q) = .fin (fl (fl (x * l) + q)) ∨ F32.add (F32.round (x * l)) (.fin q) = _
    rcases round_inf h with e | e
    · rw [e]; exact round_inf (add_nonneg (fl_nonneg h) hq)
    · rw [e]; exact Or.inr rfl
  · exact round_inf (add_nonneg h hq)

theorem mulAdd_scale (f : Bool) {k : ℤ} {x l q : ℚ} (h : Scaled k (x * l)) (hq : Scaled k q) :
    mulAdd f (2 ^ k * x) l (2 ^ k * q) = 2 ^ k * mulAdd f x l q ∧ Scaled k (mulAdd f x l q) := by
  cases f
  · show Fl.fl (Fl.fl (2 ^ k * x * l) + 2 ^ k * q) = 2 ^ k * Fl.fl (Fl.fl (x * l) + q) ∧
      Scaled k (Fl.fl (Fl.fl (x * l) + q))
    have h2 := h.fl.add hq
    rw [mul_assoc, fl_scale k h.small h.small', ← mul_add, fl_scale k h2.small h2.small']
    exact ⟨rfl, h2.fl⟩
  · show Fl.fl (2 ^ k * x * l + 2 ^ k * q) = 2 ^ k * Fl.fl (x * l + q) ∧ Scaled k (Fl.fl (x * l + q))
    have h2 := h.add hq
    rw [mul_assoc, ← mul_add, fl_scale k h2.small h2.small']
    exact ⟨rfl, h2.fl⟩

/-- A sum of products that are not negative, all of them times `2^k`. -/
theorem fold_scale (f : Bool) (k : ℤ) {l : List (ℚ × ℚ)} (hl : ∀ e ∈ l, Scaled k (e.1 * e.2)) {q : ℚ}
    (hq : Scaled k q) {x x' : ℚ}
    (hx : l.foldl (fun a e => F32.mac f (.fin e.1) (.fin e.2) a) (.fin q) = .fin x)
    (hx' : l.foldl (fun a e => F32.mac f (.fin (2 ^ k * e.1)) (.fin e.2) a) (.fin (2 ^ k * q)) = .fin x') :
    x' = 2 ^ k * x := by
  induction l generalizing q with
  | nil =>
    obtain rfl := F32.fin.inj hx
    exact (F32.fin.inj hx').symm
  | cons e l ih =>
    have he := hl e (List.mem_cons_self ..)
    have hl' := fun e' h' => hl e' (List.mem_cons_of_mem e h')
    have hk := (two_zpow_pos k).le
    rw [List.foldl_cons] at hx hx'
    have e2 := mac_fin f (x := 2 ^ k * e.1) (l := e.2) (q := 2 ^ k * q)
      (by rw [mul_assoc]; exact mul_nonneg hk he.nonneg) (mul_nonneg hk hq.nonneg)
    rcases mac_fin f he.nonneg hq.nonneg with e1 | e1
    · rcases e2 with e2 | e2
      · rw [e1] at hx
        rw [e2, (mulAdd_scale f he hq).1] at hx'
        exact ih hl' (mulAdd_scale f he hq).2 hx hx'
      · rw [e2] at hx'
        have := fold_inf f (l := l.map fun e => (2 ^ k * e.1, e.2)) (by
          intro e' h'
          obtain ⟨e0, h0, rfl⟩ := List.mem_map.1 h'
          show 0 ≤ 2 ^ k * e0.1 * e0.2
          rw [mul_assoc]
          exact mul_nonneg hk (hl' e0 h0).nonneg)
        rw [List.foldl_map] at this
        rw [this] at hx'
        exact absurd hx' (by simp)
    · rw [e1, fold_inf f fun e' h' => (hl' e' h').nonneg] at hx
      exact absurd hx (by simp)

/-- **`fbp` in other units: if the data are not negative and multiplied by a power of two, so is the
reconstruction, exactly, unless a product underflows or the sum overflows.** -/
theorem fbpF_scale {f : Bool} {D : Dims} {g : Geom ℚ} (hg : InGrid D g) (k : ℤ) {data : Tomopy.Iter.Mem ℚ}
    {s n : Nat} (hs : s < D.dy) (hn : n < D.N) (hd : ∀ e ∈ pixKeys D g s n, Scaled k (data e.1 * e.2)) {x x' : ℚ}
    (hx : fbpF f D g (fun i => .fin (data i)) (fun _ => .fin 0) (n + s * D.N) = .fin x)
    (hx' : fbpF f D g (fun i => .fin (2 ^ k * data i)) (fun _ => .fin 0) (n + s * D.N) = .fin x') :
    x' = 2 ^ k * x := by
  rw [fbpF_val hg hs hn] at hx hx'
  have h0 : Scaled k 0 := ⟨le_refl _, Or.inl rfl, Or.inl (mul_zero _)⟩
  refine fold_scale f k (l := (pixKeys D g s n).map fun e => (data e.1, e.2)) ?_ h0 ?_ ?_
  · intro e he
    obtain ⟨e0, h0, rfl⟩ := List.mem_map.1 he
    exact hd e0 h0
  · rw [List.foldl_map]; exact hx
  · rw [List.foldl_map, mul_zero]; exact hx'

/-- **The same of `project`.** -/
theorem projectM_scale {f : Bool} {D : Dims} {g : Geom ℚ} (k : ℤ) {obj : Tomopy.Iter.Mem ℚ} {s p d : Nat}
    (hs : s < D.dy) (hp : p < D.dt) (hd : d < D.dx)
    (ho : ∀ e ∈ g 0 p d, Scaled k (obj (e.1 + s * D.N) * e.2)) {x x' : ℚ}
    (hx : projectM f D g (fun i => .fin (obj i)) (fun _ => .fin 0) (D.data s p d) = .fin x)
    (hx' : projectM f D g (fun i => .fin (2 ^ k * obj i)) (fun _ => .fin 0) (D.data s p d) = .fin x') :
    x' = 2 ^ k * x := by
  rw [projectM_val hs hp hd] at hx hx'
  have h0 : Scaled k 0 := ⟨le_refl _, Or.inl rfl, Or.inl (mul_zero _)⟩
  refine fold_scale f k (l := (g 0 p d).map fun e => (obj (e.1 + s * D.N), e.2)) ?_ h0 ?_ ?_
  · intro e he
    obtain ⟨e0, h0, rfl⟩ := List.mem_map.1 he
    exact ho e0 h0
  · rw [List.foldl_map]; exact hx
  · rw [List.foldl_map, mul_zero]; exact hx'

/-! ## What does not hold -/

/-- One ray through one pixel. -/
def oneRay (l : ℚ) : Geom ℚ := fun _ _ _ => [(0, l)]

/-- **`osem` and `mlem` are not symmetric: if the projection of the image underflows to zero, the pixel becomes
`+∞` for the data and for the negated data.** -/
theorem osemF_not_odd (k : OMode) : ∃ (D : Dims) (g : Geom ℚ) (data recon : MemF),
    mlemF k D g data 1 recon ≠ none ∧
    mlemF k D g (negM data) 1 (negM recon) ≠ (mlemF k D g data 1 recon).map negM := by
  refine ⟨⟨1, 1, 1, 1⟩, oneRay (1 / 4), fun _ => .fin 1, fun _ => .fin (1 / 2 ^ 149), ?_, ?_⟩
  · obtain ⟨a, b, c⟩ := k
    cases a <;> cases b <;> cases c <;> exact Option.some_ne_none _
  · intro h
    have h1 : (mlemF k ⟨1, 1, 1, 1⟩ (oneRay (1 / 4)) (negM fun _ => .fin 1) 1 (negM fun _ => .fin (1 / 2 ^ 149))).map
        (fun m => m 0) = some (.inf false) := by
      obtain ⟨a, b, c⟩ := k
      cases a <;> cases b <;> cases c <;> decide +kernel
    have h2 : (mlemF k ⟨1, 1, 1, 1⟩ (oneRay (1 / 4)) (fun _ => .fin 1) 1 (fun _ => .fin (1 / 2 ^ 149))).map
        (fun m => m 0) = some (.inf false) := by
      obtain ⟨a, b, c⟩ := k
      cases a <;> cases b <;> cases c <;> decide +kernel
    rw [h, Option.map_map] at h1
    cases hm : mlemF k ⟨1, 1, 1, 1⟩ (oneRay (1 / 4)) (fun _ => .fin 1) 1 (fun _ => .fin (1 / 2 ^ 149)) with
    | none => rw [hm] at h2; exact absurd h2 (by simp)
    | some m =>
      rw [hm] at h1 h2
      have e2 : m 0 = .inf false := Option.some.inj h2
      have e1 : negF (m 0) = .inf false := Option.some.inj h1
      rw [e2] at e1
      exact absurd e1 (by decide)

/-- **Three times the data do not give three times the reconstruction.** -/
theorem fbpF_not_scale3 (f : Bool) :
    fbpF f ⟨1, 1, 1, 1⟩ (oneRay (fl (1 / 3))) (fun _ => .fin 1) (fun _ => .fin 0) 0 = .fin (fl (1 / 3)) ∧
    fbpF f ⟨1, 1, 1, 1⟩ (oneRay (fl (1 / 3))) (fun _ => .fin 3) (fun _ => .fin 0) 0 ≠ .fin (3 * fl (1 / 3)) := by
  cases f <;> constructor <;> decide +kernel

/-! ## Examples -/

/-- The data of the example meet the hypotheses of `fbpF_scale`, and both results are finite and not zero. -/
example : (∀ e ∈ pixKeys ⟨2, 2, 1, 4⟩ ownG 1 1, Scaled (-3) (((e.1 : ℚ) + 1) * e.2)) ∧
    fbpF true ⟨2, 2, 1, 4⟩ ownG (fun i => .fin ((i : ℚ) + 1)) (fun _ => .fin 0) (1 + 1 * 4) =
      .fin (projectF true (fun i => (i : ℚ) + 1) [(2, fl (4 / 3)), (3, fl (1 / 3))]) ∧
    fbpF true ⟨2, 2, 1, 4⟩ ownG (fun i => .fin (2 ^ (-3 : ℤ) * ((i : ℚ) + 1))) (fun _ => .fin 0) (1 + 1 * 4) =
      .fin (2 ^ (-3 : ℤ) * projectF true (fun i => (i : ℚ) + 1) [(2, fl (4 / 3)), (3, fl (1 / 3))]) := by
  refine ⟨?_, by decide +kernel, by decide +kernel⟩
  intro e he
  have hk : pixKeys ⟨2, 2, 1, 4⟩ ownG 1 1 = [(2, fl (4 / 3)), (3, fl (1 / 3))] := by decide +kernel
  rw [hk] at he
  have h43 : (1 : ℚ) ≤ fl (4 / 3) := by decide +kernel
  have h13 : (1 / 4 : ℚ) ≤ fl (1 / 3) := by decide +kernel
  have key : ∀ q : ℚ, 1 / 2 ≤ q → Scaled (-3) q := fun q hq => by
    refine ⟨by linarith, Or.inr ?_, Or.inr ?_⟩
    · rw [abs_of_nonneg (by linarith)]
      exact le_trans (by norm_num) hq
    · rw [abs_of_nonneg (mul_nonneg (two_zpow_pos _).le (by linarith))]
      refine le_trans ?_ (mul_le_mul_of_nonneg_left hq (two_zpow_pos _).le)
      norm_num [zpow_neg]
  simp only [List.mem_cons, List.not_mem_nil, or_false] at he
  rcases he with rfl | rfl
  · exact key _ (by norm_num; linarith)
  · exact key _ (by norm_num; linarith)

/-- An `art` whose result is not its own negative. -/
example : artF ⟨true, true, true⟩ ⟨1, 1, 1, 1⟩ (oneRay 1) (fun _ => .fin 1) 1 (fun _ => .fin (1 / 4 : ℚ)) 0 ≠ .fin 0 := by
  decide +kernel

end Tomopy.Fl
