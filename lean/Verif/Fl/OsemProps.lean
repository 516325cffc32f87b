import Verif.Fl.OsemModel
import Verif.Iter.Os

/-!
# Signs, zeros and NaN in `osem`
-/

set_option linter.unusedSectionVars false

namespace Tomopy.Fl

open Function (update)
open Tomopy.Iter (Dims Segs Geom iterM subsets subsetProjs BlockArgs BlocksOk)

/-! ## Specification -/

/-- No entry is negative. -/
def NNmem (m : MemF) : Prop := ∀ i, F32.NN (m i)

/-- No length is negative. -/
def LenOk (g : Geom ℚ) : Prop := ∀ s p d, ∀ e ∈ g s p d, 0 ≤ e.2

/-! ## Invariants of the loops -/

theorem foldl_inv {α β : Type*} (f : β → α → β) (P : β → Prop) : ∀ (l : List α) (b : β),
    (∀ b a, a ∈ l → P b → P (f b a)) → P b → P (l.foldl f b) := by
  intro l
  induction l with
  | nil => intro b _ hb; exact hb
  | cons a l ih =>
    intro b h hb
    exact ih _ (fun b' a' ha' => h b' a' (List.mem_cons_of_mem _ ha')) (h b a (by simp) hb)

theorem NNmem.update {m : MemF} (h : NNmem m) {i : Nat} {v : F32} (hv : F32.NN v) :
    NNmem (update m i v) := by
  intro j
  by_cases e : j = i
  · subst e; rw [Function.update_self]; exact hv
  · rw [Function.update_of_ne e]; exact h j

theorem simF_nn {f : Bool} {D : Dims} {s p d : Nat} {ray : Segs ℚ} {model sd : MemF}
    (hl : ∀ e ∈ ray, 0 ≤ e.2) (hm : NNmem model) (hs : NNmem sd) :
    NNmem (simF f D s p d ray model sd) :=
  foldl_inv _ NNmem ray sd (fun _ e he hb => hb.update (F32.NN.mac (hm _) (hl e he) (hb _))) hs

theorem addLenF_nn {ray : Segs ℚ} {m : MemF} (hl : ∀ e ∈ ray, 0 ≤ e.2) (hm : NNmem m) :
    NNmem (addLenF ray m) :=
  foldl_inv _ NNmem ray m (fun _ e he hb => hb.update (F32.NN.add (hb _) (hl e he))) hm

theorem addUpdF_nn {f : Bool} {ray : Segs ℚ} {u : F32} {m : MemF} (hl : ∀ e ∈ ray, 0 ≤ e.2)
    (hu : F32.NN u) (hm : NNmem m) : NNmem (addUpdF f ray u m) :=
  foldl_inv _ NNmem ray m (fun _ e he hb => hb.update (F32.NN.mac hu (hl e he) (hb _))) hm

/-- All three arrays are not negative. -/
def AccF.NN (a : AccF) : Prop := NNmem a.sd ∧ NNmem a.sumd ∧ NNmem a.upd

theorem accRayF_nn {k : OMode} {D : Dims} {s p d : Nat} {ray : Segs ℚ} {data recon : MemF}
    {a : AccF} (hl : ∀ e ∈ ray, 0 ≤ e.2) (hd : NNmem data) (hr : NNmem recon) (ha : a.NN) :
    (accRayF k D s p d ray data recon a).NN := by
  obtain ⟨h1, h2, h3⟩ := ha
  have hs := simF_nn (f := k.sim) (D := D) (s := s) (p := p) (d := d) hl hr h1
  refine ⟨hs, addLenF_nn hl h2, ?_⟩
  show NNmem (if _ then _ else _)
  split
  · exact addUpdF_nn hl (F32.NN.div (hd _) (hs _)) h3
  · exact h3

theorem zero_nn : NNmem fun _ => F32.fin 0 := fun _ => le_refl (0 : ℚ)

theorem accBlockF_nn {k : OMode} {D : Dims} {g : Geom ℚ} {s : Nat} {ps : List Nat}
    {data recon sd : MemF} (hg : LenOk g) (hd : NNmem data) (hr : NNmem recon) (hs : NNmem sd) :
    (accBlockF k D g s ps data recon sd).NN :=
  foldl_inv _ AccF.NN ps _ (fun b p _ hb =>
    foldl_inv _ AccF.NN (List.range D.dx) b (fun _ d _ hb' => accRayF_nn (hg s p d) hd hr hb') hb)
    ⟨hs, zero_nn, zero_nn⟩

theorem finF_nn {D : Dims} {s : Nat} {a : AccF} {recon : MemF} (ha : a.NN) (hr : NNmem recon) :
    NNmem (finF D s a recon) := by
  refine foldl_inv _ NNmem (List.range D.N) recon (fun b n _ hb => ?_) hr
  split
  · exact hb.update (F32.NN.mul (hb _) (F32.NN.div (ha.2.2 n) (ha.2.1 n)))
  · exact hb

theorem finF_zn {D : Dims} {s : Nat} {a : AccF} {recon : MemF} {i : Nat} (h : F32.Zn (recon i)) :
    F32.Zn (finF D s a recon i) := by
  refine foldl_inv _ (fun r : MemF => F32.Zn (r i)) (List.range D.N) recon (fun b n _ hb => ?_) h
  split
  · by_cases e : i = n + s * D.N
    · subst e
      rw [Function.update_self]
      exact F32.Zn.mul hb
    · rw [Function.update_of_ne e]; exact hb
  · exact hb

theorem osIterF_nn {k : OMode} {D : Dims} {g : Geom ℚ} {data : MemF} {blocks : List (List Nat)}
    {recon : MemF} (hg : LenOk g) (hd : NNmem data) (hr : NNmem recon) :
    NNmem (osIterF k D g data blocks recon) := by
  have := foldl_inv (fun st s => blocks.foldl (osBlockF k D g data s) st)
    (fun st : MemF × MemF => NNmem st.1 ∧ NNmem st.2) (List.range D.dy) (recon, fun _ => .fin 0)
    (fun st s _ hst => foldl_inv _ (fun st : MemF × MemF => NNmem st.1 ∧ NNmem st.2) blocks st
      (fun st' ps _ hst' => by
        have ha := accBlockF_nn (k := k) (D := D) (s := s) (ps := ps) hg hd hst'.1 hst'.2
        exact ⟨finF_nn ha hst'.1, ha.1⟩) hst) ⟨hr, zero_nn⟩
  exact this.1

theorem osIterF_zn {k : OMode} {D : Dims} {g : Geom ℚ} {data : MemF} {blocks : List (List Nat)}
    {recon : MemF} {i : Nat} (h : F32.Zn (recon i)) :
    F32.Zn (osIterF k D g data blocks recon i) :=
  foldl_inv (fun st s => blocks.foldl (osBlockF k D g data s) st)
    (fun st : MemF × MemF => F32.Zn (st.1 i)) (List.range D.dy) (recon, fun _ => .fin 0)
    (fun st _ _ hst => foldl_inv _ (fun st : MemF × MemF => F32.Zn (st.1 i)) blocks st
      (fun _ _ _ hst' => finF_zn hst') hst) h

theorem osemF_inv (P : MemF → Prop) {k : OMode} {D : Dims} {g : Geom ℚ} {data : MemF}
    {num_iter nb : Nat} {ind : List Nat} {recon r' : MemF}
    (hstep : ∀ blocks r, P r → P (osIterF k D g data blocks r)) (hr : P recon)
    (h : osemF k D g data num_iter nb ind recon = some r') : P r' := by
  unfold osemF at h
  split at h
  · cases h; exact hr
  · split at h
    · exact absurd h (by simp)
    · rw [Option.map_eq_some_iff] at h
      obtain ⟨blocks, _, rfl⟩ := h
      clear * - hstep hr
      induction num_iter generalizing recon with
      | zero => exact hr
      | succ n ih => exact ih (hstep blocks recon hr)

/-! ## Theorems -/

/-- **In `float` arithmetic `osem` never produces a negative value** from data and an image
without negative values: every pixel of the result is a number `≥ 0`, `+∞` or NaN, for all
geometries, data, iterations, subsets and ways of compiling the multiply-adds. -/
theorem osemF_not_negative {k : OMode} {D : Dims} {g : Geom ℚ} {data : MemF} {num_iter nb : Nat}
    {ind : List Nat} {recon r' : MemF} (hg : LenOk g) (hd : NNmem data) (hr : NNmem recon)
    (h : osemF k D g data num_iter nb ind recon = some r') : NNmem r' :=
  osemF_inv NNmem (fun _ _ => osIterF_nn hg hd) hr h

/-- **A pixel that is zero stays zero or becomes NaN.** -/
theorem osemF_zero_stays {k : OMode} {D : Dims} {g : Geom ℚ} {data : MemF} {num_iter nb : Nat}
    {ind : List Nat} {recon r' : MemF} {i : Nat} (hr : F32.Zn (recon i))
    (h : osemF k D g data num_iter nb ind recon = some r') : F32.Zn (r' i) :=
  osemF_inv (fun r => F32.Zn (r i)) (fun _ _ => osIterF_zn) hr h

/-! ## A ray through pixels that are all zero -/

theorem foldl_has {α β : Type*} (f : β → α → β) (P Q : β → Prop) : ∀ (l : List α) (b : β) (a : α),
    a ∈ l → (∀ b x, x ∈ l → P b → P (f b x)) → (∀ b, P b → Q (f b a)) →
    (∀ b x, x ∈ l → P b → Q b → Q (f b x)) → P b → Q (l.foldl f b) := by
  intro l
  induction l with
  | nil => intro b a ha; simp at ha
  | cons x l ih =>
    intro b a ha hP hQ hk hb
    have hP' : ∀ b y, y ∈ l → P b → P (f b y) := fun b y hy => hP b y (List.mem_cons_of_mem _ hy)
    have hk' : ∀ b y, y ∈ l → P b → Q b → Q (f b y) :=
      fun b y hy => hk b y (List.mem_cons_of_mem _ hy)
    have hfb : P (f b x) := hP b x (by simp) hb
    rw [List.foldl_cons]
    rcases List.mem_cons.mp ha with rfl | ha
    · exact (foldl_inv f (fun b => P b ∧ Q b) l _
        (fun b y hy hpq => ⟨hP' b y hy hpq.1, hk' b y hy hpq.1 hpq.2⟩) ⟨hfb, hQ b hb⟩).2
    · exact ih _ a ha hP' hQ hk' hfb

/-- `float` numbers are fixed by rounding; a sum with a positive one is not zero. -/
theorem add_len_ne {a : F32} {l : ℚ} (ha : a.NN) (hl : 0 < l) (hfl : fl l = l) :
    F32.add a (.fin l) ≠ .fin 0 := by
  cases a with
  | fin q =>
    have hq : 0 ≤ q := ha
    simp only [F32.add, F32.round]
    split
    · intro h
      have h1 : fl (q + l) = 0 := F32.fin.inj h
      have h2 : fl l ≤ fl (q + l) := fl_mono (by linarith)
      rw [hfl, h1] at h2
      linarith
    · exact fun h => F32.noConfusion h
  | inf s => intro h; exact F32.noConfusion h
  | nan => intro h; exact F32.noConfusion h

theorem add_keep_ne {a : F32} {l : ℚ} (ha : a.NN) (h0 : a ≠ .fin 0) (hfa : ∀ q, a = .fin q → fl q = q)
    (hl : 0 ≤ l) : F32.add a (.fin l) ≠ .fin 0 := by
  cases a with
  | fin q =>
    have hq : 0 ≤ q := ha
    have hq0 : 0 < q := lt_of_le_of_ne hq (fun e => h0 (by rw [← e]))
    simp only [F32.add, F32.round]
    split
    · intro h
      have h1 : fl (q + l) = 0 := F32.fin.inj h
      have h2 : fl q ≤ fl (q + l) := fl_mono (by linarith)
      rw [hfa q rfl, h1] at h2
      linarith
    · exact fun h => F32.noConfusion h
  | inf s => intro h; exact F32.noConfusion h
  | nan => intro h; exact F32.noConfusion h

theorem fl_fl (x : ℚ) : fl (fl x) = fl x := by
  by_cases hx : fl x = 0
  · rw [hx, fl_zero]
  have h1 := abs_lt_ulp x
  have hp := two_zpow_pos (ulpExp x)
  refine fl_exact (rne (x / 2 ^ ulpExp x)) (ulpExp x) ?_ (ulp_ge x) rfl
  have hb : |x / 2 ^ ulpExp x| ≤ ((2 ^ 24 : ℤ) : ℚ) := by
    rw [abs_div, abs_of_pos hp, div_le_iff₀ hp]
    have : (2 : ℚ) ^ (ulpExp x + 24) = 2 ^ 24 * 2 ^ ulpExp x := by
      rw [pow_split, mul_comm]; norm_num
    rw [this] at h1
    push_cast
    exact h1.le
  rw [abs_le] at hb ⊢
  constructor
  · refine le_rne ?_
    push_cast
    push_cast at hb
    exact hb.1
  · exact rne_le hb.2

/-- Entries of `sum_dist` are `float` numbers. -/
def FlMem (m : MemF) : Prop := ∀ i q, m i = .fin q → fl q = q

theorem round_fl {x q : ℚ} (h : F32.round x = .fin q) : fl q = q := by
  unfold F32.round at h
  split at h
  · have := F32.fin.inj h; rw [← this, fl_fl]
  · exact F32.noConfusion h

theorem add_fl {a : F32} {l q : ℚ} (h : F32.add a (.fin l) = .fin q) : fl q = q := by
  cases a with
  | fin p => exact round_fl h
  | inf s => exact F32.noConfusion h
  | nan => exact F32.noConfusion h

theorem addLenF_fl {ray : Segs ℚ} {m : MemF} (h : FlMem m) : FlMem (addLenF ray m) := by
  refine foldl_inv _ FlMem ray m (fun b e _ hb => ?_) h
  intro i q hq
  by_cases he : i = e.1
  · subst he; rw [Function.update_self] at hq; exact add_fl hq
  · rw [Function.update_of_ne he] at hq; exact hb i q hq

/-- Invariant: `sum_dist` holds `float` numbers that are not negative. -/
def LenInv (m : MemF) : Prop := NNmem m ∧ FlMem m

theorem addLenF_inv {ray : Segs ℚ} {m : MemF} (hl : ∀ e ∈ ray, 0 ≤ e.2) (h : LenInv m) :
    LenInv (addLenF ray m) := ⟨addLenF_nn hl h.1, addLenF_fl h.2⟩

theorem LenInv.step {m : MemF} (h : LenInv m) {e : Nat × ℚ} (he : 0 ≤ e.2) :
    LenInv (update m e.1 (F32.add (m e.1) (.fin e.2))) :=
  ⟨h.1.update (F32.NN.add (h.1 _) he), by
    intro i q hq
    by_cases he : i = e.1
    · subst he; rw [Function.update_self] at hq; exact add_fl hq
    · rw [Function.update_of_ne he] at hq; exact h.2 i q hq⟩

theorem addLenF_keep {ray : Segs ℚ} {m : MemF} {n : Nat} (hl : ∀ e ∈ ray, 0 ≤ e.2) (h : LenInv m)
    (h0 : m n ≠ .fin 0) : addLenF ray m n ≠ .fin 0 := by
  refine (foldl_inv _ (fun m : MemF => LenInv m ∧ m n ≠ .fin 0) ray m (fun b e he hb => ?_) ⟨h, h0⟩).2
  refine ⟨hb.1.step (hl e he), ?_⟩
  by_cases hn : n = e.1
  · subst hn
    rw [Function.update_self]
    exact add_keep_ne (hb.1.1 _) hb.2 (hb.1.2 _) (hl e he)
  · rw [Function.update_of_ne hn]; exact hb.2

theorem addLenF_hit {ray : Segs ℚ} {m : MemF} {e : Nat × ℚ} (hl : ∀ e ∈ ray, 0 ≤ e.2)
    (h : LenInv m) (he : e ∈ ray) (hpos : 0 < e.2) (hfl : fl e.2 = e.2) :
    addLenF ray m e.1 ≠ .fin 0 := by
  refine foldl_has _ LenInv (fun m : MemF => m e.1 ≠ .fin 0) ray m e he
    (fun b x hx hb => hb.step (hl x hx)) (fun b hb => ?_) (fun b x hx hb h0 => ?_) h
  · rw [Function.update_self]
    exact add_len_ne (hb.1 _) hpos hfl
  · by_cases hn : e.1 = x.1
    · rw [hn, Function.update_self]
      rw [hn] at h0
      exact add_keep_ne (hb.1 _) h0 (hb.2 _) (hl x hx)
    · rw [Function.update_of_ne hn]; exact h0

theorem addUpdF_keep {f : Bool} {ray : Segs ℚ} {u : F32} {m : MemF} {n : Nat}
    (hl : ∀ e ∈ ray, 0 ≤ e.2) (hu : u.NN) (h0 : F32.Big (m n)) :
    F32.Big (addUpdF f ray u m n) := by
  refine foldl_inv _ (fun m : MemF => F32.Big (m n)) ray m (fun b e he hb => ?_) h0
  by_cases hn : n = e.1
  · subst hn
    rw [Function.update_self]
    exact F32.Big.mac hu (hl e he) hb
  · rw [Function.update_of_ne hn]; exact hb

theorem addUpdF_hit {f : Bool} {ray : Segs ℚ} {u : F32} {m : MemF} {e : Nat × ℚ}
    (hl : ∀ e ∈ ray, 0 ≤ e.2) (hu : u.NN) (hb : u.Big) (hm : NNmem m) (he : e ∈ ray)
    (hpos : 0 < e.2) : F32.Big (addUpdF f ray u m e.1) := by
  refine foldl_has _ NNmem (fun m : MemF => F32.Big (m e.1)) ray m e he
    (fun b x hx hb => hb.update (F32.NN.mac hu (hl x hx) (hb _))) (fun b hb' => ?_)
    (fun b x hx _ h0 => ?_) hm
  · rw [Function.update_self]
    exact F32.Big.mac_term hb hpos (hb' _)
  · by_cases hn : e.1 = x.1
    · rw [hn, Function.update_self]
      rw [hn] at h0
      exact F32.Big.mac hu (hl x hx) h0
    · rw [Function.update_of_ne hn]; exact h0

/-- A simulated value over zero pixels is zero (or NaN, if one of them is). -/
theorem simF_zero {f : Bool} {D : Dims} {s p d : Nat} {ray : Segs ℚ} {model sd : MemF}
    (hm : ∀ e ∈ ray, F32.Zn (model (e.1 + s * D.N))) (hs : F32.Zn (sd (D.data s p d))) :
    F32.Zn (simF f D s p d ray model sd (D.data s p d)) := by
  refine foldl_inv _ (fun sd : MemF => F32.Zn (sd (D.data s p d))) ray sd (fun b e he hb => ?_) hs
  rw [Function.update_self]
  exact F32.Zn.mac (hm e he) hb

theorem simF_other {f : Bool} {D : Dims} {s p d i : Nat} {ray : Segs ℚ} {model sd : MemF}
    (hi : i ≠ D.data s p d) : simF f D s p d ray model sd i = sd i := by
  refine foldl_inv _ (fun m : MemF => m i = sd i) ray sd (fun b e _ hb => ?_) rfl
  rw [Function.update_of_ne hi]; exact hb

theorem finF_apply (D : Dims) (s : Nat) (a : AccF) (r : MemF) {n : Nat} (hn : n < D.N) :
    finF D s a r (n + s * D.N) = if a.sumd n ≠ .fin 0 then
      F32.mul (r (n + s * D.N)) (F32.div (a.upd n) (a.sumd n)) else r (n + s * D.N) := by
  unfold finF
  suffices h : ∀ N : Nat, (List.range N).foldl (fun (r : MemF) n => if a.sumd n ≠ .fin 0 then
      update r (n + s * D.N) (F32.mul (r (n + s * D.N)) (F32.div (a.upd n) (a.sumd n))) else r) r
      (n + s * D.N) = if n < N ∧ a.sumd n ≠ .fin 0 then
      F32.mul (r (n + s * D.N)) (F32.div (a.upd n) (a.sumd n)) else r (n + s * D.N) by
    rw [h D.N]
    simp [hn]
  intro N
  induction N with
  | zero => simp
  | succ N ih =>
    rw [List.range_succ, List.foldl_append, List.foldl_cons, List.foldl_nil]
    by_cases hN : n = N
    · subst hN
      have ih' := ih
      rw [if_neg (by omega)] at ih'
      by_cases h0 : a.sumd n ≠ .fin 0
      · rw [if_pos h0, if_pos ⟨by omega, h0⟩, Function.update_self, ih']
      · rw [if_neg h0, if_neg (fun h => h0 h.2), ih']
    · have hlt : (n < N + 1 ∧ a.sumd n ≠ .fin 0) ↔ (n < N ∧ a.sumd n ≠ .fin 0) := by
        constructor
        · rintro ⟨h1, h2⟩; exact ⟨by omega, h2⟩
        · rintro ⟨h1, h2⟩; exact ⟨by omega, h2⟩
      rw [if_congr hlt rfl rfl, ← ih]
      split
      · rw [Function.update_of_ne (by omega)]
      · rfl

theorem finF_other (D : Dims) (s : Nat) (a : AccF) (r : MemF) {i : Nat}
    (hi : ∀ n < D.N, i ≠ n + s * D.N) : finF D s a r i = r i := by
  refine foldl_inv _ (fun m : MemF => m i = r i) (List.range D.N) r (fun b n hn hb => ?_) rfl
  split
  · rw [Function.update_of_ne (hi n (List.mem_range.mp hn))]; exact hb
  · exact hb

theorem osemF_blocks {k : OMode} {D : Dims} {g : Geom ℚ} {data : MemF} {num_iter nb : Nat}
    {ind : List Nat} (hb : BlockArgs D.dt nb ind) (recon : MemF) :
    ∃ blocks, BlocksOk D blocks ∧ (blocks.flatten.Perm (List.range D.dt)) ∧
      osemF k D g data num_iter nb ind recon =
        if D.dy = 0 ∨ D.dt = 0 ∨ D.dx = 0 then some recon
        else some ((osIterF k D g data blocks)^[num_iter] recon) := by
  rcases hb with h | ⟨h1, h2⟩
  · subst h
    refine ⟨_, Tomopy.Iter.blocksOk_single D, by simp, ?_⟩
    unfold osemF
    rw [Tomopy.Iter.blocks_single]
    rfl
  · refine ⟨_, Tomopy.Iter.blocksOk_perm h1 h2, (Tomopy.Iter.blocks_perm h1 h2).2.1, ?_⟩
    unfold osemF
    rw [(Tomopy.Iter.blocks_perm h1 h2).1, if_neg (by omega : ¬ nb = 0)]
    rfl

/-- `osem` returns a result for every valid block structure. -/
theorem osemF_defined {k : OMode} {D : Dims} {g : Geom ℚ} {data : MemF} {num_iter nb : Nat}
    {ind : List Nat} (hb : BlockArgs D.dt nb ind) (recon : MemF) :
    ∃ r', osemF k D g data num_iter nb ind recon = some r' := by
  obtain ⟨blocks, _, _, h⟩ := osemF_blocks (k := k) (g := g) (data := data) (num_iter := num_iter)
    hb recon
  rw [h]
  split
  · exact ⟨_, rfl⟩
  · exact ⟨_, rfl⟩

/-- What is known about a ray over zero pixels before a subset: images and `simdata` not negative,
the pixels and the simulated value of the ray zero or NaN. -/
structure ZeroRay (D : Dims) (s p d : Nat) (ray : Segs ℚ) (st : MemF × MemF) : Prop where
  im : NNmem st.1
  sd : NNmem st.2
  px : ∀ e ∈ ray, F32.Zn (st.1 (e.1 + s * D.N))
  sim : F32.Zn (st.2 (D.data s p d))

/-- The same inside a subset. -/
structure ZeroAcc (D : Dims) (s p d : Nat) (a : AccF) : Prop where
  nn : a.NN
  len : LenInv a.sumd
  sim : F32.Zn (a.sd (D.data s p d))

theorem accRayF_zeroAcc {k : OMode} {D : Dims} {g : Geom ℚ} {s p d s' p' d' : Nat}
    {data recon : MemF} {a : AccF} (hg : LenOk g) (hd : NNmem data) (hr : NNmem recon)
    (hp : p < D.dt) (hp' : p' < D.dt) (hdx : d < D.dx) (hdx' : d' < D.dx)
    (hz : ∀ e ∈ g s p d, F32.Zn (recon (e.1 + s * D.N))) (ha : ZeroAcc D s p d a) :
    ZeroAcc D s p d (accRayF k D s' p' d' (g s' p' d') data recon a) := by
  refine ⟨accRayF_nn (hg _ _ _) hd hr ha.nn, addLenF_inv (hg _ _ _) ha.len, ?_⟩
  show F32.Zn (simF _ _ _ _ _ _ _ _ _)
  by_cases e : D.data s p d = D.data s' p' d'
  · obtain ⟨rfl, rfl, rfl⟩ := Tomopy.Iter.data_inj hp hp' hdx hdx' e
    exact simF_zero hz ha.sim
  · rw [simF_other e]; exact ha.sim

theorem accRayF_hit {k : OMode} {D : Dims} {g : Geom ℚ} {s p d : Nat} {data recon : MemF} {a : AccF}
    (hg : LenOk g) (hd : NNmem data) (hr : NNmem recon)
    (hz : ∀ e ∈ g s p d, F32.Zn (recon (e.1 + s * D.N))) (hsq : sumSqF k.sq (g s p d) ≠ .fin 0)
    {e : Nat × ℚ} (he : e ∈ g s p d) (hpos : 0 < e.2) (hfl : fl e.2 = e.2)
    (ha : ZeroAcc D s p d a) :
    (accRayF k D s p d (g s p d) data recon a).sumd e.1 ≠ .fin 0 ∧
      F32.Big ((accRayF k D s p d (g s p d) data recon a).upd e.1) := by
  refine ⟨addLenF_hit (hg _ _ _) ha.len he hpos hfl, ?_⟩
  show F32.Big ((if _ then _ else _ : MemF) e.1)
  rw [if_pos hsq]
  have hs : F32.Zn (simF k.sim D s p d (g s p d) recon a.sd (D.data s p d)) := simF_zero hz ha.sim
  have hn := simF_nn (f := k.sim) (D := D) (s := s) (p := p) (d := d) (hg s p d) hr ha.nn.1
  exact addUpdF_hit (hg _ _ _) (F32.NN.div (hd _) (hn _)) (F32.Big.div_zn (hd _) hs) ha.nn.2.2 he hpos

theorem accRayF_keep {k : OMode} {D : Dims} {g : Geom ℚ} {s p d s' p' d' n : Nat} {data recon : MemF}
    {a : AccF} (hg : LenOk g) (hd : NNmem data) (hr : NNmem recon) (ha : ZeroAcc D s p d a)
    (h : a.sumd n ≠ .fin 0 ∧ F32.Big (a.upd n)) :
    (accRayF k D s' p' d' (g s' p' d') data recon a).sumd n ≠ .fin 0 ∧
      F32.Big ((accRayF k D s' p' d' (g s' p' d') data recon a).upd n) := by
  refine ⟨addLenF_keep (hg _ _ _) ha.len h.1, ?_⟩
  show F32.Big ((if _ then _ else _ : MemF) n)
  split
  · have hn := simF_nn (f := k.sim) (D := D) (s := s') (p := p') (d := d') (hg s' p' d') hr ha.nn.1
    exact addUpdF_keep (hg _ _ _) (F32.NN.div (hd _) (hn _)) h.2
  · exact h.2

theorem accBlockF_zeroAcc {k : OMode} {D : Dims} {g : Geom ℚ} {s p d s' : Nat} {ps : List Nat}
    {data : MemF} {st : MemF × MemF} (hg : LenOk g) (hd : NNmem data) (hp : p < D.dt)
    (hdx : d < D.dx) (hps : ∀ q ∈ ps, q < D.dt) (hst : ZeroRay D s p d (g s p d) st) :
    ZeroAcc D s p d (accBlockF k D g s' ps data st.1 st.2) :=
  foldl_inv _ (ZeroAcc D s p d) ps _ (fun a p' hp' ha =>
    foldl_inv _ (ZeroAcc D s p d) (List.range D.dx) a (fun a' d' hd' ha' =>
      accRayF_zeroAcc hg hd hst.im hp (hps p' hp') hdx (List.mem_range.mp hd') hst.px ha') ha)
    ⟨⟨hst.sd, zero_nn, zero_nn⟩, ⟨zero_nn, fun _ q hq => by
      have := F32.fin.inj hq; rw [← this, fl_zero]⟩, hst.sim⟩

theorem osBlockF_zeroRay {k : OMode} {D : Dims} {g : Geom ℚ} {s p d s' : Nat} {ps : List Nat}
    {data : MemF} {st : MemF × MemF} (hg : LenOk g) (hd : NNmem data) (hp : p < D.dt)
    (hdx : d < D.dx) (hps : ∀ q ∈ ps, q < D.dt) (hst : ZeroRay D s p d (g s p d) st) :
    ZeroRay D s p d (g s p d) (osBlockF k D g data s' st ps) := by
  have ha := accBlockF_zeroAcc (k := k) (s' := s') hg hd hp hdx hps hst
  exact ⟨finF_nn ha.nn hst.im, ha.nn.1, fun e he => finF_zn (hst.px e he), ha.sim⟩

theorem nan_stays {k : OMode} {D : Dims} {g : Geom ℚ} {s' i : Nat} {ps : List Nat} {data : MemF}
    {st : MemF × MemF} (h : st.1 i = .nan) : (osBlockF k D g data s' st ps).1 i = .nan := by
  refine foldl_inv _ (fun m : MemF => m i = .nan) (List.range D.N) st.1 (fun b n _ hb => ?_) h
  split
  · by_cases e : i = n + s' * D.N
    · subst e
      rw [Function.update_self, hb]
      rfl
    · rw [Function.update_of_ne e]; exact hb
  · exact hb

theorem osBlockF_hit {k : OMode} {D : Dims} {g : Geom ℚ} {s p d : Nat} {ps : List Nat}
    {data : MemF} {st : MemF × MemF} (hg : LenOk g) (hd : NNmem data) (hp : p ∈ ps)
    (hdx : d < D.dx) (hps : ∀ q ∈ ps, q < D.dt) (hsq : sumSqF k.sq (g s p d) ≠ .fin 0)
    {e : Nat × ℚ} (he : e ∈ g s p d) (heN : e.1 < D.N) (hpos : 0 < e.2) (hfl : fl e.2 = e.2)
    (hst : ZeroRay D s p d (g s p d) st) : (osBlockF k D g data s st ps).1 (e.1 + s * D.N) = .nan := by
  have ha := accBlockF_zeroAcc (k := k) (s' := s) hg hd (hps p hp) hdx hps hst
  have hit : (accBlockF k D g s ps data st.1 st.2).sumd e.1 ≠ .fin 0 ∧
      F32.Big ((accBlockF k D g s ps data st.1 st.2).upd e.1) := by
    have step : ∀ p' ∈ ps, ∀ d' ∈ List.range D.dx, ∀ a, ZeroAcc D s p d a →
        ZeroAcc D s p d (accRayF k D s p' d' (g s p' d') data st.1 a) := fun p' hp' d' hd' a ha' =>
      accRayF_zeroAcc hg hd hst.im (hps p hp) (hps p' hp') hdx (List.mem_range.mp hd') hst.px ha'
    refine foldl_has _ (ZeroAcc D s p d) (fun a : AccF => a.sumd e.1 ≠ .fin 0 ∧ F32.Big (a.upd e.1))
      ps _ p hp (fun a p' hp' ha' => foldl_inv _ (ZeroAcc D s p d) (List.range D.dx) a
        (fun a' d' hd' => step p' hp' d' hd' a') ha') (fun a ha' => ?_) (fun a p' hp' ha' hq => ?_) ?_
    · exact foldl_has _ (ZeroAcc D s p d) _ (List.range D.dx) a d (List.mem_range.mpr hdx)
        (fun a' d' hd' => step p hp d' hd' a')
        (fun a' ha'' => accRayF_hit hg hd hst.im hst.px hsq he hpos hfl ha'')
        (fun a' d' _ ha'' hq => accRayF_keep hg hd hst.im ha'' hq) ha'
    · exact (foldl_inv _ (fun a : AccF => ZeroAcc D s p d a ∧ a.sumd e.1 ≠ .fin 0 ∧ F32.Big (a.upd e.1))
        (List.range D.dx) a (fun a' d' hd' h => ⟨step p' hp' d' hd' a' h.1,
          accRayF_keep hg hd hst.im h.1 h.2⟩) ⟨ha', hq⟩).2
    · exact ⟨⟨hst.sd, zero_nn, zero_nn⟩, ⟨zero_nn, fun _ q hq => by
        have := F32.fin.inj hq; rw [← this, fl_zero]⟩, hst.sim⟩
  show finF _ _ _ _ _ = _
  rw [finF_apply D s _ _ heN, if_pos hit.1]
  exact F32.zn_mul_big (hst.px e he) (F32.Big.div hit.2 (ha.nn.2.1 _))

/-- **A ray that crosses only zero pixels turns all of them into NaN**: whatever its datum is (not
negative), after one or more iterations every pixel that the ray crosses is NaN. -/
theorem osemF_zero_ray_nan {k : OMode} {D : Dims} {g : Geom ℚ} {data : MemF} {num_iter nb : Nat}
    {ind : List Nat} {recon r' : MemF} (hg : LenOk g) (hd : NNmem data) (hr : NNmem recon)
    (hb : BlockArgs D.dt nb ind) {s p d : Nat} (hs : s < D.dy) (hp : p < D.dt) (hdx : d < D.dx)
    (hsq : sumSqF k.sq (g s p d) ≠ .fin 0) (hz : ∀ e ∈ g s p d, recon (e.1 + s * D.N) = .fin 0)
    (hit : 1 ≤ num_iter) (h : osemF k D g data num_iter nb ind recon = some r')
    {e : Nat × ℚ} (he : e ∈ g s p d) (heN : e.1 < D.N) (hpos : 0 < e.2) (hfl : fl e.2 = e.2) :
    r' (e.1 + s * D.N) = .nan := by
  obtain ⟨blocks, hbo, hperm, hrun⟩ := osemF_blocks (k := k) (g := g) (data := data)
    (num_iter := num_iter) hb recon
  rw [hrun, if_neg (by omega)] at h
  cases h
  obtain ⟨ps, hps, hpps⟩ := List.mem_flatten.mp (hperm.mem_iff.mpr (List.mem_range.mpr hp))
  have keepB : ∀ (s' : Nat) (l : List (List Nat)), (∀ qs ∈ l, qs ∈ blocks) → ∀ st : MemF × MemF,
      ZeroRay D s p d (g s p d) st →
      ZeroRay D s p d (g s p d) (l.foldl (osBlockF k D g data s') st) := fun s' l hl st hst =>
    foldl_inv _ (ZeroRay D s p d (g s p d)) l st
      (fun st' qs hqs h' => osBlockF_zeroRay hg hd hp hdx (hbo.lt qs (hl qs hqs)) h') hst
  have nanB : ∀ (s' : Nat) (st : MemF × MemF), st.1 (e.1 + s * D.N) = .nan →
      (blocks.foldl (osBlockF k D g data s') st).1 (e.1 + s * D.N) = .nan := fun s' st hst =>
    foldl_inv _ (fun st : MemF × MemF => st.1 (e.1 + s * D.N) = .nan) blocks st
      (fun _ _ _ h' => nan_stays h') hst
  have one : ∀ r : MemF, NNmem r → (∀ e ∈ g s p d, F32.Zn (r (e.1 + s * D.N))) →
      osIterF k D g data blocks r (e.1 + s * D.N) = .nan := by
    intro r hr hz
    refine foldl_has _ (ZeroRay D s p d (g s p d)) (fun st : MemF × MemF => st.1 (e.1 + s * D.N) = .nan)
      (List.range D.dy) (r, fun _ => .fin 0) s (List.mem_range.mpr hs)
      (fun st s' _ hst => keepB s' blocks (fun _ h => h) st hst) (fun st hst => ?_)
      (fun st s' _ _ hq => nanB s' st hq) ⟨hr, zero_nn, hz, rfl⟩
    exact foldl_has _ (ZeroRay D s p d (g s p d))
      (fun st : MemF × MemF => st.1 (e.1 + s * D.N) = .nan) blocks st ps hps
      (fun st' qs hqs h' => osBlockF_zeroRay hg hd hp hdx (hbo.lt qs hqs) h')
      (fun st' h' => osBlockF_hit hg hd hpps hdx (hbo.lt ps hps) hsq he heN hpos hfl h')
      (fun _ _ _ _ h' => nan_stays h') hst
  have hz0 : ∀ e ∈ g s p d, F32.Zn (recon (e.1 + s * D.N)) := fun e he => by rw [hz e he]; rfl
  obtain ⟨n, rfl⟩ : ∃ n, num_iter = n + 1 := ⟨num_iter - 1, by omega⟩
  clear hrun hit hz
  induction n generalizing recon with
  | zero => exact one recon hr hz0
  | succ n ih =>
    rw [Function.iterate_succ_apply]
    exact ih (osIterF_nn hg hd hr) (fun e he => osIterF_zn (hz0 e he))

/-! ## Overflow -/

/-- **Positive data and a positive image can give NaN without a zero anywhere**: the ratio of data
and simulated data overflows, the pixel becomes infinite in the first iteration and NaN in the
second (one pixel, one ray of length one). -/
theorem osemF_overflow_nan (k : OMode) :
    (mlemF k ⟨1, 1, 1, 1⟩ (fun _ _ _ => [(0, 1)]) (fun _ => .fin (2 ^ 100)) 1
      (fun _ => .fin (1 / 2 ^ 100))).map (· 0) = some (.inf false) ∧
    (mlemF k ⟨1, 1, 1, 1⟩ (fun _ _ _ => [(0, 1)]) (fun _ => .fin (2 ^ 100)) 2
      (fun _ => .fin (1 / 2 ^ 100))).map (· 0) = some .nan := by
  rcases k with ⟨a, b, c⟩
  cases a <;> cases b <;> cases c <;> decide +kernel

/-! ## Cases that meet the hypotheses -/

/-- Two pixels, two angles, one detector pixel: the first ray crosses pixel 0, the second both. -/
def exG : Geom ℚ := fun _ p _ => if p = 0 then [(0, 1)] else [(0, 1 / 2), (1, 3 / 2)]

example : LenOk exG := by
  intro s p d e he
  unfold exG at he
  split at he <;> simp at he
  · subst he; norm_num
  · rcases he with rfl | rfl <;> norm_num

example : BlockArgs 2 2 [1, 0] ∧ sumSqF false (exG 0 0 0) ≠ .fin 0 ∧ fl 1 = 1 := by
  refine ⟨Or.inr (by decide), by decide +kernel, by decide +kernel⟩

/-- With pixel 0 equal to zero: it becomes NaN, and the second subset carries the NaN into the
other pixel. -/
example : (osemF ⟨false, false, false⟩ ⟨1, 2, 1, 2⟩ exG (fun _ => .fin 1) 1 2 [0, 1]
      (fun i => if i = 0 then .fin 0 else .fin 1)).map (fun r => (r 0, r 1)) =
    some (.nan, .nan) := by decide +kernel

/-- A positive image stays positive here, and the zero of pixel 2 (crossed by no ray) stays. -/
example : (osemF ⟨true, false, false⟩ ⟨1, 2, 1, 3⟩ exG (fun _ => .fin 1) 1 1 [0]
      (fun i => if i = 2 then .fin 0 else .fin 1)).map (fun r => (r 0, r 1, r 2)) =
    some (.fin (fl (5 / 6)), .fin (1 / 2), .fin 0) := by decide +kernel

end Tomopy.Fl
