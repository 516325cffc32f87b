import Verif.Inpaint.Props
import Mathlib.Data.List.GetD

/-! Inpainting fills the mask (C27), further iterations (C59), window size (C60), Python layer
(C61), parallel passes (C26). -/
set_option linter.unusedSectionVars false

namespace Tomopy.Inpaint
open Tomopy.Num Tomopy.Par Tomopy.Corr

variable {K : Type} [LinearOrder K] [Field K] [IsStrictOrderedRing K]

/-! ### Kernels on data that is zero or in `[lo, hi]` -/

theorem mem_nz {vs : List K} {v : K} : v ∈ nz vs ↔ v ∈ vs ∧ v ≠ 0 := by
  unfold nz; simp

theorem sum_bounds {lo hi : K} (vs : List K) (h : ∀ v ∈ vs, lo ≤ v ∧ v ≤ hi) :
    lo * vs.length ≤ vs.sum ∧ vs.sum ≤ hi * vs.length := by
  induction vs with
  | nil => simp
  | cons v vs ih =>
    obtain ⟨h1, h2⟩ := ih fun x hx => h x (List.mem_cons_of_mem _ hx)
    obtain ⟨h3, h4⟩ := h v List.mem_cons_self
    simp only [List.sum_cons, List.length_cons]
    push_cast
    constructor <;> linarith

theorem wsum_bounds {lo hi : K} (ps : List (K × K)) (h : ∀ p ∈ ps, lo ≤ p.1 ∧ p.1 ≤ hi)
    (hw : ∀ p ∈ ps, 0 < p.2) :
    lo * (ps.map fun p => p.2).sum ≤ (ps.map fun p => p.1 * p.2).sum ∧
    (ps.map fun p => p.1 * p.2).sum ≤ hi * (ps.map fun p => p.2).sum ∧
    (ps ≠ [] → 0 < (ps.map fun p => p.2).sum) ∧ 0 ≤ (ps.map fun p => p.2).sum := by
  induction ps with
  | nil => simp
  | cons p ps ih =>
    obtain ⟨h1, h2, _, h4⟩ := ih (fun x hx => h x (List.mem_cons_of_mem _ hx))
      (fun x hx => hw x (List.mem_cons_of_mem _ hx))
    obtain ⟨h5, h6⟩ := h p List.mem_cons_self
    have h7 := hw p List.mem_cons_self
    have h8 := mul_le_mul_of_nonneg_right h5 h7.le
    have h9 := mul_le_mul_of_nonneg_right h6 h7.le
    simp only [List.map_cons, List.sum_cons]
    refine ⟨by linarith, by linarith, fun _ => by linarith, by linarith⟩

/-- Every value read is missing (0) or lies in `[lo, hi]`. -/
def Ranged (lo hi : K) (vs : List K) : Prop := ∀ v ∈ vs, v = 0 ∨ (lo ≤ v ∧ v ≤ hi)

theorem nz_ranged {lo hi : K} {vs : List K} (h : Ranged lo hi vs) :
    ∀ v ∈ nz vs, lo ≤ v ∧ v ≤ hi := by
  intro v hv
  obtain ⟨h1, h2⟩ := mem_nz.1 hv
  exact (h v h1).resolve_left h2

theorem smoothVal_spec {lo hi : K} {vs : List K} (h : Ranged lo hi vs) (hne : nz vs ≠ []) :
    ∃ v, smoothVal vs = .store v ∧ lo ≤ v ∧ v ≤ hi := by
  have hl : 0 < (nz vs).length := List.length_pos_of_ne_nil hne
  unfold smoothVal
  simp only
  rw [if_pos hl]
  obtain ⟨h1, h2⟩ := sum_bounds (nz vs) (nz_ranged h)
  have hc : (0 : K) < (nz vs).length := by exact_mod_cast hl
  exact ⟨_, rfl, (le_div_iff₀ hc).2 h1, (div_le_iff₀ hc).2 h2⟩

theorem randVal_spec {lo hi : K} {vs : List K} (r : Nat × Nat) (h : Ranged lo hi vs)
    (hne : nz vs ≠ []) : ∃ v, randVal r vs = .store v ∧ lo ≤ v ∧ v ≤ hi := by
  have hl : 0 < (nz vs).length := List.length_pos_of_ne_nil hne
  unfold randVal
  simp only
  rw [if_neg (by omega)]
  have hg : ∀ n, lo ≤ (nz vs).getD (n % (nz vs).length) 0 ∧
      (nz vs).getD (n % (nz vs).length) 0 ≤ hi := by
    intro n
    have : n % (nz vs).length < (nz vs).length := Nat.mod_lt _ hl
    rw [List.getD_eq_getElem _ _ this]
    exact nz_ranged h _ (List.getElem_mem _)
  obtain ⟨a1, a2⟩ := hg r.1
  obtain ⟨b1, b2⟩ := hg r.2
  exact ⟨_, rfl, by linarith, by linarith⟩

theorem median2Val_spec {lo hi : K} {vs : List K} (full : Nat) (h : Ranged lo hi vs)
    (hne : nz vs ≠ []) : ∃ v, median2Val full vs = .store v ∧ v ∈ nz vs ∧ lo ≤ v ∧ v ≤ hi := by
  have hl : 0 < (nz vs).length := List.length_pos_of_ne_nil hne
  unfold median2Val
  simp only
  rw [if_neg (by omega)]
  have hm : ∀ x, x ∈ sortL ((nz vs).take ((nz vs).length - 1)) ++
      (nz vs).drop ((nz vs).length - 1) → x ∈ nz vs := by
    intro x hx
    rcases List.mem_append.1 hx with hx | hx
    · exact List.mem_of_mem_take (mem_sortL.1 hx)
    · exact List.mem_of_mem_drop hx
  have hlen : (nz vs).length / 2 < (sortL ((nz vs).take ((nz vs).length - 1)) ++
      (nz vs).drop ((nz vs).length - 1)).length := by
    rw [List.length_append, length_sortL, List.length_take, List.length_drop]
    omega
  rw [List.getD_append _ _ _ _ hlen, List.getD_eq_getElem _ _ hlen]
  have := hm _ (List.getElem_mem hlen)
  exact ⟨_, rfl, this, nz_ranged h _ this⟩

theorem meanVal_spec {lo hi : K} {vs ws : List K} (h : Ranged lo hi vs)
    (hw : ∀ w ∈ ws, 0 < w) (hlen : vs.length = ws.length) (hne : nz vs ≠ []) :
    ∃ v, meanVal ws vs = .store v ∧ lo ≤ v ∧ v ≤ hi := by
  have hps : (vs.zip ws).filter (fun p => p.1 ≠ 0) ≠ [] := by
    intro he
    obtain ⟨v, hv⟩ := List.exists_mem_of_ne_nil _ hne
    obtain ⟨h1, h2⟩ := mem_nz.1 hv
    obtain ⟨i, hi, rfl⟩ := List.mem_iff_getElem.1 h1
    have : (vs[i], ws[i]'(by omega)) ∈ (vs.zip ws).filter (fun p => p.1 ≠ 0) := by
      rw [List.mem_filter]
      refine ⟨List.mem_iff_getElem.2 ⟨i, by simp; omega, by simp⟩, by simpa using h2⟩
    rw [he] at this
    cases this
  unfold meanVal
  simp only
  rw [if_pos (List.length_pos_of_ne_nil hps)]
  obtain ⟨h1, h2, h3, _⟩ := wsum_bounds (lo := lo) (hi := hi)
    ((vs.zip ws).filter fun p => p.1 ≠ 0)
    (fun p hp => by
      obtain ⟨hm, hz⟩ := List.mem_filter.1 hp
      exact (h p.1 (List.of_mem_zip hm).1).resolve_left (by simpa using hz))
    (fun p hp => hw p.2 (List.of_mem_zip (List.mem_filter.1 hp).1).2)
  have h4 := h3 hps
  exact ⟨_, rfl, (le_div_iff₀ h4).2 h1, (div_le_iff₀ h4).2 h2⟩

/-- What filling needs of a kernel: a voxel is filled exactly when a value is known in the close
vicinity, and then with a value in the range of the known ones. -/
structure Kernel.Fills (k : Kernel K) (g : Geo) (lo hi : K) : Prop where
  clear : k.clear = true
  store : ∀ (out : Nat → K), (∀ a < g.N, out a = 0 ∨ (lo ≤ out a ∧ out a ≤ hi)) →
    ∀ a < g.N, (∃ b ∈ g.near a, out b ≠ 0) → ∃ v, k.vox out a = .store v ∧ lo ≤ v ∧ v ≤ hi
  keep : ∀ (out : Nat → K) (a : Nat), a < g.N → (∀ b ∈ g.near a, out b = 0) →
    k.vox out a = .keep

theorem nz_map_ne {out : Nat → K} {l : List Nat} (h : ∃ b ∈ l, out b ≠ 0) :
    nz (l.map out) ≠ [] := by
  obtain ⟨b, hb, hne⟩ := h
  have : out b ∈ nz (l.map out) := mem_nz.2 ⟨List.mem_map_of_mem hb, hne⟩
  exact List.ne_nil_of_mem this

theorem nz_map_nil {out : Nat → K} {l : List Nat} (h : ∀ b ∈ l, out b = 0) :
    nz (l.map out) = [] := by
  unfold nz
  rw [List.filter_eq_nil_iff]
  intro v hv
  obtain ⟨b, hb, rfl⟩ := List.mem_map.1 hv
  simp [h b hb]

theorem sum_pos_of_pos (l : List K) (h : ∀ v ∈ l, 0 < v) (hne : l ≠ []) : 0 < l.sum := by
  induction l with
  | nil => exact absurd rfl hne
  | cons v l ih =>
    have h1 := h v List.mem_cons_self
    rw [List.sum_cons]
    by_cases hl : l = []
    · subst hl; simpa using h1
    · have := ih (fun x hx => h x (List.mem_cons_of_mem _ hx)) hl
      linarith

/-- The kernels that satisfy `Fills`: all except the 3D median. -/
theorem kernel_fills (g : Geo) (hg : g.Ok) (w : Nat → K) (hw : ∀ c < g.full, 0 < w c)
    (rnd : Nat → Nat × Nat) (meth : Method) (hm : meth = .median → g.twoD = true) (lo hi : K)
    (hlo : 0 < lo) : (kernel g w rnd meth).Fills g lo hi where
  clear := by cases meth <;> rfl
  store := by
    intro out hr a ha hb
    have hrn : Ranged lo hi ((g.near a).map out) := by
      intro v hv
      obtain ⟨b, hb, rfl⟩ := List.mem_map.1 hv
      exact hr b (hg.near_lt a ha b hb)
    have hrw : Ranged lo hi (((g.win a).map Prod.fst).map out) := by
      intro v hv
      obtain ⟨b, hb, rfl⟩ := List.mem_map.1 hv
      obtain ⟨p, hp, rfl⟩ := List.mem_map.1 hb
      exact hr _ (hg.win_lt a ha p hp)
    have hnw : nz (((g.win a).map Prod.fst).map out) ≠ [] := by
      obtain ⟨b, hb, hne⟩ := hb
      exact nz_map_ne ⟨b, hg.near_win a ha b hb, hne⟩
    have hsum : (nz ((g.near a).map out)).sum ≠ 0 :=
      (sum_pos_of_pos _ (fun v hv => lt_of_lt_of_le hlo (nz_ranged hrn v hv).1)
        (nz_map_ne hb)).ne'
    cases meth with
    | mean =>
      unfold Kernel.vox kernel
      simp only
      rw [if_pos]
      · refine meanVal_spec hrw ?_ (by simp) hnw
        intro x hx
        obtain ⟨p, hp, rfl⟩ := List.mem_map.1 hx
        exact hw _ (hg.cnt_lt a ha p hp)
      · obtain ⟨b, hb, hne⟩ := hb
        rw [List.any_eq_true]
        exact ⟨out b, List.mem_map_of_mem hb, by simpa using hne⟩
    | median =>
      unfold Kernel.vox kernel
      simp only
      rw [if_pos (by simpa using hsum), if_pos (hm rfl)]
      obtain ⟨v, h1, _, h2⟩ := median2Val_spec g.full hrw hnw
      exact ⟨v, h1, h2⟩
    | random =>
      unfold Kernel.vox kernel
      simp only
      rw [if_pos (by simpa using hsum)]
      exact randVal_spec _ hrw hnw
  keep := by
    intro out a ha hz
    have hn := nz_map_nil hz
    cases meth with
    | mean =>
      unfold Kernel.vox kernel
      simp only
      rw [if_neg]
      intro h
      rw [List.any_eq_true] at h
      obtain ⟨v, hv, hne⟩ := h
      obtain ⟨b, hb, rfl⟩ := List.mem_map.1 hv
      simp [hz b hb] at hne
    | median => unfold Kernel.vox kernel; simp [hn]
    | random => unfold Kernel.vox kernel; simp [hn]

/-! ### The filling loop -/

/-- Masked voxels are zero, the others lie in `[lo, hi]`; `Updated` agrees with `Output`. -/
def FillInv (N : Nat) (lo hi : K) (s : St K) : Prop :=
  ∀ a < N, s.upd a = s.out a ∧ (s.msk a = true → s.out a = 0) ∧
    (s.msk a = false → lo ≤ s.out a ∧ s.out a ≤ hi)

theorem fillInv_ranged {N : Nat} {lo hi : K} {s : St K} (h : FillInv N lo hi s) :
    ∀ a < N, s.out a = 0 ∨ (lo ≤ s.out a ∧ s.out a ≤ hi) := by
  intro a ha
  obtain ⟨_, h1, h2⟩ := h a ha
  cases hm : s.msk a
  · exact Or.inr (h2 hm)
  · exact Or.inl (h1 hm)

theorem vox_cases (g : Geo) (k : Kernel K) (lo hi : K) (hk : k.Fills g lo hi)
    (out : Nat → K) (hr : ∀ a < g.N, out a = 0 ∨ (lo ≤ out a ∧ out a ≤ hi)) (a : Nat)
    (ha : a < g.N) :
    (k.vox out a = .keep ∧ ∀ b ∈ g.near a, out b = 0) ∨
    (∃ v, k.vox out a = .store v ∧ lo ≤ v ∧ v ≤ hi) := by
  by_cases hb : ∃ b ∈ g.near a, out b ≠ 0
  · exact Or.inr (hk.store out hr a ha hb)
  · push Not at hb
    exact Or.inl ⟨hk.keep out a ha hb, hb⟩

theorem pass_eq_some (N : Nat) (k : Kernel K) (s : St K)
    (h : ∀ a < N, s.msk a = true → k.vox s.out a ≠ .crash) :
    pass N k s = some ⟨fun a => if a < N then k.upd' s a else s.upd a,
      fun a => if a < N then k.upd' s a else s.upd a,
      fun a => if a < N then k.msk' s a else s.msk a⟩ := by
  unfold pass
  rw [if_neg]
  intro hc
  rw [List.any_eq_true] at hc
  obtain ⟨a, ha, hb⟩ := hc
  unfold Kernel.crashes at hb
  cases hm : s.msk a with
  | false => rw [hm] at hb; simp at hb
  | true =>
    cases hv : k.vox s.out a with
    | keep => rw [hm, hv] at hb; simp at hb
    | store v => rw [hm, hv] at hb; simp at hb
    | crash => exact h a (List.mem_range.1 ha) hm hv

theorem countMask_lt (N : Nat) (m m' : Nat → Bool) (h : ∀ a < N, m' a = true → m a = true)
    (b : Nat) (hb : b < N) (h1 : m b = true) (h2 : m' b = false) :
    countMask N m' < countMask N m := by
  unfold countMask
  induction N with
  | zero => omega
  | succ n ih =>
    have mono : ∀ n', (∀ a < n', m' a = true → m a = true) →
        ((List.range n').filter fun a => m' a).length
          ≤ ((List.range n').filter fun a => m a).length := by
      intro n' hn'
      rw [← List.countP_eq_length_filter, ← List.countP_eq_length_filter]
      exact List.countP_mono_left fun a ha he => hn' a (List.mem_range.1 ha) he
    rw [List.range_succ, List.filter_append, List.filter_append, List.length_append,
      List.length_append]
    by_cases hbn : b = n
    · subst hbn
      have := mono b fun a ha => h a (by omega)
      simp [h1, h2]
      omega
    · have := ih (fun a ha => h a (by omega)) (by omega)
      have h3 : ([n].filter fun a => m' a).length ≤ ([n].filter fun a => m a).length := by
        cases hm' : m' n
        · simp [hm']
        · simp [hm', h n (by omega) hm']
      omega

theorem pass_fill (g : Geo) (hg : g.Ok) (k : Kernel K) (lo hi : K) (hlo : 0 < lo)
    (hk : k.Fills g lo hi) (s : St K) (hs : FillInv g.N lo hi s)
    (hex : ∃ a < g.N, s.msk a = false) :
    ∃ s', pass g.N k s = some s' ∧ FillInv g.N lo hi s' ∧ (∃ a < g.N, s'.msk a = false) ∧
      (0 < countMask g.N s.msk → countMask g.N s'.msk < countMask g.N s.msk) := by
  have hr := fillInv_ranged hs
  have hp := pass_eq_some g.N k s (fun a ha _ hc => by
    rcases vox_cases g k lo hi hk s.out hr a ha with ⟨h, _⟩ | ⟨v, h, _⟩ <;> rw [h] at hc <;> cases hc)
  refine ⟨_, hp, ?_, ?_, ?_⟩
  · intro a ha
    simp only [if_pos ha]
    refine ⟨trivial, ?_, ?_⟩
    · intro hm
      unfold Kernel.msk' at hm
      unfold Kernel.upd'
      simp only [Bool.and_eq_true] at hm
      rw [if_pos hm.1]
      rcases vox_cases g k lo hi hk s.out hr a ha with ⟨h, _⟩ | ⟨v, h, _⟩
      · rw [h]
        simp only
        rw [(hs a ha).1]
        exact (hs a ha).2.1 hm.1
      · rw [h, hk.clear] at hm
        simp at hm
    · intro hm
      unfold Kernel.msk' at hm
      unfold Kernel.upd'
      cases hma : s.msk a with
      | false =>
        simp only [Bool.false_eq_true, if_false]
        rw [(hs a ha).1]
        exact (hs a ha).2.2 hma
      | true =>
        rw [hma] at hm
        rcases vox_cases g k lo hi hk s.out hr a ha with ⟨h, _⟩ | ⟨v, h, hv⟩
        · rw [h] at hm; simp at hm
        · rw [h]; simpa using hv
  · obtain ⟨a, ha, hm⟩ := hex
    exact ⟨a, ha, by simp [Kernel.msk', hm]⟩
  · intro hpos
    have hmasked : ∃ b < g.N, s.msk b = true := by
      by_contra hc
      push Not at hc
      have := (countMask_eq_zero g.N s.msk).2 fun a ha => by simpa using hc a ha
      omega
    obtain ⟨b, hb, hmb, hnear⟩ : ∃ b < g.N, s.msk b = true ∧ ∃ c ∈ g.near b, s.msk c = false := by
      by_contra hc
      push Not at hc
      have hall := hg.connected (fun a => s.msk a = true) hmasked
        (fun a ha hm c hcn => by simpa using hc a ha hm c hcn)
      obtain ⟨a, ha, hm⟩ := hex
      rw [hall a ha] at hm
      cases hm
    obtain ⟨c, hc, hmc⟩ := hnear
    have hcN := hg.near_lt b hb c hc
    have hne : s.out c ≠ 0 := (lt_of_lt_of_le hlo ((hs c hcN).2.2 hmc).1).ne'
    obtain ⟨v, hv, _⟩ := hk.store s.out hr b hb ⟨c, hc, hne⟩
    refine countMask_lt g.N s.msk _ ?_ b hb hmb ?_
    · intro a ha hm
      simp only [if_pos ha] at hm
      unfold Kernel.msk' at hm
      simp only [Bool.and_eq_true] at hm
      exact hm.1
    · simp only [if_pos hb]
      unfold Kernel.msk'
      rw [hv, hk.clear]
      simp

theorem fillLoop_fills (g : Geo) (hg : g.Ok) (ker : Nat → Kernel K) (lo hi : K) (hlo : 0 < lo)
    (hk : ∀ l, (ker l).Fills g lo hi) (fuel : Nat) :
    ∀ (l : Nat) (s : St K), FillInv g.N lo hi s → (∃ a < g.N, s.msk a = false) →
      countMask g.N s.msk ≤ fuel →
      ∃ s', fillLoop g.N ker fuel l s = some s' ∧ FillInv g.N lo hi s' ∧
        ∀ a < g.N, s'.msk a = false := by
  induction fuel with
  | zero =>
    intro l s hs _ hc
    exact ⟨s, rfl, hs, (countMask_eq_zero g.N s.msk).1 (by omega)⟩
  | succ n ih =>
    intro l s hs hex hc
    obtain ⟨s', hp, hs', hex', hdec⟩ := pass_fill g hg (ker l) lo hi hlo (hk l) s hs hex
    rw [fillLoop, hp]
    simp only
    split
    · rename_i h0
      exact ⟨s', rfl, hs', (countMask_eq_zero g.N s'.msk).1 h0⟩
    · rename_i h0
      refine ih (l + 1) s' hs' hex' ?_
      rcases Nat.eq_zero_or_pos (countMask g.N s.msk) with h | h
      · -- already empty: the pass cannot add to the mask
        exfalso
        apply h0
        rw [countMask_eq_zero] at h ⊢
        intro a ha
        have hpe := pass_eq_some g.N (ker l) s (fun a ha hm => by rw [h a ha] at hm; cases hm)
        rw [hp] at hpe
        cases hpe
        simp [Kernel.msk', h a ha]
      · have := hdec h
        omega

/-! ### After filling -/

/-- Everything lies in `[lo, hi]`, `Updated` agrees with `Output`. -/
def AllIn (N : Nat) (lo hi : K) (s : St K) : Prop :=
  ∀ a < N, s.upd a = s.out a ∧ lo ≤ s.out a ∧ s.out a ≤ hi

/-- A pass over completely filled data: every masked voxel gets a value in range. -/
theorem pass_all (g : Geo) (k : Kernel K) (lo hi : K) (s : St K) (hs : AllIn g.N lo hi s)
    (hst : ∀ a < g.N, ∃ v, k.vox s.out a = .store v ∧ lo ≤ v ∧ v ≤ hi) :
    ∃ s', pass g.N k s = some s' ∧ AllIn g.N lo hi s' ∧
      (k.clear = true → ∀ a < g.N, s'.msk a = false) ∧ s'.out = s'.upd := by
  have hp := pass_eq_some g.N k s (fun a ha _ hc => by
    obtain ⟨v, h, _⟩ := hst a ha
    rw [h] at hc; cases hc)
  refine ⟨_, hp, ?_, ?_, rfl⟩
  · intro a ha
    simp only [if_pos ha]
    refine ⟨trivial, ?_⟩
    unfold Kernel.upd'
    split
    · obtain ⟨v, h, h2⟩ := hst a ha
      rw [h]; exact h2
    · rw [(hs a ha).1]; exact (hs a ha).2
  · intro hc a ha
    simp only [if_pos ha]
    unfold Kernel.msk'
    obtain ⟨v, h, h2⟩ := hst a ha
    rw [h, hc]
    simp

theorem allIn_store (g : Geo) (hg : g.Ok) (k : Kernel K) (lo hi : K) (hlo : 0 < lo)
    (hk : k.Fills g lo hi) (s : St K) (hs : AllIn g.N lo hi s) :
    ∀ a < g.N, ∃ v, k.vox s.out a = .store v ∧ lo ≤ v ∧ v ≤ hi := by
  intro a ha
  exact hk.store s.out (fun b hb => Or.inr (hs b hb).2) a ha
    ⟨a, hg.self a ha, (lt_of_lt_of_le hlo (hs a ha).2.1).ne'⟩

theorem smooth_store (g : Geo) (hg : g.Ok) (lo hi : K) (hlo : 0 < lo) (s : St K)
    (hs : AllIn g.N lo hi s) :
    ∀ a < g.N, ∃ v, (smoothKernel g).vox s.out a = .store v ∧ lo ≤ v ∧ v ≤ hi := by
  intro a ha
  unfold Kernel.vox smoothKernel
  simp only [if_true]
  refine smoothVal_spec ?_ (nz_map_ne ⟨a, hg.self a ha, (lt_of_lt_of_le hlo (hs a ha).2.1).ne'⟩)
  intro v hv
  obtain ⟨b, hb, rfl⟩ := List.mem_map.1 hv
  exact Or.inr (hs b (hg.near_lt a ha b hb)).2

theorem allIn_mask {N : Nat} {lo hi : K} {s : St K} (h : AllIn N lo hi s) (m : Nat → Bool) :
    AllIn N lo hi { s with msk := m } := h

theorem iterLoop_all (g : Geo) (hg : g.Ok) (ker : Nat → Kernel K) (lo hi : K) (hlo : 0 < lo)
    (hk : ∀ l, (ker l).Fills g lo hi) (n : Nat) :
    ∀ (l : Nat) (s : St K), AllIn g.N lo hi s →
      ∃ s', iterLoop g.N ker n l s = some s' ∧ AllIn g.N lo hi s' := by
  induction n with
  | zero => intro l s hs; exact ⟨s, rfl, hs⟩
  | succ n ih =>
    intro l s hs
    obtain ⟨s', hp, hs', _⟩ := pass_all g (ker l) lo hi s hs
      (allIn_store g hg (ker l) lo hi hlo (hk l) s hs)
    rw [iterLoop, hp]
    exact ih (l + 1) s' hs'

theorem smoothIf_all (g : Geo) (hg : g.Ok) (meth : Method) (mask : Nat → Bool) (lo hi : K)
    (hlo : 0 < lo) (s : St K) (hs : AllIn g.N lo hi s) :
    ∃ s', smoothIf g meth mask s = some s' ∧ AllIn g.N lo hi s' := by
  unfold smoothIf
  split
  · obtain ⟨s', hp, hs', _⟩ := pass_all g (smoothKernel g) lo hi { s with msk := mask }
      (allIn_mask hs mask) (smooth_store g hg lo hi hlo _ (allIn_mask hs mask))
    exact ⟨s', hp, hs'⟩
  · exact ⟨s, rfl, hs⟩

/-- The state after the first stage, common to all iteration counts. -/
theorem stage_one (g : Geo) (hg : g.Ok) (w : Nat → K) (hw : ∀ c < g.full, 0 < w c)
    (meth : Method) (hm : meth = .median → g.twoD = true) (rnd : Nat → Nat → Nat × Nat)
    (input : Nat → K) (mask : Nat → Bool) (lo hi : K) (hlo : 0 < lo)
    (hin : ∀ a < g.N, mask a = false → lo ≤ input a ∧ input a ≤ hi)
    (hex : ∃ a < g.N, mask a = false) :
    ∃ s1 s2, fillLoop g.N (fun l => kernel g w (rnd l) meth) (countMask g.N mask) 0
        ⟨fun a => if a < g.N ∧ mask a then 0 else input a,
          fun a => if a < g.N ∧ mask a then 0 else input a, mask⟩ = some s1 ∧
      smoothIf g meth mask s1 = some s2 ∧ AllIn g.N lo hi s2 := by
  have hk : ∀ l, (kernel g w (rnd l) meth).Fills g lo hi := fun l =>
    kernel_fills g hg w hw (rnd l) meth hm lo hi hlo
  obtain ⟨s1, h1, hI, hM⟩ := fillLoop_fills g hg (fun l => kernel g w (rnd l) meth) lo hi hlo hk
    (countMask g.N mask) 0
    (⟨fun a => if a < g.N ∧ mask a then 0 else input a,
      fun a => if a < g.N ∧ mask a then 0 else input a, mask⟩ : St K)
    (fun a ha => ⟨rfl, fun h => by simp only at h ⊢; rw [if_pos ⟨ha, h⟩], fun h => by
      simp only at h ⊢
      rw [if_neg (by rw [h]; simp)]
      exact hin a ha h⟩)
    hex (le_refl _)
  have hA : AllIn g.N lo hi s1 := fun a ha => ⟨(hI a ha).1, (hI a ha).2.2 (hM a ha)⟩
  obtain ⟨s2, h2, hA2⟩ := smoothIf_all g hg meth mask lo hi hlo s1 hA
  exact ⟨s1, s2, h1, h2, hA2⟩

theorem inpaint_general (g : Geo) (hg : g.Ok) (w : Nat → K) (hw : ∀ c < g.full, 0 < w c)
    (meth : Method) (hm : meth = .median → g.twoD = true) (iterations : Nat)
    (rnd : Nat → Nat → Nat × Nat) (input : Nat → K) (mask : Nat → Bool) (lo hi : K)
    (hlo : 0 < lo) (hin : ∀ a < g.N, mask a = false → lo ≤ input a ∧ input a ≤ hi)
    (hex : ∃ a < g.N, mask a = false) :
    ∃ out, inpaint g w meth iterations rnd input mask = some out ∧
      ∀ a < g.N, lo ≤ out a ∧ out a ≤ hi := by
  have hk : ∀ l, (kernel g w (rnd l) meth).Fills g lo hi := fun l =>
    kernel_fills g hg w hw (rnd l) meth hm lo hi hlo
  obtain ⟨s1, s2, h1, h2, hA2⟩ := stage_one g hg w hw meth hm rnd input mask lo hi hlo hin hex
  by_cases h0 : countMask g.N mask = 0
  · obtain ⟨out, ho, hv⟩ := inpaint_empty_mask g w meth iterations rnd input mask
      ((countMask_eq_zero g.N mask).1 h0)
    refine ⟨out, ho, fun a ha => ?_⟩
    rw [hv a ha]
    exact hin a ha ((countMask_eq_zero g.N mask).1 h0 a ha)
  · unfold inpaint
    simp only
    rw [if_neg h0, h1]
    simp only
    rw [h2]
    simp only
    split
    · obtain ⟨s3, h3, hA3⟩ := iterLoop_all g hg (fun l => kernel g w (rnd l) meth) lo hi hlo hk
        iterations (countMask g.N mask) { s2 with msk := mask } (allIn_mask hA2 mask)
      rw [h3]
      simp only
      obtain ⟨s4, h4, hA4⟩ := smoothIf_all g hg meth mask lo hi hlo s3 hA3
      rw [h4]
      exact ⟨_, rfl, fun a ha => (hA4 a ha).2⟩
    · exact ⟨_, rfl, fun a ha => (hA2 a ha).2⟩

/-- **C27 (partial)** 2D, methods 'mean', 'median' and 'random', window half size ≥ 1: positive
data outside the mask and one unmasked pixel suffice for the algorithm to terminate with every
masked pixel filled, by a value in the range `[lo, hi]` of the known data.  (The "median" is in
general not a median, see `median2_not_median`.) -/
theorem inpaint_fills_2d_partial (dX dY hw : Nat) (hhw : 1 ≤ hw) (w : Nat → K)
    (hw' : ∀ c < (2 * hw + 1) ^ 2, 0 < w c) (meth : Method) (iterations : Nat)
    (rnd : Nat → Nat → Nat × Nat) (input : Nat → K) (mask : Nat → Bool) (lo hi : K)
    (hlo : 0 < lo) (hin : ∀ a < dX * dY, mask a = false → lo ≤ input a ∧ input a ≤ hi)
    (hex : ∃ a < dX * dY, mask a = false) :
    ∃ out, inpaint (geo2 dX dY hw) w meth iterations rnd input mask = some out ∧
      ∀ a < dX * dY, lo ≤ out a ∧ out a ≤ hi :=
  inpaint_general (geo2 dX dY hw) (geo2_ok dX dY hw hhw) w hw' meth (fun _ => rfl) iterations rnd
    input mask lo hi hlo hin hex

/-- **C27 (partial)** 3D, methods 'mean' and 'random'.  Missing: 'median', for which the claim is
false (`median3_leaves_hole`). -/
theorem inpaint_fills_3d_partial (dX dY dZ hw : Nat) (hhw : 1 ≤ hw) (w : Nat → K)
    (hw' : ∀ c < (2 * hw + 1) ^ 3, 0 < w c) (meth : Method) (hm : meth ≠ .median)
    (iterations : Nat) (rnd : Nat → Nat → Nat × Nat) (input : Nat → K) (mask : Nat → Bool)
    (lo hi : K) (hlo : 0 < lo)
    (hin : ∀ a < dX * dY * dZ, mask a = false → lo ≤ input a ∧ input a ≤ hi)
    (hex : ∃ a < dX * dY * dZ, mask a = false) :
    ∃ out, inpaint (geo3 dX dY dZ hw) w meth iterations rnd input mask = some out ∧
      ∀ a < dX * dY * dZ, lo ≤ out a ∧ out a ≤ hi :=
  inpaint_general (geo3 dX dY dZ hw) (geo3_ok dX dY dZ hw hhw) w hw' meth
    (fun h => absurd h hm) iterations rnd input mask lo hi hlo hin hex

/-- The hypothesis on the weights is met by the Gaussian weights of the code. -/
theorem gauss_pos (dX dY dZ hw : Nat) :
    (∀ c < (2 * hw + 1) ^ 2, 0 < gauss (geo2 dX dY hw) hw c) ∧
    (∀ c < (2 * hw + 1) ^ 3, 0 < gauss (geo3 dX dY dZ hw) hw c) := by
  constructor
  · intro c hc
    rw [← length_offs2] at hc
    unfold gauss
    simp only [geo2, if_true]
    rw [List.getElem?_eq_getElem hc]
    exact Real.exp_pos _
  · intro c hc
    rw [← length_offs3] at hc
    unfold gauss
    simp only [geo3, Bool.false_eq_true, if_false]
    rw [List.getElem?_eq_getElem hc]
    exact Real.exp_pos _

/-- result of `inpaint` at one address, for the concrete checks -/
def outAt (r : Option (Nat → ℚ)) (a : Nat) : Option ℚ := r.map fun f => f a

example : outAt (inpaint (geo2 3 1 1) (fun _ => 1) .mean 0 (fun _ _ => (0, 0))
    (fun a => if a = 0 then 4 else 7) (fun a => a ≠ 0)) 2 = some 4 := by decide +kernel

/-- **C27 (refutation)** In 3D, method 'median' can leave the hole at 0: one known voxel of value
5 beside one masked voxel, window half size 1; the masked voxel comes back as 0, not 5. -/
theorem median3_leaves_hole :
    outAt (inpaint (geo3 1 1 2 1) (fun _ => 1) .median 2 (fun _ _ => (0, 0))
      (fun _ => 5) (fun a => a = 1)) 1 = some 0 := by decide +kernel

/-- **C27 (refutation)** In 2D, method 'median' does not return a median: the known neighbours
are 5, 9, 1 and the hole is filled with 9. -/
theorem median2_not_median :
    outAt (inpaint (geo2 4 1 2) (fun _ => 1) .median 0 (fun _ _ => (0, 0))
      (fun a => if a = 0 then 5 else if a = 2 then 9 else 1) (fun a => a = 1)) 1 = some 9 ∧
    ¬ IsMedian [(5 : ℚ), 9, 1] 9 := by
  refine ⟨by decide +kernel, ?_⟩
  intro h
  have := h
  unfold IsMedian at this
  revert this
  decide +kernel

/-! ### C59: the number of iterations -/

/-- A pass with an empty mask changes nothing. -/
theorem pass_empty (N : Nat) (k : Kernel K) (s : St K) (h : ∀ a < N, s.msk a = false)
    (he : s.out = s.upd) : pass N k s = some s := by
  rw [pass_eq_some N k s (fun a ha hm => by rw [h a ha] at hm; cases hm)]
  obtain ⟨out, upd, msk⟩ := s
  simp only at he h
  subst he
  have e1 : (fun a => if a < N then k.upd' ⟨out, out, msk⟩ a else out a) = out := by
    funext a
    split
    · rename_i ha; simp [Kernel.upd', h a ha]
    · rfl
  have e2 : (fun a => if a < N then k.msk' ⟨out, out, msk⟩ a else msk a) = msk := by
    funext a
    split
    · rename_i ha; simp [Kernel.msk', h a ha]
    · rfl
  simp only [e1, e2]

theorem iterLoop_empty (N : Nat) (ker : Nat → Kernel K) (n : Nat) :
    ∀ (l : Nat) (s : St K), (∀ a < N, s.msk a = false) → s.out = s.upd →
      iterLoop N ker n l s = some s := by
  induction n with
  | zero => intro l s _ _; rfl
  | succ n ih =>
    intro l s h he
    rw [iterLoop, pass_empty N (ker l) s h he]
    exact ih (l + 1) s h he

theorem iterations_general (g : Geo) (hg : g.Ok) (w : Nat → K) (hw : ∀ c < g.full, 0 < w c)
    (meth : Method) (hm : meth = .median → g.twoD = true) (n : Nat)
    (rnd : Nat → Nat → Nat × Nat) (input : Nat → K) (mask : Nat → Bool) (lo hi : K)
    (hlo : 0 < lo) (hin : ∀ a < g.N, mask a = false → lo ≤ input a ∧ input a ≤ hi)
    (hex : ∃ a < g.N, mask a = false) :
    inpaint g w meth (n + 1) rnd input mask = inpaint g w meth 1 rnd input mask := by
  have hk : ∀ l, (kernel g w (rnd l) meth).Fills g lo hi := fun l =>
    kernel_fills g hg w hw (rnd l) meth hm lo hi hlo
  obtain ⟨s1, s2, h1, h2, hA2⟩ := stage_one g hg w hw meth hm rnd input mask lo hi hlo hin hex
  unfold inpaint
  simp only
  split
  · rfl
  · rw [h1]
    simp only
    rw [h2]
    simp only [gt_iff_lt, Nat.succ_pos, if_true]
    obtain ⟨s', hp, hA, hc, he⟩ := pass_all g (kernel g w (rnd (countMask g.N mask)) meth) lo hi
      { s2 with msk := mask } (allIn_mask hA2 mask)
      (allIn_store g hg _ lo hi hlo (hk _) _ (allIn_mask hA2 mask))
    have e : ∀ m, iterLoop g.N (fun l => kernel g w (rnd l) meth) (m + 1) (countMask g.N mask)
        { s2 with msk := mask } = some s' := by
      intro m
      rw [iterLoop, hp]
      exact iterLoop_empty g.N _ m _ s' (hc (hk _).clear) he
    rw [e n, e 0]

/-- **C59 (refutation, for all inputs)** Asking for more than one extra iteration never changes
anything: the update mask is reset only before the loop.  2D. -/
theorem inpaint_iterations_ignored_2d (dX dY hw : Nat) (hhw : 1 ≤ hw) (w : Nat → K)
    (hw' : ∀ c < (2 * hw + 1) ^ 2, 0 < w c) (meth : Method) (n : Nat)
    (rnd : Nat → Nat → Nat × Nat) (input : Nat → K) (mask : Nat → Bool) (lo hi : K)
    (hlo : 0 < lo) (hin : ∀ a < dX * dY, mask a = false → lo ≤ input a ∧ input a ≤ hi)
    (hex : ∃ a < dX * dY, mask a = false) :
    inpaint (geo2 dX dY hw) w meth (n + 1) rnd input mask
      = inpaint (geo2 dX dY hw) w meth 1 rnd input mask :=
  iterations_general (geo2 dX dY hw) (geo2_ok dX dY hw hhw) w hw' meth (fun _ => rfl) n rnd input
    mask lo hi hlo hin hex

/-- **C59 (refutation, for all inputs)** 3D, methods 'mean' and 'random'. -/
theorem inpaint_iterations_ignored_3d (dX dY dZ hw : Nat) (hhw : 1 ≤ hw) (w : Nat → K)
    (hw' : ∀ c < (2 * hw + 1) ^ 3, 0 < w c) (meth : Method) (hm : meth ≠ .median) (n : Nat)
    (rnd : Nat → Nat → Nat × Nat) (input : Nat → K) (mask : Nat → Bool) (lo hi : K)
    (hlo : 0 < lo) (hin : ∀ a < dX * dY * dZ, mask a = false → lo ≤ input a ∧ input a ≤ hi)
    (hex : ∃ a < dX * dY * dZ, mask a = false) :
    inpaint (geo3 dX dY dZ hw) w meth (n + 1) rnd input mask
      = inpaint (geo3 dX dY dZ hw) w meth 1 rnd input mask :=
  iterations_general (geo3 dX dY dZ hw) (geo3_ok dX dY dZ hw hhw) w hw' meth
    (fun h => absurd h hm) n rnd input mask lo hi hlo hin hex

/-- **C59** One extra iteration does smooth: the results with 0 and 1 iterations differ, so
"more iterations, more smoothing" holds only from 0 to 1. -/
theorem inpaint_one_iteration_partial :
    outAt (inpaint (geo2 4 1 1) (fun _ => 1) .mean 0 (fun _ _ => (0, 0))
      (fun a => if a = 0 then 4 else 8) (fun a => a = 1 ∨ a = 2)) 1 = some 4 ∧
    outAt (inpaint (geo2 4 1 1) (fun _ => 1) .mean 1 (fun _ _ => (0, 0))
      (fun a => if a = 0 then 4 else 8) (fun a => a = 1 ∨ a = 2)) 1 = some (16 / 3) := by
  constructor <;> decide +kernel

/-! ### C60: the window size -/

/-- **C60 (refutation)** The argument `size` (documented as the size of the window) is used as
half size: for every `size` the search window of an interior pixel of a large enough image
contains exactly the pixels up to `size` away, i.e. it is `2*size+1` wide. -/
theorem inpaint_window_width (dX dY size i j : Nat) (hi : i < dX)
    (i' j' : Nat) (hi' : i' < dX) (hj' : j' < dY) :
    j' * dX + i' ∈ ((geo2 dX dY size).win (j * dX + i)).map Prod.fst ↔
      (i' ≤ i + size ∧ i ≤ i' + size) ∧ (j' ≤ j + size ∧ j ≤ j' + size) := by
  have h1 : (j * dX + i) % dX = i := by
    rw [Nat.mul_comm, Nat.mul_add_mod, Nat.mod_eq_of_lt hi]
  have h2 : (j * dX + i) / dX = j := by
    rw [Nat.mul_comm, Nat.mul_add_div (by omega), Nat.div_eq_of_lt hi, Nat.add_zero]
  show _ ∈ (winOf (offs2 size) (addr2 dX dY ((j * dX + i) % dX) ((j * dX + i) / dX))).map
    Prod.fst ↔ _
  rw [mem_winOf_fst, h1, h2]
  constructor
  · rintro ⟨o, ho, he⟩
    obtain ⟨i1, j1, k1, k2, k3, k4, k5⟩ := (addr2_eq_some ..).1 he
    rw [mem_offs2, mem_offs, mem_offs] at ho
    have hii : i' = i1 := by
      have := congrArg (· % dX) k5
      simp only [Nat.mul_comm _ dX, Nat.mul_add_mod, Nat.mod_eq_of_lt hi',
        Nat.mod_eq_of_lt k1] at this
      exact this
    have hjj : j' = j1 := by
      have := congrArg (· / dX) k5
      simp only [Nat.mul_comm _ dX, Nat.mul_add_div (by omega : 0 < dX), Nat.div_eq_of_lt hi',
        Nat.div_eq_of_lt k1, Nat.add_zero] at this
      exact this
    omega
  · rintro ⟨h3, h4⟩
    refine ⟨((i' : Int) - i, (j' : Int) - j), ?_, ?_⟩
    · rw [mem_offs2, mem_offs, mem_offs]; simp only; omega
    · rw [addr2_eq_some]
      exact ⟨i', j', hi', hj', by simp, by simp, rfl⟩

/-- **C60** With `size = 0` the methods 'median' (2D) and 'random' run into undefined behaviour
as soon as a masked pixel has a positive neighbour, and 'mean' fills nothing. -/
theorem inpaint_size_zero :
    (inpaint (geo2 2 1 0) (fun _ => (1 : ℚ)) .random 0 (fun _ _ => (0, 0)) (fun _ => 5)
      (fun a => a = 1)).isNone = true ∧
    (inpaint (geo2 2 1 0) (fun _ => (1 : ℚ)) .median 0 (fun _ _ => (0, 0)) (fun _ => 5)
      (fun a => a = 1)).isNone = true ∧
    outAt (inpaint (geo2 2 1 0) (fun _ => (1 : ℚ)) .mean 0 (fun _ _ => (0, 0)) (fun _ => 5)
      (fun a => a = 1)) 1 = some 0 := by
  refine ⟨?_, ?_, ?_⟩ <;> decide +kernel

/-! ### C61: the Python layer -/

/-- **C61 (partial)** For a 3D array with non-empty dimensions, a boolean mask and a known type:
without axis the call always goes through with the right dimensions; with an axis it goes through
iff none of the two remaining dimensions has length 1. -/
theorem inpaint_call_partial (dz dy dx : Nat) (hz : dz ≠ 0) (hy : dy ≠ 0) (hx : dx ≠ 0)
    (ms : List Nat) (t : String) (ht : t = "mean" ∨ t = "median" ∨ t = "random") :
    inpaintCall [dz, dy, dx] ms true t none = .ok (.whole dx dy dz) ∧
    (dy ≠ 1 → dx ≠ 1 → inpaintCall [dz, dy, dx] ms true t (some 0) = .ok (.slices dz dx dy)) ∧
    (dz ≠ 1 → dx ≠ 1 → inpaintCall [dz, dy, dx] ms true t (some 1) = .ok (.slices dy dx dz)) ∧
    (dz ≠ 1 → dy ≠ 1 → inpaintCall [dz, dy, dx] ms true t (some 2) = .ok (.slices dx dy dz)) := by
  unfold inpaintCall
  refine ⟨?_, ?_, ?_, ?_⟩
  · simp [ht, hz, hy, hx]
  · intro h1 h2; simp [ht, hz, hy, hx, squeeze, h1, h2]
  · intro h1 h2; simp [ht, hz, hy, hx, squeeze, h1, h2]
  · intro h1 h2; simp [ht, hz, hy, hx, squeeze, h1, h2]

/-- **C61 (refutation)** A valid 3D array with another dimension of length 1 is rejected. -/
theorem inpaint_singleton_rejected (dy dx : Nat) (ms : List Nat) :
    inpaintCall [1, dy, dx] ms true "mean" (some 1) = .error .value ∧
    inpaintCall [1, dy, dx] ms true "mean" (some 2) = .error .value := by
  unfold inpaintCall
  by_cases h1 : dy = 0
  · simp [h1]
  by_cases h2 : dx = 0
  · simp [h2]
  constructor
  · by_cases h3 : dx = 1 <;> simp [h1, h2, h3, squeeze]
  · by_cases h3 : dy = 1 <;> simp [h1, h2, h3, squeeze]

/-- **C61 (refutation)** The shape of the mask is never checked: for every pair of mask shapes
the behaviour is the same, although C reads as many mask entries as the data has elements. -/
theorem inpaint_mask_shape_unchecked (shape ms ms' : List Nat) (b : Bool) (t : String)
    (axis : Option Int) : inpaintCall shape ms b t axis = inpaintCall shape ms' b t axis := rfl

end Tomopy.Inpaint
