import Verif.Iter.Alone
import Verif.Iter.Ospml
import Verif.Iter.TvConv

/-! # Slices are reconstructed on their own (C170): penalised methods and total variation -/

set_option linter.unusedSectionVars false

namespace Tomopy.Iter

open Function (update)
open Matrix

/-! ## `pml` and `ospml` -/

theorem penTask_at (gam : ℝ → Option ℝ) (beta : ℝ) {D : Dims} {ngx ngy : Nat} (hN : D.N = ngx * ngy)
    (hx : 2 ≤ ngx) (hy : 2 ≤ ngy) {s : Nat} (hs : s < D.dy) {r r1 : Mem ℝ} (h : SameAt D s r r1)
    {t : Nat × List Nb} (ht : t ∈ penTasks ngx ngy) (FG : Mem ℝ × Mem ℝ) :
    penTask gam beta ngy (D.one.dy * D.one.N) (0 * D.one.N) r1 FG t =
      penTask gam beta ngy (D.dy * D.N) (s * D.N) r FG t := by
  have hb := tasks_in_bounds hx hy hs ht
  have hb1 := tasks_in_bounds (dy := 1) (s := 0) hx hy one_pos ht
  rw [← hN] at hb hb1
  have step : ∀ nb ∈ t.2, ∀ FG, penStep gam beta ngy (D.one.dy * D.one.N) (0 * D.one.N) r1 t.1 FG nb =
      penStep gam beta ngy (D.dy * D.N) (s * D.N) r t.1 FG nb := by
    intro nb hnb FG
    obtain ⟨a1, a2, a3⟩ := hb nb hnb
    obtain ⟨b1, b2, b3⟩ := hb1 nb hnb
    unfold nbAddr at a1 a2 b1 b2
    have e1 : r1 (t.1 + 0 * D.N) = r (t.1 + s * D.N) := by
      rw [Nat.zero_mul, Nat.add_zero]
      exact h _ (by omega)
    have e2 : r1 (((t.1 + 0 * D.N : Nat) : Int) + nb.1 * ngy + nb.2.1).toNat =
        r (((t.1 + s * D.N : Nat) : Int) + nb.1 * ngy + nb.2.1).toNat := by
      have : (((t.1 + 0 * D.N : Nat) : Int) + nb.1 * ngy + nb.2.1).toNat < D.N := by
        have : ((1 * D.N : Nat) : Int) = (D.N : Int) := by rw [Nat.one_mul]
        omega
      rw [h _ this]
      congr 1
      have e : ((t.1 + s * D.N : Nat) : Int) = ((t.1 + 0 * D.N : Nat) : Int) + ((s * D.N : Nat) : Int) := by
        rw [Nat.zero_mul]
        push_cast
        ring
      omega
    simp only [penStep, Dims.one]
    refine (if_pos ⟨b1, b2, b3⟩).trans (Eq.trans ?_ (if_pos ⟨a1, a2, a3⟩).symm)
    rw [e1, e2]
  unfold penTask
  generalize t.2 = l at step
  clear hb hb1
  induction l generalizing FG with
  | nil => rfl
  | cons nb l ih =>
    rw [List.foldlM_cons, List.foldlM_cons, step nb (by simp)]
    cases penStep gam beta ngy (D.dy * D.N) (s * D.N) r t.1 FG nb with
    | none => rfl
    | some FG' => exact ih FG' fun nb hnb => step nb (List.mem_cons_of_mem _ hnb)

theorem pmlFin_at (gam : ℝ → Option ℝ) (beta : ℝ) {D : Dims} {ngx ngy : Nat} (hN : D.N = ngx * ngy)
    (hx : 2 ≤ ngx) (hy : 2 ≤ ngy) : FinAt D (pmlFin gam beta D ngx ngy) (pmlFin gam beta D.one ngx ngy) := by
  intro s hs a a1 r r1 h1 h2 h
  unfold pmlFin
  have e : (penTasks ngx ngy).foldlM
      (penTask gam beta ngy (D.one.dy * D.one.N) (0 * D.one.N) r1) (zeros, zeros) =
      (penTasks ngx ngy).foldlM (penTask gam beta ngy (D.dy * D.N) (s * D.N) r) (zeros, zeros) := by
    have : ∀ (l : List (Nat × List Nb)), (∀ t ∈ l, t ∈ penTasks ngx ngy) → ∀ FG,
        l.foldlM (penTask gam beta ngy (D.one.dy * D.one.N) (0 * D.one.N) r1) FG =
        l.foldlM (penTask gam beta ngy (D.dy * D.N) (s * D.N) r) FG := by
      intro l
      induction l with
      | nil => intro _ _; rfl
      | cons t l ih =>
        intro hl FG
        rw [List.foldlM_cons, List.foldlM_cons, penTask_at gam beta hN hx hy hs h (hl t (by simp)) FG]
        cases penTask gam beta ngy (D.dy * D.N) (s * D.N) r FG t with
        | none => rfl
        | some FG' => exact ih (fun t ht => hl t (List.mem_cons_of_mem _ ht)) FG'
    exact this _ (fun _ h => h) _
  rw [e]
  cases (penTasks ngx ngy).foldlM (penTask gam beta ngy (D.dy * D.N) (s * D.N) r) (zeros, zeros) with
  | none => trivial
  | some FG =>
    simp only [Option.bind_some]
    rw [h1, h2]
    refine optRel_foldlM _ _ _ (fun q hq b b1 hb => ?_) r r1 ⟨h, fun _ _ _ _ _ => rfl⟩
    have hq' : q < D.N := List.mem_range.mp hq
    unfold pmlPixel
    split
    · split
      · trivial
      · refine ⟨fun n hn => ?_, fun s' hs' hne n hn => ?_⟩
        · rw [Nat.zero_mul, Nat.add_zero]
          by_cases en : n = q
          · subst en
            rw [Function.update_self, Function.update_self]
          · have : n + s * D.N ≠ q + s * D.N := by omega
            rw [Function.update_of_ne en, Function.update_of_ne this]
            exact hb.1 n hn
        · have : n + s' * D.N ≠ q + s * D.N := fun e => hne (pix_inj hn hq' e).1
          rw [Function.update_of_ne this]
          exact hb.2 s' hs' hne n hn
    · exact hb

/-- **C170**: `ospml_quad` and `ospml_hybrid` (`gam` is the factor function) on grids of at least 2 x 2 pixels. -/
theorem ospml_alone (gam : ℝ → Option ℝ) (beta : ℝ) {D : Dims} {ngx ngy : Nat} (hN : D.N = ngx * ngy)
    (hx : 2 ≤ ngx) (hy : 2 ≤ ngy) {g : Geom ℝ} (hg : GeomOk D g) {data : Mem ℝ}
    {data1 : Nat → Mem ℝ} (hd : DatAll D data data1) (num_iter : Nat) {nb : Nat}
    {ind : List Nat} (hb : BlockArgs D.dt nb ind) {recon : Mem ℝ} {recon1 : Nat → Mem ℝ}
    (hr : SameAll D recon recon1) :
    Alone D (ospml gam beta D ngx ngy g data num_iter nb ind recon) fun s =>
      ospml gam beta D.one ngx ngy (geoAt s g) (data1 s) num_iter nb ind (recon1 s) :=
  osRun_alone (pmlFin_ok gam beta D ngx ngy) (pmlFin_ok gam beta D.one ngx ngy)
    (pmlFin_at gam beta hN hx hy) (fun s hs p hp d hd e he => (hg s hs p hp d hd e he).1) hd num_iter hb hr

/-! ## `tv` -/

/-- **C170**: `tv` with a positive weight. -/
theorem tv_alone {lam : ℝ} (hl : 0 < lam) {D : Dims} {ngx ngy : Nat} (hN : D.N = ngx * ngy) {g : Geom ℝ}
    (hg : GeomOk D g) {data : Mem ℝ} {data1 : Nat → Mem ℝ} (hd : DatAll D data data1) (num_iter : Nat)
    {recon : Mem ℝ} {recon1 : Nat → Mem ℝ} (hr : SameAll D recon recon1) :
    Alone D (tv lam D ngx ngy g data num_iter recon) fun s =>
      tv lam D.one ngx ngy (geoAt s g) (data1 s) num_iter (recon1 s) := by
  have hsc : gradScale D.one = gradScale D := rfl
  unfold tv
  rw [hsc]
  generalize gradScale D = r
  unfold tvRun
  by_cases h0 : D.dy = 0 ∨ D.dt = 0 ∨ D.dx = 0
  · rw [if_pos h0]
    refine alone_of ⟨fun h => (by cases h), fun r' h => ?_⟩
    cases h
    rcases h0 with h0 | h0
    · exact ⟨recon1, fun s hs => absurd hs (by omega), hr⟩
    · exact ⟨recon1, fun s hs =>
        if_pos (show D.one.dy = 0 ∨ D.one.dt = 0 ∨ D.one.dx = 0 from Or.inr h0), hr⟩
  · have h01 : ¬ (D.one.dy = 0 ∨ D.one.dt = 0 ∨ D.one.dx = 0) := by
      rintro (h | h)
      · cases h
      · exact h0 (Or.inr h)
    rw [if_neg h0]
    simp only [if_neg h01]
    obtain ⟨S, hS0, hS, hstep⟩ := tvIters_value (c := tvC) (r := r) hl hN hg (data := data)
      (st := ⟨forPix D.dy ngx ngy (fun _ _ v => v / r) recon, forPix D.dy ngx ngy (fun _ _ v => v / r) recon,
        zeros, zeros, ⟨zeros, zeros, zeros⟩⟩) (fun _ _ _ _ _ => ⟨rfl, rfl⟩)
    have hone := fun s (hs : s < D.dy) => tvIters_value (c := tvC) (r := r) hl (D := D.one) (ngx := ngx)
      (ngy := ngy) hN (geomOk_one hg hs) (data := data1 s)
      (st := ⟨forPix D.one.dy ngx ngy (fun _ _ v => v / r) (recon1 s),
        forPix D.one.dy ngx ngy (fun _ _ v => v / r) (recon1 s),
        zeros, zeros, ⟨zeros, zeros, zeros⟩⟩) (fun _ _ _ _ _ => ⟨rfl, rfl⟩)
    have hi : ∀ s < D.dy, SameAt D s (forPix D.dy ngx ngy (fun _ _ v => v / r) recon)
        (forPix D.one.dy ngx ngy (fun _ _ v => v / r) (recon1 s)) := fun s hs =>
      forPix_at hN hs _ _ (hr s hs) fun _ _ _ => rfl
    have key : ∀ s < D.dy, ∃ S1 : Nat → TvSt,
        (∀ k, iterM (tvIter tvC r lam D.one ngx ngy (geoAt s g) (data1 s)) k
          ⟨forPix D.one.dy ngx ngy (fun _ _ v => v / r) (recon1 s),
          forPix D.one.dy ngx ngy (fun _ _ v => v / r) (recon1 s),
          zeros, zeros, ⟨zeros, zeros, zeros⟩⟩ = some (S1 k)) ∧
        ∀ k, SameAt D s (S k).recon (S1 k).recon := by
      intro s hs
      obtain ⟨S1, h10, h1, h1step⟩ := hone s hs
      refine ⟨S1, h1, ?_⟩
      have hdat : dat D.one 0 (data1 s) = dat D s data := by
        funext b
        exact datAt_data (hd s hs) b.1.2 b.2.2
      have rel : ∀ k, dual D.one ngx ngy 0 (S1 k) = dual D ngx ngy s (S k) ∧
          pix D.one 0 (S1 k).upd = pix D s (S k).upd ∧ pix D.one 0 (S1 k).recon = pix D s (S k).recon := by
        have hp : ∀ {m m1 : Mem ℝ}, SameAt D s m m1 → pix D.one 0 m1 = pix D s m := by
          intro m m1 h
          funext n
          show m1 (n + 0 * D.N) = m (n + s * D.N)
          rw [Nat.zero_mul, Nat.add_zero]
          exact h n n.2
        intro k
        induction k with
        | zero =>
          rw [h10, hS0]
          exact ⟨rfl, hp (hi s hs), hp (hi s hs)⟩
        | succ k ih =>
          have a := h1step k 0 one_pos
          have b := hstep k s hs
          have e1 : dual D.one ngx ngy 0 (S1 (k + 1)) = dual D ngx ngy s (S (k + 1)) := by
            rw [a.dual, b.dual, hdat, ih.1, ih.2.2]
            rfl
          have e2 : pix D.one 0 (S1 (k + 1)).upd = pix D s (S (k + 1)).upd := by
            rw [a.upd, b.upd, e1, ih.2.1]
            rfl
          exact ⟨e1, e2, by rw [a.recon, b.recon, e2, ih.2.1]; rfl⟩
      intro k n hn
      have := congrFun (rel k).2.2 ⟨n, hn⟩
      have h' : (S1 k).recon (n + 0 * D.N) = (S k).recon (n + s * D.N) := this
      rwa [Nat.zero_mul, Nat.add_zero] at h'
    rw [hS num_iter]
    refine alone_of ⟨fun h => (by cases h), fun r' h' => ?_⟩
    cases h'
    have : Inhabited TvSt := ⟨S 0⟩
    choose! S1 hS1 hrel using key
    refine ⟨fun s => forPix D.one.dy ngx ngy (fun _ _ v => v * r) (S1 s num_iter).recon, fun s hs => ?_,
      fun s hs => ?_⟩
    · rw [hS1 s hs]
      rfl
    · exact forPix_at hN hs _ _ (hrel s hs num_iter) fun _ _ _ => rfl

/-! ## Cases -/

/-- The assumptions hold for two slices of 2 × 2 pixels and one ray through each, for any data. -/
example (data recon : Mem ℝ) :
    Alone ⟨2, 1, 1, 2 * 2⟩ (tv 1 ⟨2, 1, 1, 2 * 2⟩ 2 2 (fun s _ _ => [(s, 1), (3, 1)]) data 7 recon) fun s =>
      tv 1 ⟨1, 1, 1, 2 * 2⟩ 2 2 (geoAt s fun s _ _ => [(s, 1), (3, 1)]) (fun n => data (n + s * 1)) 7
        fun n => recon (n + s * (2 * 2)) :=
  tv_alone one_pos rfl (by
    intro s hs p _ d _ e he
    have hs' : s < 2 := hs
    have hN : (⟨2, 1, 1, 2 * 2⟩ : Dims).N = 4 := rfl
    rw [hN]
    simp only [List.mem_cons, List.not_mem_nil, or_false] at he
    rcases he with rfl | rfl
    · exact ⟨by show s < 4; omega, zero_le_one⟩
    · exact ⟨by show 3 < 4; omega, zero_le_one⟩) (datAll_slices _ data).1 7 (datAll_slices _ recon).2

end Tomopy.Iter
