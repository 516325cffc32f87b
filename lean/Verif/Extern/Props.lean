import Verif.Extern.Model
import Mathlib.Data.List.Forall2

/-!
# Every C parameter holds the Python value it stands for
-/

set_option linter.unusedSectionVars false

namespace Tomopy.Extern

/-! ## Specification -/

/-- Which Python quantity a C parameter stands for, by its meaning (names of the documentation of
the Python functions and of the parameters in C); independent of any order. -/
def meaning (fn c : String) : Src :=
  if fn = "sample" ∧ c = "data" then .loc "arr"
  else if fn = "normalize_bg" ∧ c = "dx" then .loc "dt"
  else if fn = "normalize_bg" ∧ c = "dz" then .loc "dx"
  else match c with
    | "data" => .loc "tomo" | "data1" => .loc "tomo1" | "data2" => .loc "tomo2"
    | "data3" => .loc "tomo3" | "nair" => .loc "air"
    | "ngridx" => .kw "num_gridx" | "ngridy" => .kw "num_gridy" | "num_iter" => .kw "num_iter"
    | "num_block" => .kw "num_block" | "ind_block" => .kw "ind_block"
    | "reg_pars" => .kw "reg_par" | "reg_data" => .kw "reg_data"
    | "fname" => .kw "filter_name" | "filter_par" => .kw "filter_par"
    | "pool_size" => .kw "pool_size" | "interp" => .kw "interpolation" | "device" => .kw "device"
    | "grid_size" => .kw "grid_size" | "block_size" => .kw "block_size"
    | "Input" => .loc "input" | "Mask" => .loc "mask" | "Output" => .loc "output"
    | "radius" => .loc "kernel_half_size" | "W_halfsize" => .loc "kernel_half_size"
    | "mu_threshold" => .loc "absdif" | "ncores" => .loc "ncore"
    | "dimX" => .loc "dx" | "dimY" => .loc "dy" | "dimZ" => .loc "dz"
    | "window_halflength_vertical" => .loc "size" | "ratio_radius" => .loc "radius"
    | "stripe_length_min" => .loc "min_stripe_length"
    | "stripe_depth_min" => .loc "min_stripe_depth"
    | "stripe_width_min" => .loc "min_stripe_width" | "sensitivity" => .loc "sensitivity_perc"
    | _ => .loc c

/-- The three sizes of a stack of slices: the last two dimensions, and the product of those before
(one slice for a single image). -/
def stackSizes (shape : List Nat) : Nat × Nat × Nat :=
  (shape.dropLast.dropLast.prod, shape.dropLast.getLastD 0, shape.getLastD 0)

/-! ## Wiring -/

/-- Order, number and types of the arguments of every wrapper are those of the C definition, with
each parameter given what it stands for, and no parameter occurs twice. -/
theorem wired : ∀ w ∈ wrappers,
    w.args = (proto w.fn).map (fun p => (p.1, meaning w.fn p.2)) ∧
      ((proto w.fn).map Prod.snd).Nodup ∧ proto w.fn ≠ [] := by
  decide +kernel

variable {F : Type} {ofInt : Int → F}

theorem conv_ty {t : CTy} {x : PyVal F} {v : CVal F} (h : conv ofInt t x = .ok v) : v.ty = t := by
  cases t <;> cases x <;> simp only [conv, Except.ok.injEq, reduceCtorEq] at h <;> subst h <;> rfl

theorem mapM_ok {α β : Type} {f : α → Except PyErr β} :
    ∀ {l : List α} {r : List β}, l.mapM f = .ok r → List.Forall₂ (fun a b => f a = .ok b) l r
  | [], r, h => by
    simp only [List.mapM_nil, pure, Except.pure, Except.ok.injEq] at h
    subst h; exact .nil
  | a :: l, r, h => by
    rw [List.mapM_cons] at h
    cases ha : f a with
    | error e => rw [ha] at h; simp [bind, Except.bind] at h
    | ok b =>
      cases hl : l.mapM f with
      | error e => rw [ha, hl] at h; simp [bind, Except.bind] at h
      | ok bs =>
        rw [ha, hl] at h
        simp only [bind, Except.bind, pure, Except.pure, Except.ok.injEq] at h
        subst h
        exact .cons ha (mapM_ok hl)

/-- Positional lookup among distinct names. -/
theorem lookup_zip {β : Type} {R : CTy × String → β → Prop} :
    ∀ {p : Proto} {vs : List β}, List.Forall₂ R p vs → (p.map Prod.snd).Nodup →
      ∀ q ∈ p, ∃ v, R q v ∧ ((p.map Prod.snd).zip vs).lookup q.2 = some v
  | _, _, .nil, _, q, hq => by simp at hq
  | a :: p, v :: vs, .cons h hs, hn, q, hq => by
    rw [List.map_cons, List.nodup_cons] at hn
    rcases List.mem_cons.1 hq with rfl | hq
    · exact ⟨v, h, by simp⟩
    · obtain ⟨u, hu, hl⟩ := lookup_zip hs hn.2 q hq
      refine ⟨u, hu, ?_⟩
      have hne : (q.2 == a.2) = false := by
        rw [beq_eq_false_iff_ne]
        intro he
        exact hn.1 (he ▸ List.mem_map_of_mem hq)
      simp only [List.map_cons, List.zip_cons_cons, List.lookup, hne]
      exact hl

/-- If a wrapper reaches its C function, number and types of the arguments are those of the
definition, and every parameter holds the converted value of the Python quantity it stands for. -/
theorem run_sees {w : Wrapper} (hw : w ∈ wrappers) {loc kw : Env F} {vs : List (CVal F)}
    (h : w.run ofInt loc kw = .ok vs) :
    ∃ l fr, w.unpacks.foldlM (fun l u => u.run l) loc = .ok l ∧ enter (proto w.fn) vs = some fr ∧
      ∀ p ∈ proto w.fn, ∃ x v, (meaning w.fn p.2).eval l (kwOf w kw) = .ok x ∧
        conv ofInt p.1 x = .ok v ∧ fr p.2 = some v := by
  obtain ⟨ha, hn, -⟩ := wired w hw
  unfold Wrapper.run at h
  cases hl : w.unpacks.foldlM (fun l u => u.run l) loc with
  | error e => rw [hl] at h; simp [bind, Except.bind] at h
  | ok l =>
    rw [hl] at h
    have hf := mapM_ok h
    rw [ha, List.forall₂_map_left_iff] at hf
    have hf' : List.Forall₂ (fun (p : CTy × String) v => ∃ x,
        (meaning w.fn p.2).eval l (kwOf w kw) = .ok x ∧ conv ofInt p.1 x = .ok v)
        (proto w.fn) vs := by
      refine hf.imp ?_
      intro p v hv
      cases hx : (meaning w.fn p.2).eval l (kwOf w kw) with
      | error e => simp only [hx, bind, Except.bind, reduceCtorEq] at hv
      | ok x => exact ⟨x, rfl, by simpa only [hx, bind, Except.bind] using hv⟩
    have hty : (proto w.fn).map Prod.fst = vs.map CVal.ty := by
      clear hn hf h ha
      generalize proto w.fn = p at hf' ⊢
      induction hf' with
      | nil => rfl
      | cons h _ ih =>
        obtain ⟨x, -, hx⟩ := h
        rw [List.map_cons, List.map_cons, ih, conv_ty hx]
    refine ⟨l, _, rfl, if_pos hty, fun p hp => ?_⟩
    obtain ⟨v, ⟨x, hx, hv⟩, hlk⟩ := lookup_zip hf' hn p hp
    exact ⟨x, v, hx, hv, hlk⟩

/-! ## Integers -/

theorem wrap32_of_fits {z : Int} (h0 : -2 ^ 31 ≤ z) (h1 : z < 2 ^ 31) : wrap32 z = z := by
  unfold wrap32; omega

/-- The value C sees equals the Python value exactly if that fits. -/
theorem wrap32_eq_iff (z : Int) : wrap32 z = z ↔ -2 ^ 31 ≤ z ∧ z < 2 ^ 31 := by
  unfold wrap32; omega

/-! ## Sizes -/

/-- The wrappers that reconstruct (`tomo` is the data). -/
def reconWrappers : List Wrapper :=
  [cArt, cBart, cFbp, cMlem, cOsem, cOspmlHybrid, cOspmlQuad, cPmlHybrid, cPmlQuad, cSirt, cTv, cGrad,
    cTikh, cAccelMlem, cAccelSirt, cGridrec]

theorem recon_wrappers : ∀ w ∈ reconWrappers, w ∈ wrappers ∧ w.unpacks = [⟨"tomo", true, "dy", "dt", "dx"⟩] ∧
    (CTy.int, "dy") ∈ proto w.fn ∧ (CTy.int, "dt") ∈ proto w.fn ∧ (CTy.int, "dx") ∈ proto w.fn ∧
    (CTy.floatP, "data") ∈ proto w.fn ∧ (CTy.floatP, "recon") ∈ proto w.fn ∧
    (CTy.floatP, "center") ∈ proto w.fn ∧ (CTy.floatP, "theta") ∈ proto w.fn ∧
    (CTy.int, "ngridx") ∈ proto w.fn ∧ (CTy.int, "ngridy") ∈ proto w.fn ∧
    meaning w.fn "data" = .loc "tomo" ∧ meaning w.fn "dy" = .loc "dy" ∧
    meaning w.fn "dt" = .loc "dt" ∧ meaning w.fn "dx" = .loc "dx" ∧
    meaning w.fn "recon" = .loc "recon" ∧ meaning w.fn "center" = .loc "center" ∧
    meaning w.fn "theta" = .loc "theta" ∧ meaning w.fn "ngridx" = .kw "num_gridx" ∧
    meaning w.fn "ngridy" = .kw "num_gridy" := by
  decide +kernel

/-- What taking a shape apart leaves: the sizes of the stack, everything else as it was. -/
theorem unpack_ok {u : Unpack} {loc l : Env F} (h01 : u.n0 ≠ u.n1) (h02 : u.n0 ≠ u.n2)
    (h12 : u.n1 ≠ u.n2) (h : u.run loc = .ok l) :
    ∃ a shape, loc u.arr = some (.arr a shape) ∧ (shape.length = 3 ∨ shape.length = 2 ∧ u.two = true) ∧
      l u.n0 = some (.int (stackSizes shape).1) ∧ l u.n1 = some (.int (stackSizes shape).2.1) ∧
      l u.n2 = some (.int (stackSizes shape).2.2) ∧
      ∀ n, n ≠ u.n0 → n ≠ u.n1 → n ≠ u.n2 → l n = loc n := by
  unfold Unpack.run at h
  split at h
  · rename_i a x y hx
    split at h
    · rename_i h2
      simp only [Except.ok.injEq] at h
      subst h
      exact ⟨a, _, hx, .inr ⟨rfl, h2⟩, by simp [Env.set, h01, h02, stackSizes],
        by simp [Env.set, h12, stackSizes], by simp [Env.set, stackSizes],
        fun n h0 h1 h2 => by simp [Env.set, h0, h1, h2]⟩
    · simp at h
  · rename_i a x y z hx
    simp only [Except.ok.injEq] at h
    subst h
    exact ⟨a, _, hx, .inl rfl, by simp [Env.set, h01, h02, stackSizes],
      by simp [Env.set, h12, stackSizes], by simp [Env.set, stackSizes],
      fun n h0 h1 h2 => by simp [Env.set, h0, h1, h2]⟩
  all_goals simp at h

theorem eval_loc {l kw : Env F} {n : String} {x : PyVal F} (h : (Src.loc n).eval l kw = .ok x) :
    l n = some x := by
  unfold Src.eval at h
  cases hn : l n with
  | none => simp [hn] at h
  | some y => simp only [hn, Except.ok.injEq] at h; rw [h]

theorem eval_kw {l kw : Env F} {n : String} {x : PyVal F} (h : (Src.kw n).eval l kw = .ok x) :
    kw n = some x := by
  unfold Src.eval at h
  cases hn : kw n with
  | none => simp [hn] at h
  | some y => simp only [hn, Except.ok.injEq] at h; rw [h]

theorem conv_int {x : PyVal F} {v : CVal F} (h : conv ofInt .int x = .ok v) :
    ∃ z, x = .int z ∧ v = .int (wrap32 z) := by
  cases x <;> simp only [conv, Except.ok.injEq, reduceCtorEq] at h
  exact ⟨_, rfl, h.symm⟩

theorem conv_floatP {x : PyVal F} {v : CVal F} (h : conv ofInt .floatP x = .ok v) :
    ∃ a s, x = .arr a s ∧ v = .ptr .floatP a := by
  cases x <;> simp only [conv, Except.ok.injEq, reduceCtorEq] at h
  exact ⟨_, _, rfl, h.symm⟩

theorem conv_intP {x : PyVal F} {v : CVal F} (h : conv ofInt .intP x = .ok v) :
    ∃ a s, x = .arr a s ∧ v = .ptr .intP a := by
  cases x <;> simp only [conv, Except.ok.injEq, reduceCtorEq] at h
  exact ⟨_, _, rfl, h.symm⟩

/-- Sinograms behind the 16 reconstruction functions: the C function gets the data, the centres, the
angles, the reconstruction and the size of the grid of the call, and the sizes of the data, one slice
for a single sinogram. -/
theorem recon_sees {w : Wrapper} (hw : w ∈ reconWrappers) {loc kw : Env F} {vs : List (CVal F)}
    (h : w.run ofInt loc kw = .ok vs) :
    ∃ fr a shape c sc t st r sr, ∃ gx gy : Int, enter (proto w.fn) vs = some fr ∧
      loc "tomo" = some (.arr a shape) ∧ (shape.length = 3 ∨ shape.length = 2) ∧
      loc "center" = some (.arr c sc) ∧ loc "theta" = some (.arr t st) ∧
      loc "recon" = some (.arr r sr) ∧
      kw "num_gridx" = some (.int gx) ∧ kw "num_gridy" = some (.int gy) ∧
      fr "data" = some (.ptr .floatP a) ∧ fr "center" = some (.ptr .floatP c) ∧
      fr "theta" = some (.ptr .floatP t) ∧ fr "recon" = some (.ptr .floatP r) ∧
      fr "dy" = some (.int (wrap32 (stackSizes shape).1)) ∧
      fr "dt" = some (.int (wrap32 (stackSizes shape).2.1)) ∧
      fr "dx" = some (.int (wrap32 (stackSizes shape).2.2)) ∧
      fr "ngridx" = some (.int (wrap32 gx)) ∧ fr "ngridy" = some (.int (wrap32 gy)) := by
  obtain ⟨hm, hu, pdy, pdt, pdx, pda, pre, pce, pth, pgx, pgy, mda, mdy, mdt, mdx, mre, mce, mth, mgx,
    mgy⟩ := recon_wrappers w hw
  obtain ⟨l, fr, hl, hfr, hp⟩ := run_sees hm h
  rw [hu] at hl
  have hl' : (Unpack.mk "tomo" true "dy" "dt" "dx").run loc = .ok l := by
    simp only [List.foldlM_cons, List.foldlM_nil, bind, Except.bind, pure, Except.pure] at hl
    cases hx : (Unpack.mk "tomo" true "dy" "dt" "dx").run loc with
    | error e => rw [hx] at hl; simp at hl
    | ok l' => rw [hx] at hl; simpa using hl
  obtain ⟨a, shape, ha, hs, h0, h1, h2, ho⟩ := unpack_ok (by decide) (by decide) (by decide) hl'
  simp only at ha h0 h1 h2 ho
  have key : ∀ {n : String}, kwOf w kw n = kw n ∨ n = "num_block" ∨ n = "ind_block" := by
    intro n
    unfold kwOf Env.set
    split
    · by_cases hb : n = "num_block"
      · exact .inr (.inl hb)
      · by_cases hi : n = "ind_block"
        · exact .inr (.inr hi)
        · left; simp [hb, hi]
    · exact .inl rfl
  have fl : ∀ {c n : String}, (CTy.floatP, c) ∈ proto w.fn → meaning w.fn c = .loc n →
      n ≠ "dy" → n ≠ "dt" → n ≠ "dx" → ∃ b s, loc n = some (.arr b s) ∧ fr c = some (.ptr .floatP b) := by
    intro c n hc hmn n0 n1 n2
    obtain ⟨x, v, hx, hv, hf⟩ := hp _ hc
    obtain ⟨b, s, rfl, rfl⟩ := conv_floatP hv
    simp only [hmn] at hx
    exact ⟨b, s, by rw [← ho n n0 n1 n2]; exact eval_loc hx, hf⟩
  have il : ∀ {c n : String} {z : Int}, (CTy.int, c) ∈ proto w.fn → meaning w.fn c = .loc n →
      l n = some (.int z) → fr c = some (.int (wrap32 z)) := by
    intro c n z hc hmn hz
    obtain ⟨x, v, hx, hv, hf⟩ := hp _ hc
    obtain ⟨y, rfl, rfl⟩ := conv_int hv
    simp only [hmn] at hx
    have := eval_loc hx
    rw [hz] at this
    simp only [Option.some.injEq, PyVal.int.injEq] at this
    rw [this]; exact hf
  have ik : ∀ {c n : String}, (CTy.int, c) ∈ proto w.fn → meaning w.fn c = .kw n →
      n ≠ "num_block" → n ≠ "ind_block" → ∃ z, kw n = some (.int z) ∧ fr c = some (.int (wrap32 z)) := by
    intro c n hc hmn n0 n1
    obtain ⟨x, v, hx, hv, hf⟩ := hp _ hc
    obtain ⟨y, rfl, rfl⟩ := conv_int hv
    simp only [hmn] at hx
    have hk := eval_kw hx
    rcases key (n := n) with e | e | e
    · exact ⟨y, by rw [← e]; exact hk, hf⟩
    · exact absurd e n0
    · exact absurd e n1
  obtain ⟨a', s', ha', fda⟩ := fl pda mda (by decide) (by decide) (by decide)
  rw [ha] at ha'
  simp only [Option.some.injEq, PyVal.arr.injEq] at ha'
  obtain ⟨rfl, rfl⟩ := ha'
  obtain ⟨c, sc, hc, fce⟩ := fl pce mce (by decide) (by decide) (by decide)
  obtain ⟨t, st, ht, fth⟩ := fl pth mth (by decide) (by decide) (by decide)
  obtain ⟨r, sr, hr, fre⟩ := fl pre mre (by decide) (by decide) (by decide)
  obtain ⟨gx, hgx, fgx⟩ := ik pgx mgx (by decide) (by decide)
  obtain ⟨gy, hgy, fgy⟩ := ik pgy mgy (by decide) (by decide)
  exact ⟨fr, a, shape, c, sc, t, st, r, sr, gx, gy, hfr, ha, hs.imp id And.left, hc, ht, hr, hgx, hgy,
    fda, fce, fth, fre, il pdy mdy h0, il pdt mdt h1, il pdx mdx h2, fgx, fgy⟩

/-- Data with another number of dimensions than two or three raise `ValueError` before C is
reached. -/
theorem recon_bad_shape {w : Wrapper} (hw : w ∈ reconWrappers) {loc kw : Env F} {a : Nat}
    {shape : List Nat} (ht : loc "tomo" = some (.arr a shape)) (h2 : shape.length ≠ 2)
    (h3 : shape.length ≠ 3) : w.run ofInt loc kw = .error .value := by
  have hu := (recon_wrappers w hw).2.1
  have : (Unpack.mk "tomo" true "dy" "dt" "dx").run loc = .error .value := by
    unfold Unpack.run
    rw [ht]
    match shape, h2, h3 with
    | [], _, _ => rfl
    | [_], _, _ => rfl
    | _ :: _ :: _ :: _ :: _, _, _ => rfl
    | [_, _], h2, _ => exact absurd rfl h2
    | [_, _, _], _, h3 => exact absurd rfl h3
  unfold Wrapper.run
  rw [hu]
  simp only [List.foldlM_cons, this, bind, Except.bind]

/-- `sirt`, `mlem`, `pml_hybrid` and `pml_quad` run with one block, whatever `kwargs` says. -/
theorem oneBlock_sees : ∀ w ∈ [cMlem, cSirt, cPmlHybrid, cPmlQuad], ∀ {loc kw : Env F}
    {vs : List (CVal F)}, w.run ofInt loc kw = .ok vs → ∃ fr, enter (proto w.fn) vs = some fr ∧
      fr "num_block" = some (.int 1) ∧ fr "ind_block" = some (.ptr .intP arange1) := by
  intro w hw loc kw vs h
  have hW : w ∈ wrappers ∧ w.oneBlock = true ∧ (CTy.int, "num_block") ∈ proto w.fn ∧
      (CTy.intP, "ind_block") ∈ proto w.fn ∧ meaning w.fn "num_block" = .kw "num_block" ∧
      meaning w.fn "ind_block" = .kw "ind_block" := by
    clear h; revert w; decide +kernel
  obtain ⟨hm, hb, p1, p2, m1, m2⟩ := hW
  obtain ⟨l, fr, -, hfr, hp⟩ := run_sees hm h
  refine ⟨fr, hfr, ?_, ?_⟩
  · obtain ⟨x, v, hx, hv, hf⟩ := hp _ p1
    obtain ⟨z, rfl, rfl⟩ := conv_int hv
    simp only [m1] at hx
    have := eval_kw hx
    simp only [kwOf, hb, if_true, Env.set, Option.some.injEq, PyVal.int.injEq] at this
    rw [hf, ← this]; rfl
  · obtain ⟨x, v, hx, hv, hf⟩ := hp _ p2
    obtain ⟨b, s, rfl, rfl⟩ := conv_intP hv
    simp only [m2] at hx
    have := eval_kw hx
    simp only [kwOf, hb, if_true, Env.set] at this
    rw [if_neg (by decide)] at this
    simp only [Option.some.injEq, PyVal.arr.injEq] at this
    rw [hf, ← this.1]

/-! ## A case -/

/-- The locals of a call of `c_art` with 3 slices, 5 angles, 7 detector pixels. -/
def demoLoc : Env Int := fun n =>
  if n = "tomo" then some (.arr 1 [3, 5, 7]) else if n = "center" then some (.arr 2 [3])
  else if n = "recon" then some (.arr 3 [3, 7, 8]) else if n = "theta" then some (.arr 4 [5])
  else none

/-- Its `kwargs`. -/
def demoKw (iter : Int) : Env Int := fun n =>
  if n = "num_gridx" then some (.int 7) else if n = "num_gridy" then some (.int 8)
  else if n = "num_iter" then some (.int iter) else none

theorem demo_run (iter : Int) : cArt.run id demoLoc (demoKw iter) = .ok [.ptr .floatP 1, .int 3, .int 5,
    .int 7, .ptr .floatP 2, .ptr .floatP 4, .ptr .floatP 3, .int 7, .int 8, .int (wrap32 iter)] := rfl

/-- The hypotheses of `recon_sees` and `run_sees` are met, by data of three slices. -/
example : cArt ∈ reconWrappers ∧ ∃ vs, cArt.run id demoLoc (demoKw 2) = .ok vs :=
  ⟨by decide +kernel, _, demo_run 2⟩

/-- One block for `sirt`, although `kwargs` has none. -/
example : ∃ vs, cSirt.run id demoLoc (demoKw 2) = .ok vs := ⟨_, rfl⟩

/-- Data of four dimensions. -/
example : cTv.run id ((demoLoc).set "tomo" (.arr 1 [2, 3, 5, 7])) (demoKw 2) = .error .value :=
  recon_bad_shape (by decide +kernel) (a := 1) (shape := [2, 3, 5, 7]) rfl (by decide) (by decide)

/-- Integers that do not fit into an `int` do not raise: `num_iter = 2 ** 32` arrives as 0, and
`2 ** 31` as a negative number. -/
theorem overflow_silent : ∃ vs ws fr fr',
    cArt.run id demoLoc (demoKw (2 ^ 32)) = .ok vs ∧ cArt.run id demoLoc (demoKw (2 ^ 31)) = .ok ws ∧
    enter (proto cArt.fn) vs = some fr ∧ enter (proto cArt.fn) ws = some fr' ∧
    fr "num_iter" = some (.int 0) ∧ fr' "num_iter" = some (.int (-2 ^ 31)) :=
  ⟨_, _, _, _, demo_run _, demo_run _, if_pos rfl, if_pos rfl, rfl, rfl⟩

end Tomopy.Extern
