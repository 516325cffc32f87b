import Verif.CInt.Model
import Verif.Mproc.Props
import Mathlib.Tactic.Ring
import Mathlib.Tactic.Linarith

/-! C142: the `int` offsets and sizes of the C code are the intended ones exactly up to 2^31
elements per call. -/
set_option linter.unusedSectionVars false
namespace Tomopy.CInt
open Tomopy.Mproc

/-! ### Evaluation of `int` expressions -/

/-- `e` is an `int` expression with the value `n`. -/
def Ok (e : CE) (n : Nat) : Prop := e.ty = .i32 ∧ e.eval = some (n : Int) ∧ n < 2 ^ 31

theorem ok_i {n : Nat} (h : n < 2 ^ 31) : Ok (.i n) n := ⟨rfl, rfl, h⟩

theorem conv_small {v : Int} (h0 : 0 ≤ v) (h1 : v < 2 ^ 31) (t : Ty) : conv t v = v := by
  cases t <;> simp only [conv] <;> omega

theorem norm_small {v : Int} (h0 : 0 ≤ v) (h1 : v < 2 ^ 31) (t : Ty) : norm t v = some v := by
  cases t
  · exact if_pos ⟨by omega, h1⟩
  · exact congrArg some (by omega)
  · exact congrArg some (by omega)

theorem ok_add {a b : CE} {x y : Nat} (ha : Ok a x) (hb : Ok b y) (h : x + y < 2 ^ 31) :
    Ok (a +ᶜ b) (x + y) := by
  obtain ⟨ha1, ha2, ha3⟩ := ha
  obtain ⟨hb1, hb2, hb3⟩ := hb
  refine ⟨by simp [CE.ty, ha1, hb1, Ty.join], ?_, h⟩
  simp only [CE.eval, ha2, hb2, Option.bind_eq_bind, Option.bind_some]
  rw [conv_small (by omega) (by omega), conv_small (by omega) (by omega),
    norm_small (by omega) (by omega)]
  push_cast
  rfl

theorem ok_mul {a b : CE} {x y : Nat} (ha : Ok a x) (hb : Ok b y) (h : x * y < 2 ^ 31) :
    Ok (a *ᶜ b) (x * y) := by
  obtain ⟨ha1, ha2, ha3⟩ := ha
  obtain ⟨hb1, hb2, hb3⟩ := hb
  refine ⟨by simp [CE.ty, ha1, hb1, Ty.join], ?_, h⟩
  simp only [CE.eval, ha2, hb2, Option.bind_eq_bind, Option.bind_some]
  rw [conv_small (by omega) (by omega), conv_small (by omega) (by omega)]
  have : ((x * y : Nat) : Int) = (x : Int) * y := by push_cast; rfl
  rw [← this, norm_small (by omega) (by omega)]

theorem ok_sub {a b : CE} {x y : Nat} (ha : Ok a x) (hb : Ok b y) (h : y ≤ x) :
    Ok (a -ᶜ b) (x - y) := by
  obtain ⟨ha1, ha2, ha3⟩ := ha
  obtain ⟨hb1, hb2, hb3⟩ := hb
  refine ⟨by simp [CE.ty, ha1, hb1, Ty.join], ?_, by omega⟩
  simp only [CE.eval, ha2, hb2, Option.bind_eq_bind, Option.bind_some]
  rw [conv_small (by omega) (by omega), conv_small (by omega) (by omega),
    norm_small (by omega) (by omega)]
  congr 1
  omega

theorem norm_lt {v w : Int} (h : norm .i32 v = some w) : w < 2 ^ 31 := by
  simp only [norm] at h
  split at h
  · simp only [Option.some.injEq] at h
    omega
  · exact absurd h (by simp)

/-- A defined `int` sum lies below 2^31. -/
theorem add_lt {a b : CE} (ht : (a +ᶜ b).ty = .i32) {n : Nat} (h : (a +ᶜ b).eval = some (n : Int)) :
    n < 2 ^ 31 := by
  simp only [CE.ty] at ht
  simp only [CE.eval, ht] at h
  cases ha : a.eval with
  | none => simp [ha] at h
  | some x =>
    cases hb : b.eval with
    | none => simp [ha, hb] at h
    | some y =>
      simp only [ha, hb, Option.bind_eq_bind, Option.bind_some] at h
      have := norm_lt h
      omega

/-- A defined `int` product lies below 2^31. -/
theorem mul_lt {a b : CE} (ht : (a *ᶜ b).ty = .i32) {n : Nat} (h : (a *ᶜ b).eval = some (n : Int)) :
    n < 2 ^ 31 := by
  simp only [CE.ty] at ht
  simp only [CE.eval, ht] at h
  cases ha : a.eval with
  | none => simp [ha] at h
  | some x =>
    cases hb : b.eval with
    | none => simp [ha, hb] at h
    | some y =>
      simp only [ha, hb, Option.bind_eq_bind, Option.bind_some] at h
      have := norm_lt h
      omega

/-! ### Offsets in row-major order -/

theorem rowMajor_lt {l n m i j k : Nat} (hi : i < l) (hj : j < n) (hk : k < m) :
    rowMajor n m i j k < l * n * m := by
  have h1 : i * n + j + 1 ≤ l * n := by
    calc i * n + j + 1 ≤ i * n + n := by omega
      _ = (i + 1) * n := by ring
      _ ≤ l * n := Nat.mul_le_mul_right _ hi
  calc rowMajor n m i j k < (i * n + j) * m + m := by unfold rowMajor; omega
    _ = (i * n + j + 1) * m := by ring
    _ ≤ l * n * m := Nat.mul_le_mul_right _ h1

theorem rowMajor_last {l n m : Nat} (hl : 0 < l) (hn : 0 < n) (hm : 0 < m) :
    rowMajor n m (l - 1) (n - 1) (m - 1) + 1 = l * n * m := by
  obtain ⟨a, rfl⟩ : ∃ a, l = a + 1 := ⟨l - 1, by omega⟩
  obtain ⟨b, rfl⟩ : ∃ b, n = b + 1 := ⟨n - 1, by omega⟩
  obtain ⟨c, rfl⟩ : ∃ c, m = c + 1 := ⟨m - 1, by omega⟩
  simp only [rowMajor, Nat.add_sub_cancel]
  ring

theorem rowMajor_parts (n m i j k : Nat) : rowMajor n m i j k = k + j * m + i * n * m := by
  unfold rowMajor
  ring

theorem le_mul_pos (a : Nat) {b : Nat} (hb : 0 < b) : a ≤ a * b := Nat.le_mul_of_pos_right a hb

/-! ### The functions of libtomo/recon -/

/-- All dimensions are positive and are representable as `int`. -/
structure Valid (D : Dims) : Prop where
  y : 0 < D.dy ∧ D.dy < 2 ^ 31
  t : 0 < D.dt ∧ D.dt < 2 ^ 31
  x : 0 < D.dx ∧ D.dx < 2 ^ 31
  gx : 0 < D.gx ∧ D.gx < 2 ^ 31
  gy : 0 < D.gy ∧ D.gy < 2 ^ 31

/-- The size limits: data and images of one call have at most 2^31 elements; what the function
allocates a copy of has fewer than 2^31. -/
structure Fits (k : Kernel) (D : Dims) : Prop where
  data : D.dy * D.dt * D.dx ≤ 2 ^ 31
  img : D.dy * D.gx * D.gy ≤ 2 ^ 31
  copyData : k.copiesData = true → D.dy * D.dt * D.dx < 2 ^ 31
  copyPlane : k.copiesPlane = true → D.gx * D.gy < 2 ^ 31
  copyImages : k.copiesImages = true → D.dy * D.gx * D.gy < 2 ^ 31

/-- `c * n * m`, multiplied from the left, evaluates to its value. -/
theorem ok_prod {c n m : Nat} (hc : c < 2 ^ 31) (hn : n < 2 ^ 31) (hm : 0 < m ∧ m < 2 ^ 31)
    (h : c * n * m < 2 ^ 31) : Ok (.i c *ᶜ .i n *ᶜ .i m) (c * n * m) :=
  ok_mul (ok_mul (ok_i hc) (ok_i hn) (lt_of_le_of_lt (le_mul_pos _ hm.1) h)) (ok_i hm.2) h

/-- `a + b * m + c * n * m`, summed from the left, evaluates to its value. -/
theorem ok_form {a b c n m : Nat} (ha : a < 2 ^ 31) (hb : b < 2 ^ 31) (hc : c < 2 ^ 31)
    (hn : n < 2 ^ 31) (hm : 0 < m ∧ m < 2 ^ 31) (h : a + b * m + c * n * m < 2 ^ 31) :
    Ok (.i a +ᶜ .i b *ᶜ .i m +ᶜ .i c *ᶜ .i n *ᶜ .i m) (a + b * m + c * n * m) :=
  ok_add (ok_add (ok_i ha) (ok_mul (ok_i hb) (ok_i hm.2) (by omega)) (by omega))
    (ok_prod hc hn hm (by omega)) h

/-- Every offset and every size that a reconstruction or projection function computes with
`int` arithmetic is defined and is the intended row-major offset or number of elements, if the
data and the images of the call respect the limits. -/
theorem computes_exact {k : Kernel} {D : Dims} (hv : Valid D) (hf : Fits k D) {e : CE} {v : Nat}
    (h : Computes D k e v) : e.eval = some (v : Int) := by
  obtain ⟨vy, vt, vx, vgx, vgy⟩ := hv
  obtain ⟨fd, fi, fc, fp, fm⟩ := hf
  cases h with
  | data s p d hs hp hd =>
    have hlt := rowMajor_lt hs hp hd
    rw [rowMajor_parts] at hlt ⊢
    exact (ok_form (by omega) (by omega) (by omega) vt.2 vx (by omega)).2.1
  | img hk s n m hs hn hm =>
    have hlt := rowMajor_lt hs hn hm
    rw [rowMajor_parts] at hlt ⊢
    have h1 := ok_add (ok_i (n := n * D.gy + m) (by omega))
      (ok_prod (c := s) (by omega) vgx.2 vgy (by omega)) (by omega)
    have h2 := h1.2.1
    rwa [show n * D.gy + m + s * D.gx * D.gy = m + n * D.gy + s * D.gx * D.gy by ring] at h2
  | pen hk s n m hs hn hm =>
    have hlt := rowMajor_lt hs hn hm
    rw [rowMajor_parts] at hlt ⊢
    exact (ok_form (by omega) (by omega) (by omega) vgx.2 vgy (by omega)).2.1
  | penNext hk s n m hs hn hm =>
    have hlt := rowMajor_lt hs hn hm
    rw [rowMajor_parts] at hlt ⊢
    have h0 : (n + 1) * D.gy = n * D.gy + D.gy := by ring
    have h1 := ok_add (ok_add (ok_form (a := m) (b := n) (c := s) (by omega) (by omega)
      (by omega) vgx.2 vgy (by omega)) (ok_i vgy.2) (by omega)) (ok_i (n := 1) (by omega))
      (by omega)
    have h2 := h1.2.1
    rwa [show m + n * D.gy + s * D.gx * D.gy + D.gy + 1 =
      m + 1 + (n + 1) * D.gy + s * D.gx * D.gy by ring] at h2
  | row hk s iy ix hs hy hx =>
    have hlt := rowMajor_lt hs hy hx
    rw [rowMajor_parts] at hlt ⊢
    rw [show D.dy * D.gy * D.gx = D.dy * D.gx * D.gy by ring,
      show s * D.gy * D.gx = s * D.gx * D.gy by ring] at hlt
    have h1 := ok_add (ok_add (ok_prod (c := s) (by omega) vgx.2 vgy (by omega))
      (ok_mul (ok_i (n := iy) (by omega)) (ok_i vgx.2) (by omega)) (by omega))
      (ok_i (n := ix) (by omega)) (by omega)
    have h2 := h1.2.1
    rwa [show s * D.gx * D.gy + iy * D.gx + ix = ix + iy * D.gx + s * D.gy * D.gx by ring] at h2
  | dataLen hk =>
    exact (ok_prod vy.2 vt.2 vx (fc (by rcases hk with rfl | rfl | rfl | rfl | rfl | rfl <;> rfl))).2.1
  | dataLen' hk =>
    have hc : D.dy * D.dt * D.dx < 2 ^ 31 := fc (by rcases hk with rfl | rfl | rfl <;> rfl)
    have h1 := (ok_prod (c := D.dt) (n := D.dy) vt.2 vy.2 vx
      (by rwa [Nat.mul_comm D.dt D.dy])).2.1
    rwa [Nat.mul_comm D.dt D.dy] at h1
  | planeLen hk =>
    have hc : D.gx * D.gy < 2 ^ 31 := fp (by cases k <;> first | rfl | simp at hk)
    exact (ok_mul (ok_i vgx.2) (ok_i vgy.2) hc).2.1
  | volLen hk =>
    exact (ok_prod vy.2 vgx.2 vgy (fm (by rcases hk with rfl | rfl | rfl <;> rfl))).2.1

/-- **C142** In one call of a projection or reconstruction function all offsets and sizes are
the intended ones if and only if the data and the images of the call have at most 2^31
elements (fewer than 2^31 where the function allocates a copy). -/
theorem index_exact_iff (k : Kernel) (D : Dims) (hv : Valid D) :
    (∀ e v, Computes D k e v → e.eval = some (v : Int)) ↔ Fits k D := by
  refine ⟨fun h => ?_, fun hf e v hc => computes_exact hv hf hc⟩
  have hd := add_lt rfl (h _ _ (.data k (D.dy - 1) (D.dt - 1) (D.dx - 1)
    (by have := hv.y; omega) (by have := hv.t; omega) (by have := hv.x; omega)))
  have hd' := rowMajor_last hv.y.1 hv.t.1 hv.x.1
  have hi' := rowMajor_last hv.y.1 hv.gx.1 hv.gy.1
  refine ⟨by omega, ?_, fun hk => ?_, fun hk => ?_, fun hk => ?_⟩
  · by_cases hk : k = .vector
    · have := add_lt rfl (h _ _ (.pen k (.inl hk) (D.dy - 1) (D.gx - 1) (D.gy - 1)
        (by have := hv.y; omega) (by have := hv.gx; omega) (by have := hv.gy; omega)))
      omega
    · have := add_lt rfl (h _ _ (.img k hk (D.dy - 1) (D.gx - 1) (D.gy - 1)
        (by have := hv.y; omega) (by have := hv.gx; omega) (by have := hv.gy; omega)))
      omega
  · have hk' : (k = .art ∨ k = .bart ∨ k = .osem ∨ k = .grad ∨ k = .tikh ∨ k = .tv) ∨
        (k = .ospmlQuad ∨ k = .ospmlHybrid ∨ k = .vector) := by
      cases k <;> simp [Kernel.copiesData] at hk ⊢
    rcases hk' with hk' | hk'
    · exact mul_lt rfl (h _ _ (.dataLen k hk'))
    · exact mul_lt rfl (h _ _ (.dataLen' k hk'))
  · exact mul_lt rfl (h _ _ (.planeLen k (by cases k <;> simp [Kernel.copiesPlane] at hk ⊢)))
  · exact mul_lt rfl (h _ _ (.volLen k (by cases k <;> simp [Kernel.copiesImages] at hk ⊢)))

/-- A call of ordinary size respects the limits. -/
example : Fits .tv ⟨8, 1800, 2560, 2560, 2560⟩ ∧ Valid ⟨8, 1800, 2560, 2560, 2560⟩ :=
  ⟨⟨by norm_num, by norm_num, fun _ => by norm_num, fun _ => by norm_num, fun _ => by norm_num⟩,
    ⟨by norm_num, by norm_num, by norm_num, by norm_num, by norm_num⟩⟩

/-! ### What the overflowing offsets become -/

theorem conv_add (a b : Int) : conv .i32 (conv .i32 a + conv .i32 b) = conv .i32 (a + b) := by
  simp only [conv]
  omega

theorem conv_mul (a b : Int) : conv .i32 (conv .i32 a * conv .i32 b) = conv .i32 (a * b) := by
  have key : ∀ v : Int, ∃ q : Int, conv .i32 v = v + 2 ^ 32 * q := fun v =>
    ⟨-((v + 2 ^ 31) / 2 ^ 32), by simp only [conv]; omega⟩
  obtain ⟨p, hp⟩ := key a
  obtain ⟨q, hq⟩ := key b
  rw [hp, hq, show (a + 2 ^ 32 * p) * (b + 2 ^ 32 * q) =
    a * b + 2 ^ 32 * (a * q + p * b + 2 ^ 32 * (p * q)) by ring]
  generalize a * q + p * b + 2 ^ 32 * (p * q) = r
  generalize a * b = w
  simp only [conv]
  omega

theorem conv_sub (a b : Int) : conv .i32 (conv .i32 a - conv .i32 b) = conv .i32 (a - b) := by
  simp only [conv]
  omega

/-- The value of an expression in unbounded arithmetic. -/
def CE.exact : CE → Int
  | .var _ v => v
  | .add a b => a.exact + b.exact
  | .sub a b => a.exact - b.exact
  | .mul a b => a.exact * b.exact
  | .cast _ a => a.exact

/-- Expressions built from `int` variables only. -/
def CE.AllInt : CE → Prop
  | .var t v => t = .i32 ∧ -2 ^ 31 ≤ v ∧ v < 2 ^ 31
  | .add a b => a.AllInt ∧ b.AllInt
  | .sub a b => a.AllInt ∧ b.AllInt
  | .mul a b => a.AllInt ∧ b.AllInt
  | .cast _ _ => False

theorem conv_range {v : Int} (h : -2 ^ 31 ≤ v ∧ v < 2 ^ 31) : conv .i32 v = v := by
  simp only [conv]
  omega

theorem allInt_ty : ∀ {e : CE}, e.AllInt → e.ty = .i32
  | .var _ _, h => h.1
  | .add a b, h => by simp [CE.ty, allInt_ty h.1, allInt_ty h.2, Ty.join]
  | .sub a b, h => by simp [CE.ty, allInt_ty h.1, allInt_ty h.2, Ty.join]
  | .mul a b, h => by simp [CE.ty, allInt_ty h.1, allInt_ty h.2, Ty.join]

/-- An `int` expression wraps to its exact value modulo 2^32. -/
theorem wrap_exact : ∀ {e : CE}, e.AllInt → e.wrap = conv .i32 e.exact
  | .var _ v, h => (conv_range h.2).symm
  | .add a b, h => by
    simp only [CE.wrap, CE.exact, allInt_ty h.1, allInt_ty h.2, Ty.join, wrap_exact h.1,
      wrap_exact h.2, conv_add]
  | .sub a b, h => by
    simp only [CE.wrap, CE.exact, allInt_ty h.1, allInt_ty h.2, Ty.join, wrap_exact h.1,
      wrap_exact h.2, conv_sub]
  | .mul a b, h => by
    simp only [CE.wrap, CE.exact, allInt_ty h.1, allInt_ty h.2, Ty.join, wrap_exact h.1,
      wrap_exact h.2, conv_mul]

theorem norm_i32 {v w : Int} (h : norm .i32 v = some w) : w = v ∧ -2 ^ 31 ≤ w ∧ w < 2 ^ 31 := by
  simp only [norm] at h
  split at h
  · simp only [Option.some.injEq] at h
    omega
  · exact absurd h (by simp)

/-- If an `int` expression has a defined value, that value is exact and is representable. -/
theorem eval_exact : ∀ {e : CE}, e.AllInt → ∀ {w : Int}, e.eval = some w →
    w = e.exact ∧ -2 ^ 31 ≤ w ∧ w < 2 ^ 31
  | .var _ v, h, w, hw => by
    simp only [CE.eval, Option.some.injEq] at hw
    obtain ⟨-, h1, h2⟩ := h
    exact ⟨by simp [CE.exact, hw], by omega, by omega⟩
  | .add a b, h, w, hw => by
    simp only [CE.eval, allInt_ty h.1, allInt_ty h.2, Ty.join] at hw
    cases ha : a.eval with
    | none => simp [ha] at hw
    | some x =>
      cases hb : b.eval with
      | none => simp [ha, hb] at hw
      | some y =>
        simp only [ha, hb, Option.bind_eq_bind, Option.bind_some] at hw
        obtain ⟨hx, hx'⟩ := eval_exact h.1 ha
        obtain ⟨hy, hy'⟩ := eval_exact h.2 hb
        rw [conv_range hx', conv_range hy'] at hw
        obtain ⟨h1, h2⟩ := norm_i32 hw
        exact ⟨by rw [h1, hx, hy]; rfl, h2⟩
  | .sub a b, h, w, hw => by
    simp only [CE.eval, allInt_ty h.1, allInt_ty h.2, Ty.join] at hw
    cases ha : a.eval with
    | none => simp [ha] at hw
    | some x =>
      cases hb : b.eval with
      | none => simp [ha, hb] at hw
      | some y =>
        simp only [ha, hb, Option.bind_eq_bind, Option.bind_some] at hw
        obtain ⟨hx, hx'⟩ := eval_exact h.1 ha
        obtain ⟨hy, hy'⟩ := eval_exact h.2 hb
        rw [conv_range hx', conv_range hy'] at hw
        obtain ⟨h1, h2⟩ := norm_i32 hw
        exact ⟨by rw [h1, hx, hy]; rfl, h2⟩
  | .mul a b, h, w, hw => by
    simp only [CE.eval, allInt_ty h.1, allInt_ty h.2, Ty.join] at hw
    cases ha : a.eval with
    | none => simp [ha] at hw
    | some x =>
      cases hb : b.eval with
      | none => simp [ha, hb] at hw
      | some y =>
        simp only [ha, hb, Option.bind_eq_bind, Option.bind_some] at hw
        obtain ⟨hx, hx'⟩ := eval_exact h.1 ha
        obtain ⟨hy, hy'⟩ := eval_exact h.2 hb
        rw [conv_range hx', conv_range hy'] at hw
        obtain ⟨h1, h2⟩ := norm_i32 hw
        exact ⟨by rw [h1, hx, hy]; rfl, h2⟩

theorem allInt_i {n : Nat} (h : n < 2 ^ 31) : (CE.i n).AllInt := ⟨rfl, by omega, by omega⟩

/-- **C142** If a call has more than 2^31 data values (and at most 2^32), the offset of every
value from position 2^31 on has no defined value, and with the usual wrap-around it is
negative: the access lies before the start of the array. -/
theorem data_wrap_negative (D : Dims) (hv : Valid D) (s p d : Nat) (hs : s < D.dy) (hp : p < D.dt)
    (hd : d < D.dx) (h1 : 2 ^ 31 ≤ rowMajor D.dt D.dx s p d)
    (h2 : rowMajor D.dt D.dx s p d < 2 ^ 32) :
    (dataIx D s p d).eval = none ∧
    (dataIx D s p d).wrap = (rowMajor D.dt D.dx s p d : Int) - 2 ^ 32 ∧
    (dataIx D s p d).wrap < 0 := by
  have vy := hv.y
  have vt := hv.t
  have vx := hv.x
  have hA : (dataIx D s p d).AllInt :=
    ⟨⟨allInt_i (by omega), allInt_i (by omega), allInt_i vx.2⟩,
      ⟨allInt_i (by omega), allInt_i vt.2⟩, allInt_i vx.2⟩
  have hE : (dataIx D s p d).exact = (rowMajor D.dt D.dx s p d : Nat) := by
    rw [rowMajor_parts]
    simp only [dataIx, CE.exact, CE.i]
    push_cast
    rfl
  have hw := wrap_exact hA
  rw [hE] at hw
  refine ⟨?_, ?_, ?_⟩
  · cases he : (dataIx D s p d).eval with
    | none => rfl
    | some w =>
      have := eval_exact hA he
      omega
  · rw [hw]
    simp only [conv]
    omega
  · rw [hw]
    simp only [conv]
    omega

/-- The same for the images of a call. -/
theorem image_wrap_negative (D : Dims) (hv : Valid D) (s n m : Nat) (hs : s < D.dy)
    (hn : n < D.gx) (hm : m < D.gy) (hp : D.gx * D.gy < 2 ^ 31)
    (h1 : 2 ^ 31 ≤ rowMajor D.gx D.gy s n m) (h2 : rowMajor D.gx D.gy s n m < 2 ^ 32) :
    (imgIx D s (n * D.gy + m)).eval = none ∧
    (imgIx D s (n * D.gy + m)).wrap = (rowMajor D.gx D.gy s n m : Int) - 2 ^ 32 ∧
    (imgIx D s (n * D.gy + m)).wrap < 0 := by
  have vy := hv.y
  have vgx := hv.gx
  have vgy := hv.gy
  have hlt : n * D.gy + m < D.gx * D.gy := by
    have := rowMajor_lt (l := 1) (i := 0) (by omega) hn hm
    simpa [rowMajor] using this
  have hA : (imgIx D s (n * D.gy + m)).AllInt :=
    ⟨allInt_i (by omega), ⟨allInt_i (by omega), allInt_i vgx.2⟩, allInt_i vgy.2⟩
  have hE : (imgIx D s (n * D.gy + m)).exact = (rowMajor D.gx D.gy s n m : Nat) := by
    rw [rowMajor_parts]
    simp only [imgIx, CE.exact, CE.i]
    push_cast
    ring
  have hw := wrap_exact hA
  rw [hE] at hw
  refine ⟨?_, ?_, ?_⟩
  · cases he : (imgIx D s (n * D.gy + m)).eval with
    | none => rfl
    | some w =>
      have := eval_exact hA he
      omega
  · rw [hw]
    simp only [conv]
    omega
  · rw [hw]
    simp only [conv]
    omega

/-- Angle 1700, pixel 1000 of slice 539 of 540 slices with 1800 angles and 2560 pixels. -/
example : Valid ⟨540, 1800, 2560, 2560, 2560⟩ ∧ 2 ^ 31 ≤ rowMajor 1800 2560 539 1700 1000 ∧
    rowMajor 1800 2560 539 1700 1000 < 2 ^ 32 :=
  ⟨⟨by norm_num, by norm_num, by norm_num, by norm_num, by norm_num⟩, by norm_num [rowMajor],
    by norm_num [rowMajor]⟩

/-! ### gridrec -/

/-- The first slice of the last pair (gridrec takes slices 0, 2, 4, …). -/
def lastPair (n : Nat) : Nat := (n - 1) / 2 * 2

/-- The limits of `gridrec`. -/
structure GridFits (D : Dims) : Prop where
  data : D.dx * (D.dt - 1 + lastPair D.dy * D.dt) < 2 ^ 31
  sino : D.dx * D.dt < 2 ^ 31
  slc2 : (lastPair D.dy + 1) * D.gx * D.gy < 2 ^ 31
  img : D.dy * D.gx * D.gy ≤ 2 ^ 31
  det : D.dx ≤ 32768

theorem pdimLoop_pow (dx : Nat) : ∀ fuel p, ∃ i, pdimLoop dx fuel p = p * 2 ^ i
  | 0, p => ⟨0, by simp [pdimLoop]⟩
  | fuel + 1, p => by
    unfold pdimLoop
    split
    · obtain ⟨i, hi⟩ := pdimLoop_pow dx fuel (p * 2)
      exact ⟨i + 1, by rw [hi, pow_succ]; ring⟩
    · exact ⟨0, by simp⟩

theorem pdimLoop_ge (dx : Nat) : ∀ fuel p, dx ≤ p * 2 ^ fuel → dx ≤ pdimLoop dx fuel p
  | 0, p, h => by simpa [pdimLoop] using h
  | fuel + 1, p, h => by
    unfold pdimLoop
    split
    · exact pdimLoop_ge dx fuel (p * 2) (by rw [pow_succ] at h; linarith)
    · omega

theorem pdimLoop_le (dx : Nat) : ∀ fuel p i, dx ≤ p * 2 ^ i → pdimLoop dx fuel p ≤ p * 2 ^ i
  | 0, p, i, _ => by
    simp only [pdimLoop]
    exact le_mul_pos p (by positivity)
  | fuel + 1, p, i, h => by
    unfold pdimLoop
    split
    · cases i with
      | zero => simp at h; omega
      | succ i =>
        have := pdimLoop_le dx fuel (p * 2) i (by rw [pow_succ] at h; linarith)
        rw [pow_succ]
        linarith
    · exact le_mul_pos p (by positivity)

theorem pdim_ge (dx : Nat) : dx ≤ pdim dx := by
  refine pdimLoop_ge dx dx 16 ?_
  have := @Nat.lt_two_pow_self dx
  omega

theorem pdim_sq_iff (dx : Nat) : pdim dx * pdim dx < 2 ^ 31 ↔ dx ≤ 32768 := by
  constructor
  · intro h
    obtain ⟨i, hi⟩ := pdimLoop_pow dx dx 16
    have hi' : pdim dx = 16 * 2 ^ i := hi
    have hle : i ≤ 11 := by
      by_contra hc
      have h1 : 2 ^ 12 ≤ 2 ^ i := Nat.pow_le_pow_right (by norm_num) (by omega)
      have h2 : 2 ^ 16 ≤ pdim dx := by omega
      have := Nat.mul_le_mul h2 h2
      omega
    have h1 : 2 ^ i ≤ 2 ^ 11 := Nat.pow_le_pow_right (by norm_num) hle
    have := pdim_ge dx
    omega
  · intro h
    have h1 : pdim dx ≤ 32768 := pdimLoop_le dx dx 16 11 (by norm_num; omega)
    have := Nat.mul_le_mul h1 h1
    omega

/-- The value of the first slice of a pair: `dx * (p + s * dt)` must be an `int`, the rest is
`unsigned`. -/
theorem grid_ix {D : Dims} (hv : Valid D) {s p j : Nat} (hs : s < D.dy) (hp : p < D.dt)
    (hj : j < D.dx) (h : D.dx * (p + s * D.dt) < 2 ^ 31) :
    (gridIx D s p j).ty = .u32 ∧
    (gridIx D s p j).eval = some ((j + D.dx * (p + s * D.dt) : Nat) : Int) := by
  have vy := hv.y
  have vt := hv.t
  have vx := hv.x
  have h0 : p + s * D.dt ≤ D.dx * (p + s * D.dt) := Nat.le_mul_of_pos_left _ vx.1
  have hin := (ok_mul (ok_i vx.2) (ok_add (ok_i (n := p) (by omega))
    (ok_mul (ok_i (n := s) (by omega)) (ok_i vt.2) (by omega)) (by omega)) h).2.1
  refine ⟨rfl, ?_⟩
  unfold gridIx
  rw [CE.eval, CE.eval.eq_5, hin]
  generalize D.dx * (p + s * D.dt) = q at h
  simp only [CE.eval, CE.i, CE.ty, Ty.join, Option.bind_eq_bind, Option.bind_some, conv, norm]
  refine congrArg some ?_
  omega

theorem eval_cast {t : Ty} {e : CE} {v : Int} (h : e.eval = some v) :
    (CE.cast t e).eval = some (conv t v) := by
  rw [CE.eval, h]
  rfl

theorem cast_some {t : Ty} {e : CE} {v : Int} (h : (CE.cast t e).eval = some v) :
    ∃ w, e.eval = some w := by
  cases he : e.eval with
  | none => simp [CE.eval, he] at h
  | some w => exact ⟨w, rfl⟩

theorem add_right_some {a b : CE} {v : Int} (h : (a +ᶜ b).eval = some v) :
    ∃ w, b.eval = some w := by
  cases hb : b.eval with
  | none =>
    cases ha : a.eval <;> simp [CE.eval, ha, hb] at h
  | some w => exact ⟨w, rfl⟩

/-- Value of the second slice of a pair. -/
theorem grid_ix2 {D : Dims} (hv : Valid D) {s p j : Nat} (hs : s < D.dy) (hp : p < D.dt)
    (hj : j < D.dx) (h : D.dx * (p + s * D.dt) < 2 ^ 31) (hd : D.dx * D.dt < 2 ^ 31)
    (h2 : s % 2 = 0) :
    (gridIx2 D s p j).eval = some ((j + D.dx * (p + s * D.dt) + D.dx * D.dt : Nat) : Int) := by
  obtain ⟨ht, he⟩ := grid_ix hv hs hp hj h
  have hc := eval_cast (t := .u32) (ok_mul (ok_i hv.x.2) (ok_i hv.t.2) hd).2.1
  have hbound : j + D.dx * (p + s * D.dt) + D.dx * D.dt < 2 ^ 32 := by
    have h1 : D.dx ≤ D.dx * D.dt := le_mul_pos _ hv.t.1
    rcases Nat.eq_zero_or_pos s with h0 | h0
    · subst h0
      have h3 : D.dx * p + D.dx ≤ D.dx * D.dt := by
        calc D.dx * p + D.dx = D.dx * (p + 1) := by ring
          _ ≤ _ := Nat.mul_le_mul_left _ hp
      simp only [Nat.zero_mul, Nat.add_zero] at h ⊢
      omega
    · obtain ⟨t, rfl⟩ : ∃ t, s = t + 2 := ⟨s - 2, by omega⟩
      have h3 : D.dx * (p + (t + 2) * D.dt) = D.dx * (p + t * D.dt) + 2 * (D.dx * D.dt) := by ring
      omega
  unfold gridIx2
  rw [CE.eval, he, hc, ht]
  generalize j + D.dx * (p + s * D.dt) = q at hbound
  generalize D.dx * D.dt = r at hbound hd
  simp only [CE.ty, Ty.join, Option.bind_eq_bind, Option.bind_some, conv, norm]
  refine congrArg some ?_
  push_cast
  omega

theorem grid_out {D : Dims} (hv : Valid D) {s k j : Nat} (hs : s < D.dy) (hk : k < D.gx)
    (hj : j < D.gy) (h : rowMajor D.gx D.gy s (D.gx - 1 - k) j < 2 ^ 31) :
    Ok (gridOut D s k j) (rowMajor D.gx D.gy s (D.gx - 1 - k) j) := by
  have vy := hv.y
  have vgx := hv.gx
  have vgy := hv.gy
  rw [rowMajor_parts] at h ⊢
  rw [show j + (D.gx - 1 - k) * D.gy + s * D.gx * D.gy =
    s * D.gx * D.gy + D.gy * (D.gx - 1 - k) + j by ring] at h ⊢
  exact ok_add (ok_add (ok_prod (by omega) vgx.2 vgy (by omega))
    (ok_mul (ok_i vgy.2) (ok_sub (ok_sub (ok_i vgx.2) (ok_i (n := 1) (by omega)) vgx.1)
      (ok_i (n := k) (by omega)) (by omega)) (by omega)) (by omega)) (ok_i (n := j) (by omega)) h

theorem grid_out2 {D : Dims} (hv : Valid D) {s k j : Nat} (hs : s + 1 < D.dy) (hk : k < D.gx)
    (hj : j < D.gy) (h : rowMajor D.gx D.gy (s + 1) (D.gx - 1 - k) j < 2 ^ 31) :
    Ok (gridOut2 D s k j) (rowMajor D.gx D.gy (s + 1) (D.gx - 1 - k) j) := by
  have vy := hv.y
  have vgx := hv.gx
  have vgy := hv.gy
  rw [rowMajor_parts] at h ⊢
  rw [show j + (D.gx - 1 - k) * D.gy + (s + 1) * D.gx * D.gy =
    (s + 1) * D.gx * D.gy + D.gy * (D.gx - 1 - k) + j by ring] at h ⊢
  have h0 := le_mul_pos ((s + 1) * D.gx) vgy.1
  exact ok_add (ok_add (ok_mul (ok_mul (ok_add (ok_i (n := s) (by omega)) (ok_i (n := 1) (by omega))
      (by omega)) (ok_i vgx.2) (by omega)) (ok_i vgy.2) (by omega))
    (ok_mul (ok_i vgy.2) (ok_sub (ok_sub (ok_i vgx.2) (ok_i (n := 1) (by omega)) vgx.1)
      (ok_i (n := k) (by omega)) (by omega)) (by omega)) (by omega)) (ok_i (n := j) (by omega)) h

theorem even_le_lastPair {s n : Nat} (h2 : s % 2 = 0) (hs : s < n) : s ≤ lastPair n := by
  unfold lastPair
  omega

theorem lastPair_spec {n : Nat} (hn : 0 < n) :
    lastPair n % 2 = 0 ∧ lastPair n < n ∧ n ≤ lastPair n + 2 := by
  unfold lastPair
  omega

/-- **C142** `gridrec` (which mixes `int` and `unsigned` offsets and works on pairs of slices)
computes the intended offsets if and only if its limits hold. -/
theorem gridrec_index_exact_iff (D : Dims) (hv : Valid D) :
    (∀ e v, GridComputes D e v → e.eval = some (v : Int)) ↔ GridFits D := by
  have vy := hv.y
  have vt := hv.t
  have vx := hv.x
  have vgx := hv.gx
  have vgy := hv.gy
  obtain ⟨l2, ll, lu⟩ := lastPair_spec vy.1
  constructor
  · intro h
    refine ⟨?_, ?_, ?_, ?_, ?_⟩
    · have h1 := h _ _ (.data (lastPair D.dy) (D.dt - 1) 0 l2 ll (by omega) vx.1)
      obtain ⟨w, hw⟩ := add_right_some h1
      obtain ⟨w', hw'⟩ := cast_some hw
      have h3 := eval_exact (e := .i D.dx *ᶜ (.i (D.dt - 1) +ᶜ .i (lastPair D.dy) *ᶜ .i D.dt))
        ⟨allInt_i vx.2, allInt_i (by omega), allInt_i (by omega), allInt_i vt.2⟩ hw'
      have h4 : (D.dx : Int) * ((D.dt - 1 : Nat) + (lastPair D.dy : Int) * D.dt) < 2 ^ 31 := by
        have h5 := h3.1
        simp only [CE.exact, CE.i] at h5
        omega
      exact_mod_cast h4
    · have h1 := h _ _ (.delta vy.1 vt.1)
      obtain ⟨w, hw⟩ := cast_some h1
      have h3 := eval_exact (e := .i D.dx *ᶜ .i D.dt) ⟨allInt_i vx.2, allInt_i vt.2⟩ hw
      have h4 : (D.dx : Int) * D.dt < 2 ^ 31 := by
        have h5 := h3.1
        simp only [CE.exact, CE.i] at h5
        omega
      exact_mod_cast h4
    · exact mul_lt rfl (h _ _ (.slc2 (lastPair D.dy) l2 ll))
    · by_cases hc : lastPair D.dy + 1 < D.dy
      · have h1 := add_lt rfl (h _ _ (.out2 (lastPair D.dy) 0 (D.gy - 1) l2 hc vgx.1 (by omega)))
        have h3 := rowMajor_last vy.1 vgx.1 vgy.1
        rw [show lastPair D.dy + 1 = D.dy - 1 by omega, Nat.sub_zero] at h1
        omega
      · have h1 := mul_lt rfl (h _ _ (.slc2 (lastPair D.dy) l2 ll))
        rw [show lastPair D.dy + 1 = D.dy by omega] at h1
        omega
    · exact (pdim_sq_iff _).1 (mul_lt rfl (h _ _ (.plane vy.1)))
  · rintro ⟨fd, fs, fl, fi, fx⟩ e v hc
    have hdat : ∀ s p, s % 2 = 0 → s < D.dy → p < D.dt → D.dx * (p + s * D.dt) < 2 ^ 31 := by
      intro s p h2 hs hp
      refine lt_of_le_of_lt (Nat.mul_le_mul_left _ ?_) fd
      have := Nat.mul_le_mul_right D.dt (even_le_lastPair h2 hs)
      omega
    cases hc with
    | data s p j h2 hs hp hj =>
      rw [rowMajor_parts, show j + p * D.dx + s * D.dt * D.dx = j + D.dx * (p + s * D.dt) by ring]
      exact (grid_ix hv hs hp hj (hdat s p h2 hs hp)).2
    | data2 s p j h2 hs hp hj =>
      rw [rowMajor_parts, show j + p * D.dx + (s + 1) * D.dt * D.dx =
        j + D.dx * (p + s * D.dt) + D.dx * D.dt by ring]
      exact grid_ix2 hv (by omega) hp hj (hdat s p h2 (by omega) hp) fs h2
    | out s k j h2 hs hk hj =>
      have := rowMajor_lt hs (show D.gx - 1 - k < D.gx by omega) hj
      exact (grid_out hv hs hk hj (by omega)).2.1
    | out2 s k j h2 hs hk hj =>
      have := rowMajor_lt hs (show D.gx - 1 - k < D.gx by omega) hj
      exact (grid_out2 hv hs hk hj (by omega)).2.1
    | slc2 s h2 hs =>
      have h1 : (s + 1) * D.gx * D.gy < 2 ^ 31 := lt_of_le_of_lt (Nat.mul_le_mul_right _
        (Nat.mul_le_mul_right _ (Nat.succ_le_succ (even_le_lastPair h2 hs)))) fl
      have h0 := le_mul_pos ((s + 1) * D.gx) vgy.1
      exact (ok_mul (ok_mul (ok_add (ok_i (n := s) (by omega)) (ok_i (n := 1) (by omega))
        (by omega)) (ok_i vgx.2) (by omega)) (ok_i vgy.2) h1).2.1
    | delta hy ht =>
      rw [eval_cast (ok_mul (ok_i vx.2) (ok_i vt.2) fs).2.1, conv_small (by omega) (by omega)]
    | plane hy =>
      have h1 := (pdim_sq_iff _).2 fx
      have h0 : pdim D.dx ≤ pdim D.dx * pdim D.dx :=
        le_mul_pos _ (by have := pdim_ge D.dx; omega)
      exact (ok_mul (ok_i (by omega)) (ok_i (by omega)) h1).2.1

example : GridFits ⟨270, 1800, 2048, 2048, 2048⟩ ∧ Valid ⟨270, 1800, 2048, 2048, 2048⟩ :=
  ⟨⟨by norm_num [lastPair], by norm_num, by norm_num [lastPair], by norm_num, by norm_num⟩,
    ⟨by norm_num, by norm_num, by norm_num, by norm_num, by norm_num⟩⟩

/-! ### Preprocessing and post-processing -/

/-- **C142** `normalize_bg` with at least one air pixel computes the intended offsets if and
only if the chunk has fewer than 2^31 elements. -/
theorem bg_index_exact_iff (dx dy dz nair : Nat) (hx : 0 < dx ∧ dx < 2 ^ 31)
    (hy : 0 < dy ∧ dy < 2 ^ 31) (hz : 0 < dz ∧ dz < 2 ^ 31) (ha : 0 < nair) :
    (∀ e v, BgComputes dx dy dz nair e v → e.eval = some (v : Int)) ↔ dx * dy * dz < 2 ^ 31 := by
  have hrow : ∀ m n, m < dx → n < dy → m * (dz * dy) + n * dz + dz ≤ dx * dy * dz := by
    intro m n hm hn
    have h := rowMajor_lt hm hn (show dz - 1 < dz by omega)
    rw [rowMajor_parts, show m * dy * dz = m * (dz * dy) by ring] at h
    omega
  constructor
  · intro h
    have h1 := h _ _ (.right (dx - 1) (dy - 1) 0 (by omega) (by omega) ha hz.1)
    have hs : ∃ w, (bgRow dy dz (dx - 1) (dy - 1) +ᶜ .i dz).eval = some w := by
      cases hb : (bgRow dy dz (dx - 1) (dy - 1) +ᶜ .i dz).eval with
      | none => simp [bgRight, CE.eval.eq_3, hb] at h1
      | some w => exact ⟨w, rfl⟩
    obtain ⟨w, hw⟩ := hs
    have h3 := eval_exact (e := bgRow dy dz (dx - 1) (dy - 1) +ᶜ .i dz)
      ⟨⟨⟨allInt_i (by omega), allInt_i hz.2, allInt_i hy.2⟩, allInt_i (by omega), allInt_i hz.2⟩,
        allInt_i hz.2⟩ hw
    have h4 : (((dx - 1 : Nat) : Int) * (dz * dy) + (dy - 1 : Nat) * dz + dz) < 2 ^ 31 := by
      have h5 := h3.1
      simp only [bgRow, CE.exact, CE.i] at h5
      omega
    have h6 : (dx - 1) * (dz * dy) + (dy - 1) * dz + dz < 2 ^ 31 := by exact_mod_cast h4
    obtain ⟨a, rfl⟩ : ∃ a, dx = a + 1 := ⟨dx - 1, by omega⟩
    obtain ⟨b, rfl⟩ : ∃ b, dy = b + 1 := ⟨dy - 1, by omega⟩
    simp only [Nat.add_sub_cancel] at h6
    calc (a + 1) * (b + 1) * dz = a * (dz * (b + 1)) + b * dz + dz := by ring
      _ < _ := h6
  · intro hf e v hc
    have hplane : dz * dy < 2 ^ 31 := by
      have := Nat.le_mul_of_pos_left (dy * dz) hx.1
      rw [← Nat.mul_assoc, Nat.mul_comm dy dz] at this
      omega
    have hr : ∀ m n, m < dx → n < dy → Ok (bgRow dy dz m n) (m * (dz * dy) + n * dz) := by
      intro m n hm hn
      have := hrow m n hm hn
      exact ok_add (ok_mul (ok_i (by omega)) (ok_mul (ok_i hz.2) (ok_i hy.2) hplane) (by omega))
        (ok_mul (ok_i (by omega)) (ok_i hz.2) (by omega)) (by omega)
    cases hc with
    | left m n j hm hn hj =>
      have h1 := hrow m n hm hn
      have h2 := (ok_add (hr m n hm hn) (ok_i (n := j) (by omega)) (by omega)).2.1
      rw [rowMajor_parts, show j + n * dz + m * dy * dz = m * (dz * dy) + n * dz + j by ring]
      exact h2
    | right m n j hm hn hj hjz =>
      have h1 := hrow m n hm hn
      have h2 := (ok_sub (ok_sub (ok_add (hr m n hm hn) (ok_i hz.2) (by omega))
        (ok_i (n := 1) (by omega)) (by omega)) (ok_i (n := j) (by omega)) (by omega)).2.1
      rw [rowMajor_parts, show m * dy * dz = m * (dz * dy) by ring]
      rw [show m * (dz * dy) + n * dz + dz - 1 - j =
        dz - 1 - j + n * dz + m * (dz * dy) by omega] at h2
      exact h2

/-- 1500 projections of 1200 × 1600 pixels are too large for one chunk, 1000 are not. -/
example : ¬ (∀ e v, BgComputes 1500 1200 1600 10 e v → e.eval = some (v : Int)) ∧
    ∀ e v, BgComputes 1000 1200 1600 10 e v → e.eval = some (v : Int) := by
  refine ⟨?_, ?_⟩
  · rw [bg_index_exact_iff _ _ _ _ (by norm_num) (by norm_num) (by norm_num) (by norm_num)]
    norm_num
  · rw [bg_index_exact_iff _ _ _ _ (by norm_num) (by norm_num) (by norm_num) (by norm_num)]
    norm_num

/-- The common form of `remove_stripe_sf` and `remove_ring`. -/
theorem form_exact_iff (l n m : Nat) (hl : 0 < l ∧ l < 2 ^ 31) (hn : 0 < n ∧ n < 2 ^ 31)
    (hm : 0 < m ∧ m < 2 ^ 31) :
    (∀ i j k, i < l → j < n → k < m →
      (CE.i k +ᶜ .i j *ᶜ .i m +ᶜ .i i *ᶜ .i n *ᶜ .i m).eval = some ((rowMajor n m i j k : Nat) : Int))
      ↔ l * n * m ≤ 2 ^ 31 := by
  constructor
  · intro h
    have h1 := add_lt rfl (h (l - 1) (n - 1) (m - 1) (by omega) (by omega) (by omega))
    have h2 := rowMajor_last hl.1 hn.1 hm.1
    omega
  · intro hf i j k hi hj hk
    have hlt := rowMajor_lt hi hj hk
    rw [rowMajor_parts] at hlt ⊢
    exact (ok_form (by omega) (by omega) (by omega) hn.2 hm (by omega)).2.1

/-- **C142** `remove_stripe_sf` computes the intended offsets if and only if the chunk (all
`dx` projections of its `dy` rows) has at most 2^31 elements. -/
theorem sf_index_exact_iff (dx dy dz : Nat) (hx : 0 < dx ∧ dx < 2 ^ 31)
    (hy : 0 < dy ∧ dy < 2 ^ 31) (hz : 0 < dz ∧ dz < 2 ^ 31) :
    (∀ p s j, p < dx → s < dy → j < dz →
      (sfIx dy dz p s j).eval = some ((rowMajor dy dz p s j : Nat) : Int)) ↔
      dx * dy * dz ≤ 2 ^ 31 :=
  form_exact_iff dx dy dz hx hy hz

/-- **C142** `remove_ring` writes to the intended offsets if and only if the chunk has at most
2^31 elements. -/
theorem ring_index_exact_iff (n dy dx : Nat) (hn : 0 < n ∧ n < 2 ^ 31)
    (hy : 0 < dy ∧ dy < 2 ^ 31) (hx : 0 < dx ∧ dx < 2 ^ 31) :
    (∀ s j i, s < n → j < dy → i < dx →
      (ringIx dy dx s j i).eval = some ((rowMajor dy dx s j i : Nat) : Int)) ↔
      n * dy * dx ≤ 2 ^ 31 :=
  form_exact_iff n dy dx hn hy hx

/-- Exactly 2^31 elements are still addressed correctly, one row more is not. -/
example : (∀ p s j, p < 2048 → s < 1024 → j < 1024 →
      (sfIx 1024 1024 p s j).eval = some ((rowMajor 1024 1024 p s j : Nat) : Int)) ∧
    ¬ (∀ s j i, s < 2049 → j < 1024 → i < 1024 →
      (ringIx 1024 1024 s j i).eval = some ((rowMajor 1024 1024 s j i : Nat) : Int)) := by
  refine ⟨?_, ?_⟩
  · rw [sf_index_exact_iff _ _ _ (by norm_num) (by norm_num) (by norm_num)]
    norm_num
  · rw [ring_index_exact_iff _ _ _ (by norm_num) (by norm_num) (by norm_num)]
    norm_num

/-- The value of `i + j + k` in `downsample` and `upsample`. -/
theorem morph_eval {dy dz m n k : Nat} (hy : dy < 2 ^ 31) (hz : dz < 2 ^ 31) (hm : m < 2 ^ 31)
    (hn : n < dy) (hk : k < dz) (hp : dy * dz < 2 ^ 31) :
    (morphIx dy dz m n k).eval =
      some ((m * (dy * dz) % 2 ^ 32 + n * dz + k : Nat) : Int) := by
  have h1 : n * dz + k < dy * dz := by
    have := rowMajor_lt (l := 1) (i := 0) (by omega) hn hk
    simpa [rowMajor] using this
  have e1 : (CE.var .u32 m *ᶜ (.i dy *ᶜ .i dz)).eval =
      some ((m * (dy * dz) % 2 ^ 32 : Nat) : Int) := by
    rw [CE.eval, (ok_mul (ok_i hy) (ok_i hz) hp).2.1]
    simp only [CE.eval, CE.ty, CE.i, Ty.join, Option.bind_eq_bind, Option.bind_some, norm]
    rw [conv_small (by omega) (by omega), conv_small (by omega) (by omega)]
    refine congrArg some ?_
    push_cast
    rfl
  have e2 : (CE.var .u32 n *ᶜ .i dz).eval = some ((n * dz : Nat) : Int) := by
    simp only [CE.eval, CE.ty, CE.i, Ty.join, Option.bind_eq_bind, Option.bind_some, norm]
    rw [conv_small (by omega) (by omega), conv_small (by omega) (by omega)]
    refine congrArg some ?_
    rw [← Nat.cast_mul]
    omega
  have h2 : m * (dy * dz) % 2 ^ 32 < 2 ^ 32 := Nat.mod_lt _ (by norm_num)
  unfold morphIx
  rw [CE.eval.eq_2, CE.eval.eq_2, eval_cast e1, eval_cast e2]
  generalize m * (dy * dz) % 2 ^ 32 = q at h2
  generalize n * dz = r at h1
  generalize dy * dz = t at hp h1
  simp only [CE.eval, CE.ty, Ty.join, Option.bind_eq_bind, Option.bind_some, conv, norm]
  refine congrArg some ?_
  push_cast
  omega

/-- **C142** `downsample` and `upsample` compute the intended offsets of the coarse array if
and only if one plane has fewer than 2^31 elements and all planes but the last have together
fewer than 2^32. -/
theorem morph_index_exact_iff (dx dy dz : Nat) (hx : 0 < dx ∧ dx < 2 ^ 31)
    (hy : 0 < dy ∧ dy < 2 ^ 31) (hz : 0 < dz ∧ dz < 2 ^ 31) :
    (∀ m n k, m < dx → n < dy → k < dz →
      (morphIx dy dz m n k).eval = some ((rowMajor dy dz m n k : Nat) : Int)) ↔
      dy * dz < 2 ^ 31 ∧ (dx - 1) * (dy * dz) < 2 ^ 32 := by
  constructor
  · intro h
    have hp : dy * dz < 2 ^ 31 := by
      have h1 := h 0 0 0 hx.1 hy.1 hz.1
      have hs : ∃ w, (CE.i dy *ᶜ .i dz).eval = some w := by
        cases hb : (CE.i dy *ᶜ .i dz).eval with
        | none => simp [morphIx, CE.eval.eq_2, CE.eval.eq_5, CE.eval.eq_4 (CE.var _ _), hb] at h1
        | some w => exact ⟨w, rfl⟩
      obtain ⟨w, hw⟩ := hs
      have h3 := eval_exact (e := .i dy *ᶜ .i dz) ⟨allInt_i hy.2, allInt_i hz.2⟩ hw
      have h4 : (dy : Int) * dz < 2 ^ 31 := by
        have h5 := h3.1
        simp only [CE.exact, CE.i] at h5
        omega
      exact_mod_cast h4
    refine ⟨hp, ?_⟩
    have h1 := h (dx - 1) 0 0 (by omega) hy.1 hz.1
    rw [morph_eval hy.2 hz.2 (by omega) hy.1 hz.1 hp, rowMajor_parts] at h1
    simp only [Option.some.injEq, Nat.cast_inj, Nat.zero_mul, Nat.add_zero, Nat.zero_add] at h1
    rw [Nat.mul_assoc] at h1
    rw [← h1]
    exact Nat.mod_lt _ (by norm_num)
  · rintro ⟨hp, hf⟩ m n k hm hn hk
    rw [morph_eval hy.2 hz.2 (by omega) hn hk hp, rowMajor_parts]
    have h1 : m * (dy * dz) ≤ (dx - 1) * (dy * dz) := Nat.mul_le_mul_right _ (by omega)
    rw [Nat.mod_eq_of_lt (by omega), Nat.mul_assoc]
    refine congrArg some ?_
    push_cast
    ring

/-- **C142** The assertion in `downsample` and `upsample` does not ensure this: with a coarse
array of 2049 planes of 2048 × 1024 elements (a little more than 2^32) it holds, but plane 2048
is addressed at the offsets of plane 0. -/
theorem morph_assert_insufficient : morphAssert 2049 2048 1024 ∧
    ∀ n k, n < 2048 → k < 1024 →
      (morphIx 2048 1024 2048 n k).eval = (morphIx 2048 1024 0 n k).eval ∧
      (morphIx 2048 1024 2048 n k).eval ≠ some ((rowMajor 2048 1024 2048 n k : Nat) : Int) := by
  refine ⟨by norm_num [morphAssert], fun n k hn hk => ?_⟩
  rw [morph_eval (by norm_num) (by norm_num) (by norm_num) hn hk (by norm_num),
    morph_eval (by norm_num) (by norm_num) (by norm_num) hn hk (by norm_num)]
  refine ⟨by norm_num, ?_⟩
  simp only [rowMajor, ne_eq, Option.some.injEq, Nat.cast_inj]
  omega

/-! ### The calls made by `recon` -/

/-- The largest group of slices that automatic splitting makes is `⌈n / ncore⌉`. -/
theorem callSizes_auto (cpu n : Nat) (hcpu : 1 ≤ cpu) (hn : 1 ≤ n) (ncore : Option Nat) :
    ∃ l, callSizes cpu n ncore none = .ok l ∧
      (∀ m ∈ l, 0 < m ∧ m ≤ ceilDiv n (min (coresOr cpu ncore) n)) ∧
      ceilDiv n (min (coresOr cpu ncore) n) ∈ l := by
  have hk0 : 1 ≤ coresOr cpu ncore := by
    unfold coresOr
    split <;> omega
  have hk : 1 ≤ min (coresOr cpu ncore) n := by omega
  have hk' : min (coresOr cpu ncore) n ≤ n := by omega
  generalize hkk : min (coresOr cpu ncore) n = k at hk hk'
  have hlens : (evenSlices n k).map (fun s => (Slc.indices n s).length) = evenSizes n k :=
    map_len_zip_offsets n _ 0 (by rw [sum_evenSizes n k hk]; omega)
  have hdiv : 1 ≤ n / k := (Nat.one_le_div_iff hk).2 hk'
  have hpos : ∀ m ∈ evenSizes n k, 0 < m := by
    intro m hm
    simp only [evenSizes, List.mem_map] at hm
    obtain ⟨i, _, hi⟩ := hm
    omega
  have hceil : ceilDiv n k = n / k + if 0 < n % k then 1 else 0 := by
    unfold ceilDiv
    have h1 := Nat.div_add_mod n k
    have h2 := Nat.mod_lt n hk
    rw [show n + k - 1 = n % k + (k - 1) + k * (n / k) by omega, Nat.add_mul_div_left _ _ hk]
    split
    · rw [show n % k + (k - 1) = (n % k - 1) + k * 1 by omega, Nat.add_mul_div_left _ _ hk,
        Nat.div_eq_of_lt (by omega)]
      omega
    · rw [Nat.div_eq_of_lt (by omega)]
      omega
  have hfil : ((evenSlices n k).map (Slc.indices n)).filter (fun c => !c.isEmpty) =
      (evenSlices n k).map (Slc.indices n) := by
    rw [List.filter_eq_self]
    intro c hc
    obtain ⟨s, hs, rfl⟩ := List.mem_map.1 hc
    have h1 : (Slc.indices n s).length ∈ evenSizes n k := by
      rw [← hlens]
      exact List.mem_map.2 ⟨s, hs, rfl⟩
    have := hpos _ h1
    cases h : Slc.indices n s with
    | nil => simp [h] at this
    | cons a b => rfl
  refine ⟨evenSizes n k, ?_, fun m hm => ⟨hpos m hm, ?_⟩, ?_⟩
  · simp only [callSizes, getNcoreSlices, hkk]
    rw [if_neg (by omega)]
    show Except.ok ((Tomopy.Recon.useChunks n (evenSlices n k)).map List.length) = _
    rw [Tomopy.Recon.useChunks, hfil, List.map_map, ← hlens]
    rfl
  · simp only [evenSizes, List.mem_map] at hm
    obtain ⟨i, _, hi⟩ := hm
    rw [hceil, ← hi]
    split <;> split <;> omega
  · simp only [evenSizes, List.mem_map]
    exact ⟨0, List.mem_range.2 hk, hceil.symm⟩

/-- The largest group with a given `nchunk` is `min nchunk n`. -/
theorem callSizes_chunk (cpu n c : Nat) (hn : 1 ≤ n) (ncore : Option Nat) :
    ∃ l, callSizes cpu n ncore (some (c + 1)) = .ok l ∧
      (∀ m ∈ l, 0 < m ∧ m ≤ min (c + 1) n) ∧ min (c + 1) n ∈ l := by
  have hlen : ∀ s ∈ chunkSlices n (c + 1), (Slc.indices n s).length ≤ min (c + 1) n := by
    intro s hs
    simp only [chunkSlices, pyRange, List.map_map, List.mem_map, List.mem_range] at hs
    obtain ⟨i, _, rfl⟩ := hs
    simp only [Function.comp, Slc.indices, List.length_range']
    omega
  refine ⟨_, rfl, ?_, ?_⟩
  · intro m hm
    simp only [Tomopy.Recon.useChunks, List.mem_map, List.mem_filter] at hm
    obtain ⟨ch, ⟨⟨s, hs, rfl⟩, hne⟩, rfl⟩ := hm
    refine ⟨?_, hlen s hs⟩
    cases h : Slc.indices n s with
    | nil => simp [h] at hne
    | cons a b => simp
  · simp only [Tomopy.Recon.useChunks, List.mem_map, List.mem_filter]
    refine ⟨Slc.indices n (.range 0 (c + 1)), ⟨⟨.range 0 (c + 1), ?_, rfl⟩, ?_⟩, ?_⟩
    · simp only [chunkSlices, pyRange, List.map_map, List.mem_map, List.mem_range]
      refine ⟨0, ?_, by simp⟩
      have := le_ceil_mul n (c + 1) (by omega)
      rcases Nat.eq_zero_or_pos ((n + (c + 1) - 1) / (c + 1)) with h | h
      · rw [h] at this
        omega
      · exact h
    · cases h : Slc.indices n (.range 0 (c + 1)) with
      | nil =>
        have := congrArg List.length h
        simp [Slc.indices] at this
        omega
      | cons a b => rfl
    · simp [Slc.indices]

theorem Fits.mono {k : Kernel} {dt dx gx gy m n : Nat} (h : m ≤ n) (hf : Fits k ⟨n, dt, dx, gx, gy⟩) :
    Fits k ⟨m, dt, dx, gx, gy⟩ := by
  have h1 : m * dt * dx ≤ n * dt * dx := Nat.mul_le_mul_right _ (Nat.mul_le_mul_right _ h)
  have h2 : m * gx * gy ≤ n * gx * gy := Nat.mul_le_mul_right _ (Nat.mul_le_mul_right _ h)
  obtain ⟨fd, fi, fc, fp, fm⟩ := hf
  simp only at fd fi fc fp fm
  exact ⟨by simp only; omega, by simp only; omega, fun hk => by have := fc hk; simp only; omega, fp,
    fun hk => by have := fm hk; simp only; omega⟩

theorem GridFits.mono {dt dx gx gy m n : Nat} (h : m ≤ n) (hf : GridFits ⟨n, dt, dx, gx, gy⟩) :
    GridFits ⟨m, dt, dx, gx, gy⟩ := by
  have h0 : lastPair m ≤ lastPair n := by
    unfold lastPair
    omega
  have h1 : m * gx * gy ≤ n * gx * gy := Nat.mul_le_mul_right _ (Nat.mul_le_mul_right _ h)
  have h2 : (lastPair m + 1) * gx * gy ≤ (lastPair n + 1) * gx * gy :=
    Nat.mul_le_mul_right _ (Nat.mul_le_mul_right _ (by omega))
  have h3 : dx * (dt - 1 + lastPair m * dt) ≤ dx * (dt - 1 + lastPair n * dt) :=
    Nat.mul_le_mul_left _ (Nat.add_le_add_left (Nat.mul_le_mul_right _ h0) _)
  obtain ⟨fd, fs, fl, fi, fx⟩ := hf
  exact ⟨lt_of_le_of_lt h3 fd, fs, lt_of_le_of_lt h2 fl, le_trans h1 fi, fx⟩

/-- **C142** All calls that `recon` makes with automatic splitting compute the intended offsets
if and only if the limits hold for `⌈n / ncore⌉` slices, where `ncore` is the number of cores
used. -/
theorem recon_index_exact_iff (k : Kernel) (cpu n dt dx gx gy : Nat) (hcpu : 1 ≤ cpu)
    (ncore : Option Nat) (hv : Valid ⟨n, dt, dx, gx, gy⟩) :
    ∃ l, callSizes cpu n ncore none = .ok l ∧
      ((∀ m ∈ l, ∀ e v, Computes ⟨m, dt, dx, gx, gy⟩ k e v → e.eval = some (v : Int)) ↔
        Fits k ⟨ceilDiv n (min (coresOr cpu ncore) n), dt, dx, gx, gy⟩) := by
  obtain ⟨l, hl, hle, hmem⟩ := callSizes_auto cpu n hcpu hv.y.1 ncore
  have hk0 : 1 ≤ coresOr cpu ncore := by
    unfold coresOr
    split <;> omega
  have hcn : ceilDiv n (min (coresOr cpu ncore) n) ≤ n :=
    ceilDiv_le n _ (by have := hv.y.1; simp only at this; omega)
  have vy := hv.y.2
  simp only at vy
  have hval : ∀ m ∈ l, Valid ⟨m, dt, dx, gx, gy⟩ := fun m hm =>
    ⟨⟨(hle m hm).1, by have := (hle m hm).2; simp only; omega⟩, hv.t, hv.x, hv.gx, hv.gy⟩
  refine ⟨l, hl, fun h => ?_, fun hf m hm => ?_⟩
  · exact (index_exact_iff k _ (hval _ hmem)).1 (h _ hmem)
  · exact (index_exact_iff k _ (hval m hm)).2 (hf.mono (hle m hm).2)

/-- **C142** The same for `gridrec`. -/
theorem recon_gridrec_index_exact_iff (cpu n dt dx gx gy : Nat) (hcpu : 1 ≤ cpu)
    (ncore : Option Nat) (hv : Valid ⟨n, dt, dx, gx, gy⟩) :
    ∃ l, callSizes cpu n ncore none = .ok l ∧
      ((∀ m ∈ l, ∀ e v, GridComputes ⟨m, dt, dx, gx, gy⟩ e v → e.eval = some (v : Int)) ↔
        GridFits ⟨ceilDiv n (min (coresOr cpu ncore) n), dt, dx, gx, gy⟩) := by
  obtain ⟨l, hl, hle, hmem⟩ := callSizes_auto cpu n hcpu hv.y.1 ncore
  have hk0 : 1 ≤ coresOr cpu ncore := by
    unfold coresOr
    split <;> omega
  have hcn : ceilDiv n (min (coresOr cpu ncore) n) ≤ n :=
    ceilDiv_le n _ (by have := hv.y.1; simp only at this; omega)
  have vy := hv.y.2
  simp only at vy
  have hval : ∀ m ∈ l, Valid ⟨m, dt, dx, gx, gy⟩ := fun m hm =>
    ⟨⟨(hle m hm).1, by have := (hle m hm).2; simp only; omega⟩, hv.t, hv.x, hv.gx, hv.gy⟩
  refine ⟨l, hl, fun h => ?_, fun hf m hm => ?_⟩
  · exact (gridrec_index_exact_iff _ (hval _ hmem)).1 (h _ hmem)
  · exact (gridrec_index_exact_iff _ (hval m hm)).2 (hf.mono (hle m hm).2)

/-- **C142** With a given `nchunk` the limits have to hold for `min nchunk n` slices; in
particular a small enough `nchunk` avoids the overflow whenever a single slice respects the
limits. -/
theorem recon_chunk_index_exact_iff (k : Kernel) (cpu n c dt dx gx gy : Nat) (ncore : Option Nat)
    (hv : Valid ⟨n, dt, dx, gx, gy⟩) :
    ∃ l, callSizes cpu n ncore (some (c + 1)) = .ok l ∧
      ((∀ m ∈ l, ∀ e v, Computes ⟨m, dt, dx, gx, gy⟩ k e v → e.eval = some (v : Int)) ↔
        Fits k ⟨min (c + 1) n, dt, dx, gx, gy⟩) := by
  obtain ⟨l, hl, hle, hmem⟩ := callSizes_chunk cpu n c hv.y.1 ncore
  have vy := hv.y.2
  simp only at vy
  have hval : ∀ m ∈ l, Valid ⟨m, dt, dx, gx, gy⟩ := fun m hm =>
    ⟨⟨(hle m hm).1, by have := (hle m hm).2; simp only; omega⟩, hv.t, hv.x, hv.gx, hv.gy⟩
  refine ⟨l, hl, fun h => ?_, fun hf m hm => ?_⟩
  · exact (index_exact_iff k _ (hval _ hmem)).1 (h _ hmem)
  · exact (index_exact_iff k _ (hval m hm)).2 (hf.mono (hle m hm).2)

/-- **C142** A scan of ordinary size (1800 angles, 2160 rows, 2560 columns) reconstructed with
4 cores and the default grid overflows in every function; with 8 cores it does not. -/
theorem recon_overflow_four_cores (k : Kernel) :
    (∃ l, callSizes 64 2160 (some 4) none = .ok l ∧
      ∃ m ∈ l, ∃ e v, Computes ⟨m, 1800, 2560, 2560, 2560⟩ k e v ∧ e.eval ≠ some (v : Int)) ∧
    (∃ l, callSizes 64 2160 (some 8) none = .ok l ∧
      ∀ m ∈ l, ∀ e v, Computes ⟨m, 1800, 2560, 2560, 2560⟩ k e v → e.eval = some (v : Int)) := by
  have hv : Valid ⟨2160, 1800, 2560, 2560, 2560⟩ :=
    ⟨by norm_num, by norm_num, by norm_num, by norm_num, by norm_num⟩
  constructor
  · obtain ⟨l, hl, h⟩ := recon_index_exact_iff k 64 2160 1800 2560 2560 2560 (by norm_num) (some 4) hv
    refine ⟨l, hl, ?_⟩
    by_contra hc
    push Not at hc
    have := (h.1 hc).data
    norm_num [ceilDiv, coresOr] at this
  · obtain ⟨l, hl, h⟩ := recon_index_exact_iff k 64 2160 1800 2560 2560 2560 (by norm_num) (some 8) hv
    refine ⟨l, hl, h.2 ⟨?_, ?_, fun _ => ?_, fun _ => ?_, fun _ => ?_⟩⟩ <;>
      norm_num [ceilDiv, coresOr]

/-- **C142** The same scan overflows in `gridrec` with 4 cores. -/
theorem recon_gridrec_overflow :
    ∃ l, callSizes 64 2160 (some 4) none = .ok l ∧
      ∃ m ∈ l, ∃ e v, GridComputes ⟨m, 1800, 2560, 2560, 2560⟩ e v ∧ e.eval ≠ some (v : Int) := by
  obtain ⟨l, hl, h⟩ := recon_gridrec_index_exact_iff 64 2160 1800 2560 2560 2560 (by norm_num) (some 4)
    ⟨by norm_num, by norm_num, by norm_num, by norm_num, by norm_num⟩
  refine ⟨l, hl, ?_⟩
  by_contra hc
  push Not at hc
  have := (h.1 hc).data
  norm_num [ceilDiv, coresOr, lastPair] at this

end Tomopy.CInt
