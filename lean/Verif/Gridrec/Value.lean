import Verif.Gridrec.Model
import Mathlib.Analysis.SpecialFunctions.Complex.Log
import Mathlib.Analysis.SpecialFunctions.Pow.Real

/-!
# gridrec: values

`source/libtomo/gridrec/gridrec.c` and `include/libtomo/filters.h` in exact arithmetic.
-/

namespace Tomopy.Gridrec

/-! ## Tables -/

/-- The loop of `legendre` from index `j`, `cnt` steps (`source/libtomo/gridrec/gridrec.c:68-85`). -/
def legLoop {K : Type} [Field K] (coefs : Nat → K) (x : K) : Nat → Nat → K → K → K → K
  | 0, _, _, _, y => y
  | cnt + 1, j, penult, last, y =>
    let mxlast := -(x * last)
    let cur := -(2 * mxlast + penult) + (penult + mxlast) / (j : K)
    legLoop coefs x cnt (j + 1) last cur (if j % 2 = 0 then y + cur * coefs (j / 2) else y)

/-- `legendre` (`source/libtomo/gridrec/gridrec.c:61-86`). -/
def legendre {K : Type} [Field K] (n : Nat) (coefs : Nat → K) (x : K) : K :=
  legLoop coefs x (n - 1) 2 1 x (coefs 0)

/-- `coefs` (`source/libtomo/gridrec/gridrec.c:220-223`); `0` stands for reads beyond the array,
which do not happen for `nt = 20` (`legendre_reads`). -/
def coefs {K : Type} [Field K] : Nat → K
  | 0 => 57.67616 | 1 => -89.31343 | 2 => 41.67596 | 3 => -10.53599 | 4 => 1.662374
  | 5 => -0.1780527 | 6 => 0.01372983 | 7 => -0.0007963169 | 8 => 0.00003593372
  | 9 => -0.000001295941 | 10 => 0.00000003817796 | _ => 0

/-- `wtbl` (`source/libtomo/gridrec/gridrec.c:99-105`, called with `nt = 20` at 272). -/
def wtbl {K : Type} [Field K] (i : Nat) : K :=
  if i = 0 then 1 else legendre 20 coefs ((i : K) / ltbl) / legendre 20 coefs 0

/-- `norm` before the loop (`source/libtomo/gridrec/gridrec.c:111` with `C = 7` and
`lambda = 0.99998546`). -/
noncomputable def pswfNorm : ℝ := Real.sqrt (Real.pi / 2 / 7 / 0.99998546) / 1.2

/-- `winv` (`source/libtomo/gridrec/gridrec.c:113-122`): element `linv + i` and `linv - i` get the
alternating sign and the table value at `roundf(i * fac)`. -/
noncomputable def winv (linv : Nat) (idx : Int) : ℝ :=
  let i := (idx - linv).natAbs
  (-1) ^ i * pswfNorm / wtbl (roundf ((i : ℝ) * ((ltbl : ℝ) / ((linv : ℝ) + 1 / 2)))).toNat

/-! ## One slice pair -/

/-- The packed projection of two slices, zero padded (`source/libtomo/gridrec/gridrec.c:372-389`). -/
noncomputable def sinoRow (dx : Nat) (d1 d2 : Nat → ℝ) (j : Nat) : ℂ :=
  if j < dx then (d1 j : ℂ) + Complex.I * (d2 j : ℂ) else 0

/-- Backward (positive exponent, unnormalised) discrete Fourier transform
(`source/libtomo/gridrec/gridrec.c:291, 392-396`). -/
noncomputable def dftBack (pd : Nat) (f : Nat → ℂ) (k : Nat) : ℂ :=
  ∑ j ∈ Finset.range pd, f j * Complex.exp (2 * Real.pi * Complex.I * (j * k : ℂ) / pd)

/-- `filphase` of one projection, filter values `filt` (`source/libtomo/gridrec/gridrec.c:153-191`). -/
noncomputable def filphase (pd dt : Nat) (filt : Nat → ℝ) (center : ℝ) (j : Nat) : ℂ :=
  let x : ℝ := j * (2 * Real.pi * center / pd)
  (filt j : ℂ) * (((Real.cos x : ℂ) - Complex.I * (Real.sin x : ℂ)) * ((Real.pi / pd / dt : ℝ) : ℂ))

/-- An addition to one element of `H` (`source/libtomo/gridrec/gridrec.c:444-445`). -/
structure Upd where
  u : Int
  v : Int
  val : ℂ

/-- The additions made for one frequency (`source/libtomo/gridrec/gridrec.c:403-447`). -/
noncomputable def freqUpd (pd : Nat) (co si : ℝ) (j : Nat) (c1 c2 : ℂ) : List Upd :=
  let U := (j : ℝ) * co + (pd / 2 : Nat)
  let V := (j : ℝ) * si + (pd / 2 : Nat)
  (intRange (box pd U).1 (box pd U).2).flatMap fun (iu : Int) =>
    (intRange (box pd V).1 (box pd V).2).flatMap fun (iv : Int) =>
      let convolv : ℝ := wtbl (roundf (|U - (iu : ℝ)| * tblspcg)).toNat *
        wtbl (roundf (|V - (iv : ℝ)| * tblspcg)).toNat
      [⟨iu, iv, convolv * c1⟩, ⟨pd - iu, pd - iv, convolv * c2⟩]

/-- The additions of one projection (`source/libtomo/gridrec/gridrec.c:366-449`). -/
noncomputable def projUpd (pd dt : Nat) (filt : Nat → ℝ) (center co si : ℝ) (row : Nat → ℂ) :
    List Upd :=
  (List.range' 1 (pd / 2 - 1)).flatMap fun j =>
    freqUpd pd co si j (filphase pd dt filt center j * dftBack pd row j)
      (starRingEnd ℂ (filphase pd dt filt center j) * dftBack pd row (pd - j))

/-- `H[u][v] += val` (`source/libtomo/gridrec/gridrec.c:444-445`). -/
noncomputable def addH (H : Int → Int → ℂ) (x : Upd) : Int → Int → ℂ := fun a b =>
  if a = x.u ∧ b = x.v then H a b + x.val else H a b

/-- Forward (negative exponent, unnormalised) two-dimensional transform
(`source/libtomo/gridrec/gridrec.c:293, 461-466`). -/
noncomputable def dft2 (pd : Nat) (H : Int → Int → ℂ) (iu iv : Int) : ℂ :=
  ∑ a ∈ Finset.range pd, ∑ b ∈ Finset.range pd, H a b *
    Complex.exp (-(2 * Real.pi * Complex.I * ((a : ℂ) * (iu : ℂ) + (b : ℂ) * (iv : ℂ)) / pd))

/-- The arguments of a call besides `data` and `center` (`source/libtomo/gridrec/gridrec.c:195-197`);
`filt p j` are the filter values for projection `p`. -/
structure Call where
  dt : Nat
  dx : Nat
  ngx : Nat
  ngy : Nat
  theta : Nat → ℝ
  filt : Nat → Nat → ℝ

/-- `H` after all projections of a slice pair (`source/libtomo/gridrec/gridrec.c:315-449`). -/
noncomputable def pairH (c : Call) (center : ℝ) (d1 d2 : Nat → Nat → ℝ) : Int → Int → ℂ :=
  ((List.range c.dt).flatMap fun p => projUpd (pdim c.dx) c.dt (c.filt p) center
    (Real.cos (c.theta p)) (Real.sin (c.theta p)) (sinoRow c.dx (d1 p) (d2 p))).foldl addH
    (fun _ _ => 0)

/-- The index into `H` belonging to output index `j` (`source/libtomo/gridrec/gridrec.c:510-547`);
equal to what the copy loop uses by `copyPairs_wrap`. -/
def wrapIdx (pd n : Nat) (j : Nat) : Int :=
  if (j : Int) < offset pd n then (pd : Int) - offset pd n + j else (j : Int) - offset pd n

/-- The correction factor for output index `j` (`source/libtomo/gridrec/gridrec.c:517, 526`). -/
noncomputable def corr (pd n : Nat) (j : Nat) : ℝ := winv (pd / 2 - 1) ((j : Int) + pad pd n)

/-- `gridrec` (`source/libtomo/gridrec/gridrec.c:194-571`): `recon[s][r][j]` where
`r = ngridx - 1 - k`.  Slices `s`, `s + 1` with `s` even are processed together; slice `s` is the
real and `s + 1` the imaginary part, and `center[s]` is used for both. -/
noncomputable def gridrec (c : Call) (dy : Nat) (data : Nat → Nat → Nat → ℝ) (center : Nat → ℝ)
    (s r j : Nat) : ℝ :=
  let k := c.ngx - 1 - r
  let s0 := 2 * (s / 2)
  let F := dft2 (pdim c.dx) (pairH c (center s0) (data s0)
    (fun p i => if s0 + 1 < dy then data (s0 + 1) p i else 0))
    (wrapIdx (pdim c.dx) c.ngy j) (wrapIdx (pdim c.dx) c.ngx k)
  corr (pdim c.dx) c.ngy j * corr (pdim c.dx) c.ngx k * (if s % 2 = 0 then F.re else F.im)

/-! ## Filters -/

/-- The filters of `fltbl` (`include/libtomo/filters.h:132-140`). -/
inductive Filter
  | none | shepp | cosine | hann | hamming | ramlak | parzen | butterworth | custom | custom2d
  deriving DecidableEq

/-- `get_filter` (`include/libtomo/filters.h:130-150`); all names are shorter than 16 characters, so
`strncmp(.., 16)` is equality. -/
def getFilter (name : String) : Filter :=
  match [("none", Filter.none), ("shepp", .shepp), ("cosine", .cosine), ("hann", .hann),
    ("hamming", .hamming), ("ramlak", .ramlak), ("parzen", .parzen), ("butterworth", .butterworth),
    ("custom", .custom), ("custom2d", .custom2d)].find? (fun e => name == e.1) with
  | some e => e.2
  | Option.none => .shepp

/-- The filter functions (`include/libtomo/filters.h:58-128`); `none` for a read of `pars` beyond
its `n` elements.  `powf(., 3)` is the cube, `powf(a, b)` the real power. -/
noncomputable def Filter.eval (f : Filter) (x : ℝ) (i j fwidth : Nat) (pars : List ℝ) : Option ℝ :=
  match f with
  | .none => some 1
  | .shepp => some (if i = 0 then 0 else |2 * x| * (Real.sin (Real.pi * x) / (Real.pi * x)))
  | .cosine => some (|2 * x| * Real.cos (Real.pi * x))
  | .hann => pars[0]?.map fun c => |2 * x| * 0.5 * (1 + Real.cos (2 * Real.pi * x / c))
  | .hamming => pars[0]?.map fun c => |2 * x| * (0.54 + 0.46 * Real.cos (2 * Real.pi * x / c))
  | .ramlak => some (|2 * x|)
  | .parzen => pars[0]?.map fun c => |2 * x| * (1 - |x| / c) ^ 3
  | .butterworth => (pars[0]? : Option ℝ).bind fun c => (pars[1]? : Option ℝ).map fun b =>
      |2 * x| / (1 + (x / c) ^ (2 * b))
  | .custom => pars[i]?
  | .custom2d => pars[j * fwidth + i]?

/-- The filter value at frequency index `j` of projection `p`
(`source/libtomo/gridrec/gridrec.c:163, 181`). -/
noncomputable def filterAt (name : String) (pd : Nat) (pars : List ℝ) (p j : Nat) : Option ℝ :=
  (getFilter name).eval ((j : ℝ) / pd) j (if name = "custom2d" then p else 0) (pd / 2) pars

end Tomopy.Gridrec
