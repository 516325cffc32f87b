import Mathlib.Analysis.SpecialFunctions.Trigonometric.Basic
import Mathlib.Analysis.Real.Sqrt
import Mathlib.Algebra.Order.Floor.Ring

/-!
# gridrec: memory accesses and data flow

`source/libtomo/gridrec/gridrec.c`.  Two models: the list of all array accesses (for C39) and the
values (for C70-C72).  Arithmetic is exact (`ℝ`, `ℂ`); the FFT library calls are the unnormalised
discrete Fourier transforms they are documented to compute.
-/

namespace Tomopy.Gridrec

/-- `for(pdim = 16; pdim < dx; pdim *= 2)` from a given start
(`source/libtomo/gridrec/gridrec.c:226-227`). -/
def pdimFrom (p dx : Nat) : Nat :=
  if 0 < p ∧ p < dx then pdimFrom (2 * p) dx else p
termination_by dx - p

/-- `pdim` (`source/libtomo/gridrec/gridrec.c:225-227`). -/
def pdim (dx : Nat) : Nat := pdimFrom 16 dx

/-- `ltbl` (`source/libtomo/gridrec/gridrec.c:214`). -/
def ltbl : Nat := 512

/-- `L = (int)(2 * C / M_PI)` with `C = 7` (`source/libtomo/gridrec/gridrec.c:210-213`); the value
is checked in `L_value`. -/
def bigL : Nat := 4

/-- `L2 = (int)(C / M_PI)` (`source/libtomo/gridrec/gridrec.c:306`); checked in `L2_value`. -/
def bigL2 : Nat := 2

/-- `tblspcg = 2 * ltbl / L` in integer arithmetic (`source/libtomo/gridrec/gridrec.c:307`). -/
def tblspcg : Nat := 2 * ltbl / bigL

/-- `(int) roundf(x)` for `x >= 0` (`source/libtomo/gridrec/gridrec.c:121,428,434`). -/
noncomputable def roundf (x : ℝ) : Int := ⌊x + 1 / 2⌋

/-- The arrays of `gridrec` (`source/libtomo/gridrec/gridrec.c:236-264`).  `J_z`, `P_z`
are never touched and `U_d`, `V_d` (written at 296-303) are never read; they are left out. -/
inductive Arr | data | center | recon | sino | filphase | H | wtbl | winv | work | work2 | trig
  deriving DecidableEq

/-- A read or write of `arr[i][j]` (one-dimensional arrays have `j = 0`); lines as in the arrays
above (`source/libtomo/gridrec/gridrec.c:236-264`). -/
structure Access where
  write : Bool
  arr : Arr
  i : Int
  j : Int

/-- A read of a vector (`source/libtomo/gridrec/gridrec.c:88`). -/
def rd (a : Arr) (i : Int) : Access := ⟨false, a, i, 0⟩

/-- A write of a vector (`source/libtomo/gridrec/gridrec.c:88`). -/
def wr (a : Arr) (i : Int) : Access := ⟨true, a, i, 0⟩

/-- The sizes of one call (`source/libtomo/gridrec/gridrec.c:195-197`). -/
structure Sizes where
  dy : Nat
  dt : Nat
  dx : Nat
  ngx : Nat
  ngy : Nat
  /-- `filter2d` -/
  f2d : Bool

/-- Allocated sizes (`source/libtomo/gridrec/gridrec.c:236-264`; `data`, `center`, `recon` are the
caller's arrays, `source/tomopy/util/extern/gridrec.py:75-86`). -/
def Sizes.size (z : Sizes) : Arr → Nat × Nat
  | .data => (z.dy * z.dt * z.dx, 1)
  | .center => (z.dy, 1)
  | .recon => (z.dy * (z.ngx * z.ngy), 1)
  | .sino => (pdim z.dx, 1)
  | .filphase => (if z.f2d then z.dt * (pdim z.dx / 2) else pdim z.dx / 2, 1)
  | .H => (pdim z.dx, pdim z.dx)
  | .wtbl => (ltbl + 1, 1)
  | .winv => (pdim z.dx - 1, 1)
  | .work => (bigL + 1, 1)
  | .work2 => (bigL + 1, 1)
  | .trig => (z.dt, 1)

/-- `set_pswf_tables` (`source/libtomo/gridrec/gridrec.c:88-123`). -/
noncomputable def trPswf (linv : Nat) : List Access :=
  [wr .wtbl 0] ++ (List.range' 1 ltbl).map (fun i => wr .wtbl (i : Nat)) ++
  [rd .wtbl 0, wr .winv linv] ++
  (List.range' 1 linv).flatMap fun (i : Nat) =>
    [rd .wtbl (roundf ((i : ℝ) * ((ltbl : ℝ) / ((linv : ℝ) + 1 / 2)))),
     wr .winv ((linv : Int) - i), wr .winv ((linv : Int) + i)]

/-- `set_trig_tables` (`source/libtomo/gridrec/gridrec.c:125-142`); sine and cosine tables have
the same indices. -/
def trTrig (dt : Nat) : List Access := (List.range dt).map fun j => wr .trig (j : Nat)

/-- `set_filter_tables` (`source/libtomo/gridrec/gridrec.c:144-192`). -/
def trFilter (dt pd2 : Nat) (f2d : Bool) : List Access :=
  if f2d then (List.range dt).flatMap fun i =>
      (List.range pd2).map (fun j => wr .filphase (i * pd2 + j : Nat)) ++
      (List.range pd2).flatMap fun j =>
        [rd .filphase (i * pd2 + j : Nat), wr .filphase (i * pd2 + j : Nat)]
  else (List.range pd2).map (fun j => wr .filphase (j : Nat)) ++
    (List.range pd2).flatMap fun j => [rd .filphase (j : Nat), wr .filphase (j : Nat)]

/-- `max(1, ceil(U - L2))` and `min(pdim - 1, floor(U + L2))`
(`source/libtomo/gridrec/gridrec.c:411-422`). -/
noncomputable def box (pd : Nat) (U : ℝ) : Int × Int :=
  (if ⌈U - bigL2⌉ < 1 then 1 else ⌈U - bigL2⌉,
   if ⌊U + bigL2⌋ ≥ pd then (pd : Int) - 1 else ⌊U + bigL2⌋)

/-- The values of a loop `for(iv = lo; iv <= hi; iv++)` (`source/libtomo/gridrec/gridrec.c:426`). -/
def intRange (lo hi : Int) : List Int := (List.range (hi + 1 - lo).toNat).map fun k => lo + (k : Nat)

/-- One frequency `j` of projection `p` (`source/libtomo/gridrec/gridrec.c:401-448`): `co`, `si` are
the cosine and sine of the angle. -/
noncomputable def trFreq (pd : Nat) (f2d : Bool) (co si : ℝ) (p j : Nat) : List Access :=
  let U := (j : ℝ) * co + (pd / 2 : Nat)
  let V := (j : ℝ) * si + (pd / 2 : Nat)
  let bu := box pd U
  let bv := box pd V
  [rd .filphase ((if f2d then pd / 2 * p else 0) + j : Nat), rd .sino (j : Nat),
   rd .sino ((pd : Int) - j)] ++
  (intRange bv.1 bv.2).flatMap (fun (iv : Int) =>
    [rd .wtbl (roundf (|V - (iv : ℝ)| * tblspcg)), wr .work (iv - bv.1)]) ++
  (intRange bu.1 bu.2).flatMap (fun (iu : Int) =>
    [rd .wtbl (roundf (|U - (iu : ℝ)| * tblspcg)), wr .work2 (iu - bu.1)]) ++
  (intRange bu.1 bu.2).flatMap fun iu => (intRange bv.1 bv.2).flatMap fun iv =>
    [rd .work2 (iu - bu.1), rd .work (iv - bv.1), ⟨false, .H, iu, iv⟩, ⟨true, .H, iu, iv⟩,
     ⟨false, .H, pd - iu, pd - iv⟩, ⟨true, .H, pd - iu, pd - iv⟩]

/-- One projection of the slice pair `s`, `s + 1` (`source/libtomo/gridrec/gridrec.c:366-449`). -/
noncomputable def trProj (z : Sizes) (co si : Nat → ℝ) (s p : Nat) : List Access :=
  [rd .trig (p : Nat)] ++
  (List.range z.dx).flatMap (fun j => [rd .data (j + z.dx * (p + s * z.dt) : Nat)] ++
    (if s + 1 < z.dy then [rd .data (j + z.dx * (p + s * z.dt) + z.dx * z.dt : Nat)] else []) ++
    [wr .sino (j : Nat)]) ++
  (List.range' z.dx (pdim z.dx - z.dx)).map (fun j => wr .sino (j : Nat)) ++
  -- the FFT reads and writes the whole vector
  (List.range (pdim z.dx)).flatMap (fun j => [rd .sino (j : Nat), wr .sino (j : Nat)]) ++
  (List.range' 1 (pdim z.dx / 2 - 1)).flatMap fun j =>
    trFreq (pdim z.dx) z.f2d (co p) (si p) p j

/-- The loops `while(j < n) { for(iu = start; iu < fin; j++, iu++) ...; if(j < n) { start = 0;
fin = n - offset; } }` (`source/libtomo/gridrec/gridrec.c:513-547` and the inner one at 521-540):
the pairs `(j, iu)`.  `none`: more passes than `fuel`. -/
def copyPass (n fin2 : Int) : Nat → Int → Int → Int → Option (List (Int × Int))
  | 0, _, _, _ => none
  | fuel + 1, j, start, fin =>
    if j < n then
      let cnt := (fin - start).toNat
      let pairs := (List.range cnt).map fun i => (j + (i : Nat), start + (i : Nat))
      let j' := j + cnt
      (if j' < n then copyPass n fin2 fuel j' 0 fin2 else copyPass n fin2 fuel j' start fin).map
        (pairs ++ ·)
    else some []

/-- `pad = (pdim - n) / 2` (C division, `source/libtomo/gridrec/gridrec.c:503-504`). -/
def pad (pd n : Nat) : Int := ((pd : Int) - n).tdiv 2

/-- `offset = M02 + 1 - pad` (`source/libtomo/gridrec/gridrec.c:505-506`). -/
def offset (pd n : Nat) : Int := ((pd / 2 : Nat) : Int) - 1 + 1 - pad pd n

/-- The pairs (output index, index in `H`) in one direction
(`source/libtomo/gridrec/gridrec.c:510-547`); three passes are enough (`copyPairs_eq`). -/
def copyPairs (pd n : Nat) : Option (List (Int × Int)) :=
  copyPass n (n - offset pd n) 3 0 (pd - offset pd n) pd

/-- Copying the result of a slice pair (`source/libtomo/gridrec/gridrec.c:502-547`). -/
def trCopy (z : Sizes) (s : Nat) (us vs : List (Int × Int)) : List Access :=
  us.flatMap fun u => rd .winv (u.1 + pad (pdim z.dx) z.ngy) :: vs.flatMap fun v =>
    [rd .winv (v.1 + pad (pdim z.dx) z.ngx), ⟨false, .H, u.2, v.2⟩,
     wr .recon ((s * (z.ngx * z.ngy) : Nat) + z.ngy * ((z.ngx : Int) - 1 - v.1) + u.1)] ++
    (if s + 1 < z.dy then [⟨false, .H, u.2, v.2⟩,
      wr .recon (((s + 1) * (z.ngx * z.ngy) : Nat) + z.ngy * ((z.ngx : Int) - 1 - v.1) + u.1)]
     else [])

/-- `memset(H[0], 0, ...)`: every element is written
(`source/libtomo/gridrec/gridrec.c:318`). -/
def trAllH (pd : Nat) : List Access :=
  (List.range pd).flatMap fun i => (List.range pd).map fun j => ⟨true, .H, (i : Nat), (j : Nat)⟩

/-- The in-place two-dimensional FFT reads and writes every element
(`source/libtomo/gridrec/gridrec.c:461-466`). -/
def trFftH (pd : Nat) : List Access :=
  ((List.range pd).flatMap fun i => (List.range pd).map fun j =>
    (⟨false, .H, (i : Nat), (j : Nat)⟩ : Access)) ++ trAllH pd

/-- One slice pair (`source/libtomo/gridrec/gridrec.c:312-548`). -/
noncomputable def trPair (z : Sizes) (co si : Nat → ℝ) (us vs : List (Int × Int)) (s : Nat) :
    List Access :=
  [rd .center (s : Nat)] ++ trFilter z.dt (pdim z.dx / 2) z.f2d ++ trAllH (pdim z.dx) ++
  (List.range z.dt).flatMap (trProj z co si s) ++ trFftH (pdim z.dx) ++ trCopy z s us vs

/-- First slices of the pairs, `for(s = 0; s < dy; s += 2)`
(`source/libtomo/gridrec/gridrec.c:312`). -/
def pairStarts (dy : Nat) : List Nat := (List.range ((dy + 1) / 2)).map fun i => 2 * i

/-- All accesses of `gridrec` (`source/libtomo/gridrec/gridrec.c:194-571`); `none`: the copy loops
do not end within three passes. -/
noncomputable def trace (z : Sizes) (co si : Nat → ℝ) : Option (List Access) :=
  if z.dy = 0 ∨ z.dt = 0 ∨ z.dx = 0 then some []
  else (copyPairs (pdim z.dx) z.ngy).bind fun us => (copyPairs (pdim z.dx) z.ngx).map fun vs =>
    trTrig z.dt ++ trPswf (pdim z.dx / 2 - 1) ++
      (pairStarts z.dy).flatMap (trPair z co si us vs)

end Tomopy.Gridrec
