import Verif.Files.Model
import Verif.Recon.Model

/-! Model of source/tomopy/recon/rotation.py `write_center`: from the arguments to the files.

Simplifications: `ind` is not negative; at least one centre is tried; the reconstruction of a slice,
the mask and the initial image are parameters. -/

set_option linter.unusedSectionVars false

namespace Tomopy.Files
open Tomopy.Mproc Tomopy.Recon

variable {K : Type} [Field K] [LinearOrder K] [IsStrictOrderedRing K] [FloorRing K]

/-- rotation.py:541-546: number of slices, angles and columns, and the slice that is used. -/
def wcSlice (tomo : Arr3 K) (sinogramOrder : Bool) : Option Nat → Nat
  | none => if sinogramOrder then tomo.d0 / 2 else tomo.d1 / 2
  | some i => i

/-- rotation.py:554-558: `stack[m]`, the same for every `m`. -/
def wcSino (tomo : Arr3 K) (sinogramOrder : Bool) (ind : Nat) (t x : Nat) : K :=
  if sinogramOrder then tomo.get ind t x else tomo.get t ind x

/-- rotation.py:552, 561-567: the call of `recon` for `n` centres, as far as its arguments are
checked. -/
def wcCall (dt dx n ntheta : Nat) (alg : Recon.Alg) (filterName : String) : Recon.Call where
  dy := n
  dt := dt
  dx := dx
  ntheta := ntheta
  alg := alg
  kwargs := [("filter_name", .str filterName)]
  ncenter := n
  initShape := none

/-- rotation.py:570-571: `circ_mask(rec, axis=0)`; the argument `ratio` of `write_center` is not
passed on, so that the default 1 of `circ_mask` holds (source/tomopy/misc/corr.py:852). -/
def wcMask {α : Type} (circ : K → α → α) (mask : Bool) (_ratio : K) (img : α) : α :=
  if mask then circ 1 img else img

/-- rotation.py:538-578 when the arguments pass the checks of `recon`: from the files `s` to the
files `s'`.  `recon` is called with `nchunk=1` (567) and the default `ncore`. `k` is the kernel,
`x0 m` the initial image, `sino` and `cen` make a slice of the stack and a centre arguments of the
kernel. -/
def WriteCenter {α : Type} (cpu : Nat) (limit : Option Nat) (k : Kernel α) (circ : K → α → α)
    (sino : (Nat → Nat → K) → α) (cen : K → α) (x0 : Nat → α) (cwd dpath : Name) (tomo : Arr3 K)
    (sinogramOrder : Bool) (ind : Option Nat) (range : Option (K × K × K)) (mask : Bool) (ratio : K)
    (s s' : Store α) : Prop :=
  ∃ m m' : Cell → α,
    (∀ i c, (centers tomo.d2 range)[i]? = some c →
      m (tomoB, i) = sino (wcSino tomo sinogramOrder (wcSlice tomo sinogramOrder ind)) ∧
      m (centerB, i) = cen c ∧ m (reconB, i) = x0 i) ∧
    DistRecon cpu (centers tomo.d2 range).length none (some 1) limit k m m' ∧
    s' = writeCenters cwd dpath (centers tomo.d2 range)
      (fun i => wcMask circ mask ratio (m' (reconB, i))) s

end Tomopy.Files
