import Verif.Mproc.Model
import Verif.Stripe.FwModel
import Verif.Stripe.FitModel
import Verif.Stripe.VoModel
import Verif.Stripe.TiModel

/-! Model of the front ends of the stripe removal functions whose workers loop over the sinograms of
their block: source/tomopy/prep/stripe.py:88-225, 363-981 with
`distribute_jobs` of source/tomopy/util/mproc.py:201-331.  (`remove_stripe_sf`, whose loop is in C, is in
SfModel.)

Simplifications: real numbers instead of floating point, as in the models of the single sinograms;
sinograms have at least one column. -/
namespace Tomopy.Stripe
open Mproc

noncomputable section

section
variable {α β : Type}

/-- A worker's block between `distribute_jobs` and the filter: a sinogram is either as given or
filtered (`tomo[:, m, :] = …`, stripe.py:176, 225, 434, 517, 650, 759, 840, 892, 981). -/
def filterCell (f : α → Except PyErr β) : α ⊕ β → α ⊕ β
  | .inl x => match f x with
    | .ok y => .inr y
    | .error _ => .inl x
  | .inr y => .inr y

/-- The loop `for m in range(tomo.shape[1])` in place over a block none of whose sinograms raises
(stripe.py:143-176, 212-225, 432-434, 515-517, 648-650, 757-759, 838-840, 888-892, 978-981). -/
def filterBlock (f : α → Except PyErr β) : BlockFun (α ⊕ β) where
  inplace rows := rows.map fun row => row.map (filterCell f)
  ret _ := none

/-- What the worker of the block `ch` does: with `nchunk = 0` its block has lost the axis of the slices
(mproc.py:283-289) and the filter raises `noAxis`; otherwise the first sinogram that raises ends it. -/
def chunkResult (noAxis : PyErr) (f : α → Except PyErr β) (tomo : Nat → α) (nk : Nat) (ch : List Nat) :
    Except PyErr (List β) :=
  if nk = 0 then .error noAxis else ch.mapM fun m => f (tomo m)

/-- `mproc.distribute_jobs(tomo, func=…, axis=1, ncore, nchunk)` with a filter of single sinograms
(mproc.py:201-331, stripe.py:125-131, 202-208).  With a pool the exception of any of the raising
blocks is raised (`res.get()`, line 316), without one that of the first (lines 325-326).  The array given
is not in shared memory. -/
def SliceFilter (cpu : Nat) (debug : Bool) (n : Nat) (ncore nchunk : Option Nat) (noAxis : PyErr)
    (f : α → Except PyErr β) (tomo : Nat → α) (result : Except PyErr (Nat → β)) : Prop :=
  match getNcoreNchunk cpu n ncore nchunk with
  | .error e => result = .error e
  | .ok (nc, nk) =>
    let chunks := (jobSlices n nk).map (Slc.indices n)
    let out := chunkResult noAxis f tomo nk
    ((∃ ys, chunks.mapM out = .ok ys) ∧ ∃ m m' res Y, (∀ i < n, m (.caller 0, i) = .inl (tomo i)) ∧
      DistributeJobs cpu debug
        ⟨n, [0], none, fun _ => false, filterBlock f, ncore, nchunk, fun _ => false⟩ (fun _ => false) m m' res ∧
      (∀ i < n, m' (res, i) = .inr (Y i)) ∧ result = .ok Y) ∨
    ((nc > 1 ∧ debug = false) ∧ ∃ ch ∈ chunks, ∃ e, out ch = .error e ∧ result = .error e) ∨
    (¬(nc > 1 ∧ debug = false) ∧ ∃ e, chunks.mapM out = .error e ∧ result = .error e)

end

/-- The functions and their arguments (stripe.py:88-95, 179, 363-367, 437-442, 520-524, 653-659,
762-767, 843-849, 895-901), with the wavelet as filter bank, `argsort` and the Savitzky-Golay
coefficients as in the models of the sinograms. -/
inductive StripeArgs where
  | fw (B : Bank) (level : Option Nat) (sigma : ℝ) (pad : Bool)
  | ti (nblock : Nat) (alpha : ℝ)
  | sorting (ag : Argsort ℝ) (size : Option Nat) (dim : Nat)
  | filtering (ag : Argsort ℝ) (sigma : ℝ) (size : Option Nat) (dim : Nat)
  | fitting (coef : Nat → Nat → Nat → ℝ) (order : Nat) (sigma : ℝ × ℝ)
  | large (ag : Argsort ℝ) (snr : ℝ) (size : Nat) (ratio : ℝ) (norm : Bool)
  | dead (ag : Argsort ℝ) (snr : ℝ) (size : Nat) (norm : Bool)
  | all (ag : Argsort ℝ) (snr : ℝ) (la sm dim : Nat)
  | interpolation (snr : ℝ) (size : Nat) (ratio : ℝ) (norm : Bool)

/-- Exception of a block of two dimensions: `dx, dy, dz = tomo.shape` (stripe.py:135) or an index that
does not exist (stripe.py:213, 426, 507, 644, 756, 837, 887, 979). -/
def StripeArgs.noAxis : StripeArgs → PyErr
  | .fw .. => .value
  | _ => .index

/-- The body of the loop over sinograms in a call on an array of `dx` angles, `n` sinograms and `dz`
columns: stripe.py:121-123 with 143-176; 213-225; 426-434; 507-517; 643-650; 756-759; 837-840; 887-892;
979-981. -/
def stripeSlice (n dx dz : Nat) : StripeArgs → (Nat → Nat → ℝ) → Except PyErr (Nat → Nat → Option ℝ)
  | .fw B level sigma pad, X =>
    (fwSlice B (fwLevel (dx, n, dz) level) sigma pad dx dz X).map fun Y t i => some (Y t i)
  | .ti nblock alpha, X => Ti.removeTi dx dz nblock alpha fun t i => some (X t i)
  | .sorting ag size dim, X => .ok fun t i => some (rsSort ag dx dz (rsSize dz size) dim X t i)
  | .filtering ag sigma size dim, X => .ok fun t i =>
    some (rsFilterFft ag dx dz (filterPad dx) (gaussWindow (dx + 2 * filterPad dx) sigma) (rsSize dz size) dim X t i)
  | .fitting coef order sigma, X => .ok (rsFitSlice coef dx dz order sigma fun t i => some (X t i))
  | .large ag snr size ratio norm, X => rsLarge ag dx dz snr size ratio norm X
  | .dead ag snr size norm, X => rsDead ag dx dz snr size norm X
  | .all ag snr la sm dim, X => rsAll ag dx dz snr la sm dim X
  | .interpolation snr size ratio norm, X => rsInterpolation dx dz snr size ratio norm X

/-- A call of one of the functions on `tomo`, an array of `n` sinograms `tomo s` of `dx` angles and `dz`
columns (stripe.py:88-131, 179-208, 363-397, 437-475, 520-555, 653-695, 762-799, 843-883, 895-937). -/
def RemoveStripe (cpu : Nat) (debug : Bool) (n dx dz : Nat) (a : StripeArgs) (ncore nchunk : Option Nat)
    (tomo : Nat → Nat → Nat → ℝ) (result : Except PyErr (Nat → Nat → Nat → Option ℝ)) : Prop :=
  SliceFilter cpu debug n ncore nchunk a.noAxis (stripeSlice n dx dz a) tomo result

end

end Tomopy.Stripe
