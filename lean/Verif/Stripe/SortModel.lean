import Verif.Corr.Model
import Verif.Mproc.Props
import Mathlib.Data.List.Sort
import Mathlib.Data.Nat.Cast.Order.Ring

/-! Model of the sorting-based stripe removal, source/tomopy/prep/stripe.py:363-434.

Simplifications: `float` is an exact ordered field without NaN; `ndarray.argsort` (introsort, not
stable) is an unknown but fixed function about which only sortedness is known, so the order of ties
is arbitrary; `size` at least 1. -/
namespace Tomopy.Stripe
open Tomopy.Num

section
variable {K : Type} [LinearOrder K] [Field K] [IsStrictOrderedRing K]

/-- What is known about `row[:, 1].argsort()` (stripe.py:415, 420): the positions in an order that
sorts the values. -/
def IsArgsort (l : List K) (σ : List Nat) : Prop :=
  σ.Perm (List.range l.length) ∧ (σ.map fun k => l.getD k 0).Pairwise (· ≤ ·)

/-- An implementation of `argsort` (stripe.py:415, 420). -/
structure Argsort (K : Type) [LinearOrder K] [Field K] where
  run : List K → List Nat
  ok : ∀ l, IsArgsort l (run l)

/-- stripe.py:400-406 `_create_matindex`: every row is 0.0, 1.0, ... -/
def matIndexRow (K : Type) [Field K] (nrow : Nat) : List K := (List.range nrow).map fun t : Nat => (t : K)

/-- `row[row[:, 1].argsort()]` (stripe.py:415); a row lists pairs (index, value). -/
def sortByValue (ag : Argsort K) (row : List (K × K)) : List (K × K) :=
  (ag.run (row.map Prod.snd)).map fun k => row.getD k (0, 0)

/-- `row[row[:, 0].argsort()]` (stripe.py:420). -/
def sortByIndex (ag : Argsort K) (row : List (K × K)) : List (K × K) :=
  (ag.run (row.map Prod.fst)).map fun k => row.getD k (0, 0)

/-- `median_filter(·, (size, 1))` (stripe.py:417): window along the first axis (the columns of the
sinogram), boundary mode 'reflect', element of rank `size // 2`. -/
def medianCols (ncol size : Nat) (S : Nat → Nat → K) (i r : Nat) : K :=
  (sortL ((List.range size).map fun a : Nat =>
    S (Corr.reflect ncol ((i : Int) + a - (size / 2 : Nat))) r)).getD (size / 2) 0

/-- The filter of stripe.py:416-419; the image has `ncol` rows and `nrow` columns. -/
def rsFilter (nrow ncol size dim : Nat) (S : Nat → Nat → K) (i r : Nat) : K :=
  if dim = 1 then medianCols ncol size S i r else Corr.scipyMedian ncol nrow size S i r

/-- stripe.py:409-422 `_rs_sort` with an arbitrary filter in place of the median filter; `X t i` is
the sinogram at angle `t < nrow` and column `i < ncol`. -/
def rsSortWith (ag : Argsort K) (F : (Nat → Nat → K) → Nat → Nat → K) (nrow : Nat)
    (X : Nat → Nat → K) (t i : Nat) : K :=
  let comb := fun i : Nat => (matIndexRow K nrow).zip ((List.range nrow).map fun t => X t i)  -- 413-414
  let sorted := fun i : Nat => sortByValue ag (comb i)                                       -- 415
  let S := fun i r : Nat => ((sorted i).getD r (0, 0)).2
  let filtered := fun i : Nat => (sorted i).mapIdx fun r p => (p.1, F S i r)                  -- 416-419
  let back := fun i : Nat => sortByIndex ag (filtered i)                                      -- 420
  ((back i).getD t (0, 0)).2                                                                  -- 421-422

/-- stripe.py:409-422 `_rs_sort`. -/
def rsSort (ag : Argsort K) (nrow ncol size dim : Nat) (X : Nat → Nat → K) : Nat → Nat → K :=
  rsSortWith ag (rsFilter nrow ncol size dim) nrow X

/-- stripe.py:427-431: default window; `int(0.01 * n)` is `n / 100` rounded down, as the double
nearest to 0.01 is slightly larger than it and `n ≤ 2000`. -/
def rsSize (ncol : Nat) : Option Nat → Nat
  | some s => s
  | none => if ncol > 2000 then 21 else max 5 (ncol / 100)

/-- stripe.py:425-434 on a block of slices (angle, column), worked on in place. -/
def removeStripeBasedSorting (ag : Argsort K) (nrow ncol : Nat) (size : Option Nat) (dim : Nat) :
    Mproc.BlockFun (Nat → Nat → K) where
  inplace rows := rows.map fun row => row.map (rsSort ag nrow ncol (rsSize ncol size) dim)
  ret _ := none

end

end Tomopy.Stripe
