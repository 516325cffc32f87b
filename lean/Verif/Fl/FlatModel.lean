import Verif.Fl.NormModel
import Verif.Stripe.SfModel

/-!
# `remove_stripe_sf` and `normalize_bg` in `float` arithmetic
-/

namespace Tomopy.Fl

open Function (update)
open Tomopy.Stripe (SfArgs sfPixels sfClamp)

/-- Address of angle `p`, slice `s`, column `j` (`source/libtomo/prep/stripe.c:67,94`). -/
def sfAt (d : SfArgs) (p s j : Nat) : Nat := j + s * d.dz + p * d.dy * d.dz

/-- `avrage_row[j]` of slice `s` (`source/libtomo/prep/stripe.c:62-69`): every term divided, then added. -/
def sfAvgF (d : SfArgs) (m : Nat → F32) (s j : Nat) : F32 :=
  (List.range d.dx).foldl (fun a p => F32.add a (F32.div (m (sfAt d p s j)) (F32.round d.dx))) (.fin 0)

/-- `smooth_row[i]` from the average row (`source/libtomo/prep/stripe.c:73-86`): sum of the window,
clamped at the ends, then divided by `size`. -/
def sfSmoothF (d : SfArgs) (avg : Nat → F32) (i : Nat) : F32 :=
  F32.div ((List.range d.size.toNat).foldl (fun a (t : Nat) => F32.add a (avg (sfClamp d i t).toNat)) (.fin 0))
    (F32.round d.size)

/-- One slice (`source/libtomo/prep/stripe.c:57-99`).  The two rows are fresh (`calloc`) and each entry is
written by its own loop only, so they are functions of the column. -/
def sfSliceF (d : SfArgs) (m : Nat → F32) (s : Nat) : Nat → F32 :=
  let avg := sfAvgF d m s
  let smooth := sfSmoothF d avg
  (sfPixels d).foldl (fun m' v => update m' (sfAt d v.1 s v.2)
    (F32.sub (m' (sfAt d v.1 s v.2)) (F32.sub (avg v.2) (smooth v.2)))) m

/-- `remove_stripe_sf` on the slices `0 .. dy` (`source/libtomo/prep/stripe.c:48-101`). -/
def removeStripeSfF (d : SfArgs) (m : Nat → F32) : Nat → F32 := (List.range d.dy).foldl (sfSliceF d) m

/-- `air_left`, `air_right`: a mean of `nair` pixels, replaced by one if it is not positive
(`source/libtomo/prep/prep.c:60-76`); a NaN is kept. -/
def airF (nair : Nat) (pix : Nat → F32) : F32 :=
  let a := F32.div ((List.range nair).foldl (fun s j => F32.add s (pix j)) (.fin 0)) (F32.round nair)
  match a with
  | .fin q => if q ≤ 0 then .fin 1 else a
  | .inf s => if s then .fin 1 else a
  | .nan => .nan

/-- `normalize_bg` of one row (`source/libtomo/prep/prep.c:58-84`), fused or separate multiply-add at
line 82.  The accesses are inside the array for `nair ≤ dz` (proved of `Normalize/Model.lean`). -/
def bgRowF (fused : Bool) (dz nair : Nat) (row : Nat → F32) (j : Nat) : F32 :=
  let left := airF nair row
  let right := airF nair fun t => row (dz - 1 - t)
  let slope := F32.div (F32.sub right left) (F32.round ((dz : ℚ) - 1))
  F32.div (row j) (F32.mac fused slope (F32.round j) left)

end Tomopy.Fl
