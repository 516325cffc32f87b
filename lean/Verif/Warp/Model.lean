import Verif.Mproc.Model
import Mathlib.Analysis.SpecialFunctions.Pow.Real

/-! Model of the distortion correction in source/tomopy/prep/alignment.py:
`_unwarp_image_backward`, `distortion_correction_proj`, `distortion_correction_sino`,
`load_distortion_coefs`.

Simplifications: exact real arithmetic (the rounding of coordinates to float32 in the projection
version is dropped).  `scipy.ndimage.map_coordinates` with `order=1`, `mode='reflect'` is modelled
for coordinates inside the image, where all calls are. -/

namespace Tomopy.Warp

/-- An image; its size is given separately (alignment.py:976). -/
abbrev Frame := Nat → Nat → ℝ

/-- Index behind the last one with `mode='reflect'` (alignment.py:987, 1040). -/
def reflect (n k : Nat) : Nat := if k < n then k else 2 * n - 1 - k

/-- Linear interpolation in one direction (alignment.py:987, 1040, `order=1`). -/
noncomputable def lerp (n : Nat) (f : Nat → ℝ) (y : ℝ) : ℝ :=
  (1 - (y - ⌊y⌋)) * f (reflect n ⌊y⌋.toNat) + (y - ⌊y⌋) * f (reflect n (⌊y⌋.toNat + 1))

/-- `map_coordinates` of an image of `h` rows and `w` columns (alignment.py:987, 1040). -/
noncomputable def bilinear (h w : Nat) (f : Frame) (y x : ℝ) : ℝ :=
  lerp h (fun r => lerp w (f r) x) y

/-- `np.sum([factor * r**i …])` (alignment.py:981-983, 1028-1030). -/
def poly (r : ℝ) : Nat → List ℝ → ℝ
  | _, [] => 0
  | i, a :: l => a * r ^ i + poly r (i + 1) l

/-- `np.clip` (alignment.py:984-985, 1031-1032). -/
noncomputable def clip (v lo hi : ℝ) : ℝ := min (max v lo) hi

/-- The distances and the factor of one pixel (alignment.py:977-983, 1025-1030). -/
noncomputable def factor (xc yc : ℝ) (fs : List ℝ) (r c : ℝ) : ℝ :=
  poly (Real.sqrt ((c - xc) ^ 2 + (r - yc) ^ 2)) 0 fs

/-- `xd_mat` (alignment.py:984, 1031). -/
noncomputable def srcX (w : Nat) (xc yc : ℝ) (fs : List ℝ) (r c : ℝ) : ℝ :=
  clip (xc + factor xc yc fs r c * (c - xc)) 0 ((w : ℝ) - 1)

/-- `yd_mat` (alignment.py:985, 1032). -/
noncomputable def srcY (h : Nat) (xc yc : ℝ) (fs : List ℝ) (r c : ℝ) : ℝ :=
  clip (yc + factor xc yc fs r c * (r - yc)) 0 ((h : ℝ) - 1)

/-- `_unwarp_image_backward` (alignment.py:976-988). -/
noncomputable def unwarp (h w : Nat) (xc yc : ℝ) (fs : List ℝ) (f : Frame) : Frame := fun r c =>
  bilinear h w f (srcY h xc yc fs r c) (srcX w xc yc fs r c)

/-- `_distortion_correction_proj` as a job (alignment.py:947-953, 991-995). -/
noncomputable def correctProj (h w : Nat) (xc yc : ℝ) (fs : List ℝ) : Mproc.BlockFun Frame where
  inplace rows := rows.map fun row => row.modifyHead (unwarp h w xc yc fs)
  ret _ := none

/-- `np.int16` (alignment.py:1033-1034). -/
def i16 (v : Int) : Int := (v + 32768) % 65536 - 32768

/-- The rows that are read: smallest and largest source row (alignment.py:1033-1034); `np.amin`
raises for an empty list. -/
noncomputable def rowsOf (l : List ℝ) : Except PyErr (Int × Int) :=
  match l with
  | [] => .error .value
  | a :: l => .ok (i16 ⌊l.foldl min a⌋, i16 (i16 ⌈l.foldl max a⌉ + 1))

/-- The interpolation in the rows `lo … hi - 1` of one projection (alignment.py:1035-1040).  An empty
slab (`map_coordinates` of an array without elements) counts as a runtime error. -/
noncomputable def slabRow (h w : Nat) (ind : Int) (xc yc : ℝ) (fs : List ℝ) (f : Frame)
    (lo hi : Int) : Except PyErr (Nat → ℝ) :=
  if (pyBound h hi).toNat ≤ (pyBound h lo).toNat then .error .runtime
  else .ok fun c : Nat => bilinear ((pyBound h hi).toNat - (pyBound h lo).toNat) w
    (fun r => f ((pyBound h lo).toNat + r)) (srcY h xc yc fs ind c - lo) (srcX w xc yc fs ind c)

/-- `distortion_correction_sino` for one projection (alignment.py:1024-1041). -/
noncomputable def sinoRow (h w : Nat) (ind : Int) (xc yc : ℝ) (fs : List ℝ) (f : Frame) :
    Except PyErr (Nat → ℝ) := do
  let p ← rowsOf ((List.range w).map fun c : Nat => srcY h xc yc fs ind c)
  slabRow h w ind xc yc fs f p.1 p.2

/-- `float(i.split()[-1])` (alignment.py:1067). -/
def lastNum {K W : Type} (num : W → Except PyErr K) (l : List W) : Except PyErr K :=
  match l.getLast? with
  | none => .error .index
  | some t => num t

/-- `load_distortion_coefs` (alignment.py:1063-1071): `tokens` are the words of each line and `num`
is `float`. -/
def loadCoefs {K W : Type} (num : W → Except PyErr K) (tokens : List (List W)) :
    Except PyErr (K × K × List K) := do
  let data ← tokens.mapM (lastNum num)
  match data with
  | x :: y :: l => .ok (x, y, l)
  | _ => .error .index

end Tomopy.Warp
