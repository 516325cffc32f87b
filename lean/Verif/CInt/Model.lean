import Verif.Base
import Verif.Mproc.Model
import Verif.Recon.Model

/-! Model of the C integer arithmetic that computes array offsets and buffer sizes in
source/libtomo (recon, gridrec, prep, misc).  The other models use unbounded naturals for these
offsets; here every offset is the C expression itself, evaluated with the C types. -/
namespace Tomopy.CInt
open Tomopy.Mproc

/-- The integer types the index computations use, on the usual platforms: `int` (art.c:73-79),
`unsigned` (gridrec.c:369, morph.c:53) and `unsigned long long` (morph.c:54). -/
inductive Ty where
  | i32 | u32 | u64
  deriving DecidableEq, Repr

/-- C expressions as they occur in the index computations, e.g. `d + p * dx + s * dt * dx`
(art.c:143): variables with their type and value, the operators, and conversion by
initialisation of a variable of another type (gridrec.c:369, morph.c:66). -/
inductive CE where
  | var (t : Ty) (v : Int)
  | add (a b : CE)
  | sub (a b : CE)
  | mul (a b : CE)
  | cast (t : Ty) (a : CE)

/-- An `int` variable or literal holding a natural number (dtype.py:140 `as_c_int` for the
dimensions).  Dimensions of 2^31 and more, which `ctypes.c_int` reduces silently, are excluded
by the hypotheses of the theorems. -/
def CE.i (n : Nat) : CE := .var .i32 n

/-- The usual arithmetic conversions between the three types (art.c:143 only `int`,
gridrec.c:376 `int` with `unsigned`, morph.c:75 `unsigned` with `int`). -/
def Ty.join : Ty → Ty → Ty
  | .u64, _ => .u64
  | _, .u64 => .u64
  | .u32, _ => .u32
  | _, .u32 => .u32
  | .i32, .i32 => .i32

/-- The type of an expression (art.c:143, gridrec.c:369-380, morph.c:66-84). -/
def CE.ty : CE → Ty
  | .var t _ => t
  | .add a b => a.ty.join b.ty
  | .sub a b => a.ty.join b.ty
  | .mul a b => a.ty.join b.ty
  | .cast t _ => t

/-- Conversion of a value to a type (gridrec.c:369 `const unsigned int j0 = ...`): modulo 2^32
or 2^64 for the unsigned types.  To `int` it is two's complement (not used by the code). -/
def conv : Ty → Int → Int
  | .i32, v => (v + 2 ^ 31) % 2 ^ 32 - 2 ^ 31
  | .u32, v => v % 2 ^ 32
  | .u64, v => v % 2 ^ 64

/-- Result of an arithmetic operation with exact result `v` in type `t` (art.c:143): signed
overflow has no defined result (`none`), unsigned arithmetic is modular. -/
def norm : Ty → Int → Option Int
  | .i32, v => if -2 ^ 31 ≤ v ∧ v < 2 ^ 31 then some v else none
  | .u32, v => some (v % 2 ^ 32)
  | .u64, v => some (v % 2 ^ 64)

/-- Value of an expression (art.c:143 etc.), `none` if a signed operation overflows. -/
def CE.eval : CE → Option Int
  | .var _ v => some v
  | .add a b => do
    let x ← a.eval
    let y ← b.eval
    norm (a.ty.join b.ty) (conv (a.ty.join b.ty) x + conv (a.ty.join b.ty) y)
  | .sub a b => do
    let x ← a.eval
    let y ← b.eval
    norm (a.ty.join b.ty) (conv (a.ty.join b.ty) x - conv (a.ty.join b.ty) y)
  | .mul a b => do
    let x ← a.eval
    let y ← b.eval
    norm (a.ty.join b.ty) (conv (a.ty.join b.ty) x * conv (a.ty.join b.ty) y)
  | .cast t a => do
    let x ← a.eval
    some (conv t x)

/-- Value of an expression when signed overflow wraps around, which is what the generated
code usually does (art.c:143 etc.). -/
def CE.wrap : CE → Int
  | .var _ v => v
  | .add a b => conv (a.ty.join b.ty) (a.wrap + b.wrap)
  | .sub a b => conv (a.ty.join b.ty) (a.wrap - b.wrap)
  | .mul a b => conv (a.ty.join b.ty) (a.wrap * b.wrap)
  | .cast t a => conv t a.wrap

scoped infixl:65 " +ᶜ " => CE.add
scoped infixl:65 " -ᶜ " => CE.sub
scoped infixl:70 " *ᶜ " => CE.mul

/-- Dimensions of one call of a reconstruction or projection function: `dy, dt, dx` of the
data and `ngridx, ngridy` of an image (art.c:49-50; for project.c:51 `ox, oz`; with
`oy = dy`). -/
structure Dims where
  dy : Nat
  dt : Nat
  dx : Nat
  gx : Nat
  gy : Nat

/-- Offset of the data value of slice `s`, angle `p`, pixel `d`: art.c:143, bart.c:163,
osem.c:164, ospml_quad.c:163, ospml_hybrid.c:163, fbp.c:121, grad.c:169, tikh.c:169, tv.c:202,
vector.c:159, and utils.c:365, 382 for `simdata`. -/
def dataIx (D : Dims) (s p d : Nat) : CE :=
  .i d +ᶜ .i p *ᶜ .i D.dx +ᶜ .i s *ᶜ .i D.dt *ᶜ .i D.dx

/-- Offset of pixel `n` of slice `s`, `indi[n] + index_model` with
`index_model = s * ngridx * ngridy`: utils.c:364-368, art.c:144-148, bart.c:177-178,
osem.c:179-180, ospml_quad.c:164-168, fbp.c:120-124. -/
def imgIx (D : Dims) (s n : Nat) : CE :=
  .i n +ᶜ .i s *ᶜ .i D.gx *ᶜ .i D.gy

/-- Offset of pixel (`ix`, `iy`) of slice `s`, `ind_recon + iy * ngridx + ix`: grad.c:99-102,
tikh.c:99-102, tv.c:105-108. -/
def rowIx (D : Dims) (s iy ix : Nat) : CE :=
  .i s *ᶜ .i D.gx *ᶜ .i D.gy +ᶜ .i iy *ᶜ .i D.gx +ᶜ .i ix

/-- `ind1 = ind0 + s * ngridx * ngridy` with `ind0 = m + n * ngridy` (ospml_quad.c:190-191,
379, ospml_hybrid.c:190-191, 397) and the same offset in vector.c:174 and utils.c:383. -/
def penIx (D : Dims) (s n m : Nat) : CE :=
  .i m +ᶜ .i n *ᶜ .i D.gy +ᶜ .i s *ᶜ .i D.gx *ᶜ .i D.gy

/-- `ind1 + ngridy + 1`, the neighbour of pixel (`n`, `m`) in the next row and column
(ospml_quad.c:197, 311); the other neighbours need smaller intermediate values. -/
def penNext (D : Dims) (s n m : Nat) : CE :=
  penIx D s n m +ᶜ .i D.gy +ᶜ .i 1

/-- Number of elements of the simulated data, `dy * dt * dx` (art.c:67, 84, bart.c:68,
osem.c:69, grad.c:67, tikh.c:67, tv.c:67). -/
def dataLen (D : Dims) : CE := .i D.dy *ᶜ .i D.dt *ᶜ .i D.dx

/-- The same number as `dt * dy * dx` (ospml_quad.c:88, ospml_hybrid.c:88, vector.c:85). -/
def dataLen' (D : Dims) : CE := .i D.dt *ᶜ .i D.dy *ᶜ .i D.dx

/-- Number of elements of one image, `ngridx * ngridy` (bart.c:69, osem.c:70,
ospml_quad.c:104, grad.c:68, vector.c:93). -/
def planeLen (D : Dims) : CE := .i D.gx *ᶜ .i D.gy

/-- Number of elements of all images, `dy * ngridx * ngridy` (grad.c:71-73, tikh.c:71-73,
tv.c:70-75). -/
def volLen (D : Dims) : CE := .i D.dy *ᶜ .i D.gx *ᶜ .i D.gy

/-- The functions of libtomo/recon whose offsets are modelled: project.c:51, fbp.c:48,
art.c:49, bart.c:49 (also `sirt`), osem.c:50 (also `mlem`), ospml_quad.c:48 (also `pml_quad`),
ospml_hybrid.c:48, grad.c:49, tikh.c:49, tv.c:49, vector.c:49.  `project2` has the offsets of
`vector` without its buffers.  `vector2`, `vector3` and `project3` permute the axes
(vector.c:336) and are left out. -/
inductive Kernel where
  | project | fbp | art | bart | osem | ospmlQuad | ospmlHybrid | grad | tikh | tv | vector
  deriving DecidableEq, Repr

/-- Row-major offset of element (`i`, `j`, `k`) of a numpy array whose last two dimensions are
`n` and `m` (numpy C order, as passed by recon.py and checked by dtype.py:112). -/
def rowMajor (n m i j k : Nat) : Nat := (i * n + j) * m + k

/-- `Computes k D e v`: in a call with dimensions `D`, function `k` evaluates the offset or
size expression `e`, which is meant to be `v`.  Offsets are listed for every element of the
data and of the image (whether a ray meets a given pixel is the subject of other models). -/
inductive Computes (D : Dims) : Kernel → CE → Nat → Prop
  /-- all functions read or write every data value (lines at `dataIx`) -/
  | data (k : Kernel) (s p d : Nat) (hs : s < D.dy) (hp : p < D.dt) (hd : d < D.dx) :
      Computes D k (dataIx D s p d) (rowMajor D.dt D.dx s p d)
  /-- ray tracing functions address pixel `n * ngridy + m` (lines at `imgIx`); `vector` has
  the other form -/
  | img (k : Kernel) (hk : k ≠ .vector) (s n m : Nat) (hs : s < D.dy) (hn : n < D.gx)
      (hm : m < D.gy) : Computes D k (imgIx D s (n * D.gy + m)) (rowMajor D.gx D.gy s n m)
  /-- vector.c:174-177, utils.c:383, ospml_quad.c:191, ospml_hybrid.c:191 -/
  | pen (k : Kernel) (hk : k = .vector ∨ k = .ospmlQuad ∨ k = .ospmlHybrid) (s n m : Nat)
      (hs : s < D.dy) (hn : n < D.gx) (hm : m < D.gy) :
      Computes D k (penIx D s n m) (rowMajor D.gx D.gy s n m)
  /-- ospml_quad.c:197, 311 and the same in ospml_hybrid.c -/
  | penNext (k : Kernel) (hk : k = .ospmlQuad ∨ k = .ospmlHybrid) (s n m : Nat)
      (hs : s < D.dy) (hn : n + 1 < D.gx) (hm : m + 1 < D.gy) :
      Computes D k (penNext D s n m) (rowMajor D.gx D.gy s (n + 1) (m + 1))
  /-- grad.c:102, tikh.c:102, tv.c:108: here the image is read with `ngridx` columns -/
  | row (k : Kernel) (hk : k = .grad ∨ k = .tikh ∨ k = .tv) (s iy ix : Nat) (hs : s < D.dy)
      (hy : iy < D.gy) (hx : ix < D.gx) :
      Computes D k (rowIx D s iy ix) (rowMajor D.gy D.gx s iy ix)
  /-- art.c:67, bart.c:68, osem.c:69, grad.c:67, tikh.c:67, tv.c:67 -/
  | dataLen (k : Kernel) (hk : k = .art ∨ k = .bart ∨ k = .osem ∨ k = .grad ∨ k = .tikh ∨
      k = .tv) : Computes D k (dataLen D) (D.dy * D.dt * D.dx)
  /-- ospml_quad.c:88, ospml_hybrid.c:88, vector.c:85 -/
  | dataLen' (k : Kernel) (hk : k = .ospmlQuad ∨ k = .ospmlHybrid ∨ k = .vector) :
      Computes D k (dataLen' D) (D.dy * D.dt * D.dx)
  /-- bart.c:69, osem.c:70, ospml_quad.c:104, ospml_hybrid.c:104, grad.c:68, tikh.c:68,
  tv.c:68, vector.c:93 -/
  | planeLen (k : Kernel) (hk : k ≠ .project ∧ k ≠ .fbp ∧ k ≠ .art) :
      Computes D k (planeLen D) (D.gx * D.gy)
  /-- grad.c:71-73, tikh.c:71-73, tv.c:70-75 -/
  | volLen (k : Kernel) (hk : k = .grad ∨ k = .tikh ∨ k = .tv) :
      Computes D k (volLen D) (D.dy * D.gx * D.gy)

/-- The functions that allocate a copy of the data (art.c:67 and the lines listed at
`dataLen`, `dataLen'`); `project` and `fbp` do not. -/
def Kernel.copiesData : Kernel → Bool
  | .project => false
  | .fbp => false
  | _ => true

/-- The functions that allocate a copy of all images (grad.c:71, tikh.c:71, tv.c:70). -/
def Kernel.copiesImages : Kernel → Bool
  | .grad => true
  | .tikh => true
  | .tv => true
  | _ => false

/-- The functions that allocate one image as work space (lines at `planeLen`). -/
def Kernel.copiesPlane : Kernel → Bool
  | .project => false
  | .fbp => false
  | .art => false
  | _ => true

/-! ### gridrec -/

/-- `pdim`: the first of 16, 32, 64, … that is at least `dx` (gridrec.c:226-227).  The loop is
written with the number of doublings as fuel. -/
def pdimLoop (dx : Nat) : Nat → Nat → Nat
  | 0, p => p
  | fuel + 1, p => if p < dx then pdimLoop dx fuel (p * 2) else p

/-- gridrec.c:226-227; `dx` doublings are enough. -/
def pdim (dx : Nat) : Nat := pdimLoop dx dx 16

/-- `j0 = dx * (p + s * dt)` converted to `unsigned`, `index = j + j0` (gridrec.c:369, 376). -/
def gridIx (D : Dims) (s p j : Nat) : CE :=
  .i j +ᶜ .cast .u32 (.i D.dx *ᶜ (.i p +ᶜ .i s *ᶜ .i D.dt))

/-- `index + delta_index` with `unsigned delta_index = dx * dt` (gridrec.c:369, 379), the
value of the second slice of the pair. -/
def gridIx2 (D : Dims) (s p j : Nat) : CE :=
  gridIx D s p j +ᶜ .cast .u32 (.i D.dx *ᶜ .i D.dt)

/-- `islc1 + ngridy * (ngridx - 1 - k) + j` (gridrec.c:507, 527). -/
def gridOut (D : Dims) (s k j : Nat) : CE :=
  .i s *ᶜ .i D.gx *ᶜ .i D.gy +ᶜ .i D.gy *ᶜ (.i D.gx -ᶜ .i 1 -ᶜ .i k) +ᶜ .i j

/-- `islc2 + ngridy * (ngridx - 1 - k) + j` with `islc2 = (s + 1) * ngridx * ngridy`
(gridrec.c:508, 531). -/
def gridOut2 (D : Dims) (s k j : Nat) : CE :=
  (.i s +ᶜ .i 1) *ᶜ .i D.gx *ᶜ .i D.gy +ᶜ .i D.gy *ᶜ (.i D.gx -ᶜ .i 1 -ᶜ .i k) +ᶜ .i j

/-- `islc2` itself, which is computed even if there is no second slice (gridrec.c:508). -/
def gridSlc2 (D : Dims) (s : Nat) : CE := (.i s +ᶜ .i 1) *ᶜ .i D.gx *ᶜ .i D.gy

/-- `pdim * pdim` (gridrec.c:318). -/
def gridPlane (D : Dims) : CE := .i (pdim D.dx) *ᶜ .i (pdim D.dx)

/-- Offsets and sizes computed by `gridrec` (gridrec.c:312-540); slices are taken in pairs
`s, s + 1` with even `s` (312).  The vectors of length `dt * pdim2` and `pdim2 * dt`
(gridrec.c:244, 253-255) are left out. -/
inductive GridComputes (D : Dims) : CE → Nat → Prop
  /-- gridrec.c:381 -/
  | data (s p j : Nat) (h2 : s % 2 = 0) (hs : s < D.dy) (hp : p < D.dt) (hj : j < D.dx) :
      GridComputes D (gridIx D s p j) (rowMajor D.dt D.dx s p j)
  /-- gridrec.c:377-380 -/
  | data2 (s p j : Nat) (h2 : s % 2 = 0) (hs : s + 1 < D.dy) (hp : p < D.dt) (hj : j < D.dx) :
      GridComputes D (gridIx2 D s p j) (rowMajor D.dt D.dx (s + 1) p j)
  /-- gridrec.c:527 -/
  | out (s k j : Nat) (h2 : s % 2 = 0) (hs : s < D.dy) (hk : k < D.gx) (hj : j < D.gy) :
      GridComputes D (gridOut D s k j) (rowMajor D.gx D.gy s (D.gx - 1 - k) j)
  /-- gridrec.c:529-532 -/
  | out2 (s k j : Nat) (h2 : s % 2 = 0) (hs : s + 1 < D.dy) (hk : k < D.gx) (hj : j < D.gy) :
      GridComputes D (gridOut2 D s k j) (rowMajor D.gx D.gy (s + 1) (D.gx - 1 - k) j)
  /-- gridrec.c:508 -/
  | slc2 (s : Nat) (h2 : s % 2 = 0) (hs : s < D.dy) :
      GridComputes D (gridSlc2 D s) ((s + 1) * D.gx * D.gy)
  /-- gridrec.c:369, computed for every angle of every pair -/
  | delta (hy : 0 < D.dy) (ht : 0 < D.dt) :
      GridComputes D (.cast .u32 (.i D.dx *ᶜ .i D.dt)) (D.dx * D.dt)
  /-- gridrec.c:318 -/
  | plane (hy : 0 < D.dy) : GridComputes D (gridPlane D) (pdim D.dx * pdim D.dx)

/-! ### Preprocessing and post-processing -/

/-- prep.c:54-65, 85 `normalize_bg` on `dx` projections of `dy` rows and `dz` columns:
`iproj = m * (dz * dy)`, `i = iproj + n * dz`. -/
def bgRow (dy dz m n : Nat) : CE := .i m *ᶜ (.i dz *ᶜ .i dy) +ᶜ .i n *ᶜ .i dz

/-- prep.c:63, 85: `data[i + j]`. -/
def bgIx (dy dz m n j : Nat) : CE := bgRow dy dz m n +ᶜ .i j

/-- prep.c:64: `data[i + dz - 1 - j]`. -/
def bgRight (dy dz m n j : Nat) : CE := bgRow dy dz m n +ᶜ .i dz -ᶜ .i 1 -ᶜ .i j

/-- Offsets computed by `normalize_bg` (prep.c:47-87) with `nair` air pixels. -/
inductive BgComputes (dx dy dz nair : Nat) : CE → Nat → Prop
  /-- prep.c:63, 85 -/
  | left (m n j : Nat) (hm : m < dx) (hn : n < dy) (hj : j < dz) :
      BgComputes dx dy dz nair (bgIx dy dz m n j) (rowMajor dy dz m n j)
  /-- prep.c:64 -/
  | right (m n j : Nat) (hm : m < dx) (hn : n < dy) (hj : j < nair) (hz : j < dz) :
      BgComputes dx dy dz nair (bgRight dy dz m n j) (rowMajor dy dz m n (dz - 1 - j))

/-- stripe.c:67, 94 `remove_stripe_sf`: `data[j + s * dz + p * dy * dz]`. -/
def sfIx (dy dz p s j : Nat) : CE := .i j +ᶜ .i s *ᶜ .i dz +ᶜ .i p *ᶜ .i dy *ᶜ .i dz

/-- remove_ring.c:657: `data[i + (j * dx) + s * dy * dx]` (slices of `dy` rows and `dx`
columns); remove_ring.c:623 computes `data + s * dy * dx`, a part of this. -/
def ringIx (dy dx s j i : Nat) : CE := .i i +ᶜ (.i j *ᶜ .i dx) +ᶜ .i s *ᶜ .i dy *ᶜ .i dx

/-- morph.c:53-54, 66-72 (and 79-85, 98-104 and `upsample` 141-147 etc.): the offset
`i + j + k` of the coarse array, with `i = m * (dy * dz)`, `j = n * dz`, where `m`, `n` are
`unsigned`, `i`, `j`, `k` are `unsigned long long` and `dy`, `dz` are `int` (after the
division by the bin size in `downsample`). -/
def morphIx (dy dz m n k : Nat) : CE :=
  .cast .u64 (.var .u32 m *ᶜ (.i dy *ᶜ .i dz)) +ᶜ .cast .u64 (.var .u32 n *ᶜ .i dz)
    +ᶜ .var .u64 k

/-- morph.c:57-60: `assert(ULLONG_MAX / dx / dy / dz > 0)`, which is meant to ensure that the
largest array is indexable. -/
def morphAssert (dx dy dz : Nat) : Prop := (2 ^ 64 - 1) / dx / dy / dz > 0

/-! ### The calls made by `recon` -/

/-- Numbers of slices of the calls that `recon` makes for `n` slices (algorithm.py:392-461,
mproc.py:139-158): the lengths of the non-empty slice groups. -/
def callSizes (cpu n : Nat) (ncore nchunk : Option Nat) : Except PyErr (List Nat) := do
  let r ← getNcoreSlices cpu n ncore nchunk
  return (Tomopy.Recon.useChunks n r.2).map List.length

end Tomopy.CInt
