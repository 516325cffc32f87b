import Mathlib.Data.List.Basic
import Mathlib.Data.List.Perm.Basic
import Verif.Base

/-!
# The heap discipline of the C kernels: `malloc`, `free` and the uses between them

The C sources under `source/libtomo` allocate scratch buffers on the C heap.  Each routine is
modelled here by the sequence of heap operations one call performs: every `malloc`/`calloc`,
every `free`, and the reads and writes made through the pointers in between.  What the buffers
hold is not part of this model (the other models deal with that).

Simplifications, valid for the whole file:
* allocation always succeeds (the `assert(p != NULL)` after the allocations are not modelled);
* a use is listed wherever the source has one, even if it stands under a test or in a loop that
  runs zero times; the theorems below are the stronger for it;
* the arrays of the caller (`data`, `recon`, …) are never freed by the callee and are left out;
* loops marked `#pragma omp parallel for` are run in order of their index: the blocks allocated
  in their bodies are private to one iteration and `malloc`/`free` are thread safe.
-/

set_option linter.unusedSectionVars false

namespace Tomopy.Heap

/-- The local pointer variables of the C routines (`source/libtomo/recon/*.c`,
`source/libtomo/gridrec/gridrec.c:204-217`, `source/libtomo/misc/*.c`,
`source/libtomo/prep/stripe.c`, `source/libtomo/prep/stripes_detect3d.c`).  `polar0`, `ring0` and
`filtered0` stand for `polar_image[0]`, `ring_image[0]` and `filtered_image[0]`; `H0`, `U0`, `V0` for `H[0]`,
`U_d[0]`, `V_d[0]`; `plan1`, `plan2` for the FFT plans. -/
inductive Var
  | gridx | gridy | coordx | coordy | ax | ay | bx | «by» | coorx | coory | dist | indi | indx | indy
  | simdata | sumDist | update | update1 | update2 | E | F | G
  | prox1 | grad | grad0 | recon0 | lambda | prox0x | prox0y | adjdata
  | diffx | diffy | lindx | lindy
  | sine | cose | sino | wtbl | filphase | winv | work | work2 | H | H0 | Jz | Pz | Ud | U0 | Vd | V0
  | plan1 | plan2
  | valVec | updated | mUpd | gauss | values | temp3d | mask | averageRow | smoothRow
  | image | polar | polar0 | ring | ring0 | filtered | filtered0 | edge | medianArr | positionArr
  deriving DecidableEq, Repr

/-- The heap operations of the C code: `x = malloc(n)` (or `calloc`), `free(x)`, and a read or
write through `x` (C11 7.22.3; the sites are cited at each routine). -/
inductive Op
  | alloc (x : Var) (n : Nat)
  | free (x : Var)
  | use (x : Var)
  deriving DecidableEq, Repr

/-- The state of the heap: the value of each pointer variable (`none`: not initialised), the live
blocks as (address, bytes), and the next address the allocator hands out (C11 7.22.3: each
allocation yields a block disjoint from every live one).  Addresses are not handed out twice, so
that a dangling pointer never comes back to life by chance. -/
structure St where
  env : Var → Option Nat
  live : List (Nat × Nat)
  next : Nat

/-- Is `a` the address of a live block? (C11 7.22.3.) -/
def St.isLive (st : St) (a : Option Nat) : Bool := st.live.any fun b => a == some b.1

/-- One heap operation.  `none` is undefined behaviour: freeing or using a pointer that is not
initialised, or whose block has been freed already (C11 7.22.3.3, J.2). -/
def step (op : Op) (st : St) : Option St :=
  match op with
  | .alloc x n =>
      some { env := fun y => if y = x then some st.next else st.env y
             live := (st.next, n) :: st.live
             next := st.next + 1 }
  | .free x =>
      if st.isLive (st.env x) then
        some { st with live := st.live.filter fun b => !(st.env x == some b.1) }
      else none
  | .use x => if st.isLive (st.env x) then some st else none

/-- A sequence of heap operations, in order. -/
def run : List Op → St → Option St
  | [], st => some st
  | op :: ops, st => (step op st).bind (run ops)

/-- One call of a routine: its pointer variables start uninitialised
(`source/libtomo/recon/art.c:55-67` and the declarations of the other routines). -/
def call (prog : List Op) (st : St) : Option St := run prog { st with env := fun _ => none }

/-- A `for` loop over `n` indices (e.g. `source/libtomo/recon/art.c:84-152`). -/
def loop (n : Nat) (body : Nat → List Op) : List Op := (List.range n).flatMap body

/-- Frees in the order listed (e.g. `source/libtomo/recon/art.c:155-167`). -/
def frees (xs : List Var) : List Op := xs.map Op.free

/-- Reads and writes through the variables listed. -/
def uses (xs : List Var) : List Op := xs.map Op.use

/-- The 12 buffers of the ray tracer, with the number of bytes of each, as allocated by every
iterative routine: `source/libtomo/recon/art.c:55-66`, `bart.c:56-67`, `fbp.c:54-65`,
`grad.c:55-66`, `tikh.c:55-66`, `tv.c:55-66`, `osem.c:57-68`, `ospml_quad.c:55-66`. -/
def rayBuffers (nx ny : Nat) : List Op :=
  [.alloc .gridx (4 * (nx + 1)), .alloc .gridy (4 * (ny + 1)),
   .alloc .coordx (4 * (ny + 1)), .alloc .coordy (4 * (nx + 1)),
   .alloc .ax (4 * (nx + ny)), .alloc .ay (4 * (nx + ny)),
   .alloc .bx (4 * (nx + ny)), .alloc .«by» (4 * (nx + ny)),
   .alloc .coorx (4 * (nx + ny)), .alloc .coory (4 * (nx + ny)),
   .alloc .dist (4 * (nx + ny)), .alloc .indi (4 * (nx + ny))]

/-- The same buffers in `project`, a little longer (`source/libtomo/recon/project.c:57-68`). -/
def projectBuffers (nx ny : Nat) : List Op :=
  [.alloc .gridx (4 * (nx + 1)), .alloc .gridy (4 * (ny + 1)),
   .alloc .coordx (4 * (ny + 1)), .alloc .coordy (4 * (nx + 1)),
   .alloc .ax (4 * (nx + ny + 2)), .alloc .ay (4 * (nx + ny + 2)),
   .alloc .bx (4 * (nx + ny + 2)), .alloc .«by» (4 * (nx + ny + 2)),
   .alloc .coorx (4 * (nx + ny + 2)), .alloc .coory (4 * (nx + ny + 2)),
   .alloc .dist (4 * (nx + ny + 1)), .alloc .indi (4 * (nx + ny + 1))]

/-- The buffers of `project2` and `project3` (`source/libtomo/recon/project.c:147-160`,
`252-265`): those of `project` with `indx` and `indy` before `indi`. -/
def projectBuffers2 (nx ny : Nat) : List Op :=
  [.alloc .gridx (4 * (nx + 1)), .alloc .gridy (4 * (ny + 1)),
   .alloc .coordx (4 * (ny + 1)), .alloc .coordy (4 * (nx + 1)),
   .alloc .ax (4 * (nx + ny + 2)), .alloc .ay (4 * (nx + ny + 2)),
   .alloc .bx (4 * (nx + ny + 2)), .alloc .«by» (4 * (nx + ny + 2)),
   .alloc .coorx (4 * (nx + ny + 2)), .alloc .coory (4 * (nx + ny + 2)),
   .alloc .dist (4 * (nx + ny + 1)), .alloc .indx (4 * (nx + ny + 1)),
   .alloc .indy (4 * (nx + ny + 1)), .alloc .indi (4 * (nx + ny + 1))]

/-- The buffers of `vector`, `vector2` and `vector3` (`source/libtomo/recon/vector.c:52-64`,
`210-222`, `481-493`). -/
def vectorBuffers (nx ny : Nat) : List Op :=
  [.alloc .gridx (4 * (nx + 1)), .alloc .gridy (4 * (ny + 1)),
   .alloc .coordx (4 * (ny + 1)), .alloc .coordy (4 * (nx + 1)),
   .alloc .ax (4 * (nx + ny)), .alloc .ay (4 * (nx + ny)),
   .alloc .bx (4 * (nx + ny)), .alloc .«by» (4 * (nx + ny)),
   .alloc .coorx (4 * (nx + ny)), .alloc .coory (4 * (nx + ny)),
   .alloc .dist (4 * (nx + ny)), .alloc .indx (4 * (nx + ny + 1)),
   .alloc .indy (4 * (nx + ny + 1))]

/-- The 12 variables freed at the end of every routine with `rayBuffers`
(`source/libtomo/recon/art.c:155-166`). -/
def rayVars : List Var :=
  [.gridx, .gridy, .coordx, .coordy, .ax, .ay, .bx, .«by», .coorx, .coory, .dist, .indi]

/-- The 13 variables freed at the end of the `vector` routines
(`source/libtomo/recon/vector.c:189-201`). -/
def vectorVars : List Var :=
  [.gridx, .gridy, .coordx, .coordy, .ax, .ay, .bx, .«by», .coorx, .coory, .dist, .indx, .indy]

/-- `calc_dist` (`source/libtomo/recon/utils.c:259-327`): returns at once if there are fewer than
two points; else two scratch arrays for the differences, freed (271-293), then two for the
indices, freed (300-326). -/
def calcDist (csize : Nat) : List Op :=
  if csize < 2 then []
  else
    [.alloc .diffx (4 * (csize - 1)), .alloc .diffy (4 * (csize - 1))] ++
      uses [.coorx, .coory, .diffx, .diffy, .dist] ++ frees [.diffx, .diffy] ++
    [.alloc .lindx (4 * (csize - 1)), .alloc .lindy (4 * (csize - 1))] ++
      uses [.coorx, .coory, .lindx, .lindy, .indi] ++ frees [.lindx, .lindy]

/-- `calc_coords`, `trim_coords`, `sort_intersections` (`source/libtomo/recon/utils.c:117-256`):
they use the buffers of the caller and allocate none. -/
def traceUses : List Op :=
  uses [.gridx, .gridy, .coordx, .coordy, .ax, .ay, .bx, .«by», .coorx, .coory]

/-- The tracing of one ray, up to `calc_dist` (`source/libtomo/recon/art.c:103-134`). -/
def ray (csize : Nat) : List Op := traceUses ++ calcDist csize

/-- The tracing of one ray with `calc_dist2`, which writes `indx`, `indy` and `dist` and allocates
nothing (`source/libtomo/recon/utils.c:331-365`, `source/libtomo/recon/vector.c:108-135`). -/
def ray2 : List Op := traceUses ++ uses [.coorx, .coory, .indx, .indy, .dist]

/-- The sizes of a scan: slices, views, detector pixels, grid, iterations, ordered subsets, and
the number of points found on the ray of pixel `d` in view `p` of slice `s`
(`source/libtomo/recon/osem.c:49-51`; `csize` is an output of `sort_intersections`, left free
here). -/
structure Scan where
  dy : Nat
  dt : Nat
  dx : Nat
  nx : Nat
  ny : Nat
  iter : Nat
  blocks : Nat
  csize : Nat → Nat → Nat → Nat

/-- The test at the head of the routines: `if(dy == 0 || dt == 0 || dx == 0) return;`
(`source/libtomo/recon/art.c:52-53`). -/
def Scan.void (c : Scan) : Prop := c.dy = 0 ∨ c.dt = 0 ∨ c.dx = 0

instance (c : Scan) : Decidable c.void := inferInstanceAs (Decidable (_ ∨ _ ∨ _))

/-- The number of views in ordered subset `os` (`source/libtomo/recon/osem.c:84-103`,
`ospml_quad.c:84-102`). -/
def Scan.subset (c : Scan) (os : Nat) : Nat :=
  c.dt / c.blocks + if os < c.dt % c.blocks then 1 else 0

/-- `art` (`source/libtomo/recon/art.c:48-168`). -/
def art (c : Scan) : List Op :=
  if c.void then [] else
    rayBuffers c.nx c.ny ++ [.alloc .simdata (4 * (c.dy * c.dt * c.dx))] ++
    loop c.iter (fun _ =>
      uses [.simdata, .gridx, .gridy] ++
      loop c.dt (fun p => loop c.dx (fun d =>
        ray (c.csize 0 p d) ++ uses [.dist] ++
        loop c.dy (fun _ => uses [.dist, .indi, .simdata])))) ++
    frees (rayVars ++ [.simdata])

/-- `bart` (`source/libtomo/recon/bart.c:48-200`). -/
def bart (c : Scan) : List Op :=
  if c.void then [] else
    rayBuffers c.nx c.ny ++
    [.alloc .simdata (4 * (c.dy * c.dt * c.dx)), .alloc .sumDist (4 * (c.nx * c.ny)),
     .alloc .update (4 * (c.nx * c.ny))] ++
    loop c.iter (fun _ =>
      uses [.simdata] ++
      loop c.dy (fun s =>
        uses [.gridx, .gridy] ++
        loop c.blocks (fun os =>
          uses [.sumDist, .update] ++
          loop (c.subset os) (fun p => loop c.dx (fun d =>
            ray (c.csize s p d) ++ uses [.dist, .indi, .simdata, .sumDist, .update])) ++
          uses [.update, .sumDist]))) ++
    frees (rayVars ++ [.simdata, .sumDist, .update])

/-- `osem` (`source/libtomo/recon/osem.c:49-203`); `mlem` without `accelerated`
is a call of it with one subset (as `sirt` is of `bart`); the routines of `accel/` are not modelled here.  The buffers and the order are those of `bart`
(osem.c:57-71, 188-202). -/
def osem (c : Scan) : List Op := bart c

/-- `fbp` (`source/libtomo/recon/fbp.c:47-142`). -/
def fbp (c : Scan) : List Op :=
  if c.void then [] else
    rayBuffers c.nx c.ny ++
    loop c.dy (fun s =>
      uses [.gridx, .gridy] ++
      loop c.dt (fun p => loop c.dx (fun d =>
        ray (c.csize s p d) ++ uses [.dist, .indi]))) ++
    frees rayVars

/-- `ospml_quad` and `ospml_hybrid` (`source/libtomo/recon/ospml_quad.c:48-408`,
`source/libtomo/recon/ospml_hybrid.c:48-426`): `simdata` is allocated and freed in every iteration
(88, 393 and 88, 411), `sum_dist`, `E`, `F`, `G` for every slice and subset (104-107, 386-389
and 104-107, 404-407). -/
def ospml (c : Scan) : List Op :=
  if c.void then [] else
    rayBuffers c.nx c.ny ++
    loop c.iter (fun _ =>
      [.alloc .simdata (4 * (c.dt * c.dy * c.dx))] ++
      loop c.dy (fun s =>
        uses [.gridx, .gridy] ++
        loop c.blocks (fun os =>
          [.alloc .sumDist (4 * (c.nx * c.ny)), .alloc .E (4 * (c.nx * c.ny)),
           .alloc .F (4 * (c.nx * c.ny)), .alloc .G (4 * (c.nx * c.ny))] ++
          loop (c.subset os) (fun p => loop c.dx (fun d =>
            ray (c.csize s p d) ++ uses [.dist, .indi, .simdata, .sumDist, .E])) ++
          uses [.E, .F, .G, .sumDist] ++
          frees [.sumDist, .E, .F, .G])) ++
      frees [.simdata]) ++
    frees rayVars

/-- `grad` (`source/libtomo/recon/grad.c:48-259`); the last loop frees 18 of the 19 blocks
(241-258). -/
def grad (c : Scan) : List Op :=
  if c.void then [] else
    rayBuffers c.nx c.ny ++
    [.alloc .simdata (4 * (c.dy * c.dt * c.dx)), .alloc .sumDist (4 * (c.nx * c.ny)),
     .alloc .prox1 (4 * (c.dy * c.dt * c.dx)), .alloc .grad (4 * (c.dy * c.nx * c.ny)),
     .alloc .grad0 (4 * (c.dy * c.nx * c.ny)), .alloc .recon0 (4 * (c.dy * c.nx * c.ny)),
     .alloc .lambda (4 * c.dy)] ++
    uses [.grad0, .prox1, .recon0] ++
    loop c.iter (fun _ =>
      uses [.simdata, .grad] ++
      loop c.dy (fun s =>
        uses [.gridx, .gridy, .sumDist] ++
        loop c.dt (fun p => loop c.dx (fun d =>
          ray (c.csize s p d) ++ uses [.dist, .indi, .simdata, .prox1, .sumDist, .grad]))) ++
      loop c.dy (fun _ => uses [.lambda, .recon0, .grad, .grad0]) ++
      uses [.grad0, .grad, .recon0] ++
      loop c.dy (fun _ => uses [.lambda, .grad])) ++
    frees (rayVars ++ [.simdata, .sumDist, .prox1, .recon0, .grad0, .grad])

/-- `tikh` (`source/libtomo/recon/tikh.c:48-266`): the buffers and frees of `grad`
(55-74, 248-265). -/
def tikh (c : Scan) : List Op := grad c

/-- `tv` (`source/libtomo/recon/tv.c:48-288`). -/
def tv (c : Scan) : List Op :=
  if c.void then [] else
    rayBuffers c.nx c.ny ++
    [.alloc .simdata (4 * (c.dy * c.dt * c.dx)), .alloc .sumDist (4 * (c.nx * c.ny)),
     .alloc .update (4 * (c.dy * c.nx * c.ny)), .alloc .prox0x (4 * (c.dy * c.nx * c.ny)),
     .alloc .prox0y (4 * (c.dy * c.nx * c.ny)), .alloc .prox1 (4 * (c.dy * c.dt * c.dx)),
     .alloc .adjdata (4 * (c.dy * c.nx * c.ny))] ++
    uses [.update, .prox0x, .prox0y, .prox1] ++
    loop c.iter (fun _ =>
      uses [.simdata, .adjdata] ++
      loop c.dy (fun s =>
        uses [.prox0x, .prox0y, .gridx, .gridy, .sumDist] ++
        loop c.dt (fun p => loop c.dx (fun d =>
          ray (c.csize s p d) ++ uses [.dist, .indi, .simdata, .prox1, .sumDist, .adjdata])) ++
        uses [.update, .prox0x, .prox0y, .adjdata])) ++
    frees (rayVars ++ [.simdata, .sumDist, .update, .prox0x, .prox0y, .prox1, .adjdata])

/-- One pass of the `vector` routines over all slices
(`source/libtomo/recon/vector.c:85-186`, `245-349`, `351-455`). -/
def vectorPass (c : Scan) : List Op :=
  [.alloc .simdata (4 * (c.dt * c.dy * c.dx))] ++
  loop c.dy (fun _ =>
    uses [.gridx, .gridy] ++
    [.alloc .sumDist (4 * (c.nx * c.ny)), .alloc .update1 (4 * (c.nx * c.ny)),
     .alloc .update2 (4 * (c.nx * c.ny))] ++
    loop c.dt (fun _ => loop c.dx (fun _ =>
      ray2 ++ uses [.dist, .indx, .indy, .simdata, .sumDist, .update1, .update2])) ++
    uses [.sumDist, .update1, .update2] ++
    frees [.sumDist, .update1, .update2]) ++
  frees [.simdata]

/-- `vector`, `vector2`, `vector3` make one, two and three passes in each iteration
(`source/libtomo/recon/vector.c:48-202`, `204-471`, `473-847`); there is no early return. -/
def vectorN (passes : Nat) (c : Scan) : List Op :=
  vectorBuffers c.nx c.ny ++
  loop c.iter (fun _ => loop passes (fun _ => vectorPass c)) ++
  frees vectorVars

/-- `project` (`source/libtomo/recon/project.c:50-138`); `nx`, `ny` stand for `ox`, `oz`. -/
def project (c : Scan) : List Op :=
  if c.void then [] else
    projectBuffers c.nx c.ny ++ uses [.gridx, .gridy] ++
    loop c.dt (fun p => loop c.dx (fun d =>
      ray (c.csize 0 p d) ++ loop c.dy (fun _ => uses [.indi, .dist]))) ++
    frees rayVars

/-- `project2` and `project3` (`source/libtomo/recon/project.c:140-242`, `244-347`): `indx` and
`indy` are not among the frees (230-241, 335-346). -/
def project2 (c : Scan) : List Op :=
  if c.void then [] else
    projectBuffers2 c.nx c.ny ++ uses [.gridx, .gridy] ++
    loop c.dt (fun _ => loop c.dx (fun _ =>
      ray2 ++ loop c.dy (fun _ => uses [.indx, .indy, .dist]))) ++
    frees rayVars

/-- `malloc_matrix_c` (`source/libtomo/gridrec/pal.h:124-145`): the row pointers and one block for
all rows. -/
def mallocMatrix (m m0 : Var) (nr nc : Nat) : List Op :=
  [.alloc m (8 * nr), .alloc m0 (8 * (nr * nc)), .use m]

/-- `free_matrix_c` (`source/libtomo/gridrec/pal.h:149-172`). -/
def freeMatrix (m m0 : Var) : List Op := [.use m, .free m0, .free m]

/-- The sizes of a `gridrec` call (`source/libtomo/gridrec/gridrec.c:192-241`): slices, views,
pixels, the padded width, whether the filter is two-dimensional, and the sizes of the two FFT
plans (internal to the FFT library). -/
structure GridScan where
  dy : Nat
  dt : Nat
  dx : Nat
  pdim : Nat
  filter2d : Bool
  plan1 : Nat
  plan2 : Nat

/-- The padded width is the power of two found by the loop at
`source/libtomo/gridrec/gridrec.c:226-228`; here only its being positive matters and it is left
free.  `gridrec` itself is at `source/libtomo/gridrec/gridrec.c:192-570`; `L = 4`
(line 213: `(int)(2 * 7 / π)`), `ltbl = 512`. -/
def gridrec (g : GridScan) : List Op :=
  if g.dy = 0 ∨ g.dt = 0 ∨ g.dx = 0 then [] else
    [.alloc .sino (8 * g.pdim),
     .alloc .filphase (8 * (if g.filter2d then g.dt * (g.pdim / 2) else g.pdim / 2))] ++
    mallocMatrix .H .H0 g.pdim g.pdim ++
    [.alloc .wtbl (4 * 513), .alloc .winv (4 * (g.pdim - 1)),
     .alloc .Jz (4 * (g.pdim / 2 * g.dt)), .alloc .Pz (4 * (g.pdim / 2 * g.dt))] ++
    mallocMatrix .Ud .U0 g.dt g.pdim ++ mallocMatrix .Vd .V0 g.dt g.pdim ++
    [.alloc .work (4 * 5), .alloc .work2 (4 * 5)] ++
    [.alloc .sine (4 * g.dt), .alloc .cose (4 * g.dt)] ++
    uses [.sine, .cose, .wtbl, .winv] ++
    [.alloc .plan1 g.plan1, .alloc .plan2 g.plan2] ++ uses [.sino, .H, .H0] ++
    loop g.dt (fun _ => uses [.Ud, .U0, .Vd, .V0, .cose, .sine]) ++
    loop ((g.dy + 1) / 2) (fun _ =>
      uses [.filphase, .H, .H0] ++
      loop g.dt (fun _ => uses
        [.sine, .cose, .sino, .plan1, .filphase, .Ud, .U0, .Vd, .V0, .Jz, .Pz, .work, .work2,
          .wtbl, .H, .H0]) ++
      uses [.plan2, .H, .H0, .winv]) ++
    frees [.sine, .cose, .sino, .wtbl, .filphase, .winv, .work] ++ freeMatrix .H .H0 ++
    frees [.Jz, .Pz] ++ freeMatrix .Ud .U0 ++ freeMatrix .Vd .V0 ++ frees [.plan1, .plan2]

/-- `medianfilter_main_float` and `_uint16` (`source/libtomo/misc/median_filt3d.c:60-345`): one
scratch vector for each voxel; `bytes` is the size of an element. -/
def medianFilter (voxels window bytes : Nat) : List Op :=
  loop voxels (fun _ => [.alloc .valVec (bytes * window), .use .valVec, .free .valVec])

/-- The sizes of an inpainting call (`source/libtomo/misc/inpainter.c:525-560`): voxels, number of
masked ones, size of the window, user iterations, and whether the method is one of those that sort
a neighbourhood. -/
structure InpaintScan where
  voxels : Nat
  masked : Nat
  window : Nat
  iter : Nat
  sorting : Bool
  random : Bool

/-- One sweep over the voxels: `median_rand_inpainting_2D/3D` allocate `_values` for each voxel
(`source/libtomo/misc/inpainter.c:204`, `272`, `441`, `522`); the weighting methods use the
Gaussian weights (`source/libtomo/misc/inpainter.c:640-679`, `748-790`). -/
def inpaintSweep (c : InpaintScan) : List Op :=
  loop c.voxels (fun _ =>
    if c.sorting then
      [.alloc .values (4 * c.window)] ++ uses [.mUpd, .values, .updated] ++ [.free .values]
    else uses [.mUpd, .updated, .gauss])

/-- `Inpainter_morph_main` (`source/libtomo/misc/inpainter.c:525-880`), with its two exits
(624-630 when the mask is empty, 876-879 otherwise). -/
def inpaint (c : InpaintScan) : List Op :=
  [.alloc .updated (4 * c.voxels), .alloc .mUpd c.voxels] ++ uses [.updated, .mUpd] ++
  [.alloc .gauss (4 * c.window), .use .gauss] ++
  if c.masked = 0 then frees [.updated, .mUpd, .gauss]
  else
    loop c.masked (fun _ => inpaintSweep c ++ uses [.updated, .mUpd]) ++
    (if c.random then uses [.mUpd, .updated] else []) ++
    loop c.iter (fun _ => uses [.mUpd] ++ inpaintSweep c ++ uses [.updated]) ++
    (if c.random then uses [.mUpd, .updated] else []) ++
    frees [.gauss, .updated, .mUpd]

/-- `stripesdetect3d_main_float` (`source/libtomo/prep/stripes_detect3d.c:482-573`) with
`vertical_median_stride3d` (220-249). -/
def stripesDetect (voxels window : Nat) : List Op :=
  [.alloc .temp3d (4 * voxels)] ++ loop voxels (fun _ => uses [.temp3d]) ++
  loop voxels (fun _ =>
    [.alloc .values (4 * window)] ++ uses [.temp3d, .values] ++ [.free .values]) ++
  [.free .temp3d]

/-- `stripesmask3d_main_float` (`source/libtomo/prep/stripes_detect3d.c:578-723`). -/
def stripesMask (voxels merges : Nat) : List Op :=
  [.alloc .mask voxels] ++ loop (4 * voxels) (fun _ => uses [.mask]) ++
  loop merges (fun _ => loop voxels (fun _ => uses [.mask])) ++ [.free .mask]

/-- `remove_stripe_sf` (`source/libtomo/prep/stripe.c:48-101`): two rows for each slice. -/
def stripeSf (dx slices dz : Nat) : List Op :=
  loop slices (fun _ =>
    [.alloc .averageRow (4 * dz), .alloc .smoothRow (4 * dz)] ++
    loop (dx * dz) (fun _ => uses [.averageRow]) ++ loop dz (fun _ => uses [.smoothRow, .averageRow]) ++
    frees [.averageRow, .smoothRow])

/-- The sizes of a `remove_ring` call (`source/libtomo/misc/remove_ring.c:604-620`): the slices and
image, the polar image, and the kernel radius of the median. -/
structure RingScan where
  slices : Nat
  dx : Nat
  dy : Nat
  polWidth : Nat
  polHeight : Nat
  rad : Nat

/-- `median_filter_fast_1D` (`source/libtomo/misc/remove_ring.c:261-380`). -/
def medianFast (rad : Nat) : List Op :=
  [.alloc .medianArr (4 * (2 * rad + 1)), .alloc .positionArr (4 * (2 * rad + 1))] ++
  uses [.polar, .polar0, .medianArr, .positionArr, .filtered, .filtered0] ++
  frees [.medianArr, .positionArr]

/-- `remove_ring` (`source/libtomo/misc/remove_ring.c:604-671`), with `min_distance_to_edge`
(56-74), `polar_transform` (82-125), `ring_filter` (538-602) and `inverse_polar_transform`
(127-160).  `image` holds pointers into the array of the caller. -/
def removeRing (c : RingScan) : List Op :=
  [.alloc .image (8 * c.dy)] ++
  loop c.slices (fun _ =>
    uses [.image] ++
    [.alloc .edge 16, .use .edge, .free .edge] ++
    [.alloc .polar0 (4 * (c.polHeight * c.polWidth)), .alloc .polar (8 * c.polHeight)] ++
    uses [.polar, .polar0, .image] ++
    [.alloc .filtered0 (4 * (c.polHeight * c.polWidth)), .alloc .filtered (8 * c.polHeight)] ++
    uses [.filtered] ++
    medianFast (c.rad / 3) ++ medianFast (2 * c.rad / 3) ++ medianFast c.rad ++
    uses [.polar, .polar0, .filtered, .filtered0] ++
    frees [.filtered0, .filtered] ++
    [.alloc .ring0 (4 * (c.dy * c.dx)), .alloc .ring (8 * c.dy)] ++
    uses [.polar, .polar0, .ring, .ring0, .image] ++
    [.use .polar, .free .polar0, .free .polar, .use .ring, .free .ring0, .free .ring]) ++
  [.free .image]

/-- The routines with a heap discipline of their own and what one call is given
(`source/libtomo/recon`, `gridrec`, `misc`, `prep`). -/
inductive Kernel
  | art (c : Scan)
  | bart (c : Scan)
  | osem (c : Scan)
  | fbp (c : Scan)
  | ospmlQuad (c : Scan)
  | ospmlHybrid (c : Scan)
  | grad (c : Scan)
  | tikh (c : Scan)
  | tv (c : Scan)
  | vector (c : Scan)
  | vector2 (c : Scan)
  | vector3 (c : Scan)
  | project (c : Scan)
  | project2 (c : Scan)
  | project3 (c : Scan)
  | gridrec (g : GridScan)
  | medianFilter (voxels window bytes : Nat)
  | inpaint (c : InpaintScan)
  | stripesDetect (voxels window : Nat)
  | stripesMask (voxels merges : Nat)
  | stripeSf (dx slices dz : Nat)
  | removeRing (c : RingScan)

/-- The heap operations of a call (the routines cited above). -/
def Kernel.prog : Kernel → List Op
  | .art c => Heap.art c
  | .bart c => Heap.bart c
  | .osem c => Heap.osem c
  | .fbp c => Heap.fbp c
  | .ospmlQuad c => ospml c
  | .ospmlHybrid c => ospml c
  | .grad c => Heap.grad c
  | .tikh c => Heap.tikh c
  | .tv c => Heap.tv c
  | .vector c => vectorN 1 c
  | .vector2 c => vectorN 2 c
  | .vector3 c => vectorN 3 c
  | .project c => Heap.project c
  | .project2 c => Heap.project2 c
  | .project3 c => Heap.project2 c
  | .gridrec g => Heap.gridrec g
  | .medianFilter v w b => Heap.medianFilter v w b
  | .inpaint c => Heap.inpaint c
  | .stripesDetect v w => Heap.stripesDetect v w
  | .stripesMask v m => Heap.stripesMask v m
  | .stripeSf a b c => Heap.stripeSf a b c
  | .removeRing c => Heap.removeRing c

/-- A process that makes the given calls one after the other (`source/tomopy/util/extern/*.py`
make one call of the library each). -/
def calls : List Kernel → St → Option St
  | [], st => some st
  | k :: ks, st => (call k.prog st).bind (calls ks)

end Tomopy.Heap
