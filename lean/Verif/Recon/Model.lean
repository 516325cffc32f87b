import Verif.Mproc.Model

/-! Model of source/tomopy/recon/algorithm.py: argument checking, defaults, data order,
distribution of slices over worker threads, and the thread-limit environment variable. -/
namespace Tomopy.Recon
open Tomopy.Par Tomopy.Mproc

/-! ### Keyword tables (module globals) -/

/-- algorithm.py:71-80 `allowed_accelerated_kwargs` (`none`: algorithm not in the table). -/
def accelKwargs : String → Option (List String)
  | "mlem" => some ["accelerated", "pool_size", "interpolation", "device", "grid_size",
      "block_size"]
  | "sirt" => some ["accelerated", "pool_size", "interpolation", "device", "grid_size",
      "block_size"]
  | _ => none

/-- The type of the mutable module global `allowed_recon_kwargs` (algorithm.py:82). -/
abbrev Table := String → Option (List String)

/-- algorithm.py:82-103: initial contents of `allowed_recon_kwargs`. -/
def table0 : Table
  | "art" => some ["num_gridx", "num_gridy", "num_iter"]
  | "bart" => some ["num_gridx", "num_gridy", "num_iter", "num_block", "ind_block"]
  | "fbp" => some ["num_gridx", "num_gridy", "filter_name", "filter_par"]
  | "gridrec" => some ["num_gridx", "num_gridy", "filter_name", "filter_par"]
  | "mlem" => some ["num_gridx", "num_gridy", "num_iter"]
  | "osem" => some ["num_gridx", "num_gridy", "num_iter", "num_block", "ind_block"]
  | "ospml_hybrid" => some ["num_gridx", "num_gridy", "num_iter", "reg_par", "num_block",
      "ind_block"]
  | "ospml_quad" => some ["num_gridx", "num_gridy", "num_iter", "reg_par", "num_block",
      "ind_block"]
  | "pml_hybrid" => some ["num_gridx", "num_gridy", "num_iter", "reg_par"]
  | "pml_quad" => some ["num_gridx", "num_gridy", "num_iter", "reg_par"]
  | "sirt" => some ["num_gridx", "num_gridy", "num_iter"]
  | "tv" => some ["num_gridx", "num_gridy", "num_iter", "reg_par"]
  | "grad" => some ["num_gridx", "num_gridy", "num_iter", "reg_par"]
  | "tikh" => some ["num_gridx", "num_gridy", "num_iter", "reg_data", "reg_par"]
  | _ => none

/-- Python dictionaries with string keys, as association lists (used for `**kwargs`,
algorithm.py:114). -/
abbrev Dict (V : Type) := List (String × V)

/-- `key in d` / `d[key]` (algorithm.py:287-304). -/
def Dict.get? {V : Type} (d : Dict V) (k : String) : Option V :=
  (d.find? fun p => p.1 == k).map Prod.snd

/-- `d.setdefault(k, v)` (algorithm.py:304, 309). -/
def Dict.setdefault {V : Type} (d : Dict V) (k : String) (v : V) : Dict V :=
  match d.get? k with
  | some _ => d
  | none => d ++ [(k, v)]

/-- Values of keyword arguments.  Numeric arrays are opaque (`arr`), only the numbers needed
for shapes are kept (algorithm.py:476-499). -/
inductive KwVal where
  | int (n : Nat)
  | str (s : String)
  | arr (tag : Nat)
  | ndShape (dims : List Nat)
  | bool (b : Bool)
  | dict
  deriving DecidableEq, Repr

/-- algorithm.py:476-499 `_get_algorithm_kwargs(shape)` with `shape = (dy, dt, dx)`; array
valued defaults are represented by tags/shapes. -/
def defaults (dy dt dx : Nat) : Dict KwVal :=
  [ ("num_gridx", .int dx), ("num_gridy", .int dx), ("filter_name", .str "shepp"),
    ("filter_par", .arr 0), ("num_iter", .int 1), ("reg_par", .arr 1),
    ("reg_data", .ndShape [dy, dx, dx]), ("num_block", .int 1), ("ind_block", .ndShape [dt]),
    ("options", .dict), ("accelerated", .bool false), ("pool_size", .int 0),
    ("interpolation", .str "NN"), ("device", .str "gpu"), ("grid_size", .arr 2),
    ("block_size", .arr 3) ]

/-- `algorithm` argument of `recon` (algorithm.py:274, 306, 310): a name, a python callable or
something else. -/
inductive Alg where
  | name (s : String)
  | callable
  | other
  deriving DecidableEq, Repr

/-- A call of `recon` as far as argument checking is concerned (algorithm.py:106-114): data
shape in sinogram order (dy, dt, dx), length of theta, algorithm, keywords, number of centres
after `get_center`, shape of `init_recon` if given. -/
structure Call where
  dy : Nat
  dt : Nat
  dx : Nat
  ntheta : Nat
  alg : Alg
  kwargs : Dict KwVal
  ncenter : Nat
  initShape : Option (List Nat)

/-- algorithm.py:302-304, 307-309: `for kw in allowed: kwargs.setdefault(kw, defaults[kw])`;
`KeyError` if a keyword has no default. -/
def fillDefaults (defs : Dict KwVal) : List String → Dict KwVal → Except PyErr (Dict KwVal)
  | [], d => .ok d
  | k :: ks, d => match defs.get? k with
    | none => .error .key
    | some v => fillDefaults defs ks (d.setdefault k v)

/-- algorithm.py:276-278: `allowed_kwargs = copy.copy(allowed_recon_kwargs)` is shallow, so
`allowed_kwargs[algorithm] += ...` extends the list object of the global table in place. -/
def extendTable (t : Table) (alg : String) : Table :=
  match accelKwargs alg with
  | none => t
  | some extra => fun a => if a = alg then (t a).map (· ++ extra) else t a

/-- algorithm.py:262-320: checks and defaults of `recon`.  Returns the new global table and
either the error or the completed keyword dictionary.  Conversion of values to numpy arrays
(292-300) is dropped; error messages are dropped. -/
def checkCall (t : Table) (c : Call) : Table × Except PyErr (Dict KwVal) :=
  -- 265-267
  if c.dt ≠ c.ntheta then (t, .error .value)
  else
    let defs := defaults c.dy c.dt c.dx
    match c.alg with
    | .name a =>
      let t' := extendTable t a
      match t' a with
      | none => (t', .error .value)                                   -- 281-284
      | some allowed =>
        if c.kwargs.all fun p => allowed.contains p.1 then             -- 287-290
          (t', do
            let kw ← fillDefaults defs allowed c.kwargs                -- 303-304
            if c.dy ≠ c.ncenter then throw .value                      -- 318-320
            return kw)
        else (t', .error .value)
    | .callable =>
      (t, do
        let kw ← fillDefaults defs ["num_gridx", "num_gridy", "options"] c.kwargs
        if c.dy ≠ c.ncenter then throw .value
        return kw)
    | .other => (t, .error .value)                                     -- 310-313

/-- A sequence of `recon` calls (algorithm.py:106-330) in one process (module state threads through). -/
def runHistory : Table → List Call → Table
  | t, [] => t
  | t, c :: cs => runHistory (checkCall t c).1 cs

/-- algorithm.py:324-330 and 350-366: shape of the array that is reconstructed into and
returned: `(ny, num_gridx, num_gridy)`, or the shape of `init_recon` if given (not checked by
the code). -/
def reconShape (c : Call) (kw : Dict KwVal) : Option (List Nat) :=
  match c.initShape with
  | some s => some s
  | none => match kw.get? "num_gridx", kw.get? "num_gridy" with
    | some (.int gx), some (.int gy) => some [c.dy, gx, gy]
    | _, _ => none

/-! ### Data order -/

/-- A 3D array with its shape (algorithm.py:337 `tomo`). -/
structure Arr3 (α : Type) where
  d0 : Nat
  d1 : Nat
  d2 : Nat
  get : Nat → Nat → Nat → α

/-- `np.swapaxes(a, 0, 1)` (algorithm.py:340). -/
def swap01 {α : Type} (a : Arr3 α) : Arr3 α :=
  ⟨a.d1, a.d0, a.d2, fun i j k => a.get j i k⟩

/-- algorithm.py:337-347 `init_tomo`; type conversion and contiguity (copies) are not
observable and dropped. -/
def initTomo {α : Type} (a : Arr3 α) (sinogramOrder : Bool) : Arr3 α :=
  if sinogramOrder then a else swap01 a

/-! ### Distribution over threads -/

/-- Buffers of `_dist_recon` (algorithm.py:392): data, centres, result. -/
def tomoB : Buf := .caller 0
/-- centres buffer (algorithm.py:392) -/
def centerB : Buf := .caller 1
/-- reconstruction buffer (algorithm.py:392) -/
def reconB : Buf := .caller 2

/-- A reconstruction kernel on a block of slices: from the list of (sinogram, centre, initial
image) of the block to the list of new images (`algorithm(tomo[slc], center[slc], recon[slc],
...)`, algorithm.py:430, 452; it writes `recon[slc]` in place). -/
abbrev Kernel (α : Type) := List (α × α × α) → List α

/-- Row `[tomo_i, center_i, recon_i]` as a triple (the positional arguments,
algorithm.py:430). -/
def asTrip {α : Type} : List α → Option (α × α × α)
  | [t, c, x] => some (t, c, x)
  | _ => none

/-- The kernel as a block function on rows `[tomo_i, center_i, recon_i]`
(algorithm.py:430, 452). -/
def kernelFun {α : Type} (k : Kernel α) : BlockFun α where
  inplace rows :=
    let trip := rows.filterMap asTrip
    (trip.zip (k trip)).map fun p => [p.1.1, p.1.2.1, p.2]
  ret _ := none

/-- Kernels that reconstruct each slice with its own centre (libtomo/recon: osem.c:95,
bart.c:94, fbp.c:80, grad.c:122, tikh.c:122, tv.c:155, ospml_quad.c:93, ospml_hybrid.c:93 use
`center[s]`).  `g` is the reconstruction of a single slice. -/
def localKernel {α : Type} (g : α → α → α → α) : Kernel α :=
  fun rows => rows.map fun r => g r.1 r.2.1 r.2.2

/-- Kernels that use `center[0]` for every slice of the block (libtomo/recon/art.c:86). -/
def firstCenterKernel {α : Type} (g : α → α → α → α) : Kernel α :=
  fun rows => match rows with
    | [] => []
    | r0 :: _ => rows.map fun r => g r.1 r0.2.1 r.2.2

/-- gridrec works on pairs of slices and uses the centre of the first of the pair for both
(libtomo/gridrec/gridrec.c:312-315). -/
def pairKernel {α : Type} (g : α → α → α → α) : Kernel α
  | [] => []
  | [r] => [g r.1 r.2.1 r.2.2]
  | r :: r' :: rs => g r.1 r.2.1 r.2.2 :: g r'.1 r.2.1 r'.2.2 :: pairKernel g rs

/-- algorithm.py:400-407: index blocks of the slices that are really used (non-empty ones). -/
def useChunks (n : Nat) (slcs : List Slc) : List (List Nat) :=
  (slcs.map (Slc.indices n)).filter fun c => !c.isEmpty

/-- algorithm.py:413-420: number of threads after the limit by TOMOPY_PYTHON_THREADS.  The
variable is modelled as an optional natural number (a value that does not parse as an integer
raises `ValueError` before anything is changed). -/
def limitedCores (nc : Nat) : Option Nat → Nat
  | none => nc
  | some l => if nc > l then l else nc

/-- `_dist_recon` (algorithm.py:392-468) with workers that do not raise, from memory `m` to
memory `m'`: serial if one core remains, otherwise a thread pool with an arbitrary complete
schedule.  `limit` is the value of TOMOPY_PYTHON_THREADS.  No outcome with zero cores
(`ThreadPoolExecutor(0)` raises, 450).  The process pool branch for `accelerated` (435-447)
is in `ProcsModel.lean`.  Detector size and number of angles are taken to be positive (a slice group
with an empty dimension is skipped, 401-407).  The workers are taken not to raise also for
`nchunk = 0`; the C wrappers do raise there (C134). -/
def DistRecon {α : Type} (cpu n : Nat) (ncore nchunk : Option Nat) (limit : Option Nat)
    (k : Kernel α) (m m' : Cell → α) : Prop :=
  ∃ nc slcs, getNcoreSlices cpu n ncore nchunk = .ok (nc, slcs) ∧
    let chunks := useChunks n slcs
    let nc := min (min nc slcs.length) chunks.length
    let nc := limitedCores nc limit
    0 < nc ∧
    if nc = 1 then
      m' = serialRun [tomoB, centerB, reconB] reconB (kernelFun k) chunks (fun _ => false) m
    else
      ∃ sched, (Config.exec ⟨poolTask [tomoB, centerB, reconB] reconB (kernelFun k) chunks
          (fun _ => false), m⟩ sched).Finished ∧
        m' = (Config.exec ⟨poolTask [tomoB, centerB, reconB] reconB (kernelFun k) chunks
          (fun _ => false), m⟩ sched).mem

/-! ### Environment variable -/

/-- algorithm.py:413-468: effect of one `_dist_recon` call on the environment variable and
whether it raises.  `nc` is the number of cores computed before the limit, `oks` says for
each slice group whether its worker succeeds.  `ThreadPoolExecutor(0)` raises `ValueError`. -/
def distEnv (env : Option Nat) (nc : Nat) (oks : List Bool) : Option Nat × Except PyErr Unit :=
  let nc' := limitedCores nc env
  let env1 : Option Nat := some nc'                       -- 425
  if nc' = 0 then (env1, .error .value)                   -- 450, executor of size 0
  else if oks.all id then                                  -- 427-458, nobody raised
    match env with
    | some old => (some old, .ok ())                       -- 461-463
    | none => (none, .ok ())                               -- 464-466
  else (env1, .error .runtime)                             -- exception of the worker

/-- A sequence of reconstructions (algorithm.py:413-468) in one process: cores wanted and worker outcomes per call;
returns the final environment and the number of threads each call was allowed to use. -/
def runCalls : Option Nat → List (Nat × List Bool) → Option Nat × List Nat
  | env, [] => (env, [])
  | env, (nc, oks) :: cs =>
    let r := runCalls (distEnv env nc oks).1 cs
    (r.1, limitedCores nc env :: r.2)

end Tomopy.Recon
