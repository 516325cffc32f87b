# Formal model of tomopy in Lean 4: design

## Scope and method

`/repo` is read as text only.  The model in `lean/Verif/` is a shallow embedding:
each modelled Python/C function becomes a total Lean function that follows the
original branch by branch.

* **Numbers.** Machine floats are replaced by exact arithmetic in an arbitrary
  (linearly ordered) field `K` (instances: `ℚ`, `ℝ`).  Rounding, overflow and
  denormals are *not* modelled, except in `Verif/Fl` (from C143).  Where NaN/inf or "division by zero" matters it is
  an explicit value (`Option`, or an inductive value type), never Lean's `x/0 = 0`.
* **Integers.** C `int`/`unsigned` are `Int`/`Nat` (no wrap-around), except in `Verif/CInt` (C142), which evaluates the
  offset and size expressions with the C types and says for which sizes unbounded arithmetic is right.
* **Arrays.** Lists, or functions `Nat → K`, with explicit bounds; for memory
  safety properties every read/write is checked (`Option`), and the theorem says no
  check fails.
* **Exceptions** are values (`Except`), the error branch is covered by theorems.
* **Concurrency.** Parallel loops and pools are lists of atomic steps executed in an
  arbitrary order (permutation / interleaving); theorems quantify over the order.
* **False properties.** Where the code does not satisfy the property, a theorem
  proves the negation on a concrete input that the API accepts, and a theorem with
  suffix `_partial` proves what does hold.  Both are listed in the manifest.

Layout: `Verif/<Area>/Model.lean` (model with source citations),
`Verif/<Area>/Lemmas.lean` (helpers), `Verif/<Area>/Props.lean` (small
specification + property theorems + witnesses).

## Trusted base

* Lean 4.33.0 kernel; axioms `propext`, `Classical.choice`, `Quot.sound` only. `AXIOMS.md` lists
  the axioms of each theorem in the manifest. No `sorry`, `native_decide`, `bv_decide` or own axioms.
* That the model definitions transcribe the cited source lines (by reading). `COVERAGE.md` lists, file by
  file, which functions of `/repo` are cited by a definition, partly cited or not modelled.
* Behaviour of numpy/scipy/numexpr/FFT/MPI/OpenMP/CUDA primitives as described in the
  comments of the definitions that use them.

## Plan per property

| id | model | proof |
|----|-------|-------|
| C01 | `get_ncore_slices`, chunk loop of `distribute_jobs` | concatenation of clipped ranges = `range n`, arithmetic on div/mod, induction on number of chunks |
| C02 | same | length and size of each slice |
| C03 | `get_worker_ncore_slices` split | prefix/suffix induction on rank |
| C04 | `get_ncore_nchunk` with error value | case analysis with ceil-division |
| C05 | shared array state, one step per chunk, plus micro-step interleaving | commuting updates on disjoint ranges, permutation invariance |
| C06 | same with queue of raised chunks and the host loop | induction over schedule |
| C07 | heap with caller / shared buffers | refutation + partial |
| C08 | `_dist_recon` threads over slices and kernels with their centre indexing | schedule independence for kernels local in slice; refutations for gridrec/art/project |
| C09 | keyword table as mutable state, `recon` step | invariant over all call histories |
| C10 | environment as state, worker outcomes | refutation on the raising path, partial on success |
| C11 | kwargs dictionaries as association lists, shapes | direct |
| C12 | 3D arrays as functions | direct |
| C13 | context manager stack as program syntax tree | structural induction |
| C14–C17 | elementwise array functions; C loops of prep.c | algebra in ordered field; induction over segments |
| C18–C20 | list functions / flat index C loops | list induction; refutations for non-divisible length |
| C21–C23 | elementwise functions with window; NaN as `none` | order independence, decision logic |
| C24–C25 | window gather + sort + middle; dispatch table | sortedness/permutation; refutation for dtype |
| C26–C27 | sweep state (data, mask) | invariant over sweeps; connectivity argument for termination |
| C28 | mask predicate | direct |
| C29–C30 | utils.c ray tracing over a linear ordered field with given slope | counting, sortedness of merge, telescoping |
| C31–C38 | C reconstruction loops over an abstract ray system (list of (pixel, length) per ray) which is produced by the ray tracer | induction over loops/iterations |
| C39 | index expressions of gridrec.c | arithmetic; refutation for power-of-two width |
| C40–C45 | prep/stripe and remove_ring loops | induction; refutation where off |
| C46 | padding slice arithmetic | refutation for pad=False, partial for pad width > 0 |
| C47–C48 | candidate grids; name formatting | minimiser induction; refutation for fine steps |
| C49 | transition system of threads with lock array | invariant by induction over steps |
| C50–C55 | small functions | direct |
| C56–C207 | see `CLAIMS.md` | modules per claim, what is refuted and what is proved instead |

`CLAIMS.md` has all claims with status, modules and notes.

What cannot be expressed: image *quality* statements (noise suppression, FFT accuracy) are not modelled; convergence of
the iterative methods is proved for exact arithmetic only; float rounding is
modelled only for the ray tracer, the quadrant flag, sums, and `osem`/`mlem` (`Verif/Fl`, IEEE single precision; `Verif/Fl/Ext` adds infinities and NaN).

## Calls of the C library (C116, C117)

`Verif/Extern`: 29 wrappers of `util/extern` as lists of converted arguments, 25 C functions as lists of parameters (from
the definitions in `source/libtomo`, not the headers: `morph.h` names the parameters of `sample` in another way). Not
modelled: `c_remove_ring`, `c_remove_stripe_sf`, loading of the libraries, `restype`.

## Memory taken and given back (C166)

`Verif/Heap`: each C routine as the list of its `malloc`/`calloc`, `free` and uses through the local pointers, run on a
heap with addresses that are never handed out twice. A use or `free` of a pointer that is not initialised or whose block
is gone stops the run. The lists follow the order of the source with all loops; what the buffers hold, failing
allocations and the interleaving of parallel loops are left out. Not covered: the C++ code under `accel/` (smart pointers
and CUDA allocations).

## Units (C167)

`Verif/Iter/Scale` relates runs on scaled data step by step (`R2`: two optional results are both absent or differ by the
factor). For the methods with a penalty the scaling of `reg_par` is part of the statement.

## Sorting with the C library (C168)

Elsewhere `qsort` returns the sorted array. `Verif/Corr/Qsort` justifies that for arrays without NaN: every function that
sorts arrays with a consistent comparison function returns this array. With NaN the comparison functions are not
consistent, and nothing is claimed about the values there; only that the result depends on the library.

## Lengths of angles and centres (C169)

`Verif/Recon/ArgModel` keeps only which elements of the angles, centres and data are read. The reads of `ind_block` and
arrays of centres with more than one dimension are left out.

## Slices on their own (C170)

C08 takes the worker to be a function of a block of slices that treats every slice by itself. `Verif/Iter/Alone` and
`Verif/Iter/AlonePml` prove this for the models of the C functions by comparing a run on a block with runs on single
slices, step by step; `Verif/Recon/Kernels` turns blocks of rows into the flat arrays of the C functions and joins this
with the distribution over workers. A block in which some slice has no real result counts as a block without result,
while the code would put NaN or infinity into that slice only.

## Round trip (C171)

`Verif/Recon/RoundTrip` joins the model of `project`, `minus_log` and `recon` (`ReconRun`: data order, checks, centres,
distribution over workers, C function). Everything is exact; the conversion to float32 between the calls is left out.

## Single sinograms (C172)

`Verif/Stripe/AloneModel` puts the models of the single sinograms behind `distribute_jobs`, with exceptions: a block of the
pool that raises makes `res.get()` raise, without a pool the first one does, and with `nchunk = 0` every block has lost
the axis over which the filters loop. The older theorems named `…_distributed` (C40, C41, C91–C93) leave the exceptions out
and speak about runs in which no block raises; with `nchunk = 0` there are none. `Verif/Stripe/Db2` is the wavelet 'db2'
as documented by PyWavelets, with the conditions of C93 proved for it.

## Zeros around an object (C173)

`Verif/Ray/Border` compares the crossings of one ray with a grid and with a larger one around it. Where the ray meets no
grid line within 1/100 of its end, the crossings of the smaller grid are a connected part of those of the larger one, the
pixel numbers differ by the shift, and all other segments lie in pixels that are zero. Corners of the grid inside the
object are allowed. `Verif/Sim/Border` lifts this to `project`, where the two detectors differ by an even number of pixels,
and `Verif/Recon/Larger` to `recon` on a larger grid; grids that differ by an odd number of pixels are not aligned and not
covered.

## The normalisation front ends (C174)

`normalize_bg` and `normalize_roi` are `distribute_jobs` around a worker.  `AloneModel` lays the block of a
worker out as one stretch of memory, as C sees it, runs the C function of C15 on the whole block and reads
the projections back (`bgBlock`); `bgBlock_slicewise` shows that this is the same as running it on every
projection.  Where the C function is undefined (C123) the model leaves the block alone, and the theorems
exclude these arguments.  The worker of `normalize_roi` is modelled on images with NaN, since an empty window
fills a projection with NaN; the input has none.

### C175: continuing with `init_recon`

`Verif/Iter/Continue.lean` shows for the models of the C functions that `a + b` iterations are `a` iterations followed
by `b` from their result (`Continues`); `Verif/Recon/Continue.lean` lifts this to series of `recon` calls
(`ReconCalls`) with any distribution of each call.  The result of a call is a C-contiguous float32 array, so
`np.require` in `_init_recon` hands back the same array and the next call overwrites it; the model therefore keeps one
buffer for the whole series.

Two refutations.  `tv` keeps `prox0x`, `prox0y`, `prox1` and the image before extrapolation between iterations, and a
new call starts the first three at zero and the last at the extrapolated image (`tv_not_continued`).  `grad` and `tikh` with
`reg_par[0] < 0` take the step 1/1000 in the first iteration of every call, so many calls with one iteration never use
the step computed from the gradients (`grad_auto_not_continued`).

### C176: the two threads of `ufo_fbp` and `ufo_dfi`

`Verif/Wrap/UfoModel.lean` is a transition system of the thread of `_process_data` and the UFO scheduler.  UFO is not in
the repository, so its four calls are assumptions written in the comment of `UfoStep`: the two `get_..._buffer` calls wait
for a buffer, the graph works in order, and `sched.run` returns once the input has been stopped and the graph is empty.
Under them every execution has at most `5 n + 2` steps, and it ends with the call returned exactly if every image can be
written into its slice.  If one cannot (a grid that does not have the width of the detector), the exception ends the thread
before `input_task.stop()` and the call never returns.

### C177: arguments of `remove_ring`

`Verif/Ring/CallModel.lean` takes Python values and converts them where the code does, in the tasks of the thread pool
(`c_remove_ring`, by position).  Numbers and integers arrive at the parameters of their meaning, and the call is then
`removeRing` of `Verif/Ring/Model.lean`.  A value that cannot be converted raises inside a task, the future is dropped, and
the call returns the slices unfiltered (`remove_ring_silent`); only `int_mode`, the range of `theta_min` and the chunks decide
whether the call raises (`remove_ring_returns_iff`).

### C178, C179: `normalize` in `float` arithmetic

`Verif/Fl/NormModel.lean` models `normalize` with `averaging='mean'` for one pixel with the roundings,
infinities and NaN of binary32. The order of numpy's summation is an arbitrary binary tree (`SumTree`).
numpy versions differ in whether the sum is divided in `float` or in `double`; `Before r` covers both
(monotone, exact on integers up to 2²⁴, relative error 2⁻⁵³). NumExpr is taken to evaluate each of the
four expressions in `float`, one rounding per operation. `averaging='median'` is not covered here (it is
in the exact model of C14).

C178 holds. C179 is false: 257 equal frames of 65535 sum to 16842495, an odd number above 2²⁴, which no
`float` is near enough to for the quotient to round to 65535, whatever the order of addition
(`equal_frames_257`). For sums up to 2²⁴ it holds (`equal_frames_partial`), so for 256 frames of 16 bits.

### C180, C181: own projections and the back-projection in `float` arithmetic

`Verif/Fl/ArtModel.lean` has `project`, `fbp`, `art`, `bart` and `sirt` (which is `bart` with one subset) in
IEEE binary32. C180 says that an image is a fixed point of the iteration on its own projections, bit for
bit. The reason is that each method computes `simdata` with the function `project` uses, so the residual
is `q - q = 0` (for `osem` the ratio is `q / q = 1`) and the rounded update adds nothing. This needs that
`simdata` is zero where a ray begins, that no ray is visited twice, and for `osem` that `update[n]` and
`sum_dist[n]` are the same rounded sum. Two conditions are really needed: the projections are finite
(`inf - inf` is NaN), and for `osem` a ray with segments has a `sum_dist2` that does not underflow to zero
(`osemF_own_short`: the pixel becomes 0). `calc_simdata` is one compiled function, so both calls share the
choice of fused multiply-adds. The sign of zero is not in the model.

C181 (`Verif/Fl/Fbp.lean`): a pixel of the back-projection is a fold over the segments in it, in the order
of the loops (`fbpF_val`); the same fold without rounding is the exact `fbp` (`pixKeys_sum`). Accuracy,
order and sign follow from the lemmas on rounded sums.

### C182: slices in `float` arithmetic

C170 says that a slice is reconstructed as if it were alone, in exact arithmetic. `Verif/Fl/Alone.lean` says
it for IEEE binary32, where sums depend on their order and a NaN spreads to everything computed from it.
The proof is a simulation between the call on all slices and the call on one: the steps of other slices
do not touch the cells of this slice in `recon` and `simdata`, the steps of this slice act alike. From it
follow `AloneF.elsewhere` (whatever the other slices hold) and `AloneF.chunk` (any chunk).

### C183: the segments of the ray tracer in float arithmetic

`Fl/LenModel.lean` adds to the float ray tracer of `Fl/Model.lean` the lengths `calc_dist` computes:
`sqrtF` is the correctly rounded root, `lenF` the length of a segment with every choice of contraction,
`segsF` the list of indices and lengths of a ray, `geomF` the rays of a call. `Fl/Len.lean` proves:

- `le_sqrtF`, `sqrtF_le`: the rounded root compares with floats as the root does. `sqrtF_err`: its error.
- `lenF_near`: a length is the distance of its end points up to 2⁻²¹. `lenF_float`: it is a float from 0 to 2¹⁵.
- `segsF_trace`: the indices are those of `traceF`, so C145 applies to them.
- `segsF_ok`, `geomF_ok`: the segments meet the hypotheses `InGrid`, `Inside` and the bounds of C180–C182.
- `fbpF_traced`, `osemF_traced`: two of those claims with no assumption on the segments left.

A length can exceed the diagonal of a pixel: crossings within 0.01 of the border are dropped, so a ray close
to the border has few crossings that are far apart. The bound is that of the image, 2¹⁵, not 2.
Trusted: `sqrtf` is correctly rounded. `sinf` and `cosf` are not modelled: they are any floats of at most 1 in size.

### C184: the memory a call holds at its worst moment

C166 is about what is left on the heap when a call returns. `Heap/Peak.lean` is about every moment of it, with the
same model. The specification is `Kernel.held` (bytes by routine) and `Kernel.extra` (the scratch of
`calc_dist` for one ray).

- `call_peak`: after any prefix of the operations of a call, at most `held + extra` bytes more are in use.
- `call_reaches`: some prefix holds exactly `held` more, for every call that does something.
- `calls_peak`: the same after other calls; only what they leaked comes on top.
- `workers_bytes`: chunks of the slices need together the slices once and a fixed part for each worker.

The proof runs the operations on a symbolic heap (`Runs`): each routine keeps the same blocks around each of its
loops, so no iteration can add to them. Not counted: the overhead of the allocator, the stack, NumPy arrays.

### C185: negated data and other units

`Fl/Neg.lean` works on the float kernels of `Fl/ArtModel.lean` and `Fl/OsemModel.lean`.

- `fl_neg`: rounding is symmetric. `fl_scale`: away from underflow it commutes with powers of two.
- `projectM_neg`, `fbpF_neg`, `artF_neg`, `bartF_neg`, `sirtF_neg`: negation passes through each kernel, with
  infinities and NaN included.
- `fbpF_scale`, `projectM_scale`: powers of two pass through the two kernels that are one pass of sums.
- `osemF_not_odd`: `mlem` divides by a projection; when that underflows to zero the sign of the image is lost.
- `fbpF_not_scale3`: the factor 3 does not pass through.

### C186: binning in float arithmetic

`Fl/BinModel.lean` is the float version of the loops of `Morph/Model.lean` (same visits, same bounds checks), and
`Fl/Bin.lean` has the theorems.

- `downsampleF_val`: for every shape, also those the bin does not divide, each output entry is `binMean` of `2^level`
  entries.
- `binMean_counts`: integers of `b` bits with `b + level ≤ 24` are averaged exactly.
- `binMean_equal`: four equal terms. The third sum can be wrong by half a unit; the fourth addition undoes this, by
  rounding or by the tie rule.
- `binMean_large`: copies of `2²³ + 3`. From 32 copies on, the part below `2²³` per copy is lost except for one
  power of two, so the mean is `2²³ + 1` at every level from 5 to 23.
- `binMean_accurate`: the general bound.

### C187: flat data in float arithmetic

`Fl/FlatModel.lean` has `remove_stripe_sf` (a fold of updates over the slices and pixels, same addresses and clamping
as `Stripe/SfModel.lean`) and `normalize_bg` (one row) with float operations; `Fl/Flat.lean` has the theorems.

- `copyMean_iff`: `n` equal floats added up and divided by `n` give the float back, for all floats, exactly if `n` is
  1, 2 or 4. The witnesses `spoiled n` are computed for `n < 32`; from 32 on the sum is known in closed form
  (`runs_val` of C186).
- `sfF_result`: an entry of the result depends on its own slice as given, although the array is updated in place.
- `sf_flat_iff`, `bg_flat_iff`: what this means for the two functions.
- `bg_right_accurate`: four roundings lie between the right boundary and one; the bound grows with left / right, and
  `bg_right_infinite` shows that this growth is real.

Not modelled: `-0` (a zero divisor is `+0`; the sum `left + slope * j` that vanishes is `+0` in round-to-nearest).

### C188: projections without padding

Found by a mutation: replacing `dx = ox` by `dx = oz` for `pad=False` broke no theorem, because only the padded width
was pinned down. `Sim/Width.lean` now fixes the width (`unpadded_shape`) and says what the choice of `obj.shape[1]`
means: at angle 0 the detector runs along the third axis (`unpadded_axis0`), so an object with a longer third axis is
cut off. `rayIntegral_shift` says that a ray is given by its distance to the centre; with it the unpadded projections
are the middle of the padded ones if the second axis is even (`unpadded_middle_iff`), because the padded width always
is even.

### C189, C190: symmetry and stability of phase retrieval

`Phase/Mirror.lean` writes the filter as a sum of responses to single pixels (`filter_ker`). The response is the real
part of the inverse transform of the gains and so does not change when both offsets change sign: turning by 180 degrees
commutes with `retrieve_phase`. Mirroring does not. On a grid of even size `_reciprocal_coord` has no frequency 0: its
values are odd multiples of half a step, and after `fftshift` the frequencies `u` and `-u` get the values `2u+1` and
`2u-1`. The odd part of the response at offset (1, 1) is then a sum of second differences of `1/(κx+α)`, which all have
the same sign (`second_difference`, `step_sign`), so it is strictly positive for all parameters (`sin_sin_pos`).
`Phase/Energy.lean` uses Parseval's theorem of C76: gains at most 1 make the filter a contraction, positive gains make
it injective although `np.real` drops the imaginary part (`filter_inner`).

### C191: preprocessing of mirrored projections

`Sym/Mirror.lean` compares the results on a stack and on its mirror image. The window of `remove_stripe_sf` with even
`size` reaches one column further to the left than to the right (`size / 2` and `size - size / 2 - 1`), which
`sf_mirror_defect` turns into a formula for the difference; `sf_mirrors_iff` gives the exact sizes. `downsample`
reads its input consecutively, so if the bin does not divide the number of columns the bins of later rows start inside
other rows, and mirroring the rows changes more than the order (`down_mirrors_iff`).
`Sym/Detect.lean` uses the specification of C43: the difference two columns to the right of a mirrored stack is that of
the original stack two columns beside the mirrored place.

### C192, C193: the comparison helpers of benchmark.py

`Bench/Quantify.lean` models `quantify_difference` with `scipy.ndimage.sobel` written out and the two norms of
`numpy.linalg.norm` for two-dimensional arrays: largest column sum and operator norm (Mathlib's `L2Operator` norm). The
specification has the entrywise norms the docstring names. `quantify_zero_iff` needs that the gradients lose nothing but
a constant: `smooth_injective` solves the recurrence of the 1, 2, 1 filter with reflecting ends, and a constant
difference of two normalised images is 0 because both have minimum -1. `Bench/Compare.lean` models `image_comparison` as
a state and a fold over the calls, with numpy's broadcasting of lengths 1.

### C194, C195: a call of lprec; convert_image

`Gpu/Call.lean` adds to the thread model of C49 what `lprec` computes: the chunks of `idsList`, the results written one
after the other by the running `shift`, the setup passed to `lpTransform`. The method is a parameter; `Slicewise` says
that it treats slices independently. `Bench/Convert.lean` models a directory as a map from names to files.

### C196, C197: pad of any array; rescale_image

`Morph/PadNd.lean` models `pad` of an array with any number of axes (shape and element function), with Python's indexing
for `axis` and Python's slices for `npad`, both integers. `Bench/Rescale.lean` models `rescale_image` with `resize` as a
parameter; `Possible` says which calls are carried out.

### C198: stripe removal of reordered and mirrored scans

`Sym/Order.lean` uses the models of C40 and C41. `Reorders n π` says that `π` is one-to-one on the projections; the
statement about pairs of old and new values holds with ties too, the statement about single pixels needs a value that
occurs once in its column.

### C199: filters and masks of flipped stacks

`Sym/Filters.lean` uses the models of C21, C23, C28 and C100. The counterexample for even sizes is a step image,
for every even size at once: the window of `size = 2k` reaches `k` columns to the left and `k - 1` to the right.
`Sym/Outlier.lean` does the same for `remove_outlier`; there the image must also move the median across the value of the
pixel itself, so it is a comb of bright columns with one more bright pixel (`combImg`).

### C200: importing tomopy

`Load/Model.lean` models the import as a function of the surroundings: which libraries `find_library` finds, which of them
load, the environment variable and what `import mkl_fft` does. A handle is the library it belongs to, so the theorems also
say that no function calls another library than its own.

### C201: accelerated reconstruction in several processes

`Recon/ProcsModel.lean` adds the process pool branch that the model of `_dist_recon` in `Recon/Model.lean` leaves out. The processes
work on copies, so there is nothing to interleave: all futures are computed from the images at the start and written back
in order.

### C202: the 3D median filters of turned and rescaled volumes

`Sym/Median3d.lean` uses the model of C24. `Filtered3` says that a volume is the result of a call with some schedule, for
both functions; `filtered3_exists` shows that there is one for every volume.

### C203: slice-wise median filters in other units

`Sym/Units2d.lean` uses the models of C23 and C100. The rank of the middle value, `size² / 2`, has as many values below as
above it only if `size` is odd; `half_median` is the case where the difference shows.

### C204: accelerated reconstructions in other units and another order

`Accel/Units.lean` uses the sequential model of C83, which by C83 describes every schedule of the pool. The rotation stays
a parameter.

### C205: gain and offset of the detector pixels

`Sym/Gain.lean` uses the models of C14 and C16. Gain and offset are images, so each pixel has its own.

### C206: stripe removal in other units

`Sym/StripeUnits.lean` uses the models of C40, C41, C81 and C91. A change of the values is a strictly monotone function of
the field, or `x ↦ a * x + b`.

### C207: stripes before or after the logarithm

`Sym/StripeLog.lean` joins the models of C41 and of `minus_log` (`Normalize/LogModel.lean`).

## Mutation tests: what the log says

`seeded/LOG.jsonl` has one line per edit of the model. What an outcome means:

- `killed`: a theorem of the claim named no longer has a proof. Lines with `harness: per-claim` were checked by
  elaborating every dependent module past errors and looking for `sorryAx` below each theorem of the claim.
- Lines without that field come from a first harness that called every failing build `killed`. Lake does not build the
  modules behind a failing one, so in many of those lines only a helper lemma is known to fail. Where that is so, the line
  carries `claim_theorems_depending_on_failed`: theorems of the claim that use the failed lemma in the unedited
  development. This shows that the proof is lost, not that the edited statement is false.
- `unsettled`: first logged as `killed`, but no theorem of the claim was shown to fail; `correction` says why. These are
  repeated with the second harness (`rerun_of_line`).
- `invalid`: the edited definition did not elaborate, so nothing was tested.
- `survived`: no theorem of any claim failed; a failing `example` alone counts as survived.

A lost proof may also be due to a brittle proof script. Edits described as equivalent are of this kind.
