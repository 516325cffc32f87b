{"id": "C01", "title": "Work splitting covers every slice exactly once", "statement": "When work along an axis is split for parallel execution (recon, project-style filters, GPU wrappers), the list of slices handed out, concatenated in order, is exactly 0,1,...,axis_size-1: no index is skipped, none is processed twice, and no slice reaches past the end when clipped to the axis.", "quantifier": "every axis size >= 1, every cpu count >= 1, every ncore (None, 0 or positive) and every nchunk (None, 0 or positive)", "why_tests_cant": "The set of (axis size, ncore, nchunk, cpu count) combinations is infinite and off-by-one errors only show at remainders; a test samples a handful of combinations on one machine's cpu count.", "anchors": ["source/tomopy/util/mproc.py:get_ncore_slices", "source/tomopy/util/mproc.py:get_ncore_nchunk", "source/tomopy/util/mproc.py:distribute_jobs"]}
{"id": "C02", "title": "Automatic work splitting is balanced and uses every worker", "statement": "With nchunk=None, the split for reconstruction yields exactly min(ncore or cpu_count, axis_size) non-empty slices whose sizes differ by at most one.", "quantifier": "every axis size >= 1, ncore and cpu count", "why_tests_cant": "Balance and non-emptiness have to hold for all remainders, not for sampled sizes.", "anchors": ["source/tomopy/util/mproc.py:get_ncore_slices"]}
{"id": "C03", "title": "MPI ranks partition the slices", "statement": "With several MPI processes, concatenating the slice lists obtained by rank 0, 1, ..., size-1 gives back the single-process slice list: every slice is processed by exactly one rank and none is lost.", "quantifier": "every number of ranks >= 1, every slice list (hence every axis size, ncore, nchunk)", "why_tests_cant": "Running under every MPI world size is impossible in a unit test, and the test suite runs without MPI.", "anchors": ["source/tomopy/util/mproc.py:get_worker_ncore_slices", "source/tomopy/util/mproc.py:get_nproc"]}
{"id": "C04", "title": "Chunk/worker counts chosen for distribute_jobs are valid", "statement": "The (ncore, nchunk) pair picked for a job has 1 <= ncore <= cpu_count, ncore never exceeds the number of chunks (no idle worker), an automatically chosen nchunk is >= 1 and ncore*nchunk covers the axis; an axis of size 0 is the only way to get an arithmetic error.", "quantifier": "every axis size, every ncore >= 1 or None, every nchunk >= 0 or None, every cpu count >= 1", "why_tests_cant": "Infinite argument space; depends on the machine's cpu count.", "anchors": ["source/tomopy/util/mproc.py:get_ncore_nchunk"]}
{"id": "C05", "title": "distribute_jobs is schedule independent", "statement": "For a function that maps a block of the axis to a same-length block slice by slice, the array returned by distribute_jobs equals applying the function to every slice in order, whatever the number of worker processes, the chunk size, the order in which chunks are executed, and however individual chunk executions are interleaved.", "quantifier": "every input, every ncore/nchunk, every permutation and interleaving of chunk executions by the pool", "why_tests_cant": "Interleavings of a process pool cannot be enumerated or forced by tests.", "anchors": ["source/tomopy/util/mproc.py:distribute_jobs", "source/tomopy/util/mproc.py:_arg_parser", "source/tomopy/util/mproc.py:slice_axis"]}
{"id": "C06", "title": "Chunks that ask to run on the host are all completed", "statement": "If any subset of chunks raises RunOnHostException in a worker, those chunks and only those are executed again by the host process, and the final array is the same as if no chunk had raised.", "quantifier": "every input, every subset of raising chunks, every order in which they reach the queue", "why_tests_cant": "Depends on which workers fail and on queue order; the set of failure subsets is exponential.", "anchors": ["source/tomopy/util/mproc.py:distribute_jobs", "source/tomopy/util/mproc.py:clear_queue", "source/tomopy/util/mproc.py:_arg_parser"]}
{"id": "C07", "title": "In-place worker functions write through to the caller's output", "statement": "If the worker function modifies its input block in place and returns None (as the stripe filters do), the array returned by distribute_jobs contains the modified data, also when the caller passes out=arr.", "quantifier": "every input array, with out omitted, out = arr in ordinary memory, out = arr in shared memory", "why_tests_cant": "Depends on aliasing between caller memory and shared-memory copies, which tests that compare only the returned value of one configuration do not see.", "anchors": ["source/tomopy/util/mproc.py:distribute_jobs", "source/tomopy/util/dtype.py:as_sharedmem"]}
{"id": "C08", "title": "Reconstruction does not depend on how slices are distributed over workers", "statement": "recon(tomo, theta, center, ...) gives, for every slice, the same image whatever ncore and nchunk are and in whatever order worker threads finish; in particular slice s is reconstructed with center[s].", "quantifier": "every number of slices, every center array, every ncore/nchunk and worker order, every algorithm", "why_tests_cant": "Chunk boundaries and thread completion order vary with machine and arguments; the tests only use a scalar center.", "anchors": ["source/tomopy/recon/algorithm.py:_dist_recon", "source/tomopy/recon/algorithm.py:recon", "source/libtomo/gridrec/gridrec.c:gridrec", "source/libtomo/recon/art.c:art", "source/libtomo/recon/osem.c:osem"]}
{"id": "C09", "title": "Argument checking of recon is a pure decision that history cannot change", "statement": "recon rejects an unknown algorithm name or a keyword not allowed for the algorithm with ValueError before computing anything, accepts every documented keyword, and the decision for a given call is the same after any sequence of earlier recon calls.", "quantifier": "every call (algorithm, keyword set) and every history of earlier calls", "why_tests_cant": "The decision table is module-global mutable state; only a proof over all call histories shows that earlier calls cannot leak into later ones.", "anchors": ["source/tomopy/recon/algorithm.py:recon", "source/tomopy/recon/algorithm.py:allowed_recon_kwargs", "source/tomopy/recon/algorithm.py:allowed_accelerated_kwargs"]}
{"id": "C10", "title": "Thread limit environment variable is restored after recon", "statement": "After recon returns or raises, the process environment variable TOMOPY_PYTHON_THREADS has the value it had before the call.", "quantifier": "every previous value of the variable (unset or set), every worker outcome (all succeed, some raise), serial or threaded execution", "why_tests_cant": "Requires every crash point inside the worker phase; tests only run the success path.", "anchors": ["source/tomopy/recon/algorithm.py:_dist_recon"]}
{"id": "C11", "title": "Defaults of recon are filled in, never override the caller, and give a well-shaped result", "statement": "For an accepted call every parameter that the algorithm needs has a value, values given by the caller are used unchanged, and the returned array has shape (number of slices, num_gridx, num_gridy); a theta whose length differs from the number of projections is rejected.", "quantifier": "every input shape, every subset of supplied keywords, both axis orders", "why_tests_cant": "The space of keyword subsets and shapes is unbounded.", "anchors": ["source/tomopy/recon/algorithm.py:recon", "source/tomopy/recon/algorithm.py:_get_algorithm_kwargs", "source/tomopy/recon/algorithm.py:_init_recon", "source/tomopy/recon/algorithm.py:init_tomo"]}
{"id": "C12", "title": "Projection order and sinogram order are equivalent", "statement": "Passing data in projection order with sinogram_order=False gives the same result as passing the axis-swapped data with sinogram_order=True, and swapping twice is the identity.", "quantifier": "every 3D array", "why_tests_cant": "Universally quantified over arrays and shapes.", "anchors": ["source/tomopy/recon/algorithm.py:init_tomo", "source/tomopy/recon/rotation.py:find_center_vo"]}
{"id": "C13", "title": "The numexpr thread count is restored", "statement": "set_numexpr_threads used as a context manager leaves the process-wide numexpr thread count as it found it, for any nesting of such blocks and whether or not a body raises, and never asks for more threads than there are cpus.", "quantifier": "every nesting/sequence of with-blocks, every requested count, every point at which the body raises", "why_tests_cant": "Needs all nestings and all crash points.", "anchors": ["source/tomopy/util/mproc.py:set_numexpr_threads"]}
{"id": "C14", "title": "Flat/dark normalisation is well defined and hits its reference points", "statement": "normalize returns (arr-dark)/max(flat-dark,1e-6) elementwise, so the denominator is never zero or negative; a pixel equal to the mean dark maps to 0, a pixel equal to the mean flat maps to 1 when the flat exceeds the dark by at least 1e-6; with a cutoff no result exceeds it; an unknown averaging mode is rejected.", "quantifier": "every projection stack, every stack of flats and darks of any size, every cutoff", "why_tests_cant": "Quantified over all arrays, including degenerate detectors with flat <= dark.", "anchors": ["source/tomopy/prep/normalize.py:normalize"]}
{"id": "C15", "title": "Background normalisation flattens a linear background", "statement": "normalize_bg divides every row by the straight line through the mean of its leftmost and rightmost `air` pixels: a row that already is such a line becomes all ones, scaling a row by a nonzero factor does not change the result, and other rows are not touched.", "quantifier": "every stack, every air width, every row", "why_tests_cant": "Universally quantified over image content and air widths.", "anchors": ["source/tomopy/prep/normalize.py:normalize_bg", "source/libtomo/prep/prep.c:normalize_bg"]}
{"id": "C16", "title": "Nearest-flat normalisation treats every projection exactly once", "statement": "normalize_nf splits the projections into consecutive segments, one per flat-field group, which cover all projections without overlap when flat locations are increasing and inside the scan, and each projection is normalised by a group whose location is nearest (ties by rounding).", "quantifier": "every number of projections, every increasing list of flat locations, any number of flats", "why_tests_cant": "Boundary projections between groups depend on rounding of midpoints; must hold for all location lists.", "anchors": ["source/tomopy/prep/normalize.py:normalize_nf"]}
{"id": "C17", "title": "Padding preserves the data and fills only the border", "statement": "pad returns an array longer by 2*npad along the axis; the middle part equals the input; the border holds the constant value or the nearest edge value; an unknown mode or an option of another mode is rejected; cropping npad from both sides gives the input back.", "quantifier": "every array, axis, npad >= 0, mode", "why_tests_cant": "Quantified over all arrays, axes and pad widths.", "anchors": ["source/tomopy/misc/morph.py:pad", "source/tomopy/misc/morph.py:_get_slices", "source/tomopy/misc/morph.py:_get_pad_sequence"]}
{"id": "C18", "title": "Down-sampling averages aligned bins", "statement": "downsample along any axis returns, at each output position, the combination of exactly the 2**level consecutive input elements of its own row; elements of one row never leak into another; for every array length.", "quantifier": "every 3D shape (divisible by the bin size or not), every axis and level", "why_tests_cant": "Misalignment only appears when the length is not divisible by the bin size and then depends on the axis; the tests use divisible sizes.", "anchors": ["source/tomopy/misc/morph.py:downsample", "source/tomopy/misc/morph.py:_sample", "source/libtomo/misc/morph.c:downsample"]}
{"id": "C19", "title": "Up-sampling replicates, and down-sampling after up-sampling is the identity", "statement": "upsample repeats each element 2**level times along the axis, downsample(upsample(x), same level and axis) returns x, and both functions read and write only inside their arrays.", "quantifier": "every 3D array, axis and level", "why_tests_cant": "Round-trip over all inputs.", "anchors": ["source/tomopy/misc/morph.py:upsample", "source/tomopy/misc/morph.py:downsample", "source/libtomo/misc/morph.c:upsample"]}
{"id": "C20", "title": "Stitching a 360-degree scan", "statement": "sino_360_to_180 yields dx//2 angles and width 2*dz-overlap; outside the overlap every output pixel is a copy of one input pixel (the second half mirrored), inside the overlap it is a weighted mean of the two half scans with non-negative weights adding to one.", "quantifier": "every stack, every overlap with 0 <= overlap <= dz, both rotation sides", "why_tests_cant": "Weights at special overlaps (0, 1) and mirrored indexing must hold for every overlap.", "anchors": ["source/tomopy/misc/morph.py:sino_360_to_180"]}
{"id": "C21", "title": "median_filter_nonfinite repairs exactly the non-finite pixels", "statement": "Only non-finite pixels change; each is replaced by the median of the finite values in its window of the original projection, so the outcome does not depend on the order in which pixels are visited; a ValueError is raised exactly when some non-finite pixel has no finite value in its window; after success everything is finite.", "quantifier": "every stack of projections, every placement of NaN/inf, every window size", "why_tests_cant": "Placement of non-finite pixels (adjacent, at borders) is combinatorial.", "anchors": ["source/tomopy/misc/corr.py:median_filter_nonfinite"]}
{"id": "C22", "title": "Range clean-up functions clamp and are idempotent", "statement": "adjust_range leaves every value inside [dmin,dmax] and unchanged if it was inside; remove_nan and remove_neg change only NaN resp. negative entries; applying any of them twice equals applying once (for admissible replacement values).", "quantifier": "every array, every bounds", "why_tests_cant": "Universal over arrays and bounds.", "anchors": ["source/tomopy/misc/corr.py:adjust_range", "source/tomopy/misc/corr.py:remove_nan", "source/tomopy/misc/corr.py:remove_neg"]}
{"id": "C23", "title": "Outlier removal only touches outliers", "statement": "remove_outlier replaces a pixel by the local median exactly when it exceeds the median by at least dif, so results are never larger than the input for dif >= 0 and no remaining pixel exceeds its median by dif or more; other pixels are bit-identical.", "quantifier": "every stack, dif and window", "why_tests_cant": "Universal over image content.", "anchors": ["source/tomopy/misc/corr.py:remove_outlier"]}
{"id": "C24", "title": "3D median filter and dezinger compute the window median", "statement": "median_filter3d returns at each voxel the middle order statistic of the (2r+1)^3 window with out-of-range coordinates replaced by the centre coordinate; all reads stay in the volume; remove_outlier3d changes a voxel only when it differs from that median by at least dif; the result does not depend on the number of OpenMP threads or their order.", "quantifier": "every volume, radius, threshold and schedule of the parallel loop", "why_tests_cant": "Border handling and parallel schedules are not enumerable by tests.", "anchors": ["source/libtomo/misc/median_filt3d.c:medianfilter_main_float", "source/tomopy/misc/corr.py:median_filter3d", "source/tomopy/misc/corr.py:remove_outlier3d"]}
{"id": "C25", "title": "3D median filter accepts any numeric dtype", "statement": "median_filter3d / remove_outlier3d on an array that is neither float32 nor uint16 converts it to float32 and filters it with the float32 kernel.", "quantifier": "every input dtype", "why_tests_cant": "A dispatch table over dtypes; the tests only use float32 and uint16.", "anchors": ["source/tomopy/misc/corr.py:median_filter3d", "source/tomopy/misc/corr.py:remove_outlier3d"]}
{"id": "C26", "title": "Inpainting never alters data outside the mask", "statement": "inpainter_morph returns the input unchanged outside the mask, for every method, window, number of extra iterations and thread schedule, including random inpainting; an empty mask returns the input.", "quantifier": "every volume, mask, method, iteration count, schedule, and sequence of random numbers", "why_tests_cant": "Requires all masks, all schedules and all random draws.", "anchors": ["source/libtomo/misc/inpainter.c:Inpainter_morph_main", "source/tomopy/misc/corr.py:inpainter_morph"]}
{"id": "C27", "title": "Inpainting fills the whole mask with values in the range of the known data", "statement": "If the data outside the mask is positive and at least one voxel is unmasked, inpainting with method 'mean' terminates with every masked voxel filled, and every filled value lies between the smallest and largest known value; method 'median' fills with the median of the available neighbours.", "quantifier": "every mask shape (any size and topology), every positive data", "why_tests_cant": "Filling proceeds from the boundary inwards; termination within the iteration bound depends on arbitrary mask geometry.", "anchors": ["source/libtomo/misc/inpainter.c:eucl_weighting_inpainting_2D", "source/libtomo/misc/inpainter.c:eucl_weighting_inpainting_3D", "source/libtomo/misc/inpainter.c:median_rand_inpainting_3D", "source/libtomo/misc/inpainter.c:median_rand_inpainting_2D"]}
{"id": "C28", "title": "circ_mask zeroes exactly the outside of the disc", "statement": "circ_mask leaves every pixel strictly inside the centred disc of radius ratio*min(dx,dy)/2 untouched and sets all others to val; applying it twice is the same as once; masks are monotone in ratio.", "quantifier": "every array, axis, ratio, val", "why_tests_cant": "Universal over shapes and ratios.", "anchors": ["source/tomopy/misc/corr.py:circ_mask", "source/tomopy/misc/corr.py:_get_mask"]}
{"id": "C29", "title": "Ray tracing stays inside its buffers and inside the image", "statement": "For every ray the number of grid intersections fits the buffers that the reconstruction routines allocate, and every pixel index computed for a ray segment is a valid index of the reconstruction slice.", "quantifier": "every grid size, rotation angle, detector pixel and rotation centre", "why_tests_cant": "A buffer overflow depends on the geometry of one particular ray; tests cannot cover the continuum of angles and centres.", "anchors": ["source/libtomo/recon/utils.c:calc_coords", "source/libtomo/recon/utils.c:trim_coords", "source/libtomo/recon/utils.c:sort_intersections", "source/libtomo/recon/utils.c:calc_dist"]}
{"id": "C30", "title": "Ray tracing orders the intersections and measures the chord", "statement": "The merged intersection list is a permutation of the trimmed grid crossings ordered along the ray for every quadrant, segment lengths are non-negative and add up to the distance between the first and last crossing, and each segment is charged to the pixel that contains its midpoint.", "quantifier": "every grid size, angle and ray", "why_tests_cant": "Ordering has to hold for the continuum of rays in all four quadrants.", "anchors": ["source/libtomo/recon/utils.c:sort_intersections", "source/libtomo/recon/utils.c:calc_dist", "source/libtomo/recon/utils.c:calc_quadrant"]}
{"id": "C31", "title": "Forward projection is linear, positive and slice-wise", "statement": "project(a*x+b*y) = a*project(x)+b*project(y), a non-negative object gives non-negative data, the zero object gives zero, and the data of slice s depends only on slice s of the object.", "quantifier": "every object, scaling, geometry", "why_tests_cant": "Universal over objects and geometries.", "anchors": ["source/tomopy/sim/project.py:project", "source/libtomo/recon/project.c:project", "source/libtomo/recon/utils.c:calc_simdata"]}
{"id": "C32", "title": "Back-projection (fbp without filtering step) is the adjoint of projection", "statement": "The unfiltered back-projection loop computes exactly the transpose of the projector: <project(x), y> = <x, backproject(y)>.", "quantifier": "every object x, data y, geometry", "why_tests_cant": "An identity between two operators for all inputs.", "anchors": ["source/libtomo/recon/fbp.c:fbp", "source/libtomo/recon/project.c:project"]}
{"id": "C33", "title": "Ordered subsets use every projection exactly once per iteration", "statement": "For any number of blocks the consecutive subsets partition 0..num_angles-1, differ in size by at most one, and with a permutation as ind_block every projection is used exactly once per iteration; mlem, sirt, pml_* equal osem, bart, ospml_* with a single block.", "quantifier": "every number of angles, every num_block >= 1, every permutation", "why_tests_cant": "Universal over the counts and permutations.", "anchors": ["source/libtomo/recon/osem.c:osem", "source/libtomo/recon/bart.c:bart", "source/libtomo/recon/ospml_quad.c:ospml_quad", "source/tomopy/util/extern/recon.py:c_mlem", "source/tomopy/util/extern/recon.py:c_sirt"]}
{"id": "C34", "title": "MLEM/OSEM iterates stay positive and finite, and preserve counts", "statement": "Starting from a positive image with positive data, every iterate of mlem/osem is positive and no division by zero happens, for any number of iterations; one mlem iteration makes the ray-weighted sum of the image equal the sum of the data over rays that hit the image.", "quantifier": "every geometry, positive data, number of iterations and block structure", "why_tests_cant": "An invariant over unboundedly many iterations; NaN poisoning appears only for particular zero patterns.", "anchors": ["source/libtomo/recon/osem.c:osem", "source/tomopy/util/extern/recon.py:c_mlem"]}
{"id": "C35", "title": "ART projects onto the measured ray", "statement": "After art processes one ray that hits pixels at most once each, the re-projection of the image along that ray equals the measured value; an image consistent with all data is left unchanged by any number of iterations; the distance to any consistent image never increases.", "quantifier": "every geometry, data, image, iteration count", "why_tests_cant": "Invariant over unbounded iterations and arbitrary data.", "anchors": ["source/libtomo/recon/art.c:art"]}
{"id": "C36", "title": "SIRT/BART leave consistent images and unseen pixels unchanged", "statement": "For data that are the projection of the current image bart/sirt returns the image unchanged for any number of iterations and blocks; a pixel crossed by no ray is never modified; the vector variants have the same property.", "quantifier": "every geometry, image, iteration count, block structure", "why_tests_cant": "Needs all iteration counts and geometries; pixels crossed by no ray only exist for particular geometries.", "anchors": ["source/libtomo/recon/bart.c:bart", "source/libtomo/recon/vector.c:vector", "source/tomopy/util/extern/recon.py:c_sirt"]}
{"id": "C37", "title": "Gradient methods leave exact solutions unchanged", "statement": "grad (and tikh with the solution as regulariser data) started from an image whose projection equals the data returns that image for any number of iterations and any fixed step.", "quantifier": "every geometry, image, step and iteration count", "why_tests_cant": "Unbounded iterations, all geometries.", "anchors": ["source/libtomo/recon/grad.c:grad", "source/libtomo/recon/tikh.c:tikh"]}
{"id": "C38", "title": "Penalised ML update is the non-negative root of its surrogate", "statement": "Each ospml_quad/ospml_hybrid pixel update with positive regularisation is real and non-negative when data and image are non-negative, and solves the quadratic surrogate equation 2F x^2 + G x + E = 0.", "quantifier": "every image, data, positive regularisation", "why_tests_cant": "Square root of a possibly negative discriminant must be excluded for all inputs.", "anchors": ["source/libtomo/recon/ospml_quad.c:ospml_quad", "source/libtomo/recon/ospml_hybrid.c:ospml_hybrid"]}
{"id": "C39", "title": "gridrec table and grid indices stay in range", "statement": "For every detector width and output grid size accepted by recon, gridrec reads and writes only initialised entries of its convolution, correction and Fourier-grid arrays, and writes every output pixel exactly once.", "quantifier": "every dx, num_gridx, num_gridy, angle and frequency", "why_tests_cant": "An out-of-range read returns heap garbage that usually looks plausible; it depends on whether the width is a power of two.", "anchors": ["source/libtomo/gridrec/gridrec.c:gridrec", "source/libtomo/gridrec/gridrec.c:set_pswf_tables"]}
{"id": "C40", "title": "Smoothing stripe removal subtracts only a per-column offset", "statement": "remove_stripe_sf subtracts from each column of a sinogram one number that does not depend on the angle; a sinogram whose mean row is constant is returned unchanged; indices stay in range for every window size.", "quantifier": "every sinogram stack, window size", "why_tests_cant": "Universal over content and window size.", "anchors": ["source/tomopy/prep/stripe.py:remove_stripe_sf", "source/libtomo/prep/stripe.c:remove_stripe_sf"]}
{"id": "C41", "title": "Sorting-based stripe removal only permutes within columns when the filter is neutral", "statement": "remove_stripe_based_sorting sorts each column, filters across columns, and puts every value back at its original angle: with a filter that leaves the sorted image unchanged the sinogram is returned unchanged, and in general the value at a pixel comes from the filtered image at the rank of that pixel.", "quantifier": "every sinogram (with ties), every filter", "why_tests_cant": "Sort/unsort round-trip over all inputs including ties.", "anchors": ["source/tomopy/prep/stripe.py:_rs_sort", "source/tomopy/prep/stripe.py:remove_stripe_based_sorting"]}
{"id": "C42", "title": "Stripe mask stages only remove, then only merge", "statement": "stripes_mask3d: the consistency stages never set a voxel that the threshold stage left unset, the merging stage never clears a voxel; all neighbour reads stay in the volume for every admissible parameter set; the result does not depend on thread schedule; inadmissible parameters are rejected.", "quantifier": "every weight volume, every admissible parameter combination and schedule", "why_tests_cant": "Reflecting border accesses depend on parameter/size combinations; schedules are not enumerable.", "anchors": ["source/libtomo/prep/stripes_detect3d.c:stripesmask3d_main_float", "source/tomopy/prep/stripe.py:stripes_mask3d"]}
{"id": "C43", "title": "Stripe detection weights are ratios in [0,1]", "statement": "stripes_detect3d returns weights between 0 and 1, the vertical filter returns the median of its window, and all reads stay inside the volume for admissible size and radius.", "quantifier": "every volume and admissible parameters", "why_tests_cant": "Rank of an order statistic and border reads for all sizes.", "anchors": ["source/libtomo/prep/stripes_detect3d.c:stripesdetect3d_main_float", "source/tomopy/prep/stripe.py:stripes_detect3d"]}
{"id": "C44", "title": "Ring removal's rolling filters equal their direct definitions", "statement": "The incremental median and mean filters used by remove_ring give at every position the median resp. mean of the full window, for every image and kernel radius they are used with, reading only inside the polar image.", "quantifier": "every polar image, kernel radius, position", "why_tests_cant": "Incremental algorithms drift only on particular data patterns; must hold for all.", "anchors": ["source/libtomo/misc/remove_ring.c:median_filter_fast_1D", "source/libtomo/misc/remove_ring.c:mean_filter_fast_1D", "source/libtomo/misc/remove_ring.c:bubble_2_arrays", "source/libtomo/misc/remove_ring.c:quick_sort_2_arrays"]}
{"id": "C45", "title": "Ring removal polar sampling stays inside the image", "statement": "For every rotation centre inside the image, the polar transform of remove_ring reads only valid pixels of the slice; chunks of slices given to threads cover every slice exactly once.", "quantifier": "every image size, centre inside the image, number of chunks", "why_tests_cant": "Rounding at the rim of the inscribed circle for the continuum of centres.", "anchors": ["source/libtomo/misc/remove_ring.c:polar_transform", "source/libtomo/misc/remove_ring.c:min_distance_to_edge", "source/tomopy/misc/corr.py:remove_ring"]}
{"id": "C46", "title": "Phase retrieval uses all of its input", "statement": "retrieve_phase filters the given projection embedded at the centre of the padded frame, returning the centre part; with pad=False the frame is the projection itself.", "quantifier": "every projection, pad on or off, every pad width", "why_tests_cant": "Depends on slice arithmetic at pad width 0; tests only compare one padded example.", "anchors": ["source/tomopy/prep/phase.py:_retrieve_phase", "source/tomopy/prep/phase.py:retrieve_phase", "source/tomopy/prep/phase.py:_calc_pad"]}
{"id": "C47", "title": "Rotation-centre search stays inside its search window", "statement": "find_center_vo evaluates only candidate centres inside the requested window clipped to the detector, its coarse search returns a minimiser over all integer candidates, and the fine search only refines around it; the returned value is in the fine window.", "quantifier": "every sinogram, search window, radius and step", "why_tests_cant": "Universal over data-dependent minimisers.", "anchors": ["source/tomopy/recon/rotation.py:find_center_vo", "source/tomopy/recon/rotation.py:_search_coarse", "source/tomopy/recon/rotation.py:_search_fine"]}
{"id": "C48", "title": "write_center writes one file per tried centre", "statement": "write_center writes a distinct file for every centre in the requested range, named by the centre, so no result overwrites another.", "quantifier": "every centre range and step", "why_tests_cant": "Name collisions depend on the step size relative to the two printed decimals.", "anchors": ["source/tomopy/recon/rotation.py:write_center"]}
{"id": "C49", "title": "GPU queue assigns each chunk once and never shares a busy GPU", "statement": "In the lprec multi-GPU driver every chunk of slices is processed exactly once, at any time each GPU is used by at most one chunk, and every GPU is released again.", "quantifier": "every number of slices, chunk size, number of GPUs, and every interleaving of worker threads", "why_tests_cant": "Race conditions cannot be exhibited deterministically by tests and need GPUs.", "anchors": ["source/tomopy/recon/wrappers.py:lprec", "source/tomopy/recon/wrappers.py:lpmultigpu"]}
{"id": "C50", "title": "Scanning-probe positions keep the probe inside the projection", "statement": "The scan coordinates generated for ptychographic simulation place the whole probe inside the projection, are equally spaced by the shift and include every multiple of the shift that fits.", "quantifier": "every probe size, projection size and shift", "why_tests_cant": "Boundary positions for all size/shift combinations.", "anchors": ["source/tomopy/sim/propagate.py:_rect_scan_coords", "source/tomopy/sim/propagate.py:_rect_scan_probe"]}
{"id": "C51", "title": "Padded projections cover the object diagonal with an even detector", "statement": "project with pad=True uses a detector width that is even, at least two pixels wider than the object diagonal, and get_center returns one centre per slice: the scalar replicated, or half the width when omitted.", "quantifier": "every object shape and centre argument", "why_tests_cant": "Universal over shapes.", "anchors": ["source/tomopy/sim/project.py:project", "source/tomopy/sim/project.py:_round_to_even", "source/tomopy/sim/project.py:get_center"]}
{"id": "C52", "title": "Detector drift search ends with a drift or the documented fallback", "statement": "detector_drift_adjust_aps_1id tries kernels until the corners are found or all kernels are exhausted, in which case it stops without raising.", "quantifier": "every sequence of detection outcomes", "why_tests_cant": "The exhausted case needs every kernel to fail; tests cover only success.", "anchors": ["source/tomopy/prep/alignment.py:detector_drift_adjust_aps_1id"]}
{"id": "C53", "title": "Cumulative histogram is a distribution function", "statement": "discrete_cdf returns sorted sample points and non-decreasing values from 0 to 1; empty input gives empty output.", "quantifier": "every data list", "why_tests_cant": "Universal over inputs including degenerate lengths.", "anchors": ["source/tomopy/misc/npmath.py:discrete_cdf"]}
{"id": "C54", "title": "Phantoms are non-negative sums of ellipsoids", "statement": "phantom is additive over its ellipsoid list (order does not matter) and shepp3d is non-negative everywhere.", "quantifier": "every list of ellipsoids and size", "why_tests_cant": "Universal over parameter lists.", "anchors": ["source/tomopy/misc/phantom.py:phantom", "source/tomopy/misc/phantom.py:_ellipsoid", "source/tomopy/misc/phantom.py:shepp3d"]}
{"id": "C55", "title": "TIFF file names are deterministic and collision free", "statement": "write_tiff appends the extension exactly once, and different digit indices for the same base name give different files.", "quantifier": "every base name, digit and extension", "why_tests_cant": "Universal over strings.", "anchors": ["source/tomopy/util/misc.py:write_tiff"]}
{"id": "C56", "title": "Window normalisation makes the window mean one", "statement": "normalize_roi scales each projection so that the mean over the chosen window becomes 1, leaves it unchanged when that mean is 0, and applying it twice equals applying it once; an empty window gives an all-NaN projection.", "quantifier": "every projection, every window", "why_tests_cant": "Universal over image content and window positions, including windows outside the image.", "anchors": ["source/tomopy/prep/normalize.py:normalize_roi", "source/tomopy/prep/normalize.py:_normalize_roi"]}
{"id": "C57", "title": "normalize_nf accepts both documented averaging modes", "statement": "normalize_nf with averaging 'mean' or 'median' returns a result; any other mode is rejected with ValueError.", "quantifier": "every mode and all data", "why_tests_cant": "The tests only use the default mode.", "anchors": ["source/tomopy/prep/normalize.py:normalize_nf"]}
{"id": "C58", "title": "3D median filter result does not depend on memory layout", "statement": "median_filter3d and remove_outlier3d give the same element values for equal arrays, whether the input is stored in C or Fortran order.", "quantifier": "every memory layout and array content", "why_tests_cant": "The tests only use C-ordered arrays.", "anchors": ["source/tomopy/misc/corr.py:median_filter3d", "source/tomopy/misc/corr.py:remove_outlier3d"]}
{"id": "C59", "title": "Extra inpainting iterations keep smoothing the filled region", "statement": "inpainter_morph with a larger 'iterations' performs that many additional passes over the masked region, as documented ('the larger numbers usually lead to oversmoothing').", "quantifier": "every volume, mask, method and iteration count", "why_tests_cant": "The effect of the argument is never compared between values in the tests.", "anchors": ["source/libtomo/misc/inpainter.c:Inpainter_morph_main", "source/tomopy/misc/corr.py:inpainter_morph"]}
{"id": "C60", "title": "Inpainting window has the documented size", "statement": "The search window used by inpainter_morph is size x size (size^3 in 3D) and every size >= 0 is handled without undefined behaviour.", "quantifier": "every size, image size and pixel", "why_tests_cant": "The window is internal; tests only look at summary statistics.", "anchors": ["source/libtomo/misc/inpainter.c:eucl_weighting_inpainting_2D", "source/tomopy/util/extern/misc.py:c_inpainter", "source/tomopy/misc/corr.py:inpainter_morph"]}
{"id": "C61", "title": "inpainter_morph accepts every non-empty 3D array and checks the mask", "statement": "For a float array with non-empty dimensions, a boolean mask of the same shape and a valid axis, inpainter_morph runs; a mask of another shape is rejected.", "quantifier": "every shape, axis and mask shape", "why_tests_cant": "Singleton dimensions and mismatching masks are not covered by the tests.", "anchors": ["source/tomopy/misc/corr.py:inpainter_morph"]}
{"id": "C62", "title": "Projection uses each slice's own rotation centre", "statement": "project with one centre per slice computes the data of slice s with center[s], whatever ncore and nchunk are.", "quantifier": "every object, centre list, ncore and nchunk", "why_tests_cant": "The result depends on how slices are grouped into chunks; tests use a single centre.", "anchors": ["source/tomopy/sim/project.py:project", "source/libtomo/recon/project.c:project"]}
{"id": "C63", "title": "The ordered-subset assertion never fails", "statement": "The assertions on the subset bounds in osem, bart and ospml hold for every number of projections and blocks, so a debug build runs.", "quantifier": "every number of angles and blocks", "why_tests_cant": "Release builds compile the assertions away, so tests never evaluate them.", "anchors": ["source/libtomo/recon/osem.c:osem", "source/libtomo/recon/bart.c:bart"]}
{"id": "C64", "title": "Invalid ordered-subset arguments are harmless", "statement": "num_block = 0 and an ind_block shorter than the number of projections are rejected or handled without undefined behaviour.", "quantifier": "every number of angles >= 1", "why_tests_cant": "Undefined behaviour in C may pass unnoticed for a given build and input.", "anchors": ["source/libtomo/recon/osem.c:osem", "source/tomopy/recon/algorithm.py:recon"]}
{"id": "C65", "title": "vector2 and vector3 use the angles and centres of each data set", "statement": "vector2 and vector3 reconstruct with theta2/center2 (theta3/center3) for the second (third) data set: a field consistent with every data set in its own geometry is returned unchanged, and changing theta2 or center2 changes the result.", "quantifier": "every geometry, field and iteration count", "why_tests_cant": "There are no tests of the vector functions with different angle lists; the defect is in unused arguments.", "anchors": ["source/tomopy/recon/vector.py:vector2", "source/tomopy/recon/vector.py:vector3", "source/libtomo/recon/vector.c:vector2", "source/libtomo/recon/vector.c:vector3"]}
{"id": "C66", "title": "vector2 and vector3 honour their axis arguments", "statement": "The axis arguments select the components that are updated: a component that none of the given axes sees is never modified.", "quantifier": "every combination of axes", "why_tests_cant": "Only the default axes are exercised.", "anchors": ["source/tomopy/recon/vector.py:vector2", "source/libtomo/recon/vector.c:vector2", "source/libtomo/recon/utils.c:calc_simdata3"]}
{"id": "C67", "title": "vector2 and vector3 stay inside the volumes they are given", "statement": "For every shape of the input data all voxel addresses computed for the three axes are inside the reconstruction volumes, and different voxels have different addresses.", "quantifier": "every number of slices and detector width", "why_tests_cant": "Out-of-bounds accesses depend on shapes and may go unnoticed.", "anchors": ["source/tomopy/recon/vector.py:vector2", "source/libtomo/recon/vector.c:vector2", "source/libtomo/recon/utils.c:calc_simdata3"]}
{"id": "C68", "title": "tv leaves a consistent constant image unchanged", "statement": "recon(algorithm='tv') started from an image that is constant on every slice and whose line integrals equal the data returns that image, for every non-negative regularisation parameter and number of iterations.", "quantifier": "every geometry, data, parameter, iteration count", "why_tests_cant": "A continuum of images and parameters, including the limit parameter 0.", "anchors": ["source/libtomo/recon/tv.c:tv"]}
{"id": "C69", "title": "tv's primal and dual steps fit together", "statement": "In tv the divergence of the backward step is the negative adjoint of the gradient of the forward step, the dual variable is projected onto the ball of radius lambda, and the differences are taken between neighbouring pixels of the grid used by the projector.", "quantifier": "every grid size, image and dual variable", "why_tests_cant": "Index layout matters only for non-square grids, which the tests do not use.", "anchors": ["source/libtomo/recon/tv.c:tv"]}
{"id": "C70", "title": "gridrec reconstructs each slice on its own", "statement": "The image gridrec returns for a slice is a linear function of that slice's sinogram and depends on that slice's centre only; it is the same as when the slice is reconstructed alone, whatever the other slices and however many there are.", "quantifier": "every number of slices, sinogram, list of centres, set of angles, grid size and filter", "why_tests_cant": "Slices are packed two at a time into one complex transform; tests use one slice or one common centre.", "anchors": ["source/libtomo/gridrec/gridrec.c:gridrec", "source/libtomo/gridrec/gridrec.c:set_filter_tables"]}
{"id": "C71", "title": "gridrec's correction undoes the convolution window", "statement": "The window table is the stated Legendre sum, positive and decreasing, and the factor applied to a pixel is the checkerboard sign times the reciprocal of the window at the pixel's distance from the rotation axis, so that opposite pixels get equal factors.", "quantifier": "every detector width, grid size and pixel", "why_tests_cant": "A table shifted by one pixel changes values by a fraction of a percent, below the tolerance of image comparisons.", "anchors": ["source/libtomo/gridrec/gridrec.c:legendre", "source/libtomo/gridrec/gridrec.c:set_pswf_tables", "source/libtomo/gridrec/gridrec.c:gridrec"]}
{"id": "C72", "title": "gridrec filters are low-pass variants of the ramp", "statement": "Every filter_name of the documented list other than none and the custom ones gives values that are zero at frequency zero and between zero and the ramp up to the Nyquist frequency, for every positive cutoff; an unknown filter_name is rejected.", "quantifier": "every filter name, cutoff, order and frequency", "why_tests_cant": "Tests run the default parameters.", "anchors": ["include/libtomo/filters.h:get_filter", "include/libtomo/filters.h:filter_parzen"]}
{"id": "C73", "title": "custom gridrec filters use only the values supplied", "statement": "With filter_name custom or custom2d, gridrec uses exactly the values given in filter_par, element j for frequency j (row p for projection p with custom2d), and reads nothing beyond them.", "quantifier": "every filter_par, detector width and number of projections", "why_tests_cant": "The required length depends on the padded width, which the caller never sees.", "anchors": ["include/libtomo/filters.h:filter_custom", "include/libtomo/filters.h:filter_custom2d", "source/libtomo/gridrec/gridrec.c:set_filter_tables"]}
{"id": "C74", "title": "Ring removal is bounded and leaves flat slices alone", "statement": "remove_ring on a slice never changes a pixel by more than thresh, never changes pixels outside the circle inscribed around the centre, and returns a constant slice unchanged; the result depends on the slices of rec only.", "quantifier": "every slice, centre inside it, thresholds, ring width, angle and mode", "why_tests_cant": "Corrections larger than the threshold would need particular images and parameter combinations to show.", "anchors": ["source/libtomo/misc/remove_ring.c:ring_filter", "source/libtomo/misc/remove_ring.c:remove_ring", "source/tomopy/misc/corr.py:remove_ring"]}
{"id": "C75", "title": "Phase retrieval keeps the mean and constant projections", "statement": "retrieve_phase is linear in each projection and returns a constant projection unchanged; the sum over the filtered frame equals the sum over the frame.", "quantifier": "every projection size, pixel size, distance, energy, alpha > 0, pad setting, number of cores and chunk size", "why_tests_cant": "Tests use one image size; the position of frequency 0 after fftshift depends on the parity of the size.", "anchors": ["source/tomopy/prep/phase.py:retrieve_phase", "source/tomopy/prep/phase.py:_retrieve_phase", "source/tomopy/prep/phase.py:_paganin_filter_factor", "source/tomopy/prep/phase.py:_reciprocal_coord"]}
{"id": "C76", "title": "Far-field intensity belongs to its scan position and conserves energy", "statement": "calc_intensity with mode far returns, for each scan position in the order of the positions, the power spectrum of probe times illuminated region with frequency zero at the middle pixel; its sum is the number of pixels times the sum of the near-field intensity of that position.", "quantifier": "every probe, projection, shift and number of scan positions", "why_tests_cant": "Tests look at one image or compare against stored output produced by the same code.", "anchors": ["source/tomopy/sim/propagate.py:calc_intensity", "source/tomopy/sim/propagate.py:_rect_scan_probe"]}
{"id": "C77", "title": "Transport-of-intensity propagation conserves intensity", "statement": "propagate_tie returns the attenuated intensity for distance 0 and for a constant refractive index, is affine in delta, treats every projection on its own, and leaves the sum over a projection unchanged when the refractive index is flat at the border.", "quantifier": "every stack, pixel size and distance", "why_tests_cant": "A wrong border difference changes few pixels and stays below image tolerances.", "anchors": ["source/tomopy/sim/propagate.py:propagate_tie"]}
{"id": "C78", "title": "Gaussian probe has the stated width and centre", "statement": "probe_gauss is positive, at most max_int, has half of max_int at a distance of fwhm/2 from its centre, and by default is symmetric about the middle of the grid.", "quantifier": "every grid size, width, centre and maximum", "why_tests_cant": "Tests compare one stored image.", "anchors": ["source/tomopy/sim/propagate.py:probe_gauss"]}
{"id": "C79", "title": "Slit corners lie in their quadrants and clipping keeps the inside of the box", "statement": "find_slits_corners_aps_1id returns one corner per quadrant of the image, in image coordinates, at the steepest change of the quadrant's profile, and remove_slits_aps_1id keeps exactly the pixels between the corners reduced by the margins.", "quantifier": "every image size, image, filter size, set of corners and margins", "why_tests_cant": "Index arithmetic on quadrants goes wrong only for images that are not square and boxes close to the border; the tests use one square phantom.", "anchors": ["source/tomopy/prep/alignment.py:find_slits_corners_aps_1id", "source/tomopy/prep/alignment.py:calc_slit_box_aps_1id", "source/tomopy/prep/alignment.py:remove_slits_aps_1id"]}
{"id": "C80", "title": "Distortion correction samples the image at the radial model's positions", "statement": "distortion_correction_proj evaluates every projection, by linear interpolation, at the position the polynomial model gives for each pixel, clipped to the image: the constant polynomial 1 changes nothing, the centre stays, values stay in the range of the image; distortion_correction_sino returns the same numbers as the rows of the corrected projections.", "quantifier": "every image size, centre, list of coefficients, row, number of cores and chunk size", "why_tests_cant": "The sinogram version works on a slab of rows with its own index arithmetic; tests only check that shapes survive.", "anchors": ["source/tomopy/prep/alignment.py:distortion_correction_proj", "source/tomopy/prep/alignment.py:distortion_correction_sino", "source/tomopy/prep/alignment.py:_unwarp_image_backward", "source/tomopy/prep/alignment.py:load_distortion_coefs"]}
{"id": "C81", "title": "Large and dead stripes are repaired and other columns keep their values", "statement": "remove_large_stripe, remove_dead_stripe and remove_stripe_based_interpolation mark outlying columns with their neighbours; an unmarked column is divided by its intensity factor (or unchanged with norm=False), a marked one gets the smoothed sorted values at its own ranks, or lies on the straight line between the nearest kept columns. Sinograms with multiplicative or dead stripes on equal columns are restored exactly, stripe-free ones pass remove_all_stripe unchanged, and every pixel is defined.", "quantifier": "every sinogram, number of angles and columns, threshold, window and drop ratio, and every order of ties", "why_tests_cant": "Tests check a mean or a single stored result; edge columns and tiny sinograms are not covered.", "anchors": ["source/tomopy/prep/stripe.py:_detect_stripe", "source/tomopy/prep/stripe.py:_rs_large", "source/tomopy/prep/stripe.py:_rs_dead", "source/tomopy/prep/stripe.py:_remove_all_stripe", "source/tomopy/prep/stripe.py:_rs_interpolation"]}
{"id": "C82", "title": "Titarenko's method adds the correction that minimises its cost", "statement": "remove_stripe_ti adds to every column of the sinogram a correction minimising the squared differences of the mean profile plus the regularised squared correction (to 1e-14 over the parameter, the iteration ending within as many steps as there are columns), once for first and once for second differences, and returns the root of their product shifted by alpha times the smallest product; with blocks the same holds for every block of angles, and every pixel is defined for alpha at least 1.", "quantifier": "every sinogram with up to a million columns, number of blocks and alpha", "why_tests_cant": "Convergence of the conjugate gradient loop and optimality are statements about all sinograms; leftover angles and degenerate profiles do not occur in the stored example.", "anchors": ["source/tomopy/prep/stripe.py:_remove_stripe_ti", "source/tomopy/prep/stripe.py:_ringMatXvec", "source/tomopy/prep/stripe.py:_ringCGM", "source/tomopy/prep/stripe.py:_get_parameter", "source/tomopy/prep/stripe.py:_ring", "source/tomopy/prep/stripe.py:_ringb"]}
{"id": "C83", "title": "The accelerated SIRT and MLEM compute the same image for every schedule and keep a solution", "statement": "With accelerated=True, recon's sirt and mlem read and write only inside their arrays, give for every number of pool threads and every interleaving the image of the sequential iteration, treat slices independently, keep non-negative images non-negative (mlem), use the rotation centre, change the zero image when there are data, and leave an image whose projections equal the data unchanged.", "quantifier": "all sizes, angles, data, initial images, numbers of iterations and threads, grid and block sizes, and all executions of the thread pool", "why_tests_cant": "Schedules cannot be enumerated by tests, and the accelerated tests only compare with images stored from the same code.", "anchors": ["source/libtomo/accel/cxx/sirt.cc:sirt_cpu", "source/libtomo/accel/cxx/sirt.cc:sirt_cpu_compute_projection", "source/libtomo/accel/cxx/mlem.cc:mlem_cpu", "source/libtomo/accel/utils.hh:cxx_compute_sum_dist", "source/libtomo/accel/utils.hh:cxx_rotate_ip", "source/libtomo/accel/gpu/sirt.cu:cuda_sirt_pixels_kernel", "source/libtomo/accel/gpu/utils.cu:cuda_compute_sum_dist"]}
{"id": "C84", "title": "Options of the accelerated reconstructions select what they name", "statement": "The option device selects the device it names (any case) or whose index it is, and the default device (graphics card if there is one) for anything else; interpolation selects the mode it names and any other text is rejected; a pool size below one is replaced by one that does not oversubscribe the processors; the code of the chosen device is always run; the count of running calls returns to zero. recon_accelerated calls the function given, or that of an installed known package, and raises ValueError otherwise.", "quantifier": "all texts, builds, numbers of devices, thread counts and sequences of calls", "why_tests_cant": "The tests run one build on one machine with three fixed words.", "anchors": ["source/libtomo/accel/common.hh:GetDevice", "source/libtomo/accel/common.hh:CreateThreadPool", "source/libtomo/accel/utils.hh:GetChoice", "source/libtomo/accel/data.hh:Registration", "source/tomopy/recon/acceleration.py:recon_accelerated", "source/tomopy/recon/acceleration.py:_search_implementation"]}
{"id": "C85", "title": "Simulated noise and drift have the documented form and leave the argument alone", "statement": "add_rings multiplies each detector pixel by one sensitivity for all projections; add_drift multiplies each projection by one value of a sinusoid of the given period; add_salt_pepper and add_zingers replace exactly the pixels whose draw is below (at most) the given probability and keep all others; add_gaussian adds std*z+mean with std a twentieth of the maximum by default; add_poisson raises exactly for negative data. The caller's array is unchanged in all cases.", "quantifier": "all arrays, parameters and all outcomes of the random number generator", "why_tests_cant": "Tests see a few random outcomes and do not look at the argument after the call.", "anchors": ["source/tomopy/sim/project.py:add_drift", "source/tomopy/sim/project.py:add_gaussian", "source/tomopy/sim/project.py:add_poisson", "source/tomopy/sim/project.py:add_rings", "source/tomopy/sim/project.py:add_salt_pepper", "source/tomopy/sim/project.py:add_zingers"]}
{"id": "C86", "title": "Projection angles are evenly spaced and include both ends", "statement": "angles(n, a, b) returns n angles in radian, the first a and (n>=2) the last b, with equal steps, increasing if a<b, and raises exactly for negative n; with the default range 0 to 180 the last projection is the mirror image of the first. The magnification of _get_magnification is 1+r2/r1.", "quantifier": "all numbers of angles and all end points, all distances", "why_tests_cant": "Tests compare one stored list of angles.", "anchors": ["source/tomopy/sim/project.py:angles", "source/tomopy/sim/project.py:_get_magnification"]}
{"id": "C87", "title": "Workers of distribute_jobs see the caller's arrays, and conversions copy when asked", "statement": "as_sharedmem returns an array in shared memory with the same type, shape and elements without changing any other array, and is_sharedmem/get_shared_mem recognise it; the input arrays that workers of distribute_jobs rebuild from shared memory have, element by element, the values of the caller's arrays (whatever their strides and types), and an output array is written where the caller has it; as_float32 and similar give the type asked for with converted elements, and copy=True gives an independent copy.", "quantifier": "all shapes of any dimension, strides and offsets (transposed, sliced, reversed views), element types, chains of views, heaps", "why_tests_cant": "Tests pass freshly allocated contiguous arrays of one type.", "anchors": ["source/tomopy/util/dtype.py:as_ndarray", "source/tomopy/util/dtype.py:as_dtype", "source/tomopy/util/dtype.py:as_sharedmem", "source/tomopy/util/dtype.py:is_sharedmem", "source/tomopy/util/dtype.py:get_shared_mem", "source/tomopy/util/dtype.py:to_numpy_array", "source/tomopy/util/dtype.py:empty_shared_array", "source/tomopy/util/mproc.py:distribute_jobs", "source/tomopy/util/mproc.py:_arg_parser"]}
{"id": "C88", "title": "find_center minimises the entropy of the masked reconstruction of the chosen slice", "statement": "The cost used by find_center lies between zero and six bits (64 bins), depends on the grey values only, counts every pixel of the image, is one bit for an image of two equally frequent values; the histogram limits are in order and enclose the first reconstruction; the slice and the starting point are the ones asked for (middle by default), negative indices count from the end, and ratio sets the radius of the mask.", "quantifier": "all images, limits, slices, centres and optimizers", "why_tests_cant": "The test runs one phantom and compares one centre within a pixel.", "anchors": ["source/tomopy/recon/rotation.py:find_center", "source/tomopy/recon/rotation.py:_find_center_cost", "source/tomopy/recon/rotation.py:_adjust_hist_limits", "source/tomopy/recon/rotation.py:_adjust_hist_min", "source/tomopy/recon/rotation.py:_adjust_hist_max"]}
{"id": "C89", "title": "find_center_pc returns the mirror axis of the two projections", "statement": "If the phase correlation returns a shift by which the flipped second projection coincides with the first, the column returned by find_center_pc is a mirror axis: the second projection shows at x what the first shows at 2c-x. This holds without a guess, and with a guess at an integer distance from the middle if the projections stay on the detector when moved by it. Conversely the shift belonging to a mirror axis leads to that axis.", "quantifier": "all projections, widths, guesses and registration results", "why_tests_cant": "The test uses one pair of projections.", "anchors": ["source/tomopy/recon/rotation.py:find_center_pc"]}
{"id": "C90", "title": "mask_empty_slice marks layers without variation", "statement": "mask_empty_slice returns one entry per layer, does not depend on the unit of the data, marks no fewer layers for a larger threshold, none for thresholds up to zero, marks a layer that shows the same value in all columns, judges each layer on its own data, and marks all layers of blank data.", "quantifier": "all 3D data and thresholds", "why_tests_cant": "There is no test of this function.", "anchors": ["source/tomopy/recon/rotation.py:mask_empty_slice"]}
{"id": "C91", "title": "Filtering-based stripe removal corrects only the low-pass part of a column", "statement": "remove_stripe_based_filtering splits each column into the cyclic convolution of its mirror continuation with an even kernel and the rest; every pixel is changed by exactly what sorting does to the low-pass part, at the rank its low-pass value has in its column. Slices without stripes come back unchanged, and a column that is a gain and an offset away from the majority of its neighbours loses the low-pass part of the gain error and the whole offset, for every number of workers.", "quantifier": "all sinograms, sizes, sigmas, dimensions of the window, and schedules", "why_tests_cant": "The tests compare one small array with stored numbers.", "anchors": ["source/tomopy/prep/stripe.py:remove_stripe_based_filtering", "source/tomopy/prep/stripe.py:_rs_filter", "source/tomopy/prep/stripe.py:_create_1d_window", "source/tomopy/prep/stripe.py:_create_listsign", "source/tomopy/prep/stripe.py:_remove_stripe_based_filtering"]}
{"id": "C92", "title": "Fitting-based stripe removal keeps the ratio of pixel and fit", "statement": "remove_stripe_based_fitting passes an odd window and a smaller order to the polynomial fit for every input, returns pixel / fit times the smoothed fit scaled to the mean of the fit, is undefined exactly where a divisor vanishes, commutes with scaling of the data, cancels factors of the columns up to the smoothed fit, and returns constant sinograms unchanged.", "quantifier": "all sinograms, orders, sigmas and schedules", "why_tests_cant": "The tests compare one small array with stored numbers.", "anchors": ["source/tomopy/prep/stripe.py:remove_stripe_based_fitting", "source/tomopy/prep/stripe.py:_rs_fit", "source/tomopy/prep/stripe.py:_2d_filter", "source/tomopy/prep/stripe.py:_create_2d_window", "source/tomopy/prep/stripe.py:_create_matsign"]}
{"id": "C93", "title": "Fourier-wavelet stripe removal returns the shape it was given and removes what is constant along the angles", "statement": "remove_stripe_fw succeeds for every shape and every number of levels, returns slices without stripes unchanged, changes only the details along the detector, damps each column of them frequency by frequency, and removes details that are constant along the angles completely; the default number of levels is the smallest whose power of two reaches every dimension.", "quantifier": "all slices, shapes, levels, sigmas, paddings, schedules and wavelets with perfect reconstruction", "why_tests_cant": "The test compares one small array with stored numbers.", "anchors": ["source/tomopy/prep/stripe.py:remove_stripe_fw", "source/tomopy/prep/stripe.py:_remove_stripe_fw"]}
{"id": "C94", "title": "scale, blur_edges and add_noise compute what they document", "statement": "scale returns floating-point projections inside [-1, 1] that touch plus or minus one, together with the positive factor that restores every pixel; the result is undefined exactly for projections that are zero everywhere, and empty or integer projections raise. blur_edges with low < high multiplies every pixel by a weight between 0 and 1 that depends only on the distance from (dy/2, dz/2), is 1 inside low and 0 outside high times the half diagonal and falls linearly between, and leaves its argument alone. add_noise adds the largest pixel times ratio times a standard normal draw to a new array.", "quantifier": "all projections, sizes, limits, ratios and draws", "why_tests_cant": "No test calls these functions with more than one array.", "anchors": ["source/tomopy/prep/alignment.py:scale", "source/tomopy/prep/alignment.py:blur_edges", "source/tomopy/prep/alignment.py:add_noise"]}
{"id": "C95", "title": "Whole shifts move every pixel exactly, and jitter can be undone", "statement": "For whole shifts shift_images(prj, sx, sy) puts at row r and column c of projection m the pixel at row r+sx[m] and column c+sy[m] or zero, add_jitter does so with the draws it returns, and shift_images applied to the result of add_jitter with the negated draws restores every pixel that jitter kept inside of its image. Lists of shifts that are too short raise IndexError.", "quantifier": "all projections, shifts, draws and interpolations exact for whole translations", "why_tests_cant": "The tests compare one stored array; no test composes the two functions.", "anchors": ["source/tomopy/prep/alignment.py:shift_images", "source/tomopy/prep/alignment.py:add_jitter"]}
{"id": "C96", "title": "align_seq accumulates the registered shifts and invents no data", "statement": "The shifts align_seq returns are the sums of the shifts registered in its iterations; for whole shifts every pixel returned is zero or the padded input moved by the shifts returned; an iteration whose registration is right makes the projection equal to its simulation; aligned projections come back unchanged with zero shifts, for every number of iterations.", "quantifier": "all projections, paddings, iterations, reconstructions, registrations and interpolations exact for whole translations", "why_tests_cant": "The test compares one run of two iterations with stored numbers.", "anchors": ["source/tomopy/prep/alignment.py:align_seq"]}
{"id": "C97", "title": "align_joint returns the aligned projections and does not touch the caller's data", "statement": "align_joint returns the padded projections moved by the shifts it returns, with the error of each iteration, and neither alignment modifies the array it was given.", "quantifier": "all projections, paddings, iterations, reconstructions and registrations", "why_tests_cant": "The test compares one run with stored numbers taken from the code.", "anchors": ["source/tomopy/prep/alignment.py:align_joint", "source/tomopy/prep/alignment.py:align_seq"]}
{"id": "C98", "title": "recon and vector hand their data to C unchanged, whatever its type and memory layout", "statement": "At every index the C functions behind recon and vector see the value (converted to float32) that the caller's array has there, in either order of the axes, for arrays of every element type, stride and memory order and for lists; so do the workers given blocks of slices. The same holds for initial guesses, for angles and centres that are lists or arrays of another type than float32, and for objects given to project that are lists or C-contiguous. An initial guess that is not a C-contiguous float32 array is left as it was; one that is receives the reconstruction.", "quantifier": "all arrays, element types, strides, offsets and blocks of slices", "why_tests_cant": "The tests pass freshly made C-contiguous float32 arrays only.", "anchors": ["source/tomopy/util/dtype.py:as_float32", "source/tomopy/util/dtype.py:as_c_float_p", "source/tomopy/recon/algorithm.py:init_tomo", "source/tomopy/recon/algorithm.py:_init_recon", "source/tomopy/recon/vector.py:vector"]}
{"id": "C99", "title": "Angles, centres and objects may be passed in any memory layout", "statement": "The C functions behind recon, project and vector see the values of the angles, centres and objects passed, and stay inside of their memory, for float32 arrays with any strides and for objects of every type and memory order.", "quantifier": "all arrays, element types and memory layouts", "why_tests_cant": "Views with steps, reversed views and transposed arrays never reach the C code in the tests.", "anchors": ["source/tomopy/util/dtype.py:as_c_float_p", "source/tomopy/sim/project.py:project", "source/tomopy/util/extern/recon.py:c_project", "source/tomopy/recon/algorithm.py:_get_algorithm_args"]}
{"id": "C100", "title": "median_filter and gaussian_filter filter every slice on its own", "statement": "median_filter of a three-dimensional array and gaussian_filter return an array of the same shape whose slices along axis are the filtered slices of the argument, for every interleaving of the threads; median_filter gives the median of the size by size square around each element in its reflected slice. Negative axes count from the end, others out of range raise IndexError.", "quantifier": "all arrays, axes, positive sizes, filters and thread schedules", "why_tests_cant": "The tests compare one small array each and see one schedule.", "anchors": ["source/tomopy/misc/corr.py:gaussian_filter", "source/tomopy/misc/corr.py:median_filter"]}
{"id": "C101", "title": "Slice-wise filters report what they cannot filter", "statement": "If scipy raises for the slices, gaussian_filter, median_filter and sobel_filter raise; sobel_filter filters every array with slices.", "quantifier": "all arrays, axes, sizes and sigmas", "why_tests_cant": "Failures inside the thread pool are invisible to tests, and sobel_filter is never called.", "anchors": ["source/tomopy/misc/corr.py:gaussian_filter", "source/tomopy/misc/corr.py:median_filter", "source/tomopy/misc/corr.py:sobel_filter"]}
{"id": "C102", "title": "remove_outlier1d replaces exactly the outliers of each line", "statement": "remove_outlier1d replaces an element by the median of its line, mirrored at the ends, exactly if the element exceeds that median by at least dif, for arrays of one or more dimensions and every axis.", "quantifier": "all arrays, axes, sizes, thresholds and versions of numpy", "why_tests_cant": "There is no test of remove_outlier1d.", "anchors": ["source/tomopy/misc/corr.py:remove_outlier1d"]}
{"id": "C103", "title": "The GPU filters compute what the CPU functions compute", "statement": "On a GPU that computes medians of the padded squares, median_filter_cuda and remove_outlier_cuda with sizes from 2 to 15 equal median_filter and remove_outlier for every axis; without the GPU package median_filter_cuda equals median_filter for every size and axis.", "quantifier": "all arrays, axes and thresholds, and every GPU implementation that computes medians", "why_tests_cant": "Tests run without the GPU package and without the axis argument.", "anchors": ["source/tomopy/misc/corr.py:median_filter_cuda", "source/tomopy/misc/corr.py:remove_outlier_cuda"]}
{"id": "C104", "title": "The GPU filters fall back on the CPU functions with the same arguments", "statement": "Without the GPU package, or with sizes it does not support, median_filter_cuda(arr, size, axis) equals median_filter(arr, size, axis) and remove_outlier_cuda(arr, dif, size, axis) equals remove_outlier(arr, dif, size, axis).", "quantifier": "all arrays, sizes, axes and thresholds", "why_tests_cant": "Tests never pass axis to these functions.", "anchors": ["source/tomopy/misc/corr.py:median_filter_cuda", "source/tomopy/misc/corr.py:remove_outlier_cuda"]}
{"id": "C105", "title": "Enhanced projections lie in [0, 1] and histogram weights rank the pixels", "statement": "The histogram weight of a pixel is the number of darker pixels plus one over the number of pixels: it lies in (0, 1] and orders the pixels as their values do. Every enhanced projection lies in [0, 1] and reaches 1, unless its median-filtered image is zero, and with at least one worker enhance_projs_aps_1id returns the enhanced images in order; even kernels raise.", "quantifier": "all images, odd kernels and stacks", "why_tests_cant": "The test compares one image with stored numbers.", "anchors": ["source/tomopy/misc/corr.py:enhance_projs_aps_1id", "source/tomopy/misc/corr.py:_enhance_img", "source/tomopy/misc/corr.py:_calc_histequal_wgt"]}
{"id": "C106", "title": "ASTRA reconstructs every slice from its own sinogram and centre", "statement": "recon with algorithm astra reconstructs every slice exactly once from the sinogram, the centre and the initial volume of that slice, on one of the GPUs of gpu_list if proj_type is cuda and there is such a list, and writes nothing else. Without cuda the sinogram given to ASTRA is the one of the slice moved by whole columns, zeros where there are no data, so that the axis is within half a pixel of the middle of the detector; no other whole shift comes closer. An empty gpu_list raises ValueError, and without gpu_list what ASTRA raises is raised.", "quantifier": "all sinograms, numbers of slices, lists of GPUs, and centres up to one detector width to the right of the middle", "why_tests_cant": "The tests of the ASTRA wrappers are skipped where ASTRA is not installed, and use the middle of the detector as centre.", "anchors": ["source/tomopy/recon/wrappers.py:astra", "source/tomopy/recon/wrappers.py:astra_rec"]}
{"id": "C107", "title": "ASTRA gets shifted data for every centre, and failures on GPUs are reported", "statement": "The sinogram given to ASTRA holds zeros wherever the shifted detector has no data, for every centre; and if the reconstruction of a slice fails on a GPU, recon raises.", "quantifier": "all centres, lists of GPUs and failures", "why_tests_cant": "Needs centres far outside of the detector, or failing GPUs.", "anchors": ["source/tomopy/recon/wrappers.py:astra", "source/tomopy/recon/wrappers.py:astra_rec"]}
{"id": "C108", "title": "Options of ASTRA are completed but never overridden, and UFO slices are cropped around their middle", "statement": "Options given by the caller are passed on as they are, missing ones are set to proj_type linear, num_iter 1 and no list of GPUs, and a missing method raises ValueError. Slices returned by UFO are cropped to the width of the detector around their middle, whatever larger size they have; and UFO reconstructs with the centre and the angular step given if these are the same for all slices and angles.", "quantifier": "all options, detector widths and sizes of the image UFO returns", "why_tests_cant": "The tests use one set of options; UFO is not installed in the tests.", "anchors": ["source/tomopy/recon/wrappers.py:astra", "source/tomopy/recon/wrappers.py:_process_data", "source/tomopy/recon/wrappers.py:ufo_fbp", "source/tomopy/recon/wrappers.py:ufo_dfi"]}
{"id": "C109", "title": "UFO reconstructs every slice with its own centre at the given angles, or raises", "statement": "ufo_fbp and ufo_dfi use the centre of each slice and all of the angles, and images too small for the slices raise.", "quantifier": "all centres, angles and sizes of the image UFO returns", "why_tests_cant": "UFO is not installed in the tests.", "anchors": ["source/tomopy/recon/wrappers.py:_process_data", "source/tomopy/recon/wrappers.py:ufo_fbp", "source/tomopy/recon/wrappers.py:ufo_dfi"]}
{"id": "C110", "title": "Opposite views are mirror images", "statement": "In the projections made by project, the view at an angle theta + pi is the view at theta with the detector reversed: pixel d of the one equals pixel dx - 1 - d of the other, in every slice, for emission and transmission data, whatever the angles, number of cores and schedules of the two calls. This holds for the default centre, and for a centre c in the one and dx - c in the other call unless c is within a hundredth of a pixel of a whole number of pixels from (dx - 1)/2.", "quantifier": "all objects, sizes, pairs of angles not immediately beside a coordinate axis, and centres clear of whole pixels", "why_tests_cant": "Compares two complete scans for every object and angle; the tests compare with one stored array.", "anchors": ["source/tomopy/sim/project.py:project", "source/libtomo/recon/project.c:project", "source/libtomo/recon/utils.c:preprocessing", "source/libtomo/recon/utils.c:sort_intersections"]}
{"id": "C111", "title": "Opposite views are mirror images for every rotation centre", "statement": "The view at theta + pi with centre dx - c is the view at theta with centre c and the detector reversed.", "quantifier": "all objects, angles and centres", "why_tests_cant": "Needs a rotation centre a whole number of pixels from (dx - 1)/2 and an object that changes between neighbouring rows.", "anchors": ["source/tomopy/sim/project.py:project", "source/libtomo/recon/project.c:project", "source/libtomo/recon/utils.c:preprocessing"]}
{"id": "C112", "title": "project2 and project3 integrate the field along the rays", "statement": "Element (s, p, d) of the projections of a vector field is the sum over the segments of the ray of length times the component of the field along (-cos theta, -sin theta), taken from components (x, y), (y, z) or (x, z) at the voxel (s, m, k), (k, m, s) or (k, s, m) for axis 0, 1 or 2, also after conversion to transmission data (exp of the negative) and radiograph order. It is linear in the field, and for a constant field equal to that component times the length of the ray in the grid. project2 equals project3 along axis 0. Both raise exactly if pad is not a bool.", "quantifier": "all fields on cubes (for axis 0, on any grid), angles, centres and options", "why_tests_cant": "There are no tests of project2 and project3 with known values; every element and axis needs its own line integral.", "anchors": ["source/tomopy/sim/project.py:project2", "source/tomopy/sim/project.py:project3", "source/libtomo/recon/project.c:project2", "source/libtomo/recon/project.c:project3", "source/libtomo/recon/utils.c:calc_simdata2", "source/libtomo/recon/utils.c:calc_simdata3"]}
{"id": "C113", "title": "Opposite views of a vector field are negated mirror images", "statement": "In the projections made by project2 or project3 the view at theta + pi is minus the view at theta with the detector reversed (default centre).", "quantifier": "all fields on cubes (for axis 0, on any grid) and angles not immediately beside a coordinate axis", "why_tests_cant": "Compares two complete scans for every field and angle.", "anchors": ["source/tomopy/sim/project.py:project2", "source/tomopy/sim/project.py:project3", "source/libtomo/recon/project.c:project2", "source/libtomo/recon/project.c:project3"]}
{"id": "C114", "title": "project2 and project3 project along the axis they are given, or raise", "statement": "The axis argument selects the axis of the tilt series; any value other than 0, 1, 2 raises, and no memory outside of the volumes is read.", "quantifier": "all grids and values of axis", "why_tests_cant": "Needs values of axis outside of the documented range, or volumes that are not cubes.", "anchors": ["source/tomopy/sim/project.py:project2", "source/tomopy/sim/project.py:project3", "source/libtomo/recon/utils.c:calc_simdata3"]}
{"id": "C115", "title": "project2 and project3 project every slice with its own centre", "statement": "If center is an array with one value per slice, slice s is projected with center[s].", "quantifier": "all arrays of centres", "why_tests_cant": "Needs different centres for different slices.", "anchors": ["source/tomopy/sim/project.py:project2", "source/tomopy/sim/project.py:project3", "source/libtomo/recon/project.c:project2", "source/libtomo/recon/project.c:project3"]}
{"id": "C116", "title": "Each parameter of a C function holds the Python value it stands for", "statement": "Whenever one of the wrappers c_... around the reconstruction, projection, sampling, median, inpainting, background and stripe-detection functions reaches its C function, number and types of the arguments are those of the C definition and every C parameter holds the value of the Python argument, keyword or dimension it is named for (integers that fit into an int unchanged). The sizes are those of the data, one slice for a single image, and data of any other number of dimensions raise ValueError; sirt, mlem and both pml run with one block whatever num_block and ind_block say.", "quantifier": "all arguments, keywords, shapes and values, 29 wrappers and 25 C functions", "why_tests_cant": "ctypes checks neither order nor types of the arguments: two exchanged integers or arrays give a result for every input.", "anchors": ["source/tomopy/util/extern/recon.py:c_art", "source/tomopy/util/extern/recon.py:c_sirt", "source/tomopy/util/extern/recon.py:c_project", "source/tomopy/util/extern/recon.py:c_vector3", "source/tomopy/util/extern/accel.py:c_accel_mlem", "source/tomopy/util/extern/gridrec.py:c_gridrec", "source/tomopy/util/extern/misc.py:c_inpainter", "source/tomopy/util/extern/prep.py:c_stripesmask3d", "source/tomopy/util/dtype.py:as_c_int"]}
{"id": "C117", "title": "Integers that do not fit into a C int raise", "statement": "A keyword or size below -2**31 or from 2**31 on raises an exception instead of reaching the C function with another value.", "quantifier": "all integers", "why_tests_cant": "Needs values of more than 31 bits.", "anchors": ["source/tomopy/util/dtype.py:as_c_int", "source/tomopy/util/extern/recon.py:c_art"]}
{"id": "C118", "title": "Down-sampling: the result for every length", "statement": "Down-sampling by 2**level along axis 1 or 2 of an array of any shape returns means of 2**level elements; with r the remainder of the axis length, bins of plane i (axis 1) start i*r rows, bins of line m = i*dy+j (axis 2) m*r elements before their aligned position. All bins are aligned for all data exactly if 2**level divides the length, or no bin fits, or there is only one plane (line) (axis 1: or the planes are empty).", "quantifier": "all shapes, levels and data", "why_tests_cant": "The usual test lengths are powers of two, for which nothing drifts.", "anchors": ["source/tomopy/misc/morph.py:_sample", "source/libtomo/misc/morph.c:downsample"]}
{"id": "C119", "title": "Which overlaps are stitched correctly", "statement": "For rows of dz >= 2 pixels and overlaps 0..dz: sino_360_to_180 with rotation 'left' returns, for all data, a complete row of 2*dz-overlap pixels, copies outside and convex combinations of the two half scans inside the overlap, exactly if overlap is neither 1 nor dz; with rotation 'right' exactly if it is neither 0 nor 1 nor dz.", "quantifier": "all widths, overlaps and data", "why_tests_cant": "A test uses one overlap.", "anchors": ["source/tomopy/misc/morph.py:sino_360_to_180"]}
{"id": "C120", "title": "Which grids gridrec can reconstruct", "statement": "For non-empty data, every array access of gridrec is inside the allocated arrays exactly if both grid sizes are smaller than pdim, the smallest power of two that is at least 16 and the detector width; with the default grid exactly if the detector width is not a power of two from 16 on.", "quantifier": "all sizes, angles, centres and filters", "why_tests_cant": "Reads just beyond an allocation give plausible numbers.", "anchors": ["source/libtomo/gridrec/gridrec.c:gridrec"]}
{"id": "C121", "title": "When automatic chunking keeps all workers busy", "statement": "With automatic chunk size for a non-empty axis, the number of workers k is the smallest of cores, requested cores and slices, the chunk size c the smallest with k*c >= slices, and every worker gets at least one chunk exactly if (k-1)*c < slices.", "quantifier": "all numbers of cores and slices", "why_tests_cant": "An idle worker changes no result.", "anchors": ["source/tomopy/util/mproc.py:get_ncore_nchunk", "source/tomopy/util/mproc.py:distribute_jobs"]}
{"id": "C122", "title": "When adjust_range clamps", "statement": "With dmin <= dmax and a non-empty array, every number returned by adjust_range is in [dmin, dmax] exactly if the array has no NaN or its numbers were in the range before.", "quantifier": "all arrays and bounds", "why_tests_cant": "Test data contain no NaN.", "anchors": ["source/tomopy/misc/corr.py:adjust_range"]}
{"id": "C123", "title": "When background normalisation is defined and flattens a linear row", "statement": "For a non-empty stack, normalize_bg reads outside its array or divides zero by zero exactly if air is 0 or larger than the row, or the row has fewer than two pixels. A linear row with positive air levels becomes all ones exactly if air is 1 or the row is constant.", "quantifier": "all shapes, air widths, rows", "why_tests_cant": "The deviation for air > 1 is small for the usual nearly constant backgrounds.", "anchors": ["source/libtomo/prep/prep.c:normalize_bg", "source/tomopy/prep/normalize.py:normalize_bg"]}
{"id": "C124", "title": "normalize maps an image linearly onto -1 to 1", "statement": "misc.benchmark.normalize(rec) returns a copy of the image whose minimum is -1 and whose maximum is 1; the values between keep their order and relative distances; a constant image becomes -1. Applying it twice or rescaling the image with a positive factor and an offset before changes nothing.", "quantifier": "all non-empty images, float or integer", "why_tests_cant": "An exception of an in-place operation is swallowed for one of the two kinds of arrays.", "anchors": ["source/tomopy/misc/benchmark.py:normalize"]}
{"id": "C125", "title": "trim_border and fill_border cut and add a border", "statement": "trim_border(rec, nimages, drow, dcol) returns the first nimages images without drow rows and dcol columns, split between both sides; fill_border adds a border of defined values; trim_border takes back fill_border; sizes that do not fit raise an exception.", "quantifier": "all stacks and all numbers of images, rows and columns", "why_tests_cant": "The added border is memory that happens to be zero in short tests.", "anchors": ["source/tomopy/misc/benchmark.py:trim_border", "source/tomopy/misc/benchmark.py:fill_border"]}
{"id": "C126", "title": "output_images writes every image once, under the documented name", "statement": "output_images(rec, fpath, format, ncol) puts every image of the stack in exactly one file, in order, ncol images per file, overwrites no file of its own and names them {fpath}_{first}_{last+1}.{format}; an empty stack and ncol = 0 raise.", "quantifier": "all numbers of images and columns, all paths and formats", "why_tests_cant": "Remainders at the end of the stack depend on both numbers.", "anchors": ["source/tomopy/misc/benchmark.py:output_images"]}
{"id": "C127", "title": "trim_sinogram returns the shadow of the circle", "statement": "trim_sinogram(data, center, x, y, diameter) returns for each projection the part of the row that the circle around (x, y) shadows, moved to the beginning of the row and followed by ones.", "quantifier": "all data, centres, circles and numbers of projections", "why_tests_cant": "The kind of exception depends on whether real numbers lie inside an interval in all projections at once.", "anchors": ["source/tomopy/misc/morph.py:trim_sinogram"]}
{"id": "C128", "title": "calc_affine_transform returns an affine map", "statement": "calc_affine_transform(source, target) returns one 3 by 3 matrix for all points, and its last row is 0 0 1.", "quantifier": "all numbers of points and all coordinates", "why_tests_cant": "Collinear points are a set of measure zero.", "anchors": ["source/tomopy/misc/npmath.py:calc_affine_transform"]}
{"id": "C129", "title": "calc_affine_transform fits as well as possible", "statement": "No matrix has a smaller sum of squared distances between the mapped source points and the targets than the one returned; if any matrix maps all source points to their targets, the returned one does; and every affine map is recovered from the images of the points exactly if the points are not all on one line.", "quantifier": "all numbers of points, all coordinates and all affine maps", "why_tests_cant": "Optimality compares with all matrices.", "anchors": ["source/tomopy/misc/npmath.py:calc_affine_transform"]}
{"id": "C130", "title": "The CUDA kernels handle each index once and an iteration equals the CPU formula", "statement": "For every grid and block size and every interleaving of threads, blocks and atomic additions, the pixels, update, atomic-sum and sum_dist kernels of the GPU versions of mlem and sirt handle every row or pixel exactly once and end with the same values. One GPU iteration (update zero before the first addition) turns recon into what one CPU iteration of accelerated mlem computes with the same rotations; for sirt the same formula without the test for rows whose ray sum is zero.", "quantifier": "all sizes, launch configurations, interleavings, data and rotations", "why_tests_cant": "Interleavings of GPU threads cannot be chosen; the tests have no GPU.", "anchors": ["source/libtomo/accel/gpu/mlem.cu:cuda_mlem_pixels_kernel", "source/libtomo/accel/gpu/mlem.cu:cuda_mlem_update_kernel", "source/libtomo/accel/gpu/sirt.cu:cuda_sirt_pixels_kernel", "source/libtomo/accel/gpu/utils.cu:cuda_sum_dist_compute", "source/libtomo/accel/utils.hh:cuda_atomic_sum_kernel"]}
{"id": "C131", "title": "Rotations of several threads go to their own streams", "statement": "Whatever the interleaving of the threads that rotate on the GPU, every rotation is put into the stream of its own thread, no thread throws \"Wrong stream!\", and threads that want to rotate get on.", "quantifier": "all numbers of threads, streams and interleavings", "why_tests_cant": "NPP has one stream per process; the window between the check and the launch is a few instructions.", "anchors": ["source/libtomo/accel/gpu/utils.cu:cuda_rotate_kernel"]}
{"id": "C132", "title": "A GPU iteration uses every projection", "statement": "In every iteration of the GPU versions of mlem and sirt the array update is zero before the first projection is added, so that recon is updated with the contributions of all projections, each once, in whatever order the streams run.", "quantifier": "all numbers of iterations, streams and projections, all orders in which the device runs the streams", "why_tests_cant": "A debug build waits after each memset and cannot show the difference; in a release build the order of two streams is up to the driver.", "anchors": ["source/libtomo/accel/gpu/mlem.cu:mlem_cuda", "source/libtomo/accel/gpu/sirt.cu:sirt_cuda", "source/libtomo/accel/utils.hh:gpu_memset", "source/libtomo/accel/macros.hh:CUDA_CHECK_LAST_STREAM_ERROR"]}
{"id": "C133", "title": "An init_recon of another shape is refused", "statement": "If init_recon does not have the shape (number of slices, num_gridx, num_gridy), recon raises an exception. In no call is anything written outside init_recon, and no slice is left out.", "quantifier": "all shapes of tomo and init_recon, all num_gridx, num_gridy, ncore and nchunk", "why_tests_cant": "The tests pass no init_recon; a write beyond its end usually goes unnoticed.", "anchors": ["source/tomopy/recon/algorithm.py:recon", "source/tomopy/recon/algorithm.py:_init_recon", "source/tomopy/recon/algorithm.py:_dist_recon"]}
{"id": "C134", "title": "nchunk=0 reconstructs slice by slice", "statement": "With nchunk=0 (documented for distribute_jobs as one slice at a time, without the leading dimension) and with every nchunk of at least 1, recon with a C algorithm writes every slice once, to its own place in recon.", "quantifier": "all numbers of slices, grid sizes, cores and chunk sizes", "why_tests_cant": "The tests use the default and nchunk=1 only.", "anchors": ["source/tomopy/recon/algorithm.py:_dist_recon", "source/tomopy/util/mproc.py:get_ncore_slices", "source/tomopy/util/extern/recon.py:c_mlem"]}
{"id": "C135", "title": "normalize followed by minus_log recovers the attenuation", "statement": "If the counts are dark + (flat - dark) exp(-p) and flat - dark is at least 1e-6, then normalize followed by minus_log returns p exactly for every pixel; with a positive cutoff c it returns max(p, -log c). For arbitrary data the result is finite exactly where the counts exceed the dark field, infinite exactly where they are equal, NaN exactly where they are below, and it decreases strictly with the counts.", "quantifier": "all stacks, flat and dark fields, averaging modes and cutoffs", "why_tests_cant": "The tests compare one small array with stored values.", "anchors": ["source/tomopy/prep/normalize.py:normalize", "source/tomopy/prep/normalize.py:minus_log"]}
{"id": "C136", "title": "The accelerated rotations turn about the middle of the slice", "statement": "The rotations used by accelerated mlem and sirt, on CPU and GPU and for int32 and float images, turn a slice by the projection angle plus a quarter turn about the middle of the pixel grid, keep distances, and the backward rotation is the inverse of the forward one.", "quantifier": "all image sizes, angles and points", "why_tests_cant": "The tests compare whole reconstructions with a loose tolerance; a shift of half a pixel passes.", "anchors": ["source/libtomo/accel/utils.hh:opencv_affine_transform", "source/libtomo/accel/gpu/utils.cu:cuda_rotate_kernel", "source/libtomo/accel/cxx/mlem.cc:mlem_cpu_compute_projection", "source/libtomo/accel/gpu/mlem.cu:mlem_gpu_compute_projection"]}
{"id": "C137", "title": "write_center saves one reconstruction per candidate centre", "statement": "For every algorithm listed in its docstring write_center saves, for each candidate centre, slice ind reconstructed with that centre in the file named after it, masked with the given ratio if mask is set.", "quantifier": "all stacks, slice indices, centre ranges with steps above 1/100, algorithms, numbers of cores and schedules", "why_tests_cant": "The test runs one algorithm on one stack and looks at the number of files.", "anchors": ["source/tomopy/recon/rotation.py:write_center", "source/tomopy/recon/algorithm.py:recon", "source/tomopy/misc/corr.py:circ_mask"]}
{"id": "C138", "title": "art converges", "statement": "If the data are the line integrals of some image, then with growing num_iter the result of art converges, pixel by pixel, from every initial image. The limit has these line integrals and is the image nearest to the initial one among all that do; if there is only one, art finds it.", "quantifier": "all grids, angles not strictly within 1/ipi_c of an axis (see C30), data consistent with some image, initial images, slices", "why_tests_cant": "Convergence is a statement about all numbers of iterations; tests run a few.", "anchors": ["source/libtomo/recon/art.c:art", "source/tomopy/recon/algorithm.py:recon"]}
{"id": "C139", "title": "Iterations of mlem never lower the likelihood", "statement": "For positive data and a positive initial image every iteration of mlem raises the Poisson likelihood of each slice or leaves the slice unchanged. A positive image that an iteration leaves unchanged has the greatest likelihood of all positive images.", "quantifier": "all grids, angles, centres, positive data, positive initial images, numbers of iterations", "why_tests_cant": "The likelihood is not computed anywhere; tests compare one image with a stored one.", "anchors": ["source/libtomo/recon/osem.c:osem", "source/tomopy/util/extern/recon.py:c_mlem"]}
{"id": "C140", "title": "sirt converges", "statement": "If the data are the line integrals of some image, then with growing num_iter the result of sirt converges, pixel by pixel, from every initial image, to an image with these line integrals.", "quantifier": "all grids, angles, centres, data consistent with some image, initial images", "why_tests_cant": "Tests run one iteration on one data set.", "anchors": ["source/libtomo/recon/bart.c:bart", "source/tomopy/util/extern/recon.py:c_sirt"]}
{"id": "C141", "title": "pml_quad and pml_hybrid maximise a penalised likelihood", "statement": "For positive data, regularisation and initial image, iterations of pml_quad and pml_hybrid never lower the Poisson likelihood minus a penalty for the differences of neighbouring pixels, and the images they leave unchanged are the best ones in this sense.", "quantifier": "all grids of at least 2 x 2 pixels, geometries, positive data, positive initial images, numbers of iterations", "why_tests_cant": "The objective is not computed anywhere; the weights at the border differ from those inside by a few percent of the penalty.", "anchors": ["source/libtomo/recon/ospml_quad.c:ospml_quad", "source/libtomo/recon/ospml_hybrid.c:ospml_hybrid", "source/tomopy/util/extern/recon.py:c_pml_quad"]}
{"id": "C142", "title": "Size limits of the 32-bit offsets in the C code", "statement": "In a call of the C reconstruction, projection, stripe, background or ring functions every array offset and every buffer size is the intended one if and only if the data and the images of that call have at most 2^31 elements (fewer than 2^31 where a copy is allocated; gridrec and down/upsample have their own limits). recon with automatic splitting stays within the limits exactly if ceil(n/ncore) slices do; beyond them the offsets are negative. The assertion in downsample and upsample does not ensure correct offsets.", "quantifier": "all sizes of data and image, numbers of cores, chunk sizes, all functions and all elements", "why_tests_cant": "Arrays of more than 8 GB per thread are needed to see a wrong offset.", "anchors": ["source/libtomo/recon/art.c:art", "source/libtomo/recon/utils.c:calc_simdata", "source/libtomo/gridrec/gridrec.c:gridrec", "source/libtomo/prep/prep.c:normalize_bg", "source/libtomo/prep/stripe.c:remove_stripe_sf", "source/libtomo/misc/remove_ring.c:remove_ring", "source/libtomo/misc/morph.c:downsample", "source/tomopy/recon/algorithm.py:_dist_recon"]}
{"id": "C143", "title": "The ray tracer stays inside its buffers and the image in float arithmetic", "statement": "With every operation of preprocessing, calc_coords, trim_coords and calc_dist rounded to IEEE single precision (and with any contraction into fused multiply-adds), tracing a ray never writes outside the work buffers of ngridx + ngridy elements and every pixel index is inside the image, for ngridx + ngridy <= 16384 and a ray offset of at most 16384; this covers every ray of a detector of at most 8192 pixels with its centre on the detector. project is safe up to 32768 pixels per axis for every offset. The 0.01 margin that ensures this is lost on larger axes: with 131074 pixels an accepted crossing and the border line give the index 131074.", "quantifier": "all floats sin, cos with absolute value at most 1, all offsets, grid sizes within the bound, all choices of contraction", "why_tests_cant": "An overflow by one element needs a ray that passes a corner within rounding error; no test hits the 2^64 pairs of sin and cos.", "anchors": ["source/libtomo/recon/utils.c:preprocessing", "source/libtomo/recon/utils.c:calc_coords", "source/libtomo/recon/utils.c:trim_coords", "source/libtomo/recon/utils.c:calc_dist"]}
{"id": "C144", "title": "calc_quadrant is right for every float angle except just below zero", "statement": "For every float theta that fmodf(theta, 2*(float)M_PI) can return, calc_quadrant is defined (no conversion leaves int32_t) and returns 1 exactly if theta is 0 or sin(theta) and cos(theta) have the same sign, unless -13212056/2^52 <= theta < 0 (about -2.93e-9), where it returns 1 although the signs differ. So the flag that sort_intersections relies on agrees with the slope exactly for theta >= 0 and theta < -13212056/2^52.", "quantifier": "all floats with absolute value below 2*(float)M_PI, with float, double and int32_t arithmetic as in the code", "why_tests_cant": "The source states a 0.0% error rate from 1M random angles; there are about 2^31 floats in the range and the wrong ones are near zero.", "anchors": ["source/libtomo/recon/utils.c:calc_quadrant", "source/libtomo/recon/art.c:art", "source/libtomo/recon/project.c:project"]}
{"id": "C145", "title": "Projection in float arithmetic: order, sign and accuracy", "statement": "The accumulation of project in IEEE single precision (products rounded or fused) is monotone in the object, gives 0 for a zero object and a non-negative value for a non-negative object, and for a non-negative object and a ray of at most 16383 segments differs from the exact line sum over the same lengths by at most 0.1 % plus 2^-134. It is not additive in the object.", "quantifier": "all objects, all lists of segments with non-negative lengths", "why_tests_cant": "The order property must hold for every rounding of every intermediate sum; the accuracy bound is for the worst case, not for samples.", "anchors": ["source/libtomo/recon/utils.c:calc_simdata", "source/libtomo/recon/project.c:project"]}
{"id": "C146", "title": "OSEM and MLEM in float arithmetic: sign, zeros, infinities and NaN", "statement": "In IEEE single precision (with infinities, NaN, overflow, underflow, and any contraction of the multiply-adds) osem and mlem started from data and an image without negative values never produce a negative value; a pixel that is zero stays zero or becomes NaN; if all pixels crossed by one ray are zero, all of them are NaN after one or more iterations whatever the datum of the ray is. Positive finite data and a positive finite image can still give infinity and then NaN by overflow of the ratio.", "quantifier": "all geometries with non-negative lengths, all non-negative data and images including infinities and NaN, all iteration counts, block counts and permutations", "why_tests_cant": "NaN and overflow depend on every intermediate value of every ray; tests use a few images of ordinary magnitude.", "anchors": ["source/libtomo/recon/osem.c:osem", "source/tomopy/util/extern/recon.py:c_mlem", "source/libtomo/recon/utils.c:calc_simdata"]}
{"id": "C147", "title": "One MLEM iteration in float is within one percent of the exact iteration", "statement": "For pixel values between 2^-20 and 2^20, data that are 0 or in the same range, segment lengths that are 0 or between 2^-20 and 2, and at most 16383 segments per ray and per pixel, one iteration of mlem in IEEE single precision gives at every pixel a finite value that differs from the exact EM update by at most 1 %; no intermediate value overflows or becomes NaN and the two tests against zero are decided as in exact arithmetic.", "quantifier": "all numbers of slices, angles, detector pixels, all geometries, data and images within these ranges, all contractions of the multiply-adds", "why_tests_cant": "The bound is the worst case over all roundings of sums of up to 16383 terms.", "anchors": ["source/libtomo/recon/osem.c:osem", "source/tomopy/util/extern/recon.py:c_mlem"]}
{"id": "C148", "title": "The window buffers sized with powf hold the window", "statement": "The buffer of the four median kernels (median_filter3d, remove_outlier3d) and the weights of inpainter_morph, whose length is (int) powf(width, 2 or 3) in single precision, have room for all values of the window.", "quantifier": "every radius, volume, threshold, and every powf that is exact where the exact power is a float", "why_tests_cant": "The failing sizes start at a width of 257 voxels, where a single test takes hours and the overflow is one element.", "anchors": ["source/libtomo/misc/median_filt3d.c:medianfilter_main_float", "source/libtomo/misc/median_filt3d.c:medfilt3D_float", "source/libtomo/misc/inpainter.c:Inpainter_morph_main"]}
{"id": "C149", "title": "The four median kernels agree", "statement": "Filtering a single slice with the 3D kernel gives the result of the 2D kernel; the uint16 kernels give the same numbers as the float kernels on the converted data; the 2D result is the middle order statistic of the window, kept or replaced according to the threshold; from Python only the 3D kernel is reached, with radius and dimensions from 1 on.", "quantifier": "every image, volume, threshold, position, and radius up to 127", "why_tests_cant": "Agreement of separately written kernels over all inputs; the 2D kernels are not reachable from the tests at all.", "anchors": ["source/libtomo/misc/median_filt3d.c:medfilt2D_float", "source/libtomo/misc/median_filt3d.c:medfilt3D_uint16", "source/libtomo/misc/median_filt3d.c:medfilt2D_uint16", "source/tomopy/misc/corr.py:median_filter3d"]}
{"id": "C150", "title": "Total variation reconstruction converges to the minimiser", "statement": "The results of the algorithm tv converge as num_iter grows, and the limit minimises, on every slice, half the squared difference between the ray sums and the data plus reg_par[0] / r times the total variation of the image, with r = 1 / sqrt(dx * dt / 2).", "quantifier": "every geometry, data, initial image and positive regularisation parameter", "why_tests_cant": "Convergence is a statement about infinitely many iterations and minimality about all images.", "anchors": ["source/libtomo/recon/tv.c:tv", "source/tomopy/recon/algorithm.py:recon"]}
{"id": "C151", "title": "Exactly when grad and tikh converge with a given step, and to what", "statement": "With reg_par[0] > 0 (and reg_par[1] >= 0) the results of grad (tikh) converge for all data and all initial (and reference) images as num_iter grows exactly if reg_par[0] * (r^2 * |A u|^2 + reg_par[1] * |u|^2) < |u|^2 for every non-zero image u of a slice, where A u are the ray sums and r^2 = 2 / (dx * dt); for grad without the term with reg_par[1]. Then the limit minimises |A u - data|^2 + reg_par[1] * |u / r - reg_data|^2 on every slice and is the minimiser nearest to the initial image. The condition holds if reg_par[0] * (r^2 * (longest ray) * (largest total length of all rays in a pixel) + reg_par[1]) < 1 and fails if 2 * reg_par[0] times the mean squared ray length is at least the number of pixels of the slice.", "quantifier": "every geometry, data, initial and reference image, positive step", "why_tests_cant": "Convergence is a statement about infinitely many iterations, minimality about all images and the necessity of the condition about the existence of a diverging input.", "anchors": ["source/libtomo/recon/grad.c:grad", "source/libtomo/recon/tikh.c:tikh", "source/tomopy/recon/algorithm.py:recon"]}
{"id": "C152", "title": "mlem converges to a most likely image", "statement": "With non-negative lengths, positive data and a positive initial image, the results of mlem converge as num_iter grows. The limit is non-negative, its line sum along every ray that hits the image is positive, and no other non-negative image whose line sums along these rays are positive has a larger Poisson log-likelihood sum_q (data_q * log (A u)_q - (A u)_q) on any slice.", "quantifier": "every geometry, positive data and positive initial image", "why_tests_cant": "Convergence is a statement about infinitely many iterations and maximality about all images.", "anchors": ["source/tomopy/util/extern/recon.py:c_mlem", "source/libtomo/recon/osem.c:osem"]}
{"id": "C153", "title": "osem converges to a most likely image", "statement": "With non-negative lengths, positive data and a positive initial image, the results of osem converge as num_iter grows, for every num_block and ind_block, to an image of largest Poisson log-likelihood.", "quantifier": "every geometry, positive data, positive initial image and division into blocks", "why_tests_cant": "Convergence is a statement about infinitely many iterations and maximality about all images.", "anchors": ["source/libtomo/recon/osem.c:osem", "source/tomopy/recon/algorithm.py:recon"]}
{"id": "C154", "title": "Exactly when sirt converges, and to what", "statement": "Let R_q be the sum of squares of the lengths of ray q and s_n the total length of all rays in pixel n. The results of sirt converge for all data and all initial images as num_iter grows exactly if sum_q (A u)_q^2 / R_q < 2 * sum_n s_n * u_n^2 for every image u of every slice with a non-zero right side. Then the limit minimises sum_q ((A u)_q - data_q)^2 / R_q on every slice, also when the data contradict each other; it is the minimiser nearest to the initial image in the norm with the weights s_n, and pixels that no ray hits keep their initial value. The condition holds if every ray that hits the image is shorter than twice its sum of squares, and fails if on some slice the sum of length^2 / R_q is at least twice the (non-zero) total length.", "quantifier": "every geometry, data and initial image", "why_tests_cant": "Convergence is a statement about infinitely many iterations, minimality about all images and the necessity of the condition about the existence of a diverging input.", "anchors": ["source/tomopy/util/extern/recon.py:c_sirt", "source/tomopy/recon/algorithm.py:recon"]}
{"id": "C155", "title": "art converges for all data", "statement": "For every geometry whose rays hit a pixel at most once, all data (also data that contradict each other) and every initial image, the results of art converge geometrically as num_iter grows. The limit is the only image that a further iteration does not change and that differs from the initial image by a combination of the rays. It need not minimise the sum of squared residuals.", "quantifier": "every geometry, data and initial image", "why_tests_cant": "Convergence is a statement about infinitely many iterations and must hold for every geometry and all data.", "anchors": ["source/libtomo/recon/art.c:art", "source/tomopy/recon/algorithm.py:recon"]}
{"id": "C156", "title": "gridrec sees projections, not their order, direction or place on the detector", "statement": "In exact arithmetic the image that gridrec returns for a slice stays the same if (a) the projections are put into another order together with their angles (and their rows of a custom2d filter), (b) any of them are replaced by the view from the opposite side, that is, their angle is increased by pi and the projection is mirrored about the rotation centre, a multiple of half a pixel, and nothing is mirrored off the detector, or (c) all projections and the centre are moved by the same whole number of pixels and nothing leaves the detector.", "quantifier": "every set of angles, sinogram, filter, grid and centre", "why_tests_cant": "The statement compares two runs on arbitrary data; image comparisons have tolerances that hide errors of the phase factors.", "anchors": ["source/libtomo/gridrec/gridrec.c:gridrec", "source/libtomo/gridrec/gridrec.c:set_filter_tables"]}
{"id": "C157", "title": "gridrec ignores constants on detectors of 2^n pixels", "statement": "If the width of the detector is a power of two of at least 16, adding to each projection a constant of its own (for instance an error of the background) does not change what gridrec returns, whatever the filter.", "quantifier": "every sinogram, set of constants, filter, set of angles, centre and grid", "why_tests_cant": "Needs all constants and sinograms; the frequency loop starts at 1, which tests with tolerances do not see.", "anchors": ["source/libtomo/gridrec/gridrec.c:gridrec"]}
{"id": "C158", "title": "gridrec turns the image with the angles", "statement": "Adding pi/2 to all angles turns the image of a square grid by a quarter turn about its rotation axis: the pixel at the position (x, y) relative to the axis becomes the one that was at (y, -x).", "quantifier": "every sinogram, filter, set of angles, centre and square grid", "why_tests_cant": "The statement compares two runs on arbitrary data; the deviation is a fraction of a percent.", "anchors": ["source/libtomo/gridrec/gridrec.c:gridrec", "source/libtomo/gridrec/gridrec.c:set_pswf_tables"]}
{"id": "C159", "title": "The grid size of gridrec only selects the part of the image", "statement": "For grids of up to the padded detector width, a pixel depends on num_gridx and num_gridy only through its position relative to the rotation axis, which is pixel (n + 1) / 2 (rounded down) of a direction with n pixels. In particular the image on n pixels is the middle part of the image on n + 2 k pixels. The axis lies half a pixel behind the middle of the image for even n and a whole pixel behind it for odd n.", "quantifier": "every pair of grid sizes, sinogram, filter, set of angles and centre", "why_tests_cant": "Compares runs with different grid sizes on arbitrary data; tests use one size, and copying goes through two wrapped index ranges.", "anchors": ["source/libtomo/gridrec/gridrec.c:gridrec"]}
{"id": "C160", "title": "bart reconstructs consistent data", "statement": "If the data of all rays are the ray sums of some image, and sirt converges for this geometry, the results of bart with any number of blocks converge to an image with these ray sums as the number of iterations grows.", "quantifier": "every geometry, consistent data, division into blocks and initial image", "why_tests_cant": "Concerns the limit of infinitely many iterations; a finite run only shows a residual that no longer shrinks.", "anchors": ["source/libtomo/recon/bart.c:bart", "source/tomopy/recon/algorithm.py:recon"]}
{"id": "C161", "title": "Linear reconstructions", "statement": "In exact arithmetic project, fbp, art, bart, sirt and gridrec, and grad and tikh with a fixed step, map superpositions to superpositions: for data a d1 + b d2 and initial images a r1 + b r2 (for tikh also reg_data a q1 + b q2) they return a x1 + b x2, where x1 and x2 are the results for the parts, after any number of iterations. osem and mlem are homogeneous: data and initial image multiplied by c != 0 give c times the result.", "quantifier": "every geometry, data, initial images, factors, number of iterations and division into blocks", "why_tests_cant": "Compares three runs on arbitrary inputs, with any real factors; tests compare single images with stored ones.", "anchors": ["source/libtomo/recon/art.c:art", "source/libtomo/recon/bart.c:bart", "source/libtomo/recon/osem.c:osem", "source/libtomo/recon/grad.c:grad", "source/libtomo/recon/tikh.c:tikh", "source/libtomo/recon/fbp.c:fbp", "source/libtomo/recon/project.c:project", "source/libtomo/gridrec/gridrec.c:gridrec"]}
{"id": "C162", "title": "Iterative methods see views, not their order or side", "statement": "In exact arithmetic sirt, fbp, grad and tikh for any data, and mlem for positive data and initial image, return the same image if the projections are put into another order together with their angles. The same holds for bart and osem if ind_block is renumbered accordingly. With the default rotation centre any projection may also be replaced by its mirror image together with the angle increased by pi, unless the angle lies within the tolerance of calc_quadrant beside a coordinate axis.", "quantifier": "every set of angles, data, initial image, permutation, choice of mirrored views, number of iterations and division into blocks", "why_tests_cant": "Quantifies over all permutations and inputs; the loops add up in another order, so that float comparisons need tolerances.", "anchors": ["source/libtomo/recon/bart.c:bart", "source/libtomo/recon/osem.c:osem", "source/libtomo/recon/grad.c:grad", "source/libtomo/recon/tikh.c:tikh", "source/libtomo/recon/fbp.c:fbp", "source/libtomo/recon/utils.c:calc_dist"]}
{"id": "C163", "title": "Exactly when vector converges, and to what", "statement": "In exact arithmetic the results of vector after k iterations are defined and converge, for all data and initial fields, exactly if every pixel is crossed by a ray and the weighted ray sums of every field on a slice (squared, divided by the sum of squares of the lengths of the ray, summed) are smaller than twice its squared norm weighted by the length of all rays in the pixel. Every ray being shorter than twice the sum of squares of its lengths suffices. The limit is the field nearest to the initial one, in the weighted norm, among those with the least weighted residual; for data that are the line integrals of some field it has exactly these line integrals.", "quantifier": "every geometry, data, initial field and angles", "why_tests_cant": "A limit over unboundedly many iterations for all inputs; no test runs vector to convergence.", "anchors": ["source/libtomo/recon/vector.c:vector", "source/libtomo/recon/utils.c:calc_simdata2"]}
{"id": "C164", "title": "Turning or mirroring the object turns or mirrors everything", "statement": "With all angles increased by a right angle, project of the object turned by np.rot90 gives the projections of the object, and fbp, art, bart, sirt, osem, mlem, grad and tikh started from the turned initial image give the turned image; with the signs of all angles changed the same holds for the object mirrored by np.flip. This holds for scans in which no ray meets a corner of the grid. It fails in general: a ray that runs along a grid line is charged to the pixels on one side of it, so a 3 x 3 object with ones in its first column projects to zeros at angle 0 while the turned object projects to a row with the value 3 at a right angle.", "quantifier": "every grid, centre, angles without rays through corners, data, initial image and number of iterations", "why_tests_cant": "Relates two whole runs on different grids for all inputs; sample tests compare single images within tolerances that hide a lost column.", "anchors": ["source/tomopy/sim/project.py:project", "source/libtomo/recon/utils.c:calc_quadrant", "source/libtomo/recon/utils.c:calc_coords", "source/libtomo/recon/utils.c:trim_coords", "source/libtomo/recon/utils.c:sort_intersections", "source/libtomo/recon/utils.c:calc_dist"]}
{"id": "C165", "title": "A projection along an axis is the sum over that axis", "statement": "project with default arguments at angle 0 stores at detector pixel d the sum obj[s, :, d - (dx - oz) / 2], zero outside, so that the row adds up to the total of the slice; at a right angle it stores the sums over the third axis in reverse order. This holds for even widths (or without padding for square objects). It fails for odd widths: the detector is always even, its rays run along the grid lines, and the first line of the object is seen by no detector pixel: ones(1, 3, 3) has a row with total 6.", "quantifier": "every object, width, slice and detector pixel", "why_tests_cant": "An exact identity for all sizes; the tests of project check the shape of the result or one stored array.", "anchors": ["source/tomopy/sim/project.py:project", "source/tomopy/sim/project.py:_round_to_even", "source/libtomo/recon/project.c:project", "source/libtomo/recon/utils.c:trim_coords"]}
{"id": "C166", "title": "The C routines give back the memory they take", "statement": "A call of a C routine (recon/*.c, gridrec, median filter, inpainter, stripe and ring removal) never frees or uses a pointer that is uninitialised or whose block is gone, never touches the blocks of its caller, and has freed every block it allocated when it returns, on every path. This fails for five routines: grad and tikh lose a block of dy floats in each call (lambda), project2 and project3 two blocks of ox + oz + 1 ints (indx, indy), gridrec a block of five floats (work2), so that a long running process exceeds any amount of memory by repeating such a call; all other routines, and these on empty scans, free everything.", "quantifier": "every size of the scan and the grid, number of iterations, subsets, slices and points on the rays, state of the heap, and sequence of calls", "why_tests_cant": "A leak of some bytes does not change any result; tests compare results and stop long before the memory runs out.", "anchors": ["source/libtomo/recon/art.c:art", "source/libtomo/recon/bart.c:bart", "source/libtomo/recon/fbp.c:fbp", "source/libtomo/recon/osem.c:osem", "source/libtomo/recon/ospml_quad.c:ospml_quad", "source/libtomo/recon/ospml_hybrid.c:ospml_hybrid", "source/libtomo/recon/grad.c:grad", "source/libtomo/recon/tikh.c:tikh", "source/libtomo/recon/tv.c:tv", "source/libtomo/recon/vector.c:vector", "source/libtomo/recon/project.c:project2", "source/libtomo/recon/project.c:project3", "source/libtomo/recon/utils.c:calc_dist", "source/libtomo/gridrec/gridrec.c:gridrec", "source/libtomo/misc/inpainter.c:Inpainter_morph_main", "source/libtomo/misc/median_filt3d.c:medianfilter_main_float", "source/libtomo/misc/remove_ring.c:remove_ring", "source/libtomo/prep/stripe.c:remove_stripe_sf", "source/libtomo/prep/stripes_detect3d.c:stripesdetect3d_main_float"]}
{"id": "C167", "title": "The unit of the data does not matter", "statement": "recon of data and initial image multiplied by a constant c > 0 is c times recon of the original ones, with the same reg_par, for art, bart, sirt, fbp, osem, mlem, grad and tikh (with given and with automatic steps, reg_data multiplied as well), ospml_quad, ospml_hybrid, pml_quad, pml_hybrid and tv. This fails for the last five: there the regularisation has to be given in the unit of the data, i.e. reg_par has to be multiplied by c for tv, divided by c for the quadratic penalty, and changed to (reg_par[0] / c, c * reg_par[1]) for the hybrid one, and then the equation holds exactly. After at least one iteration of mlem the scale of the initial image matters only in pixels that no ray crosses, so that there the result scales with the data even if the initial image is kept; for osem this holds if the first subset crosses every pixel and fails otherwise.", "quantifier": "all data, images, constants, geometries (any lists of segments), sizes, numbers of iterations and subsets", "why_tests_cant": "Tests use one data set in one unit. Thresholds and default parameters that depend on the unit give plausible images in one unit and different ones in another.", "anchors": ["source/tomopy/recon/algorithm.py:recon", "source/libtomo/recon/grad.c:grad", "source/libtomo/recon/tikh.c:tikh", "source/libtomo/recon/osem.c:osem", "source/libtomo/recon/ospml_quad.c:ospml_quad", "source/libtomo/recon/ospml_hybrid.c:ospml_hybrid", "source/libtomo/recon/tv.c:tv", "source/libtomo/recon/art.c:art", "source/libtomo/recon/bart.c:bart", "source/libtomo/recon/fbp.c:fbp"]}
{"id": "C168", "title": "The median filters do not depend on the C library", "statement": "median_filter3d and remove_outlier3d (float32 and uint16) return the same for every C library, i.e. for every qsort that does what the C standard demands, however it sorts. The comparison function of uint16 is a total ordering of every window. That of floats (also used by the stripe detection and the inpainting) is one exactly if the window holds no NaN or all its numbers are equal; so for float data without NaN the statement holds. With NaN it fails: two conforming sorts (insertion, merge) return NaN and a number for the same window with one NaN, and every window of 2m+1 values with a NaN and more than m numbers has two arrangements that are ascending for each pair of neighbours, one with NaN in the middle and one with a number. A NaN pixel itself is never replaced by remove_outlier3d.", "quantifier": "all data, sizes, radii, thresholds and all sorting functions that sort arrays ordered consistently", "why_tests_cant": "Tests run with one C library, and without NaN; a different result with another library, or on another version of it, does not show.", "anchors": ["source/tomopy/misc/corr.py:median_filter3d", "source/tomopy/misc/corr.py:remove_outlier3d", "source/libtomo/misc/median_filt3d.c:floatcomp", "source/libtomo/misc/median_filt3d.c:uint16comp", "source/libtomo/prep/stripes_detect3d.c:floatcomp", "source/libtomo/misc/inpainter.c:floatcomp1"]}
{"id": "C169", "title": "Angles and centres of another number than the data are refused", "statement": "recon, project, project2, project3, vector, vector2 and vector3 read only inside the arrays of angles, centres and data they are given; arrays of another length than the data are refused. This holds for recon: it accepts exactly one angle per view together with no centre, one centre or one centre per slice, raises ValueError otherwise, and an accepted call reads inside its arrays, whatever the method, the subsets and the distribution over workers. It fails for the others. The vector methods check nothing and read inside exactly if the angles and centres suffice for the first data set and every other data set reaches to its last ray that crosses the grid. project reads inside exactly if every block of slices begins before the end of the centres, project2 and project3 if there is a centre.", "quantifier": "all numbers of slices, views, columns, iterations, angles, centres and data sets, all methods, subsets and distributions over workers", "why_tests_cant": "Reading behind the end of an array mostly returns some number, so a test with too few angles may pass or fail by chance; tests use matching lengths.", "anchors": ["source/tomopy/recon/algorithm.py:recon", "source/tomopy/sim/project.py:get_center", "source/tomopy/sim/project.py:project", "source/tomopy/recon/vector.py:vector", "source/tomopy/recon/vector.py:vector2", "source/tomopy/recon/vector.py:vector3", "source/libtomo/recon/vector.c:vector2", "source/libtomo/recon/art.c:art", "source/libtomo/recon/project.c:project"]}
{"id": "C170", "title": "A slice is reconstructed as if it were alone", "statement": "recon with any of the C methods gives every slice the image that a call for this slice alone would give (its sinogram, its centre, its initial image), whatever the number of slices, the number of workers and the chunk size; the other slices are without influence. This holds for bart, sirt, fbp, tv (positive weight), for osem and mlem with positive data and initial images, and for osem, mlem, grad, ospml_hybrid, ospml_quad, pml_hybrid and pml_quad (grid of at least 2 x 2) whenever every slice has a real result. It fails for art unless all centres are equal (C08), and for tikh unless all slices of reg_data are equal: reg_data is handed whole to every worker, each of which uses its first slices, so the result depends on ncore and nchunk. The default reg_data is large enough exactly if its dy*dx*dx numbers suffice for the grid of a block.", "quantifier": "all data, angles, centres, grids, numbers of iterations and blocks, all distributions over workers and interleavings", "why_tests_cant": "A test compares a few worker counts on one data set; a block-local index that is off in one routine shows only when a worker gets a block that does not begin at slice 0 and slices differ.", "anchors": ["source/tomopy/recon/algorithm.py:_dist_recon", "source/tomopy/util/extern/recon.py:c_tikh", "source/libtomo/recon/osem.c:osem", "source/libtomo/recon/bart.c:bart", "source/tomopy/util/extern/recon.py:c_sirt", "source/tomopy/util/extern/recon.py:c_mlem", "source/libtomo/recon/art.c:art", "source/libtomo/recon/fbp.c:fbp", "source/libtomo/recon/grad.c:grad", "source/libtomo/recon/tikh.c:tikh", "source/libtomo/recon/tv.c:tv", "source/libtomo/recon/ospml_hybrid.c:ospml_hybrid"]}
{"id": "C171", "title": "Reconstructing the projections of an object gives back the object", "statement": "sim = project(obj, theta, center, ...), then minus_log if the data are transmission data, then recon(data, theta, center, algorithm='art' or 'mlem') on the grid of the object: with growing num_iter the result converges to the object, for every object, angles not too near to an axis, pad, data order, number of workers and interleaving. This is false as it stands: the views along the two axes do not determine an object of 2 x 2 pixels, and from the image 0 art stays at 0 although the object is not 0. True is: the results of art converge to images with the projections of the object, and of all such images to those nearest to init_recon; if only the object has its projections (for example an object one pixel thick seen at angle 0), they converge to the object. The results of mlem from positive images converge to images without negative pixels with the projections of the object, if the object has no negative pixels and every ray that crosses the grid has a positive integral.", "quantifier": "all objects, numbers of slices and views, detector widths, initial images, distributions over workers of both calls; default centre or one centre for all slices", "why_tests_cant": "A test runs a fixed number of iterations on a phantom and looks at an error norm; it cannot show convergence, nor for which objects the limit is the object, and a mismatch of geometry between project and recon shows as blur that a loose tolerance accepts.", "anchors": ["source/tomopy/sim/project.py:project", "source/tomopy/prep/normalize.py:minus_log", "source/tomopy/recon/algorithm.py:recon", "source/libtomo/recon/project.c:project", "source/libtomo/recon/art.c:art", "source/libtomo/recon/osem.c:osem", "source/tomopy/util/extern/recon.py:c_mlem"]}
{"id": "C172", "title": "Stripe removal treats every sinogram as if it were alone", "statement": "remove_stripe_fw, remove_stripe_ti, remove_stripe_sf, remove_stripe_based_sorting, remove_stripe_based_filtering, remove_stripe_based_fitting, remove_large_stripe, remove_dead_stripe, remove_all_stripe and remove_stripe_based_interpolation: sinogram s of the result for an array is the result for the array that has only this sinogram, for all arguments, ncore, nchunk and schedules of both calls, so that an array can be filtered in parts; the call raises exactly if one of its sinograms raises alone, and then its exception. This is false as it stands: the default number of levels of remove_stripe_fw is taken from the largest dimension of the array including the number of sinograms, and five equal sinograms of three angles and two columns are filtered otherwise than one of them (wname='db2'). It is true with level given, and by default up to as many sinograms as the power of two next to the numbers of angles and columns. nchunk=0, which distribute_jobs documents, makes every one of these functions raise.", "quantifier": "all arrays with at least one angle and one column, all arguments, numbers of cores, chunk sizes, schedules; all wavelets for the positive part", "why_tests_cant": "Tests filter one small array and compare it with a stored array; whether a sinogram is filtered in the same way within another array, with other cores and chunks, is not compared, and the number of levels changes only when there are more sinograms than angles and columns.", "anchors": ["source/tomopy/prep/stripe.py:remove_stripe_fw", "source/tomopy/prep/stripe.py:remove_stripe_ti", "source/tomopy/prep/stripe.py:remove_stripe_sf", "source/tomopy/prep/stripe.py:remove_stripe_based_sorting", "source/tomopy/prep/stripe.py:remove_stripe_based_filtering", "source/tomopy/prep/stripe.py:remove_stripe_based_fitting", "source/tomopy/prep/stripe.py:remove_large_stripe", "source/tomopy/prep/stripe.py:remove_dead_stripe", "source/tomopy/prep/stripe.py:remove_all_stripe", "source/tomopy/prep/stripe.py:remove_stripe_based_interpolation", "source/tomopy/util/mproc.py:distribute_jobs"]}
{"id": "C173", "title": "Zeros around an object do not change its projections", "statement": "For an object and numpy.pad(object, ((0,0),(p,p),(q,q))), project with the default centre gives the same projections: the detector of the padded object is 2k pixels wider and its pixel d+k holds the value of pixel d, for all p, q, angles, pad, emission, sinogram_order, ncore and nchunk. This is false as it stands: crossings of the ray with grid lines within 1/100 of the border of the grid are dropped, so that at angle 0 with default arguments an object with an odd last dimension loses its line object[s,:,0], which is seen when there are zeros around it; a single pixel of value 1 has the projection 0. It is true when no ray meets a grid line of the object within 1/100 of the end of that line. The projections are then also those of the padded object for a reconstruction on a larger grid, and art converges there to the image with these projections that is nearest to the initial one.", "quantifier": "all objects, paddings, widths and angles that are multiples of a right angle or at least 3e-9 away from them, under the stated condition on the rays", "why_tests_cant": "Tests project one phantom that is zero near its border; whether the size of the array around an object has an influence is not compared, and only rays within 1/100 of the border show the difference.", "anchors": ["source/tomopy/sim/project.py:project", "source/libtomo/recon/project.c:project", "source/libtomo/recon/utils.c:trim_coords", "source/libtomo/recon/utils.c:calc_dist", "source/libtomo/recon/art.c:art", "source/tomopy/recon/algorithm.py:recon"]}
{"id": "C174", "title": "normalize_bg and normalize_roi correct every projection as if it were alone", "statement": "What normalize_bg(tomo, air, ncore, nchunk) and normalize_roi(arr, roi, ncore) return for projection s is what they return for the array that has only this projection, for all numbers of projections, cores and chunk sizes and all schedules of the workers of both calls. normalize_bg divides every pixel by the line through the two air levels of its own row, for 1 <= air <= width and width >= 2; it raises ValueError for nchunk=0 and ZeroDivisionError if there are no projections or cores to divide, and nothing else. normalize_roi never raises for a window with bounds that are not negative: a projection becomes NaN if the window has no pixels, is left alone if the sum of its window is 0, and is divided by the mean of its window otherwise.", "quantifier": "all arrays, ncore, nchunk, schedules, windows and 1 <= air <= width", "why_tests_cant": "Tests call both functions on one stored array with the default number of cores; the block that a worker gets is one projection or all of them, and the layout of larger blocks in memory is not seen.", "anchors": ["source/tomopy/prep/normalize.py:normalize_bg", "source/tomopy/prep/normalize.py:normalize_roi", "source/tomopy/prep/normalize.py:_normalize_roi", "source/tomopy/util/extern/prep.py:c_normalize_bg", "source/libtomo/prep/prep.c:normalize_bg", "source/tomopy/util/mproc.py:distribute_jobs"]}
{"id": "C175", "title": "Iterations can be continued with init_recon", "statement": "A series of calls recon(tomo, theta, center, algorithm=A, init_recon=result of the call before, num_iter=k_j, ...) with the same data and other arguments gives the same volume as one call with num_iter = k_1 + k_2 + ..., for every iterative algorithm A, whatever ncore, nchunk, number of processors, thread limit and schedule of each call. All calls work in the array given first; the data and the centres are left alone.", "quantifier": "all series of calls, algorithms, data, initial images, numbers of iterations, cores and chunks, schedules", "why_tests_cant": "Each test runs one call with one number of iterations from the default image and compares with a stored volume; no test gives init_recon.", "anchors": ["source/tomopy/recon/algorithm.py:recon", "source/tomopy/recon/algorithm.py:_init_recon", "source/tomopy/recon/algorithm.py:_dist_recon", "source/libtomo/recon/art.c:art", "source/libtomo/recon/bart.c:bart", "source/libtomo/recon/osem.c:osem", "source/libtomo/recon/ospml_quad.c:ospml_quad", "source/libtomo/recon/ospml_hybrid.c:ospml_hybrid", "source/libtomo/recon/grad.c:grad", "source/libtomo/recon/tikh.c:tikh", "source/libtomo/recon/tv.c:tv"]}
{"id": "C176", "title": "ufo_fbp and ufo_dfi return or raise", "statement": "A call of recon with algorithm=ufo_fbp or ufo_dfi returns with every slice written from its own sinogram, or raises; it never waits for ever, however the thread that hands over sinograms and the UFO scheduler are interleaved and whatever num_gridx and num_gridy are.", "quantifier": "all numbers of slices, grids, detector widths, images and interleavings of the two threads", "why_tests_cant": "UFO is not installed in the tests; a test that hangs is not a failing test, and no test uses another grid with these functions.", "anchors": ["source/tomopy/recon/wrappers.py:_process_data", "source/tomopy/recon/wrappers.py:ufo_fbp", "source/tomopy/recon/wrappers.py:ufo_dfi"]}
{"id": "C177", "title": "remove_ring filters every slice or raises", "statement": "A call of remove_ring either passes every argument to the C function unchanged and filters all slices, or raises. It does not return slices that were not filtered.", "quantifier": "all arrays, Python values for the arguments, numbers of cores and chunk sizes", "why_tests_cant": "Tests call remove_ring with its default arguments; exceptions in the tasks of the pool stay in futures nobody asks for, so a test sees a returned array.", "anchors": ["source/tomopy/misc/corr.py:remove_ring", "source/tomopy/util/extern/misc.py:c_remove_ring", "source/libtomo/misc/remove_ring.c:remove_ring"]}
{"id": "C178", "title": "Normalising detector counts in float arithmetic", "statement": "For integer counts up to M <= 2**24, normalize in float32 arithmetic returns finite numbers (never inf or NaN, also for dead pixels), a larger raw count never gives a smaller result, the averaged dark maps to 0 exactly and the averaged flat, if at least 1e-6 above it, to 1 exactly, a cutoff caps the result, and the result is within (1 + |q|) M / 2**21 / (f - d) of the exact q = (a - d) / (f - d) if M >= 8, f - d >= M / 2**21 and the flat and the dark frames of the pixel each sum to 2**24 at most; with one flat and one dark below it, it is the correctly rounded quotient.", "quantifier": "all counts, averages, numbers of frames with that bound and orders of addition", "why_tests_cant": "Tests compare a few random arrays with a tolerance; dead pixels, other frame counts and the rounding of each operation are not looked at.", "anchors": ["source/tomopy/prep/normalize.py:normalize"]}
{"id": "C179", "title": "Equal flat or dark frames average to that frame", "statement": "The average normalize forms of n equal frames of 16-bit counts is that frame.", "quantifier": "all counts, numbers of frames and orders of addition", "why_tests_cant": "Tests use a handful of frames, where the float32 sum is exact.", "anchors": ["source/tomopy/prep/normalize.py:normalize"]}
{"id": "C180", "title": "Iterating on its own projections keeps the image, bit for bit", "statement": "If the data are what project returned for an image, then art, bart, sirt, osem and mlem started from that image return exactly that image after any number of iterations, although every operation is rounded.", "quantifier": "all images of floats, geometries with one centre, numbers of iterations and of subsets, roundings with fused or separate multiply-adds; project and the method must be compiled from the same calc_simdata, the projections must be finite, and for osem and mlem not zero where the ray has length", "why_tests_cant": "Tests reconstruct once from noise-free data and compare with a tolerance; that the rounding of the residual cancels exactly in every loop cannot be sampled.", "anchors": ["source/libtomo/recon/project.c:project", "source/libtomo/recon/art.c:art", "source/libtomo/recon/bart.c:bart", "source/libtomo/recon/osem.c:osem", "source/libtomo/recon/utils.c:calc_simdata"]}
{"id": "C181", "title": "The back-projection in float arithmetic", "statement": "fbp adds the data of the rays through a pixel in an order fixed by the geometry; in float arithmetic the result is finite and within 0.1 % of the exact back-projection of the absolute values plus 2**-134, larger data never give a smaller pixel, data that are not negative give pixels that are not negative (inf at worst, never NaN), and a pixel no ray crosses keeps its value.", "quantifier": "all data, geometries and sizes with at most 16383 segments in a pixel and sums up to 2**100; sign and unseen pixels without these limits", "why_tests_cant": "Tests compare one reconstruction with a stored one.", "anchors": ["source/libtomo/recon/fbp.c:fbp"]}
{"id": "C182", "title": "Bit for bit, a slice is reconstructed as if it were alone", "statement": "In float arithmetic fbp, bart, sirt, osem and mlem give in every slice exactly the bits a call on that slice alone gives, art and project do so if all slices have one centre; so NaN, inf or any other values in other slices of the data or the start do not change a slice, and the result of any chunk of slices is those slices of the result for all.", "quantifier": "all data and starts (NaN and infinities included), geometries, sizes, numbers of iterations and subsets, chunks, fused or separate multiply-adds", "why_tests_cant": "A test can compare one split of clean data with a tolerance; NaN, infinities, rounding and every way of chunking cannot be enumerated.", "anchors": ["source/libtomo/recon/fbp.c:fbp", "source/libtomo/recon/art.c:art", "source/libtomo/recon/bart.c:bart", "source/libtomo/recon/osem.c:osem", "source/libtomo/recon/project.c:project", "source/tomopy/recon/algorithm.py:_dist_recon"]}
{"id": "C183", "title": "The segments of the ray tracer in float arithmetic", "statement": "In float arithmetic, every ray of a reconstruction gives fewer segments than the image has grid lines, each with the index of a pixel of the image and a length that is finite, not negative, at most 2^15 and within 2^-21 (relatively) of the distance of its two crossing points; so fbp of data that are not negative is not negative and never NaN, and chunks of slices are reconstructed bit for bit as in one call, with no assumption on the segments.", "quantifier": "all images with rx + rz <= 2^14, detectors up to 2^13 pixels, centres on the detector, angles, quadrant flags, and every choice of fused or separate multiply-adds", "why_tests_cant": "A test traces some rays at some angles; a NaN length or an index outside the image may need one angle in millions.", "anchors": ["source/libtomo/recon/utils.c:calc_dist", "source/libtomo/recon/utils.c:trim_coords", "source/libtomo/recon/utils.c:sort_intersections", "source/libtomo/recon/fbp.c:fbp"]}
{"id": "C184", "title": "The memory a call holds at its worst moment", "statement": "At no moment does a C routine hold more heap than a stated number of bytes, a function of the sizes of its arrays only: the number of iterations and of subsets does not occur in it. Up to the scratch for one ray, that number is also needed by every call that does something. Calls of a solver on chunks of the slices hold together what one call on all the slices would, plus a fixed part for each worker. In a process that made other calls before, only what those leaked (C166) comes on top.", "quantifier": "all routines of libtomo with a heap discipline (the CPU solvers, the projectors, gridrec, the filters), sizes, numbers of iterations, subsets and rays, prior calls, and every moment of a call", "why_tests_cant": "Whether a run of several days on a large scan exceeds the memory of the machine shows only in that run; a block taken once per iteration and given back at the end passes every small test.", "anchors": ["source/libtomo/recon/art.c:art", "source/libtomo/recon/osem.c:osem", "source/libtomo/recon/ospml_quad.c:ospml_quad", "source/libtomo/recon/utils.c:calc_dist", "source/libtomo/gridrec/gridrec.c:gridrec", "source/libtomo/misc/remove_ring.c:remove_ring", "source/tomopy/recon/algorithm.py:_dist_recon"]}
{"id": "C185", "title": "Negated data and other units, in float arithmetic", "statement": "In float arithmetic, project of the negated object is the negated projection, and fbp, art, bart and sirt of negated data from the negated start image give the negated reconstruction, bit for bit, also where values overflow or are NaN. project of an object and fbp of data that are not negative, multiplied by a power of two, give the result multiplied by it exactly, as long as no product underflows and neither result is infinite. This is not so for other factors, and osem and mlem are not symmetric in this way when a projection of the image underflows to zero.", "quantifier": "all sizes, geometries, data, start images (finite or not), numbers of iterations and subsets, powers of two, and every choice of fused or separate multiply-adds", "why_tests_cant": "A test compares a few arrays up to a tolerance; equality of every bit for every array, and where it fails, needs a proof about rounding.", "anchors": ["source/libtomo/recon/art.c:art", "source/libtomo/recon/bart.c:bart", "source/libtomo/recon/fbp.c:fbp", "source/libtomo/recon/project.c:project", "source/libtomo/recon/osem.c:osem", "source/libtomo/recon/utils.c:calc_simdata"]}
{"id": "C186", "title": "Binning in float arithmetic", "statement": "downsample(arr, level, axis) of a float32 array gives each output entry as the running float sum of its 2^level input entries, each divided by 2^level, in the order of the axis. Integers of 16 bits are averaged without any rounding error up to level 8; in general the result is within 2^level / 2^22 of the exact mean relative to the mean of the absolute values, and at level 1 it is the exact mean rounded once. downsample(upsample(arr)) is arr bit for bit; this holds at levels 1 and 2 for all values in the normal range. It fails at every level from 3 to 23: there are values x for which every entry of a constant array comes back smaller than x, so the mean of equal values is below all of them.", "quantifier": "all shapes, axes 0, 1 and 2, levels up to 31, and all float values (finite values in the normal range after the division)", "why_tests_cant": "The tests compare a few means up to a tolerance; that no rounding occurs for every array of counts, and at which levels equal values change, is a statement about all floats.", "anchors": ["source/libtomo/misc/morph.c:downsample", "source/libtomo/misc/morph.c:upsample", "source/tomopy/misc/morph.py:downsample", "source/tomopy/misc/morph.py:upsample", "source/tomopy/misc/morph.py:_sample"]}
{"id": "C187", "title": "Flat data in float arithmetic: remove_stripe_sf and normalize_bg", "statement": "remove_stripe_sf leaves a sinogram of equal values as it is and normalize_bg turns a row of equal positive values into ones, bit for bit. In float arithmetic both hold for all values exactly if the window size, or the number of air pixels, is 1, 2 or 4; with any other number (the default window size 5 among them) some values come out different. In all cases remove_stripe_sf keeps a flat sinogram flat and moves its value by at most (4 size + 8) / 2^24; with size 1 it changes nothing at all. normalize_bg gives exactly one for constant counts with air * count up to 2^24. With air = 1 it sets the left boundary to exactly one and the right boundary to one up to 8 (1 + left/right) / 2^24; it does not set the right boundary to exactly one, and makes it infinite for a row with 60000 on the left and 1/1024 on the right.", "quantifier": "all shapes with rows up to 2^24 pixels, window sizes and numbers of air pixels up to 2^23, all values between 2^-60 and 2^60 in size, with and without a fused multiply-add", "why_tests_cant": "The tests compare one small array up to a tolerance; for which sizes a mean of equal floats is exact is a statement about all floats and all sizes.", "anchors": ["source/libtomo/prep/stripe.c:remove_stripe_sf", "source/libtomo/prep/prep.c:normalize_bg", "source/tomopy/prep/stripe.py:remove_stripe_sf", "source/tomopy/prep/normalize.py:normalize_bg"]}
{"id": "C188", "title": "Projections without padding", "statement": "project with pad=False returns projections as wide as the second axis of the object, which are the middle pixels of the projections with pad=True, and whose views along an axis add up to the total of the slice. The width is obj.shape[1] in all cases, whatever the third axis; values of pad other than the constants True and False raise. The projections are the middle of the padded ones for all objects and angles exactly if obj.shape[1] is even. The view at a right angle always is complete; the view at angle 0 is complete for all objects exactly if the third axis is not longer than the second and differs from it by an even number. Otherwise the first column of the object is not seen.", "quantifier": "all objects, sizes, angles, numbers of cores and schedules, default centre", "why_tests_cant": "The tests of project use padded square objects or check the shape; the statement is about all sizes and all objects.", "anchors": ["source/tomopy/sim/project.py:project", "source/tomopy/sim/project.py:_round_to_even", "source/tomopy/sim/project.py:get_center", "source/libtomo/recon/project.c:project"]}
{"id": "C189", "title": "Phase retrieval of turned and mirrored projections", "statement": "retrieve_phase commutes with turning projections by 180 degrees and with mirroring them left to right. Turning holds for all projections of even size, all parameters and schedules. Mirroring is false: the response to a single bright pixel away from the border is never symmetric; one row below the pixel the left neighbour gets strictly more than the right one.", "quantifier": "all projections, even sizes, pixel sizes, distances, energies, alpha > 0, numbers of cores and schedules", "why_tests_cant": "A test compares with stored output and would have to look for a symmetry; the asymmetry is small and present for all parameters.", "anchors": ["source/tomopy/prep/phase.py:retrieve_phase", "source/tomopy/prep/phase.py:_retrieve_phase", "source/tomopy/prep/phase.py:_reciprocal_coord", "source/tomopy/prep/phase.py:_paganin_filter_factor"]}
{"id": "C190", "title": "Phase retrieval amplifies nothing and loses nothing", "statement": "The sum of squares of the difference of two results of retrieve_phase is at most that of the difference of the padded projections, so noise is never amplified; and two padded projections with the same filtered frame are equal. The gains are positive and at most 1 for all sizes, even and odd.", "quantifier": "all projections, parameters, numbers of cores and schedules; even sizes for the statement about the call", "why_tests_cant": "Quantifies over all pairs of projections.", "anchors": ["source/tomopy/prep/phase.py:retrieve_phase", "source/tomopy/prep/phase.py:_retrieve_phase", "source/tomopy/prep/phase.py:_paganin_filter_factor"]}
{"id": "C191", "title": "Preprocessing of mirrored projections", "statement": "Mirroring the projections left to right before a preprocessing step gives the mirrored result. True for normalize_bg (which also fails for exactly the same data), median_filter3d and remove_outlier3d (for every choice of mirrored axes) and upsample. remove_stripe_sf commutes with mirroring for all data exactly if size is odd or there is at most one column; downsample exactly if the number of columns is a multiple of the bin or smaller than the bin. stripes_detect3d does not: away from the border the weights of mirrored data lie two columns beside the mirrored weights.", "quantifier": "all projections, sizes, windows, thresholds, numbers of air columns, levels, numbers of cores and schedules", "why_tests_cant": "Tests compare with stored output at default window sizes; which sizes break a symmetry is a statement about all sizes.", "anchors": ["source/tomopy/prep/stripe.py:remove_stripe_sf", "source/libtomo/prep/stripe.c:remove_stripe_sf", "source/tomopy/prep/normalize.py:normalize_bg", "source/libtomo/prep/prep.c:normalize_bg", "source/tomopy/misc/corr.py:median_filter3d", "source/tomopy/misc/corr.py:remove_outlier3d", "source/libtomo/misc/median_filt3d.c:medianfilter_main_float", "source/tomopy/misc/morph.py:downsample", "source/tomopy/misc/morph.py:upsample", "source/libtomo/misc/morph.c:downsample", "source/tomopy/prep/stripe.py:stripes_detect3d", "source/libtomo/prep/stripes_detect3d.c:stripesdetect3d_main_float"]}
{"id": "C192", "title": "Numbers of quantify_difference", "statement": "quantify_difference returns the L1 and L2 norms of the difference of the two normalised images and of their gradients. Each number is zero exactly if the images differ only in brightness and contrast; the numbers do not depend on brightness and contrast, nor on the order of the images; it raises exactly if the stack is empty or the sizes differ. The numbers themselves are not the stated norms: they are the matrix norms, the largest column sum and the largest singular value, never larger than the stated norms; the first is equal exactly if there are differences in one column only. Integer images are not normalised.", "quantifier": "all float stacks of all sizes; integer stacks for the last sentence", "why_tests_cant": "Which images get the number zero is a statement about all pairs of images; the tests do not call this function.", "anchors": ["source/tomopy/misc/benchmark.py:quantify_difference", "source/tomopy/misc/benchmark.py:normalize"]}
{"id": "C193", "title": "Pictures of image_comparison", "statement": "After any sequence of calls of assign every block of image_comparison shows the last stack assigned to it, normalised, and its difference from the solution, block 0 shows the solution, and the tags name what is shown. Proved for stacks of the right size and existing blocks other than 0. Refuted otherwise: block 0 can be overwritten; a call that raises leaves its tag; with images of one column assignments to blocks that do not exist are dropped silently; stacks of one column are repeated over the block. Blocks never assigned are uninitialised memory.", "quantifier": "all sizes, stacks, numbers of blocks and sequences of calls", "why_tests_cant": "Quantifies over sequences of calls; the failures need sizes nobody tests.", "anchors": ["source/tomopy/misc/benchmark.py:image_comparison"]}
{"id": "C194", "title": "A call of lprec", "statement": "lprec reconstructs every slice of tomo from the angles theta with the rotation centre of that slice, whichever GPU takes which chunk. Proved: with a method that treats slices independently, slice s of the result is the method applied to slice s, for all numbers of GPUs, divisions into chunks and schedules; the call raises exactly for no pixels, more than 4096 pixels, no GPU, no slice, no centre or an unknown method. Refuted: theta, all centres but the first and the fraction of the first are ignored; the call in the documentation (lpmethod='lpfbp') always raises KeyError or earlier.", "quantifier": "all methods, stacks, centres, angles, GPU lists and schedules", "why_tests_cant": "The package needs GPUs and is not in the test environment; that arguments are ignored is a statement about all values.", "anchors": ["source/tomopy/recon/wrappers.py:lprec", "source/tomopy/recon/wrappers.py:lpmultigpu"]}
{"id": "C195", "title": "Files written by convert_image", "statement": "convert_image creates a copy of an image in the new format and returns its name. Refuted: the file with the returned name is never created or changed; a successful call writes to the name without extension, as JPEG whatever format was asked for. A call that reports failure changes nothing; the original is kept.", "quantifier": "all directories, names and formats", "why_tests_cant": "The tests do not call this function; the statement is about all names and formats.", "anchors": ["source/tomopy/misc/benchmark.py:convert_image"]}
{"id": "C196", "title": "pad for every axis and width", "statement": "morph.pad pads an array with any number of axes along the axis named, counted from the front or the back: npad further elements at both ends, each the constant or the nearest element, all elements written, the array in the middle. An axis the array does not have raises IndexError, a negative npad raises ValueError (it never crops), so does repeating the edge of an empty axis. Without npad the axis grows to sqrt(2) times its length, rounded up by less than two. Padding twice is padding by the sum; paddings of different axes commute.", "quantifier": "all shapes, numbers of axes, integers axis and npad, both modes", "why_tests_cant": "The slices mix counting from the front and the back, and behave differently for negative and zero widths; the number of axes is unbounded.", "anchors": ["source/tomopy/misc/morph.py:pad", "source/tomopy/misc/morph.py:_get_slices"]}
{"id": "C197", "title": "Stacks returned by rescale_image", "statement": "rescale_image returns the first nimages images, normalised together to [-1, 1] and resized by the factor. Proved for the calls that are carried out, which are characterised exactly, and that brightness and contrast do not matter for them. Refuted for all others: a factor that is not an integer, more images than there are, a negative factor or a missing skimage return the argument, neither normalised nor resized, without an exception.", "quantifier": "all stacks, numbers of images, factors and resize functions", "why_tests_cant": "Exceptions are swallowed, so the wrong result looks like a result; the cases depend on type and size together.", "anchors": ["source/tomopy/misc/benchmark.py:rescale_image"]}
{"id": "C198", "title": "Stripe removal of reordered and mirrored scans", "statement": "Stripes do not depend on the order in which the projections were taken, nor on the side from which the detector is read: remove_stripe_sf and remove_stripe_based_sorting of a scan with reordered projections give the reordered result, and of a mirrored scan the mirrored result. Proved: reordering for sf; for the sorting-based method at every pixel whose value is unique in its column, and in general up to exchanging the new values of equal pixels; mirroring for odd windows. Refuted: two equal pixels of a column get other values when their projections are exchanged; the default window of a scan 600 columns wide has six columns and mirroring changes the result.", "quantifier": "all sinograms, reorderings, implementations of argsort, window sizes and both filters", "why_tests_cant": "Permutations of the projections grow factorially, and ties are exactly the inputs random tests do not produce.", "anchors": ["source/tomopy/prep/stripe.py:remove_stripe_based_sorting", "source/tomopy/prep/stripe.py:_rs_sort", "source/libtomo/prep/stripe.c:remove_stripe_sf"]}
{"id": "C199", "title": "Filters and masks of flipped stacks", "statement": "Flipping a stack along any of its axes before median_filter, remove_outlier, median_filter_nonfinite or circ_mask gives the flipped result. True for circ_mask (every axis, ratio and value; also for transposed slices) and for median_filter_nonfinite with every size, which also raises for exactly the same data. For median_filter with slices wider than the window it is true exactly if size is odd. remove_outlier commutes with flips for odd sizes, whatever the number of cores; for every even size (refuted), every positive threshold and slices larger than the window there is a stack of which a pixel is kept that is removed from the mirrored stack.", "quantifier": "all stacks, flips, sizes, axes, thresholds, numbers of cores and orders in which the threads write", "why_tests_cant": "Tests use the default size 3, where the window is symmetric; that every even size breaks the symmetry is a statement about all sizes.", "anchors": ["source/tomopy/misc/corr.py:median_filter", "source/tomopy/misc/corr.py:remove_outlier", "source/tomopy/misc/corr.py:median_filter_nonfinite", "source/tomopy/misc/corr.py:circ_mask", "source/tomopy/misc/corr.py:_get_mask"]}
{"id": "C200", "title": "What import tomopy needs and what works without the optional library", "statement": "import tomopy succeeds exactly if the libraries tomo-recon, tomo-gridrec, tomo-prep and tomo-misc are found and load and mkl_fft is not broken; otherwise the first missing library is named. Without the optional tomo-accel the import warns once, the accelerated mlem and sirt raise ModuleNotFoundError and every other function reaches its own library. Every algorithm recon accepts by name has a function. The FFT implementation is the one named in TOMOPY_FFT_IMPL, or an error is raised (refuted: any other text selects numpy silently); without the variable mkl_fft is used if it imports and numpy otherwise (refuted: an error other than ImportError in mkl_fft makes the import fail).", "quantifier": "all combinations of libraries found, libraries that load, values of the environment variable, behaviours of mkl_fft, extern functions and values of accelerated", "why_tests_cant": "Tests run in one installation; missing or broken libraries and other values of the variable are never seen.", "anchors": ["source/tomopy/_fft_loader.py:import_mkl_fft", "source/tomopy/_fft_loader.py:import_numpy_fft", "source/tomopy/util/extern/__init__.py:c_shared_lib", "source/tomopy/util/extern/__init__.py:_missing_library", "source/tomopy/util/extern/accel.py:c_accel_mlem", "source/tomopy/util/extern/recon.py:c_mlem", "source/tomopy/recon/algorithm.py:_get_func", "source/tomopy/util/misc.py:fft"]}
{"id": "C201", "title": "Accelerated reconstruction in several processes", "statement": "With accelerated=True and several cores the groups of slices are reconstructed by a process pool. If the result of a group does not depend on the device, recon ends with the same images as one group after the other would, also if a group raises, and with the same exception: that of the first failing group in slice order, whichever process ends first; that group and all later ones keep their start images. For an algorithm that treats slices by themselves the images do not depend on ncore, nchunk, thread limit or device. The groups are dealt to the devices in turn: two devices never differ by more than one group, and the device always exists.", "quantifier": "all numbers of slices, cores, chunk sizes, thread limits, devices, workers and failures", "why_tests_cant": "Needs several GPUs, and tests use the single-core or non-accelerated path; which exception wins depends on timing in the thread pool and must not here.", "anchors": ["source/tomopy/recon/algorithm.py:_dist_recon", "source/tomopy/recon/algorithm.py:_run_accel_algorithm", "source/libtomo/accel/gpu/mlem.cu:mlem_cuda", "source/libtomo/accel/gpu/sirt.cu:sirt_cuda"]}
{"id": "C202", "title": "The 3D median filters of turned and rescaled volumes", "statement": "median_filter3d and remove_outlier3d of a float32 volume in C order: exchanging axes of the volume exchanges them in the result; every voxel of the result is a voxel of the data at most half the window away along each axis; median_filter3d commutes with every strictly increasing or decreasing change of the values; remove_outlier3d commutes with every change of unit and offset if dif is scaled by the absolute value of the unit, also with negation, so bright and dark spots are treated alike.", "quantifier": "all volumes, sizes, thresholds, exchanged axes, monotone changes of the values and schedules of the threads", "why_tests_cant": "A wrong stride or a border rule that differs between the axes shows only near the borders of volumes of unequal sides; tests use cubes or compare with one reference.", "anchors": ["source/tomopy/misc/corr.py:median_filter3d", "source/tomopy/misc/corr.py:remove_outlier3d", "source/libtomo/misc/median_filt3d.c:medfilt3D_float", "source/libtomo/misc/median_filt3d.c:medianfilter_main_float"]}
{"id": "C203", "title": "Slice-wise median filters in other units", "statement": "median_filter, remove_outlier and remove_outlier1d give the same result, in the new unit, if the data are given in another unit. True for median_filter along every axis, with every size and every strictly increasing change of the values, and for remove_outlier and remove_outlier1d with every positive unit and every offset if dif is given in the new unit, whatever the number of cores. For strictly decreasing changes, such as negation, median_filter commutes for odd sizes; for slices at least as wide as the window it commutes with negation exactly if size is odd (refuted for every even size: the filter takes the upper of the two middle values).", "quantifier": "all stacks, axes, sizes, monotone changes of the values, units, offsets, thresholds, numbers of cores and orders in which the threads write", "why_tests_cant": "Tests use the default size 3 on one data set; that an even size makes the filter prefer bright values is a statement about all even sizes.", "anchors": ["source/tomopy/misc/corr.py:median_filter", "source/tomopy/misc/corr.py:remove_outlier", "source/tomopy/misc/corr.py:remove_outlier1d"]}
{"id": "C204", "title": "Accelerated reconstructions in other units and another order of the projections", "statement": "With accelerated=True, sirt and mlem of data and initial image multiplied by c give c times the result, and projections put into another order together with their angles give the same result. The order does not matter for both methods. The unit does not matter for sirt (every c != 0, every rotation that maps multiples to multiples, every number of iterations). For mlem it does (refuted for every c other than 0 and 1): the ratio of data and projection, a number without unit, is added to the turned image instead of replacing it, so that one iteration on a single pixel x with datum b gives x^2 + b.", "quantifier": "all sizes, data, initial images, factors, permutations, rotations and numbers of iterations", "why_tests_cant": "Needs pairs of runs with related data; the accelerated tests compare single images with ones stored from the same code.", "anchors": ["source/libtomo/accel/cxx/sirt.cc:sirt_cpu", "source/libtomo/accel/cxx/sirt.cc:sirt_cpu_compute_projection", "source/libtomo/accel/cxx/mlem.cc:mlem_cpu", "source/libtomo/accel/cxx/mlem.cc:mlem_cpu_compute_projection", "source/libtomo/accel/utils.hh:cxx_compute_sum_dist"]}
{"id": "C205", "title": "Gain and offset of the detector pixels cancel in the normalisation", "statement": "If every pixel of the detector has another positive gain and another offset, the same for projections, flats and darks, normalize gives the same result, for the mean and the median and with every cutoff, and so does normalize_nf. True for every pixel where flat and dark differ by at least 1e-6 in both units; for normalize without cutoff these are the only ones (refuted for the others): where the pixel differs from the dark and the gain is not 1, the result is the same exactly if flat - dark >= 1e-6 and gain * (flat - dark) >= 1e-6, because smaller differences are replaced by 1e-6 in whatever unit.", "quantifier": "all projections, flats, darks, gains and offsets of the pixels, cutoffs and flat positions", "why_tests_cant": "A statement about pairs of data sets with arbitrary gain maps; tests normalise one data set with counts far from the floor.", "anchors": ["source/tomopy/prep/normalize.py:normalize", "source/tomopy/prep/normalize.py:normalize_nf"]}
{"id": "C206", "title": "Stripe removal gives the same result in every unit", "statement": "Changing the unit of a sinogram and removing its stripes commute. remove_stripe_sf, and the detection and filling of dead columns (remove_dead_stripe with norm=False), commute with x -> a*x+b for every a other than 0, also negative. remove_stripe_based_sorting commutes with every strictly increasing change of the values at pixels that are unique in their column (tied pixels can only exchange their values) and, with dim=1 and an odd window, with every strictly decreasing one, so it can be applied before or after -log. remove_stripe_based_interpolation commutes with every positive factor, and so do remove_large_stripe and remove_stripe_based_filtering at pixels that are unique in their column (for the latter: in the low-pass part). False in general (refuted): an even window does not commute with a change of sign, and the interpolation-based method does not commute with an offset.", "quantifier": "all sinograms, factors and offsets, strictly monotone functions, window sizes of at least 1, snr, ratios and implementations of argsort", "why_tests_cant": "A relation between two runs on arbitrary data and an arbitrary monotone function; tests compare one sinogram with stored values.", "anchors": ["source/tomopy/prep/stripe.py:remove_stripe_sf", "source/tomopy/prep/stripe.py:remove_stripe_based_sorting", "source/tomopy/prep/stripe.py:remove_stripe_based_interpolation", "source/tomopy/prep/stripe.py:remove_dead_stripe", "source/tomopy/prep/stripe.py:remove_large_stripe", "source/tomopy/prep/stripe.py:remove_stripe_based_filtering", "source/libtomo/prep/stripe.c:remove_stripe_sf"]}
{"id": "C207", "title": "Sorting-based stripe removal can be done before or after minus_log", "statement": "For a sinogram of positive numbers, remove_stripe_based_sorting (dim=1) followed by minus_log gives the same values as minus_log followed by remove_stripe_based_sorting. True for odd windows, at every pixel whose value is unique in its column, whatever argsort does with ties; every new value is a value of the sinogram in one of the columns of the window, so that minus_log of the result is finite. False for even windows (refuted, with every implementation of argsort): the filter takes the upper of the two middle values, which after the logarithm is the other one.", "quantifier": "all positive sinograms, window sizes of at least 1 and implementations of argsort", "why_tests_cant": "A relation between two pipelines on arbitrary data; tests run each function alone.", "anchors": ["source/tomopy/prep/stripe.py:remove_stripe_based_sorting", "source/tomopy/prep/normalize.py:minus_log"]}
