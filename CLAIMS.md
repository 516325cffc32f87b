# Claims

Generated from `properties.jsonl` and `MANIFEST.json`. *proved*: the property holds of the model as stated. *partial*: it does not, or not for all inputs; the note says what is refuted and what is proved instead.

| id | property | status | modules | note |
|---|---|---|---|---|
| C01 | Work splitting covers every slice exactly once | proved | Mproc.Props | negative ncore/nchunk not modelled |
| C02 | Automatic work splitting is balanced and uses every worker | proved | Mproc.Props |  |
| C03 | MPI ranks partition the slices | proved | Mproc.Props | np.int failure on recent numpy ignored |
| C04 | Chunk/worker counts chosen for distribute_jobs are valid | partial | Mproc.Props | "no idle worker" is false with automatic chunk size (refuted); everything else proved |
| C05 | distribute_jobs is schedule independent | proved | Mproc.Props | interleaving of atomic cell reads/writes of all chunks |
| C06 | Chunks that ask to run on the host are all completed | proved | Mproc.Props | pool branch; in the serial branch a raising chunk is dropped (run_on_host_serial_drops) |
| C07 | In-place worker functions write through to the caller's output | partial | Mproc.Props | false when out=arr lives in ordinary memory (refuted in general); holds with out omitted or shared |
| C08 | Reconstruction does not depend on how slices are distributed over workers | partial | Recon.Props | true for kernels that use center[s]; refuted for art and gridrec with per-slice centres; with equal centres it holds for those too. The workers are taken not to raise; for nchunk=0 the C wrappers do raise (C134). That the C functions are kernels of these kinds is C170, which also refutes the claim for tikh with reg_data. Process-pool branch not modelled |
| C09 | Argument checking of recon is a pure decision that history cannot change | proved | Recon.Props |  |
| C10 | Thread limit environment variable is restored after recon | partial | Recon.Props | false when a worker raises (refuted, exact condition proved) |
| C11 | Defaults of recon are filled in, never override the caller, and give a well-shaped result | partial | Recon.Props | shape claim false when init_recon is given (not checked) |
| C12 | Projection order and sinogram order are equivalent | proved | Recon.Props |  |
| C13 | The numexpr thread count is restored | proved | Mproc.Props |  |
| C14 | Flat/dark normalisation is well defined and hits its reference points | proved | Normalize.Props | exact arithmetic; stacks non-empty |
| C15 | Background normalisation flattens a linear background | partial | Normalize.Props | formula, row independence and memory safety proved for 1<=air<=width, width>=2; scaling by negative factors and flattening of affine rows with air>1 refuted |
| C16 | Nearest-flat normalisation treats every projection exactly once | partial | Normalize.Props | coverage proved; nearest proved when a flat at location l precedes projection l, refuted when distance is measured by index |
| C17 | Padding preserves the data and fills only the border | proved | Morph.Props | one line along the axis (slices are full along the other axes); npad >= 0 |
| C18 | Down-sampling averages aligned bins | partial | Morph.Sample | true along axis 0 and when the bin divides the length; refuted otherwise (rows drift), and for negative axes |
| C19 | Up-sampling replicates, and down-sampling after up-sampling is the identity | proved | Morph.Sample | axes 0, 1, 2 |
| C20 | Stitching a 360-degree scan | partial | Morph.Props | true for 2 <= overlap < dz (left also 0); the remaining overlaps are refuted |
| C21 | median_filter_nonfinite repairs exactly the non-finite pixels | proved | Corr.Props | exact arithmetic; infinities and NaN both count as non-finite; callback not modelled |
| C22 | Range clean-up functions clamp and are idempotent | partial | Corr.Props | adjust_range: proved for NaN-free arrays; with a NaN nothing is clamped (refuted) |
| C23 | Outlier removal only touches outliers | proved | Corr.Props | scipy median_filter modelled as rank size^2/2 with reflecting border |
| C24 | 3D median filter and dezinger compute the window median | proved | Corr.Median3d | float kernel; C int overflow of dimX*dimY not modelled |
| C25 | 3D median filter accepts any numeric dtype | partial | Corr.Props | false for every dtype other than float32/uint16 (refuted) |
| C26 | Inpainting never alters data outside the mask | proved | Inpaint.Parallel, Inpaint.Props | random numbers are arbitrary; C undefined behaviour (size 0) is reported as no result |
| C27 | Inpainting fills the whole mask with values in the range of the known data | partial | Inpaint.Fill | mean and random proved in 2D and 3D; median false in 2D (not a median) and 3D (fills with 0), refuted |
| C28 | circ_mask zeroes exactly the outside of the disc | proved | Corr.Props | axes 0, 1, 2 |
| C29 | Ray tracing stays inside its buffers and inside the image | proved | Ray.Quadrant, Ray.Safety | exact arithmetic; sin/cos of the real angle; every angle, centre, grid and detector pixel |
| C30 | Ray tracing orders the intersections and measures the chord | partial | Ray.Order, Ray.Quadrant, Ray.Safety | proved for angles further than 1/ipi_c from the axes; inside that window calc_quadrant returns the wrong flag (refuted) |
| C31 | Forward projection is linear, positive and slice-wise | proved | Sim.Props | exact arithmetic |
| C32 | Back-projection (fbp without filtering step) is the adjoint of projection | partial | Iter.Project | proved when all slices have the same centre; with per-slice centres the loop is not the adjoint because project uses center[0] (refuted) |
| C33 | Ordered subsets use every projection exactly once per iteration | proved | Iter.Ospml, Iter.Subsets |  |
| C34 | MLEM/OSEM iterates stay positive and finite, and preserve counts | proved | Iter.Osem | exact arithmetic, any geometry; with zero data the second iteration divides 0 by 0 (mlem_zero_data_undefined) |
| C35 | ART projects onto the measured ray | proved | Iter.Art, Iter.Tracer | exact arithmetic; the geometry hypotheses are proved for the tracer when no angle is strictly within 1/ipi_c of an axis (C30) |
| C36 | SIRT/BART leave consistent images and unseen pixels unchanged | partial | Iter.Osem, Iter.Tracer, Iter.Vector | proved for bart, sirt; vector divides 0/0 as soon as one pixel is unseen (refuted for all inputs), otherwise proved; vector2/vector3 proved with all data in the geometry of the first set (see C65) |
| C37 | Gradient methods leave exact solutions unchanged | partial | Iter.Grad | grad with fixed step proved; tikh with the solution as regulariser data refuted (data are not scaled); with the automatic step an exact start gives 0/0 |
| C38 | Penalised ML update is the non-negative root of its surrogate | partial | Iter.Ospml | proved for grids of at least 2 x 2 pixels and non-zero line integrals; refuted for images one pixel wide (read out of bounds) and for zero line integrals (division by zero) |
| C39 | gridrec table and grid indices stay in range | partial | Gridrec.Index, Gridrec.Init | All accesses in bounds and initialised when both grid sizes are below pdim; every output pixel written once for all sizes. False for larger grids, in particular the default grid of a power-of-two detector: winv is read out of bounds. |
| C40 | Smoothing stripe removal subtracts only a per-column offset | partial | Stripe.Sf | Proved for every stack, every positive window size and every distribution over workers. The size argument is not checked: 0 makes every pixel NaN (sf_size_zero), a negative one subtracts the whole column mean (sf_size_negative). |
| C41 | Sorting-based stripe removal only permutes within columns when the filter is neutral | partial | Stripe.Sort | Proved for every sinogram with ties, every filter and every correct argsort. The value given to tied pixels depends on how the unstable argsort orders them (rs_sort_tie_dependent); without ties the result is unique. |
| C42 | Stripe mask stages only remove, then only merge | partial | Stripe.Mask | Proved for every volume and schedule when dz >= 4*min_stripe_width. Without that the claim is false: mask_out_of_bounds shows that vertical merging reads outside the mask although the arguments pass the checks. |
| C43 | Stripe detection weights are ratios in [0,1] | partial | Stripe.Detect | Bounds, formula and range proved for every volume and schedule for radii between 1 and half of each dimension and at least 4 columns. False parts of the claim are refuted: the vertical filter takes rank size-1, not the median (detect_not_median); negative projections give negative weights (detect_negative); an unchecked radius reads outside the array (detect_out_of_bounds). radius = 0 (0/0 in C) is not modelled. |
| C44 | Ring removal's rolling filters equal their direct definitions | partial | Ring.Mean, Ring.Median, Ring.Props, Ring.Sort | Rolling filters equal their direct windows for every image if the radius is at least 1 and the first window ends inside the row. Refuted otherwise: with the default rwidth the filter reads behind the polar image for slices up to 366 pixels (ringFilter_default_small), rwidth=0 reads behind the work array, zeros from outside the image enter at the right edge, and the zero masking is not applied to the first row. |
| C45 | Ring removal polar sampling stays inside the image | proved | Ring.Props | exact arithmetic; sine, cosine, arctangent and square root enter as arbitrary values in their range |
| C46 | Phase retrieval uses all of its input | partial | Phase.Props | Proved with padding: the frame is the projection continued by its border pixels, whatever the shared work array held, for all cores, chunks and schedules (even sizes, or pad amount of at least two pixels). Refuted for pad=False: prj[-0:] overwrites the whole frame and every projection becomes a constant, its last pixel times the gain at frequency 0 (retrieve_phase_unpadded); the same with padding if the pad width is 0. |
| C47 | Rotation-centre search stays inside its search window | partial | Center.Props | Coarse candidates are exactly the multiples of 1/2 in the window clipped to the detector (whole limits); both searches return a minimiser; every coarse candidate compares the sinogram with its mirror image about the candidate. Refuted: for large data with smin > 0 candidates below smin are tried (coarse_window_leaves); if the step does not divide the fine window the last candidate lies beyond it and may be off the detector (fine_window_leaves). Gaussian and spline filters enter as arbitrary functions. |
| C48 | write_center writes one file per tried centre | partial | Files.Props | Proved for steps above 1/100: every centre has its own file holding its image, for every folder and previous contents. Refuted for smaller steps: names have two decimals, so later images replace earlier ones (write_center_overwrites). |
| C49 | GPU queue assigns each chunk once and never shares a busy GPU | partial | Gpu.Props | For every interleaving of any number of threads, if no reconstruction raises: no two threads share a GPU, every execution ends, each chunk is processed once, flags and lock are released. Refuted: an exception leaves the flag set, and later chunks fail with an unbound variable (gpu_leaks); slices wider than 4096 divide by zero (wide_raises). BUSYGPUS is one global: two simultaneous lprec calls are not modelled. |
| C50 | Scanning-probe positions keep the probe inside the projection | partial | Probe.Scan | Proved for positive shifts and probes that exceed the projection by at most one shift. Refuted otherwise: the trimming loop never ends for a larger probe (scan_axis_hangs), and the default shift of a one-pixel probe is zero, which raises (scan_axis_zero). |
| C51 | Padded projections cover the object diagonal with an even detector | proved | Sim.Props |  |
| C52 | Detector drift search ends with a drift or the documented fallback | partial | Align.DriftProps | The search ends for every sequence of detections. Success gives corners within 15.1 pixels of the reference. Refuted: when an image is never found the loop raises IndexError (counter > len(kernels) instead of >=), so the documented fallback is unreachable (drift_raises). Corner detection itself is a parameter. |
| C53 | Cumulative histogram is a distribution function | partial | Cdf.Props | Sorted points, monotone values starting at 0 and empty input proved for all data. Refuted: the last value is n/(n-1) instead of 1 for every n (cdf_exceeds_one), a single datum divides by zero (cdf_single), and non-positive steps raise. |
| C54 | Phantoms are non-negative sums of ellipsoids | proved | Phantom.Props | Exact real arithmetic. Ellipsoids are the stretched, moved and turned unit balls; the offset is applied before the rotation. A degenerate ellipsoid adds nothing. |
| C55 | TIFF file names are deterministic and collision free | partial | Files.Props | Different whole numbers give different files for every base name and extension without a slash; the name ends with the extension exactly once. Refuted: a base name ending with the letters of the extension gets no extension (addExt_missing). Directory creation is not modelled. |
| C56 | Window normalisation makes the window mean one | proved | Normalize.Props |  |
| C57 | normalize_nf accepts both documented averaging modes | partial | Normalize.Props | false for median: always TypeError |
| C58 | 3D median filter result does not depend on memory layout | partial | Corr.Props | false for Fortran-ordered input of median_filter3d (refuted) |
| C59 | Extra inpainting iterations keep smoothing the filled region | partial | Inpaint.Fill | false: iterations > 1 change nothing, proved for all inputs |
| C60 | Inpainting window has the documented size | partial | Inpaint.Fill | false: the window is 2*size+1 wide; size 0 crashes (both proved) |
| C61 | inpainter_morph accepts every non-empty 3D array and checks the mask | partial | Inpaint.Fill | false with another singleton dimension; mask shape unchecked |
| C62 | Projection uses each slice's own rotation centre | partial | Sim.Props | true for one slice per chunk or equal centres; refuted otherwise |
| C63 | The ordered-subset assertion never fails | partial | Iter.Subsets | false: the last subset always violates the assertion (refuted for all inputs) |
| C64 | Invalid ordered-subset arguments are harmless | partial | Iter.Subsets | false: both are undefined behaviour (refuted) |
| C65 | vector2 and vector3 use the angles and centres of each data set | partial | Iter.Vector | false: angles and centres of the second and third set are ignored (proved) |
| C66 | vector2 and vector3 honour their axis arguments | partial | Iter.Vector | false: update addresses are hard-wired |
| C67 | vector2 and vector3 stay inside the volumes they are given | partial | Iter.Vector | true for cubes; refuted when the number of slices differs from the width |
| C68 | tv leaves a consistent constant image unchanged | partial | Iter.Tv | proved for non-zero parameter; parameter 0 gives 0/0 (refuted) |
| C69 | tv's primal and dual steps fit together | partial | Iter.Tv | adjointness and projection proved; neighbours right only on square grids (refuted otherwise) |
| C70 | gridrec reconstructs each slice on its own | partial | Gridrec.Pixel, Gridrec.Slices, Gridrec.Tables | Independence and linearity proved; odd slices use the centre of the slice before them, shown by a concrete call. |
| C71 | gridrec's correction undoes the convolution window | partial | Gridrec.Pixel, Gridrec.Tables | Table and sign proved; the window is taken one pixel off the axis, so opposite pixels get different factors. |
| C72 | gridrec filters are low-pass variants of the ramp | partial | Gridrec.Filters | Proved for Parzen cutoffs of at least one half and all cutoffs of the others; Parzen is negative beyond a smaller cutoff, and unknown names select shepp. |
| C73 | custom gridrec filters use only the values supplied | partial | Gridrec.Filters | Proved for filter_par of sufficient length; the length is not checked. |
| C74 | Ring removal is bounded and leaves flat slices alone | partial | Ring.Props | Proved for slices wide enough for the ring width (otherwise ring_filter reads out of bounds, see C44). False for a separate output array: then rec is ignored and the old contents of out are filtered (remove_ring_ignores_input). |
| C75 | Phase retrieval keeps the mean and constant projections | partial | Phase.Props | Linearity and the sum rule (sum multiplied by the gain at frequency 0) for all frames. The gain is 1 for frames of even size; refuted for odd sizes: fftshift misplaces frequency 0 and constant projections come back too small (retrieve_phase_constant_odd). |
| C76 | Far-field intensity belongs to its scan position and conserves energy | partial | Probe.Field | Energy and centring proved for all stacks; the order of positions is refuted, because fftshift without axes also rotates the stack: image k belongs to position k+n-n/2 mod n (far_order, far_order_refuted). Correct for one position. |
| C77 | Transport-of-intensity propagation conserves intensity | proved | Probe.Tie | Exact real arithmetic; stacks of the same shape; flat border means three equal pixels at each end of every row and column. |
| C78 | Gaussian probe has the stated width and centre | partial | Probe.Tie | Range and width proved for all parameters (the centre is half a pixel before the one given). Symmetry proved for even grids, refuted for odd grids (probe_asymmetric). |
| C79 | Slit corners lie in their quadrants and clipping keeps the inside of the box | partial | Align.SlitsProps | Corners proved for square images and, for all images, in three of the four quadrants. Refuted: the upper right part is img[0:cols/2, rows/2:], so in wide images that corner can be found in the left half (quadrant_wide_wrong) and tall images raise (quadrant_tall_raises); a peak within ten pixels of the border raises or reads the other end; a box close to the border ends at a negative index and clipping keeps pixels outside (removeSlits_wraps). Standard deviation, median filter and curve fit are parameters. |
| C80 | Distortion correction samples the image at the radial model's positions | partial | Warp.Props | Exact real arithmetic. Sinograms proved for images of up to 32767 rows; refuted above, because the slab is computed in 16-bit integers (sino_overflows). map_coordinates is modelled as linear interpolation. |
| C81 | Large and dead stripes are repaired and other columns keep their values | partial | Stripe.Vo, Stripe.VoProps | Exact arithmetic, undefined pixels explicit. Refuted: a dead column at the edge becomes NaN in remove_stripe_based_interpolation because its factor is 0 and edge columns are never marked (interp_dead_edge), and stays as it is in remove_dead_stripe (dead_value); one or two columns, or one angle, raise (detect_short, one_row_raises); with four columns the line is fitted to one point and flat data can be marked (detect_four). A marked column with a non-positive factor gets the right values in another order. The spline is taken to be exact; np.int16 overflow from 131072 columns on is excluded. |
| C82 | Titarenko's method adds the correction that minimises its cost | partial | Stripe.Ti, Stripe.TiProps | Exact arithmetic, NaN explicit; conjugate gradients proved to end within n steps with a residual below the bound. Refuted: ideal data, whose projections have equal sums, and data with a straight mean profile become NaN everywhere (ti_undefined); with blocks the angles after the last whole block are replaced by ones (ti_blocks_partial, ti_lost), NaN are not removed because of "is True" (ti_blocks_nan), and more blocks than angles divide by zero (ti_raises). |
| C83 | The accelerated SIRT and MLEM compute the same image for every schedule and keep a solution | partial | Accel.Fixed, Accel.Props, Accel.Threads | Exact arithmetic; the rotation of OpenCV/NPP is a parameter, with quarter turns as proved instance. Schedule independence is proved if no two workers of a pool share a cache; refuted otherwise (accel_race). Refuted: an image that agrees with the data is multiplied by 1+1/dx by sirt and becomes x(x+1)/dx in mlem; the centre is ignored; the zero image never changes on the CPU; fewer grid rows than detector pixels overflow the arrays; on the GPU a grid wider than high is cleared beyond its end; even grids turn about pixel n/2 and lose a row and a column. |
| C84 | Options of the accelerated reconstructions select what they name | partial | Accel.OptProps | Names, indices and text without digits proved for all builds. Refuted: text such as gpu10 selects the processor; unknown interpolation words silently mean nearest neighbours with OpenCV; negative pool sizes become huge; calls that throw are never uncounted. |
| C85 | Simulated noise and drift have the documented form and leave the argument alone | partial | Sim.Noise | Exact arithmetic, draws as parameters. Refuted: add_gaussian and add_salt_pepper overwrite the caller array; add_drift adds a straight line from 0 to 1 to the sinusoid, so it is not periodic and doubles the last projection even with amplitude zero; add_zingers with fraction zero still saturates a pixel whose draw is zero. |
| C86 | Projection angles are evenly spaced and include both ends | proved | Sim.Noise | Exact arithmetic. |
| C87 | Workers of distribute_jobs see the caller's arrays, and conversions copy when asked | partial | Dtype.Props | Proved for arrays outside shared memory with any strides and for whole shared blocks. Refuted: for a view of a shared array the workers rebuild the whole block, so a slice raises ValueError and a swapped view (same number of elements) is silently read in the wrong order; inputs of different types are read with the type of the last; a shared output that is not contiguous raises; copy=True returns the argument itself if it is an array of that type. |
| C88 | find_center minimises the entropy of the masked reconstruction of the chosen slice | partial | Center.EntropyProps | Exact arithmetic; recon and the scipy optimizer are arbitrary functions. Refuted: pixels outside the limits of the first reconstruction are not counted, so an image that leaves them has cost near zero and wins; ratio has no effect; ind=-1 selects nothing and raises. |
| C89 | find_center_pc returns the mirror axis of the two projections | proved | Center.EmptyProps | Images on integer columns; the registration of scikit-image is an arbitrary function assumed to register the pair at hand; fractional guesses (spline interpolation) are outside of the statement. |
| C90 | mask_empty_slice marks layers without variation | partial | Center.EmptyProps | Exact arithmetic, NaN explicit. Refuted: a single layer is compared with itself and never marked; blank data mark nothing. |
| C91 | Filtering-based stripe removal corrects only the low-pass part of a column | partial | Stripe.Filter | Real arithmetic. Unchanged slices proved for the one-dimensional window, the effect on a stripe for an even number of angles. Refuted: the window is centred half a sample off frequency zero, so the share 1-exp(-1/(8 sigma^2)) of every offset stays (rs_filter_offset_remains); with dim=2 the sorted columns are mirrored at their ends, which changes slices without stripes (rs_sort_window2_changes). |
| C92 | Fitting-based stripe removal keeps the ratio of pixel and fit | partial | Stripe.Fit | Real arithmetic, divisions by zero explicit; the coefficients of the polynomial fit are a parameter. Constants proved for even numbers of angles and columns. Refuted: blank data become NaN (rs_fit_zero_undefined), and a constant sinogram of three columns is changed (rs_fit_constant_odd). |
| C93 | Fourier-wavelet stripe removal returns the shape it was given and removes what is constant along the angles | partial | Stripe.Fw | Real arithmetic; the wavelet is a separable filter bank with perfect reconstruction (instance: Haar). Refuted: with an even number of rows of coefficients frequency zero is multiplied by 1-exp(-1/(8 sigma^2)) instead of 0, so the details of a stripe stay (dampen_even_keeps). |
| C94 | scale, blur_edges and add_noise compute what they document | proved | Align.Seq | Exact arithmetic. scale overwrites its argument with the result (scale_range). Outside of the claim: low = high gives 0/0 (blur_edges_equal_limits); the distance is measured from (dy/2, dz/2) and not from the centre of the image, so a two by two image loses its first pixel and keeps its last one (blur_edges_lopsided); negative largest pixels make add_noise raise (add_noise_value). |
| C95 | Whole shifts move every pixel exactly, and jitter can be undone | proved | Align.Seq | Exact arithmetic; tf.warp is a parameter of which only its effect for whole translations is used. The two functions use opposite orders: add_jitter returns column shifts first, shift_images takes row shifts first although documented as horizontal first, so jitter is undone with the two lists swapped (jitter_undone) and not in the order returned (jitter_not_undone_in_order, shift_images_first_vertical). |
| C96 | align_seq accumulates the registered shifts and invents no data | proved | Align.Seq | Exact arithmetic; reconstruction, projection, blurring, registration and tf.warp are parameters. |
| C97 | align_joint returns the aligned projections and does not touch the caller's data | partial | Align.Seq | Refuted. align_joint moves a copy and returns the padded projections unmoved for every registration; the copy, proved to be the input moved once by the shifts returned, is thrown away (align_joint_unmoved, align_joint_demo). Both functions leave the caller with projections divided by the scale (align_leaves_scaled), and conv stays zero unless debug is set (conv_without_debug). |
| C98 | recon and vector hand their data to C unchanged, whatever its type and memory layout | proved | Dtype.Ptr | Memory is assumed aligned. Copies of another type keep the memory order of their source as numpy does. |
| C99 | Angles, centres and objects may be passed in any memory layout | partial | Dtype.Ptr | Refuted: float32 angles or centres taken with a step are misread (theta_step_misread), reversed ones are read beyond the end of their buffer (theta_reversed_outside), and transposed objects of any type are seen in the wrong order (object_transposed). True for arguments that are converted (vector_seen) and C-contiguous ones (object_seen). |
| C100 | median_filter and gaussian_filter filter every slice on its own | proved | Corr.Filt | scipy.ndimage.gaussian_filter is a parameter; median_filter of scipy modelled as rank size^2/2 with reflecting border. |
| C101 | Slice-wise filters report what they cannot filter | partial | Corr.Filt | Refuted: what scipy raises is dropped and uninitialised memory returned (slice_filter_swallows), for instance for arrays that are not three-dimensional (median_filter_garbage) or one sigma per axis of the array (gaussian_filter_garbage); sobel_filter always raises NameError (sobel_raises). |
| C102 | remove_outlier1d replaces exactly the outliers of each line | partial | Corr.Filt2 | Proved for numpy versions before 1.23. Refuted for later ones: indexing with a list of slices raises IndexError for every array with elements (outlier1d_raises); one-dimensional arrays raise ValueError with any version (outlier1d_line_raises). |
| C103 | The GPU filters compute what the CPU functions compute | proved | Corr.Filt2 | The GPU is a parameter assumed to compute medians of the padded image. |
| C104 | The GPU filters fall back on the CPU functions with the same arguments | partial | Corr.Filt2 | Refuted: the fallback of remove_outlier_cuda ignores axis (outlier_cuda_axis_ignored, outlier_axes_differ), and for unsupported sizes both functions work on an array with exchanged axes and return it so (cuda_size_fallback). True for median_filter_cuda without the package and for axis 0. |
| C105 | Enhanced projections lie in [0, 1] and histogram weights rank the pixels | proved | Corr.Filt2 | Exact arithmetic; scipy.signal.medfilt2d modelled as the element of rank ks*ks/2 of the zero-padded square. Outside of the claim: on a machine with one processor the default number of workers is 0 and the function raises (enhance_single_cpu). |
| C106 | ASTRA reconstructs every slice from its own sinogram and centre | proved | Wrap.Props | ASTRA itself is a parameter. Exact arithmetic. |
| C107 | ASTRA gets shifted data for every centre, and failures on GPUs are reported | partial | Wrap.Props | Refuted: for centres more than one detector width to the right of the middle a negative slice bound leaves data of the next projection (sino_garbage); exceptions of the GPU threads are dropped, slices keep what was there (astra_gpu_silent). True for centres further left (cpu_sino) and without gpu_list (astra_raises). |
| C108 | Options of ASTRA are completed but never overridden, and UFO slices are cropped around their middle | proved | Wrap.Props | UFO itself is a parameter. The defaults are written into the dictionary of the caller. |
| C109 | UFO reconstructs every slice with its own centre at the given angles, or raises | partial | Wrap.Props | Refuted: only the first centre and the first two angles are used (ufo_params_ignored), and an image two pixels too small is replaced by copies of its last element (ufo_broadcast). True for equal centres and equal steps (ufo_params). |
| C110 | Opposite views are mirror images | proved | Ray.Opposite, Sim.VecProps | With Ray.opposite_segments: the two rays have the same segments. Exact arithmetic; the two options of data order follow by project_spec. |
| C111 | Opposite views are mirror images for every rotation centre | partial | Ray.Opposite, Sim.VecProps | Refuted for centres a whole number of pixels from (dx - 1)/2: preprocessing moves both rays by 1/100 in the same direction (Ray.mirror_offset_wrong), so that one of the views can miss what the other one sees (project_opposite_fails). True for all other centres (project_opposite_center). |
| C112 | project2 and project3 integrate the field along the rays | proved | Sim.VecProps | Exact arithmetic. |
| C113 | Opposite views of a vector field are negated mirror images | proved | Sim.VecProps | Emission data, sinogram order; the others follow by project3_spec. |
| C114 | project2 and project3 project along the axis they are given, or raise | partial | Iter.Vector, Sim.VecProps | Refuted: project2 ignores axis (project2_axis), project3 returns zeros for other values (project3_other_axis), and along axes 1 and 2 volumes with fewer slices than columns are read out of bounds (Iter.vecAddr_out_of_bounds). True for axes 0 to 2 of cubes (project3_spec, Iter.vecAddr_cube_partial). |
| C115 | project2 and project3 project every slice with its own centre | partial | Sim.VecProps | Refuted: only the first centre is used (project3_first_center). True if all are equal (project3_spec). |
| C116 | Each parameter of a C function holds the Python value it stands for | proved | Extern.Props | Not modelled: c_remove_ring and c_remove_stripe_sf. wired is a check of the complete tables of wrappers and C definitions; the rest is for all values. Memory layout of the arrays: C98, C99. |
| C117 | Integers that do not fit into a C int raise | partial | Extern.Props | Refuted: ctypes.c_int keeps the low 32 bits; num_iter = 2**32 runs no iteration (overflow_silent). The value arrives unchanged exactly if it fits (wrap32_eq_iff). |
| C118 | Down-sampling: the result for every length | proved | Morph.Exact |  |
| C119 | Which overlaps are stitched correctly | proved | Morph.Exact |  |
| C120 | Which grids gridrec can reconstruct | proved | Gridrec.Exact, Gridrec.Index |  |
| C121 | When automatic chunking keeps all workers busy | proved | Mproc.Exact |  |
| C122 | When adjust_range clamps | proved | Corr.Exact |  |
| C123 | When background normalisation is defined and flattens a linear row | proved | Normalize.Exact |  |
| C124 | normalize maps an image linearly onto -1 to 1 | partial | Bench.Props | Proved for float images. Refuted for integer images that are not constant: the division in place raises TypeError, which is caught, and the image comes back unchanged (normalize_int_partial). |
| C125 | trim_border and fill_border cut and add a border | partial | Bench.Props | Refuted: the added border is np.empty memory (fill_undefined_partial); sizes that do not fit return the input instead of raising (trim_silent). |
| C126 | output_images writes every image once, under the documented name | partial | Bench.Props | Refuted: the names differ from the documented ones (output_name_partial). |
| C127 | trim_sinogram returns the shadow of the circle | partial | Morph.TrimProps | Refuted: np.ceil and np.floor give floats that are used as slice bounds, so a shadow with an end inside the frame raises TypeError, as does a float diameter (trim_type_error, trim_inside, trim_arguments). trim_ok_iff says exactly when data come back. |
| C128 | calc_affine_transform returns an affine map | partial | Affine.Props | Refuted for points on one line off the origin, e.g. one marker (affine_one_point); affine_last_row_iff is the exact condition. |
| C129 | calc_affine_transform fits as well as possible | proved | Affine.Props |  |
| C130 | The CUDA kernels handle each index once and an iteration equals the CPU formula | proved | Accel.CudaProps | The rotations are parameters (NPP is not modelled). That update is zero before the first addition is C132. |
| C131 | Rotations of several threads go to their own streams | partial | Accel.NppProps | Refuted: a thread whose stream is current passes while another one is about to set its own (npp_wrong_stream, npp_throws), and two threads can undo each other for ever (npp_livelock). Proved: the thread that took the counter is alone and rotates on its own stream (npp_holder_partial), the counter is given back (npp_released), and with one common stream nothing goes wrong (npp_same_stream). |
| C132 | A GPU iteration uses every projection | partial | Accel.StreamProps | Refuted for release builds: memset is asynchronous on the main stream, and only the worker streams are waited for before the additions (release_loses). Proved for debug builds (debug_exact); in general exactly the projections added before the memset are missing (run_loses_partial). |
| C133 | An init_recon of another shape is refused | partial | Recon.InitProps | Refuted: no shape is checked; an init_recon with smaller images is written beyond its end (init_recon_overflow), one with fewer slices leaves slices out silently (init_recon_fewer). Proved: with the default nchunk and m <= n slices in init_recon, all writes stay inside exactly if num_gridx * num_gridy is at most the size of an image of init_recon (init_recon_safe_iff); with nchunk=c and images of the right size exactly if m is at least the number of slices or a multiple of c (init_recon_chunk_iff); a block ends where it should exactly if the sizes agree (init_recon_misplaced). |
| C134 | nchunk=0 reconstructs slice by slice | partial | Recon.InitProps | Refuted for nchunk=0: center[i] is then a NumPy scalar without .ctypes, so every C algorithm raises AttributeError (nchunk_zero_raises). Proved for the other chunk sizes: the blocks written are those of the slices (writes_ranges). |
| C135 | normalize followed by minus_log recovers the attenuation | proved | Normalize.LogProps | Over the reals; NumExpr thread counts do not enter. |
| C136 | The accelerated rotations turn about the middle of the slice | partial | Accel.RotProps | Proved for the GPU at all sizes. Refuted on the CPU: cv::Point cuts the centre to the integer n/2, so the rotation is about the middle exactly for grids with odd sizes (cpu_middle_iff_partial); at even sizes a half turn sends row and column 0 out of the grid (cpu_half_turn_loses). Exact arithmetic; interpolation is not part of this claim. |
| C137 | write_center saves one reconstruction per candidate centre | partial | Files.CenterProps | Refuted twice: filter_name is always passed on, so every named algorithm but fbp and gridrec raises ValueError (write_center_accepts_iff); ratio has no effect (write_center_ratio_unused). Proved: the file of each centre holds the slice reconstructed with that centre, for all kernels and schedules. |
| C138 | art converges | proved | Iter.ConvArt, Iter.ConvTracer | Exact arithmetic. Rays charge a pixel once (proved for the tracer away from the axes, tracer_geomOnce). |
| C139 | Iterations of mlem never lower the likelihood | proved | Iter.ConvMlem, Iter.ConvTracer | Over the reals with the exact logarithm; for zero data mlem is undefined, see C34. |
| C140 | sirt converges | partial | Iter.ConvSirt, Iter.ConvTracer | Refuted: the residuals are divided by the sum of squares of the lengths and not by the length, so a short chord is overcorrected; with one projection at 45 degrees that cuts a corner of the pixel the errors grow beyond all bounds (sirt_corner_diverges). Proved: sirt converges, to the nearest solution in a weighted norm, if every ray is less than twice as long as its sum of squared lengths (sirt_converges_partial). |
| C141 | pml_quad and pml_hybrid maximise a penalised likelihood | partial | Iter.ConvPml, Iter.ConvPmlRef, Iter.ConvPmlRun | Refuted: the weights are normalised separately for inner, edge and corner pixels and so are symmetric only on 2 x 2 pixels (symGrid_iff); on every other grid, with rays that determine the image, no differentiable penalty at all has the unchanged images as local maxima (pml_no_penalty). Proved where the weights are symmetric: monotone penalised likelihood, unchanged exactly at the maxima, changes tend to zero (pml_quad). |
| C142 | Size limits of the 32-bit offsets in the C code | proved | CInt.Props | C expressions with their types (int, unsigned, unsigned long long) and undefined signed overflow. vector2, vector3 and project3 (permuted axes) and the work vectors of gridrec of length dt*pdim/2 are not covered. Finding: 1800 x 2160 x 2560 with 4 cores overflows in every function. |
| C143 | The ray tracer stays inside its buffers and the image in float arithmetic | proved | Fl.Props, Fl.Round | IEEE binary32 rounding (nearest, ties to even, gradual underflow) as a function on the rationals. Overflow only in the division; lengths (sqrtf) are not in this model. sinf and cosf are assumed to be within [-1, 1]. index_out_of_range is about the two functions, not about a whole ray. |
| C144 | calc_quadrant is right for every float angle except just below zero | proved | Fl.QuadProps | float, double and int32_t arithmetic of calc_quadrant. The angle is the value that fmodf returned; the difference between 2*(float)M_PI and 2 pi in fmodf itself is not covered. |
| C145 | Projection in float arithmetic: order, sign and accuracy | proved | Fl.Sum | Given the computed lengths; the error of the lengths and overflow to infinity are not covered. |
| C146 | OSEM and MLEM in float arithmetic: sign, zeros, infinities and NaN | proved | Fl.OsemProps | float values with infinities and NaN (one zero: the sign of a zero is never visible here). The segment lengths are given finite floats. |
| C147 | One MLEM iteration in float is within one percent of the exact iteration | proved | Fl.OsemAcc | Per iteration, given the computed lengths; the start image of each iteration is the float image. Growth of the error over several iterations is not covered. |
| C148 | The window buffers sized with powf hold the window | partial | Corr.Med2 | The buffer has the length of the window exactly for radii up to 127 (3D) and 2047 (2D), so those are safe; for larger radii it never has. With a correctly rounded powf it is one element short for the radii 128, 130, ..., 160 (heap write past the end). |
| C149 | The four median kernels agree | proved | Corr.Med2 | Exact arithmetic for the difference of floats; values without NaN. |
| C150 | Total variation reconstruction converges to the minimiser | partial | Iter.TvConv | Proved when the fixed step 0.35 is below the inverse of the norm of the operator (differences and scaled ray sums), which holds when the squared norm of the scaled projector is below 8/49. Refuted without that condition: one angle, one detector pixel and a row of 17 or more pixels make every pixel double in every iteration. Exact arithmetic. |
| C151 | Exactly when grad and tikh converge with a given step, and to what | proved | Iter.GradConv | Exact arithmetic; a negative reg_par[0] (automatic step) is the subject of C37, not of this claim. With the default reg_par of ones the condition fails as soon as the mean squared ray length is at least half the number of pixels. |
| C152 | mlem converges to a most likely image | proved | Iter.ConvMlem2, Iter.EmConv | Exact arithmetic; the likelihood is the Poisson log-likelihood without the terms that do not depend on the image. Em.Run.converges and Em.maximises are the statements about abstract matrices. |
| C153 | osem converges to a most likely image | partial | Iter.ConvMlem2 | False with more than one block: on one pixel seen at two angles with different values, each in its own block, every number of iterations gives the value of the last block. With a single block it is C152. |
| C154 | Exactly when sirt converges, and to what | proved | Iter.SirtExact | Exact arithmetic. |
| C155 | art converges for all data | proved | Iter.Kaczmarz | Exact arithmetic. Kz.converges is the statement about abstract hyperplanes. |
| C156 | gridrec sees projections, not their order, direction or place on the detector | proved | Gridrec.Sym | Exact arithmetic. The centre of a slice at an odd position is that of the slice before it, see C70. |
| C157 | gridrec ignores constants on detectors of 2^n pixels | proved | Gridrec.Sym | Exact arithmetic. |
| C158 | gridrec turns the image with the angles | partial | Gridrec.Sym | Refuted: the correction is taken one pixel off the axis (C71), so the turned image has other values (gridrec_quarter_wrong). Proved: it is the turned image up to the quotient of the window at \|x - 1\| and \|x + 1\|. |
| C159 | The grid size of gridrec only selects the part of the image | proved | Gridrec.Sym | Exact arithmetic; grids wider than the padded detector are out of bounds, see C120. |
| C160 | bart reconstructs consistent data | partial | Iter.BartConv | Refuted: the update of a block is divided by the length of the rays of this block in the pixel; with one ray per block all pixels of the ray change by the same amount (bart_one_ray), and the iteration can stay away from every consistent image although sirt converges to one (bart_stuck). Proved for one block. |
| C161 | Linear reconstructions | proved | Gridrec.Sym, Iter.Linear | Exact arithmetic; a run that divides by zero has no result to superpose. mlem is not additive (mlem_not_sup). |
| C162 | Iterative methods see views, not their order or side | proved | Iter.Views | Exact arithmetic. Does not hold for art, which handles one ray after the other (art_order_matters). |
| C163 | Exactly when vector converges, and to what | proved | Iter.VectorConv | Exact arithmetic. The condition on the rays is the one of sirt (C154); unlike sirt, vector divides 0 / 0 in a pixel without rays. |
| C164 | Turning or mirroring the object turns or mirrors everything | partial | Iter.Turn, Sim.Turn | Exact arithmetic, scans with no ray through a corner of the grid (Generic); refuted in general by project_turned_fails. The Python function project is covered by project_turned_py_partial and project_mirrored_py_partial (default centre). |
| C165 | A projection along an axis is the sum over that axis | partial | Sim.Turn | Proved for even widths and refuted for odd ones; project_axis0_exact and project_axis1_exact give the stored value in every case. Exact arithmetic, default centre. |
| C166 | The C routines give back the memory they take | partial | Heap.Props | Safety of every routine and exact blocks left behind for all inputs (call_leaves, calls_bytes); the rest of the claim holds for the tidy routines and is refuted for the five others (call_leaks, leak_unbounded). Allocation is assumed to succeed; parallel loops run in index order. |
| C167 | The unit of the data does not matter | partial | Iter.Linear, Iter.Scale | Exact arithmetic. Proved for all methods with the regularisation in the unit of the data; refuted for an unchanged reg_par (ospml_quad_units_wrong, tv_units_wrong). Initial scale: proved for mlem, for osem under the stated condition, refuted without it. |
| C168 | The median filters do not depend on the C library | partial | Corr.Qsort | Proved for uint16 and for floats without NaN, for every conforming qsort; refuted for floats with NaN (median_nan_wrong). The C standard leaves an inconsistent comparison function undefined; the theorems about NaN only assume that the result is an arrangement of the window. |
| C169 | Angles and centres of another number than the data are refused | partial | Recon.ArgProps | Proved for recon. Refuted for centres of project and for all arguments of the vector methods; exact conditions proved. One-dimensional arrays of centres. |
| C170 | A slice is reconstructed as if it were alone | partial | Iter.Alone, Recon.Kernels | Refuted for tikh with a reg_data that differs between slices and (C08) for art with different centres. gridrec and the vector methods are not covered here. Float rounding left out; a block with any slice without a real result counts as having none. |
| C171 | Reconstructing the projections of an object gives back the object | partial | Iter.HitData, Recon.RoundTrip | Refuted for objects that the views do not determine; exact arithmetic. num_gridx, num_gridy are those of the object, not the default for pad=True. |
| C172 | Stripe removal treats every sinogram as if it were alone | partial | Stripe.Alone, Stripe.Db2 | Refuted for remove_stripe_fw with the default number of levels and more sinograms than angles and columns; exact arithmetic. |
| C173 | Zeros around an object do not change its projections | partial | Ray.Border, Recon.Larger, Sim.Border | Refuted at angle 0 for objects with an odd last dimension; exact arithmetic. |
| C174 | normalize_bg and normalize_roi correct every projection as if it were alone | proved | Normalize.Alone | Exact arithmetic; the array is not in shared memory already. |
| C175 | Iterations can be continued with init_recon | partial | Iter.Continue, Recon.Continue | Proved for bart, sirt, osem, mlem (positive data and image), ospml_*, pml_* (where defined), grad and tikh with a given step, art with one centre. False for tv, which starts its dual variables at zero in every call and returns the extrapolated image, and for grad and tikh with the automatic step, whose first step in every call is 1/1000. Missing: art with several centres (there the result depends on the distribution, C08). Exact arithmetic. |
| C176 | ufo_fbp and ufo_dfi return or raise | partial | Wrap.Ufo | Every execution is finite and, if every image fits into its slice, ends with the call returned and every slice written. False otherwise: an image that does not fit ends the thread of _process_data before input_task.stop(), and the scheduler waits for ever; so with a grid that is not as wide as the detector the call never returns. UFO itself is an assumption stated in Verif/Wrap/UfoModel.lean. |
| C177 | remove_ring filters every slice or raises | partial | Ring.Call | With numbers for centres and thresholds and integers for theta_min and rwidth every argument reaches the parameter of its meaning and the call is removeRing, about which C43 to C45 and C74 speak. False otherwise: the conversion raises in the tasks, whose futures are dropped, so rwidth=15.5 or theta_min=30.0 returns the uncorrected slices without an exception; centres, thresholds and rwidth never make the call raise. |
| C178 | Normalising detector counts in float arithmetic | proved | Fl.Norm | IEEE binary32 with round to nearest even; numpy may divide the sum in float or in double (Before); NumExpr evaluates each operation in float32. |
| C179 | Equal flat or dark frames average to that frame | partial | Fl.Norm | Holds if the frames sum to 2**24 at most, so for 256 frames of 16 bits. Refuted for 257 frames of 65535: the float32 sum cannot be exact in any order, and the average is not 65535. |
| C180 | Iterating on its own projections keeps the image, bit for bit | proved | Fl.Own | The sign of zero is not distinguished. project uses the first centre for all slices, so all slices need that centre. osemF_own_short shows that the condition on short rays is needed; own_ordinary that images of ordinary magnitude meet all conditions. |
| C181 | The back-projection in float arithmetic | proved | Fl.Fbp | The lengths of the segments are given; the filter applied before is not part of it. |
| C182 | Bit for bit, a slice is reconstructed as if it were alone | proved | Fl.Alone | sirt and mlem are bart and osem with one subset. The order of the operations within a slice is fixed by the loops, so no algebra of floats is used. The segments are given here; C183 shows those of the float ray tracer are as these theorems ask. |
| C183 | The segments of the ray tracer in float arithmetic | proved | Fl.Len | sqrtf is the correctly rounded root, as IEEE 754 requires of it and the C library documents; sin and cos are any floats of at most 1 in size. The relative error is against the distance of the two computed crossing points, not of the exact ones. |
| C184 | The memory a call holds at its worst moment | proved | Heap.Peak | Bytes asked of malloc, calloc, new and fftw; the overhead of the allocator and the stack are not counted, and the sizes of the FFT plans are parameters. That a ray has no more crossings than the buffers hold is a hypothesis here, proved of the ray tracer in C29 and, in float arithmetic, in C183. The bound of workers_bytes is for all of the workers at their worst moment at once. |
| C185 | Negated data and other units, in float arithmetic | proved | Fl.Neg | The two zeros are one value in the model, so bit for bit is up to the sign of zeros. The segments are given (C183 has those of the float ray tracer). Scaling is proved of one pass; the iterative solvers are not covered by it. |
| C186 | Binning in float arithmetic | partial | Fl.Bin | False as stated at levels 3 to 23 (roundtripF_fails, with the value 8388611 from level 4 on); proved at levels 0, 1 and 2 (roundtripF_small). Levels above 23 need axes of more than 8 million entries and are not decided. The accuracy is proved up to level 13 for values up to 2^100. |
| C187 | Flat data in float arithmetic: remove_stripe_sf and normalize_bg | partial | Fl.Flat | The first sentence is false for sizes other than 1, 2 and 4 (sf_flat_changes, sf_default_changes, bg_flat_not_ones) and the documented value one of the right boundary is not reached (bg_right_not_one, bg_right_infinite); the remaining statements are proved. The accuracy bounds of remove_stripe_sf need size and the number of projections to be at most 16383. That every other window size changes some flat sinogram is proved for stacks of 1, 2 or 4 projections, and for 180 projections with the default window. |
| C188 | Projections without padding | partial | Sim.Width | False as stated in the first sentence for odd widths and for objects with a longer third axis; the iff theorems say exactly when it holds. Exact arithmetic. |
| C189 | Phase retrieval of turned and mirrored projections | partial | Phase.Mirror | Turning is proved. Mirroring is refuted for every even size and all parameters: the frequencies of _reciprocal_coord lie at half-integers on even grids, so opposite frequencies get different gains, and np.real keeps only the part that is symmetric under turning. |
| C190 | Phase retrieval amplifies nothing and loses nothing | proved | Phase.Energy | Exact arithmetic. The statement about the call has the restriction to even sizes of C46 and C75 (with odd sizes the padded frame may be no frame at all, see embed_collapses). |
| C191 | Preprocessing of mirrored projections | partial | Sym.Detect, Sym.Mirror | Refuted for remove_stripe_sf with even windows, for downsample with sizes that the bin does not divide (both as exact characterisations) and for stripes_detect3d, whose gradient looks two columns to the right. The statement about stripes_detect3d is for data without negative values and sizes that fit (C43). |
| C192 | Numbers of quantify_difference | partial | Bench.Quantify | Refuted: numpy.linalg.norm with ord=1 and ord=2 is a matrix norm for two-dimensional arrays. What the numbers detect is proved exactly (quantify_zero_iff): smoothing with 1, 2, 1 and reflection is injective, so the gradients vanish only for constant differences. The singular value is taken as the operator norm. |
| C193 | Pictures of image_comparison | partial | Bench.Compare | Proved for stacks of the right size and blocks 1 to ncompare; the other cases are refuted by the theorems listed. A solution that numpy would broadcast is not modelled. |
| C194 | A call of lprec | partial | Gpu.Call | The methods of the package lprec are a parameter. Refuted: int(center[0]) is used for all slices and theta is not passed on; the example of the docstring raises. |
| C195 | Files written by convert_image | partial | Bench.Convert | Refuted: out.save(fname, "jpeg") writes to fname, the name returned is fname plus the extension. Files PIL cannot decode and a failing save are not modelled. |
| C196 | pad for every axis and width | proved | Morph.PadNd | Data types (the conversion of constant_values, numexpr or numpy) are not modelled; _get_npad in exact arithmetic. |
| C197 | Stacks returned by rescale_image | partial | Bench.Rescale | skimage.transform.resize is a parameter. Refuted: a float factor or too many images return the argument unchanged. |
| C198 | Stripe removal of reordered and mirrored scans | partial | Sym.Order | Refuted for pixels of equal value in one column (the unstable or stable order of ties decides) and for windows of an even number of columns, which includes the default for 600 columns. Exact arithmetic. |
| C199 | Filters and masks of flipped stacks | partial | Sym.Filters, Sym.Outlier | Refuted for median_filter and remove_outlier with every even size (exact characterisations for slices larger than the window; remove_outlier for every positive threshold). remove_outlier is for axis 0. Exact arithmetic; circ_mask on pixels at exactly the radius depends on rounding in the code. |
| C200 | What import tomopy needs and what works without the optional library | partial | Load.Props | Refuted: unknown values of TOMOPY_FFT_IMPL are accepted and select numpy; errors of mkl_fft other than ImportError are not caught. Other Python packages are taken to be installed and a library that loads to have all its functions. |
| C201 | Accelerated reconstruction in several processes | proved | Recon.Procs | A worker that raises is taken not to have changed its images (in the serial branch it works in place). Killed processes (BrokenProcessPool) and pickling errors are not modelled. |
| C202 | The 3D median filters of turned and rescaled volumes | proved | Sym.Median3d | Float kernel in exact arithmetic, values without NaN, C order (views with exchanged axes are in Fortran order, see C58). The two exchanges of neighbouring axes generate all six orders. Flips are in C191. |
| C203 | Slice-wise median filters in other units | partial | Sym.Units2d | Refuted for negated data and every even size (exact characterisation). Exact arithmetic, values without NaN; remove_outlier for axis 0. outlier1d_affine also says that remove_outlier1d raises for the same arrays (always with numpy 1.23 or later, see C102). |
| C204 | Accelerated reconstructions in other units and another order of the projections | partial | Accel.Units | Refuted for mlem and every unit. CPU code in exact arithmetic; that a rotation maps multiples to multiples is a hypothesis, proved for quarter turns (quarter_homogeneous). Schedules of the thread pool are in C83. |
| C205 | Gain and offset of the detector pixels cancel in the normalisation | partial | Sym.Gain | Refuted for pixels whose flat and dark differ by less than 1e-6 (exact characterisation for normalize). Exact arithmetic; normalize_nf with averaging=mean (median raises, C57), for data where no pixel is at the floor. |
| C206 | Stripe removal gives the same result in every unit | partial | Sym.StripeUnits | Refuted for even windows with a change of sign and for offsets with the interpolation-based method. For the sorting-based method the order of ties is unknown, so tied pixels are only determined up to exchange. dead_fill_affine is the part of _rs_dead up to line 829, which is all of it for norm=False. Exact arithmetic. |
| C207 | Sorting-based stripe removal can be done before or after minus_log | partial | Sym.StripeLog | Refuted for even windows. Missing: pixels with equal values in a column (the order of ties is unknown). Real numbers; dim=1. |
