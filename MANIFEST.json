{
 "claims": [
  {
   "property": "C01",
   "status": "proved",
   "theorems": [
    "Tomopy.Mproc.ncore_slices_cover",
    "Tomopy.Mproc.ncore_slices_unique",
    "Tomopy.Mproc.job_slices_cover",
    "Tomopy.Mproc.ncore_slices_error_iff"
   ],
   "note": "negative ncore/nchunk not modelled"
  },
  {
   "property": "C02",
   "status": "proved",
   "theorems": [
    "Tomopy.Mproc.ncore_slices_balanced"
   ],
   "note": ""
  },
  {
   "property": "C03",
   "status": "proved",
   "theorems": [
    "Tomopy.Mproc.mpi_ranks_partition",
    "Tomopy.Mproc.mpi_ranks_cover"
   ],
   "note": "np.int failure on recent numpy ignored"
  },
  {
   "property": "C04",
   "status": "partial",
   "theorems": [
    "Tomopy.Mproc.ncore_nchunk_valid_partial",
    "Tomopy.Mproc.ncore_nchunk_idle_worker",
    "Tomopy.Mproc.ncore_nchunk_error_iff"
   ],
   "note": "\"no idle worker\" is false with automatic chunk size (refuted); everything else proved"
  },
  {
   "property": "C05",
   "status": "proved",
   "theorems": [
    "Tomopy.Mproc.distribute_jobs_schedule_independent",
    "Tomopy.Mproc.distribute_jobs_deterministic",
    "Tomopy.Mproc.distribute_jobs_frame",
    "Tomopy.Mproc.distribute_jobs_total"
   ],
   "note": "interleaving of atomic cell reads/writes of all chunks"
  },
  {
   "property": "C06",
   "status": "proved",
   "theorems": [
    "Tomopy.Mproc.run_on_host_exactly_once",
    "Tomopy.Mproc.run_on_host_completes",
    "Tomopy.Mproc.run_on_host_serial_drops"
   ],
   "note": "pool branch; in the serial branch a raising chunk is dropped (run_on_host_serial_drops)"
  },
  {
   "property": "C07",
   "status": "partial",
   "theorems": [
    "Tomopy.Mproc.inplace_result_partial",
    "Tomopy.Mproc.inplace_out_shared_partial",
    "Tomopy.Mproc.inplace_out_lost",
    "Tomopy.Mproc.inplace_out_not_written"
   ],
   "note": "false when out=arr lives in ordinary memory (refuted in general); holds with out omitted or shared"
  },
  {
   "property": "C08",
   "status": "partial",
   "theorems": [
    "Tomopy.Recon.recon_distribution_independent_partial",
    "Tomopy.Recon.recon_same_for_all_distributions",
    "Tomopy.Recon.recon_shared_center_equal_partial",
    "Tomopy.Recon.recon_total",
    "Tomopy.Recon.recon_depends_on_ncore"
   ],
   "note": "true for kernels that use center[s]; refuted for art and gridrec with per-slice centres; with equal centres it holds for those too. The workers are taken not to raise; for nchunk=0 the C wrappers do raise (C134). That the C functions are kernels of these kinds is C170, which also refutes the claim for tikh with reg_data. Process-pool branch not modelled"
  },
  {
   "property": "C09",
   "status": "proved",
   "theorems": [
    "Tomopy.Recon.recon_check_history_independent",
    "Tomopy.Recon.recon_accepts_iff",
    "Tomopy.Recon.recon_table_grows"
   ],
   "note": ""
  },
  {
   "property": "C10",
   "status": "partial",
   "theorems": [
    "Tomopy.Recon.env_restored_partial",
    "Tomopy.Recon.env_restored_iff",
    "Tomopy.Recon.env_leak_limits_later",
    "Tomopy.Recon.env_history_partial"
   ],
   "note": "false when a worker raises (refuted, exact condition proved)"
  },
  {
   "property": "C11",
   "status": "partial",
   "theorems": [
    "Tomopy.Recon.recon_defaults",
    "Tomopy.Recon.recon_shape_partial",
    "Tomopy.Recon.recon_init_shape_unchecked",
    "Tomopy.Recon.recon_theta_mismatch"
   ],
   "note": "shape claim false when init_recon is given (not checked)"
  },
  {
   "property": "C12",
   "status": "proved",
   "theorems": [
    "Tomopy.Recon.sinogram_order_equiv",
    "Tomopy.Recon.init_tomo_entries",
    "Tomopy.Recon.swap01_involutive"
   ],
   "note": ""
  },
  {
   "property": "C13",
   "status": "proved",
   "theorems": [
    "Tomopy.Mproc.numexpr_threads_restored",
    "Tomopy.Mproc.numexpr_threads_bounded",
    "Tomopy.Mproc.numexpr_threads_in_force"
   ],
   "note": ""
  },
  {
   "property": "C14",
   "status": "proved",
   "theorems": [
    "Tomopy.Normalize.normalize_formula",
    "Tomopy.Normalize.denominator_eq_max",
    "Tomopy.Normalize.normalize_reference",
    "Tomopy.Normalize.normalize_cutoff",
    "Tomopy.Normalize.normalize_mode"
   ],
   "note": "exact arithmetic; stacks non-empty"
  },
  {
   "property": "C15",
   "status": "partial",
   "theorems": [
    "Tomopy.Normalize.normalize_bg_spec",
    "Tomopy.Normalize.airLine_pos",
    "Tomopy.Normalize.normalize_bg_flattens",
    "Tomopy.Normalize.normalize_bg_affine_partial",
    "Tomopy.Normalize.normalize_bg_scale_partial",
    "Tomopy.Normalize.normalize_bg_affine_air2",
    "Tomopy.Normalize.normalize_bg_scale_negative",
    "Tomopy.Normalize.normalize_bg_overrun"
   ],
   "note": "formula, row independence and memory safety proved for 1<=air<=width, width>=2; scaling by negative factors and flattening of affine rows with air>1 refuted"
  },
  {
   "property": "C16",
   "status": "partial",
   "theorems": [
    "Tomopy.Normalize.nf_every_projection_once",
    "Tomopy.Normalize.nf_nearest_group",
    "Tomopy.Normalize.nf_not_nearest_by_index"
   ],
   "note": "coverage proved; nearest proved when a flat at location l precedes projection l, refuted when distance is measured by index"
  },
  {
   "property": "C17",
   "status": "proved",
   "theorems": [
    "Tomopy.Morph.pad_check",
    "Tomopy.Morph.pad_correct",
    "Tomopy.Morph.getNpad_spec"
   ],
   "note": "one line along the axis (slices are full along the other axes); npad >= 0"
  },
  {
   "property": "C18",
   "status": "partial",
   "theorems": [
    "Tomopy.Morph.downsample_axis0",
    "Tomopy.Morph.downsample_axis1_partial",
    "Tomopy.Morph.downsample_axis2_partial",
    "Tomopy.Morph.downsample_safe",
    "Tomopy.Morph.downsample_drift",
    "Tomopy.Morph.downsample_negative_axis"
   ],
   "note": "true along axis 0 and when the bin divides the length; refuted otherwise (rows drift), and for negative axes"
  },
  {
   "property": "C19",
   "status": "proved",
   "theorems": [
    "Tomopy.Morph.upsample_spec",
    "Tomopy.Morph.downsample_upsample"
   ],
   "note": "axes 0, 1, 2"
  },
  {
   "property": "C20",
   "status": "partial",
   "theorems": [
    "Tomopy.Morph.stitch_left_partial",
    "Tomopy.Morph.stitch_right_partial",
    "Tomopy.Morph.sino360_rows",
    "Tomopy.Morph.stitch_right_zero",
    "Tomopy.Morph.stitch_full_overlap",
    "Tomopy.Morph.stitch_one_pixel",
    "Tomopy.Morph.stitch_unknown_rotation"
   ],
   "note": "true for 2 <= overlap < dz (left also 0); the remaining overlaps are refuted"
  },
  {
   "property": "C21",
   "status": "proved",
   "theorems": [
    "Tomopy.Corr.nonfinite_projection",
    "Tomopy.Corr.nonfinite_order_independent",
    "Tomopy.Corr.nonfinite_stack",
    "Tomopy.Corr.nonfinite_stack_error"
   ],
   "note": "exact arithmetic; infinities and NaN both count as non-finite; callback not modelled"
  },
  {
   "property": "C22",
   "status": "partial",
   "theorems": [
    "Tomopy.Corr.adjust_range_partial",
    "Tomopy.Corr.adjust_range_default",
    "Tomopy.Corr.adjust_range_nan",
    "Tomopy.Corr.remove_nan_spec",
    "Tomopy.Corr.remove_neg_spec"
   ],
   "note": "adjust_range: proved for NaN-free arrays; with a NaN nothing is clamped (refuted)"
  },
  {
   "property": "C23",
   "status": "proved",
   "theorems": [
    "Tomopy.Corr.remove_outlier_spec",
    "Tomopy.Corr.scipyWindow_reflect",
    "Tomopy.Corr.reflect_spec"
   ],
   "note": "scipy median_filter modelled as rank size^2/2 with reflecting border"
  },
  {
   "property": "C24",
   "status": "proved",
   "theorems": [
    "Tomopy.Corr.median_filter3d_spec",
    "Tomopy.Corr.remove_outlier3d_spec",
    "Tomopy.Corr.median3d_in_bounds",
    "Tomopy.Corr.median3d_schedule_independent",
    "Tomopy.Corr.median3d_exists",
    "Tomopy.Corr.halfSize_spec"
   ],
   "note": "float kernel; C int overflow of dimX*dimY not modelled"
  },
  {
   "property": "C25",
   "status": "partial",
   "theorems": [
    "Tomopy.Corr.dtype_dispatch_partial",
    "Tomopy.Corr.dtype_dispatch_wrong"
   ],
   "note": "false for every dtype other than float32/uint16 (refuted)"
  },
  {
   "property": "C26",
   "status": "proved",
   "theorems": [
    "Tomopy.Inpaint.inpaint_outside_mask",
    "Tomopy.Inpaint.inpaint_empty_mask",
    "Tomopy.Inpaint.inpaint_in_bounds",
    "Tomopy.Inpaint.inpaint_pass_parallel",
    "Tomopy.Inpaint.inpaint_pass_exists",
    "Tomopy.Inpaint.geo2_part",
    "Tomopy.Inpaint.geo3_part"
   ],
   "note": "random numbers are arbitrary; C undefined behaviour (size 0) is reported as no result"
  },
  {
   "property": "C27",
   "status": "partial",
   "theorems": [
    "Tomopy.Inpaint.inpaint_fills_2d_partial",
    "Tomopy.Inpaint.inpaint_fills_3d_partial",
    "Tomopy.Inpaint.gauss_pos",
    "Tomopy.Inpaint.median3_leaves_hole",
    "Tomopy.Inpaint.median2_not_median"
   ],
   "note": "mean and random proved in 2D and 3D; median false in 2D (not a median) and 3D (fills with 0), refuted"
  },
  {
   "property": "C28",
   "status": "proved",
   "theorems": [
    "Tomopy.Corr.circ_mask_spec",
    "Tomopy.Corr.circ_mask_idempotent",
    "Tomopy.Corr.circ_mask_monotone"
   ],
   "note": "axes 0, 1, 2"
  },
  {
   "property": "C29",
   "status": "proved",
   "theorems": [
    "Tomopy.Ray.trace_safe",
    "Tomopy.Ray.trace_safe_project",
    "Tomopy.Ray.rayTrace_safe",
    "Tomopy.Ray.crossings_le"
   ],
   "note": "exact arithmetic; sin/cos of the real angle; every angle, centre, grid and detector pixel"
  },
  {
   "property": "C30",
   "status": "partial",
   "theorems": [
    "Tomopy.Ray.rayTrace_spec_partial",
    "Tomopy.Ray.crossings_ordered",
    "Tomopy.Ray.segments_sum",
    "Tomopy.Ray.segment_charged",
    "Tomopy.Ray.mem_crossings",
    "Tomopy.Ray.sortIntersections_perm",
    "Tomopy.Ray.trace_once",
    "Tomopy.Ray.calcQuadrant_flag",
    "Tomopy.Ray.calcQuadrant_wrong_near_axis"
   ],
   "note": "proved for angles further than 1/ipi_c from the axes; inside that window calc_quadrant returns the wrong flag (refuted)"
  },
  {
   "property": "C31",
   "status": "proved",
   "theorems": [
    "Tomopy.Sim.project_spec",
    "Tomopy.Sim.project_total",
    "Tomopy.Sim.project_linear_py",
    "Tomopy.Sim.project_slicewise_py",
    "Tomopy.Sim.project_range_py"
   ],
   "note": "exact arithmetic"
  },
  {
   "property": "C32",
   "status": "partial",
   "theorems": [
    "Tomopy.Iter.fbp_adjoint_partial",
    "Tomopy.Iter.fbp_adjoint_first_center",
    "Tomopy.Iter.fbp_not_adjoint_per_slice_center"
   ],
   "note": "proved when all slices have the same centre; with per-slice centres the loop is not the adjoint because project uses center[0] (refuted)"
  },
  {
   "property": "C33",
   "status": "proved",
   "theorems": [
    "Tomopy.Iter.subsets_partition",
    "Tomopy.Iter.subsets_balanced",
    "Tomopy.Iter.subsets_count",
    "Tomopy.Iter.blocks_perm",
    "Tomopy.Iter.blocks_single",
    "Tomopy.Iter.mlem_eq_osem",
    "Tomopy.Iter.sirt_eq_bart",
    "Tomopy.Iter.pml_eq_ospml"
   ],
   "note": ""
  },
  {
   "property": "C34",
   "status": "proved",
   "theorems": [
    "Tomopy.Iter.osem_positive",
    "Tomopy.Iter.mlem_positive",
    "Tomopy.Iter.mlem_counts",
    "Tomopy.Iter.osem_consistent_fixed",
    "Tomopy.Iter.osem_unseen",
    "Tomopy.Iter.mlem_zero_data_undefined"
   ],
   "note": "exact arithmetic, any geometry; with zero data the second iteration divides 0 by 0 (mlem_zero_data_undefined)"
  },
  {
   "property": "C35",
   "status": "proved",
   "theorems": [
    "Tomopy.Iter.kacz_hits",
    "Tomopy.Iter.artIter_eq",
    "Tomopy.Iter.art_last_ray",
    "Tomopy.Iter.art_consistent_fixed",
    "Tomopy.Iter.art_distance",
    "Tomopy.Iter.art_unseen",
    "Tomopy.Iter.art_tracer",
    "Tomopy.Iter.tracer_geomOnce",
    "Tomopy.Iter.art_twice_overshoots"
   ],
   "note": "exact arithmetic; the geometry hypotheses are proved for the tracer when no angle is strictly within 1/ipi_c of an axis (C30)"
  },
  {
   "property": "C36",
   "status": "partial",
   "theorems": [
    "Tomopy.Iter.bart_consistent_fixed",
    "Tomopy.Iter.sirt_consistent_fixed",
    "Tomopy.Iter.bart_unseen",
    "Tomopy.Iter.bart_frame",
    "Tomopy.Iter.bart_projection_fixed",
    "Tomopy.Iter.vector_consistent_fixed_partial",
    "Tomopy.Iter.vector_unseen_undefined",
    "Tomopy.Iter.vector2_consistent_fixed",
    "Tomopy.Iter.vector3_consistent_fixed"
   ],
   "note": "proved for bart, sirt; vector divides 0/0 as soon as one pixel is unseen (refuted for all inputs), otherwise proved; vector2/vector3 proved with all data in the geometry of the first set (see C65)"
  },
  {
   "property": "C37",
   "status": "partial",
   "theorems": [
    "Tomopy.Iter.gradient_spec",
    "Tomopy.Iter.grad_exact_fixed",
    "Tomopy.Iter.grad_one_iteration",
    "Tomopy.Iter.gradScale_pos",
    "Tomopy.Iter.tikh_exact_fixed_partial",
    "Tomopy.Iter.tikh_solution_not_fixed",
    "Tomopy.Iter.grad_auto_step_undefined",
    "Tomopy.Iter.grad_bb_step",
    "Tomopy.Iter.grad_bb_defined",
    "Tomopy.Iter.grad_iteration"
   ],
   "note": "grad with fixed step proved; tikh with the solution as regulariser data refuted (data are not scaled); with the automatic step an exact start gives 0/0"
  },
  {
   "property": "C38",
   "status": "partial",
   "theorems": [
    "Tomopy.Iter.ospml_block",
    "Tomopy.Iter.ospml_positive",
    "Tomopy.Iter.ospml_quad_positive",
    "Tomopy.Iter.ospml_hybrid_positive",
    "Tomopy.Iter.ospml_constant_fixed",
    "Tomopy.Iter.penalty_spec",
    "Tomopy.Iter.tasks_in_bounds",
    "Tomopy.Iter.pmlRoot_unique",
    "Tomopy.Iter.ospml_one_row_out_of_bounds",
    "Tomopy.Iter.ospml_one_row_undefined",
    "Tomopy.Iter.ospml_zero_image_undefined",
    "Tomopy.Iter.ospml_no_regularisation"
   ],
   "note": "proved for grids of at least 2 x 2 pixels and non-zero line integrals; refuted for images one pixel wide (read out of bounds) and for zero line integrals (division by zero)"
  },
  {
   "property": "C39",
   "status": "partial",
   "theorems": [
    "Tomopy.Gridrec.gridrec_in_bounds_partial",
    "Tomopy.Gridrec.gridrec_initialised_partial",
    "Tomopy.Gridrec.gridrec_writes_once",
    "Tomopy.Gridrec.pdim_spec",
    "Tomopy.Gridrec.L_value",
    "Tomopy.Gridrec.L2_value",
    "Tomopy.Gridrec.gridrec_out_of_bounds",
    "Tomopy.Gridrec.gridrec_default_grid_out_of_bounds"
   ],
   "note": "All accesses in bounds and initialised when both grid sizes are below pdim; every output pixel written once for all sizes. False for larger grids, in particular the default grid of a power-of-two detector: winv is read out of bounds."
  },
  {
   "property": "C40",
   "status": "partial",
   "theorems": [
    "Tomopy.Stripe.sf_in_bounds",
    "Tomopy.Stripe.sf_result",
    "Tomopy.Stripe.sf_constant_mean_partial",
    "Tomopy.Stripe.sf_adds_column_offsets",
    "Tomopy.Stripe.sf_size_zero",
    "Tomopy.Stripe.sf_size_negative",
    "Tomopy.Stripe.sf_distributed"
   ],
   "note": "Proved for every stack, every positive window size and every distribution over workers. The size argument is not checked: 0 makes every pixel NaN (sf_size_zero), a negative one subtracts the whole column mean (sf_size_negative)."
  },
  {
   "property": "C41",
   "status": "partial",
   "theorems": [
    "Tomopy.Stripe.rs_sort_value",
    "Tomopy.Stripe.rs_sort_neutral",
    "Tomopy.Stripe.rs_sort_keeps_order",
    "Tomopy.Stripe.rs_sort_removes_stripe",
    "Tomopy.Stripe.rs_sort_default_size",
    "Tomopy.Stripe.rs_sort_distributed",
    "Tomopy.Stripe.rs_sort_tie_dependent",
    "Tomopy.Stripe.rs_sort_unique_partial"
   ],
   "note": "Proved for every sinogram with ties, every filter and every correct argsort. The value given to tied pixels depends on how the unstable argsort orders them (rs_sort_tie_dependent); without ties the result is unique."
  },
  {
   "property": "C42",
   "status": "partial",
   "theorems": [
    "Tomopy.Stripe.mask_args_checked",
    "Tomopy.Stripe.mask_args_ok",
    "Tomopy.Stripe.mask_in_bounds_partial",
    "Tomopy.Stripe.mask_result_partial",
    "Tomopy.Stripe.clean_only_removes",
    "Tomopy.Stripe.merge_only_adds_partial",
    "Tomopy.Stripe.mask_schedule_independent_partial",
    "Tomopy.Stripe.mask_empty_partial",
    "Tomopy.Stripe.mask_run_exists",
    "Tomopy.Stripe.mask_out_of_bounds"
   ],
   "note": "Proved for every volume and schedule when dz >= 4*min_stripe_width. Without that the claim is false: mask_out_of_bounds shows that vertical merging reads outside the mask although the arguments pass the checks."
  },
  {
   "property": "C43",
   "status": "partial",
   "theorems": [
    "Tomopy.Stripe.detect_args_checked",
    "Tomopy.Stripe.detect_in_bounds_partial",
    "Tomopy.Stripe.detect_result_partial",
    "Tomopy.Stripe.detect_range_partial",
    "Tomopy.Stripe.detect_schedule_independent_partial",
    "Tomopy.Stripe.detect_run_exists",
    "Tomopy.Stripe.detect_negative",
    "Tomopy.Stripe.detect_out_of_bounds",
    "Tomopy.Stripe.detect_not_median"
   ],
   "note": "Bounds, formula and range proved for every volume and schedule for radii between 1 and half of each dimension and at least 4 columns. False parts of the claim are refuted: the vertical filter takes rank size-1, not the median (detect_not_median); negative projections give negative weights (detect_negative); an unchecked radius reads outside the array (detect_out_of_bounds). radius = 0 (0/0 in C) is not modelled."
  },
  {
   "property": "C44",
   "status": "partial",
   "theorems": [
    "Tomopy.Ring.quickSort_sorts",
    "Tomopy.Ring.bubble_sorts",
    "Tomopy.Ring.medRow_result_partial",
    "Tomopy.Ring.meanWrap_result",
    "Tomopy.Ring.meanReflect_result_partial",
    "Tomopy.Ring.ringFilter_result_partial",
    "Tomopy.Ring.aziOk_of_theta",
    "Tomopy.Ring.window_inner",
    "Tomopy.Ring.median_right_edge",
    "Tomopy.Ring.median_out_of_bounds",
    "Tomopy.Ring.median_radius_zero",
    "Tomopy.Ring.mean_first_row",
    "Tomopy.Ring.mean_reflect_out_of_bounds",
    "Tomopy.Ring.ringFilter_out_of_bounds",
    "Tomopy.Ring.ringFilter_default_small"
   ],
   "note": "Rolling filters equal their direct windows for every image if the radius is at least 1 and the first window ends inside the row. Refuted otherwise: with the default rwidth the filter reads behind the polar image for slices up to 366 pixels (ringFilter_default_small), rwidth=0 reads behind the work array, zeros from outside the image enter at the right edge, and the zero masking is not applied to the first row."
  },
  {
   "property": "C45",
   "status": "proved",
   "theorems": [
    "Tomopy.Ring.polar_reads_inside",
    "Tomopy.Ring.inverse_reads_inside",
    "Tomopy.Ring.remove_ring_chunks",
    "Tomopy.Ring.realTrig_ok",
    "Tomopy.Ring.polar_centre_outside"
   ],
   "note": "exact arithmetic; sine, cosine, arctangent and square root enter as arbitrary values in their range"
  },
  {
   "property": "C46",
   "status": "partial",
   "theorems": [
    "Tomopy.Phase.embed_eq",
    "Tomopy.Phase.embed_extended_partial",
    "Tomopy.Phase.extended_middle",
    "Tomopy.Phase.retrieve_distributed",
    "Tomopy.Phase.padWidth_even",
    "Tomopy.Phase.padWidth_odd",
    "Tomopy.Phase.padWidth_pos",
    "Tomopy.Phase.padWidth_zero",
    "Tomopy.Phase.retrieve_phase_padded_partial",
    "Tomopy.Phase.retrieve_phase_unpadded",
    "Tomopy.Phase.embed_collapses"
   ],
   "note": "Proved with padding: the frame is the projection continued by its border pixels, whatever the shared work array held, for all cores, chunks and schedules (even sizes, or pad amount of at least two pixels). Refuted for pad=False: prj[-0:] overwrites the whole frame and every projection becomes a constant, its last pixel times the gain at frequency 0 (retrieve_phase_unpadded); the same with padding if the pad width is 0."
  },
  {
   "property": "C47",
   "status": "partial",
   "theorems": [
    "Tomopy.Center.mem_coarseList",
    "Tomopy.Center.coarse_window_partial",
    "Tomopy.Center.coarse_window_int",
    "Tomopy.Center.coarse_window_leaves",
    "Tomopy.Center.search_coarse",
    "Tomopy.Center.fine_window_partial",
    "Tomopy.Center.fine_window_divides",
    "Tomopy.Center.fine_window_leaves",
    "Tomopy.Center.fineCen_mem",
    "Tomopy.Center.search_fine",
    "Tomopy.Center.shifted_mirror",
    "Tomopy.Center.metrics_distributed",
    "Tomopy.Center.mask_spec_partial",
    "Tomopy.Center.metric_nonneg",
    "Tomopy.Center.find_center_vo_partial",
    "Tomopy.Center.pick_ten"
   ],
   "note": "Coarse candidates are exactly the multiples of 1/2 in the window clipped to the detector (whole limits); both searches return a minimiser; every coarse candidate compares the sinogram with its mirror image about the candidate. Refuted: for large data with smin > 0 candidates below smin are tried (coarse_window_leaves); if the step does not divide the fine window the last candidate lies beyond it and may be off the detector (fine_window_leaves). Gaussian and spline filters enter as arbitrary functions."
  },
  {
   "property": "C48",
   "status": "partial",
   "theorems": [
    "Tomopy.Files.center_name",
    "Tomopy.Files.fmt2_inj",
    "Tomopy.Files.fmt2_distinct",
    "Tomopy.Files.write_center_files_partial",
    "Tomopy.Files.write_center_overwrites"
   ],
   "note": "Proved for steps above 1/100: every centre has its own file holding its image, for every folder and previous contents. Refuted for smaller steps: names have two decimals, so later images replace earlier ones (write_center_overwrites)."
  },
  {
   "property": "C49",
   "status": "partial",
   "theorems": [
    "Tomopy.Gpu.ids_partition",
    "Tomopy.Gpu.narrow_positive",
    "Tomopy.Gpu.wide_raises",
    "Tomopy.Gpu.gpu_exclusive_partial",
    "Tomopy.Gpu.steps_end",
    "Tomopy.Gpu.gpu_complete_partial",
    "Tomopy.Gpu.gpu_can_end",
    "Tomopy.Gpu.gpu_leaks"
   ],
   "note": "For every interleaving of any number of threads, if no reconstruction raises: no two threads share a GPU, every execution ends, each chunk is processed once, flags and lock are released. Refuted: an exception leaves the flag set, and later chunks fail with an unbound variable (gpu_leaks); slices wider than 4096 divide by zero (wide_raises). BUSYGPUS is one global: two simultaneous lprec calls are not modelled."
  },
  {
   "property": "C50",
   "status": "partial",
   "theorems": [
    "Tomopy.Probe.scan_axis_partial",
    "Tomopy.Probe.Covers.unique",
    "Tomopy.Probe.scan_probe_frames",
    "Tomopy.Probe.rect_scan_probe_partial",
    "Tomopy.Probe.scan_axis_hangs",
    "Tomopy.Probe.scan_axis_zero"
   ],
   "note": "Proved for positive shifts and probes that exceed the projection by at most one shift. Refuted otherwise: the trimming loop never ends for a larger probe (scan_axis_hangs), and the default shift of a one-pixel probe is zero, which raises (scan_axis_zero)."
  },
  {
   "property": "C51",
   "status": "proved",
   "theorems": [
    "Tomopy.Sim.pad_width",
    "Tomopy.Sim.pad_covers",
    "Tomopy.Sim.getCenter_length",
    "Tomopy.Sim.getCenter_default",
    "Tomopy.Sim.getCenter_scalar"
   ],
   "note": ""
  },
  {
   "property": "C52",
   "status": "partial",
   "theorems": [
    "Tomopy.Align.drift_outcome",
    "Tomopy.Align.drift_near_partial",
    "Tomopy.Align.drift_raises",
    "Tomopy.Align.drift_immediate",
    "Tomopy.Align.round_image",
    "Tomopy.Align.kernels_mem"
   ],
   "note": "The search ends for every sequence of detections. Success gives corners within 15.1 pixels of the reference. Refuted: when an image is never found the loop raises IndexError (counter > len(kernels) instead of >=), so the documented fallback is unreachable (drift_raises). Corner detection itself is a parameter."
  },
  {
   "property": "C53",
   "status": "partial",
   "theorems": [
    "Tomopy.Cdf.cdf_empty",
    "Tomopy.Cdf.cdf_partial",
    "Tomopy.Cdf.cdf_exceeds_one",
    "Tomopy.Cdf.cdf_single",
    "Tomopy.Cdf.cdf_share_partial",
    "Tomopy.Cdf.subsample_spec",
    "Tomopy.Cdf.subsample_nonpos"
   ],
   "note": "Sorted points, monotone values starting at 0 and empty input proved for all data. Refuted: the last value is n/(n-1) instead of 1 for every n (cdf_exceeds_one), a single datum divides by zero (cdf_single), and non-positive steps raise."
  },
  {
   "property": "C54",
   "status": "proved",
   "theorems": [
    "Tomopy.Phantom.mask_iff",
    "Tomopy.Phantom.phantom_sum",
    "Tomopy.Phantom.phantom_perm",
    "Tomopy.Phantom.phantom_append",
    "Tomopy.Phantom.shepp3d_nonneg",
    "Tomopy.Phantom.rotate_isometry",
    "Tomopy.Phantom.mask_degenerate",
    "Tomopy.Phantom.coord_range"
   ],
   "note": "Exact real arithmetic. Ellipsoids are the stretched, moved and turned unit balls; the offset is applied before the rotation. A degenerate ellipsoid adds nothing."
  },
  {
   "property": "C55",
   "status": "partial",
   "theorems": [
    "Tomopy.Files.addExt_suffix",
    "Tomopy.Files.addExt_idem",
    "Tomopy.Files.addExt_present",
    "Tomopy.Files.addExt_missing",
    "Tomopy.Files.tiffPath_digit",
    "Tomopy.Files.tiff_name",
    "Tomopy.Files.tiff_distinct"
   ],
   "note": "Different whole numbers give different files for every base name and extension without a slash; the name ends with the extension exactly once. Refuted: a base name ending with the letters of the extension gets no extension (addExt_missing). Directory creation is not modelled."
  },
  {
   "property": "C56",
   "status": "proved",
   "theorems": [
    "Tomopy.Normalize.normalize_roi_window",
    "Tomopy.Normalize.normalize_roi_spec",
    "Tomopy.Normalize.normalize_roi_idempotent"
   ],
   "note": ""
  },
  {
   "property": "C57",
   "status": "partial",
   "theorems": [
    "Tomopy.Normalize.nf_median_raises",
    "Tomopy.Normalize.nf_mode_partial"
   ],
   "note": "false for median: always TypeError"
  },
  {
   "property": "C58",
   "status": "partial",
   "theorems": [
    "Tomopy.Corr.median_layout_partial",
    "Tomopy.Corr.median_layout_wrong"
   ],
   "note": "false for Fortran-ordered input of median_filter3d (refuted)"
  },
  {
   "property": "C59",
   "status": "partial",
   "theorems": [
    "Tomopy.Inpaint.inpaint_one_iteration_partial",
    "Tomopy.Inpaint.inpaint_iterations_ignored_2d",
    "Tomopy.Inpaint.inpaint_iterations_ignored_3d"
   ],
   "note": "false: iterations > 1 change nothing, proved for all inputs"
  },
  {
   "property": "C60",
   "status": "partial",
   "theorems": [
    "Tomopy.Inpaint.inpaint_window_width",
    "Tomopy.Inpaint.inpaint_size_zero"
   ],
   "note": "false: the window is 2*size+1 wide; size 0 crashes (both proved)"
  },
  {
   "property": "C61",
   "status": "partial",
   "theorems": [
    "Tomopy.Inpaint.inpaint_call_partial",
    "Tomopy.Inpaint.inpaint_singleton_rejected",
    "Tomopy.Inpaint.inpaint_mask_shape_unchecked"
   ],
   "note": "false with another singleton dimension; mask shape unchecked"
  },
  {
   "property": "C62",
   "status": "partial",
   "theorems": [
    "Tomopy.Sim.project_own_center_partial",
    "Tomopy.Sim.project_own_center_chunk_partial",
    "Tomopy.Sim.project_depends_on_nchunk"
   ],
   "note": "true for one slice per chunk or equal centres; refuted otherwise"
  },
  {
   "property": "C63",
   "status": "partial",
   "theorems": [
    "Tomopy.Iter.subsets_last"
   ],
   "note": "false: the last subset always violates the assertion (refuted for all inputs)"
  },
  {
   "property": "C64",
   "status": "partial",
   "theorems": [
    "Tomopy.Iter.osRun_zero_blocks",
    "Tomopy.Iter.osRun_short_ind"
   ],
   "note": "false: both are undefined behaviour (refuted)"
  },
  {
   "property": "C65",
   "status": "partial",
   "theorems": [
    "Tomopy.Iter.vector2_same_geometry_partial",
    "Tomopy.Iter.vector2_ignores_second_geometry",
    "Tomopy.Iter.vector3_ignores_other_geometry",
    "Tomopy.Iter.vector2_own_angles_changed",
    "Tomopy.Iter.vecAcc_value"
   ],
   "note": "false: angles and centres of the second and third set are ignored (proved)"
  },
  {
   "property": "C66",
   "status": "partial",
   "theorems": [
    "Tomopy.Iter.vecPass_components_partial",
    "Tomopy.Iter.vector2_axis_ignored"
   ],
   "note": "false: update addresses are hard-wired"
  },
  {
   "property": "C67",
   "status": "partial",
   "theorems": [
    "Tomopy.Iter.vecAddr_cube_partial",
    "Tomopy.Iter.vecAddr_inj",
    "Tomopy.Iter.vecAddr_out_of_bounds",
    "Tomopy.Iter.vecAddr_alias",
    "Tomopy.Iter.vecAddr_voxel"
   ],
   "note": "true for cubes; refuted when the number of slices differs from the width"
  },
  {
   "property": "C68",
   "status": "partial",
   "theorems": [
    "Tomopy.Iter.tv_constant_fixed",
    "Tomopy.Iter.tv_zero_lambda_undefined"
   ],
   "note": "proved for non-zero parameter; parameter 0 gives 0/0 (refuted)"
  },
  {
   "property": "C69",
   "status": "partial",
   "theorems": [
    "Tomopy.Iter.tvGrad_value",
    "Tomopy.Iter.tvDiv_adjoint",
    "Tomopy.Iter.tvDiv_tvGrad",
    "Tomopy.Iter.tvProjLoop_ball",
    "Tomopy.Iter.tv_dual_support",
    "Tomopy.Iter.tv_neighbours_partial",
    "Tomopy.Iter.tv_neighbours_wrong"
   ],
   "note": "adjointness and projection proved; neighbours right only on square grids (refuted otherwise)"
  },
  {
   "property": "C70",
   "status": "partial",
   "theorems": [
    "Tomopy.Gridrec.gridrec_pixel_partial",
    "Tomopy.Gridrec.gridrec_slices_partial",
    "Tomopy.Gridrec.gridrec_slices_equal_centres",
    "Tomopy.Gridrec.gridrec_even_slices",
    "Tomopy.Gridrec.gridrec_linear",
    "Tomopy.Gridrec.gridrec_odd_centre_ignored",
    "Tomopy.Gridrec.gridrec_second_centre_wrong"
   ],
   "note": "Independence and linearity proved; odd slices use the centre of the slice before them, shown by a concrete call."
  },
  {
   "property": "C71",
   "status": "partial",
   "theorems": [
    "Tomopy.Gridrec.gridrec_pixel_partial",
    "Tomopy.Gridrec.legendre_spec",
    "Tomopy.Gridrec.legendre_reads",
    "Tomopy.Gridrec.wtbl_lt",
    "Tomopy.Gridrec.wtbl_pos",
    "Tomopy.Gridrec.wrapIdx_axis",
    "Tomopy.Gridrec.correction_partial",
    "Tomopy.Gridrec.correction_asymmetric"
   ],
   "note": "Table and sign proved; the window is taken one pixel off the axis, so opposite pixels get different factors."
  },
  {
   "property": "C72",
   "status": "partial",
   "theorems": [
    "Tomopy.Gridrec.filter_below_ramp_partial",
    "Tomopy.Gridrec.parzen_negative",
    "Tomopy.Gridrec.unknown_filter_is_shepp"
   ],
   "note": "Proved for Parzen cutoffs of at least one half and all cutoffs of the others; Parzen is negative beyond a smaller cutoff, and unknown names select shepp."
  },
  {
   "property": "C73",
   "status": "partial",
   "theorems": [
    "Tomopy.Gridrec.custom_filter_partial",
    "Tomopy.Gridrec.custom_filter_out_of_bounds",
    "Tomopy.Gridrec.custom_default_out_of_bounds",
    "Tomopy.Gridrec.documented_length",
    "Tomopy.Gridrec.documented_length_too_short"
   ],
   "note": "Proved for filter_par of sufficient length; the length is not checked."
  },
  {
   "property": "C74",
   "status": "partial",
   "theorems": [
    "Tomopy.Ring.remove_ring_slice_partial",
    "Tomopy.Ring.remove_ring_constant_partial",
    "Tomopy.Ring.remove_ring_ignores_input"
   ],
   "note": "Proved for slices wide enough for the ring width (otherwise ring_filter reads out of bounds, see C44). False for a separate output array: then rec is ignored and the old contents of out are filtered (remove_ring_ignores_input)."
  },
  {
   "property": "C75",
   "status": "partial",
   "theorems": [
    "Tomopy.Phase.filter_linear",
    "Tomopy.Phase.filter_sum",
    "Tomopy.Phase.filter_const",
    "Tomopy.Phase.gain_even_partial",
    "Tomopy.Phase.gain_odd_lt_one",
    "Tomopy.Phase.retrieve_phase_constant_partial",
    "Tomopy.Phase.retrieve_phase_constant_odd"
   ],
   "note": "Linearity and the sum rule (sum multiplied by the gain at frequency 0) for all frames. The gain is 1 for frames of even size; refuted for odd sizes: fftshift misplaces frequency 0 and constant projections come back too small (retrieve_phase_constant_odd)."
  },
  {
   "property": "C76",
   "status": "partial",
   "theorems": [
    "Tomopy.Probe.far_order",
    "Tomopy.Probe.far_position_partial",
    "Tomopy.Probe.far_order_refuted",
    "Tomopy.Probe.parseval",
    "Tomopy.Probe.diffraction_energy",
    "Tomopy.Probe.far_energy",
    "Tomopy.Probe.near_position",
    "Tomopy.Probe.diffraction_middle"
   ],
   "note": "Energy and centring proved for all stacks; the order of positions is refuted, because fftshift without axes also rotates the stack: image k belongs to position k+n-n/2 mod n (far_order, far_order_refuted). Correct for one position."
  },
  {
   "property": "C77",
   "status": "proved",
   "theorems": [
    "Tomopy.Probe.tie_conserves",
    "Tomopy.Probe.tie_attenuation",
    "Tomopy.Probe.tie_linear",
    "Tomopy.Probe.tie_quadratic",
    "Tomopy.Probe.tie_slice",
    "Tomopy.Probe.tie_small"
   ],
   "note": "Exact real arithmetic; stacks of the same shape; flat border means three equal pixels at each end of every row and column."
  },
  {
   "property": "C78",
   "status": "partial",
   "theorems": [
    "Tomopy.Probe.probe_value",
    "Tomopy.Probe.probe_range",
    "Tomopy.Probe.probe_fwhm",
    "Tomopy.Probe.probe_symmetric_partial",
    "Tomopy.Probe.probe_asymmetric"
   ],
   "note": "Range and width proved for all parameters (the centre is half a pixel before the one given). Symmetry proved for even grids, refuted for odd grids (probe_asymmetric)."
  },
  {
   "property": "C79",
   "status": "partial",
   "theorems": [
    "Tomopy.Align.quadrant_corners_partial",
    "Tomopy.Align.quadrant_total",
    "Tomopy.Align.quadrant_tall_raises",
    "Tomopy.Align.quadrant_wide_wrong",
    "Tomopy.Align.simple_corners",
    "Tomopy.Align.peak_window_partial",
    "Tomopy.Align.peak_window_raises",
    "Tomopy.Align.peak_window_wraps",
    "Tomopy.Align.slitBox_inside",
    "Tomopy.Align.removeSlits_partial",
    "Tomopy.Align.removeSlits_wraps"
   ],
   "note": "Corners proved for square images and, for all images, in three of the four quadrants. Refuted: the upper right part is img[0:cols/2, rows/2:], so in wide images that corner can be found in the left half (quadrant_wide_wrong) and tall images raise (quadrant_tall_raises); a peak within ten pixels of the border raises or reads the other end; a box close to the border ends at a negative index and clipping keeps pixels outside (removeSlits_wraps). Standard deviation, median filter and curve fit are parameters."
  },
  {
   "property": "C80",
   "status": "partial",
   "theorems": [
    "Tomopy.Warp.src_radial",
    "Tomopy.Warp.unwarp_affine",
    "Tomopy.Warp.unwarp_range",
    "Tomopy.Warp.unwarp_linear",
    "Tomopy.Warp.unwarp_identity",
    "Tomopy.Warp.unwarp_centre",
    "Tomopy.Warp.correct_distributed",
    "Tomopy.Warp.sino_row_partial",
    "Tomopy.Warp.sino_overflows",
    "Tomopy.Warp.load_spec",
    "Tomopy.Warp.load_blank"
   ],
   "note": "Exact real arithmetic. Sinograms proved for images of up to 32767 rows; refuted above, because the slab is computed in 16-bit integers (sino_overflows). map_coordinates is modelled as linear interpolation."
  },
  {
   "property": "C81",
   "status": "partial",
   "theorems": [
    "Tomopy.Stripe.fit_least_squares",
    "Tomopy.Stripe.detect_outliers",
    "Tomopy.Stripe.detect_flat",
    "Tomopy.Stripe.detect_four",
    "Tomopy.Stripe.detect_short",
    "Tomopy.Stripe.detect_total",
    "Tomopy.Stripe.detect_order",
    "Tomopy.Stripe.large_value_partial",
    "Tomopy.Stripe.large_removes_stripes",
    "Tomopy.Stripe.interp_value_partial",
    "Tomopy.Stripe.interp_removes_stripes",
    "Tomopy.Stripe.interp_dead_edge",
    "Tomopy.Stripe.dead_value",
    "Tomopy.Stripe.dead_removed",
    "Tomopy.Stripe.all_neutral",
    "Tomopy.Stripe.one_row_raises"
   ],
   "note": "Exact arithmetic, undefined pixels explicit. Refuted: a dead column at the edge becomes NaN in remove_stripe_based_interpolation because its factor is 0 and edge columns are never marked (interp_dead_edge), and stays as it is in remove_dead_stripe (dead_value); one or two columns, or one angle, raise (detect_short, one_row_raises); with four columns the line is fitted to one point and flat data can be marked (detect_four). A marked column with a non-positive factor gets the right values in another order. The spline is taken to be exact; np.int16 overflow from 131072 columns on is excluded."
  },
  {
   "property": "C82",
   "status": "partial",
   "theorems": [
    "Tomopy.Ti.cgm_optimal",
    "Tomopy.Ti.cgm_flat_undefined",
    "Tomopy.Ti.parameter_spec",
    "Tomopy.Ti.correction_optimal",
    "Tomopy.Ti.correction_undefined",
    "Tomopy.Ti.ti_value_partial",
    "Tomopy.Ti.ti_undefined",
    "Tomopy.Ti.ti_blocks_partial",
    "Tomopy.Ti.ti_lost",
    "Tomopy.Ti.ti_raises",
    "Tomopy.Ti.ti_blocks_nan"
   ],
   "note": "Exact arithmetic, NaN explicit; conjugate gradients proved to end within n steps with a residual below the bound. Refuted: ideal data, whose projections have equal sums, and data with a straight mean profile become NaN everywhere (ti_undefined); with blocks the angles after the last whole block are replaced by ones (ti_blocks_partial, ti_lost), NaN are not removed because of \"is True\" (ti_blocks_nan), and more blocks than angles divide by zero (ti_raises)."
  },
  {
   "property": "C83",
   "status": "partial",
   "theorems": [
    "Tomopy.Accel.accel_inbounds",
    "Tomopy.Accel.accel_overflow",
    "Tomopy.Accel.center_ignored",
    "Tomopy.Accel.run_eq",
    "Tomopy.Accel.simulate_value",
    "Tomopy.Accel.stride_covers",
    "Tomopy.Accel.gpu_rows_value",
    "Tomopy.Accel.gpu_cpu_differ",
    "Tomopy.Accel.gpu_clear_overflow",
    "Tomopy.Accel.accel_schedule_partial",
    "Tomopy.Accel.accel_ends",
    "Tomopy.Accel.cache_distinct",
    "Tomopy.Accel.cache_shared",
    "Tomopy.Accel.accel_race",
    "Tomopy.Accel.accel_slice",
    "Tomopy.Accel.accel_zero_stuck",
    "Tomopy.Accel.mlem_nonneg",
    "Tomopy.Accel.sirt_consistent_grows",
    "Tomopy.Accel.sirt_not_fixed",
    "Tomopy.Accel.mlem_consistent",
    "Tomopy.Accel.mlem_fixed_iff",
    "Tomopy.Accel.sirt_single_row",
    "Tomopy.Accel.sirt_bias",
    "Tomopy.Accel.quarter_exact",
    "Tomopy.Accel.even_hole"
   ],
   "note": "Exact arithmetic; the rotation of OpenCV/NPP is a parameter, with quarter turns as proved instance. Schedule independence is proved if no two workers of a pool share a cache; refuted otherwise (accel_race). Refuted: an image that agrees with the data is multiplied by 1+1/dx by sirt and becomes x(x+1)/dx in mlem; the centre is ignored; the zero image never changes on the CPU; fewer grid rows than detector pixels overflow the arrays; on the GPU a grid wider than high is cleared beyond its end; even grids turn about pixel n/2 and lose a row and a column."
  },
  {
   "property": "C84",
   "status": "partial",
   "theorems": [
    "Tomopy.Accel.device_available",
    "Tomopy.Accel.device_named",
    "Tomopy.Accel.device_default",
    "Tomopy.Accel.device_index",
    "Tomopy.Accel.device_misread",
    "Tomopy.Accel.dispatch_runs",
    "Tomopy.Accel.interp_named",
    "Tomopy.Accel.interp_valid",
    "Tomopy.Accel.interp_unknown",
    "Tomopy.Accel.pool_size",
    "Tomopy.Accel.pool_no_oversubscription",
    "Tomopy.Accel.pool_negative",
    "Tomopy.Accel.active_leak",
    "Tomopy.Accel.accelerated_resolve",
    "Tomopy.Accel.search_never_fails"
   ],
   "note": "Names, indices and text without digits proved for all builds. Refuted: text such as gpu10 selects the processor; unknown interpolation words silently mean nearest neighbours with OpenCV; negative pool sizes become huge; calls that throw are never uncounted."
  },
  {
   "property": "C85",
   "status": "partial",
   "theorems": [
    "Tomopy.Sim.gaussian_value",
    "Tomopy.Sim.gaussian_default",
    "Tomopy.Sim.gaussian_edge",
    "Tomopy.Sim.gaussian_modifies",
    "Tomopy.Sim.poisson_value",
    "Tomopy.Sim.rings_value",
    "Tomopy.Sim.rings_accepts",
    "Tomopy.Sim.salt_value",
    "Tomopy.Sim.salt_default",
    "Tomopy.Sim.salt_modifies",
    "Tomopy.Sim.zingers_value",
    "Tomopy.Sim.zingers_zero",
    "Tomopy.Sim.zingers_mono",
    "Tomopy.Sim.drift_value",
    "Tomopy.Sim.drift_eq",
    "Tomopy.Sim.drift_not_periodic",
    "Tomopy.Sim.drift_no_amplitude"
   ],
   "note": "Exact arithmetic, draws as parameters. Refuted: add_gaussian and add_salt_pepper overwrite the caller array; add_drift adds a straight line from 0 to 1 to the sinusoid, so it is not periodic and doubles the last projection even with amplitude zero; add_zingers with fraction zero still saturates a pixel whose draw is zero."
  },
  {
   "property": "C86",
   "status": "proved",
   "theorems": [
    "Tomopy.Sim.angles_spec",
    "Tomopy.Sim.angles_accepts",
    "Tomopy.Sim.angles_sorted",
    "Tomopy.Sim.angles_default_repeats",
    "Tomopy.Sim.magnification_spec"
   ],
   "note": "Exact arithmetic."
  },
  {
   "property": "C87",
   "status": "partial",
   "theorems": [
    "Tomopy.Dtype.asSharedmem_spec",
    "Tomopy.Dtype.isSharedmem_iff",
    "Tomopy.Dtype.worker_reads_copied",
    "Tomopy.Dtype.worker_reads_whole",
    "Tomopy.Dtype.empty_shared_whole",
    "Tomopy.Dtype.copied_shared_whole",
    "Tomopy.Dtype.worker_view",
    "Tomopy.Dtype.worker_slice_raises",
    "Tomopy.Dtype.worker_swapped",
    "Tomopy.Dtype.worker_swapped_wrong",
    "Tomopy.Dtype.worker_mixed_raises",
    "Tomopy.Dtype.worker_mixed_garbled",
    "Tomopy.Dtype.worker_out_shared",
    "Tomopy.Dtype.worker_out_raises",
    "Tomopy.Dtype.asType_spec",
    "Tomopy.Dtype.copy_is_alias",
    "Tomopy.Dtype.asNdarray_keeps_type"
   ],
   "note": "Proved for arrays outside shared memory with any strides and for whole shared blocks. Refuted: for a view of a shared array the workers rebuild the whole block, so a slice raises ValueError and a swapped view (same number of elements) is silently read in the wrong order; inputs of different types are read with the type of the last; a shared output that is not contiguous raises; copy=True returns the argument itself if it is an array of that type."
  },
  {
   "property": "C88",
   "status": "partial",
   "theorems": [
    "Tomopy.Center.hist_limits",
    "Tomopy.Center.counts_sum",
    "Tomopy.Center.cost_perm",
    "Tomopy.Center.cost_le",
    "Tomopy.Center.cost_ge",
    "Tomopy.Center.cost_two",
    "Tomopy.Center.cost_outside",
    "Tomopy.Center.outside_wins",
    "Tomopy.Center.ratio_ignored",
    "Tomopy.Center.find_center_slice",
    "Tomopy.Center.find_center_last_raises"
   ],
   "note": "Exact arithmetic; recon and the scipy optimizer are arbitrary functions. Refuted: pixels outside the limits of the first reconstruction are not counted, so an image that leaves them has cost near zero and wins; ratio has no effect; ind=-1 selects nothing and raises."
  },
  {
   "property": "C89",
   "status": "proved",
   "theorems": [
    "Tomopy.Center.pc_axis",
    "Tomopy.Center.pc_finds",
    "Tomopy.Center.pc_guess"
   ],
   "note": "Images on integer columns; the registration of scikit-image is an arbitrary function assumed to register the pair at hand; fractional guesses (spline interpolation) are outside of the statement."
  },
  {
   "property": "C90",
   "status": "partial",
   "theorems": [
    "Tomopy.Center.mask_length",
    "Tomopy.Center.mask_scale",
    "Tomopy.Center.mask_mono",
    "Tomopy.Center.mask_threshold_zero",
    "Tomopy.Center.mask_uniform",
    "Tomopy.Center.mask_single",
    "Tomopy.Center.mask_blank"
   ],
   "note": "Exact arithmetic, NaN explicit. Refuted: a single layer is compared with itself and never marked; blank data mark nothing."
  },
  {
   "property": "C91",
   "status": "partial",
   "theorems": [
    "Tomopy.Stripe.smooth_conv",
    "Tomopy.Stripe.padded_mirrored",
    "Tomopy.Stripe.filterPad_lt",
    "Tomopy.Stripe.smooth_linear",
    "Tomopy.Stripe.rs_filter_value",
    "Tomopy.Stripe.rs_filter_stripe",
    "Tomopy.Stripe.rs_filter_no_stripes",
    "Tomopy.Stripe.rs_filter_offset_remains",
    "Tomopy.Stripe.rs_filter_distributed",
    "Tomopy.Stripe.rs_sort_window2_changes"
   ],
   "note": "Real arithmetic. Unchanged slices proved for the one-dimensional window, the effect on a stripe for an even number of angles. Refuted: the window is centred half a sample off frequency zero, so the share 1-exp(-1/(8 sigma^2)) of every offset stays (rs_filter_offset_remains); with dim=2 the sorted columns are mirrored at their ends, which changes slices without stripes (rs_sort_window2_changes)."
  },
  {
   "property": "C92",
   "status": "partial",
   "theorems": [
    "Tomopy.Stripe.fit_arguments_valid",
    "Tomopy.Stripe.fit_reverse",
    "Tomopy.Stripe.rs_fit_value",
    "Tomopy.Stripe.rs_fit_scale",
    "Tomopy.Stripe.rs_fit_stripes_cancel",
    "Tomopy.Stripe.rs_fit_constant",
    "Tomopy.Stripe.rs_fit_distributed",
    "Tomopy.Stripe.rs_fit_zero_undefined",
    "Tomopy.Stripe.rs_fit_constant_odd"
   ],
   "note": "Real arithmetic, divisions by zero explicit; the coefficients of the polynomial fit are a parameter. Constants proved for even numbers of angles and columns. Refuted: blank data become NaN (rs_fit_zero_undefined), and a constant sinogram of three columns is changed (rs_fit_constant_odd)."
  },
  {
   "property": "C93",
   "status": "partial",
   "theorems": [
    "Tomopy.Stripe.fw_total",
    "Tomopy.Stripe.fw_unchanged",
    "Tomopy.Stripe.fw_no_stripes",
    "Tomopy.Stripe.dampen_column",
    "Tomopy.Stripe.dampen_sum",
    "Tomopy.Stripe.dampen_constant",
    "Tomopy.Stripe.fw_stripes",
    "Tomopy.Stripe.stripes_dwt",
    "Tomopy.Stripe.fw_level_default",
    "Tomopy.Stripe.fw_distributed",
    "Tomopy.Stripe.haar_ok",
    "Tomopy.Stripe.haar_const",
    "Tomopy.Stripe.dampen_even_keeps"
   ],
   "note": "Real arithmetic; the wavelet is a separable filter bank with perfect reconstruction (instance: Haar). Refuted: with an even number of rows of coefficients frequency zero is multiplied by 1-exp(-1/(8 sigma^2)) instead of 0, so the details of a stripe stay (dampen_even_keeps)."
  },
  {
   "property": "C94",
   "status": "proved",
   "theorems": [
    "Tomopy.Align.scaleFactor_spec",
    "Tomopy.Align.scale_range",
    "Tomopy.Align.scale_blank",
    "Tomopy.Align.scale_raises",
    "Tomopy.Align.scale_defined",
    "Tomopy.Align.blurRadMax_eq",
    "Tomopy.Align.blur_edges_value",
    "Tomopy.Align.add_noise_value",
    "Tomopy.Align.blur_edges_equal_limits",
    "Tomopy.Align.blur_edges_lopsided"
   ],
   "note": "Exact arithmetic. scale overwrites its argument with the result (scale_range). Outside of the claim: low = high gives 0/0 (blur_edges_equal_limits); the distance is measured from (dy/2, dz/2) and not from the centre of the image, so a two by two image loses its first pixel and keeps its last one (blur_edges_lopsided); negative largest pixels make add_noise raise (add_noise_value)."
  },
  {
   "property": "C95",
   "status": "proved",
   "theorems": [
    "Tomopy.Align.shift_images_value",
    "Tomopy.Align.shift_images_short",
    "Tomopy.Align.shift_images_defined",
    "Tomopy.Align.add_jitter_value",
    "Tomopy.Align.jitter_undone",
    "Tomopy.Align.jitter_not_undone_in_order",
    "Tomopy.Align.shift_images_first_vertical"
   ],
   "note": "Exact arithmetic; tf.warp is a parameter of which only its effect for whole translations is used. The two functions use opposite orders: add_jitter returns column shifts first, shift_images takes row shifts first although documented as horizontal first, so jitter is undone with the two lists swapped (jitter_undone) and not in the order returned (jitter_not_undone_in_order, shift_images_first_vertical)."
  },
  {
   "property": "C96",
   "status": "proved",
   "theorems": [
    "Tomopy.Align.align_seq_shifts",
    "Tomopy.Align.align_seq_pixels",
    "Tomopy.Align.align_seq_corrects",
    "Tomopy.Align.align_seq_stationary",
    "Tomopy.Align.align_seq_demo"
   ],
   "note": "Exact arithmetic; reconstruction, projection, blurring, registration and tf.warp are parameters."
  },
  {
   "property": "C97",
   "status": "partial",
   "theorems": [
    "Tomopy.Align.align_joint_unmoved",
    "Tomopy.Align.align_leaves_scaled",
    "Tomopy.Align.conv_without_debug",
    "Tomopy.Align.align_joint_demo"
   ],
   "note": "Refuted. align_joint moves a copy and returns the padded projections unmoved for every registration; the copy, proved to be the input moved once by the shifts returned, is thrown away (align_joint_unmoved, align_joint_demo). Both functions leave the caller with projections divided by the scale (align_leaves_scaled), and conv stays zero unless debug is set (conv_without_debug)."
  },
  {
   "property": "C98",
   "status": "proved",
   "theorems": [
    "Tomopy.Dtype.contiguous_seen",
    "Tomopy.Dtype.kCopy_spec",
    "Tomopy.Dtype.asFloat32_spec",
    "Tomopy.Dtype.requireAC_seen",
    "Tomopy.Dtype.tomo_seen_sino",
    "Tomopy.Dtype.tomo_seen_proj",
    "Tomopy.Dtype.block_seen",
    "Tomopy.Dtype.vector_seen",
    "Tomopy.Dtype.object_seen",
    "Tomopy.Dtype.init_recon_seen",
    "Tomopy.Dtype.init_recon_kept",
    "Tomopy.Dtype.init_recon_overwritten"
   ],
   "note": "Memory is assumed aligned. Copies of another type keep the memory order of their source as numpy does."
  },
  {
   "property": "C99",
   "status": "partial",
   "theorems": [
    "Tomopy.Dtype.vector_seen",
    "Tomopy.Dtype.object_seen",
    "Tomopy.Dtype.theta_step_misread",
    "Tomopy.Dtype.theta_reversed_outside",
    "Tomopy.Dtype.object_transposed"
   ],
   "note": "Refuted: float32 angles or centres taken with a step are misread (theta_step_misread), reversed ones are read beyond the end of their buffer (theta_reversed_outside), and transposed objects of any type are seen in the wrong order (object_transposed). True for arguments that are converted (vector_seen) and C-contiguous ones (object_seen)."
  },
  {
   "property": "C100",
   "status": "proved",
   "theorems": [
    "Tomopy.Corr.Filt.slice_filter_value",
    "Tomopy.Corr.Filt.slice_filter_exists",
    "Tomopy.Corr.Filt.slice_filter_axis",
    "Tomopy.Corr.Filt.axisOf_neg",
    "Tomopy.Corr.Filt.median_filter_value",
    "Tomopy.Corr.Filt.gaussian_filter_value"
   ],
   "note": "scipy.ndimage.gaussian_filter is a parameter; median_filter of scipy modelled as rank size^2/2 with reflecting border."
  },
  {
   "property": "C101",
   "status": "partial",
   "theorems": [
    "Tomopy.Corr.Filt.slice_filter_swallows",
    "Tomopy.Corr.Filt.median_filter_garbage",
    "Tomopy.Corr.Filt.gaussian_filter_garbage",
    "Tomopy.Corr.Filt.sobel_raises"
   ],
   "note": "Refuted: what scipy raises is dropped and uninitialised memory returned (slice_filter_swallows), for instance for arrays that are not three-dimensional (median_filter_garbage) or one sigma per axis of the array (gaussian_filter_garbage); sobel_filter always raises NameError (sobel_raises)."
  },
  {
   "property": "C102",
   "status": "partial",
   "theorems": [
    "Tomopy.Corr.Filt.mirror_spec",
    "Tomopy.Corr.Filt.outlier1d_value_partial",
    "Tomopy.Corr.Filt.outlier1d_raises",
    "Tomopy.Corr.Filt.outlier1d_line_raises"
   ],
   "note": "Proved for numpy versions before 1.23. Refuted for later ones: indexing with a list of slices raises IndexError for every array with elements (outlier1d_raises); one-dimensional arrays raise ValueError with any version (outlier1d_line_raises)."
  },
  {
   "property": "C103",
   "status": "proved",
   "theorems": [
    "Tomopy.Corr.Filt.median_cuda_without_gpu",
    "Tomopy.Corr.Filt.median_cuda_gpu",
    "Tomopy.Corr.Filt.outlier_cuda_gpu",
    "Tomopy.Corr.Filt.outlier_cuda_without_gpu",
    "Tomopy.Corr.Filt.padSym_window",
    "Tomopy.Corr.Filt.scipyMedian_swap"
   ],
   "note": "The GPU is a parameter assumed to compute medians of the padded image."
  },
  {
   "property": "C104",
   "status": "partial",
   "theorems": [
    "Tomopy.Corr.Filt.median_cuda_without_gpu",
    "Tomopy.Corr.Filt.outlier_cuda_without_gpu",
    "Tomopy.Corr.Filt.outlier_cuda_axis_ignored",
    "Tomopy.Corr.Filt.outlier_axes_differ",
    "Tomopy.Corr.Filt.cuda_size_fallback"
   ],
   "note": "Refuted: the fallback of remove_outlier_cuda ignores axis (outlier_cuda_axis_ignored, outlier_axes_differ), and for unsupported sizes both functions work on an array with exchanged axes and return it so (cuda_size_fallback). True for median_filter_cuda without the package and for axis 0."
  },
  {
   "property": "C105",
   "status": "proved",
   "theorems": [
    "Tomopy.Corr.Filt.histWgt_eq",
    "Tomopy.Corr.Filt.histWgt_range",
    "Tomopy.Corr.Filt.histWgt_le_iff",
    "Tomopy.Corr.Filt.enhance_range",
    "Tomopy.Corr.Filt.enhance_even",
    "Tomopy.Corr.Filt.enhance_stack",
    "Tomopy.Corr.Filt.enhance_single_cpu"
   ],
   "note": "Exact arithmetic; scipy.signal.medfilt2d modelled as the element of rank ks*ks/2 of the zero-padded square. Outside of the claim: on a machine with one processor the default number of workers is 0 and the function raises (enhance_single_cpu)."
  },
  {
   "property": "C106",
   "status": "proved",
   "theorems": [
    "Tomopy.Wrap.astra_slices",
    "Tomopy.Wrap.astra_no_gpu",
    "Tomopy.Wrap.astra_raises",
    "Tomopy.Wrap.npRound_near",
    "Tomopy.Wrap.npRound_even",
    "Tomopy.Wrap.axis_centred",
    "Tomopy.Wrap.shift_unique",
    "Tomopy.Wrap.sino_shifted",
    "Tomopy.Wrap.cpu_sino"
   ],
   "note": "ASTRA itself is a parameter. Exact arithmetic."
  },
  {
   "property": "C107",
   "status": "partial",
   "theorems": [
    "Tomopy.Wrap.cpu_sino",
    "Tomopy.Wrap.sino_garbage",
    "Tomopy.Wrap.astra_raises",
    "Tomopy.Wrap.astra_gpu_silent"
   ],
   "note": "Refuted: for centres more than one detector width to the right of the middle a negative slice bound leaves data of the next projection (sino_garbage); exceptions of the GPU threads are dropped, slices keep what was there (astra_gpu_silent). True for centres further left (cpu_sino) and without gpu_list (astra_raises)."
  },
  {
   "property": "C108",
   "status": "proved",
   "theorems": [
    "Tomopy.Wrap.astra_options",
    "Tomopy.Wrap.astra_options_default",
    "Tomopy.Wrap.ufo_crop",
    "Tomopy.Wrap.ufo_params"
   ],
   "note": "UFO itself is a parameter. The defaults are written into the dictionary of the caller."
  },
  {
   "property": "C109",
   "status": "partial",
   "theorems": [
    "Tomopy.Wrap.ufo_params",
    "Tomopy.Wrap.ufo_params_ignored",
    "Tomopy.Wrap.ufo_broadcast"
   ],
   "note": "Refuted: only the first centre and the first two angles are used (ufo_params_ignored), and an image two pixels too small is replaced by copies of its last element (ufo_broadcast). True for equal centres and equal steps (ufo_params)."
  },
  {
   "property": "C110",
   "status": "proved",
   "theorems": [
    "Tomopy.Sim.project_opposite",
    "Tomopy.Sim.project_opposite_center",
    "Tomopy.Sim.tracerGeom_opposite",
    "Tomopy.Ray.opposite_segments",
    "Tomopy.Ray.default_center_clear"
   ],
   "note": "With Ray.opposite_segments: the two rays have the same segments. Exact arithmetic; the two options of data order follow by project_spec."
  },
  {
   "property": "C111",
   "status": "partial",
   "theorems": [
    "Tomopy.Sim.project_opposite_center",
    "Tomopy.Sim.horizontal_row",
    "Tomopy.Sim.project_opposite_fails",
    "Tomopy.Ray.mirror_offset_wrong"
   ],
   "note": "Refuted for centres a whole number of pixels from (dx - 1)/2: preprocessing moves both rays by 1/100 in the same direction (Ray.mirror_offset_wrong), so that one of the views can miss what the other one sees (project_opposite_fails). True for all other centres (project_opposite_center)."
  },
  {
   "property": "C112",
   "status": "proved",
   "theorems": [
    "Tomopy.Sim.project3_spec",
    "Tomopy.Sim.project3_total",
    "Tomopy.Sim.fieldIntegral_linear",
    "Tomopy.Sim.fieldIntegral_const",
    "Tomopy.Sim.project2_axis",
    "Tomopy.Sim.vecProjectC_value"
   ],
   "note": "Exact arithmetic."
  },
  {
   "property": "C113",
   "status": "proved",
   "theorems": [
    "Tomopy.Sim.project3_opposite"
   ],
   "note": "Emission data, sinogram order; the others follow by project3_spec."
  },
  {
   "property": "C114",
   "status": "partial",
   "theorems": [
    "Tomopy.Sim.project3_spec",
    "Tomopy.Sim.project2_axis",
    "Tomopy.Sim.project3_other_axis",
    "Tomopy.Iter.vecAddr_cube_partial",
    "Tomopy.Iter.vecAddr_out_of_bounds"
   ],
   "note": "Refuted: project2 ignores axis (project2_axis), project3 returns zeros for other values (project3_other_axis), and along axes 1 and 2 volumes with fewer slices than columns are read out of bounds (Iter.vecAddr_out_of_bounds). True for axes 0 to 2 of cubes (project3_spec, Iter.vecAddr_cube_partial)."
  },
  {
   "property": "C115",
   "status": "partial",
   "theorems": [
    "Tomopy.Sim.project3_first_center",
    "Tomopy.Sim.project3_spec"
   ],
   "note": "Refuted: only the first centre is used (project3_first_center). True if all are equal (project3_spec)."
  },
  {
   "property": "C116",
   "status": "proved",
   "theorems": [
    "Tomopy.Extern.run_sees",
    "Tomopy.Extern.wired",
    "Tomopy.Extern.recon_sees",
    "Tomopy.Extern.recon_bad_shape",
    "Tomopy.Extern.oneBlock_sees",
    "Tomopy.Extern.wrap32_of_fits"
   ],
   "note": "Not modelled: c_remove_ring and c_remove_stripe_sf. wired is a check of the complete tables of wrappers and C definitions; the rest is for all values. Memory layout of the arrays: C98, C99."
  },
  {
   "property": "C117",
   "status": "partial",
   "theorems": [
    "Tomopy.Extern.wrap32_eq_iff",
    "Tomopy.Extern.overflow_silent"
   ],
   "note": "Refuted: ctypes.c_int keeps the low 32 bits; num_iter = 2**32 runs no iteration (overflow_silent). The value arrives unchanged exactly if it fits (wrap32_eq_iff)."
  },
  {
   "property": "C118",
   "status": "proved",
   "theorems": [
    "Tomopy.Morph.downsample_axis1_exact",
    "Tomopy.Morph.downsample_axis2_exact",
    "Tomopy.Morph.downsample_axis1_aligned_iff",
    "Tomopy.Morph.downsample_axis2_aligned_iff"
   ],
   "note": ""
  },
  {
   "property": "C119",
   "status": "proved",
   "theorems": [
    "Tomopy.Morph.stitch_left_iff",
    "Tomopy.Morph.stitch_right_iff"
   ],
   "note": ""
  },
  {
   "property": "C120",
   "status": "proved",
   "theorems": [
    "Tomopy.Gridrec.gridrec_in_bounds_iff",
    "Tomopy.Gridrec.gridrec_default_in_bounds_iff",
    "Tomopy.Gridrec.pdim_spec"
   ],
   "note": ""
  },
  {
   "property": "C121",
   "status": "proved",
   "theorems": [
    "Tomopy.Mproc.ncore_nchunk_busy_iff"
   ],
   "note": ""
  },
  {
   "property": "C122",
   "status": "proved",
   "theorems": [
    "Tomopy.Corr.adjust_range_clamps_iff"
   ],
   "note": ""
  },
  {
   "property": "C123",
   "status": "proved",
   "theorems": [
    "Tomopy.Normalize.normalize_bg_none_iff",
    "Tomopy.Normalize.normalize_bg_affine_iff"
   ],
   "note": ""
  },
  {
   "property": "C124",
   "status": "partial",
   "theorems": [
    "Tomopy.Bench.normalize_value",
    "Tomopy.Bench.normalize_const",
    "Tomopy.Bench.normalize_range",
    "Tomopy.Bench.normalize_idem",
    "Tomopy.Bench.normalize_affine",
    "Tomopy.Bench.normalize_int_partial"
   ],
   "note": "Proved for float images. Refuted for integer images that are not constant: the division in place raises TypeError, which is caught, and the image comes back unchanged (normalize_int_partial)."
  },
  {
   "property": "C125",
   "status": "partial",
   "theorems": [
    "Tomopy.Bench.trim_spec",
    "Tomopy.Bench.trim_fill",
    "Tomopy.Bench.fill_undefined_partial",
    "Tomopy.Bench.trim_silent"
   ],
   "note": "Refuted: the added border is np.empty memory (fill_undefined_partial); sizes that do not fit return the input instead of raising (trim_silent)."
  },
  {
   "property": "C126",
   "status": "partial",
   "theorems": [
    "Tomopy.Bench.output_covers",
    "Tomopy.Bench.output_names_distinct",
    "Tomopy.Bench.output_errors",
    "Tomopy.Bench.output_name_partial"
   ],
   "note": "Refuted: the names differ from the documented ones (output_name_partial)."
  },
  {
   "property": "C127",
   "status": "partial",
   "theorems": [
    "Tomopy.Trim.start_eq_shadow",
    "Tomopy.Trim.trim_value_partial",
    "Tomopy.Trim.trim_ok_iff",
    "Tomopy.Trim.trim_type_error",
    "Tomopy.Trim.trim_inside",
    "Tomopy.Trim.trim_arguments"
   ],
   "note": "Refuted: np.ceil and np.floor give floats that are used as slice bounds, so a shadow with an end inside the frame raises TypeError, as does a float diameter (trim_type_error, trim_inside, trim_arguments). trim_ok_iff says exactly when data come back."
  },
  {
   "property": "C128",
   "status": "partial",
   "theorems": [
    "Tomopy.Affine.affine_defined",
    "Tomopy.Affine.affine_last_row_iff",
    "Tomopy.Affine.affine_one_point"
   ],
   "note": "Refuted for points on one line off the origin, e.g. one marker (affine_one_point); affine_last_row_iff is the exact condition."
  },
  {
   "property": "C129",
   "status": "proved",
   "theorems": [
    "Tomopy.Affine.affine_fits",
    "Tomopy.Affine.affine_best",
    "Tomopy.Affine.affine_recovers_iff",
    "Tomopy.Affine.lstsq_unique",
    "Tomopy.Affine.lstsq_exists",
    "Tomopy.Affine.lstsq_smallest"
   ],
   "note": ""
  },
  {
   "property": "C130",
   "status": "proved",
   "theorems": [
    "Tomopy.Accel.threads_cover",
    "Tomopy.Accel.gridSize_spec",
    "Tomopy.Accel.pixels_kernel_final",
    "Tomopy.Accel.mlem_kernel_cpu",
    "Tomopy.Accel.sirt_kernel_rows",
    "Tomopy.Accel.update_kernel_final",
    "Tomopy.Accel.atomic_final",
    "Tomopy.Accel.atomic_sum_kernel",
    "Tomopy.Accel.gpu_counts",
    "Tomopy.Accel.memset_positive",
    "Tomopy.Accel.gpu_iter_value",
    "Tomopy.Accel.gpu_mlem_eq_cpu",
    "Tomopy.Accel.gpu_exists"
   ],
   "note": "The rotations are parameters (NPP is not modelled). That update is zero before the first addition is C132."
  },
  {
   "property": "C131",
   "status": "partial",
   "theorems": [
    "Tomopy.Npp.npp_holder_partial",
    "Tomopy.Npp.npp_released",
    "Tomopy.Npp.npp_same_stream",
    "Tomopy.Npp.npp_wrong_stream",
    "Tomopy.Npp.npp_throws",
    "Tomopy.Npp.npp_livelock"
   ],
   "note": "Refuted: a thread whose stream is current passes while another one is about to set its own (npp_wrong_stream, npp_throws), and two threads can undo each other for ever (npp_livelock). Proved: the thread that took the counter is alone and rotates on its own stream (npp_holder_partial), the counter is given back (npp_released), and with one common stream nothing goes wrong (npp_same_stream)."
  },
  {
   "property": "C132",
   "status": "partial",
   "theorems": [
    "Tomopy.Stream.run_loses_partial",
    "Tomopy.Stream.run_exact_partial",
    "Tomopy.Stream.debug_exact",
    "Tomopy.Stream.release_loses",
    "Tomopy.Stream.release_wrong"
   ],
   "note": "Refuted for release builds: memset is asynchronous on the main stream, and only the worker streams are waited for before the additions (release_loses). Proved for debug builds (debug_exact); in general exactly the projections added before the memset are missing (run_loses_partial)."
  },
  {
   "property": "C133",
   "status": "partial",
   "theorems": [
    "Tomopy.Recon.init_recon_safe_iff",
    "Tomopy.Recon.init_recon_chunk_iff",
    "Tomopy.Recon.init_recon_misplaced",
    "Tomopy.Recon.init_recon_overflow",
    "Tomopy.Recon.init_recon_fewer"
   ],
   "note": "Refuted: no shape is checked; an init_recon with smaller images is written beyond its end (init_recon_overflow), one with fewer slices leaves slices out silently (init_recon_fewer). Proved: with the default nchunk and m <= n slices in init_recon, all writes stay inside exactly if num_gridx * num_gridy is at most the size of an image of init_recon (init_recon_safe_iff); with nchunk=c and images of the right size exactly if m is at least the number of slices or a multiple of c (init_recon_chunk_iff); a block ends where it should exactly if the sizes agree (init_recon_misplaced)."
  },
  {
   "property": "C134",
   "status": "partial",
   "theorems": [
    "Tomopy.Recon.nchunk_zero_raises",
    "Tomopy.Recon.writes_ranges",
    "Tomopy.Recon.init_recon_safe_iff",
    "Tomopy.Recon.init_recon_chunk_iff"
   ],
   "note": "Refuted for nchunk=0: center[i] is then a NumPy scalar without .ctypes, so every C algorithm raises AttributeError (nchunk_zero_raises). Proved for the other chunk sizes: the blocks written are those of the slices (writes_ranges)."
  },
  {
   "property": "C135",
   "status": "proved",
   "theorems": [
    "Tomopy.Normalize.transmission",
    "Tomopy.Normalize.beer_lambert",
    "Tomopy.Normalize.beer_lambert_cutoff",
    "Tomopy.Normalize.log_defined",
    "Tomopy.Normalize.log_antitone",
    "Tomopy.Normalize.pipeline"
   ],
   "note": "Over the reals; NumExpr thread counts do not enter."
  },
  {
   "property": "C136",
   "status": "partial",
   "theorems": [
    "Tomopy.Accel.rot_turns",
    "Tomopy.Accel.rot_center",
    "Tomopy.Accel.rot_undo",
    "Tomopy.Accel.rot_dist",
    "Tomopy.Accel.rot_src",
    "Tomopy.Accel.deg_rad",
    "Tomopy.Accel.angle_reduced",
    "Tomopy.Accel.cpuCenter_eq",
    "Tomopy.Accel.gpu_middle",
    "Tomopy.Accel.cpu_point",
    "Tomopy.Accel.cpu_middle_iff_partial",
    "Tomopy.Accel.gpu_half_turn",
    "Tomopy.Accel.cpu_half_turn_loses",
    "Tomopy.Accel.turnSrc_matrix"
   ],
   "note": "Proved for the GPU at all sizes. Refuted on the CPU: cv::Point cuts the centre to the integer n/2, so the rotation is about the middle exactly for grids with odd sizes (cpu_middle_iff_partial); at even sizes a half turn sends row and column 0 out of the grid (cpu_half_turn_loses). Exact arithmetic; interpolation is not part of this claim."
  },
  {
   "property": "C137",
   "status": "partial",
   "theorems": [
    "Tomopy.Files.chunk_one_own_center",
    "Tomopy.Files.write_center_images_partial",
    "Tomopy.Files.write_center_total",
    "Tomopy.Files.write_center_ratio_unused",
    "Tomopy.Files.write_center_accepts_iff"
   ],
   "note": "Refuted twice: filter_name is always passed on, so every named algorithm but fbp and gridrec raises ValueError (write_center_accepts_iff); ratio has no effect (write_center_ratio_unused). Proved: the file of each centre holds the slice reconstructed with that centre, for all kernels and schedules."
  },
  {
   "property": "C138",
   "status": "proved",
   "theorems": [
    "Tomopy.Iter.kacz_pythagoras",
    "Tomopy.Iter.art_orthogonal",
    "Tomopy.Iter.steps_small",
    "Tomopy.Iter.art_cluster",
    "Tomopy.Iter.art_converges",
    "Tomopy.Iter.art_recovers",
    "Tomopy.Iter.art_projection_converges"
   ],
   "note": "Exact arithmetic. Rays charge a pixel once (proved for the tracer away from the axes, tracer_geomOnce)."
  },
  {
   "property": "C139",
   "status": "proved",
   "theorems": [
    "Tomopy.Iter.em_gain",
    "Tomopy.Iter.em_fixed_max",
    "Tomopy.Iter.mlem_one",
    "Tomopy.Iter.mlem_likelihood_step",
    "Tomopy.Iter.mlem_likelihood",
    "Tomopy.Iter.mlem_fixed_max",
    "Tomopy.Iter.mlem_likelihood_tracer"
   ],
   "note": "Over the reals with the exact logarithm; for zero data mlem is undefined, see C34."
  },
  {
   "property": "C140",
   "status": "partial",
   "theorems": [
    "Tomopy.Iter.sirt_gain",
    "Tomopy.Iter.sirt_one",
    "Tomopy.Iter.sirt_step_gain",
    "Tomopy.Iter.sirt_distance",
    "Tomopy.Iter.sirt_orthogonal",
    "Tomopy.Iter.fejer_converges",
    "Tomopy.Iter.sirt_converges_partial",
    "Tomopy.Iter.sirt_one_ray",
    "Tomopy.Iter.sirt_diverges",
    "Tomopy.Iter.corner_length",
    "Tomopy.Iter.sirt_corner_diverges"
   ],
   "note": "Refuted: the residuals are divided by the sum of squares of the lengths and not by the length, so a short chord is overcorrected; with one projection at 45 degrees that cuts a corner of the pixel the errors grow beyond all bounds (sirt_corner_diverges). Proved: sirt converges, to the nearest solution in a weighted norm, if every ray is less than twice as long as its sum of squared lengths (sirt_converges_partial)."
  },
  {
   "property": "C141",
   "status": "partial",
   "theorems": [
    "Tomopy.Iter.em_concave",
    "Tomopy.Iter.depierro",
    "Tomopy.Iter.pml_gain",
    "Tomopy.Iter.pml_fixed_max",
    "Tomopy.Iter.potential_quad",
    "Tomopy.Iter.potential_hybrid",
    "Tomopy.Iter.nbMean_grid",
    "Tomopy.Iter.symGrid_iff",
    "Tomopy.Iter.pml_one",
    "Tomopy.Iter.pml_gain_step_partial",
    "Tomopy.Iter.pml_likelihood_step_partial",
    "Tomopy.Iter.pml_likelihood_partial",
    "Tomopy.Iter.pml_fixed_iff_partial",
    "Tomopy.Iter.pml_quad_steps_partial",
    "Tomopy.Iter.pml_quad_likelihood_partial",
    "Tomopy.Iter.pml_hybrid_likelihood_partial",
    "Tomopy.Iter.pml_no_penalty",
    "Tomopy.Iter.pml_quad_no_penalty",
    "Tomopy.Iter.pml_hybrid_no_penalty"
   ],
   "note": "Refuted: the weights are normalised separately for inner, edge and corner pixels and so are symmetric only on 2 x 2 pixels (symGrid_iff); on every other grid, with rays that determine the image, no differentiable penalty at all has the unchanged images as local maxima (pml_no_penalty). Proved where the weights are symmetric: monotone penalised likelihood, unchanged exactly at the maxima, changes tend to zero (pml_quad)."
  },
  {
   "property": "C142",
   "status": "proved",
   "theorems": [
    "Tomopy.CInt.computes_exact",
    "Tomopy.CInt.index_exact_iff",
    "Tomopy.CInt.data_wrap_negative",
    "Tomopy.CInt.image_wrap_negative",
    "Tomopy.CInt.gridrec_index_exact_iff",
    "Tomopy.CInt.pdim_sq_iff",
    "Tomopy.CInt.bg_index_exact_iff",
    "Tomopy.CInt.sf_index_exact_iff",
    "Tomopy.CInt.ring_index_exact_iff",
    "Tomopy.CInt.morph_index_exact_iff",
    "Tomopy.CInt.morph_assert_insufficient",
    "Tomopy.CInt.callSizes_auto",
    "Tomopy.CInt.callSizes_chunk",
    "Tomopy.CInt.recon_index_exact_iff",
    "Tomopy.CInt.recon_gridrec_index_exact_iff",
    "Tomopy.CInt.recon_chunk_index_exact_iff",
    "Tomopy.CInt.recon_overflow_four_cores",
    "Tomopy.CInt.recon_gridrec_overflow"
   ],
   "note": "C expressions with their types (int, unsigned, unsigned long long) and undefined signed overflow. vector2, vector3 and project3 (permuted axes) and the work vectors of gridrec of length dt*pdim/2 are not covered. Finding: 1800 x 2160 x 2560 with 4 cores overflows in every function."
  },
  {
   "property": "C143",
   "status": "proved",
   "theorems": [
    "Tomopy.Fl.fl_rel",
    "Tomopy.Fl.fl_mono",
    "Tomopy.Fl.fl_exact",
    "Tomopy.Fl.crossingsF_le",
    "Tomopy.Fl.traceF_safe",
    "Tomopy.Fl.traceF_safe_project",
    "Tomopy.Fl.rayYF_bound",
    "Tomopy.Fl.reconF_safe",
    "Tomopy.Fl.index_out_of_range"
   ],
   "note": "IEEE binary32 rounding (nearest, ties to even, gradual underflow) as a function on the rationals. Overflow only in the division; lengths (sqrtf) are not in this model. sinf and cosf are assumed to be within [-1, 1]. index_out_of_range is about the two functions, not about a whole ray."
  },
  {
   "property": "C144",
   "status": "proved",
   "theorems": [
    "Tomopy.Fl.float_gap",
    "Tomopy.Fl.quadrantF_correct",
    "Tomopy.Fl.lost_iff",
    "Tomopy.Fl.quadrantF_lost",
    "Tomopy.Fl.quadrantF_flag_iff"
   ],
   "note": "float, double and int32_t arithmetic of calc_quadrant. The angle is the value that fmodf returned; the difference between 2*(float)M_PI and 2 pi in fmodf itself is not covered."
  },
  {
   "property": "C145",
   "status": "proved",
   "theorems": [
    "Tomopy.Fl.projectF_mono",
    "Tomopy.Fl.projectF_zero",
    "Tomopy.Fl.projectF_nonneg",
    "Tomopy.Fl.lineSumF_err",
    "Tomopy.Fl.projectF_accurate",
    "Tomopy.Fl.projectF_not_additive"
   ],
   "note": "Given the computed lengths; the error of the lengths and overflow to infinity are not covered."
  },
  {
   "property": "C146",
   "status": "proved",
   "theorems": [
    "Tomopy.Fl.osemF_not_negative",
    "Tomopy.Fl.osemF_zero_stays",
    "Tomopy.Fl.osemF_zero_ray_nan",
    "Tomopy.Fl.osemF_overflow_nan",
    "Tomopy.Fl.osemF_defined"
   ],
   "note": "float values with infinities and NaN (one zero: the sign of a zero is never visible here). The segment lengths are given finite floats."
  },
  {
   "property": "C147",
   "status": "proved",
   "theorems": [
    "Tomopy.Fl.mlemF_accurate",
    "Tomopy.Fl.emStep_mlem",
    "Tomopy.Fl.mlemF_near_mlem"
   ],
   "note": "Per iteration, given the computed lengths; the start image of each iteration is the float image. Growth of the error over several iterations is not covered."
  },
  {
   "property": "C148",
   "status": "partial",
   "theorems": [
    "Tomopy.Corr.medBuffer_exact3",
    "Tomopy.Corr.medBuffer_exact2",
    "Tomopy.Corr.med3F_partial",
    "Tomopy.Corr.med3_overflow",
    "Tomopy.Corr.gauss_fits_partial",
    "Tomopy.Corr.gauss_overflow"
   ],
   "note": "The buffer has the length of the window exactly for radii up to 127 (3D) and 2047 (2D), so those are safe; for larger radii it never has. With a correctly rounded powf it is one element short for the radii 128, 130, ..., 160 (heap write past the end)."
  },
  {
   "property": "C149",
   "status": "proved",
   "theorems": [
    "Tomopy.Corr.med_one_slice",
    "Tomopy.Corr.med_uint16_float",
    "Tomopy.Corr.med2_spec",
    "Tomopy.Corr.medCall_spec"
   ],
   "note": "Exact arithmetic for the difference of floats; values without NaN."
  },
  {
   "property": "C150",
   "status": "partial",
   "theorems": [
    "Tomopy.Iter.tv_converges_partial",
    "Tomopy.Iter.gradSq_le",
    "Tomopy.Iter.stepOk_of_projector",
    "Tomopy.Iter.tv_diverges",
    "Tomopy.Iter.tvIter_value"
   ],
   "note": "Proved when the fixed step 0.35 is below the inverse of the norm of the operator (differences and scaled ray sums), which holds when the squared norm of the scaled projector is below 8/49. Refuted without that condition: one angle, one detector pixel and a row of 17 or more pixels make every pixel double in every iteration. Exact arithmetic."
  },
  {
   "property": "C151",
   "status": "proved",
   "theorems": [
    "Tomopy.Iter.grad_converges",
    "Tomopy.Iter.grad_converges_iff",
    "Tomopy.Iter.tikh_converges",
    "Tomopy.Iter.tikh_converges_iff",
    "Tomopy.Iter.shortStep_of_lengths",
    "Tomopy.Iter.not_shortStep",
    "Tomopy.Iter.gradRun_value"
   ],
   "note": "Exact arithmetic; a negative reg_par[0] (automatic step) is the subject of C37, not of this claim. With the default reg_par of ones the condition fails as soon as the mean squared ray length is at least half the number of pixels."
  },
  {
   "property": "C152",
   "status": "proved",
   "theorems": [
    "Tomopy.Iter.mlem_converges",
    "Tomopy.Iter.Em.Run.converges",
    "Tomopy.Iter.Em.maximises"
   ],
   "note": "Exact arithmetic; the likelihood is the Poisson log-likelihood without the terms that do not depend on the image. Em.Run.converges and Em.maximises are the statements about abstract matrices."
  },
  {
   "property": "C153",
   "status": "partial",
   "theorems": [
    "Tomopy.Iter.osem_not_most_likely",
    "Tomopy.Iter.osem_converges_partial"
   ],
   "note": "False with more than one block: on one pixel seen at two angles with different values, each in its own block, every number of iterations gives the value of the last block. With a single block it is C152."
  },
  {
   "property": "C154",
   "status": "proved",
   "theorems": [
    "Tomopy.Iter.sirt_limit",
    "Tomopy.Iter.sirt_converges_iff",
    "Tomopy.Iter.sirtOk_of_rays",
    "Tomopy.Iter.not_sirtOk"
   ],
   "note": "Exact arithmetic."
  },
  {
   "property": "C155",
   "status": "proved",
   "theorems": [
    "Tomopy.Iter.art_converges_always",
    "Tomopy.Iter.art_not_least_squares",
    "Tomopy.Iter.Kz.converges",
    "Tomopy.Iter.Kz.contraction"
   ],
   "note": "Exact arithmetic. Kz.converges is the statement about abstract hyperplanes."
  },
  {
   "property": "C156",
   "status": "proved",
   "theorems": [
    "Tomopy.Gridrec.gridrec_opposite",
    "Tomopy.Gridrec.gridrec_order",
    "Tomopy.Gridrec.gridrec_moved"
   ],
   "note": "Exact arithmetic. The centre of a slice at an odd position is that of the slice before it, see C70."
  },
  {
   "property": "C157",
   "status": "proved",
   "theorems": [
    "Tomopy.Gridrec.gridrec_offset"
   ],
   "note": "Exact arithmetic."
  },
  {
   "property": "C158",
   "status": "partial",
   "theorems": [
    "Tomopy.Gridrec.gridrec_quarter_partial",
    "Tomopy.Gridrec.gridrec_quarter_wrong"
   ],
   "note": "Refuted: the correction is taken one pixel off the axis (C71), so the turned image has other values (gridrec_quarter_wrong). Proved: it is the turned image up to the quotient of the window at |x - 1| and |x + 1|."
  },
  {
   "property": "C159",
   "status": "proved",
   "theorems": [
    "Tomopy.Gridrec.gridrec_grid",
    "Tomopy.Gridrec.gridrec_crop",
    "Tomopy.Gridrec.axis_not_middle"
   ],
   "note": "Exact arithmetic; grids wider than the padded detector are out of bounds, see C120."
  },
  {
   "property": "C160",
   "status": "partial",
   "theorems": [
    "Tomopy.Iter.bart_consistent_partial",
    "Tomopy.Iter.bart_one_ray",
    "Tomopy.Iter.bart_stuck"
   ],
   "note": "Refuted: the update of a block is divided by the length of the rays of this block in the pixel; with one ray per block all pixels of the ray change by the same amount (bart_one_ray), and the iteration can stay away from every consistent image although sirt converges to one (bart_stuck). Proved for one block."
  },
  {
   "property": "C161",
   "status": "proved",
   "theorems": [
    "Tomopy.Iter.project_sup",
    "Tomopy.Iter.fbp_sup",
    "Tomopy.Iter.art_sup",
    "Tomopy.Iter.bart_sup",
    "Tomopy.Iter.sirt_sup",
    "Tomopy.Iter.grad_sup",
    "Tomopy.Iter.tikh_sup",
    "Tomopy.Iter.osem_scaled",
    "Tomopy.Gridrec.gridrec_sup"
   ],
   "note": "Exact arithmetic; a run that divides by zero has no result to superpose. mlem is not additive (mlem_not_sup)."
  },
  {
   "property": "C162",
   "status": "proved",
   "theorems": [
    "Tomopy.Iter.sirt_views",
    "Tomopy.Iter.bart_views",
    "Tomopy.Iter.mlem_views",
    "Tomopy.Iter.osem_views",
    "Tomopy.Iter.fbp_views",
    "Tomopy.Iter.grad_views",
    "Tomopy.Iter.tikh_views",
    "Tomopy.Iter.tracer_rearranged"
   ],
   "note": "Exact arithmetic. Does not hold for art, which handles one ray after the other (art_order_matters)."
  },
  {
   "property": "C163",
   "status": "proved",
   "theorems": [
    "Tomopy.Iter.vector_converges_iff",
    "Tomopy.Iter.vector_limit",
    "Tomopy.Iter.vecOk_of_rays",
    "Tomopy.Iter.vector_consistent_limit"
   ],
   "note": "Exact arithmetic. The condition on the rays is the one of sirt (C154); unlike sirt, vector divides 0 / 0 in a pixel without rays."
  },
  {
   "property": "C164",
   "status": "partial",
   "theorems": [
    "Tomopy.Iter.project_turned_partial",
    "Tomopy.Iter.project_mirrored_partial",
    "Tomopy.Iter.linear_turned_partial",
    "Tomopy.Iter.linear_mirrored_partial",
    "Tomopy.Iter.em_turned_partial",
    "Tomopy.Iter.gradients_turned_partial",
    "Tomopy.Iter.generic_zero",
    "Tomopy.Iter.generic_quarter",
    "Tomopy.Sim.project_turned_py_partial",
    "Tomopy.Sim.project_mirrored_py_partial",
    "Tomopy.Sim.project_turned_fails"
   ],
   "note": "Exact arithmetic, scans with no ray through a corner of the grid (Generic); refuted in general by project_turned_fails. The Python function project is covered by project_turned_py_partial and project_mirrored_py_partial (default centre)."
  },
  {
   "property": "C165",
   "status": "partial",
   "theorems": [
    "Tomopy.Sim.project_axis0_partial",
    "Tomopy.Sim.project_axis1_partial",
    "Tomopy.Sim.project_axis0_missing",
    "Tomopy.Sim.project_axis1_missing",
    "Tomopy.Sim.project_axis0_exact",
    "Tomopy.Sim.project_axis1_exact",
    "Tomopy.Sim.project_axis0_total",
    "Tomopy.Sim.project_axis0_loses"
   ],
   "note": "Proved for even widths and refuted for odd ones; project_axis0_exact and project_axis1_exact give the stored value in every case. Exact arithmetic, default centre."
  },
  {
   "property": "C166",
   "status": "partial",
   "theorems": [
    "Tomopy.Heap.call_leaves",
    "Tomopy.Heap.call_frees_partial",
    "Tomopy.Heap.call_leaks",
    "Tomopy.Heap.call_bytes",
    "Tomopy.Heap.calls_bytes",
    "Tomopy.Heap.calls_tidy_partial",
    "Tomopy.Heap.leak_unbounded"
   ],
   "note": "Safety of every routine and exact blocks left behind for all inputs (call_leaves, calls_bytes); the rest of the claim holds for the tidy routines and is refuted for the five others (call_leaks, leak_unbounded). Allocation is assumed to succeed; parallel loops run in index order."
  },
  {
   "property": "C167",
   "status": "partial",
   "theorems": [
    "Tomopy.Iter.art_scaled",
    "Tomopy.Iter.fbp_scaled",
    "Tomopy.Iter.bart_scaled",
    "Tomopy.Iter.osem_scaled",
    "Tomopy.Iter.grad_scaled",
    "Tomopy.Iter.tikh_scaled",
    "Tomopy.Iter.ospml_quad_scaled",
    "Tomopy.Iter.ospml_hybrid_scaled",
    "Tomopy.Iter.tv_scaled",
    "Tomopy.Iter.mlem_init_scale",
    "Tomopy.Iter.mlem_units",
    "Tomopy.Iter.osem_init_scale_partial",
    "Tomopy.Iter.osem_init_scale_wrong",
    "Tomopy.Iter.ospml_quad_units_wrong",
    "Tomopy.Iter.tv_units_wrong"
   ],
   "note": "Exact arithmetic. Proved for all methods with the regularisation in the unit of the data; refuted for an unchanged reg_par (ospml_quad_units_wrong, tv_units_wrong). Initial scale: proved for mlem, for osem under the stated condition, refuted without it."
  },
  {
   "property": "C168",
   "status": "partial",
   "theorems": [
    "Tomopy.Corr.cmpF_total_iff",
    "Tomopy.Corr.cmpU_total",
    "Tomopy.Corr.qsort_numbers",
    "Tomopy.Corr.median_any_qsort",
    "Tomopy.Corr.median_any_qsort_uint16",
    "Tomopy.Corr.qsort_nan_middle",
    "Tomopy.Corr.outlier_keeps_nan",
    "Tomopy.Corr.isortC_conforms",
    "Tomopy.Corr.msortC_conforms",
    "Tomopy.Corr.median_nan_wrong"
   ],
   "note": "Proved for uint16 and for floats without NaN, for every conforming qsort; refuted for floats with NaN (median_nan_wrong). The C standard leaves an inconsistent comparison function undefined; the theorems about NaN only assume that the result is an arrangement of the window."
  },
  {
   "property": "C169",
   "status": "partial",
   "theorems": [
    "Tomopy.Recon.recon_lengths_checked",
    "Tomopy.Recon.recon_inside",
    "Tomopy.Recon.vector_inside_iff",
    "Tomopy.Recon.vector_inside_partial",
    "Tomopy.Recon.project_inside_iff",
    "Tomopy.Recon.project23_inside_iff",
    "Tomopy.Recon.vector_short_center_wrong",
    "Tomopy.Recon.vector_other_shape_wrong",
    "Tomopy.Recon.project_short_center_wrong"
   ],
   "note": "Proved for recon. Refuted for centres of project and for all arguments of the vector methods; exact conditions proved. One-dimensional arrays of centres."
  },
  {
   "property": "C170",
   "status": "partial",
   "theorems": [
    "Tomopy.Recon.kernel_own",
    "Tomopy.Recon.recon_own",
    "Tomopy.Recon.recon_bart_own",
    "Tomopy.Recon.recon_fbp_own",
    "Tomopy.Recon.recon_osem_own",
    "Tomopy.Recon.recon_tv_own",
    "Tomopy.Recon.osem_runAlone",
    "Tomopy.Recon.bart_runAlone",
    "Tomopy.Recon.mlem_runAlone",
    "Tomopy.Recon.sirt_runAlone",
    "Tomopy.Recon.grad_runAlone",
    "Tomopy.Recon.ospml_runAlone",
    "Tomopy.Recon.tv_runAlone",
    "Tomopy.Recon.fbp_runAlone",
    "Tomopy.Recon.art_kernel",
    "Tomopy.Recon.recon_art_own_partial",
    "Tomopy.Recon.tikh_runAlone_partial",
    "Tomopy.Recon.tikh_reg_data_depends_on_ncore",
    "Tomopy.Recon.tikh_reg_data_differs",
    "Tomopy.Recon.tikh_default_reg_data_iff",
    "Tomopy.Iter.tikh_alone"
   ],
   "note": "Refuted for tikh with a reg_data that differs between slices and (C08) for art with different centres. gridrec and the vector methods are not covered here. Float rounding left out; a block with any slice without a real result counts as having none."
  },
  {
   "property": "C171",
   "status": "partial",
   "theorems": [
    "Tomopy.Recon.roundTrip_art",
    "Tomopy.Recon.roundTrip_art_object",
    "Tomopy.Recon.roundTrip_mlem",
    "Tomopy.Recon.roundTrip_total",
    "Tomopy.Recon.prepared_exists",
    "Tomopy.Recon.prepared_value",
    "Tomopy.Recon.thin_determined",
    "Tomopy.Recon.two_views_undetermined",
    "Tomopy.Recon.roundTrip_art_wrong",
    "Tomopy.Iter.mlem_reproduces",
    "Tomopy.Iter.osRun_data_congr"
   ],
   "note": "Refuted for objects that the views do not determine; exact arithmetic. num_gridx, num_gridy are those of the object, not the default for pad=True."
  },
  {
   "property": "C172",
   "status": "partial",
   "theorems": [
    "Tomopy.Stripe.sliceFilter_ok",
    "Tomopy.Stripe.sliceFilter_error",
    "Tomopy.Stripe.sliceFilter_total",
    "Tomopy.Stripe.sliceFilter_alone",
    "Tomopy.Stripe.sliceFilter_all",
    "Tomopy.Stripe.removeStripe_alone_partial",
    "Tomopy.Stripe.removeStripe_all_partial",
    "Tomopy.Stripe.removeStripe_error",
    "Tomopy.Stripe.removeStripe_nchunk_zero",
    "Tomopy.Stripe.removeStripe_total",
    "Tomopy.Stripe.sf_alone",
    "Tomopy.Stripe.fw_default_wrong",
    "Tomopy.Stripe.db2_ok",
    "Tomopy.Stripe.db2_const",
    "Tomopy.Stripe.fw_db2_columns"
   ],
   "note": "Refuted for remove_stripe_fw with the default number of levels and more sinograms than angles and columns; exact arithmetic."
  },
  {
   "property": "C173",
   "status": "partial",
   "theorems": [
    "Tomopy.Sim.project_padded_partial",
    "Tomopy.Sim.rayIntegral_padded",
    "Tomopy.Sim.project_surrounded_loses",
    "Tomopy.Sim.project_surrounded_fails",
    "Tomopy.Sim.width_padded",
    "Tomopy.Sim.raysClear_zero",
    "Tomopy.Ray.trace_surrounded",
    "Tomopy.Ray.crossings_inner",
    "Tomopy.Ray.exit_crossing",
    "Tomopy.Recon.roundTrip_art_larger_partial"
   ],
   "note": "Refuted at angle 0 for objects with an odd last dimension; exact arithmetic."
  },
  {
   "property": "C174",
   "status": "proved",
   "theorems": [
    "Tomopy.Normalize.normalize_bg_distributed",
    "Tomopy.Normalize.normalize_bg_alone",
    "Tomopy.Normalize.normalize_bg_total",
    "Tomopy.Normalize.bgBlock_slicewise",
    "Tomopy.Normalize.normalize_roi_distributed",
    "Tomopy.Normalize.normalize_roi_alone",
    "Tomopy.Normalize.normalize_roi_total",
    "Tomopy.Normalize.roiNan_some"
   ],
   "note": "Exact arithmetic; the array is not in shared memory already."
  },
  {
   "property": "C175",
   "status": "partial",
   "theorems": [
    "Tomopy.Recon.recon_continued",
    "Tomopy.Recon.bart_continued",
    "Tomopy.Recon.osem_continued",
    "Tomopy.Recon.ospml_continued",
    "Tomopy.Recon.grad_continued_partial",
    "Tomopy.Recon.tikh_continued_partial",
    "Tomopy.Recon.art_continued_partial",
    "Tomopy.Recon.grad_auto_not_continued",
    "Tomopy.Recon.tv_not_continued",
    "Tomopy.Recon.reconCalls_total",
    "Tomopy.Iter.art_continues",
    "Tomopy.Iter.osem_continues",
    "Tomopy.Iter.mlem_continues",
    "Tomopy.Iter.bart_continues",
    "Tomopy.Iter.sirt_continues",
    "Tomopy.Iter.ospml_continues",
    "Tomopy.Iter.pml_continues",
    "Tomopy.Iter.grad_continues_partial",
    "Tomopy.Iter.tikh_continues_partial",
    "Tomopy.Iter.grad_auto_restarts",
    "Tomopy.Iter.tv_restarts"
   ],
   "note": "Proved for bart, sirt, osem, mlem (positive data and image), ospml_*, pml_* (where defined), grad and tikh with a given step, art with one centre. False for tv, which starts its dual variables at zero in every call and returns the extrapolated image, and for grad and tikh with the automatic step, whose first step in every call is 1/1000. Missing: art with several centres (there the result depends on the distribution, C08). Exact arithmetic."
  },
  {
   "property": "C176",
   "status": "partial",
   "theorems": [
    "Tomopy.Wrap.ufo_bounded",
    "Tomopy.Wrap.ufo_returned_written",
    "Tomopy.Wrap.ufo_written_only",
    "Tomopy.Wrap.ufo_progress_partial",
    "Tomopy.Wrap.ufo_returns_partial",
    "Tomopy.Wrap.ufo_maximal",
    "Tomopy.Wrap.ufo_hangs",
    "Tomopy.Wrap.ufo_hangs_state",
    "Tomopy.Wrap.ufo_returns_iff",
    "Tomopy.Wrap.ufo_crop_iff",
    "Tomopy.Wrap.ufo_grid_hangs"
   ],
   "note": "Every execution is finite and, if every image fits into its slice, ends with the call returned and every slice written. False otherwise: an image that does not fit ends the thread of _process_data before input_task.stop(), and the scheduler waits for ever; so with a grid that is not as wide as the detector the call never returns. UFO itself is an assumption stated in Verif/Wrap/UfoModel.lean."
  },
  {
   "property": "C177",
   "status": "partial",
   "theorems": [
    "Tomopy.Ring.ring_enters",
    "Tomopy.Ring.remove_ring_args_partial",
    "Tomopy.Ring.remove_ring_returns_iff",
    "Tomopy.Ring.remove_ring_silent",
    "Tomopy.Ring.remove_ring_float_width",
    "Tomopy.Ring.remove_ring_float_angle"
   ],
   "note": "With numbers for centres and thresholds and integers for theta_min and rwidth every argument reaches the parameter of its meaning and the call is removeRing, about which C43 to C45 and C74 speak. False otherwise: the conversion raises in the tasks, whose futures are dropped, so rwidth=15.5 or theta_min=30.0 returns the uncorrected slices without an exception; centres, thresholds and rwidth never make the call raise."
  },
  {
   "property": "C178",
   "status": "proved",
   "theorems": [
    "Tomopy.Fl.sum_exact",
    "Tomopy.Fl.mean_rounded",
    "Tomopy.Fl.mean_accurate",
    "Tomopy.Fl.normalize_finite",
    "Tomopy.Fl.normalize_cutoff",
    "Tomopy.Fl.normalize_mono",
    "Tomopy.Fl.normalize_references",
    "Tomopy.Fl.normalize_frame",
    "Tomopy.Fl.normalize_accurate"
   ],
   "note": "IEEE binary32 with round to nearest even; numpy may divide the sum in float or in double (Before); NumExpr evaluates each operation in float32."
  },
  {
   "property": "C179",
   "status": "partial",
   "theorems": [
    "Tomopy.Fl.equal_frames_partial",
    "Tomopy.Fl.equal_frames_256",
    "Tomopy.Fl.fl_odd_far",
    "Tomopy.Fl.equal_frames_257"
   ],
   "note": "Holds if the frames sum to 2**24 at most, so for 256 frames of 16 bits. Refuted for 257 frames of 65535: the float32 sum cannot be exact in any order, and the average is not 65535."
  },
  {
   "property": "C180",
   "status": "proved",
   "theorems": [
    "Tomopy.Fl.artF_own",
    "Tomopy.Fl.bartF_own",
    "Tomopy.Fl.sirtF_own",
    "Tomopy.Fl.osemF_own",
    "Tomopy.Fl.mlemF_own",
    "Tomopy.Fl.osemF_own_short",
    "Tomopy.Fl.own_ordinary"
   ],
   "note": "The sign of zero is not distinguished. project uses the first centre for all slices, so all slices need that centre. osemF_own_short shows that the condition on short rays is needed; own_ordinary that images of ordinary magnitude meet all conditions."
  },
  {
   "property": "C181",
   "status": "proved",
   "theorems": [
    "Tomopy.Fl.fbpF_val",
    "Tomopy.Fl.pixKeys_sum",
    "Tomopy.Fl.fbpF_accurate",
    "Tomopy.Fl.fbpF_mono",
    "Tomopy.Fl.fbpF_sign",
    "Tomopy.Fl.fbpF_unseen"
   ],
   "note": "The lengths of the segments are given; the filter applied before is not part of it."
  },
  {
   "property": "C182",
   "status": "proved",
   "theorems": [
    "Tomopy.Fl.fbpF_alone",
    "Tomopy.Fl.artF_alone",
    "Tomopy.Fl.osemF_alone",
    "Tomopy.Fl.bartF_alone",
    "Tomopy.Fl.projectM_alone",
    "Tomopy.Fl.AloneF.elsewhere",
    "Tomopy.Fl.AloneF.chunk"
   ],
   "note": "sirt and mlem are bart and osem with one subset. The order of the operations within a slice is fixed by the loops, so no algebra of floats is used. The segments are given here; C183 shows those of the float ray tracer are as these theorems ask."
  },
  {
   "property": "C183",
   "status": "proved",
   "theorems": [
    "Tomopy.Fl.segsF_ok",
    "Tomopy.Fl.geomF_ok",
    "Tomopy.Fl.segsF_trace",
    "Tomopy.Fl.lenF_near",
    "Tomopy.Fl.lenF_float",
    "Tomopy.Fl.le_sqrtF",
    "Tomopy.Fl.sqrtF_le",
    "Tomopy.Fl.sqrtF_err",
    "Tomopy.Fl.fbpF_traced",
    "Tomopy.Fl.osemF_traced"
   ],
   "note": "sqrtf is the correctly rounded root, as IEEE 754 requires of it and the C library documents; sin and cos are any floats of at most 1 in size. The relative error is against the distance of the two computed crossing points, not of the exact ones."
  },
  {
   "property": "C184",
   "status": "proved",
   "theorems": [
    "Tomopy.Heap.call_peak",
    "Tomopy.Heap.call_reaches",
    "Tomopy.Heap.calls_peak",
    "Tomopy.Heap.solver_bytes",
    "Tomopy.Heap.workers_bytes",
    "Tomopy.Heap.runs_prog",
    "Tomopy.Heap.reaches_held"
   ],
   "note": "Bytes asked of malloc, calloc, new and fftw; the overhead of the allocator and the stack are not counted, and the sizes of the FFT plans are parameters. That a ray has no more crossings than the buffers hold is a hypothesis here, proved of the ray tracer in C29 and, in float arithmetic, in C183. The bound of workers_bytes is for all of the workers at their worst moment at once."
  },
  {
   "property": "C185",
   "status": "proved",
   "theorems": [
    "Tomopy.Fl.projectM_neg",
    "Tomopy.Fl.fbpF_neg",
    "Tomopy.Fl.artF_neg",
    "Tomopy.Fl.bartF_neg",
    "Tomopy.Fl.sirtF_neg",
    "Tomopy.Fl.fbpF_scale",
    "Tomopy.Fl.projectM_scale",
    "Tomopy.Fl.fl_neg",
    "Tomopy.Fl.fl_scale",
    "Tomopy.Fl.osemF_not_odd",
    "Tomopy.Fl.fbpF_not_scale3"
   ],
   "note": "The two zeros are one value in the model, so bit for bit is up to the sign of zeros. The segments are given (C183 has those of the float ray tracer). Scaling is proved of one pass; the iterative solvers are not covered by it."
  },
  {
   "property": "C186",
   "status": "partial",
   "theorems": [
    "Tomopy.Fl.downsampleF_val",
    "Tomopy.Fl.upsampleF_val",
    "Tomopy.Fl.roundtripF_val",
    "Tomopy.Fl.roundtripF_small",
    "Tomopy.Fl.roundtripF_fails",
    "Tomopy.Fl.binMean_one",
    "Tomopy.Fl.binMean_equal",
    "Tomopy.Fl.binMean_counts",
    "Tomopy.Fl.binMean_large",
    "Tomopy.Fl.binMean_accurate",
    "Tomopy.Fl.downsampleF_counts",
    "Tomopy.Fl.downsampleF_accurate"
   ],
   "note": "False as stated at levels 3 to 23 (roundtripF_fails, with the value 8388611 from level 4 on); proved at levels 0, 1 and 2 (roundtripF_small). Levels above 23 need axes of more than 8 million entries and are not decided. The accuracy is proved up to level 13 for values up to 2^100."
  },
  {
   "property": "C187",
   "status": "partial",
   "theorems": [
    "Tomopy.Fl.copyMean_iff",
    "Tomopy.Fl.copyMean_small",
    "Tomopy.Fl.copyMean_near",
    "Tomopy.Fl.sfF_result",
    "Tomopy.Fl.sf_flat_val",
    "Tomopy.Fl.sf_size_one",
    "Tomopy.Fl.sf_flat_keeps",
    "Tomopy.Fl.sf_flat_changes",
    "Tomopy.Fl.sf_flat_iff",
    "Tomopy.Fl.sf_default_changes",
    "Tomopy.Fl.sf_flat_accurate",
    "Tomopy.Fl.bg_const",
    "Tomopy.Fl.bg_flat_ones",
    "Tomopy.Fl.bg_flat_not_ones",
    "Tomopy.Fl.bg_flat_iff",
    "Tomopy.Fl.bg_counts_ones",
    "Tomopy.Fl.bg_left_one",
    "Tomopy.Fl.bg_right_accurate",
    "Tomopy.Fl.bg_right_not_one",
    "Tomopy.Fl.bg_right_infinite"
   ],
   "note": "The first sentence is false for sizes other than 1, 2 and 4 (sf_flat_changes, sf_default_changes, bg_flat_not_ones) and the documented value one of the right boundary is not reached (bg_right_not_one, bg_right_infinite); the remaining statements are proved. The accuracy bounds of remove_stripe_sf need size and the number of projections to be at most 16383. That every other window size changes some flat sinogram is proved for stacks of 1, 2 or 4 projections, and for 180 projections with the default window."
  },
  {
   "property": "C188",
   "status": "partial",
   "theorems": [
    "Tomopy.Sim.unpadded_shape",
    "Tomopy.Sim.other_pad_fails",
    "Tomopy.Sim.rayIntegral_shift",
    "Tomopy.Sim.unpadded_middle_partial",
    "Tomopy.Sim.unpadded_middle_iff",
    "Tomopy.Sim.unpadded_axis1",
    "Tomopy.Sim.unpadded_axis0",
    "Tomopy.Sim.unpadded_axis0_total_iff"
   ],
   "note": "False as stated in the first sentence for odd widths and for objects with a longer third axis; the iff theorems say exactly when it holds. Exact arithmetic."
  },
  {
   "property": "C189",
   "status": "partial",
   "theorems": [
    "Tomopy.Phase.filter_ker",
    "Tomopy.Phase.filter_turned",
    "Tomopy.Phase.retrieve_phase_turned",
    "Tomopy.Phase.sin_sin_pos",
    "Tomopy.Phase.ker_left_right",
    "Tomopy.Phase.retrieve_phase_bright",
    "Tomopy.Phase.retrieve_phase_skew",
    "Tomopy.Phase.retrieve_phase_mirrored_fails"
   ],
   "note": "Turning is proved. Mirroring is refuted for every even size and all parameters: the frequencies of _reciprocal_coord lie at half-integers on even grids, so opposite frequencies get different gains, and np.real keeps only the part that is symmetric under turning."
  },
  {
   "property": "C190",
   "status": "proved",
   "theorems": [
    "Tomopy.Phase.filter_energy_le",
    "Tomopy.Phase.filter_inner",
    "Tomopy.Phase.filter_inner_ge",
    "Tomopy.Phase.filter_apart",
    "Tomopy.Phase.gains_bounds",
    "Tomopy.Phase.filter_injective",
    "Tomopy.Phase.retrieve_phase_contracts"
   ],
   "note": "Exact arithmetic. The statement about the call has the restriction to even sizes of C46 and C75 (with odd sizes the padded frame may be no frame at all, see embed_collapses)."
  },
  {
   "property": "C191",
   "status": "partial",
   "theorems": [
    "Tomopy.Sym.smoothMean_reflect",
    "Tomopy.Sym.sf_mirror_defect",
    "Tomopy.Sym.sf_mirrors_iff",
    "Tomopy.Sym.airLine_reflect",
    "Tomopy.Sym.normalize_bg_mirrored",
    "Tomopy.Sym.window3_flip",
    "Tomopy.Sym.median3d_flipped",
    "Tomopy.Sym.down_mirrors_iff",
    "Tomopy.Sym.up_mirrored",
    "Tomopy.Sym.detect_mirrored_partial",
    "Tomopy.Sym.detect_mirrored_fails"
   ],
   "note": "Refuted for remove_stripe_sf with even windows, for downsample with sizes that the bin does not divide (both as exact characterisations) and for stripes_detect3d, whose gradient looks two columns to the right. The statement about stripes_detect3d is for data without negative values and sizes that fit (C43)."
  },
  {
   "property": "C192",
   "status": "partial",
   "theorems": [
    "Tomopy.Bench.norm1_bounds",
    "Tomopy.Bench.norm1_eq_iff",
    "Tomopy.Bench.norm2_le",
    "Tomopy.Bench.quantify_raises",
    "Tomopy.Bench.quantify_ok",
    "Tomopy.Bench.gradients_zero_iff",
    "Tomopy.Bench.normalize_eq_iff",
    "Tomopy.Bench.quantify_zero_iff",
    "Tomopy.Bench.quantify_contrast",
    "Tomopy.Bench.quantify_symmetric",
    "Tomopy.Bench.quantify_not_entrywise",
    "Tomopy.Bench.quantify_int_partial"
   ],
   "note": "Refuted: numpy.linalg.norm with ord=1 and ord=2 is a matrix norm for two-dimensional arrays. What the numbers detect is proved exactly (quantify_zero_iff): smoothing with 1, 2, 1 and reflection is injective, so the gradients vanish only for constant differences. The singular value is taken as the operator norm."
  },
  {
   "property": "C193",
   "status": "partial",
   "theorems": [
    "Tomopy.Bench.assign_spec",
    "Tomopy.Bench.assignAll_spec",
    "Tomopy.Bench.compare_run_partial",
    "Tomopy.Bench.assign_replaces_solution",
    "Tomopy.Bench.assign_raises_iff",
    "Tomopy.Bench.assign_raises_tag",
    "Tomopy.Bench.assign_dropped",
    "Tomopy.Bench.assign_repeats"
   ],
   "note": "Proved for stacks of the right size and blocks 1 to ncompare; the other cases are refuted by the theorems listed. A solution that numpy would broadcast is not modelled."
  },
  {
   "property": "C194",
   "status": "partial",
   "theorems": [
    "Tomopy.Gpu.writeAll_spec",
    "Tomopy.Gpu.chunks_sum",
    "Tomopy.Gpu.lprec_slices_partial",
    "Tomopy.Gpu.lprec_ignores",
    "Tomopy.Gpu.lprec_center_lost",
    "Tomopy.Gpu.lprec_raises_iff",
    "Tomopy.Gpu.lprec_example_raises"
   ],
   "note": "The methods of the package lprec are a parameter. Refuted: int(center[0]) is used for all slices and theta is not passed on; the example of the docstring raises."
  },
  {
   "property": "C195",
   "status": "partial",
   "theorems": [
    "Tomopy.Bench.convert_returned_untouched",
    "Tomopy.Bench.convert_writes_partial",
    "Tomopy.Bench.convert_failure",
    "Tomopy.Bench.convert_keeps"
   ],
   "note": "Refuted: out.save(fname, \"jpeg\") writes to fname, the name returned is fname plus the extension. Files PIL cannot decode and a failing save are not modelled."
  },
  {
   "property": "C196",
   "status": "proved",
   "theorems": [
    "Tomopy.Morph.pyAxis_ok",
    "Tomopy.Morph.pyAxis_error",
    "Tomopy.Morph.padInto_nonneg",
    "Tomopy.Morph.padInto_neg",
    "Tomopy.Morph.padNd_correct",
    "Tomopy.Morph.padNd_raises",
    "Tomopy.Morph.padNd_axis_back",
    "Tomopy.Morph.padNd_default",
    "Tomopy.Morph.pad_twice",
    "Tomopy.Morph.pad_axes_commute"
   ],
   "note": "Data types (the conversion of constant_values, numexpr or numpy) are not modelled; _get_npad in exact arithmetic."
  },
  {
   "property": "C197",
   "status": "partial",
   "theorems": [
    "Tomopy.Bench.rescaleTry_none_iff",
    "Tomopy.Bench.rescale_fallback",
    "Tomopy.Bench.rescale_images",
    "Tomopy.Bench.rescale_range_partial",
    "Tomopy.Bench.rescale_leaves_range",
    "Tomopy.Bench.rescale_no_transform",
    "Tomopy.Bench.rescale_contrast"
   ],
   "note": "skimage.transform.resize is a parameter. Refuted: a float factor or too many images return the argument unchanged."
  },
  {
   "property": "C198",
   "status": "partial",
   "theorems": [
    "Tomopy.Sym.map_reorders",
    "Tomopy.Sym.rank_unique",
    "Tomopy.Sym.rsFilter_inside",
    "Tomopy.Sym.rs_sort_columns_partial",
    "Tomopy.Sym.rs_sort_reordered_partial",
    "Tomopy.Sym.rs_sort_pairs",
    "Tomopy.Sym.rs_sort_reordered_fails",
    "Tomopy.Sym.reflect_mirror",
    "Tomopy.Sym.rsFilter_mirror",
    "Tomopy.Sym.rs_sort_mirrored_partial",
    "Tomopy.Sym.rs_sort_mirrored_fails",
    "Tomopy.Sym.sf_reordered"
   ],
   "note": "Refuted for pixels of equal value in one column (the unstable or stable order of ties decides) and for windows of an even number of columns, which includes the default for 600 columns. Exact arithmetic."
  },
  {
   "property": "C199",
   "status": "partial",
   "theorems": [
    "Tomopy.Sym.scipyWindow_flip",
    "Tomopy.Sym.median_filter_flipped",
    "Tomopy.Sym.median_filter_mirrors_iff",
    "Tomopy.Sym.remove_outlier_flipped_partial",
    "Tomopy.Sym.remove_outlier_mirrored_fails",
    "Tomopy.Sym.remove_outlier_mirrors_iff",
    "Tomopy.Sym.nearFinite_flip",
    "Tomopy.Sym.nonfinite_flipped",
    "Tomopy.Sym.getMask_flip",
    "Tomopy.Sym.getMask_swap",
    "Tomopy.Sym.circ_mask_flipped",
    "Tomopy.Sym.circ_mask_transposed"
   ],
   "note": "Refuted for median_filter and remove_outlier with every even size (exact characterisations for slices larger than the window; remove_outlier for every positive threshold). remove_outlier is for axis 0. Exact arithmetic; circ_mask on pixels at exactly the radius depends on rounding in the code."
  },
  {
   "property": "C200",
   "status": "partial",
   "theorems": [
    "Tomopy.Load.importExtern_complete",
    "Tomopy.Load.importExtern_missing",
    "Tomopy.Load.import_result",
    "Tomopy.Load.import_ok_iff",
    "Tomopy.Load.import_names_missing",
    "Tomopy.Load.call_ok",
    "Tomopy.Load.api_calls_ok",
    "Tomopy.Load.call_accel",
    "Tomopy.Load.get_func_known",
    "Tomopy.Load.get_func_own",
    "Tomopy.Load.fft_unknown_accepted",
    "Tomopy.Load.fft_no_fallback"
   ],
   "note": "Refuted: unknown values of TOMOPY_FFT_IMPL are accepted and select numpy; errors of mkl_fft other than ImportError are not caught. Other Python packages are taken to be installed and a library that loads to have all its functions."
  },
  {
   "property": "C201",
   "status": "proved",
   "theorems": [
    "Tomopy.Recon.proc_eq_serial",
    "Tomopy.Recon.proc_raises_first",
    "Tomopy.Recon.serial_slicewise",
    "Tomopy.Recon.accel_slicewise",
    "Tomopy.Recon.devices_balanced",
    "Tomopy.Recon.device_exists"
   ],
   "note": "A worker that raises is taken not to have changed its images (in the serial branch it works in place). Killed processes (BrokenProcessPool) and pickling errors are not modelled."
  },
  {
   "property": "C202",
   "status": "proved",
   "theorems": [
    "Tomopy.Sym.median3d_swap_yx",
    "Tomopy.Sym.median3d_swap_zy",
    "Tomopy.Sym.median3d_values",
    "Tomopy.Sym.median3d_monotone",
    "Tomopy.Sym.outlier3d_affine",
    "Tomopy.Sym.filtered3_exists"
   ],
   "note": "Float kernel in exact arithmetic, values without NaN, C order (views with exchanged axes are in Fortran order, see C58). The two exchanges of neighbouring axes generate all six orders. Flips are in C191."
  },
  {
   "property": "C203",
   "status": "partial",
   "theorems": [
    "Tomopy.Sym.median_filter_monotone",
    "Tomopy.Sym.median_filter_negates_iff",
    "Tomopy.Sym.half_median",
    "Tomopy.Sym.remove_outlier_affine",
    "Tomopy.Sym.outlier1d_affine"
   ],
   "note": "Refuted for negated data and every even size (exact characterisation). Exact arithmetic, values without NaN; remove_outlier for axis 0. outlier1d_affine also says that remove_outlier1d raises for the same arrays (always with numpy 1.23 or later, see C102)."
  },
  {
   "property": "C204",
   "status": "partial",
   "theorems": [
    "Tomopy.Accel.accel_sirt_scale",
    "Tomopy.Accel.accel_mlem_scale_fails",
    "Tomopy.Accel.mlem_one",
    "Tomopy.Accel.accel_reordered",
    "Tomopy.Accel.quarter_homogeneous"
   ],
   "note": "Refuted for mlem and every unit. CPU code in exact arithmetic; that a rotation maps multiples to multiples is a hypothesis, proved for quarter turns (quarter_homogeneous). Schedules of the thread pool are in C83."
  },
  {
   "property": "C205",
   "status": "partial",
   "theorems": [
    "Tomopy.Sym.normalize_gain",
    "Tomopy.Sym.normalize_gain_iff",
    "Tomopy.Sym.normalize_nf_gain",
    "Tomopy.Sym.average_gain"
   ],
   "note": "Refuted for pixels whose flat and dark differ by less than 1e-6 (exact characterisation for normalize). Exact arithmetic; normalize_nf with averaging=mean (median raises, C57), for data where no pixel is at the floor."
  },
  {
   "property": "C206",
   "status": "partial",
   "theorems": [
    "Tomopy.Sym.sf_affine",
    "Tomopy.Sym.dead_fill_affine",
    "Tomopy.Sym.rs_sort_units_partial",
    "Tomopy.Sym.rs_sort_units_pairs",
    "Tomopy.Sym.rs_sort_log_partial",
    "Tomopy.Sym.rs_sort_log_fails",
    "Tomopy.Sym.interp_scale",
    "Tomopy.Sym.interp_offset_fails",
    "Tomopy.Sym.large_scale_partial",
    "Tomopy.Sym.rs_filter_scale_partial"
   ],
   "note": "Refuted for even windows with a change of sign and for offsets with the interpolation-based method. For the sorting-based method the order of ties is unknown, so tied pixels are only determined up to exchange. dead_fill_affine is the part of _rs_dead up to line 829, which is all of it for norm=False. Exact arithmetic."
  },
  {
   "property": "C207",
   "status": "partial",
   "theorems": [
    "Tomopy.Sym.rs_sort_selects",
    "Tomopy.Sym.rs_sort_minus_log_partial",
    "Tomopy.Sym.minus_log_commutes_partial",
    "Tomopy.Sym.rs_sort_minus_log_fails"
   ],
   "note": "Refuted for even windows. Missing: pixels with equal values in a column (the order of ties is unknown). Real numbers; dim=1."
  }
 ]
}