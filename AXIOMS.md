# Axioms of the theorems in the manifest

Output of `collectAxioms` (what `#print axioms` shows) for each theorem, by module. Axioms used in all: `Classical.choice`, `Quot.sound`, `propext`. P = `propext`, C = `Classical.choice`, Q = `Quot.sound`; - = none.

## Verif.Accel.CudaProps

- `Accel.atomic_final`: PCQ
- `Accel.atomic_sum_kernel`: PCQ
- `Accel.gpu_counts`: PCQ
- `Accel.gpu_exists`: PCQ
- `Accel.gpu_iter_value`: PCQ
- `Accel.gpu_mlem_eq_cpu`: PCQ
- `Accel.gridSize_spec`: PQ
- `Accel.memset_positive`: -
- `Accel.mlem_kernel_cpu`: PCQ
- `Accel.pixels_kernel_final`: PCQ
- `Accel.sirt_kernel_rows`: PCQ
- `Accel.threads_cover`: PCQ
- `Accel.update_kernel_final`: PQ

## Verif.Accel.Fixed

- `Accel.accel_slice`: PCQ
- `Accel.accel_zero_stuck`: PCQ
- `Accel.even_hole`: PQ
- `Accel.mlem_consistent`: PCQ
- `Accel.mlem_fixed_iff`: PCQ
- `Accel.mlem_nonneg`: PCQ
- `Accel.quarter_exact`: PCQ
- `Accel.sirt_bias`: PCQ
- `Accel.sirt_consistent_grows`: PCQ
- `Accel.sirt_not_fixed`: PCQ
- `Accel.sirt_single_row`: PCQ

## Verif.Accel.NppProps

- `Npp.npp_holder_partial`: PCQ
- `Npp.npp_livelock`: PCQ
- `Npp.npp_released`: PCQ
- `Npp.npp_same_stream`: PCQ
- `Npp.npp_throws`: P
- `Npp.npp_wrong_stream`: PCQ

## Verif.Accel.OptProps

- `Accel.accelerated_resolve`: P
- `Accel.active_leak`: PQ
- `Accel.device_available`: PCQ
- `Accel.device_default`: PCQ
- `Accel.device_index`: PCQ
- `Accel.device_misread`: PCQ
- `Accel.device_named`: PCQ
- `Accel.dispatch_runs`: PCQ
- `Accel.interp_named`: PCQ
- `Accel.interp_unknown`: PCQ
- `Accel.interp_valid`: PCQ
- `Accel.pool_negative`: PCQ
- `Accel.pool_no_oversubscription`: PQ
- `Accel.pool_size`: PQ
- `Accel.search_never_fails`: -

## Verif.Accel.Props

- `Accel.accel_inbounds`: PQ
- `Accel.accel_overflow`: PCQ
- `Accel.center_ignored`: PCQ
- `Accel.gpu_clear_overflow`: PCQ
- `Accel.gpu_cpu_differ`: PCQ
- `Accel.gpu_rows_value`: PCQ
- `Accel.run_eq`: PCQ
- `Accel.simulate_value`: PCQ
- `Accel.stride_covers`: PCQ

## Verif.Accel.RotProps

- `Accel.angle_reduced`: PCQ
- `Accel.cpuCenter_eq`: PCQ
- `Accel.cpu_half_turn_loses`: PCQ
- `Accel.cpu_middle_iff_partial`: PCQ
- `Accel.cpu_point`: PCQ
- `Accel.deg_rad`: PCQ
- `Accel.gpu_half_turn`: PCQ
- `Accel.gpu_middle`: PCQ
- `Accel.rot_center`: PCQ
- `Accel.rot_dist`: PCQ
- `Accel.rot_src`: PCQ
- `Accel.rot_turns`: PCQ
- `Accel.rot_undo`: PCQ
- `Accel.turnSrc_matrix`: PCQ

## Verif.Accel.StreamProps

- `Stream.debug_exact`: PCQ
- `Stream.release_loses`: PCQ
- `Stream.release_wrong`: PCQ
- `Stream.run_exact_partial`: PCQ
- `Stream.run_loses_partial`: PCQ

## Verif.Accel.Threads

- `Accel.accel_ends`: PCQ
- `Accel.accel_race`: PCQ
- `Accel.accel_schedule_partial`: PCQ
- `Accel.cache_distinct`: P
- `Accel.cache_shared`: P

## Verif.Accel.Units

- `Accel.accel_mlem_scale_fails`: PCQ
- `Accel.accel_reordered`: PCQ
- `Accel.accel_sirt_scale`: PCQ
- `Accel.mlem_one`: PCQ
- `Accel.quarter_homogeneous`: PQ

## Verif.Affine.Props

- `Affine.affine_best`: PCQ
- `Affine.affine_defined`: PCQ
- `Affine.affine_fits`: PCQ
- `Affine.affine_last_row_iff`: PCQ
- `Affine.affine_one_point`: PCQ
- `Affine.affine_recovers_iff`: PCQ
- `Affine.lstsq_exists`: PCQ
- `Affine.lstsq_smallest`: PCQ
- `Affine.lstsq_unique`: PCQ

## Verif.Align.DriftProps

- `Align.drift_immediate`: PQ
- `Align.drift_near_partial`: PCQ
- `Align.drift_outcome`: PCQ
- `Align.drift_raises`: PCQ
- `Align.kernels_mem`: PQ
- `Align.round_image`: PCQ

## Verif.Align.Seq

- `Align.add_jitter_value`: PCQ
- `Align.add_noise_value`: PQ
- `Align.align_joint_demo`: PCQ
- `Align.align_joint_unmoved`: PCQ
- `Align.align_leaves_scaled`: PQ
- `Align.align_seq_corrects`: PQ
- `Align.align_seq_demo`: PCQ
- `Align.align_seq_pixels`: PCQ
- `Align.align_seq_shifts`: PCQ
- `Align.align_seq_stationary`: PCQ
- `Align.blurRadMax_eq`: PCQ
- `Align.blur_edges_equal_limits`: PCQ
- `Align.blur_edges_lopsided`: PCQ
- `Align.blur_edges_value`: PCQ
- `Align.conv_without_debug`: PQ
- `Align.jitter_not_undone_in_order`: PCQ
- `Align.jitter_undone`: PCQ
- `Align.scaleFactor_spec`: PCQ
- `Align.scale_blank`: PCQ
- `Align.scale_defined`: PCQ
- `Align.scale_raises`: PQ
- `Align.scale_range`: PCQ
- `Align.shift_images_defined`: PCQ
- `Align.shift_images_first_vertical`: PCQ
- `Align.shift_images_short`: PQ
- `Align.shift_images_value`: PCQ

## Verif.Align.SlitsProps

- `Align.peak_window_partial`: PCQ
- `Align.peak_window_raises`: PQ
- `Align.peak_window_wraps`: PCQ
- `Align.quadrant_corners_partial`: PCQ
- `Align.quadrant_tall_raises`: PCQ
- `Align.quadrant_total`: PCQ
- `Align.quadrant_wide_wrong`: PCQ
- `Align.removeSlits_partial`: PQ
- `Align.removeSlits_wraps`: PQ
- `Align.simple_corners`: PCQ
- `Align.slitBox_inside`: PCQ

## Verif.Bench.Compare

- `Bench.assignAll_spec`: PCQ
- `Bench.assign_dropped`: PCQ
- `Bench.assign_raises_iff`: PCQ
- `Bench.assign_raises_tag`: PQ
- `Bench.assign_repeats`: PCQ
- `Bench.assign_replaces_solution`: PCQ
- `Bench.assign_spec`: PCQ
- `Bench.compare_run_partial`: PCQ

## Verif.Bench.Convert

- `Bench.convert_failure`: P
- `Bench.convert_keeps`: PCQ
- `Bench.convert_returned_untouched`: PCQ
- `Bench.convert_writes_partial`: PQ

## Verif.Bench.Props

- `Bench.fill_undefined_partial`: PQ
- `Bench.normalize_affine`: PCQ
- `Bench.normalize_const`: PCQ
- `Bench.normalize_idem`: PCQ
- `Bench.normalize_int_partial`: PCQ
- `Bench.normalize_range`: PCQ
- `Bench.normalize_value`: PCQ
- `Bench.output_covers`: PQ
- `Bench.output_errors`: PQ
- `Bench.output_name_partial`: PCQ
- `Bench.output_names_distinct`: PCQ
- `Bench.trim_fill`: PCQ
- `Bench.trim_silent`: -
- `Bench.trim_spec`: PQ

## Verif.Bench.Quantify

- `Bench.gradients_zero_iff`: PCQ
- `Bench.norm1_bounds`: PCQ
- `Bench.norm1_eq_iff`: PCQ
- `Bench.norm2_le`: PCQ
- `Bench.normalize_eq_iff`: PCQ
- `Bench.quantify_contrast`: PCQ
- `Bench.quantify_int_partial`: PCQ
- `Bench.quantify_not_entrywise`: PCQ
- `Bench.quantify_ok`: PCQ
- `Bench.quantify_raises`: PCQ
- `Bench.quantify_symmetric`: PCQ
- `Bench.quantify_zero_iff`: PCQ

## Verif.Bench.Rescale

- `Bench.rescaleTry_none_iff`: PCQ
- `Bench.rescale_contrast`: PCQ
- `Bench.rescale_fallback`: PCQ
- `Bench.rescale_images`: PCQ
- `Bench.rescale_leaves_range`: PCQ
- `Bench.rescale_no_transform`: PQ
- `Bench.rescale_range_partial`: PCQ

## Verif.CInt.Props

- `CInt.bg_index_exact_iff`: PCQ
- `CInt.callSizes_auto`: PQ
- `CInt.callSizes_chunk`: PCQ
- `CInt.computes_exact`: PQ
- `CInt.data_wrap_negative`: PCQ
- `CInt.gridrec_index_exact_iff`: PCQ
- `CInt.image_wrap_negative`: PCQ
- `CInt.index_exact_iff`: PQ
- `CInt.morph_assert_insufficient`: PCQ
- `CInt.morph_index_exact_iff`: PCQ
- `CInt.pdim_sq_iff`: PCQ
- `CInt.recon_chunk_index_exact_iff`: PCQ
- `CInt.recon_gridrec_index_exact_iff`: PCQ
- `CInt.recon_gridrec_overflow`: PCQ
- `CInt.recon_index_exact_iff`: PCQ
- `CInt.recon_overflow_four_cores`: PCQ
- `CInt.ring_index_exact_iff`: PQ
- `CInt.sf_index_exact_iff`: PQ

## Verif.Cdf.Props

- `Cdf.cdf_empty`: PQ
- `Cdf.cdf_exceeds_one`: PCQ
- `Cdf.cdf_partial`: PCQ
- `Cdf.cdf_share_partial`: PCQ
- `Cdf.cdf_single`: PCQ
- `Cdf.subsample_nonpos`: PCQ
- `Cdf.subsample_spec`: PCQ

## Verif.Center.EmptyProps

- `Center.mask_blank`: PCQ
- `Center.mask_length`: PCQ
- `Center.mask_mono`: PCQ
- `Center.mask_scale`: PCQ
- `Center.mask_single`: PCQ
- `Center.mask_threshold_zero`: PCQ
- `Center.mask_uniform`: PCQ
- `Center.pc_axis`: PCQ
- `Center.pc_finds`: PCQ
- `Center.pc_guess`: PCQ

## Verif.Center.EntropyProps

- `Center.cost_ge`: PCQ
- `Center.cost_le`: PCQ
- `Center.cost_outside`: PCQ
- `Center.cost_perm`: PCQ
- `Center.cost_two`: PCQ
- `Center.counts_sum`: PCQ
- `Center.find_center_last_raises`: PCQ
- `Center.find_center_slice`: PCQ
- `Center.hist_limits`: PCQ
- `Center.outside_wins`: PCQ
- `Center.ratio_ignored`: PCQ

## Verif.Center.Props

- `Center.coarse_window_int`: PCQ
- `Center.coarse_window_leaves`: PCQ
- `Center.coarse_window_partial`: PCQ
- `Center.find_center_vo_partial`: PCQ
- `Center.fineCen_mem`: PCQ
- `Center.fine_window_divides`: PCQ
- `Center.fine_window_leaves`: PCQ
- `Center.fine_window_partial`: PCQ
- `Center.mask_spec_partial`: PCQ
- `Center.mem_coarseList`: PCQ
- `Center.metric_nonneg`: PCQ
- `Center.metrics_distributed`: PCQ
- `Center.pick_ten`: PCQ
- `Center.search_coarse`: PCQ
- `Center.search_fine`: PCQ
- `Center.shifted_mirror`: PCQ

## Verif.Corr.Exact

- `Corr.adjust_range_clamps_iff`: PCQ

## Verif.Corr.Filt

- `Corr.Filt.axisOf_neg`: PCQ
- `Corr.Filt.gaussian_filter_garbage`: PCQ
- `Corr.Filt.gaussian_filter_value`: PCQ
- `Corr.Filt.median_filter_garbage`: PCQ
- `Corr.Filt.median_filter_value`: PCQ
- `Corr.Filt.slice_filter_axis`: PQ
- `Corr.Filt.slice_filter_exists`: P
- `Corr.Filt.slice_filter_swallows`: PQ
- `Corr.Filt.slice_filter_value`: PCQ
- `Corr.Filt.sobel_raises`: PCQ

## Verif.Corr.Filt2

- `Corr.Filt.cuda_size_fallback`: PQ
- `Corr.Filt.enhance_even`: PQ
- `Corr.Filt.enhance_range`: PCQ
- `Corr.Filt.enhance_single_cpu`: PQ
- `Corr.Filt.enhance_stack`: PQ
- `Corr.Filt.histWgt_eq`: PCQ
- `Corr.Filt.histWgt_le_iff`: PCQ
- `Corr.Filt.histWgt_range`: PCQ
- `Corr.Filt.median_cuda_gpu`: PCQ
- `Corr.Filt.median_cuda_without_gpu`: PQ
- `Corr.Filt.mirror_spec`: PCQ
- `Corr.Filt.outlier1d_line_raises`: PQ
- `Corr.Filt.outlier1d_raises`: PQ
- `Corr.Filt.outlier1d_value_partial`: PCQ
- `Corr.Filt.outlier_axes_differ`: PCQ
- `Corr.Filt.outlier_cuda_axis_ignored`: PQ
- `Corr.Filt.outlier_cuda_gpu`: PCQ
- `Corr.Filt.outlier_cuda_without_gpu`: PQ
- `Corr.Filt.padSym_window`: PQ
- `Corr.Filt.scipyMedian_swap`: PCQ

## Verif.Corr.Med2

- `Corr.gauss_fits_partial`: PCQ
- `Corr.gauss_overflow`: PCQ
- `Corr.med2_spec`: PCQ
- `Corr.med3F_partial`: PCQ
- `Corr.med3_overflow`: PCQ
- `Corr.medBuffer_exact2`: PCQ
- `Corr.medBuffer_exact3`: PCQ
- `Corr.medCall_spec`: PQ
- `Corr.med_one_slice`: PCQ
- `Corr.med_uint16_float`: PCQ

## Verif.Corr.Median3d

- `Corr.halfSize_spec`: PQ
- `Corr.median3d_exists`: PQ
- `Corr.median3d_in_bounds`: PQ
- `Corr.median3d_schedule_independent`: PCQ
- `Corr.median_filter3d_spec`: PCQ
- `Corr.remove_outlier3d_spec`: PCQ

## Verif.Corr.Props

- `Corr.adjust_range_default`: PCQ
- `Corr.adjust_range_nan`: PQ
- `Corr.adjust_range_partial`: PCQ
- `Corr.circ_mask_idempotent`: PQ
- `Corr.circ_mask_monotone`: PCQ
- `Corr.circ_mask_spec`: PCQ
- `Corr.dtype_dispatch_partial`: -
- `Corr.dtype_dispatch_wrong`: PQ
- `Corr.median_layout_partial`: -
- `Corr.median_layout_wrong`: -
- `Corr.nonfinite_order_independent`: PQ
- `Corr.nonfinite_projection`: PCQ
- `Corr.nonfinite_stack`: PCQ
- `Corr.nonfinite_stack_error`: PCQ
- `Corr.reflect_spec`: PCQ
- `Corr.remove_nan_spec`: PQ
- `Corr.remove_neg_spec`: PQ
- `Corr.remove_outlier_spec`: PCQ
- `Corr.scipyWindow_reflect`: PCQ

## Verif.Corr.Qsort

- `Corr.cmpF_total_iff`: PCQ
- `Corr.cmpU_total`: PCQ
- `Corr.isortC_conforms`: PCQ
- `Corr.median_any_qsort`: PCQ
- `Corr.median_any_qsort_uint16`: PCQ
- `Corr.median_nan_wrong`: PCQ
- `Corr.msortC_conforms`: PCQ
- `Corr.outlier_keeps_nan`: PCQ
- `Corr.qsort_nan_middle`: PCQ
- `Corr.qsort_numbers`: PCQ

## Verif.Dtype.Props

- `Dtype.asNdarray_keeps_type`: P
- `Dtype.asSharedmem_spec`: PQ
- `Dtype.asType_spec`: PQ
- `Dtype.copied_shared_whole`: PQ
- `Dtype.copy_is_alias`: P
- `Dtype.empty_shared_whole`: P
- `Dtype.isSharedmem_iff`: P
- `Dtype.worker_mixed_garbled`: PQ
- `Dtype.worker_mixed_raises`: PQ
- `Dtype.worker_out_raises`: P
- `Dtype.worker_out_shared`: PQ
- `Dtype.worker_reads_copied`: PQ
- `Dtype.worker_reads_whole`: PQ
- `Dtype.worker_slice_raises`: PQ
- `Dtype.worker_swapped`: PQ
- `Dtype.worker_swapped_wrong`: PQ
- `Dtype.worker_view`: PQ

## Verif.Dtype.Ptr

- `Dtype.asFloat32_spec`: PCQ
- `Dtype.block_seen`: PQ
- `Dtype.contiguous_seen`: PQ
- `Dtype.init_recon_kept`: PQ
- `Dtype.init_recon_overwritten`: PQ
- `Dtype.init_recon_seen`: PCQ
- `Dtype.kCopy_spec`: PCQ
- `Dtype.object_seen`: PCQ
- `Dtype.object_transposed`: PCQ
- `Dtype.requireAC_seen`: PCQ
- `Dtype.theta_reversed_outside`: PCQ
- `Dtype.theta_step_misread`: PQ
- `Dtype.tomo_seen_proj`: PCQ
- `Dtype.tomo_seen_sino`: PCQ
- `Dtype.vector_seen`: PCQ

## Verif.Extern.Props

- `Extern.oneBlock_sees`: PCQ
- `Extern.overflow_silent`: P
- `Extern.recon_bad_shape`: P
- `Extern.recon_sees`: PCQ
- `Extern.run_sees`: PCQ
- `Extern.wired`: -
- `Extern.wrap32_eq_iff`: PCQ
- `Extern.wrap32_of_fits`: PQ

## Verif.Files.CenterProps

- `Files.chunk_one_own_center`: PCQ
- `Files.write_center_accepts_iff`: PCQ
- `Files.write_center_images_partial`: PCQ
- `Files.write_center_ratio_unused`: PCQ
- `Files.write_center_total`: PCQ

## Verif.Files.Props

- `Files.addExt_idem`: PQ
- `Files.addExt_missing`: PCQ
- `Files.addExt_present`: PQ
- `Files.addExt_suffix`: PQ
- `Files.center_name`: PCQ
- `Files.fmt2_distinct`: PCQ
- `Files.fmt2_inj`: PCQ
- `Files.tiffPath_digit`: PCQ
- `Files.tiff_distinct`: PCQ
- `Files.tiff_name`: PCQ
- `Files.write_center_files_partial`: PCQ
- `Files.write_center_overwrites`: PCQ

## Verif.Fl.Alone

- `Fl.AloneF.chunk`: PQ
- `Fl.AloneF.elsewhere`: -
- `Fl.artF_alone`: PCQ
- `Fl.bartF_alone`: PCQ
- `Fl.fbpF_alone`: PCQ
- `Fl.osemF_alone`: PCQ
- `Fl.projectM_alone`: PCQ

## Verif.Fl.Bin

- `Fl.binMean_accurate`: PCQ
- `Fl.binMean_counts`: PCQ
- `Fl.binMean_equal`: PCQ
- `Fl.binMean_large`: PCQ
- `Fl.binMean_one`: PCQ
- `Fl.downsampleF_accurate`: PCQ
- `Fl.downsampleF_counts`: PCQ
- `Fl.downsampleF_val`: PCQ
- `Fl.roundtripF_fails`: PCQ
- `Fl.roundtripF_small`: PCQ
- `Fl.roundtripF_val`: PCQ
- `Fl.upsampleF_val`: PCQ

## Verif.Fl.Fbp

- `Fl.fbpF_accurate`: PCQ
- `Fl.fbpF_mono`: PCQ
- `Fl.fbpF_sign`: PCQ
- `Fl.fbpF_unseen`: PCQ
- `Fl.fbpF_val`: PCQ
- `Fl.pixKeys_sum`: PCQ

## Verif.Fl.Flat

- `Fl.bg_const`: PCQ
- `Fl.bg_counts_ones`: PCQ
- `Fl.bg_flat_iff`: PCQ
- `Fl.bg_flat_not_ones`: PCQ
- `Fl.bg_flat_ones`: PCQ
- `Fl.bg_left_one`: PCQ
- `Fl.bg_right_accurate`: PCQ
- `Fl.bg_right_infinite`: PCQ
- `Fl.bg_right_not_one`: PCQ
- `Fl.copyMean_iff`: PCQ
- `Fl.copyMean_near`: PCQ
- `Fl.copyMean_small`: PCQ
- `Fl.sfF_result`: PCQ
- `Fl.sf_default_changes`: PCQ
- `Fl.sf_flat_accurate`: PCQ
- `Fl.sf_flat_changes`: PCQ
- `Fl.sf_flat_iff`: PCQ
- `Fl.sf_flat_keeps`: PCQ
- `Fl.sf_flat_val`: PCQ
- `Fl.sf_size_one`: PCQ

## Verif.Fl.Len

- `Fl.fbpF_traced`: PCQ
- `Fl.geomF_ok`: PCQ
- `Fl.le_sqrtF`: PCQ
- `Fl.lenF_float`: PCQ
- `Fl.lenF_near`: PCQ
- `Fl.osemF_traced`: PCQ
- `Fl.segsF_ok`: PCQ
- `Fl.segsF_trace`: PCQ
- `Fl.sqrtF_err`: PCQ
- `Fl.sqrtF_le`: PCQ

## Verif.Fl.Neg

- `Fl.artF_neg`: PCQ
- `Fl.bartF_neg`: PCQ
- `Fl.fbpF_neg`: PCQ
- `Fl.fbpF_not_scale3`: PCQ
- `Fl.fbpF_scale`: PCQ
- `Fl.fl_neg`: PCQ
- `Fl.fl_scale`: PCQ
- `Fl.osemF_not_odd`: PCQ
- `Fl.projectM_neg`: PCQ
- `Fl.projectM_scale`: PCQ
- `Fl.sirtF_neg`: PCQ

## Verif.Fl.Norm

- `Fl.equal_frames_256`: PCQ
- `Fl.equal_frames_257`: PCQ
- `Fl.equal_frames_partial`: PCQ
- `Fl.fl_odd_far`: PCQ
- `Fl.mean_accurate`: PCQ
- `Fl.mean_rounded`: PCQ
- `Fl.normalize_accurate`: PCQ
- `Fl.normalize_cutoff`: PCQ
- `Fl.normalize_finite`: PCQ
- `Fl.normalize_frame`: PCQ
- `Fl.normalize_mono`: PCQ
- `Fl.normalize_references`: PCQ
- `Fl.sum_exact`: PCQ

## Verif.Fl.OsemAcc

- `Fl.emStep_mlem`: PCQ
- `Fl.mlemF_accurate`: PCQ
- `Fl.mlemF_near_mlem`: PCQ

## Verif.Fl.OsemProps

- `Fl.osemF_defined`: PCQ
- `Fl.osemF_not_negative`: PCQ
- `Fl.osemF_overflow_nan`: PCQ
- `Fl.osemF_zero_ray_nan`: PCQ
- `Fl.osemF_zero_stays`: PCQ

## Verif.Fl.Own

- `Fl.artF_own`: PCQ
- `Fl.bartF_own`: PCQ
- `Fl.mlemF_own`: PCQ
- `Fl.osemF_own`: PCQ
- `Fl.osemF_own_short`: PCQ
- `Fl.own_ordinary`: PCQ
- `Fl.sirtF_own`: PCQ

## Verif.Fl.Props

- `Fl.crossingsF_le`: PCQ
- `Fl.index_out_of_range`: PCQ
- `Fl.rayYF_bound`: PCQ
- `Fl.reconF_safe`: PCQ
- `Fl.traceF_safe`: PCQ
- `Fl.traceF_safe_project`: PCQ

## Verif.Fl.QuadProps

- `Fl.float_gap`: PCQ
- `Fl.lost_iff`: PCQ
- `Fl.quadrantF_correct`: PCQ
- `Fl.quadrantF_flag_iff`: PCQ
- `Fl.quadrantF_lost`: PCQ

## Verif.Fl.Round

- `Fl.fl_exact`: PCQ
- `Fl.fl_mono`: PCQ
- `Fl.fl_rel`: PCQ

## Verif.Fl.Sum

- `Fl.lineSumF_err`: PCQ
- `Fl.projectF_accurate`: PCQ
- `Fl.projectF_mono`: PCQ
- `Fl.projectF_nonneg`: PCQ
- `Fl.projectF_not_additive`: PCQ
- `Fl.projectF_zero`: PCQ

## Verif.Gpu.Call

- `Gpu.chunks_sum`: PCQ
- `Gpu.lprec_center_lost`: PCQ
- `Gpu.lprec_example_raises`: PCQ
- `Gpu.lprec_ignores`: PCQ
- `Gpu.lprec_raises_iff`: PCQ
- `Gpu.lprec_slices_partial`: PCQ
- `Gpu.writeAll_spec`: PCQ

## Verif.Gpu.Props

- `Gpu.gpu_can_end`: PCQ
- `Gpu.gpu_complete_partial`: PCQ
- `Gpu.gpu_exclusive_partial`: PCQ
- `Gpu.gpu_leaks`: PCQ
- `Gpu.ids_partition`: PCQ
- `Gpu.narrow_positive`: PQ
- `Gpu.steps_end`: PCQ
- `Gpu.wide_raises`: PQ

## Verif.Gridrec.Exact

- `Gridrec.gridrec_default_in_bounds_iff`: PCQ
- `Gridrec.gridrec_in_bounds_iff`: PCQ

## Verif.Gridrec.Filters

- `Gridrec.custom_default_out_of_bounds`: PCQ
- `Gridrec.custom_filter_out_of_bounds`: PCQ
- `Gridrec.custom_filter_partial`: PCQ
- `Gridrec.documented_length`: PCQ
- `Gridrec.documented_length_too_short`: PCQ
- `Gridrec.filter_below_ramp_partial`: PCQ
- `Gridrec.parzen_negative`: PCQ
- `Gridrec.unknown_filter_is_shepp`: P

## Verif.Gridrec.Index

- `Gridrec.L2_value`: PCQ
- `Gridrec.L_value`: PCQ
- `Gridrec.gridrec_default_grid_out_of_bounds`: PCQ
- `Gridrec.gridrec_in_bounds_partial`: PCQ
- `Gridrec.gridrec_out_of_bounds`: PCQ
- `Gridrec.pdim_spec`: PCQ

## Verif.Gridrec.Init

- `Gridrec.gridrec_initialised_partial`: PCQ
- `Gridrec.gridrec_writes_once`: PCQ

## Verif.Gridrec.Pixel

- `Gridrec.gridrec_pixel_partial`: PCQ

## Verif.Gridrec.Slices

- `Gridrec.gridrec_even_slices`: PCQ
- `Gridrec.gridrec_linear`: PCQ
- `Gridrec.gridrec_odd_centre_ignored`: PCQ
- `Gridrec.gridrec_slices_equal_centres`: PCQ
- `Gridrec.gridrec_slices_partial`: PCQ

## Verif.Gridrec.Sym

- `Gridrec.axis_not_middle`: PQ
- `Gridrec.gridrec_crop`: PCQ
- `Gridrec.gridrec_grid`: PCQ
- `Gridrec.gridrec_moved`: PCQ
- `Gridrec.gridrec_offset`: PCQ
- `Gridrec.gridrec_opposite`: PCQ
- `Gridrec.gridrec_order`: PCQ
- `Gridrec.gridrec_quarter_partial`: PCQ
- `Gridrec.gridrec_quarter_wrong`: PCQ
- `Gridrec.gridrec_sup`: PCQ

## Verif.Gridrec.Tables

- `Gridrec.correction_asymmetric`: PCQ
- `Gridrec.correction_partial`: PCQ
- `Gridrec.gridrec_second_centre_wrong`: PCQ
- `Gridrec.legendre_reads`: PCQ
- `Gridrec.legendre_spec`: PCQ
- `Gridrec.wrapIdx_axis`: PQ
- `Gridrec.wtbl_lt`: PCQ
- `Gridrec.wtbl_pos`: PCQ

## Verif.Heap.Peak

- `Heap.call_peak`: PCQ
- `Heap.call_reaches`: PCQ
- `Heap.calls_peak`: PCQ
- `Heap.reaches_held`: PQ
- `Heap.runs_prog`: PCQ
- `Heap.solver_bytes`: P
- `Heap.workers_bytes`: P

## Verif.Heap.Props

- `Heap.call_bytes`: PCQ
- `Heap.call_frees_partial`: PCQ
- `Heap.call_leaks`: PCQ
- `Heap.call_leaves`: PCQ
- `Heap.calls_bytes`: PCQ
- `Heap.calls_tidy_partial`: PCQ
- `Heap.leak_unbounded`: PCQ

## Verif.Inpaint.Fill

- `Inpaint.gauss_pos`: PCQ
- `Inpaint.inpaint_call_partial`: PCQ
- `Inpaint.inpaint_fills_2d_partial`: PCQ
- `Inpaint.inpaint_fills_3d_partial`: PCQ
- `Inpaint.inpaint_iterations_ignored_2d`: PCQ
- `Inpaint.inpaint_iterations_ignored_3d`: PCQ
- `Inpaint.inpaint_mask_shape_unchecked`: P
- `Inpaint.inpaint_one_iteration_partial`: PCQ
- `Inpaint.inpaint_singleton_rejected`: PCQ
- `Inpaint.inpaint_size_zero`: PCQ
- `Inpaint.inpaint_window_width`: PCQ
- `Inpaint.median2_not_median`: PCQ
- `Inpaint.median3_leaves_hole`: PCQ

## Verif.Inpaint.Parallel

- `Inpaint.geo2_part`: PCQ
- `Inpaint.geo3_part`: PCQ
- `Inpaint.inpaint_pass_exists`: PQ
- `Inpaint.inpaint_pass_parallel`: PCQ

## Verif.Inpaint.Props

- `Inpaint.inpaint_empty_mask`: PCQ
- `Inpaint.inpaint_in_bounds`: PCQ
- `Inpaint.inpaint_outside_mask`: PQ

## Verif.Iter.Alone

- `Iter.tikh_alone`: PCQ

## Verif.Iter.Art

- `Iter.artIter_eq`: PCQ
- `Iter.art_consistent_fixed`: PCQ
- `Iter.art_distance`: PCQ
- `Iter.art_last_ray`: PCQ
- `Iter.art_twice_overshoots`: PCQ
- `Iter.art_unseen`: PCQ
- `Iter.kacz_hits`: PCQ

## Verif.Iter.BartConv

- `Iter.bart_consistent_partial`: PCQ
- `Iter.bart_one_ray`: PCQ
- `Iter.bart_stuck`: PCQ

## Verif.Iter.Continue

- `Iter.art_continues`: PQ
- `Iter.bart_continues`: PQ
- `Iter.grad_auto_restarts`: PCQ
- `Iter.grad_continues_partial`: PCQ
- `Iter.mlem_continues`: PQ
- `Iter.osem_continues`: PQ
- `Iter.ospml_continues`: PCQ
- `Iter.pml_continues`: PCQ
- `Iter.sirt_continues`: PQ
- `Iter.tikh_continues_partial`: PCQ
- `Iter.tv_restarts`: PCQ

## Verif.Iter.ConvArt

- `Iter.art_cluster`: PCQ
- `Iter.art_converges`: PCQ
- `Iter.art_orthogonal`: PCQ
- `Iter.art_recovers`: PCQ
- `Iter.kacz_pythagoras`: PCQ
- `Iter.steps_small`: PCQ

## Verif.Iter.ConvMlem

- `Iter.em_fixed_max`: PCQ
- `Iter.em_gain`: PCQ
- `Iter.mlem_fixed_max`: PCQ
- `Iter.mlem_likelihood`: PCQ
- `Iter.mlem_likelihood_step`: PCQ
- `Iter.mlem_one`: PCQ

## Verif.Iter.ConvMlem2

- `Iter.mlem_converges`: PCQ
- `Iter.osem_converges_partial`: PCQ
- `Iter.osem_not_most_likely`: PCQ

## Verif.Iter.ConvPml

- `Iter.depierro`: PCQ
- `Iter.em_concave`: PCQ
- `Iter.nbMean_grid`: PCQ
- `Iter.pml_fixed_max`: PCQ
- `Iter.pml_gain`: PCQ
- `Iter.potential_hybrid`: PCQ
- `Iter.potential_quad`: PCQ
- `Iter.symGrid_iff`: PCQ

## Verif.Iter.ConvPmlRef

- `Iter.pml_hybrid_likelihood_partial`: PCQ
- `Iter.pml_hybrid_no_penalty`: PCQ
- `Iter.pml_no_penalty`: PCQ
- `Iter.pml_quad_likelihood_partial`: PCQ
- `Iter.pml_quad_no_penalty`: PCQ

## Verif.Iter.ConvPmlRun

- `Iter.pml_fixed_iff_partial`: PCQ
- `Iter.pml_gain_step_partial`: PCQ
- `Iter.pml_likelihood_partial`: PCQ
- `Iter.pml_likelihood_step_partial`: PCQ
- `Iter.pml_one`: PCQ
- `Iter.pml_quad_steps_partial`: PCQ

## Verif.Iter.ConvSirt

- `Iter.fejer_converges`: PCQ
- `Iter.sirt_converges_partial`: PCQ
- `Iter.sirt_distance`: PCQ
- `Iter.sirt_diverges`: PCQ
- `Iter.sirt_gain`: PCQ
- `Iter.sirt_one`: PCQ
- `Iter.sirt_one_ray`: PCQ
- `Iter.sirt_orthogonal`: PCQ
- `Iter.sirt_step_gain`: PCQ

## Verif.Iter.ConvTracer

- `Iter.art_projection_converges`: PCQ
- `Iter.corner_length`: PCQ
- `Iter.mlem_likelihood_tracer`: PCQ
- `Iter.sirt_corner_diverges`: PCQ

## Verif.Iter.EmConv

- `Iter.Em.Run.converges`: PCQ
- `Iter.Em.maximises`: PCQ

## Verif.Iter.Grad

- `Iter.gradScale_pos`: PCQ
- `Iter.grad_auto_step_undefined`: PCQ
- `Iter.grad_bb_defined`: PCQ
- `Iter.grad_bb_step`: PCQ
- `Iter.grad_exact_fixed`: PCQ
- `Iter.grad_iteration`: PCQ
- `Iter.grad_one_iteration`: PCQ
- `Iter.gradient_spec`: PCQ
- `Iter.tikh_exact_fixed_partial`: PCQ
- `Iter.tikh_solution_not_fixed`: PCQ

## Verif.Iter.GradConv

- `Iter.gradRun_value`: PCQ
- `Iter.grad_converges`: PCQ
- `Iter.grad_converges_iff`: PCQ
- `Iter.not_shortStep`: PCQ
- `Iter.shortStep_of_lengths`: PCQ
- `Iter.tikh_converges`: PCQ
- `Iter.tikh_converges_iff`: PCQ

## Verif.Iter.HitData

- `Iter.mlem_reproduces`: PCQ
- `Iter.osRun_data_congr`: PCQ

## Verif.Iter.Kaczmarz

- `Iter.Kz.contraction`: PCQ
- `Iter.Kz.converges`: PCQ
- `Iter.art_converges_always`: PCQ
- `Iter.art_not_least_squares`: PCQ

## Verif.Iter.Linear

- `Iter.art_sup`: PCQ
- `Iter.bart_sup`: PCQ
- `Iter.fbp_sup`: PQ
- `Iter.grad_sup`: PCQ
- `Iter.osem_scaled`: PCQ
- `Iter.project_sup`: PQ
- `Iter.sirt_sup`: PCQ
- `Iter.tikh_sup`: PCQ

## Verif.Iter.Osem

- `Iter.bart_consistent_fixed`: PCQ
- `Iter.bart_frame`: PCQ
- `Iter.bart_unseen`: PCQ
- `Iter.mlem_counts`: PCQ
- `Iter.mlem_positive`: PCQ
- `Iter.mlem_zero_data_undefined`: PCQ
- `Iter.osem_consistent_fixed`: PCQ
- `Iter.osem_positive`: PCQ
- `Iter.osem_unseen`: PCQ
- `Iter.sirt_consistent_fixed`: PCQ

## Verif.Iter.Ospml

- `Iter.ospml_block`: PCQ
- `Iter.ospml_constant_fixed`: PCQ
- `Iter.ospml_hybrid_positive`: PCQ
- `Iter.ospml_no_regularisation`: PCQ
- `Iter.ospml_one_row_out_of_bounds`: PCQ
- `Iter.ospml_one_row_undefined`: PCQ
- `Iter.ospml_positive`: PCQ
- `Iter.ospml_quad_positive`: PCQ
- `Iter.ospml_zero_image_undefined`: PCQ
- `Iter.penalty_spec`: PCQ
- `Iter.pmlRoot_unique`: PCQ
- `Iter.pml_eq_ospml`: PCQ
- `Iter.tasks_in_bounds`: PCQ

## Verif.Iter.Project

- `Iter.fbp_adjoint_first_center`: PCQ
- `Iter.fbp_adjoint_partial`: PCQ
- `Iter.fbp_not_adjoint_per_slice_center`: PCQ

## Verif.Iter.Scale

- `Iter.art_scaled`: PCQ
- `Iter.bart_scaled`: PCQ
- `Iter.fbp_scaled`: PQ
- `Iter.grad_scaled`: PCQ
- `Iter.mlem_init_scale`: PCQ
- `Iter.mlem_units`: PCQ
- `Iter.osem_init_scale_partial`: PCQ
- `Iter.osem_init_scale_wrong`: PCQ
- `Iter.ospml_hybrid_scaled`: PCQ
- `Iter.ospml_quad_scaled`: PCQ
- `Iter.ospml_quad_units_wrong`: PCQ
- `Iter.tikh_scaled`: PCQ
- `Iter.tv_scaled`: PCQ
- `Iter.tv_units_wrong`: PCQ

## Verif.Iter.SirtExact

- `Iter.not_sirtOk`: PCQ
- `Iter.sirtOk_of_rays`: PCQ
- `Iter.sirt_converges_iff`: PCQ
- `Iter.sirt_limit`: PCQ

## Verif.Iter.Subsets

- `Iter.blocks_perm`: PQ
- `Iter.blocks_single`: PQ
- `Iter.mlem_eq_osem`: PQ
- `Iter.osRun_short_ind`: PQ
- `Iter.osRun_zero_blocks`: PQ
- `Iter.sirt_eq_bart`: PQ
- `Iter.subsets_balanced`: PQ
- `Iter.subsets_count`: -
- `Iter.subsets_last`: PQ
- `Iter.subsets_partition`: PQ

## Verif.Iter.Tracer

- `Iter.art_tracer`: PCQ
- `Iter.bart_projection_fixed`: PCQ
- `Iter.tracer_geomOnce`: PCQ

## Verif.Iter.Turn

- `Iter.em_turned_partial`: PCQ
- `Iter.generic_quarter`: PCQ
- `Iter.generic_zero`: PCQ
- `Iter.gradients_turned_partial`: PCQ
- `Iter.linear_mirrored_partial`: PCQ
- `Iter.linear_turned_partial`: PCQ
- `Iter.project_mirrored_partial`: PCQ
- `Iter.project_turned_partial`: PCQ

## Verif.Iter.Tv

- `Iter.tvDiv_adjoint`: PCQ
- `Iter.tvDiv_tvGrad`: PCQ
- `Iter.tvGrad_value`: PCQ
- `Iter.tvProjLoop_ball`: PCQ
- `Iter.tv_constant_fixed`: PCQ
- `Iter.tv_dual_support`: PCQ
- `Iter.tv_neighbours_partial`: PQ
- `Iter.tv_neighbours_wrong`: PQ
- `Iter.tv_zero_lambda_undefined`: PCQ

## Verif.Iter.TvConv

- `Iter.gradSq_le`: PCQ
- `Iter.stepOk_of_projector`: PCQ
- `Iter.tvIter_value`: PCQ
- `Iter.tv_converges_partial`: PCQ
- `Iter.tv_diverges`: PCQ

## Verif.Iter.Vector

- `Iter.vecAcc_value`: PCQ
- `Iter.vecAddr_alias`: PQ
- `Iter.vecAddr_cube_partial`: PCQ
- `Iter.vecAddr_inj`: PCQ
- `Iter.vecAddr_out_of_bounds`: PQ
- `Iter.vecAddr_voxel`: PQ
- `Iter.vecPass_components_partial`: PQ
- `Iter.vector2_axis_ignored`: PCQ
- `Iter.vector2_consistent_fixed`: PCQ
- `Iter.vector2_ignores_second_geometry`: PQ
- `Iter.vector2_own_angles_changed`: PCQ
- `Iter.vector2_same_geometry_partial`: PCQ
- `Iter.vector3_consistent_fixed`: PCQ
- `Iter.vector3_ignores_other_geometry`: PQ
- `Iter.vector_consistent_fixed_partial`: PCQ
- `Iter.vector_unseen_undefined`: PQ

## Verif.Iter.VectorConv

- `Iter.vecOk_of_rays`: PCQ
- `Iter.vector_consistent_limit`: PCQ
- `Iter.vector_converges_iff`: PCQ
- `Iter.vector_limit`: PCQ

## Verif.Iter.Views

- `Iter.bart_views`: PCQ
- `Iter.fbp_views`: PQ
- `Iter.grad_views`: PCQ
- `Iter.mlem_views`: PCQ
- `Iter.osem_views`: PCQ
- `Iter.sirt_views`: PCQ
- `Iter.tikh_views`: PCQ
- `Iter.tracer_rearranged`: PCQ

## Verif.Load.Props

- `Load.api_calls_ok`: PCQ
- `Load.call_accel`: PCQ
- `Load.call_ok`: PCQ
- `Load.fft_no_fallback`: -
- `Load.fft_unknown_accepted`: PCQ
- `Load.get_func_known`: P
- `Load.get_func_own`: P
- `Load.importExtern_complete`: P
- `Load.importExtern_missing`: PCQ
- `Load.import_names_missing`: PCQ
- `Load.import_ok_iff`: PCQ
- `Load.import_result`: PCQ

## Verif.Morph.Exact

- `Morph.downsample_axis1_aligned_iff`: PCQ
- `Morph.downsample_axis1_exact`: PCQ
- `Morph.downsample_axis2_aligned_iff`: PCQ
- `Morph.downsample_axis2_exact`: PCQ
- `Morph.stitch_left_iff`: PCQ
- `Morph.stitch_right_iff`: PCQ

## Verif.Morph.PadNd

- `Morph.padInto_neg`: PCQ
- `Morph.padInto_nonneg`: PCQ
- `Morph.padNd_axis_back`: PCQ
- `Morph.padNd_correct`: PCQ
- `Morph.padNd_default`: PCQ
- `Morph.padNd_raises`: PCQ
- `Morph.pad_axes_commute`: PQ
- `Morph.pad_twice`: PCQ
- `Morph.pyAxis_error`: PCQ
- `Morph.pyAxis_ok`: PCQ

## Verif.Morph.Props

- `Morph.getNpad_spec`: PCQ
- `Morph.pad_check`: PQ
- `Morph.pad_correct`: PCQ
- `Morph.sino360_rows`: PQ
- `Morph.stitch_full_overlap`: PQ
- `Morph.stitch_left_partial`: PCQ
- `Morph.stitch_one_pixel`: PCQ
- `Morph.stitch_right_partial`: PCQ
- `Morph.stitch_right_zero`: PCQ
- `Morph.stitch_unknown_rotation`: PQ

## Verif.Morph.Sample

- `Morph.downsample_axis0`: PCQ
- `Morph.downsample_axis1_partial`: PCQ
- `Morph.downsample_axis2_partial`: PCQ
- `Morph.downsample_drift`: PCQ
- `Morph.downsample_negative_axis`: PQ
- `Morph.downsample_safe`: PCQ
- `Morph.downsample_upsample`: PCQ
- `Morph.upsample_spec`: PCQ

## Verif.Morph.TrimProps

- `Trim.start_eq_shadow`: PCQ
- `Trim.trim_arguments`: PCQ
- `Trim.trim_inside`: PCQ
- `Trim.trim_ok_iff`: PCQ
- `Trim.trim_type_error`: PCQ
- `Trim.trim_value_partial`: PCQ

## Verif.Mproc.Exact

- `Mproc.ncore_nchunk_busy_iff`: PCQ

## Verif.Mproc.Props

- `Mproc.distribute_jobs_deterministic`: PCQ
- `Mproc.distribute_jobs_frame`: PCQ
- `Mproc.distribute_jobs_schedule_independent`: PCQ
- `Mproc.distribute_jobs_total`: PQ
- `Mproc.inplace_out_lost`: PCQ
- `Mproc.inplace_out_not_written`: PCQ
- `Mproc.inplace_out_shared_partial`: PCQ
- `Mproc.inplace_result_partial`: PCQ
- `Mproc.job_slices_cover`: PCQ
- `Mproc.mpi_ranks_cover`: PCQ
- `Mproc.mpi_ranks_partition`: PCQ
- `Mproc.ncore_nchunk_error_iff`: PCQ
- `Mproc.ncore_nchunk_idle_worker`: -
- `Mproc.ncore_nchunk_valid_partial`: PCQ
- `Mproc.ncore_slices_balanced`: PQ
- `Mproc.ncore_slices_cover`: PQ
- `Mproc.ncore_slices_error_iff`: PQ
- `Mproc.ncore_slices_unique`: PCQ
- `Mproc.numexpr_threads_bounded`: PQ
- `Mproc.numexpr_threads_in_force`: PQ
- `Mproc.numexpr_threads_restored`: P
- `Mproc.run_on_host_completes`: PCQ
- `Mproc.run_on_host_exactly_once`: PQ
- `Mproc.run_on_host_serial_drops`: PQ

## Verif.Normalize.Alone

- `Normalize.bgBlock_slicewise`: PCQ
- `Normalize.normalize_bg_alone`: PCQ
- `Normalize.normalize_bg_distributed`: PCQ
- `Normalize.normalize_bg_total`: PQ
- `Normalize.normalize_roi_alone`: PCQ
- `Normalize.normalize_roi_distributed`: PCQ
- `Normalize.normalize_roi_total`: PQ
- `Normalize.roiNan_some`: PCQ

## Verif.Normalize.Exact

- `Normalize.normalize_bg_affine_iff`: PCQ
- `Normalize.normalize_bg_none_iff`: PCQ

## Verif.Normalize.LogProps

- `Normalize.beer_lambert`: PCQ
- `Normalize.beer_lambert_cutoff`: PCQ
- `Normalize.log_antitone`: PCQ
- `Normalize.log_defined`: PCQ
- `Normalize.pipeline`: PCQ
- `Normalize.transmission`: PCQ

## Verif.Normalize.Props

- `Normalize.airLine_pos`: PCQ
- `Normalize.denominator_eq_max`: PCQ
- `Normalize.nf_every_projection_once`: PCQ
- `Normalize.nf_median_raises`: PCQ
- `Normalize.nf_mode_partial`: PCQ
- `Normalize.nf_nearest_group`: PCQ
- `Normalize.nf_not_nearest_by_index`: P
- `Normalize.normalize_bg_affine_air2`: PCQ
- `Normalize.normalize_bg_affine_partial`: PCQ
- `Normalize.normalize_bg_flattens`: PCQ
- `Normalize.normalize_bg_overrun`: PCQ
- `Normalize.normalize_bg_scale_negative`: PCQ
- `Normalize.normalize_bg_scale_partial`: PCQ
- `Normalize.normalize_bg_spec`: PCQ
- `Normalize.normalize_cutoff`: PQ
- `Normalize.normalize_formula`: PCQ
- `Normalize.normalize_mode`: PCQ
- `Normalize.normalize_reference`: PCQ
- `Normalize.normalize_roi_idempotent`: PCQ
- `Normalize.normalize_roi_spec`: PCQ
- `Normalize.normalize_roi_window`: PCQ

## Verif.Phantom.Props

- `Phantom.coord_range`: PCQ
- `Phantom.mask_degenerate`: PCQ
- `Phantom.mask_iff`: PCQ
- `Phantom.phantom_append`: PCQ
- `Phantom.phantom_perm`: PCQ
- `Phantom.phantom_sum`: PCQ
- `Phantom.rotate_isometry`: PCQ
- `Phantom.shepp3d_nonneg`: PCQ

## Verif.Phase.Energy

- `Phase.filter_apart`: PCQ
- `Phase.filter_energy_le`: PCQ
- `Phase.filter_injective`: PCQ
- `Phase.filter_inner`: PCQ
- `Phase.filter_inner_ge`: PCQ
- `Phase.gains_bounds`: PCQ
- `Phase.retrieve_phase_contracts`: PCQ

## Verif.Phase.Mirror

- `Phase.filter_ker`: PCQ
- `Phase.filter_turned`: PCQ
- `Phase.ker_left_right`: PCQ
- `Phase.retrieve_phase_bright`: PCQ
- `Phase.retrieve_phase_mirrored_fails`: PCQ
- `Phase.retrieve_phase_skew`: PCQ
- `Phase.retrieve_phase_turned`: PCQ
- `Phase.sin_sin_pos`: PCQ

## Verif.Phase.Props

- `Phase.embed_collapses`: PCQ
- `Phase.embed_eq`: PCQ
- `Phase.embed_extended_partial`: PCQ
- `Phase.extended_middle`: PCQ
- `Phase.filter_const`: PCQ
- `Phase.filter_linear`: PCQ
- `Phase.filter_sum`: PCQ
- `Phase.gain_even_partial`: PCQ
- `Phase.gain_odd_lt_one`: PCQ
- `Phase.padWidth_even`: PCQ
- `Phase.padWidth_odd`: PCQ
- `Phase.padWidth_pos`: PCQ
- `Phase.padWidth_zero`: PCQ
- `Phase.retrieve_distributed`: PCQ
- `Phase.retrieve_phase_constant_odd`: PCQ
- `Phase.retrieve_phase_constant_partial`: PCQ
- `Phase.retrieve_phase_padded_partial`: PCQ
- `Phase.retrieve_phase_unpadded`: PCQ

## Verif.Probe.Field

- `Probe.diffraction_energy`: PCQ
- `Probe.diffraction_middle`: PCQ
- `Probe.far_energy`: PCQ
- `Probe.far_order`: PCQ
- `Probe.far_order_refuted`: PCQ
- `Probe.far_position_partial`: PCQ
- `Probe.near_position`: PCQ
- `Probe.parseval`: PCQ

## Verif.Probe.Scan

- `Probe.Covers.unique`: PCQ
- `Probe.rect_scan_probe_partial`: PCQ
- `Probe.scan_axis_hangs`: PCQ
- `Probe.scan_axis_partial`: PCQ
- `Probe.scan_axis_zero`: -
- `Probe.scan_probe_frames`: PQ

## Verif.Probe.Tie

- `Probe.probe_asymmetric`: PCQ
- `Probe.probe_fwhm`: PCQ
- `Probe.probe_range`: PCQ
- `Probe.probe_symmetric_partial`: PCQ
- `Probe.probe_value`: PCQ
- `Probe.tie_attenuation`: PCQ
- `Probe.tie_conserves`: PCQ
- `Probe.tie_linear`: PCQ
- `Probe.tie_quadratic`: PCQ
- `Probe.tie_slice`: PCQ
- `Probe.tie_small`: PCQ

## Verif.Ray.Border

- `Ray.crossings_inner`: PCQ
- `Ray.exit_crossing`: PCQ
- `Ray.trace_surrounded`: PCQ

## Verif.Ray.Opposite

- `Ray.default_center_clear`: PCQ
- `Ray.mirror_offset_wrong`: PCQ
- `Ray.opposite_segments`: PCQ

## Verif.Ray.Order

- `Ray.crossings_ordered`: PCQ
- `Ray.mem_crossings`: PCQ
- `Ray.segment_charged`: PCQ
- `Ray.segments_sum`: PCQ
- `Ray.trace_once`: PCQ

## Verif.Ray.Quadrant

- `Ray.calcQuadrant_flag`: PCQ
- `Ray.calcQuadrant_wrong_near_axis`: PCQ
- `Ray.rayTrace_safe`: PCQ
- `Ray.rayTrace_spec_partial`: PCQ

## Verif.Ray.Safety

- `Ray.crossings_le`: PCQ
- `Ray.sortIntersections_perm`: PCQ
- `Ray.trace_safe`: PCQ
- `Ray.trace_safe_project`: PCQ

## Verif.Recon.ArgProps

- `Recon.project23_inside_iff`: PQ
- `Recon.project_inside_iff`: PQ
- `Recon.project_short_center_wrong`: PQ
- `Recon.recon_inside`: PCQ
- `Recon.recon_lengths_checked`: P
- `Recon.vector_inside_iff`: PQ
- `Recon.vector_inside_partial`: PQ
- `Recon.vector_other_shape_wrong`: PQ
- `Recon.vector_short_center_wrong`: PQ

## Verif.Recon.Continue

- `Recon.art_continued_partial`: PCQ
- `Recon.bart_continued`: PCQ
- `Recon.grad_auto_not_continued`: PCQ
- `Recon.grad_continued_partial`: PCQ
- `Recon.osem_continued`: PCQ
- `Recon.ospml_continued`: PCQ
- `Recon.reconCalls_total`: PQ
- `Recon.recon_continued`: PCQ
- `Recon.tikh_continued_partial`: PCQ
- `Recon.tv_not_continued`: PCQ

## Verif.Recon.InitProps

- `Recon.init_recon_chunk_iff`: PCQ
- `Recon.init_recon_fewer`: P
- `Recon.init_recon_misplaced`: PQ
- `Recon.init_recon_overflow`: P
- `Recon.init_recon_safe_iff`: PCQ
- `Recon.nchunk_zero_raises`: PQ
- `Recon.writes_ranges`: PCQ

## Verif.Recon.Kernels

- `Recon.art_kernel`: PCQ
- `Recon.bart_runAlone`: PCQ
- `Recon.fbp_runAlone`: PCQ
- `Recon.grad_runAlone`: PCQ
- `Recon.kernel_own`: PQ
- `Recon.mlem_runAlone`: PCQ
- `Recon.osem_runAlone`: PCQ
- `Recon.ospml_runAlone`: PCQ
- `Recon.recon_art_own_partial`: PCQ
- `Recon.recon_bart_own`: PCQ
- `Recon.recon_fbp_own`: PCQ
- `Recon.recon_osem_own`: PCQ
- `Recon.recon_own`: PCQ
- `Recon.recon_tv_own`: PCQ
- `Recon.sirt_runAlone`: PCQ
- `Recon.tikh_default_reg_data_iff`: PQ
- `Recon.tikh_reg_data_depends_on_ncore`: PCQ
- `Recon.tikh_reg_data_differs`: PCQ
- `Recon.tikh_runAlone_partial`: PCQ
- `Recon.tv_runAlone`: PCQ

## Verif.Recon.Larger

- `Recon.roundTrip_art_larger_partial`: PCQ

## Verif.Recon.Procs

- `Recon.accel_slicewise`: PCQ
- `Recon.device_exists`: P
- `Recon.devices_balanced`: PCQ
- `Recon.proc_eq_serial`: PCQ
- `Recon.proc_raises_first`: PCQ
- `Recon.serial_slicewise`: PCQ

## Verif.Recon.Props

- `Recon.env_history_partial`: PQ
- `Recon.env_leak_limits_later`: -
- `Recon.env_restored_iff`: PCQ
- `Recon.env_restored_partial`: PQ
- `Recon.init_tomo_entries`: -
- `Recon.recon_accepts_iff`: PCQ
- `Recon.recon_check_history_independent`: PCQ
- `Recon.recon_defaults`: PCQ
- `Recon.recon_depends_on_ncore`: PCQ
- `Recon.recon_distribution_independent_partial`: PCQ
- `Recon.recon_init_shape_unchecked`: PCQ
- `Recon.recon_same_for_all_distributions`: PCQ
- `Recon.recon_shape_partial`: PCQ
- `Recon.recon_shared_center_equal_partial`: PCQ
- `Recon.recon_table_grows`: -
- `Recon.recon_theta_mismatch`: -
- `Recon.recon_total`: PQ
- `Recon.sinogram_order_equiv`: -
- `Recon.swap01_involutive`: -

## Verif.Recon.RoundTrip

- `Recon.prepared_exists`: PCQ
- `Recon.prepared_value`: PCQ
- `Recon.roundTrip_art`: PCQ
- `Recon.roundTrip_art_object`: PCQ
- `Recon.roundTrip_art_wrong`: PCQ
- `Recon.roundTrip_mlem`: PCQ
- `Recon.roundTrip_total`: PCQ
- `Recon.thin_determined`: PCQ
- `Recon.two_views_undetermined`: PCQ

## Verif.Ring.Call

- `Ring.remove_ring_args_partial`: PCQ
- `Ring.remove_ring_float_angle`: PCQ
- `Ring.remove_ring_float_width`: PCQ
- `Ring.remove_ring_returns_iff`: PCQ
- `Ring.remove_ring_silent`: PCQ
- `Ring.ring_enters`: PQ

## Verif.Ring.Mean

- `Ring.meanReflect_result_partial`: PCQ
- `Ring.meanWrap_result`: PCQ
- `Ring.mean_first_row`: PCQ
- `Ring.mean_reflect_out_of_bounds`: PCQ

## Verif.Ring.Median

- `Ring.medRow_result_partial`: PCQ
- `Ring.median_out_of_bounds`: PQ
- `Ring.median_radius_zero`: PCQ
- `Ring.median_right_edge`: PCQ
- `Ring.window_inner`: PQ

## Verif.Ring.Props

- `Ring.aziOk_of_theta`: PQ
- `Ring.inverse_reads_inside`: PCQ
- `Ring.polar_centre_outside`: PCQ
- `Ring.polar_reads_inside`: PCQ
- `Ring.realTrig_ok`: PCQ
- `Ring.remove_ring_chunks`: PCQ
- `Ring.remove_ring_constant_partial`: PCQ
- `Ring.remove_ring_ignores_input`: PCQ
- `Ring.remove_ring_slice_partial`: PCQ
- `Ring.ringFilter_default_small`: PQ
- `Ring.ringFilter_out_of_bounds`: PQ
- `Ring.ringFilter_result_partial`: PCQ

## Verif.Ring.Sort

- `Ring.bubble_sorts`: PCQ
- `Ring.quickSort_sorts`: PCQ

## Verif.Sim.Border

- `Sim.project_padded_partial`: PCQ
- `Sim.project_surrounded_fails`: PCQ
- `Sim.project_surrounded_loses`: PCQ
- `Sim.rayIntegral_padded`: PCQ
- `Sim.raysClear_zero`: PCQ
- `Sim.width_padded`: PCQ

## Verif.Sim.Noise

- `Sim.angles_accepts`: PCQ
- `Sim.angles_default_repeats`: PCQ
- `Sim.angles_sorted`: PCQ
- `Sim.angles_spec`: PCQ
- `Sim.drift_eq`: PCQ
- `Sim.drift_no_amplitude`: PCQ
- `Sim.drift_not_periodic`: PCQ
- `Sim.drift_value`: PCQ
- `Sim.gaussian_default`: PCQ
- `Sim.gaussian_edge`: PQ
- `Sim.gaussian_modifies`: PCQ
- `Sim.gaussian_value`: PQ
- `Sim.magnification_spec`: PCQ
- `Sim.poisson_value`: PQ
- `Sim.rings_accepts`: PQ
- `Sim.rings_value`: PQ
- `Sim.salt_default`: PQ
- `Sim.salt_modifies`: PQ
- `Sim.salt_value`: PQ
- `Sim.zingers_mono`: PQ
- `Sim.zingers_value`: PQ
- `Sim.zingers_zero`: PQ

## Verif.Sim.Props

- `Sim.getCenter_default`: PQ
- `Sim.getCenter_length`: PCQ
- `Sim.getCenter_scalar`: PCQ
- `Sim.pad_covers`: PCQ
- `Sim.pad_width`: PCQ
- `Sim.project_depends_on_nchunk`: PCQ
- `Sim.project_linear_py`: PCQ
- `Sim.project_own_center_chunk_partial`: PCQ
- `Sim.project_own_center_partial`: PCQ
- `Sim.project_range_py`: PCQ
- `Sim.project_slicewise_py`: PCQ
- `Sim.project_spec`: PCQ
- `Sim.project_total`: PCQ

## Verif.Sim.Turn

- `Sim.project_axis0_exact`: PCQ
- `Sim.project_axis0_loses`: PCQ
- `Sim.project_axis0_missing`: PCQ
- `Sim.project_axis0_partial`: PCQ
- `Sim.project_axis0_total`: PCQ
- `Sim.project_axis1_exact`: PCQ
- `Sim.project_axis1_missing`: PCQ
- `Sim.project_axis1_partial`: PCQ
- `Sim.project_mirrored_py_partial`: PCQ
- `Sim.project_turned_fails`: PCQ
- `Sim.project_turned_py_partial`: PCQ

## Verif.Sim.VecProps

- `Sim.fieldIntegral_const`: PCQ
- `Sim.fieldIntegral_linear`: PCQ
- `Sim.horizontal_row`: PCQ
- `Sim.project2_axis`: PCQ
- `Sim.project3_first_center`: PCQ
- `Sim.project3_opposite`: PCQ
- `Sim.project3_other_axis`: PCQ
- `Sim.project3_spec`: PCQ
- `Sim.project3_total`: PCQ
- `Sim.project_opposite`: PCQ
- `Sim.project_opposite_center`: PCQ
- `Sim.project_opposite_fails`: PCQ
- `Sim.tracerGeom_opposite`: PCQ
- `Sim.vecProjectC_value`: PCQ

## Verif.Sim.Width

- `Sim.other_pad_fails`: PCQ
- `Sim.rayIntegral_shift`: PCQ
- `Sim.unpadded_axis0`: PCQ
- `Sim.unpadded_axis0_total_iff`: PCQ
- `Sim.unpadded_axis1`: PCQ
- `Sim.unpadded_middle_iff`: PCQ
- `Sim.unpadded_middle_partial`: PCQ
- `Sim.unpadded_shape`: PCQ

## Verif.Stripe.Alone

- `Stripe.fw_default_wrong`: PCQ
- `Stripe.removeStripe_all_partial`: PCQ
- `Stripe.removeStripe_alone_partial`: PCQ
- `Stripe.removeStripe_error`: PCQ
- `Stripe.removeStripe_nchunk_zero`: PCQ
- `Stripe.removeStripe_total`: PCQ
- `Stripe.sf_alone`: PCQ
- `Stripe.sliceFilter_all`: PCQ
- `Stripe.sliceFilter_alone`: PCQ
- `Stripe.sliceFilter_error`: PCQ
- `Stripe.sliceFilter_ok`: PCQ
- `Stripe.sliceFilter_total`: PCQ

## Verif.Stripe.Db2

- `Stripe.db2_const`: PCQ
- `Stripe.db2_ok`: PCQ
- `Stripe.fw_db2_columns`: PCQ

## Verif.Stripe.Detect

- `Stripe.detect_args_checked`: PQ
- `Stripe.detect_in_bounds_partial`: PCQ
- `Stripe.detect_negative`: PCQ
- `Stripe.detect_not_median`: PCQ
- `Stripe.detect_out_of_bounds`: PCQ
- `Stripe.detect_range_partial`: PCQ
- `Stripe.detect_result_partial`: PCQ
- `Stripe.detect_run_exists`: PCQ
- `Stripe.detect_schedule_independent_partial`: PCQ

## Verif.Stripe.Filter

- `Stripe.filterPad_lt`: PQ
- `Stripe.padded_mirrored`: PCQ
- `Stripe.rs_filter_distributed`: PCQ
- `Stripe.rs_filter_no_stripes`: PCQ
- `Stripe.rs_filter_offset_remains`: PCQ
- `Stripe.rs_filter_stripe`: PCQ
- `Stripe.rs_filter_value`: PCQ
- `Stripe.rs_sort_window2_changes`: PCQ
- `Stripe.smooth_conv`: PCQ
- `Stripe.smooth_linear`: PCQ

## Verif.Stripe.Fit

- `Stripe.fit_arguments_valid`: PCQ
- `Stripe.fit_reverse`: PCQ
- `Stripe.rs_fit_constant`: PCQ
- `Stripe.rs_fit_constant_odd`: PCQ
- `Stripe.rs_fit_distributed`: PCQ
- `Stripe.rs_fit_scale`: PCQ
- `Stripe.rs_fit_stripes_cancel`: PCQ
- `Stripe.rs_fit_value`: PCQ
- `Stripe.rs_fit_zero_undefined`: PCQ

## Verif.Stripe.Fw

- `Stripe.dampen_column`: PCQ
- `Stripe.dampen_constant`: PCQ
- `Stripe.dampen_even_keeps`: PCQ
- `Stripe.dampen_sum`: PCQ
- `Stripe.fw_distributed`: PCQ
- `Stripe.fw_level_default`: PCQ
- `Stripe.fw_no_stripes`: PCQ
- `Stripe.fw_stripes`: PCQ
- `Stripe.fw_total`: PCQ
- `Stripe.fw_unchanged`: PCQ
- `Stripe.haar_const`: PCQ
- `Stripe.haar_ok`: PCQ
- `Stripe.stripes_dwt`: PCQ

## Verif.Stripe.Mask

- `Stripe.clean_only_removes`: PCQ
- `Stripe.mask_args_checked`: PQ
- `Stripe.mask_args_ok`: PQ
- `Stripe.mask_empty_partial`: PCQ
- `Stripe.mask_in_bounds_partial`: PCQ
- `Stripe.mask_out_of_bounds`: PCQ
- `Stripe.mask_result_partial`: PCQ
- `Stripe.mask_run_exists`: PQ
- `Stripe.mask_schedule_independent_partial`: PCQ
- `Stripe.merge_only_adds_partial`: PCQ

## Verif.Stripe.Sf

- `Stripe.sf_adds_column_offsets`: PCQ
- `Stripe.sf_constant_mean_partial`: PCQ
- `Stripe.sf_distributed`: PCQ
- `Stripe.sf_in_bounds`: PCQ
- `Stripe.sf_result`: PCQ
- `Stripe.sf_size_negative`: PCQ
- `Stripe.sf_size_zero`: PCQ

## Verif.Stripe.Sort

- `Stripe.rs_sort_default_size`: PCQ
- `Stripe.rs_sort_distributed`: PCQ
- `Stripe.rs_sort_keeps_order`: PCQ
- `Stripe.rs_sort_neutral`: PCQ
- `Stripe.rs_sort_removes_stripe`: PCQ
- `Stripe.rs_sort_tie_dependent`: PCQ
- `Stripe.rs_sort_unique_partial`: PCQ
- `Stripe.rs_sort_value`: PCQ

## Verif.Stripe.Ti

- `Ti.cgm_flat_undefined`: PCQ
- `Ti.cgm_optimal`: PCQ
- `Ti.parameter_spec`: PCQ

## Verif.Stripe.TiProps

- `Ti.correction_optimal`: PCQ
- `Ti.correction_undefined`: PCQ
- `Ti.ti_blocks_nan`: PCQ
- `Ti.ti_blocks_partial`: PCQ
- `Ti.ti_lost`: PQ
- `Ti.ti_raises`: PCQ
- `Ti.ti_undefined`: PCQ
- `Ti.ti_value_partial`: PCQ

## Verif.Stripe.Vo

- `Stripe.detect_flat`: PCQ
- `Stripe.detect_four`: PCQ
- `Stripe.detect_order`: PCQ
- `Stripe.detect_outliers`: PCQ
- `Stripe.detect_short`: PCQ
- `Stripe.detect_total`: PCQ
- `Stripe.fit_least_squares`: PCQ

## Verif.Stripe.VoProps

- `Stripe.all_neutral`: PCQ
- `Stripe.dead_removed`: PCQ
- `Stripe.dead_value`: PCQ
- `Stripe.interp_dead_edge`: PCQ
- `Stripe.interp_removes_stripes`: PCQ
- `Stripe.interp_value_partial`: PCQ
- `Stripe.large_removes_stripes`: PCQ
- `Stripe.large_value_partial`: PCQ
- `Stripe.one_row_raises`: PCQ

## Verif.Sym.Detect

- `Sym.detect_mirrored_fails`: PCQ
- `Sym.detect_mirrored_partial`: PCQ

## Verif.Sym.Filters

- `Sym.circ_mask_flipped`: PCQ
- `Sym.circ_mask_transposed`: PCQ
- `Sym.getMask_flip`: PCQ
- `Sym.getMask_swap`: PCQ
- `Sym.median_filter_flipped`: PCQ
- `Sym.median_filter_mirrors_iff`: PCQ
- `Sym.nearFinite_flip`: PCQ
- `Sym.nonfinite_flipped`: PCQ
- `Sym.remove_outlier_flipped_partial`: PCQ
- `Sym.remove_outlier_mirrored_fails`: PCQ
- `Sym.scipyWindow_flip`: PCQ

## Verif.Sym.Gain

- `Sym.average_gain`: PCQ
- `Sym.normalize_gain`: PCQ
- `Sym.normalize_gain_iff`: PCQ
- `Sym.normalize_nf_gain`: PCQ

## Verif.Sym.Median3d

- `Sym.filtered3_exists`: PQ
- `Sym.median3d_monotone`: PCQ
- `Sym.median3d_swap_yx`: PCQ
- `Sym.median3d_swap_zy`: PCQ
- `Sym.median3d_values`: PCQ
- `Sym.outlier3d_affine`: PCQ

## Verif.Sym.Mirror

- `Sym.airLine_reflect`: PCQ
- `Sym.down_mirrors_iff`: PCQ
- `Sym.median3d_flipped`: PCQ
- `Sym.normalize_bg_mirrored`: PCQ
- `Sym.sf_mirror_defect`: PCQ
- `Sym.sf_mirrors_iff`: PCQ
- `Sym.smoothMean_reflect`: PCQ
- `Sym.up_mirrored`: PCQ
- `Sym.window3_flip`: PCQ

## Verif.Sym.Order

- `Sym.map_reorders`: PCQ
- `Sym.rank_unique`: PCQ
- `Sym.reflect_mirror`: PQ
- `Sym.rsFilter_inside`: PQ
- `Sym.rsFilter_mirror`: PCQ
- `Sym.rs_sort_columns_partial`: PCQ
- `Sym.rs_sort_mirrored_fails`: PCQ
- `Sym.rs_sort_mirrored_partial`: PCQ
- `Sym.rs_sort_pairs`: PCQ
- `Sym.rs_sort_reordered_fails`: PCQ
- `Sym.rs_sort_reordered_partial`: PCQ
- `Sym.sf_reordered`: PCQ

## Verif.Sym.Outlier

- `Sym.remove_outlier_mirrors_iff`: PCQ

## Verif.Sym.StripeLog

- `Sym.minus_log_commutes_partial`: PCQ
- `Sym.rs_sort_minus_log_fails`: PCQ
- `Sym.rs_sort_minus_log_partial`: PCQ
- `Sym.rs_sort_selects`: PCQ

## Verif.Sym.StripeUnits

- `Sym.dead_fill_affine`: PCQ
- `Sym.interp_offset_fails`: PCQ
- `Sym.interp_scale`: PCQ
- `Sym.large_scale_partial`: PCQ
- `Sym.rs_filter_scale_partial`: PCQ
- `Sym.rs_sort_log_fails`: PCQ
- `Sym.rs_sort_log_partial`: PCQ
- `Sym.rs_sort_units_pairs`: PCQ
- `Sym.rs_sort_units_partial`: PCQ
- `Sym.sf_affine`: PCQ

## Verif.Sym.Units2d

- `Sym.half_median`: PCQ
- `Sym.median_filter_monotone`: PCQ
- `Sym.median_filter_negates_iff`: PCQ
- `Sym.outlier1d_affine`: PCQ
- `Sym.remove_outlier_affine`: PCQ

## Verif.Warp.Props

- `Warp.correct_distributed`: PCQ
- `Warp.load_blank`: PQ
- `Warp.load_spec`: PQ
- `Warp.sino_overflows`: PCQ
- `Warp.sino_row_partial`: PCQ
- `Warp.src_radial`: PCQ
- `Warp.unwarp_affine`: PCQ
- `Warp.unwarp_centre`: PCQ
- `Warp.unwarp_identity`: PCQ
- `Warp.unwarp_linear`: PCQ
- `Warp.unwarp_range`: PCQ

## Verif.Wrap.Props

- `Wrap.astra_gpu_silent`: PQ
- `Wrap.astra_no_gpu`: PQ
- `Wrap.astra_options`: PCQ
- `Wrap.astra_options_default`: PCQ
- `Wrap.astra_raises`: PCQ
- `Wrap.astra_slices`: PCQ
- `Wrap.axis_centred`: PCQ
- `Wrap.cpu_sino`: PCQ
- `Wrap.npRound_even`: PCQ
- `Wrap.npRound_near`: PCQ
- `Wrap.shift_unique`: PCQ
- `Wrap.sino_garbage`: PCQ
- `Wrap.sino_shifted`: PCQ
- `Wrap.ufo_broadcast`: PCQ
- `Wrap.ufo_crop`: PQ
- `Wrap.ufo_params`: PQ
- `Wrap.ufo_params_ignored`: PQ

## Verif.Wrap.Ufo

- `Wrap.ufo_bounded`: PQ
- `Wrap.ufo_crop_iff`: PCQ
- `Wrap.ufo_grid_hangs`: PCQ
- `Wrap.ufo_hangs`: PQ
- `Wrap.ufo_hangs_state`: PQ
- `Wrap.ufo_maximal`: PCQ
- `Wrap.ufo_progress_partial`: PQ
- `Wrap.ufo_returned_written`: PQ
- `Wrap.ufo_returns_iff`: PCQ
- `Wrap.ufo_returns_partial`: PCQ
- `Wrap.ufo_written_only`: PQ
