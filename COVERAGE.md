# Source lines cited by the model

For each function of /repo: the share of its code lines that a comment of the model cites. 100 % cited does not mean that
nothing is simplified (the comments say what is); 0 % means that the function is not modelled. Generated by reading the
citations `file:lines` in `lean/Verif`.

| file | cited | partly | not modelled |
|---|---|---|---|
| include/libtomo/filters.h | filter_none, filter_shepp, filter_cosine, filter_hann, filter_hamming, filter_ramlak, filter_parzen, filter_butterworth, filter_custom, filter_custom2d, float |  | filter_is_2d |
| libtomo/accel/common.hh | GetDevice | CreateThreadPool 46% | stream_sync |
| libtomo/accel/cxx/common.cc |  |  | cuda_set_device, cuda_multi_processor_count, cuda_max_threads_per_block, cuda_warp_size, cuda_shared_memory_per_block, cuda_device_count, cuda_device_query |
| libtomo/accel/cxx/mlem.cc | mlem_cpu | mlem_cpu_compute_projection 38% | cxx_mlem |
| libtomo/accel/cxx/sirt.cc | cxx_sirt, sirt_cpu_compute_projection, sirt_cpu |  |  |
| libtomo/accel/data.hh |  | execute 42% |  |
| libtomo/accel/gpu/common.cu |  |  | init_nvtx, cuda_set_device, cuda_multi_processor_count, cuda_max_threads_per_block, cuda_warp_size, cuda_shared_memory_per_block, cuda_device_count, cuda_device_query |
| libtomo/accel/gpu/mlem.cu | cuda_mlem_pixels_kernel, cuda_mlem_update_kernel, mlem_gpu_compute_projection | mlem_cuda 75% |  |
| libtomo/accel/gpu/sirt.cu | cuda_sirt_pixels_kernel, cuda_sirt_update_kernel, sirt_gpu_compute_projection | sirt_cuda 41% |  |
| libtomo/accel/gpu/utils.cu | cuda_sum_dist_compute, cuda_compute_sum_dist, cuda_rotate_kernel, cuda_rotate_kernel |  | print_array, cuda_rotate_internal_kernel, cuda_rotate, cuda_rotate_ip, cuda_rotate, cuda_rotate_ip |
| libtomo/accel/macros.hh |  |  | GetThisThreadID, GetMessageID |
| libtomo/accel/profiler.hh |  |  | disable_signal_detection |
| libtomo/accel/utils.hh | GetChoice, GetOpenCVInterpolationMode, opencv_affine_transform, cxx_rotate_ip, cxx_compute_sum_dist, GetNppInterpolationMode, ComputeGridSize, gpu_memset, cuda_atomic_sum_kernel | cuda_sum_kernel 50% | cxx_rotate, GetBlockSize, GetGridSize, GetBlockDims, GetGridDims, ComputeGridDims, this_thread_device, event_sync, gpu_malloc, cpu2gpu_memcpy, gpu2cpu_memcpy, gpu2gpu_memcpy, gpu_malloc_and_memcpy, gpu_malloc_and_memset, gpu2cpu_memcpy_and_free, create_streams, destroy_streams, cuda_warmup_kernel |
| libtomo/gridrec/gridrec.c | legendre, set_pswf_tables, set_trig_tables, set_filter_tables, gridrec |  |  |
| libtomo/misc/inpainter.c | floatcomp1, mean_smoothing_2D, eucl_weighting_inpainting_2D, median_rand_inpainting_2D, mean_smoothing_3D, eucl_weighting_inpainting_3D, median_rand_inpainting_3D, Inpainter_morph_main |  |  |
| libtomo/misc/median_filt3d.c | floatcomp, uint16comp, medfilt3D_float, medfilt2D_float, medfilt3D_uint16, medfilt2D_uint16, medianfilter_main_float |  |  |
| libtomo/misc/morph.c | downsample, upsample |  | sample |
| libtomo/misc/remove_ring.c | min_distance_to_edge, iroundf, polar_transform, inverse_polar_transform, swap_float, swap_integer, partition_2_arrays, quick_sort_2_arrays, bubble_2_arrays, median_filter_fast_1D, mean_filter_fast_1D, ring_filter, remove_ring |  |  |
| libtomo/prep/prep.c | normalize_bg |  |  |
| libtomo/prep/stripe.c | remove_stripe_sf |  |  |
| libtomo/prep/stripes_detect3d.c | gradient3D_local, ratio_mean_stride3d, floatcomp, vertical_median_stride3d, mean_stride3d, remove_inconsistent_stripes, remove_short_stripes, merge_stripes, stripesdetect3d_main_float, stripesmask3d_main_float |  |  |
| libtomo/recon/art.c | art |  |  |
| libtomo/recon/bart.c | bart |  |  |
| libtomo/recon/fbp.c | fbp |  |  |
| libtomo/recon/grad.c | grad |  |  |
| libtomo/recon/osem.c | osem |  |  |
| libtomo/recon/ospml_hybrid.c | ospml_hybrid |  |  |
| libtomo/recon/ospml_quad.c | ospml_quad |  |  |
| libtomo/recon/project.c | project, project2, project3 |  |  |
| libtomo/recon/tikh.c | tikh |  |  |
| libtomo/recon/tv.c | tv |  |  |
| libtomo/recon/utils.c | preprocessing, calc_quadrant, calc_coords, trim_coords, sort_intersections, calc_dist, calc_dist2, calc_simdata, calc_simdata2, calc_simdata3 |  | PyInit_libtomo, initlibtomo |
| libtomo/recon/vector.c | vector, vector2, vector3 |  |  |
| tomopy/_fft_loader.py | import_mkl_fft, import_numpy_fft |  |  |
| tomopy/misc/benchmark.py | normalize, trim_border, fill_border, rescale_image, quantify_difference, output_images, __init__, assign | convert_image 87% | exit_action, output_image, print_size, tagname |
| tomopy/misc/corr.py | adjust_range, gaussian_filter, median_filter, median_filter_cuda, median_filter_nonfinite, median_filter3d, remove_outlier3d, sobel_filter, remove_nan, remove_neg, remove_outlier, remove_outlier1d, remove_outlier_cuda, remove_ring, circ_mask, _get_mask, enhance_projs_aps_1id, _enhance_img, _calc_histequal_wgt, inpainter_morph, callback |  |  |
| tomopy/misc/morph.py | pad, _get_npad, _get_slices, downsample, upsample, _sample, _init_out, sino_360_to_180 | trim_sinogram 90% | _get_pad_sequence |
| tomopy/misc/npmath.py | discrete_cdf, calc_affine_transform, pad |  | gauss1d |
| tomopy/misc/phantom.py | shepp3d, phantom, _ellipsoid, _rotation_matrix, _transform, _get_shepp_array, _array_to_params | _define_coords 60% | baboon, barbara, cameraman, checkerboard, lena, peppers, shepp2d, _totuple |
| tomopy/prep/alignment.py | align_seq, align_joint, add_jitter, add_noise, scale, blur_edges, shift_images, calc_slit_box_aps_1id, remove_slits_aps_1id, _unwarp_image_backward, _distortion_correction_proj, distortion_correction_sino, load_distortion_coefs, quick_diff | find_slits_corners_aps_1id 71%, detector_drift_adjust_aps_1id 68%, distortion_correction_proj 87% | tilt, _calc_proj_cnrs |
| tomopy/prep/normalize.py | minus_log, normalize, normalize_roi, _normalize_roi, normalize_bg, normalize_nf |  |  |
| tomopy/prep/phase.py | _wavelength, retrieve_phase, _retrieve_phase, _calc_pad, _paganin_filter_factor, _calc_pad_width, _reciprocal_grid | _reciprocal_coord 75% | _calc_pad_val |
| tomopy/prep/stripe.py | remove_stripe_fw, _remove_stripe_fw, remove_stripe_ti, _remove_stripe_ti, _kernel, _ringMatXvec, _ringCGM, _get_parameter, _ring, _ringb, remove_stripe_sf, remove_stripe_based_sorting, _create_matindex, _rs_sort, _remove_stripe_based_sorting, remove_stripe_based_filtering, _create_1d_window, _create_listsign, _rs_filter, _remove_stripe_based_filtering, remove_stripe_based_fitting, _create_2d_window, _create_matsign, _2d_filter, _rs_fit, _remove_stripe_based_fitting, remove_large_stripe, _detect_stripe, _rs_large, _remove_large_stripe, remove_dead_stripe, _rs_dead, _remove_dead_stripe, remove_all_stripe, _remove_all_stripe, remove_stripe_based_interpolation, _rs_interpolation, _remove_stripe_based_interpolation, stripes_detect3d, stripes_mask3d |  |  |
| tomopy/recon/acceleration.py | recon_accelerated, _search_implementation, _get_func |  |  |
| tomopy/recon/algorithm.py | recon, init_tomo, _init_recon, _get_func, _run_accel_algorithm, _dist_recon, _get_algorithm_kwargs | _get_algorithm_args 50% |  |
| tomopy/recon/rotation.py | _adjust_hist_min, _adjust_hist_max, _find_center_cost, find_center_vo, _calculate_metric, _search_coarse, _search_fine, _create_mask, find_center_pc, write_center, mask_empty_slice | find_center 95%, _adjust_hist_limits 85% |  |
| tomopy/recon/vector.py | vector, vector2, vector3 |  |  |
| tomopy/recon/wrappers.py | _process_data, ufo_fbp, lprec, lpmultigpu | astra 70%, astra_rec 70%, ufo_dfi 96% |  |
| tomopy/sim/project.py | add_drift, add_gaussian, add_poisson, add_rings, add_salt_pepper, add_zingers, angles, _round_to_even, project, project2, project3, get_center, _get_magnification |  | fan_to_para, para_to_fan, add_focal_spot_blur, _get_otf |
| tomopy/sim/propagate.py | propagate_tie, probe_gauss, _rect_scan_probe | _rect_scan_coords 85%, calc_intensity 66% |  |
| tomopy/util/dtype.py | as_ndarray, as_dtype, as_float32, as_int32, as_uint16, as_uint8, as_c_float_p, as_c_bool_p, as_c_uint8_p, as_c_uint16_p, as_c_int, as_c_long, as_c_int_p, as_c_float, as_c_char_p, as_c_void_p, as_c_size_t, as_sharedmem, to_numpy_array, is_sharedmem, get_shared_mem, is_contiguous, empty_shared_array |  |  |
| tomopy/util/extern/__init__.py | c_shared_lib, _missing_library |  |  |
| tomopy/util/extern/accel.py | c_accel_mlem, c_accel_sirt |  |  |
| tomopy/util/extern/gridrec.py | c_gridrec |  |  |
| tomopy/util/extern/misc.py | c_sample, c_remove_ring, c_median_filt3d_float32, c_median_filt3d_uint16, c_inpainter |  |  |
| tomopy/util/extern/prep.py | c_normalize_bg, c_remove_stripe_sf, c_stripes_detect3d, c_stripesmask3d |  |  |
| tomopy/util/extern/recon.py | c_project, c_project2, c_project3, c_art, c_bart, c_fbp, c_mlem, c_osem, c_ospml_hybrid, c_ospml_quad, c_pml_hybrid, c_pml_quad, c_sirt, c_tv, c_grad, c_tikh, c_vector, c_vector2, c_vector3 |  |  |
| tomopy/util/misc.py | write_tiff, fft, ifft, fft2, ifft2, fft, ifft, fft2, ifft2 |  | deprecated, new_func |
| tomopy/util/mproc.py | get_ncore_nchunk, get_ncore_slices, get_worker_ncore_slices, distribute_jobs, _arg_parser, slice_axis, clear_queue, __init__, __enter__, __exit__ |  | get_rank, get_nproc, barrier, set_debug, init_shared, clear_shared |
