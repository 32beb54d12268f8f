{
 "claims": [
  {
   "property": "C01",
   "status": "proved",
   "theorems": [
    "Verif.DataStructures.C01_buffer_is_newest_first_queue",
    "Verif.DataStructures.C01_zero_capacity_push_raises",
    "Verif.DataStructures.C01_top_after_pushes"
   ],
   "note": "Full refinement of every call history to a list; capacity 0 is shown to refuse every push."
  },
  {
   "property": "C02",
   "status": "proved",
   "theorems": [
    "Verif.DataStructures.C02_powers_int",
    "Verif.DataStructures.C02_powers_slice",
    "Verif.DataStructures.C02_powers_list",
    "Verif.DataStructures.C02_powers_refused",
    "Verif.DataStructures.C02_negative_index_depends_on_history"
   ],
   "note": "After every access history; negative indices and open slices are characterised separately."
  },
  {
   "property": "C03",
   "status": "proved",
   "theorems": [
    "Verif.DataStructures.C03_coins_handed_out_once",
    "Verif.DataStructures.C03_window_at_return",
    "Verif.DataStructures.C03_returned_array_is_overwritten"
   ],
   "note": "Values at return time; the returned arrays are views that later calls overwrite (deviation theorem)."
  },
  {
   "property": "C04",
   "status": "proved",
   "theorems": [
    "Verif.Histogram.C04_histogram_keeps_every_contribution",
    "Verif.Histogram.C04_bin_is_mean",
    "Verif.Histogram.C04_empty_histogram_hangs"
   ],
   "note": "Arbitrary uninitialised memory; int overflow of sizes not modelled."
  },
  {
   "property": "C05",
   "status": "proved",
   "theorems": [
    "Verif.Histogram.C05_bins_by_distance",
    "Verif.Histogram.C05_energy_conserved"
   ],
   "note": "kd-tree nearest search is a parameter returning a valid index; exact arithmetic."
  },
  {
   "property": "C06",
   "status": "proved",
   "theorems": [
    "Verif.Shoebox.C06_enumeration_3d",
    "Verif.Shoebox.C06_enumeration_2d"
   ],
   "note": "scattering coefficients assumed non-negative"
  },
  {
   "property": "C07",
   "status": "proved",
   "theorems": [
    "Verif.Shoebox.C07_count_3d",
    "Verif.Shoebox.C07_count_2d",
    "Verif.Shoebox.C07_returned_count"
   ],
   "note": ""
  },
  {
   "property": "C08",
   "status": "proved",
   "theorems": [
    "Verif.Shoebox.C08_positions_are_mirror_images",
    "Verif.Shoebox.wallsOf_alternates",
    "Verif.Shoebox.C08_image_in_own_cell"
   ],
   "note": "real arithmetic"
  },
  {
   "property": "C09",
   "status": "proved",
   "theorems": [
    "Verif.Shoebox.C09_attenuation_counts_hits",
    "Verif.Shoebox.C09_attenuation_le_one"
   ],
   "note": "real arithmetic; coefficients non-negative"
  },
  {
   "property": "C10",
   "status": "proved",
   "theorems": [
    "Verif.RirBuilder.C10_threaded_rir_deterministic",
    "Verif.RirBuilder.C10_zero_threads_writes_nothing"
   ],
   "note": "All schedules at the granularity of single loads and stores; zero threads: nothing is computed."
  },
  {
   "property": "C11",
   "status": "proved",
   "theorems": [
    "Verif.RirBuilder.C11_checks_suffice",
    "Verif.RirBuilder.C11_check_iff",
    "Verif.RirBuilder.C11_zero_granularity_reads_outside",
    "Verif.RirBuilder.C11_negative_rate_writes_outside",
    "Verif.RirBuilder.C11_one_tap_deviation"
   ],
   "note": "Holds for granularity >= 1 and rate >= 0; the two other theorems show the code is unsafe otherwise."
  },
  {
   "property": "C12",
   "status": "proved",
   "theorems": [
    "Verif.ThreadPool.C12_tasks_start_in_order_once",
    "Verif.ThreadPool.C12_destructor_waits_for_all",
    "Verif.ThreadPool.C12_enqueue_refused_iff_stopping",
    "Verif.ThreadPool.C12_internal_steps_bounded",
    "Verif.ThreadPool.C12_stuck_means_all_done",
    "Verif.ThreadPool.C12_no_workers_no_execution"
   ],
   "note": "Transition system with spurious wake-ups; tasks are assumed to terminate."
  },
  {
   "property": "C13",
   "status": "proved",
   "theorems": [
    "Verif.RirBuilder.C13_delay_sum"
   ],
   "note": ""
  },
  {
   "property": "C14",
   "status": "proved",
   "theorems": [
    "Verif.STFT.C14_frames",
    "Verif.STFT.C14_chunking",
    "Verif.STFT.C14_fixed_refuses",
    "Verif.STFT.C14_one_point_deviation",
    "Verif.STFT.C14_repad_deviation"
   ],
   "note": "one channel; calls are zero-padded to a multiple of the hop, as the code does"
  },
  {
   "property": "C15",
   "status": "proved",
   "theorems": [
    "Verif.STFT.C15_reconstruction"
   ],
   "note": "exact arithmetic"
  },
  {
   "property": "C16",
   "status": "proved",
   "theorems": [
    "Verif.STFT.C16_filter",
    "Verif.STFT.C16_refused_filter_kept",
    "Verif.STFT.C16_front_padding_deviation"
   ],
   "note": "needs back padding >= taps-1; the check in the code is weaker (deviation theorem)"
  },
  {
   "property": "C17",
   "status": "proved",
   "theorems": [
    "Verif.Adaptive.C17_nlms",
    "Verif.Adaptive.C17_nlms_aposteriori",
    "Verif.Adaptive.C17_nlms_misalignment",
    "Verif.Adaptive.C17_nlms_silence_deviation",
    "Verif.Adaptive.C17_block",
    "Verif.Adaptive.C17_block_one",
    "Verif.Adaptive.C17_block_one_nlms",
    "Verif.Adaptive.C17_block_length_one_deviation"
   ],
   "note": "real arithmetic; filter length at least 2 for BlockLMS (length 1 raises, shown)"
  },
  {
   "property": "C18",
   "status": "proved",
   "theorems": [
    "Verif.Adaptive.C18_rls_least_squares",
    "Verif.Adaptive.C18_refuses"
   ],
   "note": "real arithmetic, strict minimiser after every sample"
  },
  {
   "property": "C19",
   "status": "proved",
   "theorems": [
    "Verif.Adaptive.C19_block_rls",
    "Verif.Adaptive.C19_reference_buffer_grows"
   ],
   "note": "real arithmetic"
  },
  {
   "property": "C20",
   "status": "proved",
   "theorems": [
    "Verif.Toeplitz.C20_toeplitz",
    "Verif.Toeplitz.C20_mkl_toeplitz",
    "Verif.Toeplitz.C20_hankel",
    "Verif.Toeplitz.C20_hankel_shape_deviation"
   ],
   "note": "real entries, no rounding; non-empty first column and row"
  },
  {
   "property": "C21",
   "status": "proved",
   "theorems": [
    "Verif.Toeplitz.C21_optimal"
   ],
   "note": "real entries"
  },
  {
   "property": "C22",
   "status": "proved",
   "theorems": [
    "Verif.Sync.C22_correlate",
    "Verif.Sync.C22_single_sample_deviation",
    "Verif.Sync.C22_tdoa_delay",
    "Verif.Sync.C22_tdoa_delay_phat_interp",
    "Verif.Sync.C22_phat_scale",
    "Verif.Sync.C22_interp_odd",
    "Verif.Sync.C22_interp_even_deviation"
   ],
   "note": "second signal of at least two samples (one sample: deviation shown); real arithmetic"
  },
  {
   "property": "C23",
   "status": "proved",
   "theorems": [
    "Verif.LinPred.C23_levinson",
    "Verif.LinPred.C23_levinson_real",
    "Verif.LinPred.C23_posdef",
    "Verif.LinPred.C23_complex_deviation"
   ],
   "note": "Exact arithmetic over ℝ or ℂ. Real r: toeplitz(r). Complex r: the system with first row r, against the documentation."
  },
  {
   "property": "C24",
   "status": "proved",
   "theorems": [
    "Verif.LinPred.C24_autocorr",
    "Verif.LinPred.C24_large_lag_deviation",
    "Verif.LinPred.C24_convmtx",
    "Verif.LinPred.C24_goertzel",
    "Verif.LinPred.C24_goertzel_real",
    "Verif.LinPred.C24_goertzel_single_deviation"
   ],
   "note": "Lags below the signal length; larger lags and a single sample are recorded as deviations."
  },
  {
   "property": "C25",
   "status": "proved",
   "theorems": [
    "Verif.Geometry.C25_mirror",
    "Verif.Geometry.C25_involution",
    "Verif.Geometry.C25_isometry",
    "Verif.Geometry.C25_fixed",
    "Verif.Geometry.C25_sides",
    "Verif.Geometry.C25_wall2"
   ],
   "note": "exact reals; tolerance is a parameter"
  },
  {
   "property": "C26",
   "status": "proved",
   "theorems": [
    "Verif.Geometry.C26_bounce",
    "Verif.Geometry.C26_image_line",
    "Verif.Geometry.C26_degenerate",
    "Verif.Geometry.C26_direction"
   ],
   "note": ""
  },
  {
   "property": "C27",
   "status": "proved",
   "theorems": [
    "Verif.Geometry.C27_segments",
    "Verif.Geometry.C27_segments_exact",
    "Verif.Geometry.C27_tolerance_deviation",
    "Verif.Geometry.C27_plane",
    "Verif.Geometry.C27_plane_none",
    "Verif.Geometry.C27_wall3",
    "Verif.Geometry.C27_polygon_boundary",
    "Verif.Geometry.C27_polygon_separated",
    "Verif.Geometry.C27_polygon_surrounded",
    "Verif.Geometry.C27_polygon_convex",
    "Verif.Geometry.C27_polygon_triangulated"
   ],
   "note": "2-D segments, segment and plane, segment and 3-D wall, point in polygon; the existence of a triangulation of a simple polygon is not proved (it is the hypothesis)"
  },
  {
   "property": "C28",
   "status": "proved",
   "theorems": [
    "Verif.Geometry.C28_triangle",
    "Verif.Geometry.C28_fan",
    "Verif.Geometry.C28_split",
    "Verif.Geometry.C28_cyclic",
    "Verif.Geometry.C28_reverse",
    "Verif.Geometry.C28_affine",
    "Verif.Geometry.C28_degenerate"
   ],
   "note": ""
  },
  {
   "property": "C29",
   "status": "proved",
   "theorems": [
    "Verif.Geometry.C29_divergence",
    "Verif.Geometry.C29_extruded",
    "Verif.Geometry.C29_extruded_up",
    "Verif.Geometry.C29_shoebox",
    "Verif.Geometry.C29_shoebox_walls",
    "Verif.Geometry.C29_wall_area",
    "Verif.Geometry.C29_two_dim_deviation"
   ],
   "note": "the orthonormal basis from the SVD is a hypothesis; 2-D rooms deviate"
  },
  {
   "property": "C30",
   "status": "proved",
   "theorems": [
    "Verif.Materials.C30_counterclockwise",
    "Verif.Materials.C30_clockwise_deviation",
    "Verif.Materials.C30_single",
    "Verif.Materials.C30_errors",
    "Verif.Materials.C30_extrude",
    "Verif.Materials.C30_extrude_from_corners",
    "Verif.Materials.C30_extrude_deviation"
   ],
   "note": "Clockwise corners are a deviation: the exact permutation is proved."
  },
  {
   "property": "C31",
   "status": "proved",
   "theorems": [
    "Verif.Params.C31_history",
    "Verif.Params.C31_frame",
    "Verif.Params.C31_threads",
    "Verif.Params.C31_threads_deviation"
   ],
   "note": "OMP/MKL variables are never honoured (deviation)."
  },
  {
   "property": "C32",
   "status": "proved",
   "theorems": [
    "Verif.Params.C32_from_speed",
    "Verif.Params.C32_inverse",
    "Verif.Params.C32_room",
    "Verif.Params.C32_air",
    "Verif.Params.C32_air_rows"
   ],
   "note": "Formulas over the reals."
  },
  {
   "property": "C33",
   "status": "proved",
   "theorems": [
    "Verif.Bands.C33_wellformed",
    "Verif.Bands.C33_node",
    "Verif.Bands.C33_affine",
    "Verif.Bands.C33_between",
    "Verif.Bands.C33_order",
    "Verif.Bands.C33_idempotent",
    "Verif.Bands.C33_single",
    "Verif.Bands.C33_default",
    "Verif.Bands.C33_deviation"
   ],
   "note": "Single-element arrays and plain numbers are deviations."
  },
  {
   "property": "C34",
   "status": "proved",
   "theorems": [
    "Verif.Bands.C34_sum",
    "Verif.Bands.C34_range",
    "Verif.Bands.C34_support",
    "Verif.Bands.C34_lossless",
    "Verif.Bands.C34_synthesis",
    "Verif.Bands.C34_octaves",
    "Verif.Bands.C34_one_band_deviation"
   ],
   "note": "Linear phase filters; the minimum phase option is not modelled."
  },
  {
   "property": "C35",
   "status": "proved",
   "theorems": [
    "Verif.Reverb.C35_roundtrip",
    "Verif.Reverb.C35_refused",
    "Verif.Reverb.C35_decreasing",
    "Verif.Reverb.C35_eyring",
    "Verif.Reverb.C35_eyring_air_deviation",
    "Verif.Reverb.C35_two_dim_deviation",
    "Verif.Reverb.C35_order_two_dim",
    "Verif.Reverb.C35_order_deviation"
   ],
   "note": "Includes proved deviations for 2-D rooms, the order in 3-D and the air term of Eyring's formula."
  },
  {
   "property": "C36",
   "status": "proved",
   "theorems": [
    "Verif.Reverb.C36_sabine",
    "Verif.Reverb.C36_bands",
    "Verif.Reverb.C36_air_deviation",
    "Verif.Reverb.C36_air_too_short",
    "Verif.Reverb.C36_shoebox"
   ],
   "note": "Exact formula with air absorption proved as deviation."
  },
  {
   "property": "C37",
   "status": "proved",
   "theorems": [
    "Verif.Simulate.C37_sum",
    "Verif.Simulate.C37_no_truncation",
    "Verif.Simulate.C37_noise",
    "Verif.Simulate.C37_refused",
    "Verif.Simulate.C37_no_signal_deviation",
    "Verif.Simulate.C37_negative_delay_deviation",
    "Verif.Simulate.C37_empty_signal_deviation"
   ],
   "note": "fftconvolve is the exact full convolution; recording with another sampling frequency is not modelled."
  },
  {
   "property": "C38",
   "status": "proved",
   "theorems": [
    "Verif.Simulate.C38_snr",
    "Verif.Simulate.C38_silent_deviation",
    "Verif.Simulate.C38_sticky_deviation"
   ],
   "note": "Random numbers are an argument."
  },
  {
   "property": "C39",
   "status": "proved",
   "theorems": [
    "Verif.RirState.C39_first",
    "Verif.RirState.C39_refresh",
    "Verif.RirState.C39_add_source_deviation",
    "Verif.RirState.C39_add_mic_deviation",
    "Verif.RirState.C39_options_deviation",
    "Verif.RirState.C39_late_ray_tracing_deviation",
    "Verif.RirState.C39_simulate_deviation",
    "Verif.RirState.C39_shared_source_deviation"
   ],
   "note": "The simulations are parameters of the model; random displacement of images not modelled."
  },
  {
   "property": "C40",
   "status": "proved",
   "theorems": [
    "Verif.Mics.C40_sync",
    "Verif.Mics.C40_init",
    "Verif.Mics.C40_order",
    "Verif.Mics.C40_same_object_deviation",
    "Verif.Mics.C40_append_deviation",
    "Verif.Mics.C40_shared_deviation",
    "Verif.Mics.C40_extrude_deviation"
   ],
   "note": "Heap of array objects."
  },
  {
   "property": "C41",
   "status": "proved",
   "theorems": [
    "Verif.Mics.C41_consistent",
    "Verif.Mics.C41_append",
    "Verif.Mics.C41_self_append_deviation",
    "Verif.Mics.C41_center",
    "Verif.Mics.C41_center_deviation"
   ],
   "note": "Heap of array objects."
  },
  {
   "property": "C42",
   "status": "proved",
   "theorems": [
    "Verif.Peaks.C42_peaks",
    "Verif.Peaks.C42_distance",
    "Verif.Peaks.C42_distance_deviation"
   ],
   "note": "Every sequence with NaN allowed, every parameter, every order in which argsort leaves equal heights. Plot not modelled."
  },
  {
   "property": "C43",
   "status": "proved",
   "theorems": [
    "Verif.Peaks.C43_circle",
    "Verif.Peaks.C43_maximum",
    "Verif.Peaks.C43_constant",
    "Verif.Peaks.C43_zero_deviation"
   ],
   "note": "Any number of points, real values, any correct argsort."
  },
  {
   "property": "C44",
   "status": "proved",
   "theorems": [
    "Verif.Peaks.C44_sphere",
    "Verif.Peaks.C44_maximum",
    "Verif.Peaks.C44_neighbors",
    "Verif.Peaks.C44_zero_deviation"
   ],
   "note": "Any neighbour lists; the hull (scipy) is an argument, its triangles give the neighbours."
  },
  {
   "property": "C45",
   "status": "proved",
   "theorems": [
    "Verif.Angles.C45_round_trip",
    "Verif.Angles.C45_angles",
    "Verif.Angles.C45_options"
   ],
   "note": "Exact reals; arctan2 is the argument of a complex number (signed zeros not modelled)."
  },
  {
   "property": "C46",
   "status": "proved",
   "theorems": [
    "Verif.Doa.C46_init",
    "Verif.Doa.C46_lazy",
    "Verif.Doa.C46_far",
    "Verif.Doa.C46_near",
    "Verif.Doa.C46_near_deviation",
    "Verif.Doa.C46_short_deviation",
    "Verif.Doa.C46_lists_deviation"
   ],
   "note": "Indexing and broadcasting of numpy are modelled; slices are given by the positions they select."
  },
  {
   "property": "C47",
   "status": "proved",
   "theorems": [
    "Verif.Doa.C47_bins",
    "Verif.Doa.C47_explicit",
    "Verif.Doa.C47_default",
    "Verif.Doa.C47_shrink_deviation",
    "Verif.Doa.C47_all_peaks_deviation",
    "Verif.Doa.C47_freq_hz_deviation",
    "Verif.Doa.C47_near_deviation",
    "Verif.Doa.C47_distances_deviation"
   ],
   "note": "The algorithms are functions from bins and number of sources to spectra; CSSM, WAVES and FRIDA change bins or peaks themselves and are not covered."
  },
  {
   "property": "C48",
   "status": "proved",
   "theorems": [
    "Verif.Dataset.C48_info",
    "Verif.Dataset.C48_filter",
    "Verif.Dataset.C48_missing",
    "Verif.Dataset.C48_unhashable_deviation"
   ],
   "note": "every history of additions and every filter"
  },
  {
   "property": "C49",
   "status": "proved",
   "theorems": [
    "Verif.Denoise.C49_gain",
    "Verif.Denoise.C49_bounds",
    "Verif.Denoise.C49_range",
    "Verif.Denoise.C49_silence_deviation",
    "Verif.Denoise.C49_start"
   ],
   "note": "every stream of spectra"
  },
  {
   "property": "C50",
   "status": "proved",
   "theorems": [
    "Verif.Denoise.C50_signal",
    "Verif.Denoise.C50_average",
    "Verif.Denoise.C50_noise",
    "Verif.Denoise.C50_count_deviation"
   ],
   "note": "every signal, any number of blocks"
  },
  {
   "property": "C51",
   "status": "proved",
   "theorems": [
    "Verif.Bss.C51_best",
    "Verif.Bss.C51_bounds",
    "Verif.Bss.C51_best_within",
    "Verif.Bss.C51_zero_deviation",
    "Verif.Bss.C51_conflict"
   ],
   "note": "against every other scale"
  },
  {
   "property": "C52",
   "status": "proved",
   "theorems": [
    "Verif.Directivity.C52_order",
    "Verif.Directivity.C52_errors",
    "Verif.Directivity.C52_rigid",
    "Verif.Directivity.C52_shape_deviation"
   ],
   "note": "every list of angles, order and set of points"
  },
  {
   "property": "C53",
   "status": "proved",
   "theorems": [
    "Verif.Directivity.C53_cartesian",
    "Verif.Directivity.C53_angular",
    "Verif.Directivity.C53_errors",
    "Verif.Directivity.C53_bounds",
    "Verif.Directivity.C53_energy",
    "Verif.Directivity.C53_rays",
    "Verif.Directivity.C53_magnitude_deviation",
    "Verif.Directivity.C53_orientation_deviation"
   ],
   "note": "every orientation, direction, parameter and gain"
  },
  {
   "property": "C54",
   "status": "proved",
   "theorems": [
    "Verif.Random.C54_samples",
    "Verif.Random.C54_efficiency",
    "Verif.Random.C54_ends",
    "Verif.Random.C54_endless_deviation",
    "Verif.Random.C54_saturation_deviation",
    "Verif.Random.C54_zero_deviation"
   ],
   "note": "every stream of random numbers and requested size"
  },
  {
   "property": "C55",
   "status": "proved",
   "theorems": [
    "Verif.Directivity.C55_acn"
   ],
   "note": "every degree"
  },
  {
   "property": "C56",
   "status": "proved",
   "theorems": [
    "Verif.Rays.C56_ends",
    "Verif.Rays.C56_log",
    "Verif.Rays.C56_decay",
    "Verif.Rays.C56_scattered",
    "Verif.Rays.C56_creation_deviation",
    "Verif.Rays.C56_threshold_deviation"
   ],
   "note": "every room, every stream of random numbers; exact arithmetic"
  },
  {
   "property": "C57",
   "status": "proved",
   "theorems": [
    "Verif.Shoebox.C57_departure_direction"
   ],
   "note": "before normalisation"
  },
  {
   "property": "C58",
   "status": "proved",
   "theorems": [
    "Verif.RirBuilder.C58_fractional_delay_row",
    "Verif.RirBuilder.C58_delay_above_one_reads_outside"
   ],
   "note": ""
  },
  {
   "property": "C59",
   "status": "proved",
   "theorems": [
    "Verif.RirBuilder.C59_cython_builder_agrees"
   ],
   "note": ""
  },
  {
   "property": "C60",
   "status": "proved",
   "theorems": [
    "Verif.STFT.C60_offline",
    "Verif.STFT.C60_fixed_refuses"
   ],
   "note": ""
  },
  {
   "property": "C61",
   "status": "proved",
   "theorems": [
    "Verif.Toeplitz.C61_strang",
    "Verif.Toeplitz.C61_single_deviation"
   ],
   "note": ""
  },
  {
   "property": "C62",
   "status": "proved",
   "theorems": [
    "Verif.Sync.C62_time_align",
    "Verif.Sync.C62_short_deviation"
   ],
   "note": "real arithmetic"
  },
  {
   "property": "C63",
   "status": "proved",
   "theorems": [
    "Verif.LinPred.C63_lpc",
    "Verif.LinPred.C63_minimum_phase",
    "Verif.LinPred.C63_zero_deviation",
    "Verif.LinPred.C63_large_order_deviation"
   ],
   "note": "Biased autocorrelation (the default)."
  },
  {
   "property": "C64",
   "status": "proved",
   "theorems": [
    "Verif.Geometry.C64_scattered",
    "Verif.Geometry.C64_lambertian",
    "Verif.Geometry.C64_two_dim_deviation"
   ],
   "note": "3-D; the 2-D case reads uninitialised memory"
  },
  {
   "property": "C65",
   "status": "proved",
   "theorems": [
    "Verif.Geometry.C65_cos",
    "Verif.Geometry.C65_dist"
   ],
   "note": ""
  },
  {
   "property": "C66",
   "status": "proved",
   "theorems": [
    "Verif.Ism.C66_image",
    "Verif.Ism.C66_enumeration",
    "Verif.Ism.C66_sound2",
    "Verif.Ism.C66_sound3",
    "Verif.Ism.C66_shortest",
    "Verif.Ism.C66_path",
    "Verif.Ism.C66_direct",
    "Verif.Ism.C66_complete",
    "Verif.Ism.C66_obstructed",
    "Verif.Ism.C66_visible"
   ],
   "note": "visibility is decided exactly (outside of the tolerance) for 2-D rooms; for 3-D rooms soundness and the length of the path"
  },
  {
   "property": "C67",
   "status": "proved",
   "theorems": [
    "Verif.Materials.C67_wellformed",
    "Verif.Materials.C67_frame",
    "Verif.Materials.C67_values",
    "Verif.Materials.C67_mutation_deviation",
    "Verif.Materials.C67_array_deviation",
    "Verif.Materials.C67_resample"
   ],
   "note": "The constructor mutates the dictionary of the caller (deviation)."
  },
  {
   "property": "C68",
   "status": "proved",
   "theorems": [
    "Verif.Bands.C68_power",
    "Verif.Bands.C68_support",
    "Verif.Bands.C68_range",
    "Verif.Bands.C68_band",
    "Verif.Bands.C68_reconstruction",
    "Verif.Bands.C68_design",
    "Verif.Bands.C68_band_energy",
    "Verif.Bands.C68_energy",
    "Verif.Bands.C68_separated",
    "Verif.Bands.C68_class",
    "Verif.Bands.C68_default_deviation"
   ],
   "note": "Separation of the transitions is proved for base frequencies of at least 17.5 bins (26 for third octaves); the default 512-point filters violate it (deviation)."
  },
  {
   "property": "C69",
   "status": "proved",
   "theorems": [
    "Verif.IsmRir.C69_rir",
    "Verif.IsmRir.C69_bands",
    "Verif.IsmRir.C69_flat",
    "Verif.IsmRir.C69_even_refused",
    "Verif.IsmRir.C69_silent_deviation",
    "Verif.IsmRir.C69_obstructed_stale_deviation",
    "Verif.IsmRir.C69_obstructed_deviation",
    "Verif.IsmRir.C69_shoebox"
   ],
   "note": "Exact real arithmetic; directivities as gains (not impulse responses); the filters of the bands are a parameter. Uses the threaded builder of C10."
  },
  {
   "property": "C70",
   "status": "proved",
   "theorems": [
    "Verif.IsmRir.C70_reciprocity"
   ],
   "note": "For all bands, orders and air coefficients; omnidirectional source and microphone."
  },
  {
   "property": "C71",
   "status": "proved",
   "theorems": [
    "Verif.Angles.C71_circle",
    "Verif.Angles.C71_radius_deviation",
    "Verif.Angles.C71_sphere",
    "Verif.Angles.C71_pairing",
    "Verif.Angles.C71_single_deviation",
    "Verif.Angles.C71_greedy_deviation",
    "Verif.Angles.C71_fibonacci"
   ],
   "note": "Exact reals."
  },
  {
   "property": "C72",
   "status": "proved",
   "theorems": [
    "Verif.Rays.C72_shoebox",
    "Verif.Rays.C72_found",
    "Verif.Rays.C72_edge_deviation",
    "Verif.Rays.C72_general",
    "Verif.Rays.C72_obstruction"
   ],
   "note": "intersection with a wall is an arbitrary function"
  },
  {
   "property": "C73",
   "status": "proved",
   "theorems": [
    "Verif.Rays.C73_lambertian",
    "Verif.Rays.C73_front",
    "Verif.Rays.C73_back_deviation"
   ],
   "note": "every wall and stream"
  },
  {
   "property": "C74",
   "status": "proved",
   "theorems": [
    "Verif.Inside.C74_inside",
    "Verif.Inside.C74_outside",
    "Verif.Inside.C74_border",
    "Verif.Inside.C74_contains",
    "Verif.Inside.C74_contains_wall_deviation",
    "Verif.Inside.C74_shoebox",
    "Verif.Inside.C74_rectangle",
    "Verif.Inside.C74_exhausted_deviation",
    "Verif.Inside.C74_border3",
    "Verif.Inside.C74_contains_wall3_deviation"
   ],
   "note": "Simple polygons are those cut into disjoint counter-clockwise triangles by diagonals; points on these diagonals are left out. 3-D rooms: points on walls only."
  },
  {
   "property": "C75",
   "status": "proved",
   "theorems": [
    "Verif.Hmm.C75_loglikelihood",
    "Verif.Hmm.C75_filter",
    "Verif.Hmm.C75_gamma",
    "Verif.Hmm.C75_xhi",
    "Verif.Hmm.C75_marginals"
   ],
   "note": "Real numbers, no rounding; the density of the observations is arbitrary."
  },
  {
   "property": "C76",
   "status": "proved",
   "theorems": [
    "Verif.Hmm.C76_distributions",
    "Verif.Hmm.C76_monotone",
    "Verif.Hmm.C76_zeros",
    "Verif.Hmm.C76_ends",
    "Verif.Hmm.C76_result",
    "Verif.Hmm.C76_fit_zeros",
    "Verif.Hmm.C76_leftright",
    "Verif.Hmm.C76_fit",
    "Verif.Hmm.C76_no_limit_deviation",
    "Verif.Hmm.C76_short_deviation"
   ],
   "note": "CircularGaussianEmission; real numbers, no rounding."
  },
  {
   "property": "C77",
   "status": "proved",
   "theorems": [
    "Verif.Tail.C77_times",
    "Verif.Tail.C77_ends",
    "Verif.Tail.C77_first",
    "Verif.Tail.C77_zero_deviation",
    "Verif.Tail.C77_rate_deviation",
    "Verif.Tail.C77_drawn",
    "Verif.Tail.C77_drawn_energy",
    "Verif.Tail.C77_uniform",
    "Verif.Tail.C77_shift_deviation",
    "Verif.Tail.C77_weight",
    "Verif.Tail.C77_interp",
    "Verif.Tail.C77_interp_end_deviation",
    "Verif.Tail.C77_interp_small_deviation",
    "Verif.Tail.C77_rir",
    "Verif.Tail.C77_air",
    "Verif.Tail.C77_used",
    "Verif.Tail.C77_pulses",
    "Verif.Tail.C77_silent",
    "Verif.Tail.C77_energy"
   ],
   "note": "Real numbers, no rounding; the octave filters are an argument that keeps the length; interp1d with a single anchor (all energy in the first bin) is not modelled."
  },
  {
   "property": "C78",
   "status": "proved",
   "theorems": [
    "Verif.Rt60.C78_fit",
    "Verif.Rt60.C78_nonneg",
    "Verif.Rt60.C78_scale",
    "Verif.Rt60.C78_rate",
    "Verif.Rt60.C78_exact",
    "Verif.Rt60.C78_silent",
    "Verif.Rt60.C78_first_deviation",
    "Verif.Rt60.C78_steep_deviation"
   ],
   "note": "log-domain fit; plots and linear_domain_fit not modelled; exact real arithmetic"
  },
  {
   "property": "C79",
   "status": "proved",
   "theorems": [
    "Verif.Srp.C79_power",
    "Verif.Srp.C79_nonneg",
    "Verif.Srp.C79_bounds",
    "Verif.Srp.C79_wave",
    "Verif.Srp.C79_unique",
    "Verif.Srp.C79_gain",
    "Verif.Srp.C79_silence",
    "Verif.Srp.C79_single_deviation",
    "Verif.Srp.C79_empty_deviation"
   ],
   "note": "plane waves; exact complex arithmetic"
  },
  {
   "property": "C80",
   "status": "proved",
   "theorems": [
    "Verif.Music.C80_value",
    "Verif.Music.C80_lower",
    "Verif.Music.C80_subspace",
    "Verif.Music.C80_loop",
    "Verif.Music.C80_peaks",
    "Verif.Music.C80_many_deviation",
    "Verif.Music.C80_normalised"
   ],
   "note": "np.linalg.eigh is specified (IsEigh), not modelled; exact complex arithmetic"
  },
  {
   "property": "C81",
   "status": "proved",
   "theorems": [
    "Verif.Beam.C81_sinr",
    "Verif.Beam.C81_snr",
    "Verif.Beam.C81_forcing",
    "Verif.Beam.C81_default_deviation",
    "Verif.Beam.C81_rcond_deviation",
    "Verif.Beam.C81_delay",
    "Verif.Beam.C81_delay_one",
    "Verif.Beam.C81_far",
    "Verif.Beam.C81_attenuation_deviation",
    "Verif.Beam.C81_plane",
    "Verif.Beam.C81_several_deviation",
    "Verif.Beam.C81_mvdr",
    "Verif.Beam.C81_perceptual",
    "Verif.Beam.C81_perceptual_default_deviation",
    "Verif.Beam.C81_covariance_deviation"
   ],
   "note": "Weights at one frequency, filters for a given channel matrix; pinv and cho_solve as specified parameters."
  },
  {
   "property": "C82",
   "status": "proved",
   "theorems": [
    "Verif.AuxIva.C82_objective",
    "Verif.AuxIva.C82_background",
    "Verif.AuxIva.C82_normal",
    "Verif.AuxIva.C82_best",
    "Verif.AuxIva.C82_determined"
   ],
   "note": "Exact numbers; np.linalg.solve as the exact solution, singular matrices as an exception."
  },
  {
   "property": "C83",
   "status": "proved",
   "theorems": [
    "Verif.Ilrma.C83_source",
    "Verif.Ilrma.C83_pass",
    "Verif.Ilrma.C83_init",
    "Verif.Ilrma.C83_power",
    "Verif.Ilrma.C83_stale_deviation",
    "Verif.Ilrma.C83_column_deviation",
    "Verif.Ilrma.C83_total"
   ],
   "note": "Iterations of ilrma with as many sources as channels, exact arithmetic. Monotone as long as the floor on the products is not active; deviations for the scaling."
  },
  {
   "property": "C84",
   "status": "proved",
   "theorems": [
    "Verif.GriffinLim.C84_monotone",
    "Verif.GriffinLim.C84_end",
    "Verif.GriffinLim.C84_end_deviation",
    "Verif.GriffinLim.C84_known_phase",
    "Verif.GriffinLim.C84_no_overlap_deviation",
    "Verif.GriffinLim.C84_callback_deviation",
    "Verif.GriffinLim.C84_one_frame_deviation"
   ],
   "note": "griffin_lim on top of the model of STFT, exact arithmetic; the spectra must have no zero (otherwise the code computes NaN)."
  },
  {
   "property": "C85",
   "status": "proved",
   "theorems": [
    "Verif.Hull.C85_flat",
    "Verif.Hull.C85_only_listed",
    "Verif.Hull.C85_inner",
    "Verif.Hull.C85_tests",
    "Verif.Hull.C85_single"
   ],
   "note": "scipy ConvexHull is a parameter with the specification IsHull; numbers without rounding; a first wall with corners of its own is outside the hypotheses (the code leaves the first wall out of the hull)"
  },
  {
   "property": "C86",
   "status": "proved",
   "theorems": [
    "Verif.BeamProc.C86_time",
    "Verif.BeamProc.C86_frequency",
    "Verif.BeamProc.C86_frames",
    "Verif.BeamProc.C86_weights",
    "Verif.BeamProc.C86_response",
    "Verif.BeamProc.C86_short",
    "Verif.BeamProc.C86_lengths",
    "Verif.BeamProc.C86_delay_deviation",
    "Verif.BeamProc.C86_stale_deviation",
    "Verif.BeamProc.C86_join_deviation",
    "Verif.BeamProc.C86_one_channel_deviation",
    "Verif.BeamProc.C86_one_frame_deviation",
    "Verif.BeamProc.C86_wrap_deviation"
   ],
   "note": "numpy lstsq is a parameter that minimises (existence shown); numbers without rounding; the channels of the transform are modelled as independent objects"
  },
  {
   "property": "C87",
   "status": "proved",
   "theorems": [
    "Verif.Sphere.C87_circle",
    "Verif.Sphere.C87_circle_error",
    "Verif.Sphere.C87_half_deviation",
    "Verif.Sphere.C87_few",
    "Verif.Sphere.C87_three",
    "Verif.Sphere.C87_three_deviation",
    "Verif.Sphere.C87_shape",
    "Verif.Sphere.C87_small_circle_deviation",
    "Verif.Sphere.C87_integral",
    "Verif.Sphere.C87_histogram",
    "Verif.Sphere.C87_histogram_runs"
   ],
   "note": "SphericalVoronoi, the singular value decomposition, argsort and the k-d tree are parameters with a specification; areas on the sphere are measured in the area preserving coordinates longitude and height; numbers without rounding"
  },
  {
   "property": "C88",
   "status": "proved",
   "theorems": [
    "Verif.Measured.C88_response",
    "Verif.Measured.C88_rotation",
    "Verif.Measured.C88_orientation",
    "Verif.Measured.C88_angles",
    "Verif.Measured.C88_colatitude_deviation",
    "Verif.Measured.C88_energy",
    "Verif.Measured.C88_rays",
    "Verif.Measured.C88_random_rays",
    "Verif.Measured.C88_bands",
    "Verif.Measured.C88_file",
    "Verif.Measured.C88_position",
    "Verif.Measured.C88_unknown",
    "Verif.Measured.C88_labels",
    "Verif.Measured.C88_subclass_deviation",
    "Verif.Measured.C88_base_deviation"
   ],
   "note": "Search of the k-d tree as a function that finds a nearest point; octave band energies, areas of the cells and spherical interpolation are parameters; exact reals."
  },
  {
   "property": "C89",
   "status": "proved",
   "theorems": [
    "Verif.Engine.C89_options",
    "Verif.Engine.C89_ray_tracing",
    "Verif.Engine.C89_short_bin_deviation",
    "Verif.Engine.C89_slow_deviation",
    "Verif.Engine.C89_bins",
    "Verif.Engine.C89_bins_deviation",
    "Verif.Engine.C89_broadcast",
    "Verif.Engine.C89_broadcast_deviation",
    "Verif.Engine.C89_first_band_deviation",
    "Verif.Engine.C89_memory",
    "Verif.Engine.C89_copy_deviation"
   ],
   "note": "Exact reals for float; trees as numbers never used again; growth of std::vector is a parameter; histories of the engine are calls made from Python."
  },
  {
   "property": "C90",
   "status": "proved",
   "theorems": [
    "Verif.Spherical.C90_shapes",
    "Verif.Spherical.C90_uniform",
    "Verif.Spherical.C90_uniform_density",
    "Verif.Spherical.C90_parameters",
    "Verif.Spherical.C90_power",
    "Verif.Spherical.C90_power_density",
    "Verif.Spherical.C90_power_sample",
    "Verif.Spherical.C90_power_norm_deviation",
    "Verif.Spherical.C90_seed",
    "Verif.Spherical.C90_streams",
    "Verif.Spherical.C90_seed_deviation",
    "Verif.Spherical.C90_unseeded_deviation",
    "Verif.Spherical.C90_rng_deviation"
   ],
   "note": "Model of uniform_spherical, power_spherical, UniformSpherical, PowerSpherical and the seeding of both generators; laws proved with Mathlib's surface measure on the sphere."
  },
  {
   "property": "C91",
   "status": "proved",
   "theorems": [
    "Verif.IsmIr.C91_convolve",
    "Verif.IsmIr.C91_convolve_refused",
    "Verif.IsmIr.C91_rir",
    "Verif.IsmIr.C91_bands",
    "Verif.IsmIr.C91_gains",
    "Verif.IsmIr.C91_agree",
    "Verif.IsmIr.C91_flat",
    "Verif.IsmIr.C91_flat_antoni",
    "Verif.IsmIr.C91_flat_cosine_deviation"
   ],
   "note": "Exact real arithmetic; the discrete Fourier transform is the exact one of Verif/DFT. The interpolation of octave band filters to minimum phase is a parameter (the filters of the bank are given). C91_flat_cosine_deviation records that the trim is one sample too long for the filters of OctaveBandsFactory."
  },
  {
   "property": "C92",
   "status": "proved",
   "theorems": [
    "Verif.DftObj.C92_new",
    "Verif.DftObj.C92_analysis",
    "Verif.DftObj.C92_synthesis",
    "Verif.DftObj.C92_round_trip",
    "Verif.DftObj.C92_round_trip_frequency",
    "Verif.DftObj.C92_packages",
    "Verif.DftObj.C92_refused",
    "Verif.DftObj.C92_refused_synthesis",
    "Verif.DftObj.C92_input_overwritten_deviation",
    "Verif.DftObj.C92_integers_deviation",
    "Verif.DftObj.C92_answers_overwritten_deviation",
    "Verif.DftObj.C92_mono_axis_deviation",
    "Verif.DftObj.C92_one_sample_deviation",
    "Verif.DftObj.C92_precision"
   ],
   "note": "Exact arithmetic; memory is a heap of arrays so that the effects on the caller's arrays are visible. The exception for a missing axis (AxisError) is modelled as ValueError, of which it is a subclass."
  },
  {
   "property": "C93",
   "status": "proved",
   "theorems": [
    "Verif.Windows.C93_formulas",
    "Verif.Windows.C93_formulas_centred",
    "Verif.Windows.C93_halves",
    "Verif.Windows.C93_odd_halves_deviation",
    "Verif.Windows.C93_symmetric",
    "Verif.Windows.C93_asymmetric",
    "Verif.Windows.C93_symmetric_centred",
    "Verif.Windows.C93_overlap",
    "Verif.Windows.C93_hann_overlap",
    "Verif.Windows.C93_range",
    "Verif.Windows.C93_range_centred",
    "Verif.Windows.C93_cosine_deviation",
    "Verif.Windows.C93_mdct_deviation",
    "Verif.Windows.C93_ignored_deviation",
    "Verif.Windows.C93_bart_deviation",
    "Verif.Windows.C93_twice_divided_deviation",
    "Verif.Windows.C93_third_harmonic_deviation",
    "Verif.Windows.C93_one_sample_deviation"
   ],
   "note": "Exact reals; scipy.special.i0 is the power series of the Bessel function. Not-a-number results are modelled as none."
  },
  {
   "property": "C94",
   "status": "proved",
   "theorems": [
    "Verif.Metrics.C94_median",
    "Verif.Metrics.C94_median_empty",
    "Verif.Metrics.C94_small",
    "Verif.Metrics.C94_confidence",
    "Verif.Metrics.C94_sign_deviation",
    "Verif.Metrics.C94_large",
    "Verif.Metrics.C94_large_width",
    "Verif.Metrics.C94_refused",
    "Verif.Metrics.C94_mse_value",
    "Verif.Metrics.C94_mse",
    "Verif.Metrics.C94_snr_value",
    "Verif.Metrics.C94_snr",
    "Verif.Metrics.C94_flatness",
    "Verif.Metrics.C94_bin_labels_deviation"
   ],
   "note": "one-dimensional data; normal quantile as a parameter with its defining property; for large samples the coverage itself is asymptotic and not claimed; itakura_saito and pesq not modelled"
  },
  {
   "property": "C95",
   "status": "proved",
   "theorems": [
    "Verif.Levels.C95_to_float32",
    "Verif.Levels.C95_unsigned_deviation",
    "Verif.Levels.C95_to_16b",
    "Verif.Levels.C95_round_trip_deviation",
    "Verif.Levels.C95_clip",
    "Verif.Levels.C95_normalize",
    "Verif.Levels.C95_normalize_refused",
    "Verif.Levels.C95_normalize_pwr",
    "Verif.Levels.C95_mix",
    "Verif.Levels.C95_sources",
    "Verif.Levels.C95_refused",
    "Verif.Levels.C95_offset_deviation",
    "Verif.Levels.C95_exceeds_deviation"
   ],
   "note": "one channel; exact numbers; casts of numbers outside of 16 bits are not defined"
  },
  {
   "property": "C96",
   "status": "proved",
   "theorems": [
    "Verif.Prony.C96_prony",
    "Verif.Prony.C96_prony_matches",
    "Verif.Prony.C96_truncation_deviation",
    "Verif.Prony.C96_shanks",
    "Verif.Prony.C96_shanks_better"
   ],
   "note": "real signals; least squares routine as a parameter that minimises"
  },
  {
   "property": "C97",
   "status": "proved",
   "theorems": [
    "Verif.Delays.C97_window",
    "Verif.Delays.C97_filter",
    "Verif.Delays.C97_low_pass_dirac",
    "Verif.Delays.C97_bank",
    "Verif.Delays.C97_bank_rows",
    "Verif.Delays.C97_bank_empty",
    "Verif.Delays.C97_resample",
    "Verif.Delays.C97_resample_refused",
    "Verif.Delays.C97_fractional_rate_deviation"
   ],
   "note": "libraries are arguments working on one channel at a time"
  },
  {
   "property": "C98",
   "status": "proved",
   "theorems": [
    "Verif.SoundSrc.C98_new",
    "Verif.SoundSrc.C98_optional_arguments_deviation",
    "Verif.SoundSrc.C98_slice",
    "Verif.SoundSrc.C98_image_source_model_deviation",
    "Verif.SoundSrc.C98_integer_deviation",
    "Verif.SoundSrc.C98_nearest",
    "Verif.SoundSrc.C98_strongest_deviation",
    "Verif.SoundSrc.C98_list",
    "Verif.SoundSrc.C98_get_images",
    "Verif.SoundSrc.C98_flat_point_deviation",
    "Verif.SoundSrc.C98_get_damping",
    "Verif.SoundSrc.C98_wall_sequence_deviation",
    "Verif.SoundSrc.C98_matrix"
   ],
   "note": "slices without a step; numbers exact"
  },
  {
   "property": "C99",
   "status": "proved",
   "theorems": [
    "Verif.Wiener.C99_gain",
    "Verif.Wiener.C99_integral_deviation",
    "Verif.Wiener.C99_psd",
    "Verif.Wiener.C99_frame",
    "Verif.Wiener.C99_speech",
    "Verif.Wiener.C99_length",
    "Verif.Wiener.C99_frames",
    "Verif.Wiener.C99_optimal",
    "Verif.Wiener.C99_refused",
    "Verif.Wiener.C99_scale_deviation",
    "Verif.Wiener.C99_hidden_frame_deviation"
   ],
   "note": "Numbers that are not finite are modelled as none; exact reals."
  },
  {
   "property": "C100",
   "status": "proved",
   "theorems": [
    "Verif.Subband.C100_update",
    "Verif.Subband.C100_no_taps",
    "Verif.Subband.C100_posterior",
    "Verif.Subband.C100_run",
    "Verif.Subband.C100_identification",
    "Verif.Subband.C100_lms",
    "Verif.Subband.C100_bands"
   ],
   "note": "Exact complex numbers for complex64."
  },
  {
   "property": "C101",
   "status": "proved",
   "theorems": [
    "Verif.Cloud.C101_edm",
    "Verif.Cloud.C101_mds",
    "Verif.Cloud.C101_mds_repeated_deviation",
    "Verif.Cloud.C101_from_edm",
    "Verif.Cloud.C101_trilateration_deviation",
    "Verif.Cloud.C101_labels",
    "Verif.Cloud.C101_normalize2",
    "Verif.Cloud.C101_normalize3",
    "Verif.Cloud.C101_normalize_axis_deviation",
    "Verif.Cloud.C101_few_references",
    "Verif.Cloud.C101_axis_type_deviation",
    "Verif.Cloud.C101_center",
    "Verif.Cloud.C101_align",
    "Verif.Cloud.C101_align2",
    "Verif.Cloud.C101_align_axis_deviation",
    "Verif.Cloud.C101_align_collapse_deviation",
    "Verif.Cloud.C101_unicode_deviation",
    "Verif.Cloud.C101_doa",
    "Verif.Cloud.C101_flatten",
    "Verif.Cloud.C101_flatten_small_deviation"
   ],
   "note": "Exact arithmetic; eig, svd and argsort are parameters with their specification."
  },
  {
   "property": "C102",
   "status": "proved",
   "theorems": [
    "Verif.Locate.C102_tdoa_loc",
    "Verif.Locate.C102_equal_times_deviation",
    "Verif.Locate.C102_dropped_deviation",
    "Verif.Locate.C102_search",
    "Verif.Locate.C102_search_four_deviation",
    "Verif.Locate.C102_search_three_deviation",
    "Verif.Locate.C102_tdoa_range",
    "Verif.Locate.C102_tdoa_error",
    "Verif.Locate.C102_tdoa_correlation",
    "Verif.Locate.C102_tdoa_delay",
    "Verif.Locate.C102_tdoa_alias_deviation",
    "Verif.Locate.C102_tdoa_zero_deviation",
    "Verif.Locate.C102_tdoa_interp_deviation"
   ],
   "note": "lstsq returns the minimum norm solution, eigh the eigenvalues of a basis of eigenvectors; exact numbers"
  },
  {
   "property": "C103",
   "status": "proved",
   "theorems": [
    "Verif.Deconv.C103_errors",
    "Verif.Deconv.C103_bins",
    "Verif.Deconv.C103_exact",
    "Verif.Deconv.C103_noise",
    "Verif.Deconv.C103_wiener",
    "Verif.Deconv.C103_wiener_exact",
    "Verif.Deconv.C103_wiener_zero_deviation"
   ],
   "note": "exact numbers; single precision not modelled"
  },
  {
   "property": "C104",
   "status": "proved",
   "theorems": [
    "Verif.Sweep.C104_measure",
    "Verif.Sweep.C104_measure_exact",
    "Verif.Sweep.C104_measure_deviation",
    "Verif.Sweep.C104_window",
    "Verif.Sweep.C104_window_deviation",
    "Verif.Sweep.C104_exponential",
    "Verif.Sweep.C104_linear",
    "Verif.Sweep.C104_fade",
    "Verif.Sweep.C104_band",
    "Verif.Sweep.C104_equal_deviation",
    "Verif.Sweep.C104_empty_deviation"
   ],
   "note": "exact numbers; the device is a parameter"
  },
  {
   "property": "C105",
   "status": "proved",
   "theorems": [
    "Verif.Calib.C105_exact",
    "Verif.Calib.C105_deviation"
   ],
   "note": "the device and the sequence are parameters"
  },
  {
   "property": "C106",
   "status": "proved",
   "theorems": [
    "Verif.Cssm.C106_signals",
    "Verif.Cssm.C106_start",
    "Verif.Cssm.C106_left_out_deviation",
    "Verif.Cssm.C106_waves_many",
    "Verif.Cssm.C106_focus",
    "Verif.Cssm.C106_focus_error",
    "Verif.Cssm.C106_reference",
    "Verif.Cssm.C106_cssm",
    "Verif.Cssm.C106_waves"
   ],
   "note": "Exact arithmetic; the routines for eigenvectors, singular vectors and peaks are specified. The mix-up of bands after one is left out is proved as a deviation."
  },
  {
   "property": "C107",
   "status": "proved",
   "theorems": [
    "Verif.Tops.C107_error",
    "Verif.Tops.C107_test",
    "Verif.Tops.C107_sources",
    "Verif.Tops.C107_index_deviation",
    "Verif.Tops.C107_last_deviation"
   ],
   "note": "Exact arithmetic; routines for eigenvectors and singular values specified. The wrong index and the wrong band left out are proved as deviations."
  },
  {
   "property": "C108",
   "status": "proved",
   "theorems": [
    "Verif.FastMnmf.C108_basis",
    "Verif.FastMnmf.C108_activations",
    "Verif.FastMnmf.C108_diagonals",
    "Verif.FastMnmf.C108_row",
    "Verif.FastMnmf.C108_wiener",
    "Verif.FastMnmf.C108_sum",
    "Verif.FastMnmf.C108_normalize",
    "Verif.FastMnmf.C108_sources",
    "Verif.FastMnmf.C108_run",
    "Verif.FastMnmf.C108_images",
    "Verif.FastMnmf.C108_given_deviation",
    "Verif.FastMnmf.C108_row_deviation"
   ],
   "note": "Wiener estimates, sum of the images, no failure, descent of every multiplicative update, bound for the row update, normalization"
  },
  {
   "property": "C109",
   "status": "proved",
   "theorems": [
    "Verif.FastMnmf2.C109_wiener",
    "Verif.FastMnmf2.C109_sum",
    "Verif.FastMnmf2.C109_basis",
    "Verif.FastMnmf2.C109_accelerate_deviation",
    "Verif.FastMnmf2.C109_diagonals",
    "Verif.FastMnmf2.C109_row",
    "Verif.FastMnmf2.C109_normalize",
    "Verif.FastMnmf2.C109_diagonalizer",
    "Verif.FastMnmf2.C109_images",
    "Verif.FastMnmf2.C109_given_deviation"
   ],
   "note": "Wiener estimates, sum of the images, no failure, descent of the updates of basis, diagonals and diagonalizer, accelerate without effect"
  },
  {
   "property": "C110",
   "status": "proved",
   "theorems": [
    "Verif.MinPhase.C110_raises",
    "Verif.MinPhase.C110_odd",
    "Verif.MinPhase.C110_unique",
    "Verif.MinPhase.C110_even_deviation",
    "Verif.MinPhase.C110_nyquist_deviation"
   ],
   "note": "scipy.signal.hilbert is modelled by its definition; eps > 0"
  },
  {
   "property": "C111",
   "status": "proved",
   "theorems": [
    "Verif.Mel.C111_scale",
    "Verif.Mel.C111_bank",
    "Verif.Mel.C111_support",
    "Verif.Mel.C111_partition",
    "Verif.Mel.C111_area",
    "Verif.Mel.C111_reversed",
    "Verif.Mel.C111_empty_deviation"
   ],
   "note": "exact reals; mfcc (always raises) is not modelled"
  },
  {
   "property": "C112",
   "status": "proved",
   "theorems": [
    "Verif.Bark.C112_tiles",
    "Verif.Bark.C112_cover",
    "Verif.Bark.C112_critical",
    "Verif.Bark.C112_table",
    "Verif.Bark.C112_critical_tiles",
    "Verif.Bark.C112_raises",
    "Verif.Bark.C112_dct_deviation",
    "Verif.Bark.C112_odd_deviation"
   ],
   "note": "exact reals; np.around and the conversion to int are modelled by their definitions"
  },
  {
   "property": "C113",
   "status": "proved",
   "theorems": [
    "Verif.RealHarm.C113_raises",
    "Verif.RealHarm.C113_standard",
    "Verif.RealHarm.C113_orthonormal",
    "Verif.RealHarm.C113_phase_deviation",
    "Verif.RealHarm.C113_phase_energy_deviation",
    "Verif.RealHarm.C113_response"
   ],
   "note": "Complex harmonics are a parameter; their orthonormality is a hypothesis, met by an example on three points"
  },
  {
   "property": "C114",
   "status": "proved",
   "theorems": [
    "Verif.RegGrid.C114_sound",
    "Verif.RegGrid.C114_complete",
    "Verif.RegGrid.C114_raises"
   ],
   "note": "Both directions"
  },
  {
   "property": "C115",
   "status": "proved",
   "theorems": [
    "Verif.SphInterp.C115_basis",
    "Verif.SphInterp.C115_weights",
    "Verif.SphInterp.C115_cell",
    "Verif.SphInterp.C115_raises",
    "Verif.SphInterp.C115_linear",
    "Verif.SphInterp.C115_exact"
   ],
   "note": "Complex harmonics by their conjugation symmetry, pinv by a singular value decomposition; one slice of the array"
  },
  {
   "property": "C116",
   "status": "proved",
   "theorems": [
    "Verif.Sparir.C116_residual",
    "Verif.Sparir.C116_gradient",
    "Verif.Sparir.C116_upper_deviation",
    "Verif.Sparir.C116_soft_deviation",
    "Verif.Sparir.C116_soft_single",
    "Verif.Sparir.C116_start"
   ],
   "note": "Default weights and initialisation"
  },
  {
   "property": "C117",
   "status": "proved",
   "theorems": [
    "Verif.SparseIva.C117_update",
    "Verif.SparseIva.C117_selected",
    "Verif.SparseIva.C117_output",
    "Verif.SparseIva.C117_silent_deviation",
    "Verif.SparseIva.C117_projection"
   ],
   "note": "Two channels; the solver is exact; sparir is the model of C116"
  },
  {
   "property": "C118",
   "status": "proved",
   "theorems": [
    "Verif.Frida.C118_visibilities",
    "Verif.Frida.C118_amplitudes",
    "Verif.Frida.C118_normalised",
    "Verif.Frida.C118_cleaning",
    "Verif.Frida.C118_image",
    "Verif.Frida.C118_azimuth",
    "Verif.Frida.C118_equal_deviation"
   ],
   "note": "eigh as a parameter with its specification; exact arithmetic"
  },
  {
   "property": "C119",
   "status": "proved",
   "theorems": [
    "Verif.FriAlg.C119_real",
    "Verif.FriAlg.C119_sequence",
    "Verif.FriAlg.C119_filter",
    "Verif.FriAlg.C119_dual",
    "Verif.FriAlg.C119_half",
    "Verif.FriAlg.C119_annihilate",
    "Verif.FriAlg.C119_recover"
   ],
   "note": "np.roots as the multiset of roots of the polynomial; exact arithmetic"
  },
  {
   "property": "C120",
   "status": "proved",
   "theorems": [
    "Verif.FriOpt.C120_fit",
    "Verif.FriOpt.C120_sequence",
    "Verif.FriOpt.C120_objective",
    "Verif.FriOpt.C120_step",
    "Verif.FriOpt.C120_error",
    "Verif.FriOpt.C120_best",
    "Verif.FriOpt.C120_fails",
    "Verif.FriOpt.C120_exact",
    "Verif.FriOpt.C120_found",
    "Verif.FriOpt.C120_fewer_deviation"
   ],
   "note": "exact arithmetic; linalg.solve and linalg.inv raise exactly for singular matrices"
  },
  {
   "property": "C121",
   "status": "proved",
   "theorems": [
    "Verif.FriRecon.C121_matrix",
    "Verif.FriRecon.C121_update",
    "Verif.FriRecon.C121_fixed",
    "Verif.FriRecon.C121_amplitudes",
    "Verif.FriRecon.C121_result",
    "Verif.FriRecon.C121_exact",
    "Verif.FriRecon.C121_nnls_deviation"
   ],
   "note": "visibilities; update exact, fixed point, best of all turns; nnls on normal equations is a deviation"
  },
  {
   "property": "C122",
   "status": "proved",
   "theorems": [
    "Verif.Trinicon.C122_output",
    "Verif.Trinicon.C122_initial",
    "Verif.Trinicon.C122_symmetry",
    "Verif.Trinicon.C122_fixed",
    "Verif.Trinicon.C122_causal",
    "Verif.Trinicon.C122_covered",
    "Verif.Trinicon.C122_padding_deviation",
    "Verif.Trinicon.C122_block_deviation"
   ],
   "note": "exact arithmetic; padding and block length deviations"
  },
  {
   "property": "C123",
   "status": "proved",
   "theorems": [
    "Verif.Timit.C123_phonems",
    "Verif.Timit.C123_words",
    "Verif.Timit.C123_samples",
    "Verif.Timit.C123_overlap_deviation",
    "Verif.Timit.C123_blank_deviation",
    "Verif.Timit.C123_mono",
    "Verif.Timit.C123_multi",
    "Verif.Timit.C123_byteorder_deviation",
    "Verif.Timit.C123_selection",
    "Verif.Timit.C123_corpus",
    "Verif.Timit.C123_speakers_deviation"
   ],
   "note": "Text, plots and features are not modelled; the parsing of numbers is a parameter."
  },
  {
   "property": "C124",
   "status": "proved",
   "theorems": [
    "Verif.Arrays.C124_linear",
    "Verif.Arrays.C124_square",
    "Verif.Arrays.C124_circular",
    "Verif.Arrays.C124_single_deviation",
    "Verif.Arrays.C124_outward",
    "Verif.Arrays.C124_rotation_deviation",
    "Verif.Arrays.C124_degrees_deviation",
    "Verif.Arrays.C124_poisson",
    "Verif.Arrays.C124_spiral",
    "Verif.Arrays.C124_spiral_inside",
    "Verif.Arrays.C124_steering",
    "Verif.Arrays.C124_attenuation",
    "Verif.Arrays.C124_far_field",
    "Verif.Arrays.C124_response",
    "Verif.Arrays.C124_delay_and_sum"
   ],
   "note": "weights_from_filters and the random draws are parameters."
  },
  {
   "property": "C125",
   "status": "proved",
   "theorems": [
    "Verif.OctBands.C125_octaves",
    "Verif.OctBands.C125_start_deviation",
    "Verif.OctBands.C125_count",
    "Verif.OctBands.C125_bandwidth",
    "Verif.OctBands.C125_bandwidth_deviation",
    "Verif.OctBands.C125_antoni",
    "Verif.OctBands.C125_energy_deviation",
    "Verif.OctBands.C125_binning",
    "Verif.OctBands.C125_interpolate",
    "Verif.OctBands.C125_interpolate_synthesis"
   ],
   "note": "The minimum phase branch of interpolate_octave_bands is not modelled."
  },
  {
   "property": "C126",
   "status": "proved",
   "theorems": [
    "Verif.Grids.C126_set_values",
    "Verif.Grids.C126_circle",
    "Verif.Grids.C126_sphere_angles",
    "Verif.Grids.C126_sphere_points",
    "Verif.Grids.C126_sphere_default",
    "Verif.Grids.C126_sphere_shape",
    "Verif.Grids.C126_distances",
    "Verif.Grids.C126_regrid",
    "Verif.Grids.C126_regrid_deviation"
   ],
   "note": "The convex hull behind the neighbours (C44) and the interpolation routine of scipy are parameters."
  },
  {
   "property": "C127",
   "status": "proved",
   "theorems": [
    "Verif.Corpora.C127_subset",
    "Verif.Corpora.C127_google",
    "Verif.Corpora.C127_noise_type_deviation",
    "Verif.Corpora.C127_google_filter",
    "Verif.Corpora.C127_arctic",
    "Verif.Corpora.C127_speakers",
    "Verif.Corpora.C127_arctic_samples",
    "Verif.Corpora.C127_stale_deviation",
    "Verif.Corpora.C127_function_deviation",
    "Verif.Corpora.C127_tag",
    "Verif.Corpora.C127_meta"
   ],
   "note": "Downloads, reading of the sound files and the info dictionary (C48) are not modelled here."
  },
  {
   "property": "C128",
   "status": "proved",
   "theorems": [
    "Verif.RoomInfo.C128_wall_by_name",
    "Verif.RoomInfo.C128_wall_missing",
    "Verif.RoomInfo.C128_bbox",
    "Verif.RoomInfo.C128_bbox_empty",
    "Verif.RoomInfo.C128_bbox_hull",
    "Verif.RoomInfo.C128_anechoic",
    "Verif.RoomInfo.C128_anechoic_empty",
    "Verif.RoomInfo.C128_anechoic_deviation",
    "Verif.RoomInfo.C128_snr",
    "Verif.RoomInfo.C128_snr_deviation",
    "Verif.RoomInfo.C128_snr_type_deviation",
    "Verif.RoomInfo.C128_snr_errors",
    "Verif.RoomInfo.C128_add_frame",
    "Verif.RoomInfo.C128_add_coords",
    "Verif.RoomInfo.C128_add_object",
    "Verif.RoomInfo.C128_add_refused",
    "Verif.RoomInfo.C128_add_deviation",
    "Verif.RoomInfo.C128_add_object_deviation",
    "Verif.RoomInfo.C128_air",
    "Verif.RoomInfo.C128_air_deviation",
    "Verif.RoomInfo.C128_air_flag"
   ],
   "note": "All parts proved; five deviations proved as theorems."
  },
  {
   "property": "C129",
   "status": "proved",
   "theorems": [
    "Verif.Extent.C129_value",
    "Verif.Extent.C129_bound",
    "Verif.Extent.C129_exit",
    "Verif.Extent.C129_none",
    "Verif.Extent.C129_direction",
    "Verif.Extent.C129_direction_2d",
    "Verif.Extent.C129_direction_error",
    "Verif.Extent.C129_pairs"
   ],
   "note": "All parts proved."
  },
  {
   "property": "C130",
   "status": "proved",
   "theorems": [
    "Verif.SofaRead.C130_elevation",
    "Verif.SofaRead.C130_colatitude",
    "Verif.SofaRead.C130_elevation_deviation",
    "Verif.SofaRead.C130_unit_deviation",
    "Verif.SofaRead.C130_formats",
    "Verif.SofaRead.C130_cartesian",
    "Verif.SofaRead.C130_errors",
    "Verif.SofaRead.C130_regroup",
    "Verif.SofaRead.C130_regroup_error",
    "Verif.SofaRead.C130_regroup_inverse",
    "Verif.SofaRead.C130_dirpat",
    "Verif.SofaRead.C130_dirpat_sources",
    "Verif.SofaRead.C130_dirpat_mics",
    "Verif.SofaRead.C130_labels",
    "Verif.SofaRead.C130_labels_used",
    "Verif.SofaRead.C130_rate",
    "Verif.SofaRead.C130_convention",
    "Verif.SofaRead.C130_one_unit"
   ],
   "note": "All parts proved; two deviations proved as theorems."
  },
  {
   "property": "C131",
   "status": "proved",
   "theorems": [
    "Verif.MaxUdr.C131_udr",
    "Verif.MaxUdr.C131_interference",
    "Verif.MaxUdr.C131_weights_value",
    "Verif.MaxUdr.C131_weights_optimal",
    "Verif.MaxUdr.C131_weights_deviation",
    "Verif.MaxUdr.C131_single_deviation",
    "Verif.MaxUdr.C131_filters",
    "Verif.MaxUdr.C131_filters_refused",
    "Verif.MaxUdr.C131_late_deviation"
   ],
   "note": "All parts proved; three deviations proved as theorems."
  },
  {
   "property": "C132",
   "status": "proved",
   "theorems": [
    "Verif.SaveWav.C132_normalized",
    "Verif.SaveWav.C132_mono_normalized",
    "Verif.SaveWav.C132_float",
    "Verif.SaveWav.C132_mono_float",
    "Verif.SaveWav.C132_plain",
    "Verif.SaveWav.C132_silence_deviation",
    "Verif.SaveWav.C132_zero_deviation",
    "Verif.SaveWav.C132_refused",
    "Verif.SaveWav.C132_clip"
   ],
   "note": "exact arithmetic; the file writer itself is not modelled"
  },
  {
   "property": "C133",
   "status": "proved",
   "theorems": [
    "Verif.Download.C133_files",
    "Verif.Download.C133_returns",
    "Verif.Download.C133_stops",
    "Verif.Download.C133_default_deviation",
    "Verif.Download.C133_pauses",
    "Verif.Download.C133_pause_deviation",
    "Verif.Download.C133_sofa",
    "Verif.Download.C133_sofa_deviation",
    "Verif.Download.C133_resolve"
   ],
   "note": "file system as a map; transfers that break off are not modelled"
  },
  {
   "property": "C134",
   "status": "proved",
   "theorems": [
    "Verif.MakeMat.C134_shape",
    "Verif.MakeMat.C134_numbers",
    "Verif.MakeMat.C134_keywords",
    "Verif.MakeMat.C134_refused",
    "Verif.MakeMat.C134_shared_deviation"
   ],
   "note": "None inside of a tuple is left out"
  }
 ]
}
