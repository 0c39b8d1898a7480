{
 "claims": [
  {
   "property": "C01",
   "status": "proved",
   "theorems": [
    "ImgReg.C01_forward_formula",
    "ImgReg.C01_inverse_formula",
    "ImgReg.C01_backends_agree",
    "ImgReg.C01_inverse",
    "ImgReg.C01_inverse_2d",
    "ImgReg.C01_nan_spreads"
   ],
   "note": "FFT backends are interchangeable and inverse to each other"
  },
  {
   "property": "C02",
   "status": "proved",
   "theorems": [
    "ImgReg.C02_shiftnd_integer_roll",
    "ImgReg.C02_shiftnd_integer_roll_complex",
    "ImgReg.C02_shift2d_integer_roll",
    "ImgReg.C02_shift2d_integer_roll_complex"
   ],
   "note": "A whole-pixel shift is exactly a periodic roll"
  },
  {
   "property": "C03",
   "status": "proved",
   "theorems": [
    "ImgReg.C03_compose",
    "ImgReg.C03_undo",
    "ImgReg.C03_compose_real_odd",
    "ImgReg.C03_undo_real_odd",
    "ImgReg.C03_even_nyquist",
    "ImgReg.C03_real_even_not_invertible"
   ],
   "note": "Sub-pixel shifts compose and can be undone"
  },
  {
   "property": "C04",
   "status": "proved",
   "theorems": [
    "ImgReg.C04_flux",
    "ImgReg.C04_flux_complex",
    "ImgReg.C04_energy_complex",
    "ImgReg.C04_energy_real",
    "ImgReg.C04_energy_real_odd"
   ],
   "note": "Shifting conserves flux and energy"
  },
  {
   "property": "C05",
   "status": "proved",
   "theorems": [
    "ImgReg.C05_linear_real",
    "ImgReg.C05_linear_complex",
    "ImgReg.C05_offset_periodic"
   ],
   "note": "Shift is linear in the data and periodic in the offset"
  },
  {
   "property": "C06",
   "status": "proved",
   "theorems": [
    "ImgReg.C06_shift2d_eq_shiftnd",
    "ImgReg.C06_offset_pairing",
    "ImgReg.C06_surplus_ignored",
    "ImgReg.C06_missing_zero"
   ],
   "note": "shift2d and shiftnd agree; offset/axis pairing is by position"
  },
  {
   "property": "C07",
   "status": "proved",
   "theorems": [
    "ImgReg.C07_nan_as_zero",
    "ImgReg.C07_no_nan_out",
    "ImgReg.C07_nan_as_zero_2d"
   ],
   "note": "NaN pixels are zeros for the shift functions"
  },
  {
   "property": "C08",
   "status": "proved",
   "theorems": [
    "ImgReg.C08_modes",
    "ImgReg.C08_modes_2d",
    "ImgReg.C08_phase",
    "ImgReg.C08_odd_real"
   ],
   "note": "Return modes and phase of the shift functions"
  },
  {
   "property": "C09",
   "status": "proved",
   "theorems": [
    "ImgReg.C09_samples",
    "ImgReg.C09_samples_complex",
    "ImgReg.C09_periodic",
    "ImgReg.C09_total"
   ],
   "note": "Fourier interpolation passes through the samples and is periodic"
  },
  {
   "property": "C10",
   "status": "proved",
   "theorems": [
    "ImgReg.C10_bandlimited",
    "ImgReg.C10_bandlimited_real"
   ],
   "note": "Fourier interpolation is exact for band-limited signals"
  },
  {
   "property": "C11",
   "status": "proved",
   "theorems": [
    "ImgReg.C11_samples",
    "ImgReg.C11_interpnd_eq_interp2d",
    "ImgReg.C11_cube_eq_vectors",
    "ImgReg.C11_rows_eq_vectors",
    "ImgReg.C11_separable"
   ],
   "note": "2-D Fourier interpolation is separable, passes through the samples, and all coordinate formats agree"
  },
  {
   "property": "C12",
   "status": "proved",
   "theorems": [
    "ImgReg.C12_interp_eq_shift_2d",
    "ImgReg.C12_interp_eq_shift_1d"
   ],
   "note": "Interpolating at displaced coordinates is the same as shifting"
  },
  {
   "property": "C13",
   "status": "proved",
   "theorems": [
    "ImgReg.C13_interp1d_errors",
    "ImgReg.C13_interp2d_errors",
    "ImgReg.C13_modes_1d",
    "ImgReg.C13_nan_1d",
    "ImgReg.C13_modes_2d",
    "ImgReg.C13_nan_2d",
    "ImgReg.C13_empty_cube"
   ],
   "note": "Interpolation argument validation"
  },
  {
   "property": "C14",
   "status": "proved",
   "theorems": [
    "ImgReg.C14_zoom1d",
    "ImgReg.C14_zoom_on_pixel_1d",
    "ImgReg.C14_zoom_on_pixel_2d",
    "ImgReg.C14_zoomnd_centre",
    "ImgReg.C14_zoomnd_centre_1d"
   ],
   "note": "Zoom coordinate grids"
  },
  {
   "property": "C15",
   "status": "proved",
   "theorems": [
    "ImgReg.C15_zoom1d_default",
    "ImgReg.C15_zoomnd_default",
    "ImgReg.C15_zoomnd_default_1d"
   ],
   "note": "Zooming by 1 is the identity"
  },
  {
   "property": "C16",
   "status": "proved",
   "theorems": [
    "ImgReg.C16_grid_range",
    "ImgReg.C16_odd_reproduces",
    "ImgReg.C16_odd_reproduces_2d",
    "ImgReg.C16_even_never_on_pixel"
   ],
   "note": "Full-size zoom covers exactly the pixel area"
  },
  {
   "property": "C17",
   "status": "proved",
   "theorems": [
    "ImgReg.C17_zoomnd_offsets",
    "ImgReg.C17_three_dims",
    "ImgReg.C17_single_pixel",
    "ImgReg.C17_short_coordinates",
    "ImgReg.C17_usfac_zero",
    "ImgReg.C17_surplus_coordinates",
    "ImgReg.C17_zoomnd_offsets_1d",
    "ImgReg.C17_empty_output"
   ],
   "note": "Zoom argument handling"
  },
  {
   "property": "C18",
   "status": "proved",
   "theorems": [
    "ImgReg.C18_dftups_is_padded_fft",
    "ImgReg.C18_dftups_us1",
    "ImgReg.C18_dftups_is_interpolation",
    "ImgReg.C18_dftups_formula",
    "ImgReg.C18_dftups_us0",
    "ImgReg.C18_dftups_nan"
   ],
   "note": "dftups equals the zero-padded FFT it documents"
  },
  {
   "property": "C19",
   "status": "proved",
   "theorems": [
    "ImgReg.C19_is_interpolation",
    "ImgReg.C19_reproduces",
    "ImgReg.C19_us1",
    "ImgReg.C19_us0",
    "ImgReg.C19_nan"
   ],
   "note": "upsample_image reproduces the input on the coarse grid"
  },
  {
   "property": "C20",
   "status": "proved",
   "theorems": [
    "ImgReg.C20_odddftups_eq"
   ],
   "note": "odddftups is dftups"
  },
  {
   "property": "C21",
   "status": "proved",
   "theorems": [
    "ImgReg.C21_correlate2d",
    "ImgReg.C21_zero_lag",
    "ImgReg.C21_nan_and_huge"
   ],
   "note": "correlate2d is the circular cross-correlation with zero lag at pixel (n-1)//2"
  },
  {
   "property": "C22",
   "status": "proved",
   "theorems": [
    "ImgReg.C22_exchange"
   ],
   "note": "Exchanging the images mirrors the correlation map"
  },
  {
   "property": "C23",
   "status": "proved",
   "theorems": [
    "ImgReg.C23_scalar_error"
   ],
   "note": "chi2n_map is the exact chi-squared of every whole-pixel shift (scalar or no error)"
  },
  {
   "property": "C24",
   "status": "proved",
   "theorems": [
    "ImgReg.C24_error_image"
   ],
   "note": "chi2n_map with an error image weights each pixel of image 2 with its own error"
  },
  {
   "property": "C25",
   "status": "proved",
   "theorems": [
    "ImgReg.C25_nonneg",
    "ImgReg.C25_zero_at_true_shift"
   ],
   "note": "chi2 is non-negative and vanishes at a true shift"
  },
  {
   "property": "C26",
   "status": "proved",
   "theorems": [
    "ImgReg.C26_terms",
    "ImgReg.C26_term3_scalar",
    "ImgReg.C26_terms_image",
    "ImgReg.C26_term3_none"
   ],
   "note": "chi2n_map terms and reduced normalisation"
  },
  {
   "property": "C27",
   "status": "proved",
   "theorems": [
    "ImgReg.C27_chi2n_map",
    "ImgReg.C27_chi2n_map_ok",
    "ImgReg.C27_chi2_shift",
    "ImgReg.C27_error_shape",
    "ImgReg.C27_cross_correlation_shifts",
    "ImgReg.C27_chi2_shift_leastsq",
    "ImgReg.C27_register_shape_mismatch"
   ],
   "note": "Shape checks of the registration functions"
  },
  {
   "property": "C28",
   "status": "proved",
   "theorems": [
    "ImgReg.C28_zeromean",
    "ImgReg.C28_is_centering"
   ],
   "note": "zeromean removes constant offsets"
  },
  {
   "property": "C29",
   "status": "proved",
   "theorems": [
    "ImgReg.C29_scalar",
    "ImgReg.C29_image"
   ],
   "note": "Error scaling"
  },
  {
   "property": "C30",
   "status": "proved",
   "theorems": [
    "ImgReg.C30_roll"
   ],
   "note": "chi2 map moves with the image"
  },
  {
   "property": "C31",
   "status": "proved",
   "theorems": [
    "ImgReg.C31_residual_any",
    "ImgReg.C31_residual"
   ],
   "note": "Upsampled chi2 is the residual of the sub-pixel shifted image"
  },
  {
   "property": "C32",
   "status": "proved",
   "theorems": [
    "ImgReg.C32_best_grid_point"
   ],
   "note": "chi2_shift returns the best grid point"
  },
  {
   "property": "C33",
   "status": "proved",
   "theorems": [
    "ImgReg.C33_recovers_roll",
    "ImgReg.C33_odd_sizes",
    "ImgReg.C33_recovers_subpixel",
    "ImgReg.C33_odd_large_factor_never_whole"
   ],
   "note": "chi2_shift recovers a true shift that lies on its grid"
  },
  {
   "property": "C34",
   "status": "proved",
   "theorems": [
    "ImgReg.C34_grid_points",
    "ImgReg.C34_window"
   ],
   "note": "chi2_shift search window"
  },
  {
   "property": "C35",
   "status": "proved",
   "theorems": [
    "ImgReg.C35_auto"
   ],
   "note": "Automatic upsampling is well defined"
  },
  {
   "property": "C36",
   "status": "proved",
   "theorems": [
    "ImgReg.C36_verbose_exact",
    "ImgReg.C36_errors",
    "ImgReg.C36_layout",
    "ImgReg.C36_verbose_any_boundary",
    "ImgReg.C36_verbose"
   ],
   "note": "chi2_shift return layout"
  },
  {
   "property": "C37",
   "status": "proved",
   "theorems": [
    "ImgReg.C37_chi2_shift_extent",
    "ImgReg.C37_threshold",
    "ImgReg.C37_bounding_box",
    "ImgReg.C37_zoomfactor",
    "ImgReg.C37_monotone",
    "ImgReg.C37_constant_and_empty",
    "ImgReg.C37_chi2_shift_nonneg"
   ],
   "note": "Reported errors are non-negative and measure the delta-chi2 region"
  },
  {
   "property": "C38",
   "status": "proved",
   "theorems": [
    "ImgReg.C38_scale_images",
    "ImgReg.C38_scale_err"
   ],
   "note": "Scaling both images does not change the measured shift"
  },
  {
   "property": "C39",
   "status": "proved",
   "theorems": [
    "ImgReg.C39_iterative_zoom",
    "ImgReg.C39_offset_of_center",
    "ImgReg.C39_iterative_zoom_1d"
   ],
   "note": "iterative_zoom exit condition and outputs"
  },
  {
   "property": "C40",
   "status": "proved",
   "theorems": [
    "ImgReg.C40_iterative_zoom_terminates",
    "ImgReg.C40_iterative_zoom_returns",
    "ImgReg.C40_iterative_zoom_1d_terminates",
    "ImgReg.C40_iterative_zoom_1d_returns",
    "ImgReg.C40_zoomstep_one_diverges"
   ],
   "note": "iterative_zoom terminates"
  },
  {
   "property": "C41",
   "status": "proved",
   "theorems": [
    "ImgReg.C41_iterative_zoom_drift",
    "ImgReg.C41_iterative_zoom_1d_drift"
   ],
   "note": "iterative_zoom stays near the coarse extremum"
  },
  {
   "property": "C42",
   "status": "proved",
   "theorems": [
    "ImgReg.C42_iterative_zoom_constant",
    "ImgReg.C42_iterative_zoom_not_entered",
    "ImgReg.C42_iterative_zoom_1d_constant",
    "ImgReg.C42_iterative_zoom_1d_not_entered",
    "ImgReg.C42_bad_zoom"
   ],
   "note": "iterative_zoom failure modes"
  },
  {
   "property": "C43",
   "status": "proved",
   "theorems": [
    "ImgReg.C43_chi2_shift_iterzoom"
   ],
   "note": "chi2_shift_iterzoom at this commit cannot complete"
  },
  {
   "property": "C44",
   "status": "proved",
   "theorems": [
    "ImgReg.C44_recovers_roll",
    "ImgReg.C44_recovers_roll_spectrum"
   ],
   "note": "register_images recovers whole-pixel shifts"
  },
  {
   "property": "C45",
   "status": "proved",
   "theorems": [
    "ImgReg.C45_grid_and_range"
   ],
   "note": "register_images shifts are multiples of 1/usfac within range"
  },
  {
   "property": "C46",
   "status": "proved",
   "theorems": [
    "ImgReg.C46_refinement_maximises",
    "ImgReg.C46_even_beats_half_pixels",
    "ImgReg.C46_whole_pixel",
    "ImgReg.C46_whole_pixel_maxoff",
    "ImgReg.C46_half_pixel",
    "ImgReg.C46_round"
   ],
   "note": "register_images refinement maximises the upsampled correlation"
  },
  {
   "property": "C47",
   "status": "proved",
   "theorems": [
    "ImgReg.C47_maxoff_limits",
    "ImgReg.C47_maxoff_zero",
    "ImgReg.C47_keeps_true_shift"
   ],
   "note": "register_images maxoff limits the shift"
  },
  {
   "property": "C48",
   "status": "proved",
   "theorems": [
    "ImgReg.C48_layout",
    "ImgReg.C48_usfac_zero",
    "ImgReg.C48_shape_mismatch",
    "ImgReg.C48_backend_irrelevant"
   ],
   "note": "register_images return layout and errors"
  },
  {
   "property": "C49",
   "status": "proved",
   "theorems": [
    "ImgReg.C49_registered_image",
    "ImgReg.C49_half_image_roll"
   ],
   "note": "The registered image is image 1 rolled by half the image"
  },
  {
   "property": "C50",
   "status": "proved",
   "theorems": [
    "ImgReg.C50_roll"
   ],
   "note": "cross_correlation_shifts measures relative to xlen/2-(1-xlen%2)"
  },
  {
   "property": "C51",
   "status": "proved",
   "theorems": [
    "ImgReg.C51_formula",
    "ImgReg.C51_stationary_iff",
    "ImgReg.C51_symmetric"
   ],
   "note": "Taylor refinement of cross_correlation_shifts"
  },
  {
   "property": "C52",
   "status": "proved",
   "theorems": [
    "ImgReg.C52_second_derivative"
   ],
   "note": "second_derivative stencils"
  },
  {
   "property": "C53",
   "status": "proved",
   "theorems": [
    "ImgReg.C53_no_signal",
    "ImgReg.C53_zeromean_max",
    "ImgReg.C53_maxoff",
    "ImgReg.C53_first_row_or_column",
    "ImgReg.C53_gaussfit_needs_agpy",
    "ImgReg.C53_gaussfit_values",
    "ImgReg.C53_gaussfit_formula"
   ],
   "note": "cross_correlation_shifts special cases"
  },
  {
   "property": "C54",
   "status": "proved",
   "theorems": [
    "ImgReg.C54_downsample_estimator",
    "ImgReg.C54_downsample",
    "ImgReg.C54_downsample_bad_factor"
   ],
   "note": "downsample is block averaging"
  },
  {
   "property": "C55",
   "status": "proved",
   "theorems": [
    "ImgReg.C55_downsample_mean",
    "ImgReg.C55_downsample_compose",
    "ImgReg.C55_downsample_one"
   ],
   "note": "downsample preserves the mean and composes"
  },
  {
   "property": "C56",
   "status": "proved",
   "theorems": [
    "ImgReg.C56_downsample_axis_estimator",
    "ImgReg.C56_downsample_axis",
    "ImgReg.C56_downsample_axis_bad",
    "ImgReg.C56_both_axes",
    "ImgReg.C56_downsample_axis_bad_factor"
   ],
   "note": "downsample_axis blocks"
  },
  {
   "property": "C57",
   "status": "proved",
   "theorems": [
    "ImgReg.C57_downsample_1d",
    "ImgReg.C57_downsample_cube",
    "ImgReg.C57_airy",
    "ImgReg.C57_smooth",
    "ImgReg.C57_smooth_never",
    "ImgReg.C57_downsample_cube_error"
   ],
   "note": "Functions that cannot complete at this commit"
  },
  {
   "property": "C58",
   "status": "proved",
   "theorems": [
    "ImgReg.C58_gaussian",
    "ImgReg.C58_gaussian_width_zero",
    "ImgReg.C58_gaussian_width_zero_custom",
    "ImgReg.C58_gaussian_peak",
    "ImgReg.C58_gaussian_symmetric",
    "ImgReg.C58_tophat",
    "ImgReg.C58_normalised",
    "ImgReg.C58_width_as_given",
    "ImgReg.C58_trapezoid",
    "ImgReg.C58_reversal",
    "ImgReg.C58_custom_norm",
    "ImgReg.C58_gaussian_max"
   ],
   "note": "make_kernel normalisation and symmetry"
  },
  {
   "property": "C59",
   "status": "proved",
   "theorems": [
    "ImgReg.C59_errors",
    "ImgReg.C59_shape",
    "ImgReg.C59_empty"
   ],
   "note": "make_kernel argument handling"
  },
  {
   "property": "C60",
   "status": "proved",
   "theorems": [
    "ImgReg.C60_boxcar",
    "ImgReg.C60_boxcar_too_wide"
   ],
   "note": "boxcar kernel is a centred square"
  },
  {
   "property": "C61",
   "status": "proved",
   "theorems": [
    "ImgReg.C61_wrap",
    "ImgReg.C61_fill",
    "ImgReg.C61_normalize",
    "ImgReg.C61_errors",
    "ImgReg.C61_ndim",
    "ImgReg.C61_normalize_function",
    "ImgReg.C61_nan_fill"
   ],
   "note": "convolvend 'wrap' is circular convolution, 'fill' is linear convolution"
  },
  {
   "property": "C62",
   "status": "proved",
   "theorems": [
    "ImgReg.C62_shape"
   ],
   "note": "convolvend output shape and padding"
  },
  {
   "property": "C63",
   "status": "proved",
   "theorems": [
    "ImgReg.C63_weighted",
    "ImgReg.C63_constant",
    "ImgReg.C63_unnormalised"
   ],
   "note": "convolvend NaN interpolation keeps constants"
  },
  {
   "property": "C64",
   "status": "proved",
   "theorems": [
    "ImgReg.C64_box",
    "ImgReg.C64_symmetric",
    "ImgReg.C64_mode",
    "ImgReg.C64_axes",
    "ImgReg.C64_no_size"
   ],
   "note": "header_overlap region algebra"
  },
  {
   "property": "C65",
   "status": "proved",
   "theorems": [
    "ImgReg.C65_header",
    "ImgReg.C65_inputs_kept",
    "ImgReg.C65_zero_scale",
    "ImgReg.C65_zero_scale_second"
   ],
   "note": "header_overlap output header"
  },
  {
   "property": "C66",
   "status": "proved",
   "theorems": [
    "ImgReg.C66_meridian",
    "ImgReg.C66_wrap",
    "ImgReg.C66_small"
   ],
   "note": "header_overlap longitude wrap"
  },
  {
   "property": "C67",
   "status": "proved",
   "theorems": [
    "ImgReg.C67_get_cd",
    "ImgReg.C67_index"
   ],
   "note": "get_cd returns nothing for a zero CD diagonal"
  },
  {
   "property": "C68",
   "status": "proved",
   "theorems": [
    "ImgReg.C68_load_header",
    "ImgReg.C68_load_data"
   ],
   "note": "load_header / load_data dispatch"
  },
  {
   "property": "C69",
   "status": "proved",
   "theorems": [
    "ImgReg.C69_match",
    "ImgReg.C69_match_header",
    "ImgReg.C69_errors",
    "ImgReg.C69_fallback_iff"
   ],
   "note": "match_fits sigma cut"
  },
  {
   "property": "C70",
   "status": "proved",
   "theorems": [
    "ImgReg.C70_outputs",
    "ImgReg.C70_shifted_whole",
    "ImgReg.C70_default_method"
   ],
   "note": "register_fits outputs"
  },
  {
   "property": "C71",
   "status": "proved",
   "theorems": [
    "ImgReg.C71_outputs",
    "ImgReg.C71_nan_no_cut",
    "ImgReg.C71_errors",
    "ImgReg.C71_errors_late"
   ],
   "note": "cross_correlation_shifts_FITS outputs"
  },
  {
   "property": "C72",
   "status": "proved",
   "theorems": [
    "ImgReg.C72_centers_to_edges",
    "ImgReg.C72_centers_to_edges_short"
   ],
   "note": "centers_to_edges"
  },
  {
   "property": "C73",
   "status": "proved",
   "theorems": [
    "ImgReg.C73_bandlimited_exact",
    "ImgReg.C73_trig_polynomial",
    "ImgReg.C73_trig_polynomial_real"
   ],
   "note": "Sub-pixel shifts are exact for band-limited images"
  },
  {
   "property": "C74",
   "status": "proved",
   "theorems": [
    "ImgReg.C74_data_x_samples",
    "ImgReg.C74_data_x_uniform",
    "ImgReg.C74_data_x_clamped",
    "ImgReg.C74_data_x_between"
   ],
   "note": "fourier_interp1d with explicit sample positions"
  },
  {
   "property": "C75",
   "status": "proved",
   "theorems": [
    "ImgReg.C75_dftups1d"
   ],
   "note": "dftups1d evaluates the Fourier interpolant"
  },
  {
   "property": "C76",
   "status": "proved",
   "theorems": [
    "ImgReg.C76_common_roll"
   ],
   "note": "A common roll of both images does not matter"
  },
  {
   "property": "C77",
   "status": "proved",
   "theorems": [
    "ImgReg.C77_exchange"
   ],
   "note": "Exchanging the images negates the shift"
  },
  {
   "property": "C78",
   "status": "proved",
   "theorems": [
    "ImgReg.C78_errors",
    "ImgReg.C78_errim_unused",
    "ImgReg.C78_degenerate"
   ],
   "note": "Error estimates of cross_correlation_shifts"
  },
  {
   "property": "C79",
   "status": "proved",
   "theorems": [
    "ImgReg.C79_iterative_zoom_improves",
    "ImgReg.C79_iterative_zoom_1d_improves"
   ],
   "note": "iterative_zoom does not lose the extremum for odd zoom shapes"
  },
  {
   "property": "C80",
   "status": "proved",
   "theorems": [
    "ImgReg.C80_caller_arrays"
   ],
   "note": "convolvend's effect on the caller's arrays"
  },
  {
   "property": "C81",
   "status": "proved",
   "theorems": [
    "ImgReg.C81_return_fft",
    "ImgReg.C81_uncropped",
    "ImgReg.C81_crop"
   ],
   "note": "convolvend return_fft"
  },
  {
   "property": "C82",
   "status": "proved",
   "theorems": [
    "ImgReg.C82_self"
   ],
   "note": "overlap of an image with itself"
  },
  {
   "property": "C83",
   "status": "proved",
   "theorems": [
    "ImgReg.C83_union_covers"
   ],
   "note": "a union header covers both images"
  },
  {
   "property": "C84",
   "status": "proved",
   "theorems": [
    "ImgReg.C84_header_errfile",
    "ImgReg.C84_errors",
    "ImgReg.C84_errors_errfile",
    "ImgReg.C84_chi2_kwargs",
    "ImgReg.C84_axes"
   ],
   "note": "register_fits keyword arguments and errors"
  },
  {
   "property": "C85",
   "status": "proved",
   "theorems": [
    "ImgReg.C85_register_roll"
   ],
   "note": "register_fits recovers a whole-pixel roll"
  },
  {
   "property": "C86",
   "status": "proved",
   "theorems": [
    "ImgReg.C86_fits_overlap",
    "ImgReg.C86_errors"
   ],
   "note": "fits_overlap"
  },
  {
   "property": "C87",
   "status": "proved",
   "theorems": [
    "ImgReg.C87_interp1d_kernel",
    "ImgReg.C87_interp1d_kernel_complex",
    "ImgReg.C87_interp2d_kernel_complex",
    "ImgReg.C87_interp2d_kernel",
    "ImgReg.C87_shift2d_kernel",
    "ImgReg.C87_shift1d_kernel",
    "ImgReg.C87_kernel_at_integers",
    "ImgReg.C87_kernel_sum"
   ],
   "note": "Periodic-sinc interpolation kernel"
  },
  {
   "property": "C88",
   "status": "proved",
   "theorems": [
    "ImgReg.C88_registered_spectrum",
    "ImgReg.C88_restores_reference",
    "ImgReg.C88_layout",
    "ImgReg.C88_register_images"
   ],
   "note": "dftregistration returns the phase-compensated registered spectrum"
  },
  {
   "property": "C89",
   "status": "proved",
   "theorems": [
    "ImgReg.C89_imports",
    "ImgReg.C89_default_fails",
    "ImgReg.C89_residuals",
    "ImgReg.C89_recovers_roll",
    "ImgReg.C89_residuals_image",
    "ImgReg.C89_residuals_map"
   ],
   "note": "chi2_shift_leastsq: what is fitted, and when it works"
  },
  {
   "property": "C90",
   "status": "proved",
   "theorems": [
    "ImgReg.C90_error_array_modified",
    "ImgReg.C90_error_array_kept"
   ],
   "note": "chi2_shift_leastsq overwrites the caller's error array"
  },
  {
   "property": "C91",
   "status": "proved",
   "theorems": [
    "ImgReg.C91_structure",
    "ImgReg.C91_recovers_roll"
   ],
   "note": "chi2_shift_iterzoom once the missing global is supplied"
  },
  {
   "property": "C92",
   "status": "proved",
   "theorems": [
    "ImgReg.C92_fill",
    "ImgReg.C92_padding_irrelevant",
    "ImgReg.C92_huge",
    "ImgReg.C92_wrap_sizes",
    "ImgReg.C92_agrees_with_wrap"
   ],
   "note": "correlate2d with boundary='fill' and for images of different sizes"
  },
  {
   "property": "C93",
   "status": "proved",
   "theorems": [
    "ImgReg.C93_scalar_error",
    "ImgReg.C93_error_image",
    "ImgReg.C93_scalar_vs_image",
    "ImgReg.C93_nonneg"
   ],
   "note": "chi2n_map with boundary='fill'"
  },
  {
   "property": "C94",
   "status": "proved",
   "theorems": [
    "ImgReg.C94_unique_zero",
    "ImgReg.C94_recovers_move"
   ],
   "note": "chi2_shift with boundary='fill' recovers whole-pixel moves of any object"
  },
  {
   "property": "C95",
   "status": "proved",
   "theorems": [
    "ImgReg.C95_only_the_map",
    "ImgReg.C95_grid",
    "ImgReg.C95_layout",
    "ImgReg.C95_shapes"
   ],
   "note": "chi2_shift for every boundary mode reads only the chi-squared map"
  },
  {
   "property": "C96",
   "status": "proved",
   "theorems": [
    "ImgReg.C96_roll_with_noise",
    "ImgReg.C96_move_with_noise"
   ],
   "note": "chi2_shift recovers a whole-pixel shift in spite of noise"
  },
  {
   "property": "C97",
   "status": "proved",
   "theorems": [
    "ImgReg.C97_near_best",
    "ImgReg.C97_position"
   ],
   "note": "the error of chi2_shift's sub-pixel answer is bounded by the noise and the grid"
  },
  {
   "property": "C98",
   "status": "proved",
   "theorems": [
    "ImgReg.C98_roll_with_noise"
   ],
   "note": "register_images recovers a whole-pixel shift in spite of noise"
  },
  {
   "property": "C99",
   "status": "proved",
   "theorems": [
    "ImgReg.C99_interp1d",
    "ImgReg.C99_interp1d_real",
    "ImgReg.C99_interp2d",
    "ImgReg.C99_interp2d_real",
    "ImgReg.C99_zoom_on_pixel",
    "ImgReg.C99_shiftnd",
    "ImgReg.C99_shiftnd_real",
    "ImgReg.C99_shift2d_real",
    "ImgReg.C99_converges"
   ],
   "note": "sub-pixel operations on scenes that are not band limited are off by at most the aliased amplitude"
  },
  {
   "property": "C100",
   "status": "proved",
   "theorems": [
    "ImgReg.C100_corrected_residual",
    "ImgReg.C100_corrected_roll",
    "ImgReg.C100_corrected_roll_with_noise",
    "ImgReg.C100_corrected_subpixel"
   ],
   "note": "correcting by the measured shift registers the images (the README recipe)"
  },
  {
   "property": "C101",
   "status": "proved",
   "theorems": [
    "ImgReg.C101_scalar_error",
    "ImgReg.C101_error_image",
    "ImgReg.C101_brighter"
   ],
   "note": "error bars grow with the noise and shrink with the signal"
  },
  {
   "property": "C102",
   "status": "proved",
   "theorems": [
    "ImgReg.C102_same_answer",
    "ImgReg.C102_nonneg_images"
   ],
   "note": "chi2_shift and register_images give the same whole-pixel answer"
  },
  {
   "property": "C103",
   "status": "proved",
   "theorems": [
    "ImgReg.C103_near_best",
    "ImgReg.C103_near_best_fine",
    "ImgReg.C103_position",
    "ImgReg.C103_position_fine",
    "ImgReg.C103_position_pairs",
    "ImgReg.C103_position_pairs_fine"
   ],
   "note": "accuracy of the sub-pixel answer of register_images"
  },
  {
   "property": "C104",
   "status": "proved",
   "theorems": [
    "ImgReg.C104_errors",
    "ImgReg.C104_images",
    "ImgReg.C104_peak"
   ],
   "note": "make_offset_images: the two test images"
  },
  {
   "property": "C105",
   "status": "proved",
   "theorems": [
    "ImgReg.C105_field",
    "ImgReg.C105_power",
    "ImgReg.C105_dropped",
    "ImgReg.C105_scale"
   ],
   "note": "make_extended: an image with a power-law spectrum"
  },
  {
   "property": "C106",
   "status": "proved",
   "theorems": [
    "ImgReg.C106_image",
    "ImgReg.C106_whole_pixels",
    "ImgReg.C106_undone",
    "ImgReg.C106_taper",
    "ImgReg.C106_recovered",
    "ImgReg.C106_recovered_noise",
    "ImgReg.C106_recovered_subpixel"
   ],
   "note": "make_offset_extended and the README experiment"
  },
  {
   "property": "C107",
   "status": "proved",
   "theorems": [
    "ImgReg.C107_whole_pixels",
    "ImgReg.C107_zero_error",
    "ImgReg.C107_is_map_entry",
    "ImgReg.C107_fractional",
    "ImgReg.C107_upsampled",
    "ImgReg.C107_zero_at_truth",
    "ImgReg.C107_negative_pixels"
   ],
   "note": "chi2 of the test helpers against chi2n_map"
  },
  {
   "property": "C108",
   "status": "proved",
   "theorems": [
    "ImgReg.C108_zero",
    "ImgReg.C108_odd_fails",
    "ImgReg.C108_even",
    "ImgReg.C108_modulus",
    "ImgReg.C108_whole_lags"
   ],
   "note": "upsample_ft_raw: zero-padded cross-correlation"
  },
  {
   "property": "C109",
   "status": "proved",
   "theorems": [
    "ImgReg.C109_number_of_fits",
    "ImgReg.C109_zeropad_doplot",
    "ImgReg.C109_smoothing_fails",
    "ImgReg.C109_noise_test",
    "ImgReg.C109_noise_test_exact",
    "ImgReg.C109_accuracy_test",
    "ImgReg.C109_do_n_fits",
    "ImgReg.C109_do_n_fits_register",
    "ImgReg.C109_fit_extended"
   ],
   "note": "the repeated-fit experiments"
  },
  {
   "property": "C110",
   "status": "proved",
   "theorems": [
    "ImgReg.C110_chi2n_map",
    "ImgReg.C110_chi2_shift",
    "ImgReg.C110_register_images",
    "ImgReg.C110_cross_correlation_shifts"
   ],
   "note": "the caller's arrays are not modified"
  },
  {
   "property": "C111",
   "status": "proved",
   "theorems": [
    "ImgReg.C111_exact_arithmetic",
    "ImgReg.C111_same_answer",
    "ImgReg.C111_near_optimal_whole",
    "ImgReg.C111_near_optimal_half",
    "ImgReg.C111_near_optimal_fine",
    "ImgReg.C111_recovers_roll"
   ],
   "note": "register_images gives the exact answer in floating point when the answer is clear"
  },
  {
   "property": "C112",
   "status": "proved",
   "theorems": [
    "ImgReg.C112_shift2d_complex",
    "ImgReg.C112_shift2d_real",
    "ImgReg.C112_shift2d_abs",
    "ImgReg.C112_shiftnd_complex",
    "ImgReg.C112_shiftnd_real",
    "ImgReg.C112_shiftnd_abs",
    "ImgReg.C112_roll",
    "ImgReg.C112_integer_image",
    "ImgReg.C112_undo",
    "ImgReg.C112_undo_real_odd",
    "ImgReg.C112_flux",
    "ImgReg.C112_exact_arithmetic",
    "ImgReg.C112_exact_arithmetic_2d",
    "ImgReg.C112_roll_2d"
   ],
   "note": "Fourier shifts in floating point are as accurate as an explicit bound says"
  },
  {
   "property": "C113",
   "status": "proved",
   "theorems": [
    "ImgReg.C113_correlate2d",
    "ImgReg.C113_map_error",
    "ImgReg.C113_exact_arithmetic",
    "ImgReg.C113_near_optimal",
    "ImgReg.C113_same_pixel",
    "ImgReg.C113_recovers_roll"
   ],
   "note": "Cross-correlation and chi-squared maps in floating point"
  },
  {
   "property": "C114",
   "status": "proved",
   "theorems": [
    "ImgReg.C114_interp1d",
    "ImgReg.C114_zoom1d",
    "ImgReg.C114_interp2d",
    "ImgReg.C114_zoom_on_pixel",
    "ImgReg.C114_near_optimal",
    "ImgReg.C114_fits_near_optimal",
    "ImgReg.C114_same_answer",
    "ImgReg.C114_exact_arithmetic",
    "ImgReg.C114_recovers_roll"
   ],
   "note": "Fourier interpolation, zooming and chi2_shift in floating point"
  },
  {
   "property": "C115",
   "status": "proved",
   "theorems": [
    "ImgReg.C115_map_errors",
    "ImgReg.C115_exact_arithmetic",
    "ImgReg.C115_error_bars",
    "ImgReg.C115_same_errors"
   ],
   "note": "Error bars in floating point"
  },
  {
   "property": "C116",
   "status": "proved",
   "theorems": [
    "ImgReg.C116_dftups",
    "ImgReg.C116_odddftups",
    "ImgReg.C116_exact_arithmetic",
    "ImgReg.C116_upsample_image",
    "ImgReg.C116_dftups1d"
   ],
   "note": "dftups, odddftups, dftups1d and upsample_image in floating point"
  },
  {
   "property": "C117",
   "status": "proved",
   "theorems": [
    "ImgReg.C117_exact_arithmetic",
    "ImgReg.C117_same_answer",
    "ImgReg.C117_near_optimal_whole",
    "ImgReg.C117_near_optimal_half",
    "ImgReg.C117_near_optimal_fine",
    "ImgReg.C117_recovers_roll"
   ],
   "note": "register_images in floating point from elementary operations"
  },
  {
   "property": "C118",
   "status": "proved",
   "theorems": [
    "ImgReg.C118_brightness",
    "ImgReg.C118_common_roll",
    "ImgReg.C118_exchange"
   ],
   "note": "Symmetries of cross_correlation_shifts"
  },
  {
   "property": "C119",
   "status": "proved",
   "theorems": [
    "ImgReg.C119_brightness",
    "ImgReg.C119_brightness_registered",
    "ImgReg.C119_common_roll",
    "ImgReg.C119_clear_match",
    "ImgReg.C119_exchange"
   ],
   "note": "Symmetries of register_images"
  },
  {
   "property": "C120",
   "status": "proved",
   "theorems": [
    "ImgReg.C120_shift2d",
    "ImgReg.C120_correlate2d",
    "ImgReg.C120_chi2n_map",
    "ImgReg.C120_cross_correlation_shifts",
    "ImgReg.C120_register_images",
    "ImgReg.C120_chi2map_to_errors",
    "ImgReg.C120_chi2_shift",
    "ImgReg.C120_rows_decide"
   ],
   "note": "The two axes are treated alike"
  },
  {
   "property": "C121",
   "status": "proved",
   "theorems": [
    "ImgReg.C121_step_bound",
    "ImgReg.C121_noise",
    "ImgReg.C121_step_unbounded"
   ],
   "note": "Accuracy and size of the sub-pixel correction of cross_correlation_shifts"
  },
  {
   "property": "C122",
   "status": "proved",
   "theorems": [
    "ImgReg.C122_compare_methods",
    "ImgReg.C122_compare_methods_fails",
    "ImgReg.C122_run_tests",
    "ImgReg.C122_determine_error_offsets",
    "ImgReg.C122_error_test"
   ],
   "note": "Comparison helpers of image_registration.tests"
  },
  {
   "property": "C123",
   "status": "proved",
   "theorems": [
    "ImgReg.C123_accuracy",
    "ImgReg.C123_first_row_or_column",
    "ImgReg.C123_no_signal",
    "ImgReg.C123_exact_arithmetic",
    "ImgReg.C123_roll"
   ],
   "note": "cross_correlation_shifts in inexact arithmetic"
  },
  {
   "property": "C124",
   "status": "proved",
   "theorems": [
    "ImgReg.C124_position",
    "ImgReg.C124_whole_pixel"
   ],
   "note": "chi2_shift with noise and rounding together"
  },
  {
   "property": "C125",
   "status": "proved",
   "theorems": [
    "ImgReg.C125_any_schedule",
    "ImgReg.C125_uninterrupted",
    "ImgReg.C125_memory",
    "ImgReg.C125_history",
    "ImgReg.C125_race_silent",
    "ImgReg.C125_race_error"
   ],
   "note": "convolvend in several threads and over any history of calls"
  },
  {
   "property": "C126",
   "status": "proved",
   "theorems": [
    "ImgReg.C126_wrong_pixel",
    "ImgReg.C126_wrong_pixel_exp",
    "ImgReg.C126_gaussian",
    "ImgReg.C126_both_noisy",
    "ImgReg.C126_expected_map"
   ],
   "note": "chi2_shift and random noise: probability of a wrong pixel"
  },
  {
   "property": "C127",
   "status": "proved",
   "theorems": [
    "ImgReg.C127_register_pixel",
    "ImgReg.C127_register_gaussian",
    "ImgReg.C127_register_exact",
    "ImgReg.C127_chi2_subpixel",
    "ImgReg.C127_register_subpixel",
    "ImgReg.C127_cross_correlation"
   ],
   "note": "register_images, cross_correlation_shifts and sub-pixel answers under random noise"
  },
  {
   "property": "C128",
   "status": "proved",
   "theorems": [
    "ImgReg.C128_best_whole_pixel",
    "ImgReg.C128_maximum_likelihood",
    "ImgReg.C128_no_worse_than_whole_pixels",
    "ImgReg.C128_fill_error_image",
    "ImgReg.C128_fill_scalar"
   ],
   "note": "chi2_shift returns an optimal displacement"
  },
  {
   "property": "C129",
   "status": "proved",
   "theorems": [
    "ImgReg.C129_chi2_rate",
    "ImgReg.C129_chi2_converges",
    "ImgReg.C129_register_rate",
    "ImgReg.C129_register_converges",
    "ImgReg.C129_waves",
    "ImgReg.C129_register_waves"
   ],
   "note": "the answers converge to the true displacement as the upsampling factor grows"
  },
  {
   "property": "C130",
   "status": "proved",
   "theorems": [
    "ImgReg.C130_map_fits",
    "ImgReg.C130_map_offset",
    "ImgReg.C130_map_terms",
    "ImgReg.C130_map_error_image",
    "ImgReg.C130_shift_fits",
    "ImgReg.C130_shift_no_error_array",
    "ImgReg.C130_shift_same",
    "ImgReg.C130_uint8_negative",
    "ImgReg.C130_uint8_wrong_shift",
    "ImgReg.C130_iterative_zoom_fits",
    "ImgReg.C130_iterative_zoom_same",
    "ImgReg.C130_iterative_zoom_max_unsigned",
    "ImgReg.C130_iterative_zoom_uint8_example"
   ],
   "note": "integer images"
  },
  {
   "property": "C131",
   "status": "proved",
   "theorems": [
    "ImgReg.C131_inexact_terminates",
    "ImgReg.C131_inexact_returns",
    "ImgReg.C131_inexact_result",
    "ImgReg.C131_inexact_offset",
    "ImgReg.C131_inexact_eventually",
    "ImgReg.C131_exact_arithmetic",
    "ImgReg.C131_iteration_bound",
    "ImgReg.C131_iteration_count",
    "ImgReg.C131_iteration_bound_1d"
   ],
   "note": "how long iterative_zoom runs, and iterative_zoom in floating point"
  },
  {
   "property": "C132",
   "status": "proved",
   "theorems": [
    "ImgReg.C132_corrected_residual",
    "ImgReg.C132_recovers_roll",
    "ImgReg.C132_eventually"
   ],
   "note": "the README recipe in floating point"
  },
  {
   "property": "C133",
   "status": "proved",
   "theorems": [
    "ImgReg.C133_roll_second",
    "ImgReg.C133_roll_first",
    "ImgReg.C133_measured_again",
    "ImgReg.C133_pass_never_worse",
    "ImgReg.C133_passes",
    "ImgReg.C133_even_factor_never_whole"
   ],
   "note": "moving an image and registering again"
  },
  {
   "property": "C134",
   "status": "proved",
   "theorems": [
    "ImgReg.C134_roll_second",
    "ImgReg.C134_roll_first",
    "ImgReg.C134_measured_again"
   ],
   "note": "moving an image and calling register_images again"
  },
  {
   "property": "C135",
   "status": "proved",
   "theorems": [
    "ImgReg.C135_roll_second",
    "ImgReg.C135_roll_first",
    "ImgReg.C135_measured_again",
    "ImgReg.C135_some_position_fails"
   ],
   "note": "moving an image and calling cross_correlation_shifts again"
  },
  {
   "property": "C136",
   "status": "proved",
   "theorems": [
    "ImgReg.C136_roll_second",
    "ImgReg.C136_roll_first",
    "ImgReg.C136_resolution_depends_on_position"
   ],
   "note": "moving an image and calling chi2_shift again with the automatic upsampling factor"
  },
  {
   "property": "C137",
   "status": "proved",
   "theorems": [
    "ImgReg.C137_region",
    "ImgReg.C137_small_noise",
    "ImgReg.C137_coverage",
    "ImgReg.C137_coverage_exp",
    "ImgReg.C137_coverage_gaussian"
   ],
   "note": "The error bars of chi2_shift cover the true displacement"
  },
  {
   "property": "C138",
   "status": "proved",
   "theorems": [
    "ImgReg.C138_likelihood_map",
    "ImgReg.C138_maximum_likelihood",
    "ImgReg.C138_even_not_ml"
   ],
   "note": "The chi-squared map is a log-likelihood and the answer a maximum-likelihood estimate"
  },
  {
   "property": "C139",
   "status": "proved",
   "theorems": [
    "ImgReg.C139_shift2d",
    "ImgReg.C139_rot180",
    "ImgReg.C139_shift2d_real",
    "ImgReg.C139_correlate2d",
    "ImgReg.C139_chi2n_map",
    "ImgReg.C139_chi2map_to_errors",
    "ImgReg.C139_chi2_shift",
    "ImgReg.C139_register_images",
    "ImgReg.C139_register_rot180",
    "ImgReg.C139_cross_correlation_shifts",
    "ImgReg.C139_checker",
    "ImgReg.C139_even_deviation"
   ],
   "note": "Mirrored images give mirrored answers"
  },
  {
   "property": "C140",
   "status": "proved",
   "theorems": [
    "ImgReg.C140_shiftnd",
    "ImgReg.C140_interp1d",
    "ImgReg.C140_zoom1d",
    "ImgReg.C140_periodic",
    "ImgReg.C140_test_1d",
    "ImgReg.C140_test_zoom",
    "ImgReg.C140_wraps",
    "ImgReg.C140_test_2d",
    "ImgReg.C140_interp2d",
    "ImgReg.C140_zoom_on_pixel",
    "ImgReg.C140_shift2d"
   ],
   "note": "Shifting, interpolating and zooming a Gaussian star moves the star"
  },
  {
   "property": "C141",
   "status": "proved",
   "theorems": [
    "ImgReg.C141_register",
    "ImgReg.C141_register_example"
   ],
   "note": "Registering two images of a Gaussian star finds its displacement"
  },
  {
   "property": "C142",
   "status": "proved",
   "theorems": [
    "ImgReg.C142_chi2_star",
    "ImgReg.C142_chi2_star_example"
   ],
   "note": "chi2_shift finds the displacement of a Gaussian star"
  },
  {
   "property": "C143",
   "status": "proved",
   "theorems": [
    "ImgReg.C143_star_in_noise",
    "ImgReg.C143_star_in_noise_example"
   ],
   "note": "chi2_shift finds a Gaussian star in random noise"
  },
  {
   "property": "C144",
   "status": "proved",
   "theorems": [
    "ImgReg.C144_register_true",
    "ImgReg.C144_register_true_example",
    "ImgReg.C144_chi2_range",
    "ImgReg.C144_chi2_true",
    "ImgReg.C144_chi2_true_example",
    "ImgReg.C144_noise_true",
    "ImgReg.C144_noise_true_example"
   ],
   "note": "A star that moved by less than half of the frame: the true displacement is reported"
  },
  {
   "property": "C145",
   "status": "proved",
   "theorems": [
    "ImgReg.C145_register_stack",
    "ImgReg.C145_chi2_stack",
    "ImgReg.C145_register_stack_example",
    "ImgReg.C145_chi2_stack_example"
   ],
   "note": "A stack of noisy exposures of one scene is registered exactly and consistently"
  },
  {
   "property": "C146",
   "status": "proved",
   "theorems": [
    "ImgReg.C146_agree",
    "ImgReg.C146_zero",
    "ImgReg.C146_up_to_two",
    "ImgReg.C146_above_two",
    "ImgReg.C146_range",
    "ImgReg.C146_fraction_never_whole",
    "ImgReg.C146_negative_maxoff_none",
    "ImgReg.C146_negative_maxoff_mirror",
    "ImgReg.C146_negative_maxoff_zero"
   ],
   "note": "register_images for every number usfac and every integer maxoff"
  },
  {
   "property": "C147",
   "status": "proved",
   "theorems": [
    "ImgReg.C147_register_nan",
    "ImgReg.C147_chi2_nan",
    "ImgReg.C147_blanked_register",
    "ImgReg.C147_blanked_chi2",
    "ImgReg.C147_hot_register",
    "ImgReg.C147_hot_chi2",
    "ImgReg.C147_ray_register",
    "ImgReg.C147_ray_chi2",
    "ImgReg.C147_hot_half",
    "ImgReg.C147_hot_fine"
   ],
   "note": "Bad pixels: blanked pixels are harmless, unflagged ones decide the answer"
  },
  {
   "property": "C148",
   "status": "proved",
   "theorems": [
    "ImgReg.C148_marked_is_blanked",
    "ImgReg.C148_pinned",
    "ImgReg.C148_units",
    "ImgReg.C148_blanked_units"
   ],
   "note": "Pixels marked bad in the error image count with error 1"
  },
  {
   "property": "C149",
   "status": "proved",
   "theorems": [
    "ImgReg.C149_flux_and_norm",
    "ImgReg.C149_roll",
    "ImgReg.C149_range",
    "ImgReg.C149_order",
    "ImgReg.C149_smooth_then_register"
   ],
   "note": "Smoothing with convolvend: flux, noise, range, displacement and order"
  },
  {
   "property": "C150",
   "status": "proved",
   "theorems": [
    "ImgReg.C150_roll",
    "ImgReg.C150_blocks",
    "ImgReg.C150_mean_range_energy",
    "ImgReg.C150_register",
    "ImgReg.C150_chi2",
    "ImgReg.C150_remainder",
    "ImgReg.C150_register_example"
   ],
   "note": "Registering at low resolution: downsample and displacements"
  },
  {
   "property": "C151",
   "status": "proved",
   "theorems": [
    "ImgReg.C151_linear",
    "ImgReg.C151_roll",
    "ImgReg.C151_transpose",
    "ImgReg.C151_stable",
    "ImgReg.C151_upsample_conserves",
    "ImgReg.C151_upsample_twice",
    "ImgReg.C151_zoom_conserves",
    "ImgReg.C151_zoom1d_conserves"
   ],
   "note": "What resampling keeps"
  },
  {
   "property": "C152",
   "status": "proved",
   "theorems": [
    "ImgReg.C152_upsampled_roll",
    "ImgReg.C152_register_upsampled",
    "ImgReg.C152_register_upsampled_odd"
   ],
   "note": "Registering upsampled images gives sub-pixel displacements exactly"
  },
  {
   "property": "C153",
   "status": "proved",
   "theorems": [
    "ImgReg.C153_linear",
    "ImgReg.C153_kernel_linear",
    "ImgReg.C153_impulse",
    "ImgReg.C153_adjoint",
    "ImgReg.C153_mirror",
    "ImgReg.C153_monotone",
    "ImgReg.C153_twice"
   ],
   "note": "The algebra of convolvend"
  },
  {
   "property": "C154",
   "status": "proved",
   "theorems": [
    "ImgReg.C154_interp",
    "ImgReg.C154_zoom",
    "ImgReg.C154_zoomnd",
    "ImgReg.C154_upsample",
    "ImgReg.C154_zoom1d"
   ],
   "note": "Mirrored images, resampled"
  },
  {
   "property": "C155",
   "status": "proved",
   "theorems": [
    "ImgReg.C155_star_in_noise",
    "ImgReg.C155_star_in_noise_example",
    "ImgReg.C155_true",
    "ImgReg.C155_true_example"
   ],
   "note": "Registering a Gaussian star in random noise"
  }
 ]
}