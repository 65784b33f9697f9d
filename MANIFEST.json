{
 "claims": [
  {
   "property": "C01",
   "status": "proved",
   "theorems": [
    "MFA.C01_decomposition_level",
    "MFA.C01_empty",
    "MFA.C01_integer"
   ],
   "note": ""
  },
  {
   "property": "C02",
   "status": "proved",
   "theorems": [
    "MFA.C02_warning_iff",
    "MFA.C02_j2_eff_le"
   ],
   "note": ""
  },
  {
   "property": "C03",
   "status": "proved",
   "theorems": [
    "MFA.C03_contiguous_scales",
    "MFA.C03_short",
    "MFA.C03_regular"
   ],
   "note": ""
  },
  {
   "property": "C04",
   "status": "proved",
   "theorems": [
    "MFA.C04_three_values",
    "MFA.C04_pleaders"
   ],
   "note": ""
  },
  {
   "property": "C05",
   "status": "proved",
   "theorems": [
    "MFA.C05_shapes",
    "MFA.C05_total"
   ],
   "note": ""
  },
  {
   "property": "C06",
   "status": "proved",
   "theorems": [
    "MFA.C06_nan_pattern"
   ],
   "note": ""
  },
  {
   "property": "C07",
   "status": "proved",
   "theorems": [
    "MFA.C07_data_independent",
    "MFA.C07_nj"
   ],
   "note": ""
  },
  {
   "property": "C08",
   "status": "proved",
   "theorems": [
    "MFA.C08_ideal",
    "MFA.C08_any_extension",
    "MFA.C08_finite"
   ],
   "note": ""
  },
  {
   "property": "C09",
   "status": "proved",
   "theorems": [
    "MFA.C09_scales",
    "MFA.C09_leader_scales",
    "MFA.C09_warning_witness",
    "MFA.C09_leader_witness"
   ],
   "note": ""
  },
  {
   "property": "C10",
   "status": "proved",
   "theorems": [
    "MFA.C10_linear"
   ],
   "note": ""
  },
  {
   "property": "C11",
   "status": "proved",
   "theorems": [
    "MFA.C11_polynomial_trend"
   ],
   "note": ""
  },
  {
   "property": "C12",
   "status": "proved",
   "theorems": [
    "MFA.C12_time_shift"
   ],
   "note": ""
  },
  {
   "property": "C13",
   "status": "proved",
   "theorems": [
    "MFA.C13_structure",
    "MFA.C13_cumulants",
    "MFA.C13_spectrum",
    "MFA.C13_hmin",
    "MFA.C13_mf_analysis",
    "MFA.C13_wavelet",
    "MFA.C13_pleaders",
    "MFA.C13_full",
    "MFA.C13_single_column"
   ],
   "note": ""
  },
  {
   "property": "C14",
   "status": "proved",
   "theorems": [
    "MFA.C14_normalization",
    "MFA.C14_normalization_zero"
   ],
   "note": ""
  },
  {
   "property": "C15",
   "status": "proved",
   "theorems": [
    "MFA.C15_formalism",
    "MFA.C15_shared"
   ],
   "note": ""
  },
  {
   "property": "C16",
   "status": "proved",
   "theorems": [
    "MFA.C16_leaders"
   ],
   "note": ""
  },
  {
   "property": "C17",
   "status": "proved",
   "theorems": [
    "MFA.C17_pleaders"
   ],
   "note": ""
  },
  {
   "property": "C18",
   "status": "proved",
   "theorems": [
    "MFA.C18_dominates",
    "MFA.C18_grows"
   ],
   "note": ""
  },
  {
   "property": "C19",
   "status": "proved",
   "theorems": [
    "MFA.C19_border_leaders_kept"
   ],
   "note": ""
  },
  {
   "property": "C20",
   "status": "proved",
   "theorems": [
    "MFA.C20_raises_index_error",
    "MFA.C20_raises_attribute_error",
    "MFA.C20_only_p_two"
   ],
   "note": ""
  },
  {
   "property": "C21",
   "status": "proved",
   "theorems": [
    "MFA.C21_eta_p"
   ],
   "note": ""
  },
  {
   "property": "C22",
   "status": "proved",
   "theorems": [
    "MFA.C22_one",
    "MFA.C22_monotone",
    "MFA.C22_untouched"
   ],
   "note": ""
  },
  {
   "property": "C23",
   "status": "proved",
   "theorems": [
    "MFA.C23_regression_minimises",
    "MFA.C23_length_contract"
   ],
   "note": ""
  },
  {
   "property": "C24",
   "status": "proved",
   "theorems": [
    "MFA.C24_exact_on_affine",
    "MFA.C24_affine_equivariant",
    "MFA.C24_weight_scaling",
    "MFA.C24_translation_invariant"
   ],
   "note": ""
  },
  {
   "property": "C25",
   "status": "proved",
   "theorems": [
    "MFA.C25_slope_variance"
   ],
   "note": ""
  },
  {
   "property": "C26",
   "status": "proved",
   "theorems": [
    "MFA.C26_degenerate_nan"
   ],
   "note": ""
  },
  {
   "property": "C27",
   "status": "proved",
   "theorems": [
    "MFA.C27_fast_power",
    "MFA.C27_fast_power_finite"
   ],
   "note": ""
  },
  {
   "property": "C28",
   "status": "proved",
   "theorems": [
    "MFA.C28_scale_freq_inverse"
   ],
   "note": ""
  },
  {
   "property": "C29",
   "status": "proved",
   "theorems": [
    "MFA.C29_fband2scale"
   ],
   "note": ""
  },
  {
   "property": "C30",
   "status": "proved",
   "theorems": [
    "MFA.C30_build_q_log",
    "MFA.C30_log_spaced"
   ],
   "note": ""
  },
  {
   "property": "C31",
   "status": "proved",
   "theorems": [
    "MFA.C31_nansum",
    "MFA.C31_nansum_nan_iff",
    "MFA.C31_nanmax",
    "MFA.C31_nanmean",
    "MFA.C31_order_and_nan_insertion"
   ],
   "note": ""
  },
  {
   "property": "C32",
   "status": "proved",
   "theorems": [
    "MFA.C32_full",
    "MFA.C32_structure_scaling"
   ],
   "note": ""
  },
  {
   "property": "C33",
   "status": "proved",
   "theorems": [
    "MFA.C33_zeta_zero"
   ],
   "note": ""
  },
  {
   "property": "C34",
   "status": "proved",
   "theorems": [
    "MFA.C34_full",
    "MFA.C34_spectrum_scaling",
    "MFA.C34_amplitude_invariance"
   ],
   "note": ""
  },
  {
   "property": "C35",
   "status": "proved",
   "theorems": [
    "MFA.C35_monofractal"
   ],
   "note": ""
  },
  {
   "property": "C36",
   "status": "proved",
   "theorems": [
    "MFA.C36_H_requires_two"
   ],
   "note": ""
  },
  {
   "property": "C37",
   "status": "proved",
   "theorems": [
    "MFA.C37_log_structure_convex"
   ],
   "note": ""
  },
  {
   "property": "C38",
   "status": "proved",
   "theorems": [
    "MFA.C38_nan_and_order"
   ],
   "note": ""
  },
  {
   "property": "C39",
   "status": "proved",
   "theorems": [
    "MFA.C39_first_cumulants"
   ],
   "note": ""
  },
  {
   "property": "C40",
   "status": "proved",
   "theorems": [
    "MFA.C40_cumulants_are_cgf_derivatives"
   ],
   "note": ""
  },
  {
   "property": "C41",
   "status": "proved",
   "theorems": [
    "MFA.C41_values",
    "MFA.C41_cumulants_scaling"
   ],
   "note": ""
  },
  {
   "property": "C42",
   "status": "proved",
   "theorems": [
    "MFA.C42_accessors"
   ],
   "note": ""
  },
  {
   "property": "C43",
   "status": "proved",
   "theorems": [
    "MFA.C43_D_zero"
   ],
   "note": ""
  },
  {
   "property": "C44",
   "status": "proved",
   "theorems": [
    "MFA.C44_legendre"
   ],
   "note": ""
  },
  {
   "property": "C45",
   "status": "proved",
   "theorems": [
    "MFA.C45_bounds"
   ],
   "note": ""
  },
  {
   "property": "C46",
   "status": "proved",
   "theorems": [
    "MFA.C46_zeros"
   ],
   "note": ""
  },
  {
   "property": "C47",
   "status": "proved",
   "theorems": [
    "MFA.C47_bundle",
    "MFA.C47_minimal",
    "MFA.C47_full",
    "MFA.C47_errors",
    "MFA.C47_q"
   ],
   "note": ""
  },
  {
   "property": "C48",
   "status": "proved",
   "theorems": [
    "MFA.C48_total",
    "MFA.C48_needs_two",
    "MFA.C48_admissible",
    "MFA.C48_pleaders"
   ],
   "note": ""
  },
  {
   "property": "C49",
   "status": "proved",
   "theorems": [
    "MFA.C49_minimal_never_returns",
    "MFA.C49_exceptions",
    "MFA.C49_agrees"
   ],
   "note": ""
  },
  {
   "property": "C50",
   "status": "proved",
   "theorems": [
    "MFA.C50_full",
    "MFA.C50_hmin_scaling"
   ],
   "note": ""
  },
  {
   "property": "C51",
   "status": "proved",
   "theorems": [
    "MFA.C51_warning_iff",
    "MFA.C51_negative_hmin_no_warning",
    "MFA.C51_returned_tuple"
   ],
   "note": ""
  },
  {
   "property": "C52",
   "status": "proved",
   "theorems": [
    "MFA.C52_compute_hurst",
    "MFA.C52_plot_hmin"
   ],
   "note": ""
  },
  {
   "property": "C53",
   "status": "proved",
   "theorems": [
    "MFA.C53_weighted_out_of_range",
    "MFA.C53_hmin_out_of_range",
    "MFA.C53_hmin_empty_scale",
    "MFA.C53_spectrum_no_exponents",
    "MFA.C53_unweighted_raises",
    "MFA.C53_unweighted_silent_zero",
    "MFA.C53_unweighted_low",
    "MFA.C53_unweighted_error",
    "MFA.C53_unweighted_negative",
    "MFA.C53_unweighted_one_scale",
    "MFA.C53_unweighted_empty",
    "MFA.C53_empty_range"
   ],
   "note": ""
  },
  {
   "property": "C54",
   "status": "proved",
   "theorems": [
    "MFA.C54_history",
    "MFA.C54_get_nj",
    "MFA.C54_get_nj_interv",
    "MFA.C54_formalism"
   ],
   "note": ""
  },
  {
   "property": "C55",
   "status": "proved",
   "theorems": [
    "MFA.C55_frequencies",
    "MFA.C55_value",
    "MFA.C55_nonneg",
    "MFA.C55_scaling",
    "MFA.C55_trend"
   ],
   "note": ""
  },
  {
   "property": "C56",
   "status": "proved",
   "theorems": [
    "MFA.C56_call",
    "MFA.C56_grid_points",
    "MFA.C56_grid_iff_even"
   ],
   "note": ""
  },
  {
   "property": "C57",
   "status": "proved",
   "theorems": [
    "MFA.C57_power_law",
    "MFA.C57_band_only",
    "MFA.C57_empty_band",
    "MFA.C57_zero_frequency",
    "MFA.C57_psd_scale",
    "MFA.C57_signal_scale"
   ],
   "note": ""
  },
  {
   "property": "C58",
   "status": "proved",
   "theorems": [
    "MFA.C58_cache_transparent"
   ],
   "note": ""
  },
  {
   "property": "C59",
   "status": "proved",
   "theorems": [
    "MFA.C59_stale_after_failure",
    "MFA.C59_raises_iff"
   ],
   "note": ""
  },
  {
   "property": "C60",
   "status": "proved",
   "theorems": [
    "MFA.C60_psd_recomputed",
    "MFA.C60_psd_breaks_hmin",
    "MFA.C60_hmin_after_wavelet",
    "MFA.C60_hurst_never_returns"
   ],
   "note": ""
  },
  {
   "property": "C61",
   "status": "proved",
   "theorems": [
    "MFA.C61_stored_params",
    "MFA.C61_stored_list",
    "MFA.C61_mf_analysis_never_returns",
    "MFA.C61_mf_analysis_full_never_returns",
    "MFA.C61_type_error"
   ],
   "note": ""
  },
  {
   "property": "C62",
   "status": "proved",
   "theorems": [
    "MFA.C62_welch_transparent",
    "MFA.C62_welch_stale"
   ],
   "note": ""
  },
  {
   "property": "C63",
   "status": "proved",
   "theorems": [
    "MFA.C63_difference",
    "MFA.C63_zero_and_swap",
    "MFA.C63_log",
    "MFA.C63_log_no_common",
    "MFA.C63_missing"
   ],
   "note": ""
  },
  {
   "property": "C64",
   "status": "proved",
   "theorems": [
    "MFA.C64_marginals",
    "MFA.C64_transpose"
   ],
   "note": ""
  },
  {
   "property": "C65",
   "status": "proved",
   "theorems": [
    "MFA.C65_covariance",
    "MFA.C65_zero_entries",
    "MFA.C65_rho_bounded",
    "MFA.C65_needs_two_cumulants"
   ],
   "note": ""
  },
  {
   "property": "C66",
   "status": "proved",
   "theorems": [
    "MFA.C66_coherence_bounded",
    "MFA.C66_proportional",
    "MFA.C66_lists_raise"
   ],
   "note": ""
  },
  {
   "property": "C67",
   "status": "proved",
   "theorems": [
    "MFA.C67_needs_leaders",
    "MFA.C67_full_default_raises",
    "MFA.C67_needs_q",
    "MFA.C67_one_realisation",
    "MFA.C67_full_one_realisation",
    "MFA.C67_scale_range",
    "MFA.C67_full_marginals"
   ],
   "note": ""
  },
  {
   "property": "C68",
   "status": "proved",
   "theorems": [
    "MFA.C68_peak",
    "MFA.C68_degenerate"
   ],
   "note": ""
  },
  {
   "property": "C69",
   "status": "proved",
   "theorems": [
    "MFA.C69_marginals",
    "MFA.C69_transpose"
   ],
   "note": ""
  },
  {
   "property": "C70",
   "status": "proved",
   "theorems": [
    "MFA.C70_exact_iff_no_warning",
    "MFA.C70_warning_inflates_variance",
    "MFA.C70_fgn"
   ],
   "note": ""
  },
  {
   "property": "C71",
   "status": "proved",
   "theorems": [
    "MFA.C71_returns_iff",
    "MFA.C71_covariance",
    "MFA.C71_exact_iff_uncorrelated",
    "MFA.C71_fgn",
    "MFA.C71_fgn_singular"
   ],
   "note": ""
  },
  {
   "property": "C72",
   "status": "proved",
   "theorems": [
    "MFA.C72_fgn",
    "MFA.C72_fbm",
    "MFA.C72_fbm_variance",
    "MFA.C72_brownian",
    "MFA.C72_H_zero"
   ],
   "note": ""
  },
  {
   "property": "C73",
   "status": "proved",
   "theorems": [
    "MFA.C73_fgn",
    "MFA.C73_fbm",
    "MFA.C73_mrw",
    "MFA.C73_unknown_method",
    "MFA.C73_skewed_mrw"
   ],
   "note": ""
  },
  {
   "property": "C74",
   "status": "proved",
   "theorems": [
    "MFA.C74_cme_ignores_z0",
    "MFA.C74_chol_uses_z0"
   ],
   "note": ""
  },
  {
   "property": "C75",
   "status": "proved",
   "theorems": [
    "MFA.C75_log_covariance",
    "MFA.C75_covariance_shape",
    "MFA.C75_mrw",
    "MFA.C75_cumulants"
   ],
   "note": ""
  },
  {
   "property": "C76",
   "status": "proved",
   "theorems": [
    "MFA.C76_causal_convolution",
    "MFA.C76_strictly_causal",
    "MFA.C76_equals_direct",
    "MFA.C76_odd_rows"
   ],
   "note": ""
  },
  {
   "property": "C77",
   "status": "proved",
   "theorems": [
    "MFA.C77_polynomials",
    "MFA.C77_pleaders"
   ],
   "note": ""
  },
  {
   "property": "C78",
   "status": "proved",
   "theorems": [
    "MFA.C78_structure_plot",
    "MFA.C78_skipped_zero",
    "MFA.C78_several"
   ],
   "note": ""
  },
  {
   "property": "C79",
   "status": "proved",
   "theorems": [
    "MFA.C79_cumulants_plot",
    "MFA.C79_several",
    "MFA.C79_order_zero"
   ],
   "note": ""
  },
  {
   "property": "C80",
   "status": "proved",
   "theorems": [
    "MFA.C80_structure_plot",
    "MFA.C80_cumulants_plot",
    "MFA.C80_needs_two_orders",
    "MFA.C80_c11_label"
   ],
   "note": ""
  },
  {
   "property": "C81",
   "status": "proved",
   "theorems": [
    "MFA.C81_proportional",
    "MFA.C81_surface",
    "MFA.C81_range",
    "MFA.C81_returns",
    "MFA.C81_degenerate"
   ],
   "note": ""
  },
  {
   "property": "C82",
   "status": "proved",
   "theorems": [
    "MFA.C82_log_plot",
    "MFA.C82_unknown_log",
    "MFA.C82_plot_psd",
    "MFA.C82_plot_fractal_never_returns",
    "MFA.C82_signal_plot_fractal"
   ],
   "note": ""
  },
  {
   "property": "C85",
   "status": "proved",
   "theorems": [
    "MFA.C85_cme",
    "MFA.C85_chol",
    "MFA.C85_fgn",
    "MFA.C85_fbm",
    "MFA.C85_law",
    "MFA.C85_stationary",
    "MFA.C85_self_similar",
    "MFA.C85_brownian"
   ],
   "note": ""
  },
  {
   "property": "C86",
   "status": "proved",
   "theorems": [
    "MFA.C86_law",
    "MFA.C86_covariance",
    "MFA.C86_moments",
    "MFA.C86_uncorrelated",
    "MFA.C86_flatness",
    "MFA.C86_variance_inflated",
    "MFA.C86_lam_zero"
   ],
   "note": ""
  },
  {
   "property": "C83",
   "status": "proved",
   "theorems": [
    "MFA.C83_filter",
    "MFA.C83_odd",
    "MFA.C83_linear",
    "MFA.C83_semigroup",
    "MFA.C83_mean",
    "MFA.C83_energy",
    "MFA.C83_translate"
   ],
   "note": ""
  },
  {
   "property": "C84",
   "status": "proved",
   "theorems": [
    "MFA.C84_law",
    "MFA.C84_vanishing",
    "MFA.C84_scaled",
    "MFA.C84_covariance",
    "MFA.C84_moments",
    "MFA.C84_flatness",
    "MFA.C84_integrated",
    "MFA.C84_args"
   ],
   "note": ""
  },
  {
   "property": "C87",
   "status": "proved",
   "theorems": [
    "MFA.C87_psd_call",
    "MFA.C87_psd_fresh",
    "MFA.C87_versions",
    "MFA.C87_stale_transform",
    "MFA.C87_psd_refreshes",
    "MFA.C87_new_parameters",
    "MFA.C87_welch"
   ],
   "note": ""
  },
  {
   "property": "C88",
   "status": "proved",
   "theorems": [
    "MFA.C88_pattern",
    "MFA.C88_covariance",
    "MFA.C88_white_noise",
    "MFA.C88_gaussian",
    "MFA.C88_psd"
   ],
   "note": ""
  },
  {
   "property": "C89",
   "status": "proved",
   "theorems": [
    "MFA.C89_covariance",
    "MFA.C89_covariance_stationary",
    "MFA.C89_law_stationary",
    "MFA.C89_fbm"
   ],
   "note": ""
  },
  {
   "property": "C90",
   "status": "proved",
   "theorems": [
    "MFA.C90_missing_colour",
    "MFA.C90_like_with_like",
    "MFA.C90_wavelet_grid",
    "MFA.C90_unequal_bands",
    "MFA.C90_incomplete",
    "MFA.C90_unlike_frequencies"
   ],
   "note": ""
  },
  {
   "property": "C91",
   "status": "proved",
   "theorems": [
    "MFA.C91_per_scale",
    "MFA.C91_one_scaling_function"
   ],
   "note": ""
  },
  {
   "property": "C92",
   "status": "proved",
   "theorems": [
    "MFA.C92_power_means",
    "MFA.C92_hmin_is_limit"
   ],
   "note": ""
  },
  {
   "property": "C93",
   "status": "proved",
   "theorems": [
    "MFA.C93_gauss_markov",
    "MFA.C93_stability"
   ],
   "note": ""
  },
  {
   "property": "C94",
   "status": "proved",
   "theorems": [
    "MFA.C94_scales",
    "MFA.C94_coefficients_kept",
    "MFA.C94_nj",
    "MFA.C94_leaders"
   ],
   "note": ""
  },
  {
   "property": "C95",
   "status": "proved",
   "theorems": [
    "MFA.C95_decorrelation",
    "MFA.C95_short_memory",
    "MFA.C95_fbm"
   ],
   "note": ""
  },
  {
   "property": "C96",
   "status": "proved",
   "theorems": [
    "MFA.C96_consistent",
    "MFA.C96_fbm"
   ],
   "note": ""
  },
  {
   "property": "C97",
   "status": "proved",
   "theorems": [
    "MFA.C97_power_law",
    "MFA.C97_fbm"
   ],
   "note": ""
  },
  {
   "property": "C98",
   "status": "proved",
   "theorems": [
    "MFA.C98_exponents"
   ],
   "note": ""
  },
  {
   "property": "C99",
   "status": "proved",
   "theorems": [
    "MFA.C99_cumulants"
   ],
   "note": ""
  },
  {
   "property": "C100",
   "status": "proved",
   "theorems": [
    "MFA.C100_spectrum"
   ],
   "note": ""
  },
  {
   "property": "C101",
   "status": "proved",
   "theorems": [
    "MFA.C101_power_law",
    "MFA.C101_fbm"
   ],
   "note": ""
  },
  {
   "property": "C102",
   "status": "proved",
   "theorems": [
    "MFA.C102_moments"
   ],
   "note": ""
  },
  {
   "property": "C103",
   "status": "proved",
   "theorems": [
    "MFA.C103_fractal_analysis",
    "MFA.C103_plot_psd"
   ],
   "note": ""
  },
  {
   "property": "C104",
   "status": "proved",
   "theorems": [
    "MFA.C104_assertions",
    "MFA.C104_cumulants_ignore_gamint",
    "MFA.C104_analysis",
    "MFA.C104_gamint_mismatch",
    "MFA.C104_broadcast",
    "MFA.C104_shape_mismatch"
   ],
   "note": ""
  },
  {
   "property": "C105",
   "status": "proved",
   "theorems": [
    "MFA.C105_beta_hurst",
    "MFA.C105_fbm"
   ],
   "note": ""
  },
  {
   "property": "C106",
   "status": "proved",
   "theorems": [
    "MFA.C106_scaling",
    "MFA.C106_origin",
    "MFA.C106_default",
    "MFA.C106_spectrum",
    "MFA.C106_apex",
    "MFA.C106_monofractal"
   ],
   "note": ""
  },
  {
   "property": "C107",
   "status": "proved",
   "theorems": [
    "MFA.C107_fgn",
    "MFA.C107_increments",
    "MFA.C107_coherence",
    "MFA.C107_fbm"
   ],
   "note": ""
  },
  {
   "property": "C108",
   "status": "proved",
   "theorems": [
    "MFA.C108_from_dict",
    "MFA.C108_missing",
    "MFA.C108_extra",
    "MFA.C108_mf_analysis",
    "MFA.C108_minimal",
    "MFA.C108_bivariate",
    "MFA.C108_mrq"
   ],
   "note": ""
  },
  {
   "property": "C109",
   "status": "proved",
   "theorems": [
    "MFA.C109_accessors",
    "MFA.C109_legendre"
   ],
   "note": ""
  },
  {
   "property": "C110",
   "status": "proved",
   "theorems": [
    "MFA.C110_curves",
    "MFA.C110_ticks",
    "MFA.C110_welch"
   ],
   "note": ""
  },
  {
   "property": "C111",
   "status": "proved",
   "theorems": [
    "MFA.C111_structure",
    "MFA.C111_cumulants",
    "MFA.C111_signals"
   ],
   "note": ""
  },
  {
   "property": "C112",
   "status": "proved",
   "theorems": [
    "MFA.C112_memory",
    "MFA.C112_average"
   ],
   "note": ""
  },
  {
   "property": "C113",
   "status": "proved",
   "theorems": [
    "MFA.C113_log_volatility",
    "MFA.C113_mrw"
   ],
   "note": ""
  },
  {
   "property": "C114",
   "status": "proved",
   "theorems": [
    "MFA.C114_fgn"
   ],
   "note": ""
  },
  {
   "property": "C115",
   "status": "proved",
   "theorems": [
    "MFA.C115_fgn"
   ],
   "note": ""
  },
  {
   "property": "C116",
   "status": "proved",
   "theorems": [
    "MFA.C116_chol_roles",
    "MFA.C116_cme_roles",
    "MFA.C116_no_volatility",
    "MFA.C116_replay",
    "MFA.C116_shapes"
   ],
   "note": ""
  },
  {
   "property": "C117",
   "status": "proved",
   "theorems": [
    "MFA.C117_history",
    "MFA.C117_iid"
   ],
   "note": ""
  },
  {
   "property": "C118",
   "status": "proved",
   "theorems": [
    "MFA.C118_averages",
    "MFA.C118_covariance",
    "MFA.C118_reliability"
   ],
   "note": ""
  },
  {
   "property": "C119",
   "status": "proved",
   "theorems": [
    "MFA.C119_power_law",
    "MFA.C119_fbm",
    "MFA.C119_consistent",
    "MFA.C119_fgn"
   ],
   "note": ""
  },
  {
   "property": "C120",
   "status": "proved",
   "theorems": [
    "MFA.C120_fgn",
    "MFA.C120_power_law",
    "MFA.C120_fbm"
   ],
   "note": ""
  },
  {
   "property": "C121",
   "status": "proved",
   "theorems": [
    "MFA.C121_signal",
    "MFA.C121_leaders_nonzero",
    "MFA.C121_pleaders",
    "MFA.C121_positive_estimators",
    "MFA.C121_positive_signal",
    "MFA.C121_estimators"
   ],
   "note": ""
  },
  {
   "property": "C122",
   "status": "proved",
   "theorems": [
    "MFA.C122_signal",
    "MFA.C122_relative",
    "MFA.C122_relative_all"
   ],
   "note": ""
  },
  {
   "property": "C123",
   "status": "proved",
   "theorems": [
    "MFA.C123_signal",
    "MFA.C123_exact",
    "MFA.C123_estimators",
    "MFA.C123_pleaders_nonzero",
    "MFA.C123_pleaders"
   ],
   "note": ""
  },
  {
   "property": "C124",
   "status": "proved",
   "theorems": [
    "MFA.C124_bounds",
    "MFA.C124_sizes",
    "MFA.C124_unweighted",
    "MFA.C124_coefficients",
    "MFA.C124_double"
   ],
   "note": ""
  },
  {
   "property": "C125",
   "status": "proved",
   "theorems": [
    "MFA.C125_number_iff",
    "MFA.C125_value",
    "MFA.C125_missing",
    "MFA.C125_same",
    "MFA.C125_leaders",
    "MFA.C125_nj",
    "MFA.C125_scales",
    "MFA.C125_gap",
    "MFA.C125_isolated",
    "MFA.C125_infinite"
   ],
   "note": ""
  },
  {
   "property": "C126",
   "status": "proved",
   "theorems": [
    "MFA.C126_level",
    "MFA.C126_double",
    "MFA.C126_needs_exact_log"
   ],
   "note": ""
  },
  {
   "property": "C127",
   "status": "proved",
   "theorems": [
    "MFA.C127_relErr",
    "MFA.C127_first_order",
    "MFA.C127_coefficients",
    "MFA.C127_estimates",
    "MFA.C127_total"
   ],
   "note": ""
  },
  {
   "property": "C128",
   "status": "proved",
   "theorems": [
    "MFA.C128_rounding",
    "MFA.C128_ties",
    "MFA.C128_operations",
    "MFA.C128_faithful",
    "MFA.C128_level",
    "MFA.C128_convergence",
    "MFA.C128_platforms"
   ],
   "note": ""
  },
  {
   "property": "C129",
   "status": "proved",
   "theorems": [
    "MFA.C129_mrw",
    "MFA.C129_cumulants",
    "MFA.C129_detected"
   ],
   "note": ""
  },
  {
   "property": "C130",
   "status": "proved",
   "theorems": [
    "MFA.C130_dominance",
    "MFA.C130_dominance_all",
    "MFA.C130_outlier",
    "MFA.C130_trend"
   ],
   "note": ""
  },
  {
   "property": "C131",
   "status": "proved",
   "theorems": [
    "MFA.C131_fgn",
    "MFA.C131_power_law",
    "MFA.C131_artefacts",
    "MFA.C131_fbm"
   ],
   "note": ""
  },
  {
   "property": "C132",
   "status": "proved",
   "theorems": [
    "MFA.C132_power_law",
    "MFA.C132_fbm",
    "MFA.C132_fgn"
   ],
   "note": ""
  },
  {
   "property": "C133",
   "status": "proved",
   "theorems": [
    "MFA.C133_zero",
    "MFA.C133_one_sample",
    "MFA.C133_power_law",
    "MFA.C133_fbm"
   ],
   "note": ""
  },
  {
   "property": "C134",
   "status": "proved",
   "theorems": [
    "MFA.C134_fgn",
    "MFA.C134_power_law",
    "MFA.C134_fbm",
    "MFA.C134_doubling"
   ],
   "note": ""
  },
  {
   "property": "C135",
   "status": "proved",
   "theorems": [
    "MFA.C135_power_law",
    "MFA.C135_noise",
    "MFA.C135_exists_fbm"
   ],
   "note": ""
  },
  {
   "property": "C136",
   "status": "proved",
   "theorems": [
    "MFA.C136_power_law",
    "MFA.C136_fbm",
    "MFA.C136_fgn"
   ],
   "note": ""
  },
  {
   "property": "C137",
   "status": "proved",
   "theorems": [
    "MFA.C137_increments",
    "MFA.C137_fbm",
    "MFA.C137_fgn"
   ],
   "note": ""
  },
  {
   "property": "C138",
   "status": "proved",
   "theorems": [
    "MFA.C138_estimators",
    "MFA.C138_signal",
    "MFA.C138_rho",
    "MFA.C138_rho_signal"
   ],
   "note": ""
  },
  {
   "property": "C139",
   "status": "proved",
   "theorems": [
    "MFA.C139_relative",
    "MFA.C139_signal",
    "MFA.C139_hypotheses"
   ],
   "note": ""
  },
  {
   "property": "C140",
   "status": "proved",
   "theorems": [
    "MFA.C140_estimators",
    "MFA.C140_exact",
    "MFA.C140_signal"
   ],
   "note": ""
  },
  {
   "property": "C141",
   "status": "proved",
   "theorems": [
    "MFA.C141_increments",
    "MFA.C141_fbm",
    "MFA.C141_correlated",
    "MFA.C141_fgn",
    "MFA.C141_consistent"
   ],
   "note": ""
  },
  {
   "property": "C142",
   "status": "proved",
   "theorems": [
    "MFA.C142_increments",
    "MFA.C142_fbm",
    "MFA.C142_fgn",
    "MFA.C142_doubling"
   ],
   "note": ""
  },
  {
   "property": "C143",
   "status": "proved",
   "theorems": [
    "MFA.C143_power_law",
    "MFA.C143_noise"
   ],
   "note": ""
  },
  {
   "property": "C144",
   "status": "proved",
   "theorems": [
    "MFA.C144_increments",
    "MFA.C144_fbm",
    "MFA.C144_fgn",
    "MFA.C144_recording"
   ],
   "note": ""
  },
  {
   "property": "C145",
   "status": "proved",
   "theorems": [
    "MFA.C145_only_p_two",
    "MFA.C145_index_error",
    "MFA.C145_p_leaders"
   ],
   "note": ""
  },
  {
   "property": "C146",
   "status": "proved",
   "theorems": [
    "MFA.C146_pooled_structure",
    "MFA.C146_pooled_cumulants",
    "MFA.C146_weighted_raises",
    "MFA.C146_analysis_weighted_raises",
    "MFA.C146_analysis",
    "MFA.C146_self_correlation"
   ],
   "note": ""
  },
  {
   "property": "C147",
   "status": "proved",
   "theorems": [
    "MFA.C147_increments",
    "MFA.C147_fbm",
    "MFA.C147_correlated",
    "MFA.C147_fgn"
   ],
   "note": ""
  },
  {
   "property": "C148",
   "status": "proved",
   "theorems": [
    "MFA.C148_pairs",
    "MFA.C148_masked",
    "MFA.C148_complete_pairs"
   ],
   "note": ""
  },
  {
   "property": "C149",
   "status": "proved",
   "theorems": [
    "MFA.C149_refused",
    "MFA.C149_full_refused",
    "MFA.C149_union",
    "MFA.C149_same_missing",
    "MFA.C149_full_same"
   ],
   "note": ""
  }
 ]
}