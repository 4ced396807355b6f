{
 "claims": [
  {
   "property": "C01",
   "status": "proved",
   "theorems": [
    "Precise.C01_chunking",
    "Precise.C01_empty_batch",
    "Precise.C01_same_rows_same_future"
   ],
   "note": ""
  },
  {
   "property": "C02",
   "status": "proved",
   "theorems": [
    "Precise.C02_fit_forgets",
    "Precise.C02_fit_forgets_observably",
    "Precise.C02_n_features",
    "Precise.C02_stale_n_features"
   ],
   "note": ""
  },
  {
   "property": "C03",
   "status": "proved",
   "theorems": [
    "Precise.C03_partial_fit_rejects",
    "Precise.C03_fit_destroys",
    "Precise.C03_fit_raises_iff"
   ],
   "note": ""
  },
  {
   "property": "C04",
   "status": "proved",
   "theorems": [
    "Precise.C04_n_samples",
    "Precise.C04_shipped"
   ],
   "note": ""
  },
  {
   "property": "C05",
   "status": "proved",
   "theorems": [
    "Precise.C05_diff",
    "Precise.C05_shipped"
   ],
   "note": ""
  },
  {
   "property": "C06",
   "status": "proved",
   "theorems": [
    "Precise.C06_not_fitted_iff",
    "Precise.C06_diff_needs_two_rows",
    "Precise.C06_derived_attributes",
    "Precise.C06_shipped"
   ],
   "note": ""
  },
  {
   "property": "C07",
   "status": "proved",
   "theorems": [
    "Precise.C07_checkpoint_resume",
    "Precise.C07_restores_object",
    "Precise.C07_diff_loses_a_row",
    "Precise.C07_diff_used_target",
    "Precise.C07_shipped"
   ],
   "note": ""
  },
  {
   "property": "C08",
   "status": "proved",
   "theorems": [
    "Precise.C08_pickle_roundtrip",
    "Precise.C08_pickle_resume",
    "Precise.C08_shipped"
   ],
   "note": ""
  },
  {
   "property": "C09",
   "status": "proved",
   "theorems": [
    "Precise.C09_clone",
    "Precise.C09_frozen",
    "Precise.C09_unfitted",
    "Precise.C09_effective_after_fit",
    "Precise.C09_rate_frozen",
    "Precise.C09_other_frozen"
   ],
   "note": ""
  },
  {
   "property": "C10",
   "status": "proved",
   "theorems": [
    "Precise.C10_symmetric",
    "Precise.C10_symmetrize_id"
   ],
   "note": ""
  },
  {
   "property": "C11",
   "status": "proved",
   "theorems": [
    "Precise.C11_correlation",
    "Precise.C11_accuracy",
    "Precise.C11_not_psd_witness"
   ],
   "note": ""
  },
  {
   "property": "C12",
   "status": "proved",
   "theorems": [
    "Precise.C12_precision",
    "Precise.C12_backend_independent"
   ],
   "note": ""
  },
  {
   "property": "C13",
   "status": "proved",
   "theorems": [
    "Precise.C13_mahalanobis",
    "Precise.C13_inputs"
   ],
   "note": ""
  },
  {
   "property": "C14",
   "status": "proved",
   "theorems": [
    "Precise.C14_score_is_loglik",
    "Precise.C14_score_errors",
    "Precise.C14_empirical_maximizes"
   ],
   "note": ""
  },
  {
   "property": "C15",
   "status": "proved",
   "theorems": [
    "Precise.C15_batch"
   ],
   "note": ""
  },
  {
   "property": "C16",
   "status": "proved",
   "theorems": [
    "Precise.C16_order"
   ],
   "note": ""
  },
  {
   "property": "C17",
   "status": "proved",
   "theorems": [
    "Precise.C17_ewa_affine",
    "Precise.C17_empirical_affine"
   ],
   "note": ""
  },
  {
   "property": "C18",
   "status": "proved",
   "theorems": [
    "Precise.C18_psd",
    "Precise.C18_zero_variance_iff",
    "Precise.C18_singular"
   ],
   "note": ""
  },
  {
   "property": "C19",
   "status": "proved",
   "theorems": [
    "Precise.C19_burn_length",
    "Precise.C19_burn_length_any",
    "Precise.C19_zero_rate",
    "Precise.C19_burn_in_is_empirical"
   ],
   "note": ""
  },
  {
   "property": "C20",
   "status": "proved",
   "theorems": [
    "Precise.C20_location",
    "Precise.C20_covariance"
   ],
   "note": ""
  },
  {
   "property": "C21",
   "status": "proved",
   "theorems": [
    "Precise.C21_psd",
    "Precise.C21_stays_pd"
   ],
   "note": ""
  },
  {
   "property": "C22",
   "status": "proved",
   "theorems": [
    "Precise.C22_ewa_range",
    "Precise.C22_empirical_range",
    "Precise.C22_same_location",
    "Precise.C22_same_location_real",
    "Precise.C22_same_location_blocks",
    "Precise.C22_huber_range",
    "Precise.C22_adaptive_range",
    "Precise.C22_dcc_range",
    "Precise.C22_factor_range"
   ],
   "note": ""
  },
  {
   "property": "C23",
   "status": "proved",
   "theorems": [
    "Precise.C23_location",
    "Precise.C23_covariance"
   ],
   "note": ""
  },
  {
   "property": "C24",
   "status": "proved",
   "theorems": [
    "Precise.C24_off_diagonal",
    "Precise.C24_closed_form",
    "Precise.C24_psd",
    "Precise.C24_ge_ewa",
    "Precise.C24_not_translation_invariant"
   ],
   "note": ""
  },
  {
   "property": "C25",
   "status": "proved",
   "theorems": [
    "Precise.C25_partition",
    "Precise.C25_counts"
   ],
   "note": ""
  },
  {
   "property": "C26",
   "status": "proved",
   "theorems": [
    "Precise.C26_is_schur",
    "Precise.C26_block"
   ],
   "note": ""
  },
  {
   "property": "C27",
   "status": "proved",
   "theorems": [
    "Precise.C27_convex",
    "Precise.C27_intensity"
   ],
   "note": ""
  },
  {
   "property": "C28",
   "status": "proved",
   "theorems": [
    "Precise.C28_intensity",
    "Precise.C28_invertible"
   ],
   "note": ""
  },
  {
   "property": "C29",
   "status": "proved",
   "theorems": [
    "Precise.C29_constant_correlation",
    "Precise.C29_identity",
    "Precise.C29_psd",
    "Precise.C29_indefinite_witness"
   ],
   "note": ""
  },
  {
   "property": "C30",
   "status": "proved",
   "theorems": [
    "Precise.C30_pd",
    "Precise.C30_gamma_zero",
    "Precise.C30_gamma_one",
    "Precise.C30_linear",
    "Precise.C30_geodesic_det"
   ],
   "note": ""
  },
  {
   "property": "C31",
   "status": "proved",
   "theorems": [
    "Precise.C31_gamma_range",
    "Precise.C31_is_schur",
    "Precise.C31_gamma_formula"
   ],
   "note": ""
  },
  {
   "property": "C32",
   "status": "proved",
   "theorems": [
    "Precise.C32_pd",
    "Precise.C32_gamma",
    "Precise.C32_no_error",
    "Precise.C32_no_error_scaled",
    "Precise.C32_reassembly_psd",
    "Precise.C32_gamma_zero",
    "Precise.C32_single_block",
    "Precise.C32_error_iff",
    "Precise.C32_gamma_formula",
    "Precise.C32_raises"
   ],
   "note": ""
  },
  {
   "property": "C33",
   "status": "proved",
   "theorems": [
    "Precise.C33_scatter",
    "Precise.C33_pd",
    "Precise.C33_no_repair"
   ],
   "note": ""
  },
  {
   "property": "C34",
   "status": "proved",
   "theorems": [
    "Precise.C34_update",
    "Precise.C34_bounded_influence",
    "Precise.C34_psd",
    "Precise.C34_singular_witness"
   ],
   "note": ""
  },
  {
   "property": "C35",
   "status": "proved",
   "theorems": [
    "Precise.C35_rate",
    "Precise.C35_psd",
    "Precise.C35_fixed_rate",
    "Precise.C35_rate_formula"
   ],
   "note": ""
  },
  {
   "property": "C36",
   "status": "proved",
   "theorems": [
    "Precise.C36_shape",
    "Precise.C36_scale_free",
    "Precise.C36_first_zero_nan",
    "Precise.C36_first_row",
    "Precise.C36_indefinite_witness"
   ],
   "note": ""
  },
  {
   "property": "C37",
   "status": "proved",
   "theorems": [
    "Precise.C37_update",
    "Precise.C37_pd",
    "Precise.C37_det_update",
    "Precise.C37_reversal",
    "Precise.C37_monotone",
    "Precise.C37_contraction",
    "Precise.C37_contraction_covers",
    "Precise.C37_below_line",
    "Precise.C37_eig_lower",
    "Precise.C37_eig_upper",
    "Precise.C37_step_pd",
    "Precise.C37_endpoints_floored",
    "Precise.C37_endpoints",
    "Precise.C37_det",
    "Precise.C37_backend_independent"
   ],
   "note": ""
  },
  {
   "property": "C38",
   "status": "proved",
   "theorems": [
    "Precise.C38_location",
    "Precise.C38_drd",
    "Precise.C38_psd",
    "Precise.C38_diagonal",
    "Precise.C38_residual_bound",
    "Precise.C38_collapse_witness"
   ],
   "note": ""
  },
  {
   "property": "C39",
   "status": "proved",
   "theorems": [
    "Precise.C39_structure",
    "Precise.C39_psd",
    "Precise.C39_factors"
   ],
   "note": ""
  },
  {
   "property": "C40",
   "status": "proved",
   "theorems": [
    "Precise.C40_composition",
    "Precise.C40_psd",
    "Precise.C40_prototypes",
    "Precise.C40_bad_vol",
    "Precise.C40_diff_corr",
    "Precise.C40_not_psd_witness"
   ],
   "note": ""
  },
  {
   "property": "C41",
   "status": "proved",
   "theorems": [
    "Precise.C41_complete",
    "Precise.C41_item_order"
   ],
   "note": ""
  },
  {
   "property": "C42",
   "status": "proved",
   "theorems": [
    "Precise.C42_keys",
    "Precise.C42_imputation"
   ],
   "note": ""
  },
  {
   "property": "C43",
   "status": "proved",
   "theorems": [
    "Precise.C43_subquery",
    "Precise.C43_before",
    "Precise.C43_iterator"
   ],
   "note": ""
  },
  {
   "property": "C44",
   "status": "proved",
   "theorems": [
    "Precise.C44_bounds",
    "Precise.C44_ids_not_reused"
   ],
   "note": ""
  },
  {
   "property": "C45",
   "status": "proved",
   "theorems": [
    "Precise.C45_substream"
   ],
   "note": ""
  },
  {
   "property": "C46",
   "status": "proved",
   "theorems": [
    "Precise.C46_stable"
   ],
   "note": ""
  },
  {
   "property": "C47",
   "status": "proved",
   "theorems": [
    "Precise.C47_retained",
    "Precise.C47_starvation",
    "Precise.C47_starvation_witness"
   ],
   "note": ""
  },
  {
   "property": "C48",
   "status": "proved",
   "theorems": [
    "Precise.C48_assembly",
    "Precise.C48_positive_definite"
   ],
   "note": ""
  },
  {
   "property": "C49",
   "status": "proved",
   "theorems": [
    "Precise.C49_terminates",
    "Precise.C49_any_start",
    "Precise.C49_pd",
    "Precise.C49_identity",
    "Precise.C49_symmetric_part",
    "Precise.C49_nearest"
   ],
   "note": ""
  },
  {
   "property": "C50",
   "status": "proved",
   "theorems": [
    "Precise.C50_floor",
    "Precise.C50_identity",
    "Precise.C50_idempotent",
    "Precise.C50_backend_independent",
    "Precise.C50_nearest",
    "Precise.C50_loewner"
   ],
   "note": ""
  },
  {
   "property": "C51",
   "status": "proved",
   "theorems": [
    "Precise.C51_registry_names",
    "Precise.C51_estimator_from_name",
    "Precise.C51_assessor_from_name"
   ],
   "note": ""
  },
  {
   "property": "C52",
   "status": "proved",
   "theorems": [
    "Precise.C52_tree_total",
    "Precise.C52_standardized"
   ],
   "note": ""
  },
  {
   "property": "C53",
   "status": "proved",
   "theorems": [
    "Precise.C53_ranking",
    "Precise.C53_negative_top",
    "Precise.C53_prefix",
    "Precise.C53_votes"
   ],
   "note": ""
  },
  {
   "property": "C54",
   "status": "proved",
   "theorems": [
    "Precise.C54_five_rankings",
    "Precise.C54_tree_effect"
   ],
   "note": ""
  },
  {
   "property": "C55",
   "status": "proved",
   "theorems": [
    "Precise.C55_ranges"
   ],
   "note": ""
  },
  {
   "property": "C56",
   "status": "proved",
   "theorems": [
    "Precise.C56_loglik_strictly_proper",
    "Precise.C56_loglik_value",
    "Precise.C56_loglik_proper",
    "Precise.C56_loglik_indefinite",
    "Precise.C56_stein_proper",
    "Precise.C56_stein_degenerate"
   ],
   "note": ""
  },
  {
   "property": "C57",
   "status": "proved",
   "theorems": [
    "Precise.C57_block_is_block_diagonal",
    "Precise.C57_block_full",
    "Precise.C57_block_bad_size",
    "Precise.C57_schur_finite",
    "Precise.C57_schur_one",
    "Precise.C57_schur_linear",
    "Precise.C57_schur_zero",
    "Precise.C57_schur_block_agree"
   ],
   "note": ""
  },
  {
   "property": "C58",
   "status": "proved",
   "theorems": [
    "Precise.C58_minimum_variance",
    "Precise.C58_scale",
    "Precise.C58_best",
    "Precise.C58_gmv_proper"
   ],
   "note": ""
  },
  {
   "property": "C59",
   "status": "proved",
   "theorems": [
    "Precise.C59_frobenius",
    "Precise.C59_variogram_invariance",
    "Precise.C59_variogram_optimal",
    "Precise.C59_variogram_proper"
   ],
   "note": ""
  },
  {
   "property": "C60",
   "status": "proved",
   "theorems": [
    "Precise.C60_reuse_ok_without_diff",
    "Precise.C60_no_reuse_ok_with_diff",
    "Precise.C60_buffer_loop_diff",
    "Precise.C60_buffer_loop_zero_cov",
    "Precise.C60_stale_location_harmless",
    "Precise.C60_location_retired",
    "Precise.C60_location_number",
    "Precise.C60_location_live"
   ],
   "note": ""
  },
  {
   "property": "C61",
   "status": "proved",
   "theorems": [
    "Precise.Shapes.C61_right_length_emp",
    "Precise.Shapes.C61_right_length_ewa",
    "Precise.Shapes.C61_zero_rate",
    "Precise.Shapes.C61_wrong_length_emp",
    "Precise.Shapes.C61_wrong_length_ewa",
    "Precise.Shapes.C61_length_one_emp",
    "Precise.Shapes.C61_length_one_ewa",
    "Precise.Shapes.C61_diff_wedged_emp",
    "Precise.Shapes.C61_diff_wedged_ewa",
    "Precise.Shapes.C61_one_dim_grows_emp",
    "Precise.Shapes.C61_one_dim_grows_ewa",
    "Precise.Shapes.C61_ragged"
   ],
   "note": ""
  },
  {
   "property": "C62",
   "status": "proved",
   "theorems": [
    "Precise.C62_dict_of_dicts",
    "Precise.C62_repeated_names",
    "Precise.C62_names_distinct",
    "Precise.C62_correlation",
    "Precise.C62_outputs",
    "Precise.C62_correlation_not_psd"
   ],
   "note": ""
  },
  {
   "property": "C63",
   "status": "proved",
   "theorems": [
    "Precise.C63_get_state_plain"
   ],
   "note": ""
  },
  {
   "property": "C64",
   "status": "proved",
   "theorems": [
    "Precise.C64_affine_shrink_entries",
    "Precise.C64_affine_shrink_pd",
    "Precise.C64_try_invert_total",
    "Precise.C64_try_invert_zero",
    "Precise.C64_try_invert_agrees"
   ],
   "note": ""
  },
  {
   "property": "C65",
   "status": "proved",
   "theorems": [
    "Precise.C65_geodesic_rigid",
    "Precise.C65_partialMoments_rotation",
    "Precise.C65_ledoitWolf_similarity",
    "Precise.C65_oas_similarity",
    "Precise.C65_shrunk_identity_similarity",
    "Precise.C65_huber_similarity",
    "Precise.C65_adaptive_similarity",
    "Precise.C65_schur_translation",
    "Precise.C65_schurLW_translation",
    "Precise.C65_schurCond_translation",
    "Precise.C65_block_translation"
   ],
   "note": ""
  },
  {
   "property": "C66",
   "status": "proved",
   "theorems": [
    "Precise.C66_empirical",
    "Precise.C66_ewa",
    "Precise.C66_ledoitWolf",
    "Precise.C66_oas",
    "Precise.C66_huber",
    "Precise.C66_adaptive",
    "Precise.C66_geodesic",
    "Precise.C66_partialMoments",
    "Precise.C66_diagonal",
    "Precise.C66_dcc",
    "Precise.C66_shrunk",
    "Precise.C66_tyler",
    "Precise.C66_factor",
    "Precise.C66_block_depends_on_order"
   ],
   "note": ""
  },
  {
   "property": "C67",
   "status": "proved",
   "theorems": [
    "Precise.C67_first_partialMoments",
    "Precise.C67_first_dcc",
    "Precise.C67_first_factor",
    "Precise.C67_not_translation_invariant",
    "Precise.C67_floor_schur",
    "Precise.C67_floor_block",
    "Precise.C67_floor_schurLW",
    "Precise.C67_floor_geodesic"
   ],
   "note": ""
  },
  {
   "property": "C68",
   "status": "proved",
   "theorems": [
    "Precise.Theory.C68_recovers_law",
    "Precise.Theory.C68_inflation",
    "Precise.Theory.C68_value",
    "Precise.Theory.C68_unique_maximizer",
    "Precise.Theory.C68_gamma_one",
    "Precise.Theory.C68_improper",
    "Precise.Theory.C68_gamma_zero",
    "Precise.Theory.C68_spd_iff",
    "Precise.Theory.C68_spd_rho2",
    "Precise.Theory.C68_threshold",
    "Precise.Theory.C68_threshold_mono",
    "Precise.Theory.C68_threshold_to_one",
    "Precise.Theory.C68_closed_form_spd"
   ],
   "note": ""
  },
  {
   "property": "C69",
   "status": "proved",
   "theorems": [
    "Precise.Theory.C69_recovers_law",
    "Precise.Theory.C69_shape",
    "Precise.Theory.C69_bound",
    "Precise.Theory.C69_value",
    "Precise.Theory.C69_unique",
    "Precise.Theory.C69_gamma_one",
    "Precise.Theory.C69_proper_at_one",
    "Precise.Theory.C69_improper",
    "Precise.Theory.C69_pd_iff",
    "Precise.Theory.C69_pd_above_one",
    "Precise.Theory.C69_two_blocks"
   ],
   "note": ""
  },
  {
   "property": "C70",
   "status": "proved",
   "theorems": [
    "Precise.Theory.C70_topcorr_unique",
    "Precise.Theory.C70_topcorr_exists",
    "Precise.Theory.C70_pd_iff",
    "Precise.Theory.C70_threshold",
    "Precise.Theory.C70_reported_not_below",
    "Precise.Theory.C70_reported_wrong",
    "Precise.Theory.C70_exact_when_white"
   ],
   "note": ""
  },
  {
   "property": "C71",
   "status": "proved",
   "theorems": [
    "Precise.Theory.C71_risk",
    "Precise.Theory.C71_unique_minimizer",
    "Precise.Theory.C71_range",
    "Precise.Theory.C71_ends",
    "Precise.Theory.C71_mono_n",
    "Precise.Theory.C71_mono_rho",
    "Precise.Theory.C71_limit"
   ],
   "note": ""
  },
  {
   "property": "C72",
   "status": "proved",
   "theorems": [
    "Precise.Theory.C72_proper",
    "Precise.Theory.C72_law",
    "Precise.Theory.C72_gaussian",
    "Precise.Theory.C72_expected",
    "Precise.Theory.C72_gamma_one",
    "Precise.Theory.C72_gamma_zero",
    "Precise.Theory.C72_mu",
    "Precise.Theory.C72_var",
    "Precise.Theory.C72_snr_inf",
    "Precise.Theory.C72_snr_sign",
    "Precise.Theory.C72_kl",
    "Precise.Theory.C72_mu_kl",
    "Precise.Theory.C72_mu_kl_damped",
    "Precise.Theory.C72_gap_moments"
   ],
   "note": ""
  },
  {
   "property": "C73",
   "status": "proved",
   "theorems": [
    "Precise.C73_named",
    "Precise.C73_usable",
    "Precise.C73_reads_only_declared",
    "Precise.C73_data_only",
    "Precise.C73_no_variables"
   ],
   "note": ""
  },
  {
   "property": "C74",
   "status": "proved",
   "theorems": [
    "Precise.C74_pickle",
    "Precise.C74_get_state",
    "Precise.C74_inputs",
    "Precise.C74_n_features"
   ],
   "note": ""
  },
  {
   "property": "C75",
   "status": "proved",
   "theorems": [
    "Precise.C75_location_in_range",
    "Precise.C75_empirical_variance",
    "Precise.C75_constant",
    "Precise.C75_ewa_variance",
    "Precise.C75_diagonal_variance",
    "Precise.C75_empirical_correlation",
    "Precise.C75_ewa_correlation",
    "Precise.C75_correlation_diagonal",
    "Precise.C75_diagonal_location",
    "Precise.C75_ewa_leaves_range",
    "Precise.C75_not_psd",
    "Precise.C75_correlation_above_one"
   ],
   "note": ""
  },
  {
   "property": "C76",
   "status": "proved",
   "theorems": [
    "Precise.C76_burn_in",
    "Precise.C76_diagonal_variance_error",
    "Precise.C76_empirical_location_error",
    "Precise.C76_empirical_covariance_error",
    "Precise.C76_ewa_location_error",
    "Precise.C76_ewa_covariance_error",
    "Precise.C76_empirical_psd",
    "Precise.C76_ewa_psd"
   ],
   "note": ""
  },
  {
   "property": "C77",
   "status": "proved",
   "theorems": [
    "Precise.C77_location_unbiased",
    "Precise.C77_covariance_bias",
    "Precise.C77_consistent",
    "Precise.C77_precision_consistent"
   ],
   "note": ""
  },
  {
   "property": "C78",
   "status": "proved",
   "theorems": [
    "Precise.C78_location",
    "Precise.C78_covariance_bias",
    "Precise.C78_factor_limit",
    "Precise.C78_diagonal_bias"
   ],
   "note": ""
  },
  {
   "property": "C79",
   "status": "proved",
   "theorems": [
    "Precise.Power.C79_conditioned",
    "Precise.Power.C79_id",
    "Precise.Power.C79_idempotent",
    "Precise.Power.C79_scale",
    "Precise.Power.C79_nearest",
    "Precise.Power.C79_negative"
   ],
   "note": ""
  },
  {
   "property": "C80",
   "status": "proved",
   "theorems": [
    "Precise.Power.C80_schur",
    "Precise.Power.C80_loglik_is_shipped",
    "Precise.Power.C80_pseudo_is_shipped",
    "Precise.Power.C80_pseudo_full",
    "Precise.Power.C80_kl",
    "Precise.Power.C80_kl_is_divergence",
    "Precise.Power.C80_loglik_orders_by_kl",
    "Precise.Power.C80_kproj_full",
    "Precise.Power.C80_kproj_proper",
    "Precise.Power.C80_frobenius",
    "Precise.Power.C80_stein",
    "Precise.Power.C80_min_variance",
    "Precise.Power.C80_min_variance_scale",
    "Precise.Power.C80_min_variance_proper",
    "Precise.Power.C80_maha_calibration",
    "Precise.Power.C80_projection_is_kproj",
    "Precise.Power.C80_projection_proper",
    "Precise.Power.C80_projection_blind"
   ],
   "note": ""
  },
  {
   "property": "C81",
   "status": "proved",
   "theorems": [
    "Precise.Power.C81_power",
    "Precise.Power.C81_power_range",
    "Precise.Power.C81_stein_zero",
    "Precise.Power.C81_loglik_one",
    "Precise.Power.C81_metrics"
   ],
   "note": ""
  },
  {
   "property": "C82",
   "status": "proved",
   "theorems": [
    "Precise.C82_empirical",
    "Precise.C82_ewa",
    "Precise.C82_diagonal",
    "Precise.C82_fit_recovers"
   ],
   "note": ""
  },
  {
   "property": "C83",
   "status": "proved",
   "theorems": [
    "Precise.C83_get_params",
    "Precise.C83_construct_rejects",
    "Precise.C83_set_params",
    "Precise.C83_clone",
    "Precise.C83_set_own",
    "Precise.C83_unknown_name",
    "Precise.C83_defaults",
    "Precise.C83_parameters",
    "Precise.C83_first_positional",
    "Precise.C83_factory"
   ],
   "note": ""
  },
  {
   "property": "C84",
   "status": "proved",
   "theorems": [
    "Precise.Oos.C84_equicorr",
    "Precise.Oos.C84_one_factor",
    "Precise.Oos.C84_three_factor",
    "Precise.Oos.C84_diag_hetero",
    "Precise.Oos.C84_spiked",
    "Precise.Oos.C84_ar1",
    "Precise.Oos.C84_heavy"
   ],
   "note": ""
  },
  {
   "property": "C85",
   "status": "proved",
   "theorems": [
    "Precise.Oos.C85_ranks",
    "Precise.Oos.C85_ranks_order",
    "Precise.Oos.C85_best_fixed",
    "Precise.Oos.C85_best_fixed_average",
    "Precise.Oos.C85_tie",
    "Precise.Oos.C85_leave_one_out",
    "Precise.Oos.C85_no_leak"
   ],
   "note": ""
  },
  {
   "property": "C86",
   "status": "proved",
   "theorems": [
    "Precise.Oos.C86_names",
    "Precise.Oos.C86_defaults",
    "Precise.Oos.C86_available",
    "Precise.Oos.C86_psd",
    "Precise.Oos.C86_psd_exceptions",
    "Precise.Oos.C86_always_pd"
   ],
   "note": ""
  },
  {
   "property": "C87",
   "status": "proved",
   "theorems": [
    "Precise.Oos.C87_two_picks",
    "Precise.Oos.C87_high_dimension",
    "Precise.Oos.C87_trial",
    "Precise.Oos.C87_sound",
    "Precise.Oos.C87_study_is_ledoit_wolf"
   ],
   "note": ""
  },
  {
   "property": "C88",
   "status": "proved",
   "theorems": [
    "Precise.Oos.C88_windows",
    "Precise.Oos.C88_each_day_once",
    "Precise.Oos.C88_no_lookahead",
    "Precise.Oos.C88_past_is_past",
    "Precise.Oos.C88_weights",
    "Precise.Oos.C88_oracle",
    "Precise.Oos.C88_volatility",
    "Precise.Oos.C88_rank",
    "Precise.Oos.C88_counts",
    "Precise.Oos.C88_recommender_is_ledoit_wolf",
    "Precise.Oos.C88_no_window",
    "Precise.Oos.C88_errors",
    "Precise.Oos.C88_completes"
   ],
   "note": ""
  },
  {
   "property": "C89",
   "status": "proved",
   "theorems": [
    "Precise.Oos.C89_leaderboard",
    "Precise.Oos.C89_dominance",
    "Precise.Oos.C89_winners",
    "Precise.Oos.C89_run",
    "Precise.Oos.C89_judges_return",
    "Precise.Oos.C89_errors",
    "Precise.Oos.C89_completes",
    "Precise.Oos.C89_empty",
    "Precise.Oos.C89_unknown_primary",
    "Precise.Oos.C89_failures_dropped",
    "Precise.Oos.C89_mean_contradicts_rank"
   ],
   "note": ""
  },
  {
   "property": "C90",
   "status": "proved",
   "theorems": [
    "Precise.Theory.C90_estimates",
    "Precise.Theory.C90_gap",
    "Precise.Theory.C90_gap_antisymmetric",
    "Precise.Theory.C90_quadform",
    "Precise.Theory.C90_variance",
    "Precise.Theory.C90_gradient",
    "Precise.Theory.C90_off_diagonal_counts_four",
    "Precise.Theory.C90_summary",
    "Precise.Theory.C90_equal_intensities"
   ],
   "note": ""
  },
  {
   "property": "C91",
   "status": "proved",
   "theorems": [
    "Precise.Theory.C91_truth",
    "Precise.Theory.C91_pair",
    "Precise.Theory.C91_ridged",
    "Precise.Theory.C91_draw_used",
    "Precise.Theory.C91_report_gamma_one",
    "Precise.Theory.C91_sizes"
   ],
   "note": ""
  },
  {
   "property": "C92",
   "status": "proved",
   "theorems": [
    "Precise.Oos.C92_sizes",
    "Precise.Oos.C92_training_data",
    "Precise.Oos.C92_regime",
    "Precise.Oos.C92_mirrors",
    "Precise.Oos.C92_predict",
    "Precise.Oos.C92_predictor",
    "Precise.Oos.C92_study",
    "Precise.Oos.C92_no_leak"
   ],
   "note": ""
  },
  {
   "property": "C93",
   "status": "proved",
   "theorems": [
    "Precise.Oos.C93_fractions_lost",
    "Precise.Oos.C93_counts_exact",
    "Precise.Oos.C93_rounding",
    "Precise.Oos.C93_guard_lost",
    "Precise.Oos.C93_shipped",
    "Precise.Oos.C93_shipped_diagnosis",
    "Precise.Oos.C93_loss_witness"
   ],
   "note": ""
  },
  {
   "property": "C94",
   "status": "proved",
   "theorems": [
    "Precise.Shapes.C94_right_length",
    "Precise.Shapes.C94_wrong_length",
    "Precise.Shapes.C94_bad_input",
    "Precise.Shapes.C94_length_one",
    "Precise.Shapes.C94_length_one_too_high",
    "Precise.Shapes.C94_one_dim_wide"
   ],
   "note": ""
  },
  {
   "property": "C95",
   "status": "proved",
   "theorems": [
    "Precise.C95_empirical",
    "Precise.C95_ewa",
    "Precise.C95_ewa_sharp",
    "Precise.C95_huber",
    "Precise.C95_adaptive",
    "Precise.C95_diagonal",
    "Precise.C95_ledoit_wolf_oas",
    "Precise.C95_shrunk",
    "Precise.C95_partial_moments",
    "Precise.C95_schur",
    "Precise.C95_block",
    "Precise.C95_geodesic",
    "Precise.C95_dcc",
    "Precise.C95_factor",
    "Precise.C95_tyler",
    "Precise.C95_out_of_box",
    "Precise.C95_schur_conditional_unbounded"
   ],
   "note": ""
  },
  {
   "property": "C96",
   "status": "proved",
   "theorems": [
    "Precise.C96_average",
    "Precise.C96_max",
    "Precise.C96_max_sharp",
    "Precise.C96_own_score",
    "Precise.C96_ewa_last",
    "Precise.C96_ewa_last_sharp",
    "Precise.C96_shrinkage_last"
   ],
   "note": ""
  },
  {
   "property": "C97",
   "status": "proved",
   "theorems": [
    "Precise.C97_ewa",
    "Precise.C97_empirical",
    "Precise.C97_diagonal",
    "Precise.C97_locations",
    "Precise.C97_locations_blocks",
    "Precise.C97_empirical_sharp",
    "Precise.C97_precision_unstable"
   ],
   "note": ""
  },
  {
   "property": "C98",
   "status": "proved",
   "theorems": [
    "Precise.C98_shrunk_zero",
    "Precise.C98_huber_inliers",
    "Precise.C98_factor_zero",
    "Precise.C98_ewa_rate_one",
    "Precise.C98_one_variable_shrinkage",
    "Precise.C98_one_variable_blocks",
    "Precise.C98_one_variable_tyler",
    "Precise.C98_one_variable_partial_moments",
    "Precise.C98_one_variable_geodesic"
   ],
   "note": ""
  },
  {
   "property": "C99",
   "status": "proved",
   "theorems": [
    "Precise.C99_invisible",
    "Precise.C99_zero_iff",
    "Precise.C99_nonneg_iff",
    "Precise.C99_score_bot_iff",
    "Precise.C99_empirical_relation",
    "Precise.C99_ewa_relation",
    "Precise.C99_tyler_negative"
   ],
   "note": ""
  },
  {
   "property": "C100",
   "status": "proved",
   "theorems": [
    "Precise.C100_level",
    "Precise.C100_detrends",
    "Precise.C100_empirical_trend",
    "Precise.C100_ewa_trend",
    "Precise.C100_ledoitWolf_trend",
    "Precise.C100_oas_trend",
    "Precise.C100_huber_trend",
    "Precise.C100_adaptive_trend",
    "Precise.C100_geodesic_trend",
    "Precise.C100_drift",
    "Precise.C100_blocks_trend",
    "Precise.C100_partialMoments_keeps_trend"
   ],
   "note": ""
  },
  {
   "property": "C101",
   "status": "proved",
   "theorems": [
    "Precise.Power.C101_table",
    "Precise.Power.C101_truth",
    "Precise.Power.C101_estimate",
    "Precise.Power.C101_tail_pair",
    "Precise.Power.C101_high_dim",
    "Precise.Power.C101_clean_pair",
    "Precise.Power.C101_clean",
    "Precise.Power.C101_clean_shipped",
    "Precise.Power.C101_clean_bulk",
    "Precise.Power.C101_schur_pair",
    "Precise.Power.C101_schur_estimate",
    "Precise.Power.C101_schur",
    "Precise.Power.C101_schur_sizes",
    "Precise.Power.C101_projection",
    "Precise.Power.C101_noisy_full_differs",
    "Precise.Power.C101_double_count"
   ],
   "note": ""
  },
  {
   "property": "C102",
   "status": "proved",
   "theorems": [
    "Precise.C102_second_residual",
    "Precise.C102_second_row_decides",
    "Precise.C102_never_forgotten",
    "Precise.C102_default_two_hundred_rows",
    "Precise.C102_location",
    "Precise.C102_variance_gap",
    "Precise.C102_variance_order",
    "Precise.C102_first_row",
    "Precise.C102_opposite_signs"
   ],
   "note": ""
  },
  {
   "property": "C103",
   "status": "proved",
   "theorems": [
    "Precise.C103_state_numbers",
    "Precise.C103_factor_numbers",
    "Precise.C103_block_numbers",
    "Precise.C103_bound",
    "Precise.C103_one_row"
   ],
   "note": ""
  },
  {
   "property": "C104",
   "status": "proved",
   "theorems": [
    "Precise.C104_ledoit_wolf",
    "Precise.C104_oas",
    "Precise.C104_shrunk",
    "Precise.C104_dcc"
   ],
   "note": ""
  },
  {
   "property": "C105",
   "status": "proved",
   "theorems": [
    "Precise.Power.C105_score",
    "Precise.Power.C105_score_one",
    "Precise.Power.C105_score_zero",
    "Precise.Power.C105_endpoints",
    "Precise.Power.C105_estimates",
    "Precise.Power.C105_estimate",
    "Precise.Power.C105_structured",
    "Precise.Power.C105_no_trials",
    "Precise.Power.C105_order_not_checked",
    "Precise.Power.C105_interior_differs",
    "Precise.Theory.C105_pair",
    "Precise.Theory.C105_pair_reversed"
   ],
   "note": ""
  },
  {
   "property": "C106",
   "status": "proved",
   "theorems": [
    "Precise.Theory.C106_slope",
    "Precise.Theory.C106_optimal",
    "Precise.Theory.C106_risk",
    "Precise.Theory.C106_few_observations",
    "Precise.Theory.C106_formula_few",
    "Precise.Theory.C106_ab_s",
    "Precise.Theory.C106_simulation_unbiased",
    "Precise.Theory.C106_simulation_consistent"
   ],
   "note": ""
  },
  {
   "property": "C107",
   "status": "proved",
   "theorems": [
    "Precise.Theory.C107_argmax",
    "Precise.Theory.C107_report_column",
    "Precise.Theory.C107_random_spd",
    "Precise.Theory.C107_local_search",
    "Precise.Theory.C107_units",
    "Precise.Theory.C107_gaussian_gap",
    "Precise.Theory.C107_montecarlo",
    "Precise.Theory.C107_montecarlo_nan"
   ],
   "note": ""
  },
  {
   "property": "C108",
   "status": "proved",
   "theorems": [
    "Precise.C108_schur_nonexpansive",
    "Precise.C108_block_nonexpansive",
    "Precise.C108_shrunk_nonexpansive",
    "Precise.C108_vanishes",
    "Precise.C108_ewa_forgets",
    "Precise.C108_schur_forgets",
    "Precise.C108_block_forgets",
    "Precise.C108_shrunk_forgets",
    "Precise.C108_diagonal_forgets",
    "Precise.C108_schur_stable",
    "Precise.C108_shrunk_stable",
    "Precise.C108_adaptive_hangover",
    "Precise.C108_adaptive_one_outlier",
    "Precise.C108_factor_blind",
    "Precise.C108_factor_blind_witness"
   ],
   "note": ""
  },
  {
   "property": "C109",
   "status": "proved",
   "theorems": [
    "Precise.Legacy.C109_expected",
    "Precise.Legacy.C109_expected_antitone",
    "Precise.Legacy.C109_expected_value",
    "Precise.Legacy.C109_change",
    "Precise.Legacy.C109_change_upset",
    "Precise.Legacy.C109_key",
    "Precise.Legacy.C109_total",
    "Precise.Legacy.C109_matches",
    "Precise.Legacy.C109_second_call",
    "Precise.Legacy.C109_between",
    "Precise.Legacy.C109_history",
    "Precise.Legacy.C109_runs",
    "Precise.Legacy.C109_bad_key",
    "Precise.Legacy.C109_battles",
    "Precise.Legacy.C109_no_double",
    "Precise.Legacy.C109_stale",
    "Precise.Legacy.C109_no_burn",
    "Precise.Legacy.C109_rankings",
    "Precise.Legacy.C109_train_after_test",
    "Precise.Legacy.C109_points",
    "Precise.Legacy.C109_race"
   ],
   "note": ""
  },
  {
   "property": "C110",
   "status": "proved",
   "theorems": [
    "Precise.C110_emp_ewa",
    "Precise.C110_diagonal",
    "Precise.C110_shrunk",
    "Precise.C110_ledoitWolf",
    "Precise.C110_oas",
    "Precise.C110_dcc",
    "Precise.C110_geodesic",
    "Precise.C110_schur",
    "Precise.C110_block",
    "Precise.C110_schurLW",
    "Precise.C110_schurConditional",
    "Precise.C110_partialMoments",
    "Precise.C110_conditional",
    "Precise.C110_correlation",
    "Precise.C110_huber",
    "Precise.C110_adaptive",
    "Precise.C110_jump_not_continuous",
    "Precise.C110_factor_jump",
    "Precise.C110_huber_jump",
    "Precise.C110_adaptive_jump",
    "Precise.C110_tyler_jump"
   ],
   "note": ""
  },
  {
   "property": "C111",
   "status": "proved",
   "theorems": [
    "Precise.C111_fixed_raises_iff",
    "Precise.C111_fixed_rejected",
    "Precise.C111_fixed_leak",
    "Precise.C111_fixed_no_leak",
    "Precise.C111_fixed_learn_many",
    "Precise.C111_cond_no_failure",
    "Precise.C111_cond_torn",
    "Precise.C111_cond_mixed",
    "Precise.C111_cond_batch",
    "Precise.C111_cond_counts",
    "Precise.C111_cond_recovers",
    "Precise.C111_cond_witness",
    "Precise.C111_dyn_raises_iff",
    "Precise.C111_dyn_torn",
    "Precise.C111_dyn_rejected",
    "Precise.C111_dyn_retry",
    "Precise.C111_dyn_learn_many",
    "Precise.C111_dyn_witness"
   ],
   "note": ""
  },
  {
   "property": "C112",
   "status": "proved",
   "theorems": [
    "Precise.C112_fixed",
    "Precise.C112_fixed_in_order",
    "Precise.C112_dyn",
    "Precise.C112_dyn_in_order",
    "Precise.C112_dyn_item_order",
    "Precise.C112_order_free",
    "Precise.C112_block_depends_on_order"
   ],
   "note": ""
  },
  {
   "property": "C113",
   "status": "proved",
   "theorems": [
    "Precise.C113_right_length",
    "Precise.C113_wrong_length",
    "Precise.C113_single_number",
    "Precise.C113_mixture",
    "Precise.C113_witness"
   ],
   "note": ""
  },
  {
   "property": "C114",
   "status": "proved",
   "theorems": [
    "Precise.C114_ewa",
    "Precise.C114_empirical",
    "Precise.C114_diagonal",
    "Precise.C114_shrunk",
    "Precise.C114_oas",
    "Precise.C114_schur",
    "Precise.C114_block",
    "Precise.C114_ledoitWolf",
    "Precise.C114_schurLW",
    "Precise.C114_dcc",
    "Precise.C114_geodesic",
    "Precise.C114_same_stream",
    "Precise.C114_correlation",
    "Precise.C114_locations",
    "Precise.C114_schurConditional_location",
    "Precise.C114_partialMoments",
    "Precise.C114_conditional",
    "Precise.C114_conditional_ewa",
    "Precise.C114_tyler_never",
    "Precise.C114_tyler",
    "Precise.C114_huber",
    "Precise.C114_factor",
    "Precise.C114_adaptive_capped",
    "Precise.C114_factor_location",
    "Precise.C114_schurConditional",
    "Precise.C114_schurConditional_gamma"
   ],
   "note": ""
  },
  {
   "property": "C115",
   "status": "proved",
   "theorems": [
    "Precise.C115_ewa",
    "Precise.C115_same_location",
    "Precise.C115_same_location_blocks",
    "Precise.C115_adaptive",
    "Precise.C115_dcc",
    "Precise.C115_factor",
    "Precise.C115_empirical",
    "Precise.C115_conditional",
    "Precise.C115_huber",
    "Precise.C115_huber_freezes",
    "Precise.C115_huber_short",
    "Precise.C115_huber_stuck"
   ],
   "note": ""
  },
  {
   "property": "C116",
   "status": "proved",
   "theorems": [
    "Precise.C116_reads_change_nothing",
    "Precise.C116_last_read",
    "Precise.C116_last_read_conditional",
    "Precise.C116_which_reads",
    "Precise.C116_raising_read",
    "Precise.C116_none_until_read",
    "Precise.C116_explains",
    "Precise.C116_stale"
   ],
   "note": ""
  },
  {
   "property": "C117",
   "status": "proved",
   "theorems": [
    "Precise.C117_rebuilds",
    "Precise.C117_tells_apart",
    "Precise.C117_factory",
    "Precise.C117_judges",
    "Precise.C117_judge_str",
    "Precise.C117_fixed",
    "Precise.C117_dynamic",
    "Precise.C117_fixed_same_text"
   ],
   "note": ""
  },
  {
   "property": "C118",
   "status": "proved",
   "theorems": [
    "Precise.C118_lost_update",
    "Precise.C118_lost_history",
    "Precise.C118_reader",
    "Precise.C118_reader_unfitted",
    "Precise.C118_fit_race",
    "Precise.C118_diff_race",
    "Precise.C118_shipped",
    "Precise.C118_explained",
    "Precise.C118_guarantees",
    "Precise.C118_ewa_psd",
    "Precise.C118_count",
    "Precise.C118_wait_free",
    "Precise.C118_locked",
    "Precise.C118_locked_count",
    "Precise.C118_locked_empirical",
    "Precise.C118_alone",
    "Precise.C118_alone_fit"
   ],
   "note": ""
  },
  {
   "property": "C119",
   "status": "proved",
   "theorems": [
    "Precise.C119_mean_empirical",
    "Precise.C119_mean_ewa",
    "Precise.C119_vanishing_empirical",
    "Precise.C119_vanishing_ewa",
    "Precise.C119_present_empirical",
    "Precise.C119_present_ewa",
    "Precise.C119_ffill_constant",
    "Precise.C119_mean_diff_jump"
   ],
   "note": ""
  },
  {
   "property": "C120",
   "status": "proved",
   "theorems": [
    "Precise.C120_empirical",
    "Precise.C120_ewa",
    "Precise.C120_diagonal",
    "Precise.C120_subset",
    "Precise.C120_signs",
    "Precise.C120_units",
    "Precise.C120_underflow"
   ],
   "note": ""
  },
  {
   "property": "C121",
   "status": "proved",
   "theorems": [
    "Precise.C121_increments",
    "Precise.C121_trend",
    "Precise.C121_no_gaps",
    "Precise.C121_gap_witness",
    "Precise.C121_late_start"
   ],
   "note": ""
  },
  {
   "property": "C122",
   "status": "proved",
   "theorems": [
    "Precise.C122_empirical",
    "Precise.C122_ewa",
    "Precise.C122_ewa_forever",
    "Precise.C122_ewa_rate_one",
    "Precise.C122_diagonal",
    "Precise.C122_fit_recovers"
   ],
   "note": ""
  },
  {
   "property": "C123",
   "status": "proved",
   "theorems": [
    "Precise.C123_empirical",
    "Precise.C123_ewa",
    "Precise.C123_duplicate",
    "Precise.C123_ledoit_wolf",
    "Precise.C123_oas",
    "Precise.C123_shrunk",
    "Precise.C123_huber",
    "Precise.C123_adaptive",
    "Precise.C123_location",
    "Precise.C123_location_blocks",
    "Precise.C123_location_dcc",
    "Precise.C123_factor"
   ],
   "note": ""
  },
  {
   "property": "C124",
   "status": "proved",
   "theorems": [
    "Precise.C124_empirical",
    "Precise.C124_ewa",
    "Precise.C124_diagonal",
    "Precise.C124_factor",
    "Precise.C124_factor_stream",
    "Precise.C124_block",
    "Precise.C124_block_contrast",
    "Precise.C124_dynamic",
    "Precise.C124_as_ewa",
    "Precise.C124_quadratic",
    "Precise.C124_lapack",
    "Precise.C124_huber_inverts"
   ],
   "note": ""
  },
  {
   "property": "C125",
   "status": "proved",
   "theorems": [
    "Precise.C125_empirical_ewa",
    "Precise.C125_diagonal",
    "Precise.C125_dcc",
    "Precise.C125_partialMoments",
    "Precise.C125_location",
    "Precise.C125_location_blocks",
    "Precise.C125_location_factor",
    "Precise.C125_shrunk_variances",
    "Precise.C125_dead_column_huber_adaptive",
    "Precise.C125_dead_column_factor",
    "Precise.C125_dead_column_oas"
   ],
   "note": ""
  },
  {
   "property": "C126",
   "status": "proved",
   "theorems": [
    "Precise.C126_row_order",
    "Precise.C126_columns",
    "Precise.C126_units",
    "Precise.C126_copies",
    "Precise.C126_tiny",
    "Precise.C126_units_decide",
    "Precise.C126_one_column_units"
   ],
   "note": ""
  },
  {
   "property": "C127",
   "status": "proved",
   "theorems": [
    "Precise.C127_pool",
    "Precise.C127_between",
    "Precise.C127_many",
    "Precise.C127_again",
    "Precise.C127_take_back",
    "Precise.C127_shows_ewa",
    "Precise.C127_shows_huber",
    "Precise.C127_shows_diagonal",
    "Precise.C127_shows_empirical",
    "Precise.C127_hides_empirical"
   ],
   "note": ""
  },
  {
   "property": "C128",
   "status": "proved",
   "theorems": [
    "Precise.C128_oas",
    "Precise.C128_ledoit_wolf",
    "Precise.C128_few",
    "Precise.C128_shrunk_stays",
    "Precise.C128_schur_ledoit_wolf",
    "Precise.C128_schur_conditional",
    "Precise.C128_schur_ledoit_wolf_dist"
   ],
   "note": ""
  },
  {
   "property": "C129",
   "status": "proved",
   "theorems": [
    "Precise.C129_empirical",
    "Precise.C129_ewa",
    "Precise.C129_ledoitWolf",
    "Precise.C129_oas",
    "Precise.C129_shrunk_identity",
    "Precise.C129_huber",
    "Precise.C129_adaptive",
    "Precise.C129_geodesic",
    "Precise.C129_partialMoments",
    "Precise.C129_diagonal",
    "Precise.C129_dcc",
    "Precise.C129_tyler",
    "Precise.C129_factor",
    "Precise.C129_schur",
    "Precise.C129_schurLW",
    "Precise.C129_block",
    "Precise.C129_schurCond",
    "Precise.C129_no_direction",
    "Precise.C129_zero_mean",
    "Precise.C129_location_symmetric",
    "Precise.C129_location_unbiased",
    "Precise.C129_reflects",
    "Precise.C129_constant_target",
    "Precise.C129_shrunk_depends_on_signs",
    "Precise.C129_shrunk_reports_noise"
   ],
   "note": ""
  },
  {
   "property": "C130",
   "status": "proved",
   "theorems": [
    "Precise.C130_ewa",
    "Precise.C130_same_location",
    "Precise.C130_same_location_blocks",
    "Precise.C130_dcc",
    "Precise.C130_factor",
    "Precise.C130_ewa_covariance",
    "Precise.C130_diagonal",
    "Precise.C130_average",
    "Precise.C130_average_covariance",
    "Precise.C130_portfolio",
    "Precise.C130_empirical_fails"
   ],
   "note": ""
  },
  {
   "property": "C131",
   "status": "proved",
   "theorems": [
    "Precise.C131_ergodic",
    "Precise.C131_ergodic_precision",
    "Precise.C131_trend",
    "Precise.C131_trend_correlation",
    "Precise.C131_trend_diff",
    "Precise.C131_trailing",
    "Precise.C131_trend_empirical",
    "Precise.C131_seasonal",
    "Precise.C131_seasonal_empirical"
   ],
   "note": ""
  },
  {
   "property": "C132",
   "status": "proved",
   "theorems": [
    "Precise.C132_reorder",
    "Precise.C132_reorder_covariance",
    "Precise.C132_duplicate",
    "Precise.C132_drop",
    "Precise.C132_covariance_fades",
    "Precise.C132_empirical_duplicate"
   ],
   "note": ""
  },
  {
   "property": "C133",
   "status": "proved",
   "theorems": [
    "Precise.C133_ewa",
    "Precise.C133_same_location",
    "Precise.C133_same_location_paths",
    "Precise.C133_blocks",
    "Precise.C133_dcc",
    "Precise.C133_factor",
    "Precise.C133_diagonal",
    "Precise.C133_worse_than_constant",
    "Precise.C133_empirical"
   ],
   "note": ""
  },
  {
   "property": "C134",
   "status": "proved",
   "theorems": [
    "Precise.C134_hedge",
    "Precise.C134_inflation",
    "Precise.C134_partial",
    "Precise.C134_least_squares",
    "Precise.C134_ewa_least_squares",
    "Precise.C134_more_columns",
    "Precise.C134_more_columns_classes"
   ],
   "note": ""
  },
  {
   "property": "C135",
   "status": "proved",
   "theorems": [
    "Precise.C135_empirical_replace",
    "Precise.C135_empirical_sensitivity",
    "Precise.C135_leave_one_out",
    "Precise.C135_ewa_replace",
    "Precise.C135_ewa_sensitivity"
   ],
   "note": ""
  },
  {
   "property": "C136",
   "status": "proved",
   "theorems": [
    "Precise.C136_portfolio",
    "Precise.C136_condition",
    "Precise.C136_identity",
    "Precise.C136_oas",
    "Precise.C136_plain_unbounded"
   ],
   "note": ""
  },
  {
   "property": "C137",
   "status": "proved",
   "theorems": [
    "Precise.C137_ewa",
    "Precise.C137_empirical",
    "Precise.C137_ewa_alarms",
    "Precise.C137_empirical_alarms",
    "Precise.C137_volume_grows"
   ],
   "note": ""
  },
  {
   "property": "C138",
   "status": "proved",
   "theorems": [
    "Precise.C138_ewa",
    "Precise.C138_empirical"
   ],
   "note": ""
  },
  {
   "property": "C139",
   "status": "proved",
   "theorems": [
    "Precise.C139_empirical",
    "Precise.C139_ewa",
    "Precise.C139_empirical_risk",
    "Precise.C139_ewa_risk"
   ],
   "note": ""
  },
  {
   "property": "C140",
   "status": "proved",
   "theorems": [
    "Precise.C140_empirical",
    "Precise.C140_ewa"
   ],
   "note": ""
  }
 ]
}