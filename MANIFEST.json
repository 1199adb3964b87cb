{"claims": [
{"property": "C01", "status": "proved", "theorems": ["Verif.C01_filter_exact_posterior"], "note": ""},
{"property": "C02", "status": "proved", "theorems": ["Verif.C02_smooth_exact_posterior"], "note": ""},
{"property": "C03", "status": "proved", "theorems": ["Verif.C03_pair_exact_posterior"], "note": ""},
{"property": "C04", "status": "proved", "theorems": ["Verif.C04_loglik_is_log_density", "Verif.C04_loglik_is_log_density_posDef"], "note": ""},
{"property": "C05", "status": "partial", "theorems": ["Verif.C05_em_monotone_partial", "Verif.C05_em_monotone_sequence_partial", "Verif.C05_fails"], "note": "Proved for all data, masks, selections and iteration counts when the parameters em computes, and the covariances weighing them, are constant in time. False otherwise (C05_fails: transition covariance per time step, offset selected). An observation covariance per time step makes loglikelihood raise (C49)."},
{"property": "C06", "status": "partial", "theorems": ["Verif.C06_fails", "Verif.C06_maximiser_partial", "Verif.C06_states_exist", "Verif.C06_maximiser_posterior_partial"], "note": "Proved for every selected parameter whose weighing covariance is constant in time, for all data and masks, both for any random states with the smoothed moments and for the posterior (condDistrib). False otherwise (C06_fails)."},
{"property": "C07", "status": "proved", "theorems": ["Verif.C07_gain_optimal"], "note": ""},
{"property": "C08", "status": "proved", "theorems": ["Verif.C08_covariances_psd"], "note": ""},
{"property": "C09", "status": "proved", "theorems": ["Verif.C09_uncertainty_decreases"], "note": ""},
{"property": "C10", "status": "proved", "theorems": ["Verif.C10_covariances_ignore_values"], "note": ""},
{"property": "C11", "status": "proved", "theorems": ["Verif.C11_filter_causal"], "note": ""},
{"property": "C12", "status": "proved", "theorems": ["Verif.C12_update_is_next_row", "Verif.C12_online_equals_batch"], "note": ""},
{"property": "C13", "status": "proved", "theorems": ["Verif.C13_smooth_resume", "Verif.C13_smooth_interface", "Verif.C13_filter_resume"], "note": ""},
{"property": "C14", "status": "proved", "theorems": ["Verif.C14_last_smoothed_is_last_filtered"], "note": ""},
{"property": "C15", "status": "proved", "theorems": ["Verif.C15_masked_values_irrelevant"], "note": ""},
{"property": "C16", "status": "proved", "theorems": ["Verif.C16_no_observations_prior"], "note": ""},
{"property": "C17", "status": "proved", "theorems": ["Verif.C17_loglik_sum", "Verif.C17_loglik_append", "Verif.C17_loglik_masked_row"], "note": ""},
{"property": "C18", "status": "proved", "theorems": ["Verif.C18_constant_equals_repeated"], "note": ""},
{"property": "C19", "status": "proved", "theorems": ["Verif.C19_index_error_iff", "Verif.C19_surplus_ignored"], "note": ""},
{"property": "C20", "status": "proved", "theorems": ["Verif.C20_offsets_in_state", "Verif.C20_state_coordinates"], "note": ""},
{"property": "C21", "status": "proved", "theorems": ["Verif.C21_observation_coordinates", "Verif.C21_observation_coordinates_loglik"], "note": ""},
{"property": "C22", "status": "proved", "theorems": ["Verif.C22_zero_observation_matrix"], "note": ""},
{"property": "C23", "status": "proved", "theorems": ["Verif.C23_em_only_selected", "Verif.C23_em_nothing", "Verif.C23_em_add", "Verif.C23_em_succeeds"], "note": ""},
{"property": "C24", "status": "proved", "theorems": ["Verif.C24_em_covariances_psd", "Verif.C24_em_covariances_posDef"], "note": ""},
{"property": "C25", "status": "proved", "theorems": ["Verif.C25_dimensions", "Verif.C25_succeeds_iff", "Verif.C25_value_error", "Verif.C25_order", "Verif.C25_not_square_accepted"], "note": ""},
{"property": "C26", "status": "proved", "theorems": ["Verif.C26_resolves", "Verif.C26_succeeds", "Verif.C26_value_error", "Verif.C26_parameters"], "note": ""},
{"property": "C27", "status": "proved", "theorems": ["Verif.C27_filter_update_arguments", "Verif.C27_filter_update_no_observation"], "note": ""},
{"property": "C28", "status": "proved", "theorems": ["Verif.C28_empty_sequence", "Verif.C28_scalar", "Verif.C28_three_dimensions", "Verif.C28_sequence", "Verif.C28_two_dimensional", "Verif.C28_single_row", "Verif.C28_idempotent", "Verif.C28_methods_see"], "note": ""},
{"property": "C29", "status": "proved", "theorems": ["Verif.C29_filter_eq", "Verif.C29_smooth_eq", "Verif.C29_loglikelihood_eq", "Verif.C29_em_eq", "Verif.C29_filter_update_eq", "Verif.C29_not_posDef", "Verif.C29_time_varying"], "note": ""},
{"property": "C30", "status": "proved", "theorems": ["Verif.C30_filter_eq", "Verif.C30_smooth_eq", "Verif.C30_loglikelihood_eq", "Verif.C30_em_eq", "Verif.C30_no_rows", "Verif.C30_time_varying", "Verif.C30_filter_update_eq", "Verif.C30_fails_for_integer_initial_covariance"], "note": "Holds for float covariances; for an integer initial covariance the claim is false (C30_fails_for_integer_initial_covariance): udu works in place on the integer dtype and truncates."},
{"property": "C31", "status": "proved", "theorems": ["Verif.C31_udu", "Verif.C31_fails_for_integer_dtype", "Verif.C31_indefinite_not_caught", "Verif.C31_assertion", "Verif.C31_upper_triangle"], "note": "Holds for float arrays; false for integer dtype (C31_fails_for_integer_dtype)."},
{"property": "C32", "status": "proved", "theorems": ["Verif.C32_scalar_update"], "note": ""},
{"property": "C33", "status": "proved", "theorems": ["Verif.C33_sequential_eq_joint", "Verif.C33_decorrelated"], "note": ""},
{"property": "C34", "status": "proved", "theorems": ["Verif.C34_moments", "Verif.C34_affine", "Verif.C34_not_posDef"], "note": ""},
{"property": "C35", "status": "proved", "theorems": ["Verif.C35_filter_eq", "Verif.C35_filter_eq_kalman", "Verif.C35_not_posDef"], "note": ""},
{"property": "C36", "status": "proved", "theorems": ["Verif.C36_smooth_eq_kalman", "Verif.C36_smooth_eq"], "note": ""},
{"property": "C37", "status": "proved", "theorems": ["Verif.C37_filter_eq", "Verif.C37_eq_kalman"], "note": ""},
{"property": "C38", "status": "proved", "theorems": ["Verif.C38_masked_values", "Verif.C38_causal", "Verif.C38_additive_online", "Verif.C38_online", "Verif.C38_no_observation", "Verif.C38_last_smoothed"], "note": ""},
{"property": "C39", "status": "partial", "theorems": ["Verif.C39_flat_list_uses_first", "Verif.C39_general_flat_list_uses_first", "Verif.C39_fails_for_lists", "Verif.C39_nested_partial"], "note": "The documented claim is false: for a list of functions the first one is used at every step (C39_flat_list_uses_first, C39_fails_for_lists). What holds: arrays of functions with a second axis of length one."},
{"property": "C40", "status": "partial", "theorems": ["Verif.C40_smooth_sensor_partial", "Verif.C40_filter_partial", "Verif.C40_affine_filter_partial", "Verif.C40_filter_update_partial", "Verif.C40_smooth_partial", "Verif.C40_smooth_two_partial", "Verif.C40_smooth_missing_last", "Verif.C40_smooth_divides_by_zero", "Verif.C40_fails_two_observations", "Verif.C40_adds_wrong_covariance", "Verif.C40_fails_correlated_noise", "Verif.C40_fails_from_four_dimensions"], "note": "The claim as documented is false; proved counterexamples: two observation dimensions, correlated transition noise, four or more state dimensions, and the smoother divides by zero whenever the state has at least two more dimensions than the observation, or at least two and the last row is missing. What holds: filter and filter_update for one observation dimension, diagonal Q, and at most three state dimensions or affine functions; smoother for scalar observations and one state dimension, and for two exactly if every row after the first improves the first component."},
{"property": "C41", "status": "proved", "theorems": ["Verif.C41_cholupdate", "Verif.C41_eq_cholesky", "Verif.C41_update", "Verif.C41_clips", "Verif.C41_singular"], "note": "Holds whenever the updated matrix is positive definite. Otherwise cholupdate does not raise: it clips (C41_clips) or divides by zero (C41_singular)."},
{"property": "C42", "status": "proved", "theorems": ["Verif.C42_state_equations", "Verif.C42_initial_state", "Verif.C42_law", "Verif.C42_additive_unscented", "Verif.C42_unscented"], "note": ""},
{"property": "C43", "status": "partial", "theorems": ["Verif.C43_uses_first_covariance", "Verif.C43_constant_partial", "Verif.C43_fails"], "note": "The claim is false in the code: sample overwrites its covariance variables, so time-varying covariances are read at index 0 only (C43_uses_first_covariance, C43_fails). The partial theorem covers constant covariances."},
{"property": "C44", "status": "partial", "theorems": ["Verif.C44_bierman_filter_update_shape_partial", "Verif.C44_cholesky_filter_update_shape_partial", "Verif.C44_fails_shape", "Verif.C44_fails_fed_back", "Verif.C44_stored_partial"], "note": "The code returns a covariance of shape (1, n, n), for all three classes and all inputs (C44_fails_shape); passing it on makes the next call fail (C44_fails_fed_back). Proved instead: the contained matrix is right, and storing it in a slot of an array (which drops the axis) makes online updating equal filter. Missing: the documented shape, which is false."},
{"property": "C45", "status": "partial", "theorems": ["Verif.C45_default_partial", "Verif.C45_fails", "Verif.C45_named", "Verif.C45_assignment_ignored"], "note": "Proved for KalmanFilter; false for the Cholesky and Bierman classes, which raise TypeError with default arguments (C45_fails)."},
{"property": "C46", "status": "partial", "theorems": ["Verif.C46_seeds_partial", "Verif.C46_fails", "Verif.C46_invalid_seed_breaks_methods"], "note": "The mapping is proved; the documented ValueError for invalid seeds is false in the code (C46_fails: AttributeError)."},
{"property": "C47", "status": "proved", "theorems": ["Verif.C47_zero_innovations"], "note": ""},
{"property": "C48", "status": "proved", "theorems": ["Verif.C48_superposition", "Verif.C48_known_inputs", "Verif.C48_means_affine"], "note": ""},
{"property": "C49", "status": "partial", "theorems": ["Verif.C49_fails_for_time_varying_covariance", "Verif.C49_negation", "Verif.C49_loglik_accepts_what_filter_accepts_partial"], "note": "Documented support for time-varying observation covariances in loglikelihood is false (ValueError)."},
{"property": "C50", "status": "proved", "theorems": ["Verif.C50_load_robot", "Verif.C50_padded", "Verif.C50_first_row"], "note": ""},
{"property": "C51", "status": "proved", "theorems": ["Verif.C51_smooth_monotone", "Verif.C51_filter_monotone"], "note": ""},
{"property": "C52", "status": "proved", "theorems": ["Verif.C52_posDef", "Verif.C52_fails_from_four_dimensions"], "note": ""},
{"property": "C53", "status": "proved", "theorems": ["Verif.C53_additive_filter", "Verif.C53_additive_smooth", "Verif.C53_additive_update", "Verif.C53_filter", "Verif.C53_smooth", "Verif.C53_update"], "note": ""},
{"property": "C54", "status": "proved", "theorems": ["Verif.C54_filter_error", "Verif.C54_smooth_error"], "note": ""},
{"property": "C55", "status": "proved", "theorems": ["Verif.C55_innovations"], "note": ""},
{"property": "C56", "status": "proved", "theorems": ["Verif.C56_constructor", "Verif.C56_additive_methods", "Verif.C56_general_methods", "Verif.C56_defaults_agree", "Verif.C56_default_observation", "Verif.C56_functions_read", "Verif.C56_general_functions_read"], "note": ""},
{"property": "C57", "status": "proved", "theorems": ["Verif.C57_cubic_mean", "Verif.C57_quadratic_mean", "Verif.C57_one_dimension", "Verif.C57_general_mean", "Verif.C57_expected_observation", "Verif.C57_fails_for_degree_four"], "note": ""},
{"property": "C58", "status": "proved", "theorems": ["Verif.C58_methods", "Verif.C58_classes_agree", "Verif.C58_posterior", "Verif.C58_em", "Verif.C58_em_sqrt", "Verif.C58_em_twice"], "note": ""},
{"property": "C59", "status": "proved", "theorems": ["Verif.C59_smooth_least_squares", "Verif.C59_filter_least_squares"], "note": ""},
{"property": "C60", "status": "proved", "theorems": ["Verif.C60_filter_linear", "Verif.C60_smooth_linear"], "note": ""},
{"property": "C61", "status": "proved", "theorems": ["Verif.C61_filter_initial_mean", "Verif.C61_smooth_initial_mean"], "note": ""},
{"property": "C62", "status": "proved", "theorems": ["Verif.C62_initial_covariance", "Verif.C62_initial_mean"], "note": ""},
{"property": "C63", "status": "proved", "theorems": ["Verif.C63_steady_state", "Verif.C63_initial_mean_fades"], "note": ""},
{"property": "C64", "status": "proved", "theorems": ["Verif.C64_filter_smooth", "Verif.C64_smooth_smooth", "Verif.C64_loglik_smooth", "Verif.C64_filter_singular_discontinuous"], "note": ""},
{"property": "C65", "status": "proved", "theorems": ["Verif.C65_fixed_point_critical", "Verif.C65_limit_fixed", "Verif.C65_limit_critical"], "note": ""},
{"property": "C66", "status": "partial", "theorems": ["Verif.C66_native_partial", "Verif.C66_native_all_partial", "Verif.C66_foreign_byteswapped", "Verif.C66_fails"], "note": "The claim is false for arrays stored in the other byte order (C66_fails): newbyteorder is a view, so the bytes of each double are read in reverse (C66_foreign_byteswapped). What holds: arrays in native order."},
{"property": "C67", "status": "proved", "theorems": ["Verif.C67_never_worse_than_sensor", "Verif.C67_exact_sensor", "Verif.C67_exact_reading", "Verif.C67_exact_any_reading"], "note": ""},
{"property": "C68", "status": "proved", "theorems": ["Verif.C68_two_sensors", "Verif.C68_order_of_sensors", "Verif.C68_stacked_run"], "note": ""},
{"property": "C69", "status": "proved", "theorems": ["Verif.C69_only_noise_ratios"], "note": ""},
{"property": "C70", "status": "proved", "theorems": ["Verif.C70_known_quantities"], "note": ""},
{"property": "C71", "status": "proved", "theorems": ["Verif.C71_gap_filter", "Verif.C71_gap_smooth", "Verif.C71_gap_loglik", "Verif.C71_time_origin"], "note": ""},
{"property": "C72", "status": "proved", "theorems": ["Verif.C72_linear_regression", "Verif.C72_order_of_rows"], "note": ""},
{"property": "C73", "status": "proved", "theorems": ["Verif.C73_filter_infinite_noise", "Verif.C73_smooth_infinite_noise"], "note": ""},
{"property": "C74", "status": "proved", "theorems": ["Verif.C74_sample_calibrates"], "note": ""},
{"property": "C75", "status": "partial", "theorems": ["Verif.C75_any_decomposition", "Verif.C75_filter_partial", "Verif.C75_smooth_partial", "Verif.C75_filter_honest", "Verif.C75_fails", "Verif.C75_smooth_overconfident"], "note": "False in general (C75_fails: a precise sensor next to a coarse one is ignored; C75_smooth_overconfident: the smoother then claims more than it knows). Proved: the results are the exact ones when the noise is not too small compared to the prior uncertainty (explicit condition on the parameters), for all lengths, masks and data; and filter's covariance remains the mean square error whatever is dropped."},
{"property": "C76", "status": "proved", "theorems": ["Verif.C76_em_effect", "Verif.C76_stop_unique", "Verif.C76_standard_atomic", "Verif.C76_no_names", "Verif.C76_history", "Verif.C76_later_calls", "Verif.C76_invalid_seed", "Verif.C76_cholesky_not_atomic"], "note": "All three classes; em raising in any iteration, calls refused for lack of names, invalid seed. C76_cholesky_not_atomic: the object left by a raising em of the Cholesky class can be unusable."},
{"property": "C77", "status": "proved", "theorems": ["Verif.C77_kalman", "Verif.C77_unscented", "Verif.C77_additive", "Verif.C77_integer_seed", "Verif.C77_reproducible", "Verif.C77_no_interference", "Verif.C77_prefix", "Verif.C77_draws", "Verif.C77_draws_raise_kalman", "Verif.C77_draws_raise_unscented", "Verif.C77_draws_raise_additive", "Verif.C77_unseeded_differ"], "note": "All four classes that have sample (the square-root classes inherit it). Generators are abstract: nothing is assumed about the numbers."},
{"property": "C78", "status": "proved", "theorems": ["Verif.C78_filter", "Verif.C78_smooth", "Verif.C78_masked_nan", "Verif.C78_nan_is_not_missing"], "note": "filter and smooth of KalmanFilter; for loglikelihood see C101, for em and the other classes C102"},
{"property": "C79", "status": "proved", "theorems": ["Verif.C79_filter", "Verif.C79_smooth", "Verif.C79_loglik", "Verif.C79_needs_noise"], "note": "Errors are bounded operation by operation (standard model of floating point arithmetic plus backward stability of LAPACK routines); overflow is not modelled. C79_needs_noise shows that the condition on the observation noise cannot be dropped for filter."},
{"property": "C80", "status": "proved", "theorems": ["Verif.C80_filter", "Verif.C80_smooth", "Verif.C80_loglik", "Verif.C80_variances", "Verif.C80_time_varying", "Verif.C80_psd", "Verif.C80_standard_negative"], "note": "Errors are bounded operation by operation, backward stability of QR, Cholesky factorisation, svd and solve; overflow is not modelled. C80_standard_negative is the contrast with KalmanFilter."},
{"property": "C81", "status": "proved", "theorems": ["Verif.C81_measured_state_loglik", "Verif.C81_filter", "Verif.C81_smooth", "Verif.C81_loglik", "Verif.C81_measured_state", "Verif.C81_needs_transition_noise"], "note": "Same error model as C79. filter, smooth and loglikelihood of KalmanFilter; the bound for loglikelihood, a sum over all rows, grows with their number (K u per row and the error of np.sum). C81_needs_transition_noise shows that the condition on the transition noise cannot be dropped."},
{"property": "C82", "status": "proved", "theorems": ["Verif.C82_additive_filter", "Verif.C82_additive_smooth", "Verif.C82_filter", "Verif.C82_smooth", "Verif.C82_observations", "Verif.C82_order_matters"], "note": ""},
{"property": "C83", "status": "proved", "theorems": ["Verif.C83_em", "Verif.C83_cholesky_em", "Verif.C83_bierman_em", "Verif.C83_origin_matters"], "note": ""},
{"property": "C84", "status": "proved", "theorems": ["Verif.C84_first_row", "Verif.C84_step", "Verif.C84_prediction", "Verif.C84_smooth", "Verif.C84_general_prediction", "Verif.C84_order_is_sharp", "Verif.C84_general_step", "Verif.C84_general_first_row", "Verif.C84_general_smooth"], "note": ""},
{"property": "C85", "status": "proved", "theorems": ["Verif.C85_readers", "Verif.C85_em", "Verif.C85_terminates", "Verif.C85_mixture", "Verif.C85_torn"], "note": ""},
{"property": "C86", "status": "proved", "theorems": ["Verif.C86_posDef", "Verif.C86_smooth_posDef", "Verif.C86_agrees", "Verif.C86_fails_from_two_dimensions", "Verif.C86_classes_differ"], "note": ""},
{"property": "C87", "status": "proved", "theorems": ["Verif.C87_unchanged", "Verif.C87_history", "Verif.C87_filter", "Verif.C87_smooth", "Verif.C87_update", "Verif.C87_loglikelihood", "Verif.C87_em", "Verif.C87_sample", "Verif.C87_results_stay", "Verif.C87_repeatable", "Verif.C87_shared", "Verif.C87_bierman_filter", "Verif.C87_bierman_smooth", "Verif.C87_bierman_loglikelihood", "Verif.C87_bierman_update", "Verif.C87_bierman_em", "Verif.C87_cholesky_filter", "Verif.C87_cholesky_smooth", "Verif.C87_cholesky_loglikelihood", "Verif.C87_cholesky_update", "Verif.C87_cholesky_em"], "note": ""},
{"property": "C88", "status": "proved", "theorems": ["Verif.C88_smooth", "Verif.C88_filter"], "note": ""},
{"property": "C89", "status": "proved", "theorems": ["Verif.C89_covariance", "Verif.C89_error", "Verif.C89_rate"], "note": ""},
{"property": "C90", "status": "proved", "theorems": ["Verif.C90_density", "Verif.C90_not_posDef", "Verif.C90_lengths", "Verif.C90_one", "Verif.C90_fails_uninitialised"], "note": ""},
{"property": "C91", "status": "proved", "theorems": ["Verif.C91_steady_state", "Verif.C91_initial_mean_fades"], "note": ""},
{"property": "C92", "status": "proved", "theorems": ["Verif.C92_em", "Verif.C92_em_kept", "Verif.C92_em_nearly_monotone"], "note": ""},
{"property": "C93", "status": "proved", "theorems": ["Verif.C93_causal", "Verif.C93_resume", "Verif.C93_online_equals_batch", "Verif.C93_masked_values", "Verif.C93_covariances", "Verif.C93_last_row", "Verif.C93_constant_equals_repeated", "Verif.C93_em_only_selected", "Verif.C93_em_add", "Verif.C93_machines"], "note": ""},
{"property": "C94", "status": "proved", "theorems": ["Verif.C94_filter", "Verif.C94_smooth", "Verif.C94_loglik", "Verif.C94_em", "Verif.C94_em_nearly_monotone", "Verif.C94_correct", "Verif.C94_one_dimensional", "Verif.C94_standard_negative"], "note": ""},
{"property": "C95", "status": "proved", "theorems": ["Verif.C95_additive_filter", "Verif.C95_additive_smooth", "Verif.C95_three_dimensions", "Verif.C95_affine_observations", "Verif.C95_additive_affine", "Verif.C95_general_filter", "Verif.C95_general_smooth", "Verif.C95_general_affine", "Verif.C95_discontinuous"], "note": ""},
{"property": "C96", "status": "proved", "theorems": ["Verif.C96_em", "Verif.C96_em_nearly_monotone"], "note": ""},
{"property": "C97", "status": "proved", "theorems": ["Verif.C97_causal", "Verif.C97_additive_online_equals_batch", "Verif.C97_general_online_equals_batch", "Verif.C97_masked_values", "Verif.C97_last_row", "Verif.C97_functions_in_use", "Verif.C97_exceptions", "Verif.C97_masked_rows_call_observation_function", "Verif.C97_machines"], "note": ""},
{"property": "C98", "status": "proved", "theorems": ["Verif.C98_masked_observation_part", "Verif.C98_masked_dynamics", "Verif.C98_masked_then_measurements_believed", "Verif.C98_single_row", "Verif.C98_single_row_then_deaf"], "note": ""},
{"property": "C99", "status": "proved", "theorems": ["Verif.C99_filter", "Verif.C99_smooth", "Verif.C99_filter_update", "Verif.C99_general", "Verif.C99_sqrt_filter", "Verif.C99_filter_again", "Verif.C99_sample", "Verif.C99_sample_keeps", "Verif.C99_masked_values", "Verif.C99_causal", "Verif.C99_online", "Verif.C99_general_online", "Verif.C99_no_observation", "Verif.C99_last_smoothed", "Verif.C99_counting", "Verif.C99_counting_smooth", "Verif.C99_observation_inPlace", "Verif.C99_transition_inPlace", "Verif.C99_observation_inPlace_fails", "Verif.C99_transition_inPlace_fails", "Verif.C99_shared_output", "Verif.C99_shared_transition", "Verif.C99_sqrt_smooth", "Verif.C99_sqrt_filter_update", "Verif.C99_general_sample", "Verif.C99_general_sample_keeps", "Verif.C99_sqrt_masked_values", "Verif.C99_sqrt_causal", "Verif.C99_sqrt_last_smoothed", "Verif.C99_sqrt_no_observation", "Verif.C99_calls", "Verif.C99_general_calls", "Verif.C99_sqrt_calls", "Verif.C99_counting_sample", "Verif.C99_observation_wipes", "Verif.C99_transition_wipes", "Verif.C99_sqrt_wipes", "Verif.C99_sample_wipes"], "note": ""},
{"property": "C100", "status": "proved", "theorems": ["Verif.C100_causal", "Verif.C100_cholesky_masked_values", "Verif.C100_bierman_masked_values", "Verif.C100_unscented_masked_values", "Verif.C100_covariances", "Verif.C100_last_row", "Verif.C100_no_rows", "Verif.C100_cholesky_constant_equals_repeated", "Verif.C100_bierman_constant_equals_repeated", "Verif.C100_functions_in_use", "Verif.C100_em_only_selected", "Verif.C100_em_add", "Verif.C100_cholesky_online", "Verif.C100_bierman_online", "Verif.C100_unscented_online", "Verif.C100_bierman_not_causal", "Verif.C100_machines"], "note": ""},
{"property": "C101", "status": "proved", "theorems": ["Verif.C101_rest_ignored_machine", "Verif.C101_initial_mean", "Verif.C101_value", "Verif.C101_scalar", "Verif.C101_rest_ignored", "Verif.C101_comparison", "Verif.C101_masked_nan", "Verif.C101_first_row", "Verif.C101_not_as_missing"], "note": ""},
{"property": "C102", "status": "proved", "theorems": ["Verif.C102_filter", "Verif.C102_smooth", "Verif.C102_update", "Verif.C102_em_selected", "Verif.C102_em_matrices", "Verif.C102_em_raises", "Verif.C102_em_default", "Verif.C102_em_destroys", "Verif.C102_additive_raises", "Verif.C102_unscented_row", "Verif.C102_unscented_smooth", "Verif.C102_general_raises", "Verif.C102_unscented_update"], "note": ""},
{"property": "C103", "status": "proved", "theorems": ["Verif.C103_floats", "Verif.C103_constant_observation_matrix", "Verif.C103_diagonal_initial_covariance", "Verif.C103_time_varying", "Verif.C103_integers_exact", "Verif.C103_data_ignored", "Verif.C103_data_ignored_unit_sensors", "Verif.C103_fails_for_integer_observation_matrices"], "note": ""},
{"property": "C104", "status": "proved", "theorems": ["Verif.C104_standard", "Verif.C104_cholesky", "Verif.C104_bierman", "Verif.C104_standard_online", "Verif.C104_cholesky_online", "Verif.C104_bierman_online", "Verif.C104_additive", "Verif.C104_general", "Verif.C104_three_dimensions", "Verif.C104_additive_online", "Verif.C104_three_dimensions_online", "Verif.C104_general_online", "Verif.C104_general_affine_online"], "note": ""},
{"property": "C105", "status": "proved", "theorems": ["Verif.C105_filter", "Verif.C105_filter_additive", "Verif.C105_filter_affine", "Verif.C105_smooth", "Verif.C105_filter_update"], "note": "One observation dimension: with more the exact result itself depends on the order and signs chosen by qr (C40_fails_two_observations). The smoother is covered for one state dimension: with more it divides by zero for many inputs (C40)."},
{"property": "C106", "status": "proved", "theorems": ["Verif.C106_continuation", "Verif.C106_additive", "Verif.C106_additive_no_exception", "Verif.C106_additive_transition", "Verif.C106_additive_observation", "Verif.C106_additive_first", "Verif.C106_additive_one_row", "Verif.C106_additive_filter_update", "Verif.C106_additive_filter_update_undefined", "Verif.C106_general", "Verif.C106_general_transition", "Verif.C106_general_observation", "Verif.C106_general_first", "Verif.C106_general_filter_update_undefined", "Verif.C106_general_filter_update", "Verif.C106_sqrt", "Verif.C106_sqrt_filter_update", "Verif.C106_sample", "Verif.C106_sample_undefined", "Verif.C106_general_sample", "Verif.C106_general_sample_undefined"], "note": "The square root class draws its points from a triangular factor that need not be one of the covariance (C40); there only the exception and the time are described, not the place."},
{"property": "C107", "status": "proved", "theorems": ["Verif.C107_matrices", "Verif.C107_observation_matrices", "Verif.C107_observation_matrices_bierman", "Verif.C107_smooth_raises", "Verif.C107_predicted_covariances", "Verif.C107_offsets", "Verif.C107_offsets_smooth", "Verif.C107_predicted_means", "Verif.C107_update_raises", "Verif.C107_update_covariance", "Verif.C107_update_mean", "Verif.C107_update_bierman", "Verif.C107_unused", "Verif.C107_additive", "Verif.C107_general", "Verif.C107_sqrt", "Verif.C107_unscented_update"], "note": "What np.dot, the element-wise operations and the LAPACK wrappers do with nan is assumed (Machine.NaN, SMachine.SpreadDot); how the rest of the arithmetic works is not."},
{"property": "C108", "status": "proved", "theorems": ["Verif.C108_last_row", "Verif.C108_filter_update", "Verif.C108_covariances", "Verif.C108_smooth_covariances", "Verif.C108_smooth", "Verif.C108_matrices", "Verif.C108_offsets", "Verif.C108_unscented_covariances", "Verif.C108_unscented_parameters"], "note": "Assumes that every entry of np.dot is computed from all the products (a BLAS that skips zeros would lose 0 * inf) and that the scipy routines check for finite numbers. Nothing on covariances of BiermanKalmanFilter, whose np.allclose test accepts equal infinities."},
{"property": "C109", "status": "proved", "theorems": ["Verif.C109_unchanged", "Verif.C109_history", "Verif.C109_additive_filter", "Verif.C109_additive_smooth", "Verif.C109_additive_update", "Verif.C109_general_filter", "Verif.C109_general_smooth", "Verif.C109_general_update", "Verif.C109_sqrt_filter", "Verif.C109_sqrt_smooth", "Verif.C109_sqrt_update", "Verif.C109_additive_sample", "Verif.C109_general_sample"], "note": ""},
{"property": "C110", "status": "proved", "theorems": ["Verif.C110_history", "Verif.C110_load", "Verif.C110_load_missing"], "note": ""},
{"property": "C111", "status": "proved", "theorems": ["Verif.C111_strict_progress", "Verif.C111_loglik_bounded", "Verif.C111_loglik_converges", "Verif.C111_limit_point_fixed", "Verif.C111_limit_point_critical", "Verif.C111_limit_point_loglik", "Verif.C111_limit_points_exist", "Verif.C111_loglik_diverges"], "note": ""},
{"property": "C112", "status": "proved", "theorems": ["Verif.C112_filter", "Verif.C112_smooth", "Verif.C112_loglikelihood", "Verif.C112_no_influence", "Verif.C112_masks_shared", "Verif.C112_sqrt"], "note": ""},
{"property": "C113", "status": "proved", "theorems": ["Verif.C113_fixed_lag", "Verif.C113_newest", "Verif.C113_bierman", "Verif.C113_cholesky_refuses"], "note": ""},
{"property": "C114", "status": "proved", "theorems": ["Verif.C114_information", "Verif.C114_loglikelihood", "Verif.C114_comparison", "Verif.C114_uninformative_row", "Verif.C114_weighted_average", "Verif.C114_sqrt"], "note": ""},
{"property": "C115", "status": "proved", "theorems": ["Verif.C115_leave_one_out", "Verif.C115_loglikelihood", "Verif.C115_sqrt"], "note": ""},
{"property": "C116", "status": "proved", "theorems": ["Verif.C116_backwards", "Verif.C116_filter_from_the_end", "Verif.C116_loglikelihood", "Verif.C116_reversible", "Verif.C116_sqrt"], "note": ""},
{"property": "C117", "status": "proved", "theorems": ["Verif.C117_filter", "Verif.C117_smooth", "Verif.C117_loglikelihood", "Verif.C117_offsets_as_state", "Verif.C117_bierman"], "note": ""}
]}
