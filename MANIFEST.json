{
 "claims": [
  {
   "property": "C01",
   "status": "proved",
   "theorems": [
    "Filterpy.C01_reported_covariance_is_true"
   ],
   "note": "any history of predict/update/missed measurements in a linear world with uncorrelated noise of the stated covariances"
  },
  {
   "property": "C02",
   "status": "proved",
   "theorems": [
    "Filterpy.C02_bayes_product",
    "Filterpy.C02_posterior"
   ],
   "note": ""
  },
  {
   "property": "C03",
   "status": "proved",
   "theorems": [
    "Filterpy.C03_best_linear",
    "Filterpy.C03_gain_optimal"
   ],
   "note": ""
  },
  {
   "property": "C04",
   "status": "proved",
   "theorems": [
    "Filterpy.C04_psd_invariant"
   ],
   "note": "all histories incl. those ending in an exception"
  },
  {
   "property": "C05",
   "status": "proved",
   "theorems": [
    "Filterpy.C05_update_reduces",
    "Filterpy.C05_update_sequential_reduces"
   ],
   "note": ""
  },
  {
   "property": "C06",
   "status": "proved",
   "theorems": [
    "Filterpy.C06_update_none",
    "Filterpy.C06_missing_deleted"
   ],
   "note": "update(None) effect and deletion from any history"
  },
  {
   "property": "C07",
   "status": "proved",
   "theorems": [
    "Filterpy.C07_prior_mirrors",
    "Filterpy.C07_post_mirrors"
   ],
   "note": ""
  },
  {
   "property": "C08",
   "status": "proved",
   "theorems": [
    "Filterpy.C08_predict_overrides",
    "Filterpy.C08_update_overrides",
    "Filterpy.C08_scalar_noise",
    "Filterpy.C08_attributes_constant"
   ],
   "note": ""
  },
  {
   "property": "C09",
   "status": "proved",
   "theorems": [
    "Filterpy.C09_expected",
    "Filterpy.C09_fading_expected",
    "Filterpy.C09_square_root_expected",
    "Filterpy.C09_hinf_expected",
    "Filterpy.C09_fading_get_prediction",
    "Filterpy.C09_fading_residual_of",
    "Filterpy.C09_get_prediction",
    "Filterpy.C09_get_update",
    "Filterpy.C09_residual_of",
    "Filterpy.C09_measurement_of_state"
   ],
   "note": ""
  },
  {
   "property": "C10",
   "status": "proved",
   "theorems": [
    "Filterpy.C10_fading_batch",
    "Filterpy.C10_batch_equals_loop",
    "Filterpy.C10_rows"
   ],
   "note": ""
  },
  {
   "property": "C11",
   "status": "partial",
   "theorems": [
    "Filterpy.C11_smoother_optimal_partial",
    "Filterpy.C11_last_unchanged",
    "Filterpy.C11_control_refuted",
    "Filterpy.C11_best_linear",
    "Filterpy.C11_pinv_total"
   ],
   "note": "Proved for runs without control input after the first step, with Gaussian densities and, for singular or non-Gaussian noise, as best linear estimate; refuted with control input (rts_smoother ignores B u)."
  },
  {
   "property": "C12",
   "status": "proved",
   "theorems": [
    "Filterpy.C12_smoothing_reduces",
    "Filterpy.C12_singular"
   ],
   "note": ""
  },
  {
   "property": "C13",
   "status": "partial",
   "theorems": [
    "Filterpy.C13_function_is_shifted_method",
    "Filterpy.C13_agree_constant_partial",
    "Filterpy.C13_time_varying_refuted"
   ],
   "note": "Function = method with model lists shifted by one; equal for constant models; refuted for time-varying models."
  },
  {
   "property": "C14",
   "status": "proved",
   "theorems": [
    "Filterpy.C14_sequential"
   ],
   "note": "any partition into blocks, any order; P, R positive definite"
  },
  {
   "property": "C15",
   "status": "proved",
   "theorems": [
    "Filterpy.C15_M_zero",
    "Filterpy.C15_correlated_exact_and_optimal"
   ],
   "note": ""
  },
  {
   "property": "C16",
   "status": "proved",
   "theorems": [
    "Filterpy.C16_frozen",
    "Filterpy.C16_same_as_full",
    "Filterpy.C16_none_control"
   ],
   "note": ""
  },
  {
   "property": "C17",
   "status": "partial",
   "theorems": [
    "Filterpy.C17_values_after_update",
    "Filterpy.C17_reads_idempotent",
    "Filterpy.C17_reads_describe_last_measurement_partial",
    "Filterpy.C17_likelihood_pos",
    "Filterpy.C17_stale_after_sequential_refuted",
    "Filterpy.C17_log_likelihood_of",
    "Filterpy.C17_log_likelihood_of_refuted"
   ],
   "note": "values, idempotence, positivity and freshness proved; freshness fails after update_sequential (refutation theorem included)"
  },
  {
   "property": "C18",
   "status": "partial",
   "theorems": [
    "Filterpy.C18_fading_equiv",
    "Filterpy.C18_fading_init",
    "Filterpy.C18_fading_control_refuted",
    "Filterpy.C18_setAlpha",
    "Filterpy.C18_predict_scales"
   ],
   "note": "setter/getter and predict scaling proved for KalmanFilter; FadingKalmanFilter simulation proved for every history whose control arguments keep numpy vector shapes; refuted for predict() with a control matrix of two or more columns"
  },
  {
   "property": "C19",
   "status": "partial",
   "theorems": [
    "Filterpy.C19_predict",
    "Filterpy.C19_predict_defaults",
    "Filterpy.C19_update",
    "Filterpy.C19_steadystate",
    "Filterpy.C19_batch",
    "Filterpy.C19_batch_plain",
    "Filterpy.C19_batch_us_without_Bs",
    "Filterpy.C19_default_H",
    "Filterpy.C19_loglik_refuted",
    "Filterpy.C19_singular_refuted",
    "Filterpy.C19_scalar_R_refuted",
    "Filterpy.C19_float_refuted",
    "Filterpy.C19_scalar_Q_refuted",
    "Filterpy.C19_scalar_F"
   ],
   "note": "Agreement proved for well-shaped arguments; the log-likelihood returned with return_all, singular S, scalar R with m>=2, scalar Q with n>=2 and float arguments are refuted."
  },
  {
   "property": "C20",
   "status": "proved",
   "theorems": [
    "Filterpy.C20_init_raises_iff",
    "Filterpy.C20_init_ok"
   ],
   "note": ""
  },
  {
   "property": "C21",
   "status": "partial",
   "theorems": [
    "Filterpy.C21_linear",
    "Filterpy.C21_linear_y",
    "Filterpy.C21_none_y_refuted",
    "Filterpy.C21_nonlinear",
    "Filterpy.C21_predict_update_partial",
    "Filterpy.C21_prior_refuted",
    "Filterpy.C21_predict_update_none_refuted",
    "Filterpy.C21_predict_update_nonlinear_refuted"
   ],
   "note": "linear equivalence for all histories, nonlinear = Kalman update of the linearisation; refuted: y after update(None), predict_update prior, predict_update(None), Jacobian point"
  },
  {
   "property": "C22",
   "status": "proved",
   "theorems": [
    "Filterpy.C22_linear",
    "Filterpy.C22_linear_residual",
    "Filterpy.C22_repeated_updates_refuted"
   ],
   "note": "All three point sets, all dimensions, all alternating histories with missing measurements and overrides; the restriction to alternating histories is shown necessary (C22_repeated_updates_refuted)."
  },
  {
   "property": "C23",
   "status": "proved",
   "theorems": [
    "Filterpy.C23_merwe",
    "Filterpy.C23_julier",
    "Filterpy.C23_simplex"
   ],
   "note": "All three sigma point classes; the matrix square root is any routine with U\u1d40U = A on positive definite matrices (scipy cholesky contract)."
  },
  {
   "property": "C24",
   "status": "proved",
   "theorems": [
    "Filterpy.C24_fast_path",
    "Filterpy.C24_custom",
    "Filterpy.C24_affine",
    "Filterpy.C24_affine_exact"
   ],
   "note": "Affine equivariance for all weight vectors summing to one; fast path = residual path for all inputs."
  },
  {
   "property": "C25",
   "status": "partial",
   "theorems": [
    "Filterpy.C25_transform",
    "Filterpy.C25_points",
    "Filterpy.C25_cycle_partial",
    "Filterpy.C25_linear_partial",
    "Filterpy.C25_process_noise_refuted",
    "Filterpy.C25_flat_measurement_refuted"
   ],
   "note": "Cubature points have mean x and covariance P; ckf_transform gives the mean and covariance of its points; without process noise the filter equals the Kalman filter after every alternating history; with process noise one cycle equals the Kalman cycle without it plus Q added to P (refuted: the points are not redrawn, so the gain ignores Q); 1-D measurements with dim_z >= 2 never give a vector state (refuted)."
  },
  {
   "property": "C26",
   "status": "proved",
   "theorems": [
    "Filterpy.C26_predict",
    "Filterpy.C26_update_mean",
    "Filterpy.C26_update_ok",
    "Filterpy.C26_linear_update",
    "Filterpy.C26_linear_update_explicit",
    "Filterpy.C26_none",
    "Filterpy.C26_init",
    "Filterpy.C26_single_member",
    "Filterpy.C26_initialize",
    "Filterpy.C26_history_mean",
    "Filterpy.C26_second_update_refuted"
   ],
   "note": "All draws, all N >= 2; ensemble mean after every history; the linear update equals KalmanFilter.update with the mean perturbed measurement. Also recorded: one-member ensembles divide by zero, and a second measurement without prediction can make the reported variance negative."
  },
  {
   "property": "C27",
   "status": "partial",
   "theorems": [
    "Filterpy.C27_info_filter_partial",
    "Filterpy.C27_loglik_raises_refuted",
    "Filterpy.C27_loglik_value_refuted",
    "Filterpy.C27_default_F_refuted",
    "Filterpy.C27_setF",
    "Filterpy.C27_init",
    "Filterpy.C27_batch"
   ],
   "note": "equivalence for all histories when the likelihood computation does not raise; refuted: default log-likelihood raises / is wrong, predict before F is set"
  },
  {
   "property": "C28",
   "status": "partial",
   "theorems": [
    "Filterpy.C28_square_root",
    "Filterpy.C28_square_root_total",
    "Filterpy.C28_psd",
    "Filterpy.C28_setters",
    "Filterpy.C28_P_post_refuted",
    "Filterpy.C28_init_refuted",
    "Filterpy.C28_init_partial"
   ],
   "note": "equivalence for all histories and all valid factorisations, PSD, setters; refuted: P_post, dim_x check"
  },
  {
   "property": "C29",
   "status": "proved",
   "theorems": [
    "Filterpy.C29_step",
    "Filterpy.C29_history",
    "Filterpy.C29_fresh",
    "Filterpy.C29_final",
    "Filterpy.C29_kalman",
    "Filterpy.C29_runs",
    "Filterpy.C29_batch",
    "Filterpy.C29_batch_error",
    "Filterpy.C29_us_none",
    "Filterpy.C29_constructor"
   ],
   "note": "One entry per call, exact effect of each call, Kalman x and P for every history, finality beyond the lag, and smooth_batch equal to repeated smooth (values and exceptions). That smooth_batch leaves the object alone is structural: the model returns no object."
  },
  {
   "property": "C30",
   "status": "partial",
   "theorems": [
    "Filterpy.C30_newest_partial",
    "Filterpy.C30_newest_refuted",
    "Filterpy.C30_lag_one_refuted",
    "Filterpy.C30_lag_zero"
   ],
   "note": "True during the first N measurements (C30_newest_partial); false for every filter afterwards (C30_newest_refuted, concrete run C30_lag_one_refuted); with N=0 entries are predictions (C30_lag_zero)."
  },
  {
   "property": "C31",
   "status": "partial",
   "theorems": [
    "Filterpy.C31_init",
    "Filterpy.C31_init_errors",
    "Filterpy.C31_update",
    "Filterpy.C31_history",
    "Filterpy.C31_absorbing_start_refuted"
   ],
   "note": "Holds for every history in which every normalising sum is positive (C31_update, C31_history, shown for Kalman banks); without that hypothesis the code divides 0/0 when a mode is unreachable, refuted by C31_absorbing_start_refuted."
  },
  {
   "property": "C32",
   "status": "partial",
   "theorems": [
    "Filterpy.C32_predict",
    "Filterpy.C32_mixing",
    "Filterpy.C32_init",
    "Filterpy.C32_history",
    "Filterpy.C32_kalman_bank",
    "Filterpy.C32_prior_weights_refuted"
   ],
   "note": "Mixing before prediction, the estimate after update and the history invariant are exact; the estimate reported by predict weights the predicted filters by mu, not by the predicted mode probabilities (C32_prior_weights_refuted)."
  },
  {
   "property": "C33",
   "status": "partial",
   "theorems": [
    "Filterpy.C33_bayes",
    "Filterpy.C33_distribution",
    "Filterpy.C33_state",
    "Filterpy.C33_update_ok",
    "Filterpy.C33_init",
    "Filterpy.C33_covariance_partial",
    "Filterpy.C33_covariance_refuted"
   ],
   "note": "Mode probabilities and state are exactly Bayes rule and mixture mean; the reported covariance is the mixture covariance only under the hypotheses of C33_covariance_partial, refuted in general by C33_covariance_refuted."
  },
  {
   "property": "C34",
   "status": "partial",
   "theorems": [
    "Filterpy.C34_imm_partial",
    "Filterpy.C34_imm_refuted",
    "Filterpy.C34_mmae_partial",
    "Filterpy.C34_mmae_refuted"
   ],
   "note": "update(None) keeps every member filter; the mode probabilities change (C34_imm_refuted, C34_mmae_refuted) unless all likelihoods agree."
  },
  {
   "property": "C35",
   "status": "partial",
   "theorems": [
    "Filterpy.C35_update_symmetric",
    "Filterpy.C35_history_symmetric",
    "Filterpy.C35_none",
    "Filterpy.C35_gamma_zero",
    "Filterpy.C35_gamma_zero_history",
    "Filterpy.C35_riccati",
    "Filterpy.C35_batch_final",
    "Filterpy.C35_batch_rows",
    "Filterpy.C35_default_batch_refuted",
    "Filterpy.C35_previews",
    "Filterpy.C35_setV",
    "Filterpy.C35_gamma_zero_state",
    "Filterpy.C35_gamma_zero_state_refuted"
   ],
   "note": "Symmetry, update(None), the gamma=0 covariance recursion, the Riccati form and batch = loop (saver None or a Saver) are proved for every history; batch_filter with its default saver argument always raises (C35_default_batch_refuted)."
  },
  {
   "property": "C36",
   "status": "proved",
   "theorems": [
    "Filterpy.C36_gh_on_line",
    "Filterpy.C36_gh_superposition",
    "Filterpy.C36_gh_converges",
    "Filterpy.C36_ghk_superposition",
    "Filterpy.C36_ghk_on_parabola",
    "Filterpy.C36_ghk_converges"
   ],
   "note": "GHFilter and GHKFilter on their model, superposition, and convergence to the model from any start when stable."
  },
  {
   "property": "C37",
   "status": "partial",
   "theorems": [
    "Filterpy.C37_gh_batch",
    "Filterpy.C37_gh_saver_refuted",
    "Filterpy.C37_ghk_batch_partial",
    "Filterpy.C37_ghk_batch_refuted"
   ],
   "note": "GHFilter.batch_filter proved; saver argument and GHKFilter.batch_filter refuted by witnesses."
  },
  {
   "property": "C38",
   "status": "proved",
   "theorems": [
    "Filterpy.C38_init",
    "Filterpy.C38_order_one",
    "Filterpy.C38_order_two",
    "Filterpy.C38_order_zero"
   ],
   "note": "Orders 0, 1, 2 for all data and per-step gains."
  },
  {
   "property": "C39",
   "status": "partial",
   "theorems": [
    "Filterpy.C39_gh_stable",
    "Filterpy.C39_gh_vrf",
    "Filterpy.C39_ghk_vrf_partial",
    "Filterpy.C39_ghk_vrf_scale_partial",
    "Filterpy.C39_ghk_vrf_refuted"
   ],
   "note": "GHFilter proved incl. stability region; GHKFilter: acceleration entry proved, the other entries and VRF_prediction refuted on a concrete filter."
  },
  {
   "property": "C40",
   "status": "proved",
   "theorems": [
    "Filterpy.C40_critical_two",
    "Filterpy.C40_critical_three",
    "Filterpy.C40_critical_errors",
    "Filterpy.C40_benedict",
    "Filterpy.C40_benedict_critical",
    "Filterpy.C40_optimal_noise",
    "Filterpy.C40_optimal_noise_total",
    "Filterpy.C40_least_squares"
   ],
   "note": "Critical damping, Benedict-Bordner, optimal noise smoothing."
  },
  {
   "property": "C41",
   "status": "proved",
   "theorems": [
    "Filterpy.C41_least_squares"
   ],
   "note": ""
  },
  {
   "property": "C42",
   "status": "partial",
   "theorems": [
    "Filterpy.C42_reset",
    "Filterpy.C42_errors_refuted",
    "Filterpy.C42_errors_partial",
    "Filterpy.C42_errors_std_partial"
   ],
   "note": "reset proved; errors() proved (formula and statistical meaning) for n > order; ZeroDivisionError for smaller n refuted."
  },
  {
   "property": "C43",
   "status": "partial",
   "theorems": [
    "Filterpy.C43_init",
    "Filterpy.C43_order_zero",
    "Filterpy.C43_order_one",
    "Filterpy.C43_order_two",
    "Filterpy.C43_tracks",
    "Filterpy.C43_P_zero",
    "Filterpy.C43_P_one_partial",
    "Filterpy.C43_P_one_refuted",
    "Filterpy.C43_P_two"
   ],
   "note": "Equivalences, tracking, P for orders 0 and 2 and P[0] of order 1 proved; P[1] of order 1 refuted for dt^2 != 1."
  },
  {
   "property": "C44",
   "status": "partial",
   "theorems": [
    "Filterpy.C44_systematic",
    "Filterpy.C44_stratified",
    "Filterpy.C44_multinomial_partial",
    "Filterpy.C44_multinomial_refuted"
   ],
   "note": "Systematic and stratified proved in full for every draw; multinomial_resample can select a zero-weight particle 0 when the draw is exactly 0.0 (refuted), the rest proved."
  },
  {
   "property": "C45",
   "status": "proved",
   "theorems": [
    "Filterpy.C45_systematic_counts"
   ],
   "note": ""
  },
  {
   "property": "C46",
   "status": "proved",
   "theorems": [
    "Filterpy.C46_stratified_counts"
   ],
   "note": ""
  },
  {
   "property": "C47",
   "status": "partial",
   "theorems": [
    "Filterpy.C47_residual_partial",
    "Filterpy.C47_division_refuted",
    "Filterpy.C47_distribution_refuted"
   ],
   "note": "The code subtracts num_copies from weights instead of N*weights (resampling.py:69): division by zero and wrong distribution are refuted; length, range and minimum copies are proved outside the division case."
  },
  {
   "property": "C48",
   "status": "proved",
   "theorems": [
    "Filterpy.C48_normalize",
    "Filterpy.C48_normalize_scale",
    "Filterpy.C48_bayes",
    "Filterpy.C48_update_sum",
    "Filterpy.C48_update_scale",
    "Filterpy.C48_update_commute"
   ],
   "note": ""
  },
  {
   "property": "C49",
   "status": "proved",
   "theorems": [
    "Filterpy.C49_wrap",
    "Filterpy.C49_wrap_total",
    "Filterpy.C49_wrap_nonneg",
    "Filterpy.C49_wrap_rotate",
    "Filterpy.C49_constant",
    "Filterpy.C49_constant_total"
   ],
   "note": ""
  },
  {
   "property": "C50",
   "status": "proved",
   "theorems": [
    "Filterpy.C50_discrete",
    "Filterpy.C50_dim"
   ],
   "note": ""
  },
  {
   "property": "C51",
   "status": "proved",
   "theorems": [
    "Filterpy.C51_continuous",
    "Filterpy.C51_split",
    "Filterpy.C51_dim"
   ],
   "note": ""
  },
  {
   "property": "C52",
   "status": "proved",
   "theorems": [
    "Filterpy.C52_args",
    "Filterpy.C52_float_refuted",
    "Filterpy.C52_taylor",
    "Filterpy.C52_semigroup"
   ],
   "note": "C52_float_refuted records that an integral float order above 2 raises TypeError instead of being accepted."
  },
  {
   "property": "C53",
   "status": "partial",
   "theorems": [
    "Filterpy.C53_args",
    "Filterpy.C53_args_error",
    "Filterpy.C53_F_partial",
    "Filterpy.C53_H_partial",
    "Filterpy.C53_H_refuted"
   ],
   "note": "F and argument checks proved in both orderings; H measures the sum of all positions instead of each position when dim>1 (refuted)."
  },
  {
   "property": "C54",
   "status": "proved",
   "theorems": [
    "Filterpy.C54_van_loan",
    "Filterpy.C54_compose"
   ],
   "note": ""
  },
  {
   "property": "C55",
   "status": "proved",
   "theorems": [
    "Filterpy.C55_zero_step",
    "Filterpy.C55_cubic",
    "Filterpy.C55_linear",
    "Filterpy.C55_constant"
   ],
   "note": ""
  },
  {
   "property": "C56",
   "status": "partial",
   "theorems": [
    "Filterpy.C56_attributes_partial",
    "Filterpy.C56_lengths_and_exclusions",
    "Filterpy.C56_computed_properties",
    "Filterpy.C56_ignored",
    "Filterpy.C56_property_alias_refuted"
   ],
   "note": "attributes and computed properties proved for all histories; refuted for properties that return a stored object (aliasing)"
  },
  {
   "property": "C57",
   "status": "partial",
   "theorems": [
    "Filterpy.C57_reshape_z_partial",
    "Filterpy.C57_ndim_zero_refuted"
   ],
   "note": "proved except that ndim=0 with dim_z>=2 drops values (refuted)"
  },
  {
   "property": "C58",
   "status": "proved",
   "theorems": [
    "Filterpy.C58_outer_product_sum_rect",
    "Filterpy.C58_inv_diagonal",
    "Filterpy.C58_inv_diagonal_error",
    "Filterpy.C58_outer_product_sum"
   ],
   "note": ""
  },
  {
   "property": "C59",
   "status": "proved",
   "theorems": [
    "Filterpy.C59_mul_precision",
    "Filterpy.C59_mul_comm",
    "Filterpy.C59_mul_assoc",
    "Filterpy.C59_mul_pdf",
    "Filterpy.C59_mul_kalman",
    "Filterpy.C59_mul_zero"
   ],
   "note": ""
  },
  {
   "property": "C60",
   "status": "proved",
   "theorems": [
    "Filterpy.C60_precision",
    "Filterpy.C60_comm",
    "Filterpy.C60_kalman"
   ],
   "note": ""
  },
  {
   "property": "C61",
   "status": "proved",
   "theorems": [
    "Filterpy.C61_gaussian",
    "Filterpy.C61_gaussian_array",
    "Filterpy.C61_add",
    "Filterpy.C61_norm_cdf",
    "Filterpy.C61_likelihood",
    "Filterpy.C61_filter_likelihood",
    "Filterpy.C61_multivariate_gaussian",
    "Filterpy.C61_univariate",
    "Filterpy.C61_zero_covariance",
    "Filterpy.C61_nees",
    "Filterpy.C61_nees_expected"
   ],
   "note": ""
  },
  {
   "property": "C62",
   "status": "partial",
   "theorems": [
    "Filterpy.C62_compare_kf_partial",
    "Filterpy.C62_compare_kf_refuted",
    "Filterpy.C62_compare_kf_function_refuted",
    "Filterpy.C62_copy_states_partial",
    "Filterpy.C62_copy_states_refuted"
   ],
   "note": "compare_kf agreement and copy_states proved; NameError on difference, TypeError on function attributes and uncopied functions refuted"
  },
  {
   "property": "C63",
   "status": "partial",
   "theorems": [
    "Filterpy.C63_rts_partial",
    "Filterpy.C63_dts",
    "Filterpy.C63_length_error",
    "Filterpy.C63_Qs_refuted"
   ],
   "note": "Equal to the Kalman RTS smoother for the constant self.Q; the Qs argument is ignored by the code (C63_Qs_refuted)."
  },
  {
   "property": "C64",
   "status": "partial",
   "theorems": [
    "Filterpy.C64_fading_zero",
    "Filterpy.C64_fading_one_partial",
    "Filterpy.C64_fading_one_refuted",
    "Filterpy.C64_fading_two",
    "Filterpy.C64_ghk_bias"
   ],
   "note": "All but e[0] of the order-1 fading memory filter, which is refuted."
  },
  {
   "property": "C65",
   "status": "partial",
   "theorems": [
    "Filterpy.C65_order_one_partial",
    "Filterpy.C65_z_refuted"
   ],
   "note": "Holds for GHFilterOrder order 1 only; refuted for the others."
  },
  {
   "property": "C66",
   "status": "proved",
   "theorems": [
    "Filterpy.C66_stratified_unbiased",
    "Filterpy.C66_systematic_unbiased",
    "Filterpy.C66_multinomial_unbiased"
   ],
   "note": ""
  },
  {
   "property": "C67",
   "status": "proved",
   "theorems": [
    "Filterpy.C67_linear_ode",
    "Filterpy.C67_agree"
   ],
   "note": ""
  },
  {
   "property": "C68",
   "status": "proved",
   "theorems": [
    "Filterpy.C68_covariance_ellipse"
   ],
   "note": ""
  },
  {
   "property": "C69",
   "status": "partial",
   "theorems": [
    "Filterpy.C69_student_t_refuted"
   ],
   "note": "refuted: samples are shrunk by 1/sqrt 2; nothing positive beyond that exact relation"
  },
  {
   "property": "C70",
   "status": "partial",
   "theorems": [
    "Filterpy.C70_batch",
    "Filterpy.C70_scalar_dts_refuted"
   ],
   "note": "Loop equivalence proved for all filters and lists; scalar dts and a missing first measurement are refused by the code (C70_scalar_dts_refuted)."
  },
  {
   "property": "C71",
   "status": "partial",
   "theorems": [
    "Filterpy.C71_accepts_partial",
    "Filterpy.C71_sound_partial",
    "Filterpy.C71_default_rejects_refuted",
    "Filterpy.C71_vector_z_refuted",
    "Filterpy.C71_vector_R_refuted",
    "Filterpy.C71_scalar_z_refuted",
    "Filterpy.C71_wrong_H_refuted"
   ],
   "note": "Both directions proved under the stated conditions; the unconditional claims are false and refuted."
  },
  {
   "property": "C72",
   "status": "partial",
   "theorems": [
    "Filterpy.C72_predict_partial",
    "Filterpy.C72_predict_steadystate_partial",
    "Filterpy.C72_update",
    "Filterpy.C72_update_H_partial",
    "Filterpy.C72_update_steadystate",
    "Filterpy.C72_update_bad_z",
    "Filterpy.C72_bad_shapes",
    "Filterpy.C72_history_partial",
    "Filterpy.C72_fresh",
    "Filterpy.C72_scalar_control_refuted",
    "Filterpy.C72_mixed_control_refuted",
    "Filterpy.C72_update_H_refuted",
    "Filterpy.C72_update_H_documented_refuted",
    "Filterpy.C72_residual_shape_refuted"
   ],
   "note": "Simulation for all histories in both representations; false for scalar or mixed controls and for update with H in another representation (refuted)."
  },
  {
   "property": "C73",
   "status": "proved",
   "theorems": [
    "Filterpy.C73_monotone"
   ],
   "note": ""
  },
  {
   "property": "C74",
   "status": "proved",
   "theorems": [
    "Filterpy.C74_units",
    "Filterpy.C74_likelihood"
   ],
   "note": "update_sequential with part of the measurement is excluded: a part of the measurement is not preserved by a general change of units"
  },
  {
   "property": "C75",
   "status": "proved",
   "theorems": [
    "Filterpy.C75_order"
   ],
   "note": ""
  },
  {
   "property": "C76",
   "status": "proved",
   "theorems": [
    "Filterpy.C76_affine",
    "Filterpy.C76_covariance_independent"
   ],
   "note": ""
  },
  {
   "property": "C77",
   "status": "proved",
   "theorems": [
    "Filterpy.C77_least_squares"
   ],
   "note": ""
  },
  {
   "property": "C78",
   "status": "proved",
   "theorems": [
    "Filterpy.C78_innovations_white"
   ],
   "note": ""
  },
  {
   "property": "C79",
   "status": "proved",
   "theorems": [
    "Filterpy.C79_views",
    "Filterpy.C79_to_array",
    "Filterpy.C79_flatten",
    "Filterpy.C79_save"
   ],
   "note": ""
  },
  {
   "property": "C80",
   "status": "proved",
   "theorems": [
    "Filterpy.C80_split"
   ],
   "note": ""
  },
  {
   "property": "C81",
   "status": "proved",
   "theorems": [
    "Filterpy.C81_gh",
    "Filterpy.C81_ghk"
   ],
   "note": ""
  },
  {
   "property": "C82",
   "status": "partial",
   "theorems": [
    "Filterpy.C82_imm",
    "Filterpy.C82_imm_init",
    "Filterpy.C82_imm_kalman",
    "Filterpy.C82_mmae_partial",
    "Filterpy.C82_mmae_covariance_refuted"
   ],
   "note": "IMM proved for every filter class with positive likelihood and for KalmanFilter from the constructor on; MMAE proved for state and probabilities; the covariance MMAE reports for equal filters is wrong in the code (C82_mmae_covariance_refuted)."
  },
  {
   "property": "C83",
   "status": "proved",
   "theorems": [
    "Filterpy.C83_exact",
    "Filterpy.C83_succeeds",
    "Filterpy.C83_twice",
    "Filterpy.C83_kept"
   ],
   "note": ""
  },
  {
   "property": "C84",
   "status": "proved",
   "theorems": [
    "Filterpy.C84_forgets",
    "Filterpy.C84_converges",
    "Filterpy.C84_unique"
   ],
   "note": ""
  },
  {
   "property": "C85",
   "status": "proved",
   "theorems": [
    "Filterpy.C85_forgets",
    "Filterpy.C85_converges"
   ],
   "note": ""
  },
  {
   "property": "C86",
   "status": "partial",
   "theorems": [
    "Filterpy.C86_update_first",
    "Filterpy.C86_singular_predict",
    "Filterpy.C86_start_partial",
    "Filterpy.C86_reported_refuted",
    "Filterpy.C86_two_updates_refuted",
    "Filterpy.C86_noiseless_refuted",
    "Filterpy.C86_no_decay_refuted"
   ],
   "note": "Holds for predict/update/predict with a positive definite Q and a measurement that determines the state, and for an immediate update. Refuted: the value of x between the first update and the next predict, two updates without a predict between, Q = 0, and the decay of partial information."
  },
  {
   "property": "C87",
   "status": "proved",
   "theorems": [
    "Filterpy.C87_ratios",
    "Filterpy.C87_likelihood"
   ],
   "note": ""
  },
  {
   "property": "C88",
   "status": "proved",
   "theorems": [
    "Filterpy.C88_decoupled",
    "Filterpy.C88_likelihood"
   ],
   "note": ""
  },
  {
   "property": "C89",
   "status": "partial",
   "theorems": [
    "Filterpy.C89_total",
    "Filterpy.C89_agrees",
    "Filterpy.C89_optimal",
    "Filterpy.C89_constraint",
    "Filterpy.C89_twice",
    "Filterpy.C89_sequential_refuted"
   ],
   "note": "Holds for update and update_correlated. update_sequential calls linalg.inv directly, so it raises for redundant noise-free measurements whatever kf.inv is (C89_sequential_refuted)."
  },
  {
   "property": "C90",
   "status": "proved",
   "theorems": [
    "Filterpy.C90_mean",
    "Filterpy.C90_cubature_mean",
    "Filterpy.C90_predict",
    "Filterpy.C90_symmetric",
    "Filterpy.C90_variance_merwe",
    "Filterpy.C90_variance_julier"
   ],
   "note": "The variance statement is for one-dimensional states. The documented choice kappa = 3 - n with beta = 2 does not satisfy alpha^2*kappa + beta = 2; kappa = 0 does."
  },
  {
   "property": "C91",
   "status": "partial",
   "theorems": [
    "Filterpy.C91_ekf",
    "Filterpy.C91_fkf",
    "Filterpy.C91_ukf",
    "Filterpy.C91_ckf",
    "Filterpy.C91_enkf",
    "Filterpy.C91_square_root_partial",
    "Filterpy.C91_square_root_refuted",
    "Filterpy.C91_information_partial",
    "Filterpy.C91_information_refuted",
    "Filterpy.C91_ukf_arguments",
    "Filterpy.C91_ckf_arguments",
    "Filterpy.C91_noise_argument",
    "Filterpy.C91_scalar_noise"
   ],
   "note": "Proved for all classes except two copies the code gets wrong: P_post of SquareRootKalmanFilter reads the prior factor (C91_square_root_refuted) and P_inv_prior of InformationFilter after a prediction without information is not P_inv (C91_information_refuted). EKF.predict_update does not store the prior (C21_prior_refuted)."
  },
  {
   "property": "C92",
   "status": "proved",
   "theorems": [
    "Filterpy.C92_coordinates",
    "Filterpy.C92_chart",
    "Filterpy.C92_chart_points",
    "Filterpy.C92_turned_points",
    "Filterpy.C92_angles"
   ],
   "note": "Any relation respected by the functions; coordinate changes and angles as instances."
  },
  {
   "property": "C93",
   "status": "proved",
   "theorems": [
    "Filterpy.C93_conservative",
    "Filterpy.C93_nees",
    "Filterpy.C93_mahalanobis"
   ],
   "note": "Equality for the truth told, bounds for covariances told too large."
  },
  {
   "property": "C94",
   "status": "proved",
   "theorems": [
    "Filterpy.C94_runs",
    "Filterpy.C94_evidence",
    "Filterpy.C94_posterior"
   ],
   "note": ""
  },
  {
   "property": "C95",
   "status": "proved",
   "theorems": [
    "Filterpy.C95_best"
   ],
   "note": ""
  },
  {
   "property": "C96",
   "status": "proved",
   "theorems": [
    "Filterpy.C96_runs",
    "Filterpy.C96_posterior",
    "Filterpy.C96_best"
   ],
   "note": "update(None) on a bank is the subject of C34 and excluded here; exact exponential (no underflow)"
  },
  {
   "property": "C97",
   "status": "proved",
   "theorems": [
    "Filterpy.C97_bounded",
    "Filterpy.C97_exists",
    "Filterpy.C97_when",
    "Filterpy.C97_converges",
    "Filterpy.C97_needs"
   ],
   "note": "C97_needs: without observability there may be no steady state."
  },
  {
   "property": "C98",
   "status": "proved",
   "theorems": [
    "Filterpy.C98_forgets",
    "Filterpy.C98_error"
   ],
   "note": ""
  },
  {
   "property": "C99",
   "status": "partial",
   "theorems": [
    "Filterpy.C99_worst_case_partial",
    "Filterpy.C99_worst_case_refuted"
   ],
   "note": "Holds for F = I (C99_worst_case_partial). For a moving state the code multiplies by F twice and the bound fails (C99_worst_case_refuted)."
  },
  {
   "property": "C100",
   "status": "proved",
   "theorems": [
    "Filterpy.C100_discounted_least_squares",
    "Filterpy.C100_fading_class"
   ],
   "note": "the KalmanFilter attribute allows any alpha; the FadingKalmanFilter version inherits the shape conditions on controls of C18"
  },
  {
   "property": "C101",
   "status": "partial",
   "theorems": [
    "Filterpy.C101_imm",
    "Filterpy.C101_mmae_partial",
    "Filterpy.C101_mmae_covariance_refuted"
   ],
   "note": "IMM in full; MMAE for the probabilities, the filters and x after the first update (C101_mmae_partial). The covariance of MMAEFilterBank depends on the order (C101_mmae_covariance_refuted)."
  },
  {
   "property": "C102",
   "status": "proved",
   "theorems": [
    "Filterpy.C102_identity",
    "Filterpy.C102_kalman"
   ],
   "note": ""
  },
  {
   "property": "C103",
   "status": "proved",
   "theorems": [
    "Filterpy.C103_gauss_newton",
    "Filterpy.C103_slope",
    "Filterpy.C103_descent",
    "Filterpy.C103_reduces",
    "Filterpy.C103_psd_invariant",
    "Filterpy.C103_full_step_refuted"
   ],
   "note": "C103_full_step_refuted shows the limit of the guarantee: the full step may overshoot (Hx(x)=x^2)."
  },
  {
   "property": "C104",
   "status": "proved",
   "theorems": [
    "Filterpy.C104_multinomial",
    "Filterpy.C104_stratified",
    "Filterpy.C104_systematic_mean",
    "Filterpy.C104_count_bound",
    "Filterpy.C104_systematic_count",
    "Filterpy.C104_systematic_refuted"
   ],
   "note": "C104_systematic_refuted is the witness that systematic resampling has no such bound for general averages."
  },
  {
   "property": "C105",
   "status": "proved",
   "theorems": [
    "Filterpy.C105_pathwise",
    "Filterpy.C105_mean_square",
    "Filterpy.C105_becomes_consistent"
   ],
   "note": "observability and positive definite Q, R are assumed (C97_needs shows observability cannot be dropped)."
  },
  {
   "property": "C106",
   "status": "proved",
   "theorems": [
    "Filterpy.C106_histories",
    "Filterpy.C106_posterior"
   ],
   "note": "exact arithmetic; cval is 0 in constant mode."
  },
  {
   "property": "C107",
   "status": "proved",
   "theorems": [
    "Filterpy.C107_draws",
    "Filterpy.C107_almost_surely"
   ],
   "note": "the ensembles of different sizes use the first N of one infinite sequence of members; with R positive definite the innovation covariance is always invertible."
  },
  {
   "property": "C108",
   "status": "proved",
   "theorems": [
    "Filterpy.C108_right_model_kept",
    "Filterpy.C108_odds",
    "Filterpy.C108_evidence_best"
   ],
   "note": "exact arithmetic; the initial state is normal with the filter's mean and covariance, as in C94."
  },
  {
   "property": "C109",
   "status": "proved",
   "theorems": [
    "Filterpy.C109_blocks",
    "Filterpy.C109_never_grows",
    "Filterpy.C109_forgets"
   ],
   "note": ""
  },
  {
   "property": "C110",
   "status": "proved",
   "theorems": [
    "Filterpy.C110_never_corrected",
    "Filterpy.C110_never_certain"
   ],
   "note": ""
  },
  {
   "property": "C111",
   "status": "proved",
   "theorems": [
    "Filterpy.C111_fewer",
    "Filterpy.C111_succeeds"
   ],
   "note": ""
  },
  {
   "property": "C112",
   "status": "proved",
   "theorems": [
    "Filterpy.C112_extended",
    "Filterpy.C112_small_uncertainty"
   ],
   "note": "fx and hx are total differentiable functions; P, Q, R positive definite"
  },
  {
   "property": "C113",
   "status": "proved",
   "theorems": [
    "Filterpy.C113_one_step",
    "Filterpy.C113_fourth_order",
    "Filterpy.C113_start",
    "Filterpy.C113_sharp"
   ],
   "note": ""
  },
  {
   "property": "C114",
   "status": "partial",
   "theorems": [
    "Filterpy.C114_kalman_filter",
    "Filterpy.C114_kalman_filter_partial",
    "Filterpy.C114_ekf",
    "Filterpy.C114_fading",
    "Filterpy.C114_ukf",
    "Filterpy.C114_ckf",
    "Filterpy.C114_information",
    "Filterpy.C114_hinfinity",
    "Filterpy.C114_gh",
    "Filterpy.C114_square_root_partial",
    "Filterpy.C114_ensemble_partial",
    "Filterpy.C114_imm_partial",
    "Filterpy.C114_mmae_partial",
    "Filterpy.C114_polynomial_partial",
    "Filterpy.C114_sequential_refuted",
    "Filterpy.C114_square_root_refuted",
    "Filterpy.C114_imm_refuted",
    "Filterpy.C114_mmae_refuted",
    "Filterpy.C114_least_squares_refuted",
    "Filterpy.C114_order_refuted"
   ],
   "note": "False of the code for update_sequential, SquareRootKalmanFilter, EnsembleKalmanFilter, the banks, GHFilterOrder, FadingMemoryFilter and LeastSquaresFilter (refuted with witnesses); the partial theorems say what holds there."
  },
  {
   "property": "C115",
   "status": "proved",
   "theorems": [
    "Filterpy.C115_bounded",
    "Filterpy.C115_needs"
   ],
   "note": "C115_bounded: never fails, positive definite, errors at most C tau resp. C tau (1+Y) for all time. C115_needs: an unobserved filter accumulates without limit. Rounding is an arbitrary perturbation of the result of each call; floating point arithmetic itself is not modelled, and the rounded P is assumed symmetric."
  },
  {
   "property": "C116",
   "status": "proved",
   "theorems": [
    "Filterpy.C116_gh",
    "Filterpy.C116_gh_noise",
    "Filterpy.C116_ghk",
    "Filterpy.C116_ghk_noise"
   ],
   "note": "C116_gh, C116_ghk: necessary and sufficient; C116_gh_noise, C116_ghk_noise: bounded disturbances give bounded errors."
  },
  {
   "property": "C117",
   "status": "partial",
   "theorems": [
    "Filterpy.C117_contours",
    "Filterpy.C117_arguments",
    "Filterpy.C117_semiaxis_refuted",
    "Filterpy.C117_coverage",
    "Filterpy.C117_interval_refuted",
    "Filterpy.C117_surface",
    "Filterpy.C117_surface_refuses"
   ],
   "note": "C117_interval_refuted: interval=p uses one-dimensional quantiles, so the ellipse always contains strictly less than p. C117_semiaxis_refuted: the show_semiaxis lines end at Mahalanobis distance 1/2. The rest is proved."
  },
  {
   "property": "C118",
   "status": "proved",
   "theorems": [
    "Filterpy.C118_ukf",
    "Filterpy.C118_merwe",
    "Filterpy.C118_julier",
    "Filterpy.C118_simplex",
    "Filterpy.C118_breaks",
    "Filterpy.C118_predict_exact",
    "Filterpy.C118_strict",
    "Filterpy.C118_ckf",
    "Filterpy.C118_enkf"
   ],
   "note": "Repeated updates without a predict are excluded: they are refuted in C22 and C26."
  },
  {
   "property": "C119",
   "status": "proved",
   "theorems": [
    "Filterpy.C119_update",
    "Filterpy.C119_fading",
    "Filterpy.C119_ekf",
    "Filterpy.C119_redundant",
    "Filterpy.C119_correlated",
    "Filterpy.C119_smoother",
    "Filterpy.C119_smoother_function",
    "Filterpy.C119_fixed_lag",
    "Filterpy.C119_multiply",
    "Filterpy.C119_run"
   ],
   "note": "exact criteria for every inversion in these classes, with the state left behind"
  },
  {
   "property": "C120",
   "status": "partial",
   "theorems": [
    "Filterpy.C120_kf",
    "Filterpy.C120_ekf",
    "Filterpy.C120_ukf",
    "Filterpy.C120_ckf",
    "Filterpy.C120_fkf_partial",
    "Filterpy.C120_kf_history",
    "Filterpy.C120_kf_history_partial",
    "Filterpy.C120_ekf_history",
    "Filterpy.C120_fkf_history",
    "Filterpy.C120_ukf_history",
    "Filterpy.C120_ckf_history",
    "Filterpy.C120_kf_never_raises",
    "Filterpy.C120_ckf_attribute_error",
    "Filterpy.C120_ckf_new_refuted",
    "Filterpy.C120_print_then_sequential_refuted",
    "Filterpy.C120_enkf",
    "Filterpy.C120_if",
    "Filterpy.C120_srkf",
    "Filterpy.C120_imm",
    "Filterpy.C120_gh",
    "Filterpy.C120_gho",
    "Filterpy.C120_fading",
    "Filterpy.C120_lsq",
    "Filterpy.C120_ghk_partial",
    "Filterpy.C120_hinf_partial",
    "Filterpy.C120_mmae_partial",
    "Filterpy.C120_mmae_refuted",
    "Filterpy.C120_fls_partial",
    "Filterpy.C120_fkf_refuted",
    "Filterpy.C120_ghk_refuted",
    "Filterpy.C120_titles_refuted",
    "Filterpy.C120_pretty_array",
    "Filterpy.C120_pretty_unlabelled",
    "Filterpy.C120_pretty_column",
    "Filterpy.C120_pretty_raises",
    "Filterpy.C120_pretty_list"
   ],
   "note": "False as stated for: printing before update_sequential (C120_print_then_sequential_refuted), a CubatureKalmanFilter without measurements, which cannot be printed (C120_ckf_new_refuted), and mislabelled lines of FadingKalmanFilter, FixedLagSmoother, HInfinityFilter, GHKFilter, MMAEFilterBank; proved for everything else."
  },
  {
   "property": "C121",
   "status": "partial",
   "theorems": [
    "Filterpy.IntKF.C121_kf",
    "Filterpy.IntKF.C121_kf_float",
    "Filterpy.IntKF.C121_kf_refused_iff",
    "Filterpy.IntKF.C121_kf_sequential_refuted",
    "Filterpy.IntKF.C121_residual_refuted",
    "Filterpy.KF.C121_rts",
    "Filterpy.KF.C121_rts_refuted",
    "Filterpy.IntSRKF.C121_srkf_float",
    "Filterpy.IntSRKF.C121_srkf_predict_first",
    "Filterpy.IntSRKF.C121_srkf_refuted",
    "Filterpy.IntFLS.C121_fls",
    "Filterpy.IntFLS.C121_fls_refuted",
    "Filterpy.MMAE.C121_mmae_float",
    "Filterpy.MMAE.C121_mmae_refuted",
    "Filterpy.IntFading.C121_fading",
    "Filterpy.IntFading.C121_fading_refuted",
    "Filterpy.IntFading.C121_fading2_refuted",
    "Filterpy.DiscreteBayes.C121_bayes",
    "Filterpy.DiscreteBayes.C121_bayes_predict_refuted",
    "Filterpy.DiscreteBayes.C121_bayes_refuted"
   ],
   "note": "Refuted for update_sequential on an integer x (and the residual it stores), rts_smoother on integer arrays of two or more steps, SquareRootKalmanFilter.update, FixedLagSmoother.smooth with control input, MMAEFilterBank with integer probabilities, FadingMemoryFilter of order 1 and 2, discrete_bayes with integer beliefs. Not modelled: 64-bit overflow, UKF.rts_smoother."
  },
  {
   "property": "C122",
   "status": "proved",
   "theorems": [
    "Filterpy.C122_revealed",
    "Filterpy.C122_window",
    "Filterpy.C122_outages",
    "Filterpy.C122_reveals_iff",
    "Filterpy.C122_recovers",
    "Filterpy.C122_stable",
    "Filterpy.C122_regular_not_enough"
   ],
   "note": "alpha >= 1 for the exact criterion (a factor below 1 shrinks the covariance by itself)."
  },
  {
   "property": "C123",
   "status": "partial",
   "theorems": [
    "Filterpy.C123_pdf",
    "Filterpy.C123_pdf_default",
    "Filterpy.C123_cdf",
    "Filterpy.C123_cdf_default",
    "Filterpy.C123_discrete",
    "Filterpy.C123_refused",
    "Filterpy.C123_std_refuted",
    "Filterpy.C123_deprecated_refuted"
   ],
   "note": "plot_gaussian_pdf(std=...) always raises a ValueError because variance has a default (C123_std_refuted); plot_gaussian raises for every combination of its documented arguments because it passes them on in the wrong positions (C123_deprecated_refuted)."
  },
  {
   "property": "C124",
   "status": "partial",
   "theorems": [
    "Filterpy.C124_kalman",
    "Filterpy.C124_retry",
    "Filterpy.C124_ekf",
    "Filterpy.C124_ekf_predict_update",
    "Filterpy.C124_fading",
    "Filterpy.C124_ckf",
    "Filterpy.C124_square_root",
    "Filterpy.C124_hinfinity",
    "Filterpy.C124_enkf",
    "Filterpy.C124_gh",
    "Filterpy.C124_ghk",
    "Filterpy.C124_fixed_lag",
    "Filterpy.C124_ukf_update",
    "Filterpy.C124_ukf_predict",
    "Filterpy.C124_ukf_predict_refuted",
    "Filterpy.C124_information_update",
    "Filterpy.C124_information_update_refuted",
    "Filterpy.C124_information_setF_refuted",
    "Filterpy.C124_hinfinity_setV_refuted",
    "Filterpy.C124_bank_predict",
    "Filterpy.C124_imm_update",
    "Filterpy.C124_mmae_update",
    "Filterpy.C124_bank_refuted"
   ],
   "note": "Proved for the classes named; the banks, UKF.predict, InformationFilter.update with 1 < dim_z != dim_x, and the setters of InformationFilter.F and HInfinityFilter.V violate it (refutations)."
  },
  {
   "property": "C125",
   "status": "proved",
   "theorems": [
    "Filterpy.C125_never_certain",
    "Filterpy.C125_exists",
    "Filterpy.C125_exists_iff",
    "Filterpy.C125_unbounded",
    "Filterpy.C125_rate",
    "Filterpy.C125_settles",
    "Filterpy.C125_constant_gain",
    "Filterpy.C125_error",
    "Filterpy.C125_two_limits",
    "Filterpy.C125_forgets"
   ],
   "note": ""
  },
  {
   "property": "C126",
   "status": "partial",
   "theorems": [
    "Filterpy.C126_settles_partial",
    "Filterpy.C126_one_partial",
    "Filterpy.C126_sum_refuted"
   ],
   "note": "true for one coordinate or a corrected H; C126_sum_refuted: false for two or more coordinates with the H that kinematic_kf installs"
  },
  {
   "property": "C127",
   "status": "partial",
   "theorems": [
    "Filterpy.C127_ekf",
    "Filterpy.C127_fading",
    "Filterpy.C127_ukf",
    "Filterpy.C127_ckf",
    "Filterpy.C127_enkf",
    "Filterpy.C127_square_root",
    "Filterpy.C127_information",
    "Filterpy.C127_hinfinity",
    "Filterpy.C127_information_uninformative",
    "Filterpy.C127_hinfinity_blind_refuted",
    "Filterpy.C127_hinfinity_uninformative_refuted"
   ],
   "note": "deletion holds for all eight classes. Refuted: HInfinityFilter propagates P only inside update, so update(None) is not the same as a measurement without information and P never grows while measurements are missing"
  },
  {
   "property": "C128",
   "status": "proved",
   "theorems": [
    "Filterpy.C128_imm_floor",
    "Filterpy.C128_imm_switches",
    "Filterpy.C128_imm_follows",
    "Filterpy.C128_mmae_weighs_everything",
    "Filterpy.C128_mmae_dead"
   ],
   "note": "positive likelihoods are proved for Kalman filters (kf_posLik); transition matrices with a zero entry are excluded, as in C31"
  },
  {
   "property": "C129",
   "status": "partial",
   "theorems": [
    "Filterpy.C129_fading",
    "Filterpy.C129_ekf",
    "Filterpy.C129_hinfinity",
    "Filterpy.C129_enkf",
    "Filterpy.C129_imm",
    "Filterpy.C129_imm_init",
    "Filterpy.C129_mmae_partial",
    "Filterpy.C129_information_partial",
    "Filterpy.C129_information_lost_refuted",
    "Filterpy.C129_mmae_covariance_refuted",
    "Filterpy.C129_underflow_refuted",
    "Filterpy.C129_likelihood"
   ],
   "note": "C129_information_partial needs an invertible information matrix and C129_mmae_partial leaves out the bank's covariance because the code violates the rest: C129_information_lost_refuted, C129_mmae_covariance_refuted; C129_underflow_refuted shows that the bank results need an exponential that does not underflow."
  },
  {
   "property": "C130",
   "status": "partial",
   "theorems": [
    "Filterpy.C130_points",
    "Filterpy.C130_ukf_functions",
    "Filterpy.C130_ukf",
    "Filterpy.C130_rts",
    "Filterpy.C130_ckf",
    "Filterpy.C130_ckf_axes_refuted",
    "Filterpy.C130_ukf_axes_refuted",
    "Filterpy.C130_likelihood"
   ],
   "note": "proved for all scalings; refuted for general linear changes of state coordinates (C130_ukf_axes_refuted, C130_ckf_axes_refuted)"
  },
  {
   "property": "C131",
   "status": "partial",
   "theorems": [
    "Filterpy.C131_merwe",
    "Filterpy.C131_julier",
    "Filterpy.C131_simplex",
    "Filterpy.C131_list_refuted",
    "Filterpy.C131_number_refuted",
    "Filterpy.C131_column"
   ],
   "note": "proved exactly for all three classes; the documented list argument raises AttributeError with the simplex points (C131_list_refuted), and np.array(4.) is not treated as the number 4. (C131_number_refuted)"
  },
  {
   "property": "C132",
   "status": "proved",
   "theorems": [
    "Filterpy.C132_span",
    "Filterpy.C132_update",
    "Filterpy.C132_updates",
    "Filterpy.C132_certain",
    "Filterpy.C132_few",
    "Filterpy.C132_order"
   ],
   "note": ""
  },
  {
   "property": "C133",
   "status": "proved",
   "theorems": [
    "Filterpy.C133_penalised",
    "Filterpy.C133_unique",
    "Filterpy.C133_limit",
    "Filterpy.C133_least_squares_filter",
    "Filterpy.C133_handover",
    "Filterpy.C133_kinematic"
   ],
   "note": "C133_penalised, C133_unique, C133_limit (all orders), C133_least_squares_filter, C133_handover (orders 0-2), C133_kinematic."
  },
  {
   "property": "C134",
   "status": "proved",
   "theorems": [
    "Filterpy.C134_evidence",
    "Filterpy.C134_fuse",
    "Filterpy.C134_average",
    "Filterpy.C134_multiply",
    "Filterpy.C134_bank"
   ],
   "note": "C134_fuse, C134_average, C134_multiply, C134_evidence, C134_bank."
  },
  {
   "property": "C135",
   "status": "partial",
   "theorems": [
    "Filterpy.C135_update_one",
    "Filterpy.C135_zero_refuted",
    "Filterpy.C135_program",
    "Filterpy.C135_update_arrays",
    "Filterpy.C135_refused",
    "Filterpy.C135_predict_arrays",
    "Filterpy.C135_steadystate_arrays",
    "Filterpy.C135_numbers",
    "Filterpy.C135_python_number_refuted",
    "Filterpy.C135_row_H_refuted",
    "Filterpy.C135_mixed_control_refuted"
   ],
   "note": "Proved for every size and mixture. Refuted: a Python number as state (AttributeError in update, unless predict came first), a 1-D H with two or more variables (ValueError), controls in the other form than the state (the state silently becomes a matrix), zero variances (division by zero)."
  },
  {
   "property": "C136",
   "status": "proved",
   "theorems": [
    "Filterpy.C136_entropy",
    "Filterpy.C136_worth",
    "Filterpy.C136_total",
    "Filterpy.C136_order",
    "Filterpy.C136_diminishing",
    "Filterpy.C136_together",
    "Filterpy.C136_predict",
    "Filterpy.C136_budget",
    "Filterpy.C136_surprises"
   ],
   "note": "log-volume is justified by C136_entropy; P and R positive definite as the statement says"
  },
  {
   "property": "C137",
   "status": "partial",
   "theorems": [
    "Filterpy.C137_correlated",
    "Filterpy.C137_correlated_H_partial",
    "Filterpy.C137_correlated_H_refuted",
    "Filterpy.C137_get_prediction",
    "Filterpy.C137_get_update",
    "Filterpy.C137_residual_of",
    "Filterpy.C137_measurement_of_state",
    "Filterpy.C137_mahalanobis",
    "Filterpy.C137_sequential_partial",
    "Filterpy.C137_sequential_refuted",
    "Filterpy.C137_sequential_half_done_refuted",
    "Filterpy.C137_sequential_beyond_refuted",
    "Filterpy.C137_sequential_range"
   ],
   "note": "The code violates the property in the cases refuted by C137_correlated_H_refuted, C137_sequential_refuted, C137_sequential_half_done_refuted and C137_sequential_beyond_refuted; everything else is proved."
  },
  {
   "property": "C138",
   "status": "partial",
   "theorems": [
    "Filterpy.C138_fading_predict_partial",
    "Filterpy.C138_fading_update_partial",
    "Filterpy.C138_fading_update_none",
    "Filterpy.C138_fading_exactly",
    "Filterpy.C138_fading_refuted",
    "Filterpy.C138_fading_predict_refuted",
    "Filterpy.C138_fading_predict_vec_refuted",
    "Filterpy.C138_fading_predict_exactly",
    "Filterpy.C138_fading_batch_partial",
    "Filterpy.C138_fading_batch_refuted",
    "Filterpy.C138_ekf_predict_partial",
    "Filterpy.C138_ekf_update_partial",
    "Filterpy.C138_ekf_update_none",
    "Filterpy.C138_ekf_exactly",
    "Filterpy.C138_ekf_refuted",
    "Filterpy.C138_hinf_predict_partial",
    "Filterpy.C138_hinf_update_partial",
    "Filterpy.C138_hinf_exactly",
    "Filterpy.C138_hinf_refuted",
    "Filterpy.C138_square_root_predict_partial",
    "Filterpy.C138_square_root_update_partial",
    "Filterpy.C138_square_root_exactly",
    "Filterpy.C138_square_root_refuted",
    "Filterpy.C138_information_update_partial",
    "Filterpy.C138_information_none_partial",
    "Filterpy.C138_information_update_none",
    "Filterpy.C138_information_predict_partial",
    "Filterpy.C138_information_half_done_refuted",
    "Filterpy.C138_information_none_refuted",
    "Filterpy.C138_information_refuted",
    "Filterpy.C138_fixed_lag_partial",
    "Filterpy.C138_fixed_lag_exactly",
    "Filterpy.C138_fixed_lag_refuted",
    "Filterpy.C138_fading_get_prediction",
    "Filterpy.C138_fading_residual_of",
    "Filterpy.C138_predict_refuted",
    "Filterpy.C138_fresh"
   ],
   "note": "The code violates the property in the cases refuted by the C138_..._refuted theorems; for fitting measurements and controls it is proved, and the exactness theorems say that no other measurements keep the form of the state."
  },
  {
   "property": "C139",
   "status": "proved",
   "theorems": [
    "Filterpy.C139_points",
    "Filterpy.C139_update",
    "Filterpy.C139_predict",
    "Filterpy.C139_redrawn",
    "Filterpy.C139_fresh",
    "Filterpy.C139_linear",
    "Filterpy.C139_kept_refuted"
   ],
   "note": "C139_kept_refuted shows that the redrawing is needed (the same stale points as in C25)."
  },
  {
   "property": "C140",
   "status": "proved",
   "theorems": [
    "Filterpy.C140_smoothed",
    "Filterpy.C140_unbeaten",
    "Filterpy.C140_filtered",
    "Filterpy.C140_exists"
   ],
   "note": "As in C11, P, Q and R of the filter are taken to be the true covariances (Believed)."
  },
  {
   "property": "C141",
   "status": "proved",
   "theorems": [
    "Filterpy.C141_nees",
    "Filterpy.C141_mahalanobis",
    "Filterpy.C141_total",
    "Filterpy.C141_gate",
    "Filterpy.C141_gate_plane",
    "Filterpy.C141_exists"
   ],
   "note": "The inverse routine is numpy.linalg.inv, as in C78; for NEES the reported covariances must be invertible (otherwise the call raises)."
  },
  {
   "property": "C142",
   "status": "proved",
   "theorems": [
    "Filterpy.C142_errors",
    "Filterpy.C142_bounded",
    "Filterpy.C142_data",
    "Filterpy.C142_outlier",
    "Filterpy.C142_constant_gain",
    "Filterpy.C142_exactly"
   ],
   "note": "alpha >= 1 (no anti-fading); the converse is for alpha = 1. Every cycle has a measurement; per-call overrides of the matrices are not covered here (C84/C85 cover them for positive definite Q)."
  },
  {
   "property": "C143",
   "status": "partial",
   "theorems": [
    "Filterpy.C143_ukf_fresh",
    "Filterpy.C143_ukf_predict",
    "Filterpy.C143_ukf_update_partial",
    "Filterpy.C143_ukf_none",
    "Filterpy.C143_ukf_exactly",
    "Filterpy.C143_ukf_column",
    "Filterpy.C143_ukf_square_refuted",
    "Filterpy.C143_ukf_one_refuted",
    "Filterpy.C143_points_merwe",
    "Filterpy.C143_points_julier",
    "Filterpy.C143_points_simplex",
    "Filterpy.C143_ukf_run",
    "Filterpy.C143_ckf_fresh",
    "Filterpy.C143_ckf_predict",
    "Filterpy.C143_ckf_update_partial",
    "Filterpy.C143_ckf_none",
    "Filterpy.C143_ckf_exactly",
    "Filterpy.C143_ckf_flat_refuted",
    "Filterpy.C143_ckf_start_refuted",
    "Filterpy.C143_ckf_run",
    "Filterpy.C143_enkf_update_partial",
    "Filterpy.C143_enkf_number_refuted",
    "Filterpy.C143_enkf_none",
    "Filterpy.C143_enkf_exactly",
    "Filterpy.C143_enkf_column_refuted",
    "Filterpy.C143_enkf_empty_refuted"
   ],
   "note": "The code violates the property for column measurements of UnscentedKalmanFilter, 1-D measurements and early updates of CubatureKalmanFilter, and numbers, columns and empty arrays of EnsembleKalmanFilter (refutations included). Proved: exactly which measurements each filter accepts, and that for those it computes what the mathematical filter computes. Custom residual functions, and hx/fx returning arrays of other shapes, are not covered."
  },
  {
   "property": "C144",
   "status": "partial",
   "theorems": [
    "Filterpy.C144_imm_init",
    "Filterpy.C144_imm_ukf",
    "Filterpy.C144_imm_ckf_partial",
    "Filterpy.C144_imm_fading_partial",
    "Filterpy.C144_mmae_ukf_partial",
    "Filterpy.C144_imm_others_refuted",
    "Filterpy.C144_mmae_others_refuted",
    "Filterpy.C144_mmae_matrix_refuted",
    "Filterpy.C144_mmae_step_refuted",
    "Filterpy.C144_imm_missing_refuted"
   ],
   "note": "The code violates the property (refutations included): IMMEstimator.predict() passes None, which FadingKalmanFilter, ExtendedKalmanFilter, SquareRootKalmanFilter and HInfinityFilter refuse; InformationFilter.P cannot be assigned; MMAEFilterBank.update works with KalmanFilter and UnscentedKalmanFilter only; MMAEFilterBank.predict() gives unscented filters a zero time step; update(None) repeats the last likelihoods. CubatureKalmanFilter is covered without process noise (it differs from KalmanFilter with it, C25)."
  },
  {
   "property": "C145",
   "status": "proved",
   "theorems": [
    "Filterpy.C145_imm",
    "Filterpy.C145_mmae",
    "Filterpy.C145_ekf",
    "Filterpy.C145_ensemble",
    "Filterpy.C145_discrete_bayes",
    "Filterpy.C145_ukf_smoother",
    "Filterpy.C145_history",
    "Filterpy.C145_residual",
    "Filterpy.C145_drowned",
    "Filterpy.C145_perfect",
    "Filterpy.C145_fading",
    "Filterpy.C145_hinf",
    "Filterpy.C145_smoother",
    "Filterpy.C145_ukf",
    "Filterpy.C145_ckf"
   ],
   "note": "Nothing is claimed at inputs where the call raises (a singular residual covariance). In the banks the exponential function is any continuous positive function and missing measurements are excluded (C34). Families keep the form of each argument (None, number, array)."
  },
  {
   "property": "C146",
   "status": "partial",
   "theorems": [
    "Filterpy.C146_gh",
    "Filterpy.C146_ghk",
    "Filterpy.C146_fading",
    "Filterpy.C146_leastsq_refuted"
   ],
   "note": "The clause on LeastSquaresFilter is false (C146_leastsq_refuted): its gains tend to zero, so roundings pile up without bound, whatever the order; everything else is proved. The errors of the arithmetic inside one update are part of the rounding of its result."
  },
  {
   "property": "C147",
   "status": "partial",
   "theorems": [
    "Filterpy.C147_regular_partial",
    "Filterpy.C147_singular_refuted"
   ],
   "note": "False where a prediction finds singular information (C147_singular_refuted): with any information e > 0 on the second quantity the prediction adds the process noise to the first, with e = 0 it does not. Proved for every history whose predictions find regular information, from either mode of the filter."
  },
  {
   "property": "C148",
   "status": "partial",
   "theorems": [
    "Filterpy.SaverArray.C148_reads_partial",
    "Filterpy.SaverArray.C148_known",
    "Filterpy.SaverArray.C148_unknown_refuted"
   ],
   "note": "False for a key that was never recorded (C148_unknown_refuted): saver['typo'] returns an empty list and records the key, which keys and repr show while saver.typo does not exist until the next save. Proved: no reading whatever changes a history, the count, or the attribute of a recorded key; readings of recorded keys only leave the saver exactly as it was."
  },
  {
   "property": "C149",
   "status": "proved",
   "theorems": [
    "Filterpy.C149_error",
    "Filterpy.C149_bars",
    "Filterpy.C149_ellipsoid",
    "Filterpy.C149_plot",
    "Filterpy.C149_smoothed"
   ],
   "note": ""
  },
  {
   "property": "C150",
   "status": "proved",
   "theorems": [
    "Filterpy.C150_ensemble",
    "Filterpy.C150_ukf",
    "Filterpy.C150_ukf_smoother"
   ],
   "note": "the user's functions for weighted means must not depend on the order of the points (stated as a hypothesis, satisfied by the default and by means of angles)"
  },
  {
   "property": "C151",
   "status": "proved",
   "theorems": [
    "Filterpy.C151_ring",
    "Filterpy.C151_turns",
    "Filterpy.C151_moves_commute",
    "Filterpy.C151_mirror",
    "Filterpy.C151_even_refuted",
    "Filterpy.C151_mirror_even"
   ],
   "note": "the mirror symmetry is claimed for kernels with an odd number of taps; C151_even_refuted shows that it fails for even ones without a corrected offset"
  },
  {
   "property": "C152",
   "status": "proved",
   "theorems": [
    "Filterpy.C152_batch",
    "Filterpy.C152_function",
    "Filterpy.C152_fading",
    "Filterpy.C152_hinfinity",
    "Filterpy.C152_ukf",
    "Filterpy.C152_gh",
    "Filterpy.C152_lag",
    "Filterpy.C152_lag_batch"
   ],
   "note": "all batch methods and the fixed-lag smoother"
  },
  {
   "property": "C153",
   "status": "partial",
   "theorems": [
    "Filterpy.C153_batch",
    "Filterpy.C153_fading",
    "Filterpy.C153_hinfinity",
    "Filterpy.C153_ukf_partial",
    "Filterpy.C153_ukf_missing",
    "Filterpy.C153_gh_partial",
    "Filterpy.C153_gh_refuted",
    "Filterpy.C153_lag_refuted",
    "Filterpy.C153_function"
   ],
   "note": "refuted for GHFilter.batch_filter and FixedLagSmoother.smooth_batch (both start again from the initial state); the unscented filter refuses a part that begins with a missing measurement"
  },
  {
   "property": "C154",
   "status": "partial",
   "theorems": [
    "Filterpy.C154_kalman",
    "Filterpy.C154_steady",
    "Filterpy.C154_fading",
    "Filterpy.C154_hinfinity",
    "Filterpy.C154_square_root",
    "Filterpy.C154_extended",
    "Filterpy.C154_ensemble",
    "Filterpy.C154_lag",
    "Filterpy.C154_information",
    "Filterpy.C154_unscented_partial",
    "Filterpy.C154_unscented_points",
    "Filterpy.C154_unscented_refuted",
    "Filterpy.C154_cubature_partial",
    "Filterpy.C154_cubature_points",
    "Filterpy.C154_information_refuted",
    "Filterpy.C154_gh",
    "Filterpy.C154_imm",
    "Filterpy.C154_mmae",
    "Filterpy.C154_bank_kalman",
    "Filterpy.C154_bank_refuted",
    "Filterpy.C154_ghk",
    "Filterpy.C154_gh_order",
    "Filterpy.C154_fading_memory",
    "Filterpy.C154_least_squares",
    "Filterpy.C154_least_squares_refuted",
    "Filterpy.C154_bank_fading",
    "Filterpy.C154_bank_unscented",
    "Filterpy.C154_bank_fading_refuted"
   ],
   "note": "Refuted for UnscentedKalmanFilter between predict and update when the sigma points are not stored, for InformationFilter when _no_information is not stored, for LeastSquaresFilter when n is not stored, and for KalmanFilter in a bank when S is not stored."
  },
  {
   "property": "C155",
   "status": "proved",
   "theorems": [
    "Filterpy.C155_tail",
    "Filterpy.C155_blocks",
    "Filterpy.C155_function_tail",
    "Filterpy.C155_function_blocks",
    "Filterpy.C155_unscented_tail",
    "Filterpy.C155_unscented_blocks"
   ],
   "note": ""
  }
 ]
}