{
 "claims": [
  {
   "property": "C01",
   "status": "proved",
   "theorems": [
    "Verif.C01_ekf_history_psd"
   ],
   "note": ""
  },
  {
   "property": "C02",
   "status": "proved",
   "theorems": [
    "Verif.C02_correct_decreases",
    "Verif.C02_correct_eq_predict_then_correct"
   ],
   "note": ""
  },
  {
   "property": "C03",
   "status": "proved",
   "theorems": [
    "Verif.C03_linear_correct_is_map"
   ],
   "note": ""
  },
  {
   "property": "C04",
   "status": "proved",
   "theorems": [
    "Verif.C04_simultaneous_commute"
   ],
   "note": ""
  },
  {
   "property": "C05",
   "status": "proved",
   "theorems": [
    "Verif.C05_predict_ok",
    "Verif.C05_predict_runtimeError",
    "Verif.C05_predict_valueError",
    "Verif.C05_predict_no_input"
   ],
   "note": ""
  },
  {
   "property": "C06",
   "status": "proved",
   "theorems": [
    "Verif.C06_no_predict",
    "Verif.C06_none_unchanged",
    "Verif.C06_outlier",
    "Verif.C06_stamp",
    "Verif.C02_correct_eq_predict_then_correct"
   ],
   "note": ""
  },
  {
   "property": "C07",
   "status": "proved",
   "theorems": [
    "Verif.C07_exact",
    "Verif.C07_treated_as_current",
    "Verif.C07_guard",
    "Verif.C07_out_of_order_fused"
   ],
   "note": "The English claim is false of the code; what the code does instead is characterized exactly for all inputs: C07_exact (refused iff more than 1e10 s older), C07_treated_as_current (otherwise fused as if taken now); C07_out_of_order_fused is a witness."
  },
  {
   "property": "C08",
   "status": "proved",
   "theorems": [
    "Verif.C08_predict_exact",
    "Verif.C08_correct_exact",
    "Verif.C08_xjac_not_honoured",
    "Verif.C08_actual_dependency"
   ],
   "note": "The documented behaviour is refuted (C08_xjac_not_honoured); C08_predict_exact and C08_correct_exact say exactly what x_jac does."
  },
  {
   "property": "C09",
   "status": "proved",
   "theorems": [
    "Verif.C09_predict_split"
   ],
   "note": ""
  },
  {
   "property": "C67",
   "status": "proved",
   "theorems": [
    "Verif.C67_correct_total"
   ],
   "note": ""
  },
  {
   "property": "C10",
   "status": "proved",
   "theorems": [
    "Verif.C10_iekf_cost_decreases",
    "Verif.C10_iekf_never_worse",
    "Verif.C10_iekf_terminates"
   ],
   "note": "Line search is modelled with explicit fuel; C10_iekf_terminates shows that enough fuel always exists, so the fuel bound is not a restriction."
  },
  {
   "property": "C11",
   "status": "proved",
   "theorems": [
    "Verif.C11_iekf_linear_eq_ekf"
   ],
   "note": "Also records that a first step shorter than step_tol leaves the mean unchanged."
  },
  {
   "property": "C12",
   "status": "proved",
   "theorems": [
    "Verif.C12_old_measurement",
    "Verif.C12_zero_iters",
    "Verif.C12_none_raises",
    "Verif.C12_outlier",
    "Verif.C12_outlier_any_pass"
   ],
   "note": ""
  },
  {
   "property": "C13",
   "status": "proved",
   "theorems": [
    "Verif.C13_sigma_moments",
    "Verif.C13_sigma_count",
    "Verif.C13_unknown_method",
    "Verif.C13_gh_nodes",
    "Verif.C13_mean_state_vector"
   ],
   "note": ""
  },
  {
   "property": "C14",
   "status": "proved",
   "theorems": [
    "Verif.C14_predict_linear",
    "Verif.C14_correct_linear"
   ],
   "note": ""
  },
  {
   "property": "C15",
   "status": "proved",
   "theorems": [
    "Verif.C15_fuse_psd",
    "Verif.C15_predict_psd",
    "Verif.C15_history_psd"
   ],
   "note": ""
  },
  {
   "property": "C16",
   "status": "proved",
   "theorems": [
    "Verif.C16_predict_negative",
    "Verif.C16_predict_no_covariance",
    "Verif.C16_predict_stamp",
    "Verif.C16_correct_old",
    "Verif.C16_correct_runtimeError_iff"
   ],
   "note": "Non-modification of the arguments is structural in a pure model (the code copies x first) and is not a theorem."
  },
  {
   "property": "C17",
   "status": "proved",
   "theorems": [
    "Verif.C17_predicted_prob",
    "Verif.C17_interaction",
    "Verif.C17_interaction_nan",
    "Verif.C17_interaction_moments"
   ],
   "note": ""
  },
  {
   "property": "C18",
   "status": "proved",
   "theorems": [
    "Verif.C18_imm_probabilities",
    "Verif.C18_gsf_probabilities",
    "Verif.C19_imm_bayes"
   ],
   "note": ""
  },
  {
   "property": "C19",
   "status": "proved",
   "theorems": [
    "Verif.C19_imm_bayes",
    "Verif.C19_gsf_bayes",
    "Verif.C19_small_likelihood_resets",
    "Verif.C19_gsf_vector_refused"
   ],
   "note": "Both branches proved: Bayes' rule whenever some product exceeds the 1e-8 tolerance, uniform weights otherwise. The Gaussian sum filter refuses measurements with more than one component."
  },
  {
   "property": "C20",
   "status": "proved",
   "theorems": [
    "Verif.C20_mixing_vector",
    "Verif.C20_mixing_psd",
    "Verif.C20_mixing_identical"
   ],
   "note": ""
  },
  {
   "property": "C68",
   "status": "proved",
   "theorems": [
    "Verif.C68_imm_single"
   ],
   "note": ""
  },
  {
   "property": "C21",
   "status": "proved",
   "theorems": [
    "Verif.C21_run_filter_schedule",
    "Verif.C21_fused_exactly_once",
    "Verif.C21_count",
    "Verif.sortByStamp_spec"
   ],
   "note": "run_filter = exec of the documented schedule, for every filter; fused measurements counted. Logs whose entries are all stale are C23."
  },
  {
   "property": "C22",
   "status": "proved",
   "theorems": [
    "Verif.C22_results",
    "Verif.C22_nondecreasing",
    "Verif.C22_no_stamp",
    "Verif.C22_no_runtimeError",
    "Verif.ekf_stampLaws",
    "Verif.ekf_noBackwards"
   ],
   "note": "for every filter obeying the stamp laws; every EKF does"
  },
  {
   "property": "C23",
   "status": "proved",
   "theorems": [
    "Verif.C23_exact",
    "Verif.C23_stale_iff",
    "Verif.C23_no_stale",
    "Verif.C23_all_stale_fused",
    "Verif.C23_all_inputs_stale",
    "Verif.C23_witness"
   ],
   "note": "False when every entry is stale; C23_exact gives the calls made for every filter and every log, C23_stale_iff says exactly when a stale measurement is fused."
  },
  {
   "property": "C69",
   "status": "proved",
   "theorems": [
    "Verif.C69_run_imm_schedule",
    "Verif.C69_last_interval_ignored"
   ],
   "note": ""
  },
  {
   "property": "C24",
   "status": "proved",
   "theorems": [
    "Verif.C24_slices_consecutive",
    "Verif.C24_slices_partition",
    "Verif.C24_slice_by_id",
    "Verif.C24_unknown_id"
   ],
   "note": ""
  },
  {
   "property": "C25",
   "status": "proved",
   "theorems": [
    "Verif.C25_plus_minus",
    "Verif.C25_minus_plus",
    "Verif.C25_plus_blockwise",
    "Verif.C25_extra_ignored",
    "Verif.C25_new_stamp",
    "Verif.vectorLeaf_laws"
   ],
   "note": "any nesting depth; laws of the elementary classes are hypotheses, proved for VectorState here and for matrix Lie groups in C32"
  },
  {
   "property": "C26",
   "status": "proved",
   "theorems": [
    "Verif.C26_get",
    "Verif.C26_set_state",
    "Verif.C26_set_stamp",
    "Verif.C26_set_value",
    "Verif.C26_remove",
    "Verif.C26_removed_unknown",
    "Verif.C26_unknown",
    "Verif.C26_add",
    "Verif.C26_get_attributes",
    "Verif.C26_history"
   ],
   "note": "sub-states are values: aliasing of one object at two positions is outside the model"
  },
  {
   "property": "C27",
   "status": "proved",
   "theorems": [
    "Verif.C27_plus_by_id_noop",
    "Verif.C27_only_trivial",
    "Verif.C27_witness"
   ],
   "note": "The claim is false in the code; proved exactly when it holds (iff the perturbation does nothing)."
  },
  {
   "property": "C28",
   "status": "proved",
   "theorems": [
    "Verif.C28_read_over_write",
    "Verif.C28_wrong_size",
    "Verif.C28_broadcast"
   ],
   "note": "exact condition for the ValueError proved, including numpy broadcasting"
  },
  {
   "property": "C29",
   "status": "proved",
   "theorems": [
    "Verif.C29_plus_jacobian",
    "Verif.C29_minus_jacobian",
    "Verif.C29_plus_jacobian_shape",
    "Verif.C29_from_blocks",
    "Verif.C29_from_no_blocks"
   ],
   "note": ""
  },
  {
   "property": "C30",
   "status": "proved",
   "theorems": [
    "Verif.C30_evaluate",
    "Verif.C30_jacobian_covariance",
    "Verif.blockDiagList_spec",
    "Verif.C30_independent",
    "Verif.C30_too_few",
    "Verif.C30_covariance_psd",
    "Verif.C30_input_plus"
   ],
   "note": ""
  },
  {
   "property": "C31",
   "status": "proved",
   "theorems": [
    "Verif.C31_evaluate",
    "Verif.C31_unknown",
    "Verif.C31_jacobian",
    "Verif.C31_perturbed"
   ],
   "note": ""
  },
  {
   "property": "C32",
   "status": "proved",
   "theorems": [
    "Verif.C32_plus_minus",
    "Verif.C32_minus_plus",
    "Verif.C32_minus_invariant",
    "Verif.C32_bad_direction",
    "Verif.C32_jacobians_inverse",
    "Verif.C32_constructor",
    "Verif.so2_laws",
    "Verif.lieLeaf_laws"
   ],
   "note": "the pymlg group laws are hypotheses; they are proved for SO(2) with its full atan2 logarithm"
  },
  {
   "property": "C33",
   "status": "proved",
   "theorems": [
    "Verif.C33_attitude",
    "Verif.C33_vector",
    "Verif.C33_components",
    "Verif.C33_from_blocks",
    "Verif.C33_from_blocks_SE23",
    "Verif.C33_from_no_blocks"
   ],
   "note": ""
  },
  {
   "property": "C34",
   "status": "proved",
   "theorems": [
    "Verif.C34_exact",
    "Verif.C34_random",
    "Verif.C34_random_SE3_wrong"
   ],
   "note": "Proved exactly which classes return their own class."
  },
  {
   "property": "C35",
   "status": "proved",
   "theorems": [
    "Verif.C35_lm_never_worse",
    "Verif.C35_lm_step",
    "Verif.C35_damping_positive",
    "Verif.C35_history"
   ],
   "note": ""
  },
  {
   "property": "C36",
   "status": "proved",
   "theorems": [
    "Verif.C36_constant",
    "Verif.C36_set_constant",
    "Verif.C36_add_variable",
    "Verif.C36_unknown_solver",
    "Verif.C36_gn_zero_iters"
   ],
   "note": ""
  },
  {
   "property": "C39",
   "status": "proved",
   "theorems": [
    "Verif.C39_exact",
    "Verif.C39_all_contribute_iff",
    "Verif.C39_own_losses",
    "Verif.C39_all_contribute",
    "Verif.C39_short_losses_drop",
    "Verif.C39_long_losses_shift"
   ],
   "note": "Exact over every history of add_residual calls: which residual is evaluated with which loss, and all contribute iff there are at least as many losses as residuals."
  },
  {
   "property": "C41",
   "status": "proved",
   "theorems": [
    "Verif.C41_exact",
    "Verif.C41_first_query",
    "Verif.C41_unknown_key",
    "Verif.C41_stale",
    "Verif.C41_builders_keep_cache",
    "Verif.C41_witness",
    "Verif.C40_covariance"
   ],
   "note": "False from the second solve on (C41_witness); C41_exact says, for every history of API calls, which covariance is cached."
  },
  {
   "property": "C42",
   "status": "proved",
   "theorems": [
    "Verif.C42_l2",
    "Verif.C42_cauchy"
   ],
   "note": ""
  },
  {
   "property": "C37",
   "status": "proved",
   "theorems": [
    "Verif.C37_rows",
    "Verif.C37_columns",
    "Verif.C37_block"
   ],
   "note": "a residual that lists the same key twice overwrites its own block and is excluded by the hypothesis on distinct keys"
  },
  {
   "property": "C38",
   "status": "proved",
   "theorems": [
    "Verif.C38_cost",
    "Verif.C38_gradient",
    "Verif.robust_deriv",
    "Verif.C37_block"
   ],
   "note": ""
  },
  {
   "property": "C40",
   "status": "proved",
   "theorems": [
    "Verif.C40_information",
    "Verif.C40_gn_affine",
    "Verif.C40_linear",
    "Verif.C40_returns",
    "Verif.C40_total"
   ],
   "note": "C40_linear is about vector states and linear residuals; C40_gn_affine is the general statement"
  },
  {
   "property": "C43",
   "status": "proved",
   "theorems": [
    "Verif.C43_prior",
    "Verif.C43_process",
    "Verif.C43_measurement",
    "Verif.C43_measurement_none",
    "Verif.C43_prior_exact",
    "Verif.C43_measurement_exact",
    "Verif.C43_process_exact"
   ],
   "note": "exactness of the Jacobians is for vector states and linear models; a measurement model returning None raises"
  },
  {
   "property": "C44",
   "status": "proved",
   "theorems": [
    "Verif.C44_ctor",
    "Verif.C44_max",
    "Verif.C44_total"
   ],
   "note": ""
  },
  {
   "property": "C45",
   "status": "proved",
   "theorems": [
    "Verif.C45_max_sum",
    "Verif.C45_sum",
    "Verif.C45_hsm",
    "Verif.C45_max_sum_total",
    "Verif.C45_sum_total",
    "Verif.C45_hsm_total",
    "Verif.C45_max_sum_column_raises",
    "Verif.C45_hsm_scalar_raises"
   ],
   "note": "the value theorems have no shape hypothesis; the code raises for MaxSum with column errors and for HSM with a single scalar error (witness theorems)"
  },
  {
   "property": "C70",
   "status": "proved",
   "theorems": [
    "Verif.C70_evaluate",
    "Verif.C70_gradient_is_derivative"
   ],
   "note": ""
  },
  {
   "property": "C48",
   "status": "proved",
   "theorems": [
    "Verif.C48_associate",
    "Verif.C48_length_not_guaranteed"
   ],
   "note": "the docstring's claim that every element gets a match is refuted by a witness"
  },
  {
   "property": "C49",
   "status": "proved",
   "theorems": [
    "Verif.C49_nearest",
    "Verif.C49_exact",
    "Verif.C49_empty_raises"
   ],
   "note": "scipy interp1d('nearest','extrapolate') is modelled by its midpoint/searchsorted algorithm"
  },
  {
   "property": "C52",
   "status": "proved",
   "theorems": [
    "Verif.C52_schedule",
    "Verif.C52_no_models"
   ],
   "note": ""
  },
  {
   "property": "C46",
   "status": "proved",
   "theorems": [
    "Verif.C46_graph",
    "Verif.C46_exact_keys",
    "Verif.C46_initial_estimate",
    "Verif.C46_succeeds",
    "Verif.C46_one_older",
    "Verif.C46_two_older_raises",
    "Verif.C46_results"
   ],
   "note": "process models are assumed not to touch the stamp of the state (true of all in lib/models.py); the initial estimate theorem needs inputs with distinct stamps; variable 0 carries x0's stamp, see C71"
  },
  {
   "property": "C47",
   "status": "proved",
   "theorems": [
    "Verif.C47_late_measurement_raises"
   ],
   "note": "the English claim is false of the code; its negation is proved for every schedule with distinct input stamps"
  },
  {
   "property": "C71",
   "status": "proved",
   "theorems": [
    "Verif.C71_wrong_time",
    "Verif.C46_graph"
   ],
   "note": "false for the first variable; proved as a general statement about all schedules that start late"
  },
  {
   "property": "C72",
   "status": "proved",
   "theorems": [
    "Verif.C72_no_process_factor",
    "Verif.C72_covariance_raises",
    "Verif.C72_between_inputs_fails"
   ],
   "note": "false of the code; the failure is proved for every schedule, model and solver setting"
  },
  {
   "property": "C50",
   "status": "proved",
   "theorems": [
    "Verif.C50_between",
    "Verif.C50_node",
    "Verif.C50_outside",
    "Verif.C50_total",
    "Verif.C50_vector",
    "Verif.C50_queries",
    "Verif.C50_nearest"
   ],
   "note": "all state classes and lists in time order"
  },
  {
   "property": "C73",
   "status": "proved",
   "theorems": [
    "Verif.C73_unsorted_wrong",
    "Verif.C73_single_query_forms"
   ],
   "note": "the English claim is false of the code; witness and general statements proved"
  },
  {
   "property": "C51",
   "status": "proved",
   "theorems": [
    "Verif.C51_transition",
    "Verif.C51_compose",
    "Verif.C51_zero",
    "Verif.C51_rate",
    "Verif.C51_integral",
    "Verif.C51_lyapunov",
    "Verif.C51_psd",
    "Verif.C51_symm"
   ],
   "note": "stronger: A_d = exp(A dt), Q_d is the integral of exp(As) L Q L^T exp(As)^T"
  },
  {
   "property": "C53",
   "status": "proved",
   "theorems": [
    "Verif.C53_method",
    "Verif.C53_unknown_method",
    "Verif.C53_affine",
    "Verif.C53_quadratic",
    "Verif.C53_forward_quadratic_error",
    "Verif.C53_limit",
    "Verif.C53_error_bound",
    "Verif.C53_measurement",
    "Verif.C53_measurement_none",
    "Verif.C53_process",
    "Verif.C53_covariance",
    "Verif.C53_covariance_affine",
    "Verif.C53_plus"
   ],
   "note": ""
  },
  {
   "property": "C54",
   "status": "proved",
   "theorems": [
    "Verif.C54_result",
    "Verif.C54_invariant",
    "Verif.C54_marginal",
    "Verif.C54_from_estimates",
    "Verif.C54_bounds_error",
    "Verif.C54_bounds_order",
    "Verif.C54_average"
   ],
   "note": ""
  },
  {
   "property": "C55",
   "status": "proved",
   "theorems": [
    "Verif.C55_aligned",
    "Verif.C55_nees",
    "Verif.C55_documented",
    "Verif.C55_last_step_misaligned",
    "Verif.C55_negative_step_misaligned",
    "Verif.C55_single_step_raises",
    "Verif.C55_single_entry_raises",
    "Verif.C55_stop_beyond_end_raises",
    "Verif.C55_column_ees"
   ],
   "note": "alignment proved for all slices with positive steps when a matrix is returned; the false parts proved as general statements"
  },
  {
   "property": "C56",
   "status": "proved",
   "theorems": [
    "Verif.C56_stamps",
    "Verif.C56_truth",
    "Verif.C56_schedule_independent",
    "Verif.C56_inputs",
    "Verif.C56_rounding",
    "Verif.C56_euler_depends_on_schedule"
   ],
   "note": "all schedules, noise settings and flow models; shown to fail for a non-flow model"
  },
  {
   "property": "C57",
   "status": "proved",
   "theorems": [
    "Verif.C57_complete",
    "Verif.C57_values",
    "Verif.C57_stamps_le",
    "Verif.C57_errors",
    "Verif.C57_none_raises",
    "Verif.C57_rounding_leaves_none",
    "Verif.C57_list"
   ],
   "note": "including which measurements stay empty and what raises"
  },
  {
   "property": "C74",
   "status": "proved",
   "theorems": [
    "Verif.C74_lists",
    "Verif.C74_broadcast",
    "Verif.C74_errors",
    "Verif.C74_short_freq_drops",
    "Verif.C74_offset_list_reused",
    "Verif.C74_add",
    "Verif.C74_covariance"
   ],
   "note": "the parts of the claim that are false of the code are proved as general statements"
  },
  {
   "property": "C58",
   "status": "proved",
   "theorems": [
    "Verif.C58_basis",
    "Verif.C58_basis_derivatives",
    "Verif.C58_window",
    "Verif.C58_kinematics",
    "Verif.C58_constant",
    "Verif.C58_screw"
   ],
   "note": "SE3.Log is a parameter whose only assumed property is Exp(Log X) = X on the relative poses used"
  },
  {
   "property": "C75",
   "status": "proved",
   "theorems": [
    "Verif.C75_control_points",
    "Verif.C75_spacing",
    "Verif.C75_end_is_none",
    "Verif.C75_degenerate"
   ],
   "note": "the false parts are proved as general statements"
  },
  {
   "property": "C59",
   "status": "proved",
   "theorems": [
    "Verif.C59_projection",
    "Verif.C59_rays",
    "Verif.C59_back_projection",
    "Verif.C59_to_pixel",
    "Verif.C59_valid",
    "Verif.C59_evaluate",
    "Verif.C59_frame_invariance",
    "Verif.C59_in_front",
    "Verif.C59_noise",
    "Verif.C59_copy"
   ],
   "note": "including that to_pixel_coors refuses what to_normalized_coords returns"
  },
  {
   "property": "C60",
   "status": "proved",
   "theorems": [
    "Verif.C60_group",
    "Verif.C60_adjoint",
    "Verif.C60_adjoint_hom",
    "Verif.C60_gravity",
    "Verif.C60_series",
    "Verif.C60_input"
   ],
   "note": "U_matrix is an exponential, so products of U over constant input compose"
  },
  {
   "property": "C76",
   "status": "proved",
   "theorems": [
    "Verif.C76_exact",
    "Verif.C76_flow",
    "Verif.C76_unbiased",
    "Verif.C76_closed",
    "Verif.C76_none_walk",
    "Verif.C76_plus",
    "Verif.C76_covariance_nav",
    "Verif.C76_covariance_psd"
   ],
   "note": "hypothesis AngleOk: rotation angle zero or not below the small angle tolerance; traj_exists shows trajectories exist"
  },
  {
   "property": "C77",
   "status": "proved",
   "theorems": [
    "Verif.C77_nav",
    "Verif.C77_nav_bias",
    "Verif.C77_accel",
    "Verif.C77_noise",
    "Verif.C77_gyro",
    "Verif.C77_gyro_position_wrong",
    "Verif.C77_gyro_position_differ"
   ],
   "note": "exact for finite perturbations of the navigation state and the accelerometer; first order for the gyroscope; the wrong position row is proved wrong"
  },
  {
   "property": "C78",
   "status": "proved",
   "theorems": [
    "Verif.C78_groups",
    "Verif.C78_jacobian",
    "Verif.C78_noise",
    "Verif.C78_covariance",
    "Verif.C78_closed",
    "Verif.C78_flow",
    "Verif.C78_exact",
    "Verif.C78_exact_exists"
   ],
   "note": "generic over the group laws, which are proved for all five groups"
  },
  {
   "property": "C79",
   "status": "proved",
   "theorems": [
    "Verif.C79_jacobian",
    "Verif.C79_documented_sign",
    "Verif.C79_input_derivatives",
    "Verif.C79_covariance_wrong",
    "Verif.C79_covariance_actual",
    "Verif.C79_covariance_second"
   ],
   "note": "the false parts are proved with witnesses"
  },
  {
   "property": "C61",
   "status": "proved",
   "theorems": [
    "Verif.C61_imu",
    "Verif.C61_imu_stamps",
    "Verif.C61_imu_first_stamp",
    "Verif.C61_imu_refusals",
    "Verif.C61_body_velocity",
    "Verif.C61_body_velocity_value",
    "Verif.C61_body_velocity_stamp",
    "Verif.C61_body_velocity_noise",
    "Verif.C61_bias_covariance_unusable",
    "Verif.C61_linear",
    "Verif.C61_linear_no_bias",
    "Verif.C61_wheel"
   ],
   "note": "for IMU readings without bias walk (the increment ignores walks); all three kinds of increments, induction over the readings"
  },
  {
   "property": "C62",
   "status": "proved",
   "theorems": [
    "Verif.C62_first_read",
    "Verif.C62_later_reads",
    "Verif.C62_evaluate_wrong",
    "Verif.C62_no_bias",
    "Verif.C62_copy"
   ],
   "note": "false after a bias update: reading value changes the increment; proved"
  },
  {
   "property": "C80",
   "status": "proved",
   "theorems": [
    "Verif.C80_body_velocity_bias",
    "Verif.C80_body_velocity_bias_wrong"
   ],
   "note": "false: sign; proved"
  },
  {
   "property": "C81",
   "status": "proved",
   "theorems": [
    "Verif.C81_jacobian",
    "Verif.C81_noise"
   ],
   "note": "for every reachable increment"
  },
  {
   "property": "C82",
   "status": "proved",
   "theorems": [
    "Verif.C82_accel",
    "Verif.C82_gyro",
    "Verif.C82_gyro_position_wrong"
   ],
   "note": "the false position part is proved wrong"
  },
  {
   "property": "C63",
   "status": "proved",
   "theorems": [
    "Verif.C63_ctor",
    "Verif.C63_single_value",
    "Verif.C63_single_jacobian",
    "Verif.C63_single_flow",
    "Verif.C63_single_cov",
    "Verif.C63_double_domain",
    "Verif.C63_double_flow",
    "Verif.C63_double_ode",
    "Verif.C63_double_jacobian",
    "Verif.C63_double_cov",
    "Verif.C63_bias_flow",
    "Verif.C63_bias_walk",
    "Verif.C63_bias_jacobian",
    "Verif.C63_bias_cov",
    "Verif.C63_bias_broadcast"
   ],
   "note": "false parts (split covariances, random-walk input) proved false"
  },
  {
   "property": "C64",
   "status": "proved",
   "theorems": [
    "Verif.C64_value_point",
    "Verif.C64_value_range",
    "Verif.C64_value_absolute",
    "Verif.C64_value_direction",
    "Verif.C64_value_camera",
    "Verif.C64_point_relative_position",
    "Verif.C64_range_to_anchor",
    "Verif.C64_absolute",
    "Verif.C64_vector_direction",
    "Verif.C64_altitude",
    "Verif.C64_altitude_minimum",
    "Verif.C64_vector_states",
    "Verif.C64_covariance",
    "Verif.C64_invariant_innovation",
    "Verif.C64_invariant_direction",
    "Verif.C64_invariant_point_relative_position",
    "Verif.C64_range_to_pose",
    "Verif.C64_slam",
    "Verif.C64_camera"
   ],
   "note": "Frechet derivatives at zero of evaluate(x.plus(dx)), for SO3/SE2/SE3/SE23/IMU states, left and right"
  },
  {
   "property": "C65",
   "status": "proved",
   "theorems": [
    "Verif.C65_by_id",
    "Verif.C65_same_id",
    "Verif.C65_slam_placement",
    "Verif.C65_slam_default",
    "Verif.C65_slam_wrong_landmark",
    "Verif.C65_slam_swapped",
    "Verif.C65_slam_single",
    "Verif.C65_composite_derivative",
    "Verif.C65_composite_derivative_local",
    "Verif.C65_exact",
    "Verif.C65_slam_exact"
   ],
   "note": "false for the SLAM model: proved; true for the two other models"
  },
  {
   "property": "C66",
   "status": "proved",
   "theorems": [
    "Verif.C66_ctor",
    "Verif.C66_symmetrize",
    "Verif.C66_copy"
   ],
   "note": ""
  },
  {
   "property": "C83",
   "status": "proved",
   "theorems": [
    "Verif.C83_invariant_ekf"
   ],
   "note": "for measurements and states without an explicit linearization point"
  },
  {
   "property": "C84",
   "status": "proved",
   "theorems": [
    "Verif.Heap.C84_copy",
    "Verif.Heap.C84_same",
    "Verif.Heap.C84_imu_same",
    "Verif.Heap.C84_stamp",
    "Verif.Heap.C84_estimate",
    "Verif.Heap.C84_mixture",
    "Verif.Heap.C84_input",
    "Verif.Heap.C84_vector_input_shares",
    "Verif.Heap.C84_plus"
   ],
   "note": "on a heap of mutable objects; false for VectorInput covariances and IMUState sub-state stamps/ids: proved"
  },
  {
   "property": "C85",
   "status": "proved",
   "theorems": [
    "Verif.Heap.C85_vector_copies",
    "Verif.Heap.C85_lie_coordinates_copied",
    "Verif.Heap.C85_lie_matrix_shared",
    "Verif.Heap.C85_composite_shared",
    "Verif.Heap.C85_estimate_shared",
    "Verif.Heap.C85_input_shared",
    "Verif.Heap.C85_imu_state"
   ],
   "note": ""
  },
  {
   "property": "C86",
   "status": "proved",
   "theorems": [
    "Verif.Heap.C86_predict",
    "Verif.Heap.C86_correct",
    "Verif.Heap.C86_correct_any_models",
    "Verif.Heap.C86_predict_any_models",
    "Verif.Heap.C86_single_integrator",
    "Verif.Heap.C86_integrator_filter",
    "Verif.Heap.C86_read_meas",
    "Verif.Heap.C86_in_place_is_code",
    "Verif.Heap.C86_predict_in_place"
   ],
   "note": "on a heap of mutable objects; false for predict with models that write into their argument: proved"
  },
  {
   "property": "C87",
   "status": "proved",
   "theorems": [
    "Verif.Heap.C87_run_filter",
    "Verif.Heap.C87_ekf",
    "Verif.Heap.C87_in_place"
   ],
   "note": "on a heap of mutable objects; false for models that write into their argument: proved"
  },
  {
   "property": "C88",
   "status": "proved",
   "theorems": [
    "Verif.C88_events",
    "Verif.C88_run_filter",
    "Verif.C88_marginal_is_map"
   ],
   "note": "without outlier rejection, positive definite noise, distinct input stamps"
  },
  {
   "property": "C89",
   "status": "proved",
   "theorems": [
    "Verif.C89_marginals"
   ],
   "note": "vector states, exact arithmetic, Gauss-Newton"
  },
  {
   "property": "C90",
   "status": "proved",
   "theorems": [
    "Verif.C90_filter_eq_batch"
   ],
   "note": "vector states, exact arithmetic, no outlier rejection, Gauss-Newton"
  },
  {
   "property": "C91",
   "status": "proved",
   "theorems": [
    "Verif.C91_run_filter",
    "Verif.C91_linear"
   ],
   "note": ""
  },
  {
   "property": "C92",
   "status": "proved",
   "theorems": [
    "Verif.C92_body_frame_velocity",
    "Verif.C92_landmark",
    "Verif.C92_range",
    "Verif.C92_run_filter"
   ],
   "note": "at zero range the Jacobian of the code is NaN, 0 in the model"
  },
  {
   "property": "C93",
   "status": "proved",
   "theorems": [
    "Verif.C93_sigma_point",
    "Verif.C93_iterated",
    "Verif.C93_close_stamps"
   ],
   "note": "vector states, exact arithmetic; iterated filter with positive tolerance: covariances and stamps only, its means may differ (C11)"
  },
  {
   "property": "C94",
   "status": "proved",
   "theorems": [
    "Verif.C94_ekf",
    "Verif.C94_iterated",
    "Verif.C94_samples",
    "Verif.C94_generated",
    "Verif.C94_generated_iterated"
   ],
   "note": "exact arithmetic; measurements without a value (C57) are left out of the log"
  },
  {
   "property": "C95",
   "status": "proved",
   "theorems": [
    "Verif.C95_part",
    "Verif.C95_composite",
    "Verif.C95_sub_stamps",
    "Verif.blockDiag_array",
    "Verif.padded_array"
   ],
   "note": "sub-models that do not read stamps; blockDiag_array and padded_array tie the typed matrices to the arrays of C30, C31"
  },
  {
   "property": "C96",
   "status": "proved",
   "theorems": [
    "Verif.C96_copies",
    "Verif.C96_records",
    "Verif.C96_order",
    "Verif.C96_gsf_components",
    "Verif.C96_gsf_order"
   ],
   "note": "copies: measurements with a value and positive definite covariance; order and components: whenever the run returns"
  },
  {
   "property": "C97",
   "status": "proved",
   "theorems": [
    "Verif.C97_run_filter",
    "Verif.C97_run_imm",
    "Verif.C97_batch",
    "Verif.C97_problem",
    "Verif.C97_calls",
    "Verif.C97_calls_iff",
    "Verif.sameLog_of_perm"
   ],
   "note": "exact arithmetic; problems not solved before (the covariance cache and cost history of an earlier solve are C41)"
  },
  {
   "property": "C98",
   "status": "proved",
   "theorems": [
    "Verif.C98_imm_clock",
    "Verif.C98_gsf_clock",
    "Verif.C98_from_estimates",
    "Verif.C98_evaluated_run",
    "Verif.C98_identical",
    "Verif.C98_certain",
    "Verif.C98_vector",
    "Verif.C98_parallel",
    "Verif.C98_schedules",
    "Verif.C98_averages",
    "Verif.C98_no_trials",
    "Verif.C98_trial_order"
   ],
   "note": "joblib is modelled by its contract: any order of completion, results returned by index"
  },
  {
   "property": "C99",
   "status": "proved",
   "theorems": [
    "Verif.C99_ekf",
    "Verif.C99_iekf"
   ],
   "note": "exact arithmetic; stamps equal or more than 1e-11 apart; inputs stamped with the time asked"
  },
  {
   "property": "C100",
   "status": "proved",
   "theorems": [
    "Verif.C100_ranging",
    "Verif.C100_inertial",
    "Verif.C100_readings",
    "Verif.C100_noise",
    "Verif.C100_bias_walk",
    "Verif.C100_not_reproducible",
    "Verif.C100_noisy_inputs",
    "Verif.C100_landmarks",
    "Verif.C100_landmarks_cylinder",
    "Verif.C100_landmarks_one_level",
    "Verif.C100_landmarks_distinct"
   ],
   "note": "exact arithmetic; draws of the bias walk are an arbitrary function of the sample time"
  },
  {
   "property": "C101",
   "status": "proved",
   "theorems": [
    "Verif.C101_load",
    "Verif.C101_errors"
   ],
   "note": "np.loadtxt is modelled by the list of rows of numbers, SO3.from_quat by an arbitrary function"
  },
  {
   "property": "C102",
   "status": "proved",
   "theorems": [
    "Verif.C102_exact",
    "Verif.C102_problem",
    "Verif.C102_lm_runs_on"
   ],
   "note": "exact arithmetic; the process model keeps the stamp of its state; rounding of stamps does not move them"
  },
  {
   "property": "C103",
   "status": "proved",
   "theorems": [
    "Verif.C103_filter_eq_batch"
   ],
   "note": "exact arithmetic; hypotheses of C102, no measurement at the last input, nonnegative chi-squared threshold"
  },
  {
   "property": "C104",
   "status": "proved",
   "theorems": [
    "Verif.C104_mean",
    "Verif.C104_any_tolerance",
    "Verif.C104_one_iteration",
    "Verif.C104_filter_tolerance",
    "Verif.C104_stationary"
   ],
   "note": "exact arithmetic; full-rank prior and noise covariances; no line search, no outlier test; plus_jacobian inverse to minus_jacobian"
  },
  {
   "property": "C105",
   "status": "proved",
   "theorems": [
    "Verif.C105_run_filter",
    "Verif.C105_exact",
    "Verif.C105_conservative",
    "Verif.C105_optimistic",
    "Verif.C105_nees",
    "Verif.C105_nees_over",
    "Verif.C105_nees_under",
    "Verif.C105_innovation"
   ],
   "note": "exact arithmetic; linear models, no outlier rejection, positive definite measurement noise; at least one entry of each non-empty log not older than x0"
  },
  {
   "property": "C106",
   "status": "proved",
   "theorems": [
    "Verif.C106_best",
    "Verif.C106_mse",
    "Verif.C106_innovation"
   ],
   "note": "setting of C105; the initial estimate is not random"
  },
  {
   "property": "C107",
   "status": "proved",
   "theorems": [
    "Verif.C107_refines",
    "Verif.C107_definition",
    "Verif.C107_history",
    "Verif.C107_fresh",
    "Verif.C107_twice",
    "Verif.C107_results_kept",
    "Verif.C107_results_distinct",
    "Verif.C107_library_flags",
    "Verif.C107_mixture_flags",
    "Verif.C107_stale_block",
    "Verif.C107_tuple",
    "Verif.C107_flags_needed"
   ],
   "note": "exact arithmetic; states in dictionaries are values (copying is C84); after a call in which NaN appears everything such a call can write is arbitrary"
  },
  {
   "property": "C108",
   "status": "proved",
   "theorems": [
    "Verif.C108_before_solve",
    "Verif.C108_after_solve",
    "Verif.C108_last_cost",
    "Verif.C108_edited",
    "Verif.C108_after_add"
   ],
   "note": "exact arithmetic"
  },
  {
   "property": "C109",
   "status": "proved",
   "theorems": [
    "Verif.C109_rule_exact",
    "Verif.C109_rule_sharp",
    "Verif.C109_predict_mean",
    "Verif.C109_predict_not_iterated",
    "Verif.C109_predict_cov",
    "Verif.C109_gh_ring",
    "Verif.C109_not_iterated_biased",
    "Verif.C109_cubature_zero_cov"
   ],
   "note": "vector states, positive definite P and Q, exact arithmetic; process model keeps the stamp"
  },
  {
   "property": "C110",
   "status": "proved",
   "theorems": [
    "Verif.C110_correct",
    "Verif.C110_correct_gain",
    "Verif.C110_honest",
    "Verif.C110_best",
    "Verif.C110_gh_bend",
    "Verif.C110_cubature_overconfident",
    "Verif.polyScene_exists"
   ],
   "note": "vector states, positive definite P and R, no outlier rejection, exact arithmetic"
  },
  {
   "property": "C111",
   "status": "proved",
   "theorems": [
    "Verif.C111_ekf",
    "Verif.C111_iterated",
    "Verif.C111_generated",
    "Verif.movesWith_exp",
    "Verif.movesWith_exists"
   ],
   "note": "exact arithmetic; group laws of the five groups are C78_groups; stamps equal or more than 1e-11 apart"
  },
  {
   "property": "C112",
   "status": "proved",
   "theorems": [
    "Verif.C112_monotone",
    "Verif.C112_values",
    "Verif.C112_more_data",
    "Verif.C112_van_loan",
    "Verif.C112_single_integrator",
    "Verif.C112_double_integrator"
   ],
   "note": "exact arithmetic; positive definite measurement noise, no outlier rejection; for added measurements stamps equal or more than 1e-11 apart"
  },
  {
   "property": "C113",
   "status": "proved",
   "theorems": [
    "Verif.C113_ekf",
    "Verif.C113_iterated",
    "Verif.C113_small_turn"
   ],
   "note": "readings without bias walk, biases constant; the admissible-angle condition is only asked between times of the run; C113_small_turn says what happens otherwise; imuMoves_exists and the example show motions and logs exist"
  },
  {
   "property": "C114",
   "status": "proved",
   "theorems": [
    "Verif.C114_error_grid",
    "Verif.C114_error",
    "Verif.C114_error_raises",
    "Verif.C114_nees",
    "Verif.C114_nees_legend",
    "Verif.C114_nearest",
    "Verif.C114_meas",
    "Verif.C114_meas_raises",
    "Verif.C114_by_model",
    "Verif.C114_by_model_given",
    "Verif.C114_by_model_array"
   ],
   "note": "a plot is the list of draw calls per axes; colours, titles and layout left out"
  },
  {
   "property": "C115",
   "status": "proved",
   "theorems": [
    "Verif.C115_axes_equal",
    "Verif.pyRange_eq",
    "Verif.shownPoses_one",
    "Verif.C115_camera",
    "Verif.C115_camera_frame",
    "Verif.C115_camera_poses",
    "Verif.C115_spatial",
    "Verif.C115_birds_eye",
    "Verif.C115_planar",
    "Verif.C115_poses_raises"
   ],
   "note": "a plot is the list of lines and arrows; colours and widths left out"
  },
  {
   "property": "C116",
   "status": "proved",
   "theorems": [
    "Verif.C116_round_trip",
    "Verif.C116_associate",
    "Verif.C116_align",
    "Verif.C116_relative",
    "Verif.exists_quat",
    "Verif.plainEvo_ok"
   ],
   "note": "evo (association, Umeyama) and pymlg quaternions are parameters with stated assumptions; exists_quat and plainEvo_ok show that these can be met"
  },
  {
   "property": "C117",
   "status": "proved",
   "theorems": [
    "Verif.C117_posterior",
    "Verif.C117_nees",
    "Verif.C117_bounds",
    "Verif.walk_run"
   ],
   "note": "exact arithmetic; chi2.ppf is any function with the defining property of the quantile (one exists: exists_ppf)"
  },
  {
   "property": "C118",
   "status": "proved",
   "theorems": [
    "Verif.C118_posterior",
    "Verif.C118_best"
   ],
   "note": "measurable estimators"
  },
  {
   "property": "C119",
   "status": "proved",
   "theorems": [
    "Verif.C119_correct",
    "Verif.C119_run"
   ],
   "note": "chi2.ppf as in C117"
  },
  {
   "property": "C120",
   "status": "proved",
   "theorems": [
    "Verif.C120_monte_carlo"
   ],
   "note": "trials are independent copies of one experiment; chi2.ppf as in C117"
  },
  {
   "property": "C121",
   "status": "proved",
   "theorems": [
    "Verif.C121_smoother",
    "Verif.C121_posterior",
    "Verif.C121_beats_filter",
    "Verif.C117_nees"
   ],
   "note": "exact arithmetic, Gauss-Newton; marginals of the batch problem from C89"
  },
  {
   "property": "C122",
   "status": "proved",
   "theorems": [
    "Verif.C122_gsf",
    "Verif.C122_state",
    "Verif.C122_mode"
   ],
   "note": "scalar measurements (others raise); linear Kalman filters; outcomes without a weight reset"
  },
  {
   "property": "C123",
   "status": "proved",
   "theorems": [
    "Verif.C123_imm",
    "Verif.C122_state",
    "Verif.C122_mode"
   ],
   "note": "identity transition matrix, linear Kalman filters, outcomes without a weight reset"
  },
  {
   "property": "C124",
   "status": "proved",
   "theorems": [
    "Verif.C124_run",
    "Verif.C124_never_learned",
    "Verif.C124_linear"
   ],
   "note": "EKF; the unseen uncertainty may depend on time but not on the state"
  },
  {
   "property": "C125",
   "status": "proved",
   "theorems": [
    "Verif.C125_imu",
    "Verif.C125_never_learned",
    "Verif.C125_vector",
    "Verif.C125_velocity",
    "Verif.C125_altitude"
   ],
   "note": "states with biases; direction right: isotropic position uncertainty only"
  },
  {
   "property": "C126",
   "status": "proved",
   "theorems": [
    "Verif.C126_run",
    "Verif.C126_linear",
    "Verif.C126_pose_linear",
    "Verif.C126_pose",
    "Verif.C126_reject_false"
   ],
   "note": "EKF; the negative part is stated for one correct call"
  },
  {
   "property": "C127",
   "status": "proved",
   "theorems": [
    "Verif.C127_run",
    "Verif.C127_honest",
    "Verif.C127_nees",
    "Verif.C127_linear",
    "Verif.C127_group",
    "Verif.C127_group_unit",
    "Verif.C127_imu"
   ],
   "note": "true states are those reported by a run started at the true state; with process noise the linear case is C105"
  },
  {
   "property": "C128",
   "status": "proved",
   "theorems": [
    "Verif.C128_least_squares",
    "Verif.C128_test"
   ],
   "note": "Beside it: two measurements of one number, one degree of freedom."
  },
  {
   "property": "C129",
   "status": "proved",
   "theorems": [
    "Verif.C129_batch_cost",
    "Verif.C129_test"
   ],
   "note": "Beside it: the random walk of C121 with one measurement, one degree of freedom."
  },
  {
   "property": "C130",
   "status": "proved",
   "theorems": [
    "Verif.C130_events",
    "Verif.C130_cost",
    "Verif.C130_white",
    "Verif.C130_run",
    "Verif.C130_chi2",
    "Verif.C130_nis",
    "Verif.C130_batch"
   ],
   "note": "Beside them: a run with three inputs and a measurement; the Gaussian random walk of C117, whose single innovation gives one degree of freedom."
  },
  {
   "property": "C131",
   "status": "proved",
   "theorems": [
    "Verif.C131_events",
    "Verif.C131_bound",
    "Verif.C131_perfect",
    "Verif.C131_forget"
   ],
   "note": "Beside them: a run with three inputs and a perfect measurement from an initial value five standard deviations off; one with a measurement that is off, whose energy is computed; two runs five standard deviations apart."
  },
  {
   "property": "C132",
   "status": "proved",
   "theorems": [
    "Verif.C132_online",
    "Verif.C132_online_imm",
    "Verif.C132_causal",
    "Verif.C132_continue",
    "Verif.C132_late",
    "Verif.C132_again"
   ],
   "note": "`C132_late` and `C132_again` are the refuted parts. Beside them: runs on four inputs and two measurements, and on the part of them available at 3/2; a run continued from its first estimate; one continued from an estimate that has seen a measurement between two inputs."
  },
  {
   "property": "C133",
   "status": "proved",
   "theorems": [
    "Verif.C133_units_ekf",
    "Verif.C133_units_iekf",
    "Verif.C133_units_spkf",
    "Verif.C133_units_run",
    "Verif.C133_units_imm",
    "Verif.C133_imm_units_matter"
   ],
   "note": "`C133_imm_units_matter` is the refuted part. Beside them: centimetres, and a correction that succeeds."
  },
  {
   "property": "C134",
   "status": "proved",
   "theorems": [
    "Verif.C134_sum",
    "Verif.C134_information",
    "Verif.C134_order",
    "Verif.C134_stacked",
    "Verif.C134_repeated",
    "Verif.C134_bound"
   ],
   "note": "Beside them: the two coordinates of a point measured separately, with a regular and with a singular prior."
  },
  {
   "property": "C135",
   "status": "proved",
   "theorems": [
    "Verif.C135_history",
    "Verif.C135_get",
    "Verif.C135_dof",
    "Verif.C135_stamp",
    "Verif.C135_plus",
    "Verif.C135_shadow"
   ],
   "note": "`C135_shadow` is the refuted part. Inputs are values: one input object at two positions is outside the model. Beside them: a history of six calls, one of which raises."
  },
  {
   "property": "C136",
   "status": "proved",
   "theorems": [
    "Verif.C136_units",
    "Verif.C136_whitening"
   ],
   "note": "A covariance must be symmetric, since the code reads the lower half of its inverse. `SameResult`: the same state, and covariance arrays with the same entries. Beside them: a nonlinear batch in metres and in centimetres."
  },
  {
   "property": "C137",
   "status": "proved",
   "theorems": [
    "Verif.C137_outliers"
   ],
   "note": "`CloseTo`: the same variables, of the same sizes, with every component within the tolerance, and every covariance block that the first problem answers is answered by the second with entries within the tolerance. `RobustSensor.miss`: the norm of the residual of the extra measurement at the first estimate. The first solve starts from a new problem (no slices, no cached covariance). Beside it: an outlier as large as one likes on a scalar problem."
  },
  {
   "property": "C138",
   "status": "proved",
   "theorems": [
    "Verif.C138_hold"
   ],
   "note": "`comboVar`: the variance of a combination, from the covariance blocks of every pair of its variables. The covariance part is for the first solve of a new problem (no cached covariance, see C41). Beside it: `x - 1` and `x + y - 5`, with `x` held and `y` started at 100."
  },
  {
   "property": "C139",
   "status": "proved",
   "theorems": [
    "Verif.C139_predict",
    "Verif.C139_correct",
    "Verif.C139_iekf",
    "Verif.C139_run",
    "Verif.C139_problem",
    "Verif.C139_batch",
    "Verif.C139_outliers_matter"
   ],
   "note": "`noisierProc`, `noisierMeas`, `noisier`, `noisierStMeas` are the models, measurements and estimates with scaled covariances. No outlier rejection, except in `C139_outliers_matter`. Equality includes errors. Batches: no tolerance on the gradient (it is absolute)."
  },
  {
   "property": "C140",
   "status": "proved",
   "theorems": [
    "Verif.C140_attach",
    "Verif.C140_variance",
    "Verif.determines_of_det"
   ],
   "note": "`Determines` is the hypothesis in words above; `determines_of_det`: an invertible square Jacobian with respect to the new variable suffices. `C140_variance`: the reported variance of a combination is the greatest value of twice its change minus twice the increase of the cost, over all assignments. The covariance part is for the first solve of a new problem (no cached covariance, see C41). Beside it: `x - 1` and `x + y - 5`, with `z - y - 2` attached."
  },
  {
   "property": "C141",
   "status": "proved",
   "theorems": [
    "Verif.C141_chain",
    "Verif.profile",
    "Verif.priorAt_code"
   ],
   "note": "`joined` is the old problem with the further variables and residuals, `continued` the problem of their own; that the residuals involve no other old variable is that `continued` is a well-formed linear problem. `priorAt_code`: the prior of the theorem is, in errors and Jacobians, the one that the model of `PriorResidual` computes. `profile`: what the covariance block of a solved problem says, that the least cost with k held at y exceeds the minimum by half of (y - estimate)' block^-1 (y - estimate), attained by one assignment. Residuals carry the default loss, as in `LinearProblem`; no cached covariance at the first solve, see C41. Beside it: `x - 1` and `x + y - 5`, continued with `z - y - 2`."
  },
  {
   "property": "C142",
   "status": "proved",
   "theorems": [
    "Verif.C142_lm",
    "Verif.C142_limit"
   ],
   "note": "`lmOf` is the problem with Levenberg-Marquardt selected; `lmRate` the factor q_i/(1+q_i), at most tau*rho/3^i. rho is the greatest diagonal entry of H'H divided by a lower bound of its eigenvalues. The history of the theorem is what the object records without its last entry, which repeats the final cost. The covariance part is for the first solve of a new problem (no cached covariance, see C41). Exact arithmetic: with rounding the computed gain ratio of a step near the minimum is noise and steps may be rejected there. Beside it: `x - 1` and `x + y - 5` from 0 and 0, where the initial cost is not the least one."
  },
  {
   "property": "C143",
   "status": "proved",
   "theorems": [
    "Verif.C143_local",
    "Verif.C143_limit"
   ],
   "note": "`SmoothNear` is the smoothness hypothesis, per residual and in terms of what `evaluate` returns; `Near` is closeness in all entries with the same keys, sizes and constants; `gnOf` the problem with Gauss-Newton, an initial assignment, a number of iterations and a step tolerance (no other tolerances, the defaults). Vector variables; on Lie groups the same argument needs the chart of the group and is not made. Beside it: the residual x^2 - 2 with the truth sqrt 2."
  },
  {
   "property": "C144",
   "status": "proved",
   "theorems": [
    "Verif.C144_linear_rate"
   ],
   "note": "Smoothness, closeness and the problem with Gauss-Newton as in C143. That `v` is stationary is said by a run: one iteration from `v` returns `v`; the information matrix is the one this run reports. Smallness of the residuals is needed: Gauss-Newton may diverge from a stationary point with large ones. Beside it: the residual (x, 1/100 + x^2), whose minimum 0 has the cost 1/20000."
  },
  {
   "property": "C145",
   "status": "proved",
   "theorems": [
    "Verif.C145_lm_local",
    "Verif.C145_limit"
   ],
   "note": "Smoothness, closeness and the problem as in C143; `lmOf` is the problem with Levenberg-Marquardt, a number of iterations, a step tolerance, an initial damping factor and no other tolerances. Beside it: the residual x^2 - 2 with the truth sqrt 2 and the damping factor 1."
  }
 ]
}