{
 "claims": [
  {
   "property": "C01",
   "status": "proved",
   "theorems": [
    "Copt.C01_linf_prox_is_projection"
   ],
   "note": ""
  },
  {
   "property": "C02",
   "status": "proved",
   "theorems": [
    "Copt.C02_l2_prox_is_projection",
    "Copt.C02_l2_prox_inside"
   ],
   "note": ""
  },
  {
   "property": "C03",
   "status": "proved",
   "theorems": [
    "Copt.C03_proj_simplex_correct",
    "Copt.C03_proj_simplex_errors"
   ],
   "note": ""
  },
  {
   "property": "C04",
   "status": "proved",
   "theorems": [
    "Copt.C04_l1_prox_is_projection",
    "Copt.C04_l1_prox_error"
   ],
   "note": ""
  },
  {
   "property": "C05",
   "status": "proved",
   "theorems": [
    "Copt.C05_l1_lmo_correct"
   ],
   "note": ""
  },
  {
   "property": "C06",
   "status": "proved",
   "theorems": [
    "Copt.C06_l1_lmo_pairwise_correct",
    "Copt.C06_pairwise_gap",
    "Copt.C06_empty_active_set"
   ],
   "note": ""
  },
  {
   "property": "C07",
   "status": "partial",
   "theorems": [
    "Copt.C07_simplex_lmo_partial",
    "Copt.C07_simplex_lmo_infeasible",
    "Copt.C07_refuted"
   ],
   "note": "False of the code when no coordinate of u is positive (sign factor): refuted with witnesses; proved when max u > 0."
  },
  {
   "property": "C08",
   "status": "proved",
   "theorems": [
    "Copt.C08_trace_ball_prox",
    "Copt.C08_trace_ball_prox_error",
    "Copt.nuc_eq_sum_of_isSvd"
   ],
   "note": "The SVD routine is a parameter with its contract as hypothesis."
  },
  {
   "property": "C09",
   "status": "proved",
   "theorems": [
    "Copt.C09_trace_ball_lmo"
   ],
   "note": "svds(k=1) is a parameter with its contract as hypothesis."
  },
  {
   "property": "C10",
   "status": "proved",
   "theorems": [
    "Copt.C10_l1_prox_exact",
    "Copt.C10_call"
   ],
   "note": ""
  },
  {
   "property": "C11",
   "status": "proved",
   "theorems": [
    "Copt.C11_l1_kernel",
    "Copt.C11_l1_kernel_full"
   ],
   "note": ""
  },
  {
   "property": "C12",
   "status": "proved",
   "theorems": [
    "Copt.C12_groups_accepted_iff"
   ],
   "note": ""
  },
  {
   "property": "C13",
   "status": "proved",
   "theorems": [
    "Copt.C13_group_prox_exact",
    "Copt.C13_call"
   ],
   "note": ""
  },
  {
   "property": "C14",
   "status": "proved",
   "theorems": [
    "Copt.C14_block_structure",
    "Copt.C14_kernel_exact",
    "Copt.C14_kernel_full"
   ],
   "note": ""
  },
  {
   "property": "C15",
   "status": "proved",
   "theorems": [
    "Copt.C15_prox_tv1d_exact",
    "Copt.C15_fused_lasso_prox_exact",
    "Copt.C15_dtype_error"
   ],
   "note": ""
  },
  {
   "property": "C16",
   "status": "proved",
   "theorems": [
    "Copt.C16_memory_safe_and_defined",
    "Copt.C16_empty_input_fault"
   ],
   "note": ""
  },
  {
   "property": "C17",
   "status": "proved",
   "theorems": [
    "Copt.C17_blocks_partition",
    "Copt.C17_pairs_exact",
    "Copt.C17_penalties_sum",
    "Copt.C17_kernels_exact"
   ],
   "note": ""
  },
  {
   "property": "C18",
   "status": "proved",
   "theorems": [
    "Copt.C18_trace_norm_prox",
    "Copt.C18_call"
   ],
   "note": "The SVD routine is a parameter with its contract as hypothesis."
  },
  {
   "property": "C19",
   "status": "proved",
   "theorems": [
    "Copt.C19_no_warning_accurate",
    "Copt.C19_tv2d_penalty_accurate",
    "Copt.C19_prox_exists",
    "Copt.C19_decomposition",
    "Copt.C19_max_iter_zero",
    "Copt.C19_total"
   ],
   "note": ""
  },
  {
   "property": "C20",
   "status": "partial",
   "theorems": [
    "Copt.C20_linear_operator_partial",
    "Copt.C20_one_pixel_fails",
    "Copt.C20_call"
   ],
   "note": "Proved for every shape except 1x1, where the code raises ValueError (proved)."
  },
  {
   "property": "C21",
   "status": "proved",
   "theorems": [
    "Copt.C21_value_error",
    "Copt.C21_fgrad_value_error",
    "Copt.C21_constructor",
    "Copt.C21_constructor_none"
   ],
   "note": ""
  },
  {
   "property": "C22",
   "status": "proved",
   "theorems": [
    "Copt.C22_gradient"
   ],
   "note": ""
  },
  {
   "property": "C23",
   "status": "proved",
   "theorems": [
    "Copt.C23_expit_b",
    "Copt.C23_partial_deriv",
    "Copt.C23_is_derivative"
   ],
   "note": ""
  },
  {
   "property": "C24",
   "status": "proved",
   "theorems": [
    "Copt.C24_lipschitz",
    "Copt.C24_max_lipschitz",
    "Copt.C24_get_max_lipschitz"
   ],
   "note": "svds(k=1) is a parameter with its contract as hypothesis."
  },
  {
   "property": "C25",
   "status": "partial",
   "theorems": [
    "Copt.C25_hessian_mv_partial",
    "Copt.C25_hessian_mv_value",
    "Copt.C25_hessian_exists",
    "Copt.C25_refuted",
    "Copt.C25_hessian_trace_same"
   ],
   "note": "False of the code when alpha != 0 and n > 1 (the alpha term is divided by n too): refuted; exact error proved; proved when alpha = 0 or n = 1."
  },
  {
   "property": "C26",
   "status": "proved",
   "theorems": [
    "Copt.C26_value",
    "Copt.C26_gradient",
    "Copt.C26_lipschitz",
    "Copt.C26_lipschitz_tight",
    "Copt.C26_max_lipschitz",
    "Copt.C26_partial_deriv"
   ],
   "note": ""
  },
  {
   "property": "C27",
   "status": "proved",
   "theorems": [
    "Copt.C27_value",
    "Copt.C27_gradient",
    "Copt.C27_lipschitz"
   ],
   "note": ""
  },
  {
   "property": "C28",
   "status": "proved",
   "theorems": [
    "Copt.C28_init_lipschitz",
    "Copt.C28_smooth"
   ],
   "note": "Conversions between sparse and dense operands are not modelled."
  },
  {
   "property": "C29",
   "status": "proved",
   "theorems": [
    "Copt.C29_mv",
    "Copt.C29_vm",
    "Copt.C29_vm_assert"
   ],
   "note": ""
  },
  {
   "property": "C30",
   "status": "proved",
   "theorems": [
    "Copt.C30_sample_batches",
    "Copt.C30_schedule_independent",
    "Copt.C30_batch_too_large"
   ],
   "note": "The draws of np.random.choice are arbitrary; its contract is a hypothesis where used."
  },
  {
   "property": "C31",
   "status": "proved",
   "theorems": [
    "Copt.C31_trace",
    "Copt.C31_never_false",
    "Copt.C31_freq_zero"
   ],
   "note": ""
  },
  {
   "property": "C32",
   "status": "partial",
   "theorems": [
    "Copt.C32_admissible",
    "Copt.C32_rejects_partial",
    "Copt.C32_refuted"
   ],
   "note": "False for two-character strings (accepted as a pair), sets of two elements and 0-d arrays (TypeError); proved for every other value."
  },
  {
   "property": "C33",
   "status": "partial",
   "theorems": [
    "Copt.C33_callable",
    "Copt.C33_true",
    "Copt.C33_refuted"
   ],
   "note": "False of the code for '2-point', False and None (refuted); proved for a callable and for True over all call histories."
  },
  {
   "property": "C34",
   "status": "partial",
   "theorems": [
    "Copt.C34_safe_sparse_add_partial",
    "Copt.C34_refuted"
   ],
   "note": "False for a sparse column plus a dense vector (n x n result) and for mixed orientations; proved for every other combination."
  },
  {
   "property": "C35",
   "status": "proved",
   "theorems": [
    "Copt.C35_feasible"
   ],
   "note": ""
  },
  {
   "property": "C36",
   "status": "proved",
   "theorems": [
    "Copt.C36_certificate_bound"
   ],
   "note": ""
  },
  {
   "property": "C37",
   "status": "partial",
   "theorems": [
    "Copt.C37_certificate_partial",
    "Copt.C37_refuted"
   ],
   "note": "False of the code when max_iter is exhausted (the certificate belongs to the previous iterate): refuted; proved when the loop stops early."
  },
  {
   "property": "C38",
   "status": "proved",
   "theorems": [
    "Copt.C38_backtracking",
    "Copt.C38_no_warning"
   ],
   "note": ""
  },
  {
   "property": "C39",
   "status": "proved",
   "theorems": [
    "Copt.C39_sublinear_rate"
   ],
   "note": ""
  },
  {
   "property": "C40",
   "status": "proved",
   "theorems": [
    "Copt.C40_dr_decrease",
    "Copt.C40_dr_rate"
   ],
   "note": ""
  },
  {
   "property": "C41",
   "status": "proved",
   "theorems": [
    "Copt.C41_active_set"
   ],
   "note": ""
  },
  {
   "property": "C42",
   "status": "partial",
   "theorems": [
    "Copt.C42_refuted",
    "Copt.C42_drop_partial",
    "Copt.C42_stall"
   ],
   "note": "False of the code: a dropped vertex stays a key with weight 0 (refuted for every drop step), and a run that stalls for ever is exhibited; the weights after a drop step are proved."
  },
  {
   "property": "C43",
   "status": "proved",
   "theorems": [
    "Copt.C43_negative_tol",
    "Copt.C43_unknown_variant",
    "Copt.C43_bad_step",
    "Copt.C43_max_iter_zero",
    "Copt.C43_returns",
    "Copt.C43_callback"
   ],
   "note": ""
  },
  {
   "property": "C44",
   "status": "partial",
   "theorems": [
    "Copt.C44_descent_partial",
    "Copt.C44_refuted"
   ],
   "note": "False of the code after an exhausted line search (the next iteration compares against stale values): refuted; proved for every iteration whose earlier searches all succeeded."
  },
  {
   "property": "C45",
   "status": "proved",
   "theorems": [
    "Copt.C45_search",
    "Copt.C45_run",
    "Copt.C45_defaults"
   ],
   "note": ""
  },
  {
   "property": "C46",
   "status": "partial",
   "theorems": [
    "Copt.C46_success_partial",
    "Copt.C46_refuted"
   ],
   "note": "False of the code after an exhausted line search: refuted; proved for runs whose earlier searches all succeeded."
  },
  {
   "property": "C47",
   "status": "proved",
   "theorems": [
    "Copt.C47_rate",
    "Copt.C47_callable"
   ],
   "note": ""
  },
  {
   "property": "C48",
   "status": "partial",
   "theorems": [
    "Copt.C48_accounting_partial",
    "Copt.C48_bad_bt",
    "Copt.C48_bad_step",
    "Copt.C48_fixed_fails",
    "Copt.C48_never_warns",
    "Copt.C48_refuted",
    "Copt.C48_accelerated_partial",
    "Copt.C48_accelerated_bad_bt",
    "Copt.C48_accelerated_unknown",
    "Copt.C48_accelerated_refuted"
   ],
   "note": "False of the code: the non-accelerated method never warns, the accelerated one warns on success at max_iter and accepts any strategy string (all refuted); the accounting is proved."
  },
  {
   "property": "C49",
   "status": "partial",
   "theorems": [
    "Copt.C49_success_partial",
    "Copt.C49_refuted"
   ],
   "note": "False of the code for every constant, even with steps at most 1/L (refuted); proved with the length of the last move added."
  },
  {
   "property": "C50",
   "status": "proved",
   "theorems": [
    "Copt.C50_fista_rate"
   ],
   "note": ""
  },
  {
   "property": "C51",
   "status": "proved",
   "theorems": [
    "Copt.C51_success"
   ],
   "note": ""
  },
  {
   "property": "C52",
   "status": "proved",
   "theorems": [
    "Copt.C52_accounting",
    "Copt.C52_errors",
    "Copt.C52_forced_line_search",
    "Copt.C52_step_shrinks"
   ],
   "note": ""
  },
  {
   "property": "C53",
   "status": "proved",
   "theorems": [
    "Copt.C53_moreau",
    "Copt.C53_unique"
   ],
   "note": ""
  },
  {
   "property": "C54",
   "status": "partial",
   "theorems": [
    "Copt.C54_stationary",
    "Copt.C54_run_stationary",
    "Copt.C54_success",
    "Copt.C54_errors",
    "Copt.C54_never_warns",
    "Copt.C54_refuted"
   ],
   "note": "Stationarity at the tested iterations, the exit rules and the errors hold; the non-convergence warning is never issued (refuted)."
  },
  {
   "property": "C55",
   "status": "proved",
   "theorems": [
    "Copt.C55_search",
    "Copt.C55_terminates"
   ],
   "note": ""
  },
  {
   "property": "C56",
   "status": "proved",
   "theorems": [
    "Copt.C56_support_matrix",
    "Copt.C56_saga_in_bounds"
   ],
   "note": ""
  },
  {
   "property": "C57",
   "status": "proved",
   "theorems": [
    "Copt.C57_saga_memory",
    "Copt.C57_minimize_saga"
   ],
   "note": "Data without duplicate entries, blocks of consecutive features."
  },
  {
   "property": "C58",
   "status": "proved",
   "theorems": [
    "Copt.C58_unbiased",
    "Copt.C58_prox_argument",
    "Copt.C58_local",
    "Copt.C58_never_touched",
    "Copt.C58_l1_local",
    "Copt.C58_fused_local",
    "Copt.C58_group_local"
   ],
   "note": ""
  },
  {
   "property": "C59",
   "status": "proved",
   "theorems": [
    "Copt.C59_minimiser_fixed",
    "Copt.C59_fixed_optimal",
    "Copt.C59_fixed_minimiser",
    "Copt.C59_l1_fixed_iff",
    "Copt.C59_group_fixed"
   ],
   "note": ""
  },
  {
   "property": "C60",
   "status": "partial",
   "theorems": [
    "Copt.C60_full_grad",
    "Copt.C60_unbiased_partial",
    "Copt.C60_unbiased_single_partial",
    "Copt.C60_refuted"
   ],
   "note": "The scratch gradient is never reset, so blocks of several features see stale entries; exact for single-feature blocks."
  },
  {
   "property": "C61",
   "status": "proved",
   "theorems": [
    "Copt.C61_vrtos_memory",
    "Copt.C61_minimize_vrtos",
    "Copt.C61_fixed_optimal",
    "Copt.C61_fixed_minimiser"
   ],
   "note": "Data without duplicate entries, blocks of consecutive features."
  },
  {
   "property": "C62",
   "status": "partial",
   "theorems": [
    "Copt.C62_never_success",
    "Copt.C62_refuted",
    "Copt.C62_untouched_partial"
   ],
   "note": "x0 is the first auxiliary array and is overwritten; tol is never read and success is always False."
  },
  {
   "property": "C63",
   "status": "partial",
   "theorems": [
    "Copt.C63_in_bounds_partial",
    "Copt.C63_full_columns_partial",
    "Copt.C63_out_of_bounds",
    "Copt.C63_refuted"
   ],
   "note": "The width of the support matrix is inferred, so d1/d2 can be shorter than the number of blocks; exact condition proved."
  },
  {
   "property": "C64",
   "status": "proved",
   "theorems": [
    "Copt.C64_step_sizes",
    "Copt.C64_mhk_aggregation"
   ],
   "note": ""
  },
  {
   "property": "C65",
   "status": "proved",
   "theorems": [
    "Copt.C65_step",
    "Copt.C65_feasible",
    "Copt.C65_returns"
   ],
   "note": "Vanilla oracle, batch_size at most n_samples."
  },
  {
   "property": "C66",
   "status": "partial",
   "theorems": [
    "Copt.C66_feasible_partial",
    "Copt.C66_mhk_lf_raise",
    "Copt.C66_refuted_nan",
    "Copt.C66_refuted_saga"
   ],
   "note": "Negative steps for SAGA (witness leaves the set), nan on a zero direction, MHK and LF raise."
  },
  {
   "property": "C67",
   "status": "proved",
   "theorems": [
    "Copt.C67_aggregate",
    "Copt.C67_memory",
    "Copt.C67_unbiased",
    "Copt.C67_minimize"
   ],
   "note": ""
  },
  {
   "property": "C68",
   "status": "partial",
   "theorems": [
    "Copt.C68_success_partial",
    "Copt.C68_callable_raises",
    "Copt.C68_never_stops",
    "Copt.C68_refuted"
   ],
   "note": "break leaves the inner loop only; a callable step_size raises UnboundLocalError."
  },
  {
   "property": "C69",
   "status": "partial",
   "theorems": [
    "Copt.C69_present",
    "Copt.C69_recovers_partial",
    "Copt.C69_refuted_mkdir",
    "Copt.C69_refuted_truncated",
    "Copt.C69_refuted_test"
   ],
   "note": "os.makedirs on an existing directory, truncated files taken as present, only train files tested."
  },
  {
   "property": "C70",
   "status": "partial",
   "theorems": [
    "Copt.C70_kdd10",
    "Copt.C70_kdd10_retries",
    "Copt.C70_history_partial",
    "Copt.C70_url_retries_partial",
    "Copt.C70_kdd12_wrong",
    "Copt.C70_url_stuck",
    "Copt.C70_refuted_criteo",
    "Copt.C70_refuted_kdd12",
    "Copt.C70_refuted_cached"
   ],
   "note": "load_kdd12 falls back to load_url; cached archives are not verified; load_criteo extracts before testing the checksum."
  },
  {
   "property": "C71",
   "status": "proved",
   "theorems": [
    "Copt.C71_plain",
    "Copt.C71_options"
   ],
   "note": ""
  },
  {
   "property": "C72",
   "status": "partial",
   "theorems": [
    "Copt.C72_exact_partial",
    "Copt.C72_refuted"
   ],
   "note": "False of the code: iterates are truncated into an integer array (refuted); proved when the stored iterates are exact."
  },
  {
   "property": "C73",
   "status": "proved",
   "theorems": [
    "Copt.C73_linf",
    "Copt.C73_l2",
    "Copt.C73_l1",
    "Copt.C73_simplex",
    "Copt.C73_l1_norm",
    "Copt.C73_group_l1",
    "Copt.C73_tv1d",
    "Copt.C73_trace_ball",
    "Copt.C73_trace_norm"
   ],
   "note": ""
  },
  {
   "property": "C74",
   "status": "proved",
   "theorems": [
    "Copt.C74_converges"
   ],
   "note": "The distance is measured at the points after each iteration."
  },
  {
   "property": "C75",
   "status": "proved",
   "theorems": [
    "Copt.C75_tv2d_converges"
   ],
   "note": ""
  },
  {
   "property": "C76",
   "status": "partial",
   "theorems": [
    "Copt.C76_intercept_partial",
    "Copt.C76_refuted"
   ],
   "note": "With an intercept f_grad returns the gradient alone; the returned vector is proved to be the gradient."
  },
  {
   "property": "C77",
   "status": "partial",
   "theorems": [
    "Copt.C77_ratio_partial",
    "Copt.C77_refuted",
    "Copt.C77_witness"
   ],
   "note": "The code keeps the inverse ratio; equal step sizes are unaffected."
  },
  {
   "property": "C78",
   "status": "proved",
   "theorems": [
    "Copt.C78_fejer",
    "Copt.C78_success"
   ],
   "note": ""
  },
  {
   "property": "C79",
   "status": "partial",
   "theorems": [
    "Copt.C79_grow_partial",
    "Copt.C79_enough_trials_partial",
    "Copt.C79_refuted"
   ],
   "note": "A failed line search makes the step size nan; holds while ls_tol stays below step*h^2/2."
  },
  {
   "property": "C80",
   "status": "partial",
   "theorems": [
    "Copt.C80_fixed_optimal_partial",
    "Copt.C80_refuted"
   ],
   "note": "Features touched through one structure only keep Y = 0 in the other, which biases z."
  },
  {
   "property": "C81",
   "status": "partial",
   "theorems": [
    "Copt.C81_pairwise_DR_partial",
    "Copt.C81_l1_DR_partial",
    "Copt.C81_refuted"
   ],
   "note": "The sublinear steps ignore max_step_size, so update_active_set raises ValueError."
  },
  {
   "property": "C82",
   "status": "proved",
   "theorems": [
    "Copt.C82_mean_contraction",
    "Copt.C82_mean_convergence"
   ],
   "note": "Samples drawn independently and uniformly; the code visits a random permutation in every pass, for which only the first step of a pass is covered."
  },
  {
   "property": "C83",
   "status": "proved",
   "theorems": [
    "Copt.C83_svrg_any_order"
   ],
   "note": "Without penalty and for blocks every touching sample stores in full (single features); step size of order mu/(n L^2)."
  },
  {
   "property": "C84",
   "status": "proved",
   "theorems": [
    "Copt.C84_saga_any_order"
   ],
   "note": "Without penalty, any blocks; step size of order mu/(n L^2)."
  },
  {
   "property": "C85",
   "status": "partial",
   "theorems": [
    "Copt.C85_search",
    "Copt.C85_growth_partial",
    "Copt.C85_backtracking_partial",
    "Copt.C85_small_step",
    "Copt.C85_defaults_partial",
    "Copt.C85_refuted"
   ],
   "note": "False of the code: the search restarts from the initial step in every iteration, so accepted steps can grow, and a run with the default parameters that misses the bound is exhibited. Proved with the product of the growth ratios as an additional factor, hence exactly when the steps do not grow."
  },
  {
   "property": "C86",
   "status": "partial",
   "theorems": [
    "Copt.C86_trace",
    "Copt.C86_accelerated_partial",
    "Copt.C86_refuted"
   ],
   "note": "The accelerated method with a callable step ignores trace_certificate."
  },
  {
   "property": "C87",
   "status": "proved",
   "theorems": [
    "Copt.C87_dr",
    "Copt.C87_backtracking"
   ],
   "note": "The backtracking rule contains an absolute slack of single-precision eps, so its guaranteed gain is reduced by 2^-23."
  },
  {
   "property": "C88",
   "status": "partial",
   "theorems": [
    "Copt.C88_partial",
    "Copt.C88_refuted"
   ],
   "note": "The difference quotient used to estimate the Lipschitz constant can be 0 on a convex smooth function; the estimate then stays 0 and the iterates cycle for ever. Proved when the estimate is bounded below by a positive number."
  },
  {
   "property": "C89",
   "status": "proved",
   "theorems": [
    "Copt.C89_success",
    "Copt.C89_defaults"
   ],
   "note": ""
  },
  {
   "property": "C90",
   "status": "proved",
   "theorems": [
    "Copt.C90_contraction",
    "Copt.C90_linear_rate",
    "Copt.C90_defaults"
   ],
   "note": ""
  },
  {
   "property": "C91",
   "status": "proved",
   "theorems": [
    "Copt.C91_saga",
    "Copt.C91_svrg",
    "Copt.C91_vrtos",
    "Copt.C91_no_step",
    "Copt.C91_vrtos_shape",
    "Copt.C91_vrtos_step",
    "Copt.C91_outcome"
   ],
   "note": "The docstrings say that step_size=None is estimated; the code raises ValueError."
  },
  {
   "property": "C92",
   "status": "proved",
   "theorems": [
    "Copt.C92_loss",
    "Copt.C92_prox_exact",
    "Copt.C92_accelerated",
    "Copt.C92_proximal_gradient"
   ],
   "note": "LogLoss with intercept=False; TraceNorm, TraceBall and TotalVariation2D (iterative prox) are not among the penalties. svds is assumed to return the largest singular value."
  },
  {
   "property": "C93",
   "status": "proved",
   "theorems": [
    "Copt.C93_default",
    "Copt.C93_linear",
    "Copt.C93_success"
   ],
   "note": "LogLoss is excluded: its computed values differ from the documented function by up to e^-33, which the line search sees."
  },
  {
   "property": "C94",
   "status": "proved",
   "theorems": [
    "Copt.C94_rate",
    "Copt.C94_terminates"
   ],
   "note": "variant='vanilla'."
  },
  {
   "property": "C95",
   "status": "proved",
   "theorems": [
    "Copt.C95_proximal_gradient",
    "Copt.C95_proximal_gradient_passive",
    "Copt.C95_proximal_gradient_immediate",
    "Copt.C95_accelerated",
    "Copt.C95_accelerated_passive",
    "Copt.C95_primal_dual"
   ],
   "note": "The callbacks of minimize_frank_wolfe and minimize_three_split are covered by C43 and C52."
  },
  {
   "property": "C96",
   "status": "partial",
   "theorems": [
    "Copt.C96_positional",
    "Copt.C96_positional_body",
    "Copt.C96_simplex_call",
    "Copt.C96_simplex_refuted",
    "Copt.C96_l1_partial",
    "Copt.C96_l1_run_partial",
    "Copt.C96_sfw_partial",
    "Copt.C96_sfw_l1_partial",
    "Copt.C96_sfw_simplex_refuted"
   ],
   "note": "Refuted: SimplexConstraint.lmo takes (u, x) only, so that every run of minimize_frank_wolfe and of minimize_sfw with it raises TypeError. Proved: with an oracle of four parameters (L1Ball) no run of either solver raises it."
  },
  {
   "property": "C97",
   "status": "proved",
   "theorems": [
    "Copt.C97_rate",
    "Copt.C97_terminates"
   ],
   "note": "svds(k=1) is assumed exact (a leading singular triple); exactSvds_exists shows that the assumption is satisfiable."
  },
  {
   "property": "C98",
   "status": "proved",
   "theorems": [
    "Copt.C98_saga_penalised",
    "Copt.C98_svrg_penalised"
   ],
   "note": "SVRG under FullBlocks (samples store the blocks they touch in full): otherwise its scratch gradient is stale, see C60."
  },
  {
   "property": "C99",
   "status": "proved",
   "theorems": [
    "Copt.C99_saga_sublinear",
    "Copt.C99_svrg_sublinear"
   ],
   "note": "SVRG under FullBlocks as in C98."
  },
  {
   "property": "C100",
   "status": "proved",
   "theorems": [
    "Copt.C100_minimiser",
    "Copt.C100_saga",
    "Copt.C100_svrg"
   ],
   "note": "Sufficient step sizes for every order: 1/(10 n D max_lipschitz), below the 1/(3 max_lipschitz) of the examples, for which only expectation results can hold."
  },
  {
   "property": "C101",
   "status": "proved",
   "theorems": [
    "Copt.C101_minimiser",
    "Copt.C101_saga",
    "Copt.C101_svrg"
   ],
   "note": "Step sizes as in C100."
  },
  {
   "property": "C102",
   "status": "proved",
   "theorems": [
    "Copt.C102_prox_exact",
    "Copt.C102_three_split",
    "Copt.C102_tv_deblurring"
   ],
   "note": "Without line search and callback; scipy.linalg.svd is assumed exact in TraceNorm."
  },
  {
   "property": "C103",
   "status": "proved",
   "theorems": [
    "Copt.C103_primal_dual",
    "Copt.C103_tv2d_operator",
    "Copt.C103_total_variation"
   ],
   "note": "Strict step-size condition; the boundary case of the examples is C105."
  },
  {
   "property": "C104",
   "status": "proved",
   "theorems": [
    "Copt.C104_regular",
    "Copt.C104_exists",
    "Copt.C104_growth",
    "Copt.C104_three_split",
    "Copt.C104_primal_dual",
    "Copt.C104_total_variation",
    "Copt.C104_accelerated"
   ],
   "note": "Minimisers of C92, C93, C102 and C103 exist."
  },
  {
   "property": "C105",
   "status": "proved",
   "theorems": [
    "Copt.C105_fejer",
    "Copt.C105_success",
    "Copt.C105_primal_dual",
    "Copt.C105_accuracy",
    "Copt.C105_examples"
   ],
   "note": "The examples pass tol=0 or the default tolerance and a callback that records the iterates; here tol > 0 and no callback."
  },
  {
   "property": "C106",
   "status": "proved",
   "theorems": [
    "Copt.C106_sag_saga",
    "Copt.C106_mhk",
    "Copt.C106_lf",
    "Copt.C106_converges",
    "Copt.C106_library",
    "Copt.C106_probability",
    "Copt.C106_trace_ball"
   ],
   "note": "For a tolerance that never stops the run (tol <= 0, as in all examples); with tol > 0 see C68. The random draws are enumerated: numpy's generators are assumed uniform. Exact arithmetic, exact oracle."
  },
  {
   "property": "C107",
   "status": "proved",
   "theorems": [
    "Copt.adaptive_pair",
    "Copt.tsSearch_accepts",
    "Copt.C107_converges",
    "Copt.C107_solves",
    "Copt.C107_three_split",
    "Copt.C107_default"
   ],
   "note": "Exact arithmetic. LogLoss is excluded at the library level: its computed values differ from the documented function by up to e^-33, which the search sees. h_Lipschitz=None: with h_Lipschitz the step grows (C79)."
  },
  {
   "property": "C108",
   "status": "partial",
   "theorems": [
    "Copt.C108_refuted",
    "Copt.pd_search_step",
    "Copt.C108_moves_partial",
    "Copt.C108_success_partial",
    "Copt.C108_accuracy_partial",
    "Copt.C108_library_partial"
   ],
   "note": "False of the code: the acceptance test has ||L dx||^2 on its right-hand side where Algorithm 4 of Malitsky and Pock has ||dx||^2, so that it does not see the norm of L; with L = 10 and default steps the iterates grow like 21^k. Proved for m||x|| <= ||L x|| <= ||x|| (including L=None), up to the first iteration that moves L x by at most 1e-10: that exit of the search keeps the old tau."
  },
  {
   "property": "C109",
   "status": "proved",
   "theorems": [
    "Copt.C109_l1_call",
    "Copt.C109_l1_prox",
    "Copt.C109_trace_call",
    "Copt.C109_trace_prox",
    "Copt.C109_trace_near",
    "Copt.C109_trace_slack"
   ],
   "note": "Singular values are assumed exact (exactVals_exists: the assumption is satisfiable for every shape)."
  },
  {
   "property": "C110",
   "status": "partial",
   "theorems": [
    "Copt.C110_parts_partial",
    "Copt.C110_full_partial",
    "Copt.C110_unknown",
    "Copt.C110_full_error",
    "Copt.C110_refuted_shape",
    "Copt.C110_refuted_full",
    "Copt.C110_labels"
   ],
   "note": "False of the code: csr_matrix is called without a shape, so that trailing features which no sample of a part has are cut off, and subset='full' raises ValueError when the two parts end in different features. Proved when both parts store the last feature."
  },
  {
   "property": "C111",
   "status": "proved",
   "theorems": [
    "Copt.C111_layout",
    "Copt.C111_gradient"
   ],
   "note": "Automatic differentiation is assumed to return partial derivatives; devices and dtype conversion are not modelled."
  },
  {
   "property": "C112",
   "status": "proved",
   "theorems": [
    "Copt.C112_mean_square",
    "Copt.C112_rate"
   ],
   "note": "Samples drawn independently and uniformly, while the code visits them in random permutations. Exact arithmetic. VrtosRegular states the step size bounds."
  },
  {
   "property": "C113",
   "status": "proved",
   "theorems": [
    "Copt.C113_any_order"
   ],
   "note": "Requires every sample to touch every block (VrtosDense) and a step size of order 1/n^2. Exact arithmetic; the certificate is stated as the sum of the two norms of randomized.py:557 on the final arrays."
  },
  {
   "property": "C114",
   "status": "proved",
   "theorems": [
    "Copt.C114_memory_safe",
    "Copt.C114_fused_lasso",
    "Copt.C114_cols",
    "Copt.C114_rows",
    "Copt.C114_empty_fault"
   ],
   "note": "The index differences are formed in the number type of the model (exact below 2^53). int32 overflow of the indices is not modelled."
  },
  {
   "property": "C115",
   "status": "partial",
   "theorems": [
    "Copt.C115_simplex_rounded_partial",
    "Copt.C115_index_error"
   ],
   "note": "The code raises IndexError on large arguments (C115_index_error); the partial theorem assumes u (max v + s) + eta < s. Overflow and nan are not modelled."
  },
  {
   "property": "C116",
   "status": "partial",
   "theorems": [
    "Copt.C116_l1_ball_rounded_partial",
    "Copt.C116_index_error"
   ],
   "note": "The code raises IndexError on large arguments (C116_index_error); the partial theorem assumes u (|v_i| + s) + eta < s. Overflow and nan are not modelled."
  },
  {
   "property": "C117",
   "status": "proved",
   "theorems": [
    "Copt.C117_l1_prox_rounded"
   ],
   "note": "Overflow and nan are not modelled."
  },
  {
   "property": "C118",
   "status": "proved",
   "theorems": [
    "Copt.C118_rounded_proximal_gradient"
   ],
   "note": "accelerated=False, a callable step, no callback. The constants are not explicit. The errors of the oracles are a hypothesis (FlOracles), discharged in C119. Overflow and nan are not modelled."
  },
  {
   "property": "C119",
   "status": "proved",
   "theorems": [
    "Copt.C119_rounded_regression"
   ],
   "note": "accelerated=False, a callable step, no callback. The constants are not explicit. FusedLasso and the projections of C115 and C116 (which may raise) are not covered. Overflow and nan are not modelled."
  },
  {
   "property": "C120",
   "status": "partial",
   "theorems": [
    "Copt.C120_exact_partial",
    "Copt.C120_primal_dual_exact_partial",
    "Copt.C120_saga_zero_start",
    "Copt.C120_saga_refuted",
    "Copt.C120_svrg_refuted",
    "Copt.C120_primal_dual_refuted",
    "Copt.C120_vrtos_exact_partial",
    "Copt.C120_vrtos_refuted"
   ],
   "note": "Refuted: all four take over the type of x0 and truncate. SAGA from integer zeros with a small step returns the zeros and reports success for every data set (C120_saga_zero_start). Proved: runs in which every assigned number is represented exactly do not depend on the type."
  },
  {
   "property": "C121",
   "status": "proved",
   "theorems": [
    "Copt.C121_logsig",
    "Copt.C121_value",
    "Copt.C121_cancellation"
   ],
   "note": "exp and log1p are parameters with a relative error bound (exp only up to 18). The constant K is not explicit. Overflow and nan are not modelled."
  },
  {
   "property": "C122",
   "status": "proved",
   "theorems": [
    "Copt.C122_rounded_frank_wolfe",
    "Copt.C122_rounded_constrained_regression"
   ],
   "note": "variant='vanilla', step='sublinear', no callback. The constant C is not explicit. The Lipschitz estimate of lines 256-264 is not used by this step rule and not modelled here. Overflow and nan are not modelled."
  },
  {
   "property": "C123",
   "status": "proved",
   "theorems": [
    "Copt.C123_rounded_pairwise",
    "Copt.C123_step_admissible",
    "Copt.C123_rounded_pairwise_regression"
   ],
   "note": "The constant C is not explicit. No claim about convergence: vertices with weight zero stay in the active set and can stall the method (C42). The step rule is an argument; step='sublinear' may exceed the weight of the away vertex and then raises. Overflow and nan are not modelled."
  },
  {
   "property": "C124",
   "status": "proved",
   "theorems": [
    "Copt.C124_rounded_raising_prox",
    "Copt.C124_rounded_constrained"
   ],
   "note": "accelerated=False, a callable step, no callback. The constants are not explicit and depend on the bound of the starting point. FusedLasso is not covered. Overflow and nan are not modelled."
  },
  {
   "property": "C125",
   "status": "proved",
   "theorems": [
    "Copt.C125_rounded_convex",
    "Copt.C125_rounded_regression"
   ],
   "note": "accelerated=False, a callable step, no callback. The constants are not explicit. FusedLasso is not covered. The existence of a solution is a hypothesis (it may fail for the logistic loss without regularisation). Overflow and nan are not modelled."
  },
  {
   "property": "C126",
   "status": "proved",
   "theorems": [
    "Copt.C126_rounded_svrg"
   ],
   "note": "The constant C is not explicit. f_alpha as in PenProblem; the growth of the objective around the minimiser is a hypothesis (discharged in C128). Overflow and nan are not modelled."
  },
  {
   "property": "C127",
   "status": "proved",
   "theorems": [
    "Copt.C127_rounded_saga"
   ],
   "note": "The constant C is not explicit; the error grows linearly with the number of passes, because the stored average is never recomputed. Overflow and nan are not modelled."
  },
  {
   "property": "C128",
   "status": "proved",
   "theorems": [
    "Copt.C128_svrg",
    "Copt.C128_saga",
    "Copt.C128_svrg_succeeds",
    "Copt.C128_saga_succeeds"
   ],
   "note": "The constants are not explicit. SVRG with a group penalty: every sample stores all or none of the features of a group (otherwise stale entries of grad_tmp enter the step, see C60). FusedLasso is not covered. Overflow and nan are not modelled."
  },
  {
   "property": "C129",
   "status": "proved",
   "theorems": [
    "Copt.C129_rounded_accelerated",
    "Copt.C129_rounded_regression"
   ],
   "note": "A callable step, no callback. The constants are not explicit. What success means for the returned point is not claimed beyond the rate: the certificate compares the previous iterate with a proximal step at the new one (C49). FusedLasso is not covered. Overflow and nan are not modelled."
  },
  {
   "property": "C130",
   "status": "proved",
   "theorems": [
    "Copt.C130_rounded_splitting",
    "Copt.C130_rounded_regression"
   ],
   "note": "line_search=False, a given step size, no callback. The constants are not explicit. x0 must be representable, since prox_2 is applied to it before any arithmetic. FusedLasso and the 2-D operators are not covered. Overflow and nan are not modelled."
  },
  {
   "property": "C131",
   "status": "proved",
   "theorems": [
    "Copt.C131_rounded_primal_dual",
    "Copt.C131_rounded_regression"
   ],
   "note": "line_search=False, no callback. The constants are not explicit. FusedLasso and the 2-D operators are not covered. Overflow and nan are not modelled."
  },
  {
   "property": "C132",
   "status": "partial",
   "theorems": [
    "Copt.C132_refuted",
    "Copt.C132_rounded_search_partial",
    "Copt.C132_rounded_search_oracles"
   ],
   "note": "A success is not near a minimiser for every tolerance: C132_refuted. C132_rounded_search_partial needs a tolerance and a first gradient larger than C sqrt(w), alpha > 0 and enough line search iterations; the constants are not explicit. The logistic loss is covered for precisions down to that of doubles (constants of logsig). No underflow, overflow or nan; FusedLasso and accelerated=True are not covered."
  },
  {
   "property": "C133",
   "status": "partial",
   "theorems": [
    "Copt.C133_refuted",
    "Copt.C133_nan_start",
    "Copt.C133_nan_gradient",
    "Copt.C133_limit_ignored",
    "Copt.C133_search",
    "Copt.C133_terminates_partial",
    "Copt.C133_library_partial"
   ],
   "note": "A nan in x0 or in the first gradient makes the line search run for ever (C133_refuted, C133_nan_start, C133_nan_gradient) and max_iter_ls limits nothing (C133_limit_ignored). C133_search allows underflow; C133_terminates_partial and C133_library_partial are for finite numbers without underflow. FusedLasso as g is not covered."
  },
  {
   "property": "C134",
   "status": "proved",
   "theorems": [
    "Copt.C134_rounded_backtracking",
    "Copt.C134_rounded_default",
    "Copt.C134_rounded_library"
   ],
   "note": "Vanilla variant on the l1 ball, no callback. The constant C is not explicit. The tolerance must be above the slack of the line search (tol^2 > 9 M alpha^2 2^-22). With lipschitz=None the estimate must not vanish (C88_refuted is the exact arithmetic counterexample). No underflow, overflow or nan."
  },
  {
   "property": "C135",
   "status": "proved",
   "theorems": [
    "Copt.C135_rounded_dr",
    "Copt.C135_rounded_library"
   ],
   "note": "Vanilla variant on the l1 ball, lipschitz given, no callback. The constant C is not explicit. No underflow, overflow or nan."
  },
  {
   "property": "C136",
   "status": "partial",
   "theorems": [
    "Copt.C136_refuted",
    "Copt.C136_rounded_search_partial",
    "Copt.C136_value_partial",
    "Copt.C136_rounded_search_oracles"
   ],
   "note": "False with the default step_size=None: C136_refuted. C136_rounded_search_partial is for a given step size and h_Lipschitz None or 0; its constant is not explicit and depends on max_iter. LogLoss only for precisions not higher than double. FusedLasso and the 2-D operators are not covered. No underflow, overflow or nan."
  },
  {
   "property": "C137",
   "status": "partial",
   "theorems": [
    "Copt.C137_success_finite",
    "Copt.C137_success_finite_split",
    "Copt.C137_nan_partial",
    "Copt.C137_nan_split_partial",
    "Copt.C137_refuted",
    "Copt.C137_refuted_split"
   ],
   "note": "Part (1) is proved. Part (2) is false: C137_refuted and C137_refuted_split; the _partial theorems are for proximal operators which pass nan on in one coordinate. Zero has no sign. accelerated=False, no callback, h_Lipschitz None or 0. The refutations hold for roundings with relative error 1/1000 above 1e-320, such as double precision with subnormal numbers."
  }
 ]
}