{
 "claims": [
  {
   "property": "C01",
   "status": "proved",
   "theorems": [
    "Verif.QP.qp_optimal_certificate"
   ],
   "note": "Polishing off (C02 covers polishing). No assumption on the linear solver or on convexity; exact arithmetic."
  },
  {
   "property": "C02",
   "status": "partial",
   "theorems": [
    "Verif.QP.qp_refinement_residual",
    "Verif.QP.qp_polished_optimal_violates",
    "Verif.QP.qp_polished_optimal_partial"
   ],
   "note": "False of the code: with default parameters min 5e-4 x on [-1,1] returns x = -2500 as Optimal (witness). Partial: pre-polish iterate certified; exact refinement satisfies the active rows and stationarity up to the activity threshold."
  },
  {
   "property": "C03",
   "status": "proved",
   "theorems": [
    "Verif.QP.qp_optimal_near_minimiser",
    "Verif.QP.qp_optimal_exact_minimiser"
   ],
   "note": "Convex problems, polishing off."
  },
  {
   "property": "C04",
   "status": "proved",
   "theorems": [
    "Verif.QP.qp_warm_start_stays",
    "Verif.QP.qp_warm_start_exact"
   ],
   "note": "Convex, polishing off, stop_check_iter >= 2, exact linear solver."
  },
  {
   "property": "C05",
   "status": "proved",
   "theorems": [
    "Verif.QP.qp_stationary_is_kkt",
    "Verif.QP.qp_stationary_is_minimiser"
   ],
   "note": ""
  },
  {
   "property": "C06",
   "status": "partial",
   "theorems": [
    "Verif.QP.qp_primal_infeasible_unsound",
    "Verif.QP.qp_primal_infeasible_partial",
    "Verif.QP.qp_primal_infeasible_zero_tol"
   ],
   "note": "False of the code for positive tolerances (witness with default parameters); sound for zero tolerance, quantitative exclusion otherwise."
  },
  {
   "property": "C07",
   "status": "partial",
   "theorems": [
    "Verif.QP.qp_dual_infeasible_unsound",
    "Verif.QP.qp_dual_infeasible_partial",
    "Verif.QP.qp_dual_infeasible_strictly_convex"
   ],
   "note": "False of the code (witnesses with default parameters, one of them strictly convex); partial: exact certificates are sound. See also C112."
  },
  {
   "property": "C08",
   "status": "proved",
   "theorems": [
    "Verif.QP.qp_budget_terminates",
    "Verif.QP.qp_exit_code_meaning",
    "Verif.QP.qp_unknown_iff",
    "Verif.QP.qp_max_iterations_iff"
   ],
   "note": "stop_check_iter = 0 is undefined behaviour (modulo by zero) and excluded."
  },
  {
   "property": "C09",
   "status": "partial",
   "theorems": [
    "Verif.QP.qp_stop_check_one_diverges",
    "Verif.QP.qp_checks_in_every_window_partial",
    "Verif.QP.qp_time_limit_ends_partial"
   ],
   "note": "False for stop_check_iter = 1: never checks, never ends (proved); proved for stop_check_iter >= 2."
  },
  {
   "property": "C10",
   "status": "proved",
   "theorems": [
    "Verif.QP.qp_empty_row_infeasible",
    "Verif.QP.qp_zero_iter_infeasible",
    "Verif.QP.triviallyEmpty_iff"
   ],
   "note": ""
  },
  {
   "property": "C11",
   "status": "proved",
   "theorems": [
    "Verif.QP.qp_scaling_positive",
    "Verif.QP.qp_scaling_defined_iff",
    "Verif.QP.qp_scaling_empty_undefined",
    "Verif.QP.qp_scaling_equivalent",
    "Verif.QP.qp_unscaling_bijective",
    "Verif.QP.qp_scaled_iteration",
    "Verif.QP.qp_warm_start_round_trip"
   ],
   "note": "Scaling with no variables or no constraints is undefined (Eigen maxCoeff/mean of an empty vector); proved."
  },
  {
   "property": "C12",
   "status": "partial",
   "theorems": [
    "Verif.QP.qp_never_polish_failed",
    "Verif.QP.qp_polish_failure_reported_optimal",
    "Verif.QP.qp_polish_failure_keeps_solution_partial"
   ],
   "note": "False of the code: PolishFailed is never returned (proved for all inputs)."
  },
  {
   "property": "C13",
   "status": "partial",
   "theorems": [
    "Verif.QP.qp_lower_triangle_matters",
    "Verif.QP.qp_lower_triangle_same_iterates_partial"
   ],
   "note": "False of the code (witness); the iterates agree without scaling."
  },
  {
   "property": "C14",
   "status": "proved",
   "theorems": [
    "Verif.QP.qp_reuse_history_independent",
    "Verif.QP.qp_reuse_two_histories",
    "Verif.QP.qp_reuse_new_pattern_undefined"
   ],
   "note": "Sparse solver object, one pattern. After analyze for another pattern the next solve is undefined (proved)."
  },
  {
   "property": "C15",
   "status": "proved",
   "theorems": [
    "Verif.Mesh.mesh_invariant",
    "Verif.Mesh.mesh_ops_return"
   ],
   "note": "1 <= Kmin <= Kmax; every history of mutating operations."
  },
  {
   "property": "C16",
   "status": "partial",
   "theorems": [
    "Verif.Mesh.refine_ph_partial",
    "Verif.Mesh.refine_ph_parts_cover",
    "Verif.Mesh.refine_ph_first_part_differs",
    "Verif.Mesh.refine_ph_reaches"
   ],
   "note": "False of the code: in a split the first part keeps its old degree, the documentation says Kmin (witness). Everything else proved."
  },
  {
   "property": "C17",
   "status": "proved",
   "theorems": [
    "Verif.Mesh.refine_errors_exact",
    "Verif.Mesh.refine_errors_keeps_breakpoints",
    "Verif.Mesh.refine_errors_adds_points",
    "Verif.Mesh.growth_formula_pos"
   ],
   "note": "Kmin >= 1. The rounded logarithm is a parameter; for one-point intervals log(1) = 0 makes it unspecified in the code."
  },
  {
   "property": "C18",
   "status": "proved",
   "theorems": [
    "Verif.Mesh.nodes_complete"
   ],
   "note": "For every family of reference nodes meeting IsLGR."
  },
  {
   "property": "C19",
   "status": "proved",
   "theorems": [
    "Verif.Mesh.quadrature_exact",
    "Verif.Mesh.weights_nonneg_sum_one",
    "Verif.Mesh.quadrature_integral"
   ],
   "note": "For every family of reference rules meeting IsLGR."
  },
  {
   "property": "C20",
   "status": "proved",
   "theorems": [
    "Verif.Mesh.eval_interpolates",
    "Verif.Mesh.eval_polynomial",
    "Verif.Mesh.eval_polynomial_last"
   ],
   "note": "External: lagrange_basis and binary_interval_search by contract."
  },
  {
   "property": "C21",
   "status": "proved",
   "theorems": [
    "Verif.Mesh.diff_int_matrices_exact"
   ],
   "note": "External: LGR nodes and lagrange_basis by contract."
  },
  {
   "property": "C22",
   "status": "proved",
   "theorems": [
    "Verif.Mesh.interval_find_correct"
   ],
   "note": "External: binary_interval_search by contract."
  },
  {
   "property": "C23",
   "status": "proved",
   "theorems": [
    "Verif.Mesh.dyn_error_nonneg",
    "Verif.Mesh.dyn_error_zero_iff"
   ],
   "note": "Exact real arithmetic."
  },
  {
   "property": "C24",
   "status": "proved",
   "theorems": [
    "Verif.MeshFn.mesh_eval_exact"
   ],
   "note": "States and inputs are vectors; diff::dr by contract (IsDr), which every C^2 function meets (drOf_isDr)."
  },
  {
   "property": "C25",
   "status": "proved",
   "theorems": [
    "Verif.MeshFn.mesh_integrate_exact",
    "Verif.MeshFn.mesh_integrate_no_outputs"
   ],
   "note": "As C24. Without outputs and with second derivatives a fresh buffer is allocated from an empty pattern and reads out of range (proved)."
  },
  {
   "property": "C26",
   "status": "proved",
   "theorems": [
    "Verif.MeshFn.mesh_dyn_exact",
    "Verif.MeshFn.mesh_dyn_defect"
   ],
   "note": "As C24. mesh_dyn_defect ties the differentiation matrices to derivatives of piecewise polynomials. Degrees at least one."
  },
  {
   "property": "C27",
   "status": "proved",
   "theorems": [
    "Verif.MeshFn.buffers_reusable"
   ],
   "note": "Any list of calls with the same number of rows."
  },
  {
   "property": "C28",
   "status": "proved",
   "theorems": [
    "Verif.NLP.nlp_layout",
    "Verif.NLP.nlp_constraints",
    "Verif.NLP.nlp_objective",
    "Verif.NLP.nlp_feasible_iff"
   ],
   "note": "After any history of calls. Flat problems (FlatOCPType); LGR rule by contract."
  },
  {
   "property": "C29",
   "status": "proved",
   "theorems": [
    "Verif.NLP.nlp_df_exact",
    "Verif.NLP.nlp_dg_exact"
   ],
   "note": "After any history of calls; diff::dr by contract (IsDr, IsDrE), which every C^2 function meets (drOf_isDr, drE_isDr)."
  },
  {
   "property": "C30",
   "status": "partial",
   "theorems": [
    "Verif.NLP.nlp_d2f_exact_partial",
    "Verif.NLP.nlp_d2g_exact_partial",
    "Verif.NLP.nlp_hessians_exact",
    "Verif.NLP.nlp_d2f_wrong"
   ],
   "note": "False of the code: second derivatives by an integral variable and a state are dropped (witness objective x(0) q). Everything else is exact, and all of it for problems without such derivatives."
  },
  {
   "property": "C31",
   "status": "partial",
   "theorems": [
    "Verif.NLP.ocp_nlp_roundtrip_partial",
    "Verif.NLP.ocp_nlp_roundtrip_loses"
   ],
   "note": "x and lambda come back exactly; the multipliers zl, zu of the variable bounds are lost (witness)."
  },
  {
   "property": "C32",
   "status": "proved",
   "theorems": [
    "Verif.OQP.ocp_qp_feasible",
    "Verif.OQP.qp_layout"
   ],
   "note": "Flat problems with or without the adjoint of the linearisation; diff::dr by contract. The end constraint's integral argument is frozen at one, as in the code."
  },
  {
   "property": "C33",
   "status": "partial",
   "theorems": [
    "Verif.OQP.ocp_qp_cost_partial",
    "Verif.OQP.ocp_qp_cost_exact",
    "Verif.OQP.ocp_qp_cost_wrong",
    "Verif.OQP.ocp_qp_lower_zero"
   ],
   "note": "False of the code: the Hessian of the end cost enters with an extra factor 1/2 (witness). The partial theorem gives the exact cost of the program; it is the second-order expansion whenever the end cost has no second derivatives."
  },
  {
   "property": "C34",
   "status": "proved",
   "theorems": [
    "Verif.OQP.qp_update_fresh",
    "Verif.OQP.qp_update_stale"
   ],
   "note": "After any history of whole and partial updates, if the end-constraint Jacobian stores the same entries at every update; without that the claim fails (witness)."
  },
  {
   "property": "C35",
   "status": "proved",
   "theorems": [
    "Verif.Flatten.flatten_equivalent",
    "Verif.Flatten.flat_dynamics",
    "Verif.Flatten.flat_defect",
    "Verif.Flatten.unflatten_admissible",
    "Verif.Flatten.unflatten_optimal",
    "Verif.Lie.lin_isLie",
    "Verif.Lie.se2_isLie",
    "Verif.Lie.se3_isLie"
   ],
   "note": "All trajectories with continuous error that stays where the exponential map is regular."
  },
  {
   "property": "C36",
   "status": "proved",
   "theorems": [
    "Verif.Flatten.bernoulli_table",
    "Verif.Flatten.bernoulli_table_field",
    "Verif.Flatten.dr_expinv_series",
    "Verif.Flatten.dr_expinv_nilpotent",
    "Verif.Flatten.so3_dr_expinv_series"
   ],
   "note": "Table, convergence of the series and error of its truncation after the table."
  },
  {
   "property": "C37",
   "status": "proved",
   "theorems": [
    "Verif.Sparse.d2r_fog_exact"
   ],
   "note": "Two-argument chain rule with exact derivative data of the factors; dense or sparse."
  },
  {
   "property": "C38",
   "status": "partial",
   "theorems": [
    "Verif.Sparse.block_add_exact",
    "Verif.Sparse.block_add_out_of_range",
    "Verif.Sparse.block_write_partial",
    "Verif.Sparse.block_write_full",
    "Verif.Sparse.block_write_skips_structural_zeros",
    "Verif.Sparse.block_add_identity_exact",
    "Verif.Sparse.block_write_identity_exact",
    "Verif.Sparse.set_zero_exact",
    "Verif.Sparse.count_explicit_zeros_exact",
    "Verif.Sparse.mark_explicit_zeros_exact"
   ],
   "note": "block_write does not write structural zeros of the source (witness), so dest = scale*source only holds for fully stored sources; the other operations are proved."
  },
  {
   "property": "C39",
   "status": "partial",
   "theorems": [
    "Verif.MPC.mpc_weights_ignored",
    "Verif.MPC.mpc_weights_wrong",
    "Verif.MPC.mpc_weights_partial",
    "Verif.MPC.mpc_program",
    "Verif.MPC.mpc_follows"
   ],
   "note": "False of the code: set_weights changes neither the program nor any returned input, after any history. Witness against the documented cost; the partial theorem says for which weights the program is the documented one. mpc_program gives the exact program of every call, on any Lie groups."
  },
  {
   "property": "C40",
   "status": "partial",
   "theorems": [
    "Verif.MPC.mpc_terminal_ignored",
    "Verif.MPC.mpc_terminal_hessian",
    "Verif.MPC.mpc_weights_wrong",
    "Verif.MPC.mpc_weights_partial"
   ],
   "note": "False of the code: the Hessian is written to the block of the first state, so the final state is never weighed and the first one is."
  },
  {
   "property": "C41",
   "status": "partial",
   "theorems": [
    "Verif.MPC.mpc_input_hessian",
    "Verif.MPC.mpc_input_weight_partial",
    "Verif.MPC.mpc_input_weight_wrong",
    "Verif.MPC.mpc_construct_iff"
   ],
   "note": "False of the code: an entry of R is only used where Q has a nonzero entry, and with more inputs than states the constructor reads Q out of range. Exact Hessian for all weights; partial where Q has no zeros where R has none."
  },
  {
   "property": "C42",
   "status": "partial",
   "theorems": [
    "Verif.MPC.mpc_running_partial",
    "Verif.MPC.mpc_running_deviation",
    "Verif.MPC.mpc_running_wrong"
   ],
   "note": "False of the code: constraints without set_time stay linearised around the default elements, so they bound the deviation (witness: |u| <= 1, Optimal, u >= 4). Partial: constraints with set_time, or desired trajectories that are at the default elements at the nodes."
  },
  {
   "property": "C43",
   "status": "partial",
   "theorems": [
    "Verif.MPC.mpc_copy_partial",
    "Verif.MPC.mpc_no_share",
    "Verif.MPC.mpc_copy_shared",
    "Verif.MPC.mpc_copy_wrong",
    "Verif.MPC.mpc_copy_same"
   ],
   "note": "False of the code: copies share the desired trajectories (witness). Partial: any other operation on any other object leaves the results of an object alone, and so do setters on objects that share nothing."
  },
  {
   "property": "C44",
   "status": "proved",
   "theorems": [
    "Verif.MPC.mpc_output",
    "Verif.MPC.mpc_call_defined",
    "Verif.MPC.mpc_reset",
    "Verif.MPC.mpc_new_cold",
    "Verif.MPC.mpc_warm_kept"
   ],
   "note": "After any history; the solver is a parameter. LGR nodes by contract."
  },
  {
   "property": "C45",
   "status": "proved",
   "theorems": [
    "Verif.ASIF.asif_feasible",
    "Verif.ASIF.asif_feasible_iff",
    "Verif.ASIF.asif_program"
   ],
   "note": "Any manifold; the construction must end (C48)."
  },
  {
   "property": "C46",
   "status": "proved",
   "theorems": [
    "Verif.ASIF.asif_zero_unique",
    "Verif.ASIF.asif_passes",
    "Verif.ASIF.asif_safe",
    "Verif.ASIF.asif_optimal_call"
   ],
   "note": "Any history of calls; solver exact when it says Optimal (C68 for the library's own). Input constraints exactly for inputs in a vector space. Barrier condition as the filter states it (C47, C49 for what that means)."
  },
  {
   "property": "C47",
   "status": "partial",
   "theorems": [
    "Verif.ASIF.asif_times_wrong",
    "Verif.ASIF.asif_times_partial",
    "Verif.ASIF.asif_schedule"
   ],
   "note": "False of the code: witness. Right exactly if K <= 1 or tau is a whole number of steps min(dt, tau); otherwise late by less than one step."
  },
  {
   "property": "C48",
   "status": "proved",
   "theorems": [
    "Verif.ASIF.asif_schedule",
    "Verif.ASIF.asif_terminates_iff",
    "Verif.ASIF.asif_program"
   ],
   "note": "With dt <= 0, T > 0, K >= 1 it never ends (proved)."
  },
  {
   "property": "C49",
   "status": "partial",
   "theorems": [
    "Verif.ASIF.asif_sens_wrong",
    "Verif.ASIF.asif_group_sens_wrong",
    "Verif.ASIF.asif_exact_sens",
    "Verif.ASIF.asif_sens_partial",
    "Verif.ASIF.asif_sens_error",
    "Verif.ASIF.asif_barrier_derivative",
    "Verif.ASIF.asif_group_sens",
    "Verif.ASIF.rd_unique",
    "Verif.ASIF.asif_group_sens_error",
    "Verif.ASIF.asif_group_barrier",
    "Verif.ASIF.asif_group_condition"
   ],
   "note": "False of the code for nonlinear closed loops (witness 5 instead of 3), and on rotations already for a constant velocity (any step length). Partial, on every matrix Lie group: the exact derivative of the steps; the filter's sensitivity is off by at most a constant times dt; what its rows say about the true barrier condition. Equal for affine closed loops in a vector space."
  },
  {
   "property": "C50",
   "status": "proved",
   "theorems": [
    "Verif.ASIF.asif_call_program",
    "Verif.ASIF.asif_history_irrelevant",
    "Verif.ASIF.asif_update_size"
   ],
   "note": ""
  },
  {
   "property": "C51",
   "status": "proved",
   "theorems": [
    "Verif.EKF.ekf_covariance_symmetric",
    "Verif.EKF.ekf_covariance_symmetric_from_init"
   ],
   "note": "Every explicit Runge-Kutta stepper."
  },
  {
   "property": "C52",
   "status": "partial",
   "theorems": [
    "Verif.EKF.ekf_update_psd_and_decreasing",
    "Verif.EKF.ekf_predict_step_identity",
    "Verif.EKF.ekf_predict_step_psd_partial",
    "Verif.EKF.ekf_predict_breaks_psd"
   ],
   "note": "Update half proved; predict half false of the code (witness), proved when process noise dominates the Euler error."
  },
  {
   "property": "C53",
   "status": "proved",
   "theorems": [
    "Verif.EKF.ekf_fusion_information_form",
    "Verif.EKF.ekf_fusion_order_independent",
    "Verif.EKF.ekf_fusion_bayes_optimal"
   ],
   "note": "Linear measurements, vector-space state."
  },
  {
   "property": "C54",
   "status": "partial",
   "theorems": [
    "Verif.EKF.ekf_predict_covers_interval",
    "Verif.EKF.ekf_predict_default_single_step",
    "Verif.EKF.ekf_predict_negative_time_hangs",
    "Verif.EKF.ekf_predict_nonpositive_dt_hangs"
   ],
   "note": "Proved for dt > 0, and for the default dt with tau >= 0; for tau < 0 (default dt) or dt <= 0 the code never returns (proved)."
  },
  {
   "property": "C55",
   "status": "proved",
   "theorems": [
    "Verif.EKF.ekf_predict_upper_Q",
    "Verif.EKF.ekf_update_upper_R"
   ],
   "note": ""
  },
  {
   "property": "C56",
   "status": "proved",
   "theorems": [
    "Verif.PID.pid_integral_bounded",
    "Verif.PID.pid_integral_term_bounded"
   ],
   "note": "Any history; limit nonnegative (a negative limit pins the integral: pid_negative_limit_pins_integral)."
  },
  {
   "property": "C57",
   "status": "proved",
   "theorems": [
    "Verif.PID.pid_output_law",
    "Verif.PID.pid_gains_do_not_disturb_integral",
    "Verif.PID.pid_zero_error"
   ],
   "note": "Refinement to a history-only specification."
  },
  {
   "property": "C58",
   "status": "partial",
   "theorems": [
    "Verif.PID.pid_integrates_elapsed_time_once_partial",
    "Verif.PID.pid_counts_time_twice_when_clock_goes_back"
   ],
   "note": "False for clocks that go backwards (witness); proved for non-decreasing call times."
  },
  {
   "property": "C59",
   "status": "proved",
   "theorems": [
    "Verif.Time.time_float_roundtrip",
    "Verif.Time.time_tick_roundtrip",
    "Verif.Time.time_tick_arrives",
    "Verif.Time.time_tick_order"
   ],
   "note": "Idealised floats; integer ticks without overflow."
  },
  {
   "property": "C60",
   "status": "partial",
   "theorems": [
    "Verif.Ipopt.ipopt_hessian_partial",
    "Verif.Ipopt.ipopt_lagrangian",
    "Verif.Ipopt.ipopt_hessian_overflow"
   ],
   "note": "All callback histories, all NLPs that always store the same positions. False without that: witness (write past the end)."
  },
  {
   "property": "C61",
   "status": "partial",
   "theorems": [
    "Verif.Ipopt.ipopt_status",
    "Verif.Ipopt.ipopt_optimal_partial",
    "Verif.Ipopt.ipopt_acceptable_optimal",
    "Verif.Ipopt.ipopt_no_result_optimal",
    "Verif.Ipopt.ipopt_walltime"
   ],
   "note": "The translation is proved for every run. False of the code: STOP_AT_ACCEPTABLE_POINT is reported as Optimal; without a result the status of the warm start (or an uninitialised one) comes back."
  },
  {
   "property": "C62",
   "status": "partial",
   "theorems": [
    "Verif.OSQP.osqp_error_partial",
    "Verif.OSQP.osqp_solve_error_ignored",
    "Verif.OSQP.osqp_solve_error_optimal",
    "Verif.OSQP.osqp_setup_undefined",
    "Verif.OSQP.osqp_outcome"
   ],
   "note": "False of the code: `error &= osqp_solve(...)` keeps 0 whatever osqp_solve returns, so a failed solve can come back as Optimal (proved for every error code); a setup that fails validation leaves the workspace uninitialised and cleans it up (undefined). Partial: a failed setup that sets the workspace gives Unknown."
  },
  {
   "property": "C63",
   "status": "partial",
   "theorems": [
    "Verif.OSQP.osqp_problem_wrong",
    "Verif.OSQP.osqp_problem_partial",
    "Verif.OSQP.osqp_problem_sparse",
    "Verif.OSQP.osqp_entries",
    "Verif.OSQP.osqp_upper",
    "Verif.OSQP.osqp_optimal",
    "Verif.OSQP.documented_eq"
   ],
   "note": "False for dense entries below 1e-18 (they are dropped): witness. Partial: the same problem if no entry is that small (dense) and for every sparse problem."
  },
  {
   "property": "C64",
   "status": "proved",
   "theorems": [
    "Verif.ASIF.asif_input_rows",
    "Verif.ASIF.asif_program"
   ],
   "note": ""
  },
  {
   "property": "C65",
   "status": "proved",
   "theorems": [
    "Verif.QP.qp_polish_active_set",
    "Verif.QP.qp_polish_other_rows",
    "Verif.QP.qp_polish_bounds_finite"
   ],
   "note": ""
  },
  {
   "property": "C66",
   "status": "partial",
   "theorems": [
    "Verif.Mesh.eval_derivative_scaled",
    "Verif.Mesh.eval_polynomial"
   ],
   "note": "False of the code for p >= 1: the derivative is with respect to the local coordinate in [-1,1], off by the factor ((b-a)/2)^p (witness and exact formula)."
  },
  {
   "property": "C67",
   "status": "proved",
   "theorems": [
    "Verif.OQP.qpsol_nodes"
   ],
   "note": "LGR rule, lagrange_basis and binary_interval_search by contract; final time not zero."
  },
  {
   "property": "C68",
   "status": "proved",
   "theorems": [
    "Verif.ASIF.asif_pass_exact",
    "Verif.QP.qp_zero_exact"
   ],
   "note": "Exact arithmetic; Eigen's LDLT by assumption (SolverOk, met over the reals)."
  },
  {
   "property": "C69",
   "status": "partial",
   "theorems": [
    "Verif.OSQP.osqp_settings",
    "Verif.OSQP.osqp_setup_undefined",
    "Verif.OSQP.osqp_time_zero"
   ],
   "note": "Settings as documented (proved). False of the code for rejected parameters: undefined (proved for every library that validates). max_time = 0 means no limit."
  },
  {
   "property": "C70",
   "status": "proved",
   "theorems": [
    "Verif.Ipopt.ipopt_first_order"
   ],
   "note": ""
  },
  {
   "property": "C71",
   "status": "proved",
   "theorems": [
    "Verif.Ipopt.ipopt_bounds",
    "Verif.Ipopt.ipopt_bounds_large"
   ],
   "note": "Larger finite bounds are read as infinite: witness."
  },
  {
   "property": "C72",
   "status": "partial",
   "theorems": [
    "Verif.Ipopt.ipopt_start",
    "Verif.Ipopt.ipopt_cold_start",
    "Verif.Ipopt.ipopt_hessian_option_partial",
    "Verif.Ipopt.ipopt_default_hessian",
    "Verif.Ipopt.ipopt_two_values"
   ],
   "note": "Starting point proved. False of the code without the option hessian_approximation: Ipopt's default is exact, the wrapper announces an empty Hessian and asserts when asked."
  },
  {
   "property": "C73",
   "status": "proved",
   "theorems": [
    "Verif.Ipopt.nlp_pattern"
   ],
   "note": ""
  },
  {
   "property": "C74",
   "status": "proved",
   "theorems": [
    "Verif.Ipopt.ipopt_ocp_hessian",
    "Verif.Ipopt.ipopt_ocp_first_order",
    "Verif.Ipopt.ipopt_ocp_feasible"
   ],
   "note": "For problems without mixed second derivatives by integrals and states (otherwise C30 applies)."
  },
  {
   "property": "C75",
   "status": "partial",
   "theorems": [
    "Verif.Flatten.flat_inner_jacobian",
    "Verif.Flatten.flat_inner_hessian",
    "Verif.Flatten.flat_inner_exact_partial",
    "Verif.Flatten.flat_inner_hessian_wrong",
    "Verif.Flatten.flat_endpt_jacobian",
    "Verif.Flatten.flat_endpt_hessian",
    "Verif.Flatten.flat_endpt_exact_partial"
   ],
   "note": "Jacobians proved. False of the code for the second derivative by time when the reference accelerates (witness; the missing term is stated for all inputs); all derivatives are right for references of constant velocity."
  },
  {
   "property": "C76",
   "status": "proved",
   "theorems": [
    "Verif.Flatten.flat_inner_history",
    "Verif.Flatten.flat_endpt_history",
    "Verif.Flatten.flat_dyn_history"
   ],
   "note": ""
  },
  {
   "property": "C77",
   "status": "partial",
   "theorems": [
    "Verif.Flatten.flat_dyn_jacobian",
    "Verif.Flatten.flat_dyn_jacobian_exact_partial",
    "Verif.Flatten.flat_dyn_jacobian_wrong"
   ],
   "note": "Derivatives by error and input proved. False of the code for the derivative by time when the reference accelerates (witness; the missing term is stated for all inputs)."
  },
  {
   "property": "C78",
   "status": "partial",
   "theorems": [
    "Verif.Flatten.flat_dyn_hessian",
    "Verif.Flatten.flat_dyn_hessian_error",
    "Verif.Flatten.flat_dyn_hessian_half_turn",
    "Verif.Flatten.flat_dyn_hessian_so3",
    "Verif.Flatten.flat_dyn_hessian_const_partial",
    "Verif.Flatten.flat_dyn_hessian_nilpotent_partial",
    "Verif.Flatten.flat_dyn_exact_partial",
    "Verif.Flatten.flatten_exact_partial",
    "Verif.Flatten.flat_dyn_hessian_wrong"
   ],
   "note": "False as stated: rows and columns of time lack the acceleration of the references (flat_dyn_hessian_wrong). Second derivatives by error and input: exact for the dynamics with the series up to B22 (all groups) and on groups with nilpotent ad; in general the error of the truncation is bounded wherever ad(e) is smaller than 2 pi in some norm, with numbers for half a turn and for SO(3). With references of constant velocity the rows and columns of time are right too."
  },
  {
   "property": "C79",
   "status": "proved",
   "theorems": [
    "Verif.QP.qp_terminates",
    "Verif.QP.qp_terminates_optimal",
    "Verif.QP.qp_eventually_optimal",
    "Verif.QP.qp_rate"
   ],
   "note": "Exact arithmetic and linear solver (the hypotheses on it are met by an exact one on every convex program). The code is Optimal, PrimalInfeasible or DualInfeasible (the last two can be wrong, C06 and C07); Optimal if the infeasibility tolerances are zero and a row has two finite bounds."
  },
  {
   "property": "C80",
   "status": "proved",
   "theorems": [
    "Verif.QP.qp_iterates_converge",
    "Verif.QP.qp_residuals_vanish"
   ],
   "note": "Over the reals."
  },
  {
   "property": "C81",
   "status": "proved",
   "theorems": [
    "Verif.OQP.ocp_qp_feasible_lie",
    "Verif.OQP.err_dynamics",
    "Verif.OQP.errDyn_hasPd",
    "Verif.Lie.lin_isLie",
    "Verif.Lie.pose_velocity_isLie"
   ],
   "note": "Any groups that satisfy the laws of Spec/Lie.lean; the flag for commutative groups must be right."
  },
  {
   "property": "C82",
   "status": "partial",
   "theorems": [
    "Verif.OQP.ocp_qp_cost_lie_partial",
    "Verif.OQP.ocp_qp_cost_lie_exact",
    "Verif.OQP.ocp_qp_cost_lie_wrong"
   ],
   "note": "False of the code: the right Hessian on a non-commutative group is not symmetric and only its upper triangle is used (witness on the Heisenberg group), besides the error of C33. The error is stated exactly for all problems; the claim holds where the groups commute or the gradients vanish and the end cost has no second derivatives."
  },
  {
   "property": "C83",
   "status": "proved",
   "theorems": [
    "Verif.OQP.qpsol_nodes_lie"
   ],
   "note": ""
  },
  {
   "property": "C84",
   "status": "proved",
   "theorems": [
    "Verif.MPC.mpc_start"
   ],
   "note": "With an exact solver; after any history, on any group that satisfies the laws of Spec/Lie.lean."
  },
  {
   "property": "C85",
   "status": "proved",
   "theorems": [
    "Verif.MPC.mpc_program",
    "Verif.MPC.errVel_sum",
    "Verif.MPC.vec_horizon",
    "Verif.MPC.heis_run"
   ],
   "note": "The flag for commutative groups and the pattern of dr_expinv must be right (Sys.IsLie). The objective is that of C39."
  },
  {
   "property": "C86",
   "status": "partial",
   "theorems": [
    "Verif.EKF.ekf_stepper_partial",
    "Verif.EKF.ekf_predict_joint_partial",
    "Verif.EKF.ekf_stepper_wrong"
   ],
   "note": "False of the code for steppers with several stages: the covariance is stepped with the state frozen (witness with runge_kutta4: 7 instead of more than 11). Proved for one stage (the default) and for linearisations that do not depend on the state; the state alone is always right."
  },
  {
   "property": "C87",
   "status": "partial",
   "theorems": [
    "Verif.OCPTest.test_exact_passes",
    "Verif.OCPTest.test_detects_partial",
    "Verif.OCPTest.test_fails",
    "Verif.OCPTest.test_eps_wrong",
    "Verif.OCPTest.test_nothing"
   ],
   "note": "False of the code for small eps: a relative deviation of 1e-4 passes whatever eps (witness: off by 1 with eps = 1e-6). No false alarms (proved); agreement within eps if eps >= 1e-4 times the norm of the reference."
  },
  {
   "property": "C88",
   "status": "proved",
   "theorems": [
    "Verif.MPC.mpc_reuse",
    "Verif.MPC.mpc_sparsity_kept",
    "Verif.MPC.mpc_sparsity_analysed"
   ],
   "note": "With the modelled QP solver object. Assignment replaces solver and program together. Factorisations are assumed to read the upper triangle only (as LDLT<Upper> does)."
  },
  {
   "property": "C89",
   "status": "proved",
   "theorems": [
    "Verif.MPC.mpc_returns",
    "Verif.MPC.mpc_near_optimal"
   ],
   "note": "mpc_returns: max_iter set (also with polishing). mpc_near_optimal: polishing off, positive square roots, exact quadrature rule."
  },
  {
   "property": "C90",
   "status": "proved",
   "theorems": [
    "Verif.MPC.mpc_on_desired",
    "Verif.MPC.mpc_stays_on_desired"
   ],
   "note": "With scaling and polishing; exact linear algebra (SolverOk), no warm start or a zero one. Constraints without set_time are required at the default elements, around which the code linearises them (C42)."
  },
  {
   "property": "C91",
   "status": "proved",
   "theorems": [
    "Verif.QP.qp_differences_converge",
    "Verif.QP.qp_residuals_vanish_bounded",
    "Verif.QP.qp_infeasible_detected"
   ],
   "note": "Over the reals, with an LDLT that succeeds and is exact, 0 < alpha < 2."
  },
  {
   "property": "C92",
   "status": "partial",
   "theorems": [
    "Verif.QP.qp_always_returns_partial",
    "Verif.QP.qp_always_returns_bounds",
    "Verif.QP.qp_unbounded_detected_partial",
    "Verif.QP.qp_free_row_diverges"
   ],
   "note": "False of the code for rows without any bound: min x with -inf <= x <= inf never returns (witness). Proved for all convex programs in which no direction of unboundedness lowers a free row, in particular if each row has a bound or P is positive definite."
  },
  {
   "property": "C93",
   "status": "proved",
   "theorems": [
    "Verif.MPC.mpc_rel_output",
    "Verif.MPC.mpc_rel_velocity",
    "Verif.MPC.float_clock",
    "Verif.MPC.tick_clock"
   ],
   "note": "Velocity: with an exact clock. `diff::dr` by contract."
  },
  {
   "property": "C94",
   "status": "proved",
   "theorems": [
    "Verif.Flatten.nlp_collocated",
    "Verif.Flatten.unflatten_collocated"
   ],
   "note": "Regular: dr_exp is invertible at the stored errors. Exact quadrature rule and Lagrange basis by contract. The derivative is that within the mesh interval of the point."
  },
  {
   "property": "C95",
   "status": "proved",
   "theorems": [
    "Verif.MPC.mesh_environment_exists",
    "Verif.MPC.mesh_rule_unique",
    "Verif.MPC.lgr_unique",
    "Verif.MPC.quadrature_integral_real"
   ],
   "note": "About the assumptions of the model on lgr_nodes: they can be met for every K and determine the rule. That the tables of the smooth library hold these numbers is not proved (the library is not in the repository)."
  },
  {
   "property": "C96",
   "status": "proved",
   "theorems": [
    "Verif.QP.qp_optimal_certificate_rounded",
    "Verif.QP.solveQPR_exact",
    "Verif.QP.approxKKTR_zero",
    "Verif.QP.approxKKTR_near_minimiser",
    "Verif.QP.floatArith_rounds",
    "Verif.QP.qp_optimal_certificate_float_inexact"
   ],
   "note": "Without polishing; relative error model (no overflow, underflow, NaN), positive square roots. Instance: p-bit binary floating point, round to nearest even."
  },
  {
   "property": "C97",
   "status": "partial",
   "theorems": [
    "Verif.QP.qp_own_warmstart_differs",
    "Verif.QP.qp_own_warmstart_unscaled_partial",
    "Verif.QP.qp_own_warmstart_certificate",
    "Verif.QP.solveAt_copy"
   ],
   "note": "False of the code with scaling: z_ is computed from the primal that was just scaled in place (witness). The same without scaling; an Optimal result is certified as in C01 either way."
  },
  {
   "property": "C98",
   "status": "proved",
   "theorems": [
    "Verif.EKF.ekf_rounded_symmetric",
    "Verif.EKF.ekf_rounded_upper_Q",
    "Verif.EKF.ekf_rounded_upper_R",
    "Verif.EKF.ekf_rounded_exact"
   ],
   "note": "No assumption on the arithmetic; no overflow or NaN in the sense that every operation yields a value."
  },
  {
   "property": "C99",
   "status": "partial",
   "theorems": [
    "Verif.EKF.ekf_rounded_predict_hangs",
    "Verif.EKF.ekf_rounded_predict_returns_partial",
    "Verif.EKF.ekf_rounded_predict_default",
    "Verif.EKF.ekf_rounded_update_breaks_psd",
    "Verif.EKF.ekf_rounded_update_psd_partial"
   ],
   "note": "False of the code: non-termination for more than 2^(p+1) steps (all systems), indefinite covariance in double precision (witness). Proved: returns when the rounding unit resolves the step; one step for the default argument; definite up to explicit errors."
  },
  {
   "property": "C100",
   "status": "proved",
   "theorems": [
    "Verif.QP.qp_scaling_entries",
    "Verif.QP.qp_scaling_zero",
    "Verif.QP.qp_scaling_balanced"
   ],
   "note": "Exact arithmetic and square root. Whether eleven rounds balance every problem is not claimed."
  },
  {
   "property": "C101",
   "status": "proved",
   "theorems": [
    "Verif.OQP.lq_exact",
    "Verif.OQP.lq_minimiser",
    "Verif.OQP.onMesh_poly"
   ],
   "note": "Vector spaces (no Lie bracket term), exact derivatives and quadrature rule by contract."
  },
  {
   "property": "C102",
   "status": "partial",
   "theorems": [
    "Verif.OQP.lq_solved_partial",
    "Verif.OQP.lq_returns",
    "Verif.OQP.lq_never_optimal",
    "Verif.QP.qp_upper_stuck",
    "Verif.QP.qp_upper_never_returns"
   ],
   "note": "False of the code for integrands with products of different variables: the stopping test reads P without mirroring its upper triangle, so the solver never stops even at the exact solution (witness). Proved for separable integrands."
  },
  {
   "property": "C103",
   "status": "proved",
   "theorems": [
    "Verif.DI.ocpDi_dr",
    "Verif.DI.di_qp_solves_nlp",
    "Verif.DI.di_unique",
    "Verif.DI.di_example"
   ],
   "note": "Exact arithmetic. Certificate with polishing off (the example has it on, see C02)."
  },
  {
   "property": "C104",
   "status": "proved",
   "theorems": [
    "Verif.QP.qp_polish_nonsingular",
    "Verif.QP.qp_polish_succeeds",
    "Verif.QP.qp_polish_residual",
    "Verif.QP.qp_polish_converges",
    "Verif.QP.qp_polish_identifies",
    "Verif.QP.qp_row_weights"
   ],
   "note": "Exact arithmetic; LDLT that succeeds on nonsingular matrices. Says nothing about the rows not taken as active (C02)."
  },
  {
   "property": "C105",
   "status": "proved",
   "theorems": [
    "Verif.QP.qp_infeasible_iff",
    "Verif.QP.qp_minimiser_iff",
    "Verif.QP.qp_unbounded_iff",
    "Verif.QP.qp_classes",
    "Verif.QP.qp_solvable",
    "Verif.QP.qp_terminates_solvable",
    "Verif.QP.qp_converges_iff",
    "Verif.QP.qp_infeasible_recognised",
    "Verif.QP.qp_unbounded_recognised",
    "Verif.QP.qp_optimal_only_solvable"
   ],
   "note": "Over the reals. Unbounded programs with a row without bounds: see C92."
  },
  {
   "property": "C106",
   "status": "partial",
   "theorems": [
    "Verif.ASIF.asif_rounded_program_partial",
    "Verif.ASIF.asif_rounded_times",
    "Verif.ASIF.asif_rounded_rows",
    "Verif.ASIF.asif_rounded_returns_iff",
    "Verif.ASIF.asif_rounded_default_late",
    "Verif.ASIF.asif_rounded_hangs",
    "Verif.ASIF.toQPR_exact"
   ],
   "note": "False of the code: with the default parameters in double precision constraint 6 is evaluated at 0.7 instead of 0.6 (witness); unresolved steps never return. Proved: returns when the rounding unit resolves the step; every constraint late by at most one step up to three roundings; the rows are those of the rounded schedule."
  },
  {
   "property": "C107",
   "status": "proved",
   "theorems": [
    "Verif.Mesh.degrees_restored_iff",
    "Verif.Mesh.refine_errors_finer_iff",
    "Verif.Mesh.transfer_exact",
    "Verif.Mesh.transfer_exact_iff",
    "Verif.NLP.warm_start",
    "Verif.NLP.refine_loop",
    "Verif.NLP.refine_loop_second",
    "Verif.NLP.refine_transfer_iff",
    "Verif.NLP.refine_split_loses"
   ],
   "note": "Exact arithmetic; transcription and Ipopt together are a parameter that returns solutions of the right size with a nonzero final time."
  },
  {
   "property": "C108",
   "status": "partial",
   "theorems": [
    "Verif.ASIF.asif_never_enforces",
    "Verif.ASIF.asif_slack_price",
    "Verif.ASIF.asif_violation_bound_partial",
    "Verif.ASIF.asif_call_violates",
    "Verif.ASIF.di_rest_safe",
    "Verif.ASIF.di_filter_accelerates",
    "Verif.ASIF.di_loop_outside",
    "Verif.ASIF.di_loop_leaves",
    "Verif.ASIF.di_loop_exits",
    "Verif.ASIF.di_loop_runs"
   ],
   "note": "False of the code: the quadratic price of the slack is never exact, so whenever the filter has to change an admissible input the result violates a barrier condition; the example leaves its safe set (theorems). Proved: bounds on the violation. Exact arithmetic, optimal results of an exact solver, positive weights."
  },
  {
   "property": "C109",
   "status": "partial",
   "theorems": [
    "Verif.NLP.nlp_costates_partial",
    "Verif.NLP.stationary_iff_costates",
    "Verif.NLP.costates_scale",
    "Verif.NLP.nlp_costates_wrong",
    "Verif.NLP.nlp_costates_violated",
    "Verif.NLP.nlp_costates_two_meshes",
    "Verif.NLP.wScaling_gt_one",
    "Verif.MeshFn.by_parts"
   ],
   "note": "False of the code: the multipliers of dynamics, integrals and running constraints are those of the problem divided by w_scaling_ (theorem for every mesh with two or more points, and a witness). Proved: stationary exactly if the rescaled multipliers satisfy the conditions of the problem. Vector spaces, exact arithmetic."
  },
  {
   "property": "C110",
   "status": "proved",
   "theorems": [
    "Verif.MPC.mpc_always_returns",
    "Verif.MPC.mpc_unique",
    "Verif.MPC.call_always",
    "Verif.MPC.step_always",
    "Verif.MPC.history_always",
    "Verif.MPC.wInv_fuel",
    "Verif.MPC.step_fuel",
    "Verif.QP.Solver.solve_fuel",
    "Verif.QP.loop_fuel"
   ],
   "note": "Exact arithmetic. Factorisations are parameters that satisfy their specification."
  },
  {
   "property": "C111",
   "status": "proved",
   "theorems": [
    "Verif.QP.qp_error_bound",
    "Verif.QP.qp_error_bound_abs",
    "Verif.QP.qp_error_bound_unique",
    "Verif.QP.qp_answers_converge",
    "Verif.QP.qp_solutions_stable",
    "Verif.QP.qp_answers_stable",
    "Verif.QP.kkt_error_bound",
    "Verif.Hoffman.hoffman",
    "Verif.Hoffman.margin"
   ],
   "note": "Exact arithmetic, polishing off. The constant depends on the matrices only, the threshold on the program."
  },
  {
   "property": "C112",
   "status": "partial",
   "theorems": [
    "Verif.QP.qp_threshold_primal",
    "Verif.QP.qp_threshold_strict",
    "Verif.QP.qp_threshold_dual_partial",
    "Verif.QP.qp_threshold_convex_partial",
    "Verif.QP.qp_small_tolerances_solve",
    "Verif.QP.qp_threshold_emptyRow",
    "Verif.QP.qp_small_tolerances_emptyRow",
    "Verif.QP.qp_dual_infeasible_strictly_convex"
   ],
   "note": "False of the code for DualInfeasible: an iteration that does not move is reported as unboundedness, also for strictly convex programs with default parameters (witness). Proved: everything else, and the whole claim if some row has two finite bounds. Exact arithmetic."
  },
  {
   "property": "C113",
   "status": "partial",
   "theorems": [
    "Verif.QP.qp_relabel_partial",
    "Verif.QP.qp_free_row_orientation",
    "Verif.QP.relabel_polish",
    "Verif.QP.relabel_loop"
   ],
   "note": "False of the code for rows without bounds: turned round, such a row changes whether the solver returns (witness). Proved for every rewriting that keeps the sign of those rows. Exact arithmetic, LDLT that succeeds on nonsingular matrices, same clock readings."
  },
  {
   "property": "C114",
   "status": "partial",
   "theorems": [
    "Verif.MPC.mesh_rounded_partial",
    "Verif.MPC.mesh_double_ten",
    "Verif.MPC.mesh_rounded_collapses",
    "Verif.MPC.runR_id",
    "Verif.MPC.uniformR_start",
    "Verif.MPC.interval_nodes_rounded",
    "Verif.MPC.all_nodes_rounded",
    "Verif.MPC.weights_rounded",
    "Verif.MPC.flBits_binary"
   ],
   "note": "False of the code: many refinements in double leave an interval of width zero (witness). Proved: order, exact ends and nodes for every history; strict order for histories with few refinements. No overflow or underflow; LGR tables, log and lround external."
  },
  {
   "property": "C115",
   "status": "proved",
   "theorems": [
    "Verif.MPC.mpc_error_bound",
    "Verif.MPC.mpc_small_tolerances_solve",
    "Verif.MPC.program_det",
    "Verif.MPC.robust_shift",
    "Verif.MPC.ex_robust",
    "Verif.QP.flatMult_shifted"
   ],
   "note": "Exact arithmetic, polishing off, relative tolerance zero. The constant depends on the situation, not on the history or the solver."
  },
  {
   "property": "C116",
   "status": "partial",
   "theorems": [
    "Verif.OQP.qpsol_no_warm_start",
    "Verif.OQP.qpsol_integral_unset",
    "Verif.OQP.qpsol_warm_start_partial",
    "Verif.OQP.di_warm_start",
    "Verif.NLP.ocpsolToNlpsol_samples"
   ],
   "note": "False of the code: the record has swapped sizes, empty multiplier functions and unset integrals, so ocpsol_to_nlpsol fails on it for every problem. Proved: times, states and inputs are right, and the completed record is the point of the nonlinear program. Flat problems."
  },
  {
   "property": "C117",
   "status": "proved",
   "theorems": [
    "Verif.PID.pid_frame",
    "Verif.EKF.ekf_frame",
    "Verif.ASIF.asif_frame",
    "Verif.Frame.pid_left",
    "Verif.Frame.ekf_left",
    "Verif.Frame.asif_left",
    "Verif.Frame.derivative_moved"
   ],
   "note": "The reference of the PID is set before the first call, the EKF is reset first (defaults are not moved). Exact arithmetic."
  },
  {
   "property": "C118",
   "status": "partial",
   "theorems": [
    "Verif.MPC.mpc_frame_partial",
    "Verif.MPC.mpc_frame_wrong",
    "Verif.MPC.crFrames_timed",
    "Verif.MPC.mpc_left",
    "Verif.MPC.vec_frame",
    "Verif.MPC.program_frame"
   ],
   "note": "False of the code for running constraints without set_time, which are linearised at the default elements: moving the frame makes a solvable call infeasible (witness). Proved for all others, with the controller's own QP solver. Exact arithmetic; the same clock readings in corresponding solves."
  },
  {
   "property": "C119",
   "status": "partial",
   "theorems": [
    "Verif.EKF.ekf_covers_partial",
    "Verif.EKF.ekf_update_statistics",
    "Verif.EKF.ekf_optimistic",
    "Verif.EKF.ekf_predict_gap",
    "Verif.EKF.ekf_predict_wrong",
    "Verif.EKF.ekf_update_best",
    "Verif.EKF.ekf_update_monotone"
   ],
   "note": "False of the code for predictions: the forward step makes the covariance too small by dt^2 A P A^T (theorem and witness). Proved for updates, and for predictions whose stated process noise covers the dropped term. Vector spaces, linear systems, exact arithmetic; optimality and monotonicity of the update on every manifold."
  },
  {
   "property": "C120",
   "status": "proved",
   "theorems": [
    "Verif.MPC.mpc_double",
    "Verif.MPC.mpc_double_any",
    "Verif.MPC.di_call",
    "Verif.MPC.di_determines",
    "Verif.MeshFn.slope_bound",
    "Verif.QP.qp_square_verdict"
   ],
   "note": "Exact arithmetic; collocation rule, polynomial basis and linear solver by their specifications (instances exist and are given). Termination of the QP solver is not bounded in iterations. The example with its own parameters and 1200 turns is instantiated for every initial state."
  },
  {
   "property": "C121",
   "status": "partial",
   "theorems": [
    "Verif.SE2.se2_derivatives_partial",
    "Verif.SE2.se2_hessian_lacks_time",
    "Verif.SE2.integral_jacAt",
    "Verif.SE2.integral_hessAt",
    "Verif.SE2.ce_drAt",
    "Verif.SE2.dyn_dr",
    "Verif.SE2.cr_dr",
    "Verif.SE2.theta_dr"
   ],
   "note": "False for the second derivatives of the integrand by time (ocp_se2.hpp:121), everything else proved. The smooth library by its specification; regular points only (the logarithm inverts the exponential nearby and dr_exp is invertible)."
  },
  {
   "property": "C122",
   "status": "proved",
   "theorems": [
    "Verif.PIDSe2.pid_se2_motion",
    "Verif.PIDSe2.pid_se2_converges",
    "Verif.PIDSe2.turn_near",
    "Verif.PIDSe2.V_turn",
    "Verif.PIDSe2.next_deriv",
    "Verif.PIDSe2.dr_coeffs"
   ],
   "note": "Convergence is local: the start of the example itself (identity, at rest) is far from the trajectory and saturates the inputs, convergence from there is not claimed. Exact arithmetic; a stage of the integrator is the state plus the weighted sum of derivatives (smooth's odeint operations by assumption)."
  },
  {
   "property": "C123",
   "status": "proved",
   "theorems": [
    "Verif.MPC.mpc_robust",
    "Verif.MPC.mpc_admissible",
    "Verif.MPC.mpc_input_limits_solved",
    "Verif.MPC.mesh_lengths",
    "Verif.MeshFn.colloc_solve",
    "Verif.MeshFn.colloc_unique",
    "Verif.MeshFn.colloc_zero",
    "Verif.MeshFn.poly_zero"
   ],
   "note": "The threshold for the tolerances depends on the situation (system, trajectory, time, state), not on the history; no value is given. Polishing off and exact arithmetic, as in C115."
  },
  {
   "property": "C124",
   "status": "proved",
   "theorems": [
    "Verif.Vehicle.vehicle_moderate",
    "Verif.Vehicle.vehicle_flow",
    "Verif.Vehicle.backup_iff",
    "Verif.Vehicle.backup_admissible",
    "Verif.Vehicle.filter_feasible",
    "Verif.Vehicle.safe_deriv",
    "Verif.Vehicle.safe_centre",
    "Verif.Vehicle.xdes_deriv",
    "Verif.Vehicle.desired_input",
    "Verif.Vehicle.vehicle_admissible",
    "Verif.Vehicle.vehicle_mpc_solved",
    "Verif.Vehicle.vehicle_follows",
    "Verif.Vehicle.vehicle_program_solved",
    "Verif.ASIF.asif_near_call",
    "Verif.Vehicle.veh_good"
   ],
   "note": "Exact arithmetic. Nothing is claimed about the distance to the obstacle: the barrier conditions are softened and discretised (C45, C47, C108). The tolerances for the predictive controller depend on time and state."
  },
  {
   "property": "C125",
   "status": "proved",
   "theorems": [
    "Verif.ASIF.asif_always_returns",
    "Verif.QP.qp_soft_verdict",
    "Verif.QP.softened_farkas",
    "Verif.QP.diagonal_dual",
    "Verif.ASIF.withQP_near",
    "Verif.Vehicle.vehicle_steep",
    "Verif.Vehicle.vehicle_filter_optimal",
    "Verif.Vehicle.vehicle_runs",
    "Verif.Vehicle.veh_runs"
   ],
   "note": "Exact arithmetic and no polishing, as the example sets it. The theorem about the whole run asks for relative tolerance zero: with the default 1/1000 the residual of the input rows is relative to the input of the predictive controller, which is not bounded a priori."
  },
  {
   "property": "C126",
   "status": "proved",
   "theorems": [
    "Verif.ASIF.di_run_exact",
    "Verif.ASIF.di_loop_ideal",
    "Verif.ASIF.ideal_unique",
    "Verif.ASIF.ideal_exceeds",
    "Verif.ASIF.di_run_optimal",
    "Verif.ASIF.di_as_written",
    "Verif.ASIF.di_steep",
    "Verif.ASIF.di_call_close",
    "Verif.ASIF.di_loop_close",
    "Verif.ASIF.di_run_modelled"
   ],
   "note": "Exact arithmetic. The size of the tolerance below which the modelled solver exceeds both limits is not calculated; C127 shows for the default 1/1000 that the position limit is exceeded."
  },
  {
   "property": "C127",
   "status": "proved",
   "theorems": [
    "Verif.ASIF.di_run_default",
    "Verif.ASIF.di_as_written_exceeds",
    "Verif.ASIF.di_loop_exceeds",
    "Verif.ASIF.di_loop_pushed",
    "Verif.ASIF.di_call_push",
    "Verif.ASIF.di_call_low",
    "Verif.ASIF.di_near"
   ],
   "note": "Exact arithmetic, polishing off as in the example. The speed limit is exceeded only by less than the tolerance and is not claimed."
  },
  {
   "property": "C128",
   "status": "proved",
   "theorems": [
    "Verif.SE2.se2_qp_best",
    "Verif.SE2.se2_qp_returns",
    "Verif.SE2.se2_qp_accurate",
    "Verif.SE2.numbers",
    "Verif.SE2.best_unique",
    "Verif.SE2.error_solve",
    "Verif.SE2.qpLin_vel"
   ],
   "note": "Exact arithmetic; automatic differentiation of xdes enters as its closed form, shown to be the velocity. Optimal is claimed for small tolerances without polishing (C02, C112)."
  },
  {
   "property": "C129",
   "status": "proved",
   "theorems": [
    "Verif.SE2.straight_feasible",
    "Verif.SE2.se2_nlp_cost",
    "Verif.SE2.se2_flat_derivatives",
    "Verif.SE2.se2_nlp_no_hessian",
    "Verif.SE2.se2_nlp_run",
    "Verif.SE2.collocated_iff",
    "Verif.SE2.plane_regular"
   ],
   "note": "Exact arithmetic. That Ipopt returns, with a feasible vector at angles less than a full turn, is a hypothesis; that it finds a minimum is not claimed."
  },
  {
   "property": "C130",
   "status": "proved",
   "theorems": [
    "Verif.DI.di_nlp_best",
    "Verif.DI.di_nlp_hessian",
    "Verif.DI.di_nlp_run",
    "Verif.DI.di_nlp_same",
    "Verif.DI.moves_iff",
    "Verif.DI.slope_quad",
    "Verif.DI.ease_feasible"
   ],
   "note": "Exact arithmetic. That Ipopt returns with an exact solution is a hypothesis of the run."
  },
  {
   "property": "C131",
   "status": "proved",
   "theorems": [
    "Verif.Snippets.ekf_snippet",
    "Verif.Snippets.ekf_snippet_velocity",
    "Verif.Snippets.posterior_pd",
    "Verif.Snippets.seen_deriv",
    "Verif.Snippets.pid_snippet",
    "Verif.Snippets.wall_deriv",
    "Verif.Snippets.asif_snippet",
    "Verif.Snippets.snippet_ufn",
    "Verif.Snippets.mpc_snippet"
   ],
   "note": "Exact arithmetic; group functions, quadrature and linear solver are parameters with the stated properties."
  },
  {
   "property": "C132",
   "status": "partial",
   "theorems": [
    "Verif.Snippets.qp_snippet_partial",
    "Verif.Snippets.qp_snippet_crossed",
    "Verif.Snippets.qp_snippet_wrong",
    "Verif.QP.qp_zero_any"
   ],
   "note": "False of the code: for a matrix that is not positive semidefinite a maximiser can be reported as Optimal (witness). Proved: return for symmetric positive semidefinite draws, the verdict for crossed bounds."
  },
  {
   "property": "C133",
   "status": "proved",
   "theorems": [
    "Verif.QP.qp_any_factorisation",
    "Verif.QP.loop_same",
    "Verif.QP.factor_same"
   ],
   "note": "Exact arithmetic."
  },
  {
   "property": "C134",
   "status": "proved",
   "theorems": [
    "Verif.Bench.draw_convex",
    "Verif.Bench.draw_feasible",
    "Verif.Bench.draw_infeasible",
    "Verif.Bench.draw_unique",
    "Verif.Bench.sparse_values",
    "Verif.Bench.sparse_near",
    "Verif.Bench.work_returns",
    "Verif.Bench.dense_sparse",
    "Verif.Bench.bench_run",
    "Verif.Bench.osqp_given",
    "Verif.Bench.batch_counts",
    "Verif.Bench.compare_sound",
    "Verif.Bench.compare_same",
    "Verif.Bench.plotted"
   ],
   "note": "Exact arithmetic; random numbers, clock, norm and OSQP are parameters; printing and plots are left out."
  },
  {
   "property": "C135",
   "status": "proved",
   "theorems": [
    "Verif.QP.qp_primal_infeasible_rounded",
    "Verif.QP.qp_primal_infeasible_rounded_zero",
    "Verif.QP.qp_slack_rounded",
    "Verif.QP.qp_dual_infeasible_rounded",
    "Verif.QP.qp_convex_rounded",
    "Verif.QP.certificates_zero",
    "Verif.QP.flat_run_float"
   ],
   "note": "No overflow, underflow or NaN; polishing off."
  },
  {
   "property": "C136",
   "status": "proved",
   "theorems": [
    "Verif.PID.pid_bounded_any_arithmetic",
    "Verif.PID.pid_drift",
    "Verif.PID.pid_output_rounded",
    "Verif.PID.pid_rounded_exact",
    "Verif.PID.pid_dead_zone",
    "Verif.PID.line_dead",
    "Verif.PID.line_exact"
   ],
   "note": "Differences of the group and of times are given numbers; no overflow, underflow or NaN."
  },
  {
   "property": "C137",
   "status": "partial",
   "theorems": [
    "Verif.Time.time_plus_rounded",
    "Verif.Time.time_plus_undefined",
    "Verif.Time.time_plus_overflow",
    "Verif.Time.time_minus_rounded",
    "Verif.Time.time_minus_undefined",
    "Verif.Time.time_plus_mono",
    "Verif.Time.time_double_rounded",
    "Verif.Time.time_rounded_exact",
    "Verif.Time.time_relative_rounded",
    "Verif.Time.time_step_partial",
    "Verif.Time.time_step_double_partial",
    "Verif.Time.time_step_short",
    "Verif.Time.time_step_past",
    "Verif.Time.time_step_stuck",
    "Verif.Time.time_plus_long",
    "Verif.Time.time_double_lost"
   ],
   "note": "The code does not meet the last claim (arrival); the rest is proved. Infinite and not-a-number durations are not modelled."
  },
  {
   "property": "C138",
   "status": "proved",
   "theorems": [
    "Verif.NLP.nlp_tolerance_iff",
    "Verif.NLP.nlp_tolerance_sharp",
    "Verif.NLP.nlp_tolerance_amplified"
   ],
   "note": "Exact arithmetic; the tolerance is that with which Ipopt accepts a point."
  },
  {
   "property": "C139",
   "status": "proved",
   "theorems": [
    "Verif.OQP.ocp_qp_tolerance_iff",
    "Verif.OQP.ocp_qp_optimal_near",
    "Verif.OQP.ocp_qp_curvature_sharp",
    "Verif.OQP.curved_solved"
   ],
   "note": "Exact arithmetic, polishing off (with polishing the certificate of C01 fails, see C02); the bound on the true constraints is for states in R^n."
  },
  {
   "property": "C140",
   "status": "proved",
   "theorems": [
    "Verif.OQP.ocp_qp_tolerance_lie",
    "Verif.OQP.ocp_qp_optimal_near_lie",
    "Verif.OQP.ocp_qp_curvature_sharp_lie",
    "Verif.OQP.gzero_solved"
   ],
   "note": "Exact arithmetic, polishing off (with polishing the certificate of C01 fails, see C02); the end constraints must not depend on the integral for the statement about the true ones."
  },
  {
   "property": "C141",
   "status": "proved",
   "theorems": [
    "Verif.MPC.program_near",
    "Verif.MPC.mpc_optimal_near",
    "Verif.MPC.mpc_optimal_affine",
    "Verif.MPC.ex_near",
    "Verif.MPC.ex_affine"
   ],
   "note": "Exact arithmetic, polishing off (with polishing the certificate of C01 fails, see C02)."
  },
  {
   "property": "C142",
   "status": "proved",
   "theorems": [
    "Verif.ASIF.asif_best_unique",
    "Verif.ASIF.asif_best_exists",
    "Verif.ASIF.asif_error_bound",
    "Verif.ASIF.asif_small_tolerances_solve",
    "Verif.ASIF.car_near"
   ],
   "note": "Exact arithmetic, polishing off (with polishing the certificate of C01 fails, see C02). Barrier condition as the filter states it (C47, C49 for what that means)."
  },
  {
   "property": "C143",
   "status": "proved",
   "theorems": [
    "Verif.EKF.ekf_repeat_variance",
    "Verif.EKF.ekf_repeat_estimate",
    "Verif.EKF.ekf_repeat_consistent",
    "Verif.EKF.swing_filter"
   ],
   "note": "Vector-space states and linear sensors; exact solver for the gain (SolveOk)."
  },
  {
   "property": "C144",
   "status": "proved",
   "theorems": [
    "Verif.EKF.ekf_information_bound",
    "Verif.EKF.ekf_information_sum",
    "Verif.EKF.ekf_update_sensor_bound",
    "Verif.EKF.square_information"
   ],
   "note": "Exact arithmetic and exact solver for the gain; the covariance is that of the tangent coordinates, the filter does not transport it when the estimate moves."
  },
  {
   "property": "C145",
   "status": "proved",
   "theorems": [
    "Verif.EKF.ekf_repeat_mean_square",
    "Verif.EKF.coins_mean_square"
   ],
   "note": "Second moments on a finite probability space; exact arithmetic and exact solver for the gain."
  },
  {
   "property": "C146",
   "status": "proved",
   "theorems": [
    "Verif.PID.pid_equilibrium",
    "Verif.PID.pid_saturates",
    "Verif.PID.pid_no_steady_error",
    "Verif.PID.halving_steady",
    "Verif.PID.stuck_saturates"
   ],
   "note": "Exact arithmetic (in floating point the integral has a dead zone, see C136)."
  },
  {
   "property": "C147",
   "status": "proved",
   "theorems": [
    "Verif.EKF.ekf_predict_first_order",
    "Verif.EKF.ekf_predict_linear_first_order",
    "Verif.EKF.decay_flow",
    "Verif.EKF.decay_predicted"
   ],
   "note": "Exact arithmetic, vector space, Euler stepper (the default). The first-order gap is real: see C119 for what one step loses."
  },
  {
   "property": "C148",
   "status": "proved",
   "theorems": [
    "Verif.ASIF.asif_lookahead_steps",
    "Verif.ASIF.asif_lookahead_first_order",
    "Verif.ASIF.asif_program_flow",
    "Verif.ASIF.chase_flow",
    "Verif.ASIF.chase_safe"
   ],
   "note": "Exact arithmetic and vector spaces; the sensitivity on groups is C49."
  },
  {
   "property": "C149",
   "status": "proved",
   "theorems": [
    "Verif.PID.pid_tracks",
    "Verif.PID.pid_tracks_exactly",
    "Verif.PID.critical_loop",
    "Verif.PID.critical_tracks",
    "Verif.PID.undamped_loop",
    "Verif.PID.undamped_energy"
   ],
   "note": "Exact arithmetic; vector space; the controller is evaluated in continuous time."
  },
  {
   "property": "C150",
   "status": "proved",
   "theorems": [
    "Verif.ASIF.asif_invariant",
    "Verif.ASIF.asif_invariant_exact",
    "Verif.ASIF.finder_exact",
    "Verif.ASIF.wall_call",
    "Verif.ASIF.wall_guarded",
    "Verif.ASIF.wall_bound",
    "Verif.ASIF.wall_passed"
   ],
   "note": "Exact arithmetic and exact solver; the filter is evaluated in continuous time. For the solver with tolerances see C142."
  },
  {
   "property": "C151",
   "status": "proved",
   "theorems": [
    "Verif.PID.pid_sampled_tracks",
    "Verif.PID.pid_sampled_unstable",
    "Verif.PID.default_gains_sampled"
   ],
   "note": "Exact arithmetic, vector space, no integral gain."
  },
  {
   "property": "C152",
   "status": "proved",
   "theorems": [
    "Verif.ASIF.asif_sampled_invariant",
    "Verif.ASIF.wall_sampled",
    "Verif.ASIF.wall_sampled_bound"
   ],
   "note": "Exact arithmetic and exact solver."
  },
  {
   "property": "C153",
   "status": "proved",
   "theorems": [
    "Verif.EKF.ekf_update_balance",
    "Verif.EKF.ekf_balance",
    "Verif.EKF.ekf_noiseless",
    "Verif.EKF.ekf_error_information",
    "Verif.EKF.ekf_error_bound",
    "Verif.EKF.reading_balance",
    "Verif.EKF.bal_converges"
   ],
   "note": "Exact arithmetic and exact solver."
  },
  {
   "property": "C154",
   "status": "proved",
   "theorems": [
    "Verif.PID.pid_sampled_offset",
    "Verif.PID.pid_windup_offset",
    "Verif.PID.pid_integral_learns",
    "Verif.PID.pushed_settles",
    "Verif.PID.resting_offset",
    "Verif.PID.held_learned"
   ],
   "note": "Exact arithmetic."
  },
  {
   "property": "C155",
   "status": "proved",
   "theorems": [
    "Verif.EKF.update_contracts",
    "Verif.EKF.ekf_forgets",
    "Verif.EKF.ekf_forgets_direction",
    "Verif.EKF.bal_forgets"
   ],
   "note": "Exact arithmetic and exact solver."
  },
  {
   "property": "C156",
   "status": "proved",
   "theorems": [
    "Verif.PID.cubic_tends",
    "Verif.PID.pid_sampled_rejects",
    "Verif.PID.returned_rejects"
   ],
   "note": "Exact arithmetic. That the conditions are also necessary is not claimed."
  }
 ]
}