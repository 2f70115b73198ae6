# DESIGN

Formal model of `pettni/smooth_feedback` (C++20, `/repo`) in Lean 4 with Mathlib, and proofs of the properties listed in
`properties.jsonl`.

## Layout

* `lean/Verif/Model/*.lean`: the model, function by function, each definition citing the `/repo` file and lines.
* `lean/Verif/Spec/*.lean`: small independent specifications, and the assumptions on external code.
* `lean/Verif/Proofs/*.lean`: helper lemmas and concrete environments.
* `lean/Verif/Props/*.lean`: property theorems, each with a concrete case that meets its hypotheses.
* `MANIFEST.json`: property to theorem names and status. `seeded/LOG.jsonl`: mutation log, one line per edited model.

## Trusted base

* The Lean 4.33.0 kernel and the axioms `propext`, `Classical.choice`, `Quot.sound`; no others (the gate checks every theorem).
* The reading of the C++ source: the code is not built or run here.
* **Scalars.** `double` is idealised as an exact ordered field (generic `F`, or the reals where calculus or square roots are
  needed). Rounding is modelled only in second models of the QP solver, of the Kalman filter, of `asif_to_qp`, of the mesh, of the PID controller and of times (`Model/QPRound.lean`, `Model/EKFRound.lean`, `Model/ASIFRound.lean`, `Model/MeshRound.lean`, `Model/PIDRound.lean`, `Model/TimeRound.lean`, C96, C98, C99, C106, C135, C136, C137), with any relative error
  bound; numbers of p bits rounded to nearest even are an instance (`Proofs/QPFloat.lean`). Overflow, underflow and NaN are not
  modelled. Infinite bounds are an explicit extended type.
* **External code** is a parameter with recorded assumptions: Eigen's factorisations, boost's Euler stepper, the `smooth`
  library (Lie groups, automatic differentiation, LGR nodes and weights, Lagrange bases, interval search), the clock, Ipopt, OSQP.
* Undefined behaviour and non-termination are distinct outcomes (`none`, `undef`, fuel that never suffices), not assumed away.

## What is modelled, and what is not

* `pid.hpp`: everything except the spline evaluation behind `set_xdes` (a parameter).
* `time.hpp`, `compat/ros.hpp`: both traits. `Model/TimeRound.lean` is `time.hpp` with rounded `double` and 64-bit ticks (overflow is an outcome of its own).
* `ekf.hpp`: everything; the stepper is any explicit Runge-Kutta method of boost given by its coefficients (`euler`, `runge_kutta4`, ...). `Model/EKFRound.lean` is the filter in rounded arithmetic. Not
  modelled: steppers that keep something between calls (such as the reuse of the last slope in `runge_kutta_dopri5`).
* `qp.hpp`, `qp_solver.hpp`: `solve_qp`, `QPSolver::analyze/solve/scale/check_stopping`, `detail::polish_qp`, the state that
  survives between calls (sparse case). `Model/QPRound.lean` is the solver without polishing
  in rounded arithmetic, with the 2^32 wrap of the iteration counter. Not modelled: verbose printing, a
  default-constructed solver used without `analyze`, the dense object's buffers (its values are those of `solveQP`).
* `collocation/mesh.hpp`, `collocation/dyn_error.hpp`: everything; `N_colloc` without the 32-bit wrap. `lagrange_basis`,
  `lgr_nodes`, `binary_interval_search` are external by contract; `monomial_derivative` and `polynomial_basis_derivatives` are
  written out. The contracts are met by a concrete environment over the reals for every
  number of points (`Proofs/LGR.lean`, C95) and by a computable one over any field for one and two (`Proofs/MeshEnv.lean`).
* `utils/sparse.hpp`: `block_add`, `block_write`, the identity versions, `set_zero`, `count_explicit_zeros`,
  `mark_explicit_zeros`, `d2r_fog`; compression state and storage order of the destination are not observable.
* `collocation/mesh_function.hpp`: `mesh_eval`, `mesh_integrate`, `mesh_dyn` for `Deriv = 0, 1, 2`, with states and inputs in
  vector spaces (as in flattened problems). `diff::dr` is external by contract (`IsDr`: exact partial derivatives in Eigen
  matrices). `reserve` is invisible. The documentation of `mesh_dyn` omits the factor `tf - t0` in front of `f`; the theorem
  follows the code.
* `ocp.hpp`, `ocp_to_nlp.hpp`: the layout, the bounds, the object `OCPNLP` with all its buffers as a state machine (`f`, `df_dx`,
  `d2f_dx2`, `g`, `dg_dx`, `d2g_dx2`), `nlpsol_to_ocpsol`, `ocpsol_to_nlpsol`, for flat problems (`FlatOCPType`). The static
  assertions `Nx, Nu, Nq, Ncr, Nce > 0` are only used where a theorem says so. `test_ocp_derivatives` (`Model/OCPTest.lean`) with the
  random points and the derivatives as parameters.
* `ocp_to_qp.hpp`: everything, with `Nq = 1`, once for flat problems (`Model/OCPQP.lean`) and once for any Lie groups (`Model/OCPQPLie.lean`): `ocp_to_qp_allocate`, `_update_cost`, `_update_dyn`,
  `_update_cr`, `_update_ce`, `_update`, `ocp_to_qp`, `qpsol_to_ocpsol`. The linearisation point is given by the values of
  `xl, dxl, ul`; the derivative of `xl` (`diff::dr` in the code) is a parameter. Two findings next to C33 and C34: only the upper
  triangle of `P` is stored while the solver multiplies with the raw `P` (`ocp_qp_lower_zero` with C13), and entries of the
  end-constraint Jacobian that are no longer stored stay in `A` (`qp_update_stale`).
* `mpc.hpp`: everything, with states and inputs in any Lie groups and running constraints in a vector space: the functors `MPCDyn`, `MPCCR`, `MPCIntegrand`,
  `MPCObj`, `MPCCE`, the constructor, defaulted copies and assignments (the trajectories are cells on a heap, since they are held by
  `std::shared_ptr`), `operator()`, `set_xdes`, `set_xdes_rel` (through `relDes`), `set_udes`, `set_weights`, `reset_warmstart`. The
  QP solver is a parameter of `Model/MPC.lean`; in `Model/MPCSolver.lean` it is the modelled solver object, made from its parameters, analysed in
  the constructor and reused, copied and assigned with the controller (a solve that is undefined and one that does not return are not told
  apart there; the linear algebra and the clock are the same functions in every call). The time type is any type with `plus`; the desired velocity (`diff::dr` of the desired trajectory) is a
  parameter. Moved-from objects are not modelled.
* `asif_func.hpp`, `asif.hpp`, `common.hpp` (`ManifoldBounds`): everything, on arbitrary manifolds given by `rplus`, `rminus`, `ad`. The dynamics,
  the barrier and the backup controller are records of values and derivatives. `boost`'s Euler stepper is `x + dt * dx/dt`. `asif_to_qp` does
  not pass its differentiation method `DT` on to `asif_to_qp_update` (249-257); with exact derivatives this cannot be seen. The documentation of
  the filter counts the constraints `k = 0..K`; the code writes `K` of them, `k = 0..K-1`.
* `compat/osqp.hpp`: everything but the verbose flag's printing; OSQP is a parameter. The stray `#endif` in line 155 keeps the header from
  compiling as it stands; the model is of the code without it. `settings->warm_start` is set after the setup (a dead store).
* `compat/ipopt.hpp`, `nlp.hpp`: everything; Ipopt is the list of callbacks it makes. Integer and numeric options reach Ipopt as they are and
  are not looked at by the wrapper; only string options are modelled.
* `ocp_flatten.hpp`: everything. The smooth library is a record (`LieOps`) with a specification (`IsLie`), for which
  instances are given: vectors, SO(2), SO(3), SE(2), SE(3) and their products (`Props/LieClassical.lean`), where `log` is any local inverse. `U` is taken to be a Lie group (the
  code calls `Ad<U>` and `exp<U>`). `unflatten_ocpsol` copies `lambda_dyn`: the flattened defect is `dr_expinv(e)` times the original one
  (`flat_defect`), so the copied multipliers belong to the flattened dynamics unless `e = 0`. `flatten_ocp` stores references to
  `xl` and `ul` (`Xl = decltype(xl)`), `unflatten_ocpsol` copies them; the model takes trajectories that the caller keeps unchanged.
* `examples/ocp_doubleintegrator.hpp` with the set-up of `ocp_doubleintegrator_qp.cpp` (`Model/DoubleInt.lean`), `main` of `ocp_doubleintegrator_nlp.cpp` without the test of derivatives, clocks, output and plots (`Model/DoubleNLP.lean`, Ipopt as the list of its callbacks), `main` of `ocp_se2_qp.cpp` without clocks, output and plots (`Model/SE2QP.lean`, the derivative of `xdes` in closed form), `main` of `ocp_se2_nlp.cpp` in the same way (`Model/SE2NLP.lean`, Ipopt as the list of its callbacks), and the refinement loop of `ocp_se2_nlp.cpp` and `ocp_doubleintegrator_nlp.cpp` (`Model/MeshRefine.lean`, transcription and Ipopt as one parameter), `asif_doubleintegrator.cpp` and `mpc_doubleintegrator.cpp` (`Model/ASIFDouble.lean`, `Model/MPCDouble.lean`; plotting and printing left out), `ocp_se2.hpp` (`Model/SE2Ocp.lean`), `pid_se2.cpp` (`Model/PIDSe2.lean`) `mpc_asif_vehicle.cpp` (`Model/Vehicle.lean`), `snippets.cpp` (`Model/Snippets.lean`) and the benchmarks without flags, printing and plots (`Model/Bench.lean`); the tests are not.

## Per property: what is modelled, how it is proved, the result

* **C01 Optimal status certifies the KKT conditions to tolerance**. `Verif/Model/QPSolver.lean` models solve/check_stopping on exact scalars; invariant on every iterate (z in bounds, sign complementarity), then unfold the stop test.
  * *proved*: `QP.qp_optimal_certificate`. Polishing off (C02 covers polishing). No assumption on the linear solver or on convexity; exact arithmetic.
* **C02 Polished Optimal solutions still satisfy the tolerances**. Full run of the model with default parameters as a witness against the claim (the polish result is not re-checked); partial statement on the pre-polish iterate and on exact refinement.
  * *partial*: `QP.qp_refinement_residual`, `QP.qp_polished_optimal_violates`, `QP.qp_polished_optimal_partial`. False of the code: with default parameters min 5e-4 x on [-1,1] returns x = -2500 as Optimal (witness). Partial: pre-polish iterate certified; exact refinement satisfies the active rows and stationarity up to the activity threshold.
* **C03 Optimal points are near-minimisers of the objective**. Convexity argument from the C01 certificate.
  * *proved*: `QP.qp_optimal_near_minimiser`, `QP.qp_optimal_exact_minimiser`. Convex problems, polishing off.
* **C04 Warm starting from an exact solution returns that solution**. Induction on the iteration count: an exact KKT pair is a fixed point of the scaled step; stop test passes with zero residual.
  * *proved*: `QP.qp_warm_start_stays`, `QP.qp_warm_start_exact`. Convex, polishing off, stop_check_iter >= 2, exact linear solver.
* **C05 Stationary solver iterates are exact solutions**. Algebra on the fixed-point equations of the step.
  * *proved*: `QP.qp_stationary_is_kkt`, `QP.qp_stationary_is_minimiser`. 
* **C06 PrimalInfeasible is only reported for infeasible problems**. False of the code (the tolerance test is not a certificate): full run as witness. Partial: zero-tolerance (exact Farkas) certificates are sound; quantitative exclusion for positive tolerance.
  * *partial*: `QP.qp_primal_infeasible_unsound`, `QP.qp_primal_infeasible_partial`, `QP.qp_primal_infeasible_zero_tol`. False of the code for positive tolerances (witness with default parameters); sound for zero tolerance, quantitative exclusion otherwise.
* **C07 DualInfeasible is only reported for unbounded or infeasible problems**. False of the code: full run of the model. Partial: exact recession directions with negative slope are sound.
  * *partial*: `QP.qp_dual_infeasible_unsound`, `QP.qp_dual_infeasible_partial`, `QP.qp_dual_infeasible_strictly_convex`. False of the code (witnesses with default parameters, one of them strictly convex); partial: exact certificates are sound. See also C112.
* **C08 Iteration budget and exit-code logic**. Outcome of the loop by induction on fuel; decision logic of the final code.
  * *proved*: `QP.qp_budget_terminates`, `QP.qp_exit_code_meaning`, `QP.qp_unknown_iff`, `QP.qp_max_iterations_iff`. stop_check_iter = 0 is undefined behaviour (modulo by zero) and excluded.
* **C09 Stopping criteria are evaluated every stop_check_iter iterations**. False for stop_check_iter=1: witness (never checks, loop without max_iter never ends). Partial for stop_check_iter>=2.
  * *partial*: `QP.qp_stop_check_one_diverges`, `QP.qp_checks_in_every_window_partial`, `QP.qp_time_limit_ends_partial`. False for stop_check_iter = 1: never checks, never ends (proved); proved for stop_check_iter >= 2.
* **C10 Trivially empty bounds are detected before iterating**. Decision logic of the pre-check.
  * *proved*: `QP.qp_empty_row_infeasible`, `QP.qp_zero_iter_infeasible`, `QP.triviallyEmpty_iff`. 
* **C11 Internal problem scaling does not change the problem**. Positivity invariant of the scaling loop; equivalence of scaled/unscaled feasibility, objective, KKT.
  * *proved*: `QP.qp_scaling_positive`, `QP.qp_scaling_defined_iff`, `QP.qp_scaling_empty_undefined`, `QP.qp_scaling_equivalent`, `QP.qp_unscaling_bijective`, `QP.qp_scaled_iteration`, `QP.qp_warm_start_round_trip`. Scaling with no variables or no constraints is undefined (Eigen maxCoeff/mean of an empty vector); proved.
* **C12 A failed polish is reported as PolishFailed**. False of the code: the code is overwritten; proved that PolishFailed is never returned.
  * *partial*: `QP.qp_never_polish_failed`, `QP.qp_polish_failure_reported_optimal`, `QP.qp_polish_failure_keeps_solution_partial`. False of the code: PolishFailed is never returned (proved for all inputs).
* **C13 Only the upper triangle of P is used**. False of the code: witness where only the strict lower triangle differs. Partial: the factored matrix depends only on the upper triangle.
  * *partial*: `QP.qp_lower_triangle_matters`, `QP.qp_lower_triangle_same_iterates_partial`. False of the code (witness); the iterates agree without scaling.
* **C14 A solver object can be reused**. The sparse solver object as a state machine (`Model/QPReuse.lean`): every history of analyze, copy, solve on one pattern leaves the result of the next solve as for a fresh object.
  * *proved*: `QP.qp_reuse_history_independent`, `QP.qp_reuse_two_histories`, `QP.qp_reuse_new_pattern_undefined`. Sparse solver object, one pattern. After analyze for another pattern the next solve is undefined (proved).
* **C15 Mesh invariant**. Invariant by induction over the operation list.
  * *proved*: `Mesh.mesh_invariant`, `Mesh.mesh_ops_return`. 1 <= Kmin <= Kmax; every history of mutating operations.
* **C16 refine_ph divides exactly as documented**. Refinement to a specification of the sub-division; the degree of the first part is not Kmin in the code: witness and partial.
  * *partial*: `Mesh.refine_ph_partial`, `Mesh.refine_ph_parts_cover`, `Mesh.refine_ph_first_part_differs`, `Mesh.refine_ph_reaches`. False of the code: in a split the first part keeps its old degree, the documentation says Kmin (witness). Everything else proved.
* **C17 refine_errors refines exactly the intervals above target**. Refinement: reverse-order in-place edits equal an independent per-interval map.
  * *proved*: `Mesh.refine_errors_exact`, `Mesh.refine_errors_keeps_breakpoints`, `Mesh.refine_errors_adds_points`, `Mesh.growth_formula_pos`. Kmin >= 1. The rounded logarithm is a parameter; for one-point intervals log(1) = 0 makes it unspecified in the code.
* **C18 Mesh nodes are ordered, complete and start/end at 0/1**. Structural induction over intervals, for every family of reference nodes satisfying the LGR facts.
  * *proved*: `Mesh.nodes_complete`. For every family of reference nodes meeting IsLGR.
* **C19 Quadrature weights integrate exactly**. Same, weights; affine change of variables for exactness.
  * *proved*: `Mesh.quadrature_exact`, `Mesh.weights_nonneg_sum_one`, `Mesh.quadrature_integral`. For every family of reference rules meeting IsLGR.
* **C20 Trajectory evaluation interpolates**. Lagrange interpolation over a field, lookup by C22.
  * *proved*: `Mesh.eval_interpolates`, `Mesh.eval_polynomial`, `Mesh.eval_polynomial_last`. External: lagrange_basis and binary_interval_search by contract.
* **C21 Differentiation and integration matrices are exact**. Derivative of Lagrange basis; invertibility by a degree/root-count argument.
  * *proved*: `Mesh.diff_int_matrices_exact`. External: LGR nodes and lagrange_basis by contract.
* **C22 Interval lookup returns the containing interval**. From the documented contract of smooth's binary_interval_search (external, parameter).
  * *proved*: `Mesh.interval_find_correct`. External: binary_interval_search by contract.
* **C23 Dynamics error estimate vanishes on exact solutions**. From C20/C21 exactness.
  * *proved*: `Mesh.dyn_error_nonneg`, `Mesh.dyn_error_zero_iff`. Exact real arithmetic.
* **C24 mesh_eval value, Jacobian and Hessian**. Sparse accumulation block by block (`Model/MeshFn.lean`); the result is compared with partial derivatives (`fderiv`) of an explicit function of all variables over the reals.
  * *proved*: `MeshFn.mesh_eval_exact`. States and inputs are vectors; diff::dr by contract (IsDr), which every C^2 function meets (drOf_isDr).
* **C25 mesh_integrate value, Jacobian and Hessian**. As C24, with the product rule for the factor tf - t0.
  * *proved*: `MeshFn.mesh_integrate_exact`, `MeshFn.mesh_integrate_no_outputs`. As C24. Without outputs and with second derivatives a fresh buffer is allocated from an empty pattern and reads out of range (proved).
* **C26 mesh_dyn value, Jacobian and Hessian**. As C24, plus an induction over the intervals for the walking loop; the slopes are shown to be derivatives of the interpolating polynomials.
  * *proved*: `MeshFn.mesh_dyn_exact`, `MeshFn.mesh_dyn_defect`. As C24. mesh_dyn_defect ties the differentiation matrices to derivatives of piecewise polynomials. Degrees at least one.
* **C27 Output buffers can be reused**. Every call leaves numbers that C24-C26 determine, whatever usable buffer it started from; induction over the history.
  * *proved*: `MeshFn.buffers_reusable`. Any list of calls with the same number of rows.
* **C28 NLP feasibility equals discretised OCP feasibility**. Segment arithmetic (positions of variables and constraints as bijections) plus positivity of weights; the object is run after an arbitrary history of calls.
  * *proved*: `NLP.nlp_layout`, `NLP.nlp_constraints`, `NLP.nlp_objective`, `NLP.nlp_feasible_iff`. After any history of calls. Flat problems (FlatOCPType); LGR rule by contract.
* **C29 NLP first derivatives are exact**. Chain rule from C24-C26; size invariant on the object by induction over histories.
  * *proved*: `NLP.nlp_df_exact`, `NLP.nlp_dg_exact`. After any history of calls; diff::dr by contract (IsDr, IsDrE), which every C^2 function meets (drOf_isDr, drE_isDr).
* **C30 NLP Hessians are exact**. False of the code (x-q cross blocks dropped): witness; partial without cross terms.
  * *partial*: `NLP.nlp_d2f_exact_partial`, `NLP.nlp_d2g_exact_partial`, `NLP.nlp_hessians_exact`, `NLP.nlp_d2f_wrong`. False of the code: second derivatives by an integral variable and a state are dropped (witness objective x(0) q). Everything else is exact, and all of it for problems without such derivatives.
* **C31 OCP/NLP solutions round-trip**. From C20 and a version of it for values without end point; loop invariant over the nodes. False as stated for zl, zu: witness.
  * *partial*: `NLP.ocp_nlp_roundtrip_partial`, `NLP.ocp_nlp_roundtrip_loses`. x and lambda come back exactly; the multipliers zl, zu of the variable bounds are lost (witness).
* **C32 QP feasibility equals linearised OCP feasibility**. Entry formulas for the assembled matrix, then row sums against first-order expansions (`taylor1`) of dynamics and constraints; the rows are a bijection.
  * *proved*: `OQP.ocp_qp_feasible`, `OQP.qp_layout`. Flat problems with or without the adjoint of the linearisation; diff::dr by contract. The end constraint's integral argument is frozen at one, as in the code.
* **C33 QP cost is the second-order model of the OCP cost**. False of the code (end cost scaled 0.5): witness. Partial: exact formula for the cost of the program in terms of first and second derivatives of the cost along trajectories; equal to the expansion when the end-cost Hessian is zero.
  * *partial*: `OQP.ocp_qp_cost_partial`, `OQP.ocp_qp_cost_exact`, `OQP.ocp_qp_cost_wrong`, `OQP.ocp_qp_lower_zero`. False of the code: the Hessian of the end cost enters with an extra factor 1/2 (witness). The partial theorem gives the exact cost of the program; it is the second-order expansion whenever the end cost has no second derivatives.
* **C34 In-place QP updates equal a fresh conversion**. Size and pattern invariant by induction over histories of partial updates; the values after an update are determined. Witness that stale entries stay when the pattern changes.
  * *proved*: `OQP.qp_update_fresh`, `OQP.qp_update_stale`. After any history of whole and partial updates, if the end-constraint Jacobian stores the same entries at every update; without that the claim fails (witness).
* **C35 Flattened OCP is equivalent**. State space: any group of units of a finite-dimensional algebra with the functions of the smooth library (`IsLie`, met by vectors, the Heisenberg group, all invertible matrices, and by every linear group with a chart: `lin_isLie`, with the rotations SO(2), SO(3), the rigid motions SE(2), SE(3), unitary groups, translations and products of these, `Props/LieLinear.lean`, `Props/LieClassical.lean`). Product rule for the velocity of `xl ⊕ e`; conversely a chart argument shows that `e` is differentiable if `xl ⊕ e` is. Whole problems, solutions and optimality.
  * *proved*: `Flatten.flatten_equivalent`, `Flatten.flat_dynamics`, `Flatten.flat_defect`, `Flatten.unflatten_admissible`, `Flatten.unflatten_optimal`, `Lie.lin_isLie`, `Lie.se2_isLie`, `Lie.se3_isLie`. All trajectories with continuous error that stays where the exponential map is regular.
* **C36 Bernoulli coefficients of the flattened Hessian**. Whole table compared with Mathlib's `bernoulli`. Meaning: the velocity of the exponential along a ray satisfies a linear ODE, which gives the series of `dr_exp`; the Cauchy product with the Bernoulli series is one; zeta values bound the remainder.
  * *proved*: `Flatten.bernoulli_table`, `Flatten.bernoulli_table_field`, `Flatten.dr_expinv_series`, `Flatten.dr_expinv_nilpotent`, `Flatten.so3_dr_expinv_series`. Table, convergence of the series and error of its truncation after the table.
* **C37 Second-order chain rule helper**. Second derivative of composition with Mathlib calculus.
  * *proved*: `Sparse.d2r_fog_exact`. Two-argument chain rule with exact derivative data of the factors; dense or sparse.
* **C38 Sparse block operations touch exactly the block**. Entry-function refinement of the triplet loops.
  * *partial*: `Sparse.block_add_exact`, `Sparse.block_add_out_of_range`, `Sparse.block_write_partial`, `Sparse.block_write_full`, `Sparse.block_write_skips_structural_zeros`, `Sparse.block_add_identity_exact`, `Sparse.block_write_identity_exact`, `Sparse.set_zero_exact`, `Sparse.count_explicit_zeros_exact`, `Sparse.mark_explicit_zeros_exact`. block_write does not write structural zeros of the source (witness), so dest = scale*source only holds for fully stored sources; the other operations are proved.
* **C39 MPC weights take effect**. `Verif/Model/MPC.lean`: objects over a heap of desired trajectories, histories of constructor, copy, assignment, setter and `operator()` calls. Invariant on every reachable object (`Obj.Ok`), then the exact program of each call (`mpc_program`), on any Lie groups. False of the code: `mpc_weights_ignored`, `mpc_weights_wrong`; partial: `mpc_weights_partial`.
  * *partial*: `MPC.mpc_weights_ignored`, `MPC.mpc_weights_wrong`, `MPC.mpc_weights_partial`, `MPC.mpc_program`, `MPC.mpc_follows`. False of the code: set_weights changes neither the program nor any returned input, after any history. Witness against the documented cost; the partial theorem says for which weights the program is the documented one. mpc_program gives the exact program of every call, on any Lie groups.
* **C40 MPC terminal weight penalises the terminal state**. As C39: exact Hessian of the terminal cost for any weight (`mpc_terminal_hessian`); false of the code (`mpc_terminal_ignored`, `mpc_weights_wrong` with the default weights).
  * *partial*: `MPC.mpc_terminal_ignored`, `MPC.mpc_terminal_hessian`, `MPC.mpc_weights_wrong`, `MPC.mpc_weights_partial`. False of the code: the Hessian is written to the block of the first state, so the final state is never weighed and the first one is.
* **C41 MPC input weight is fully used**. Exact Hessian of the running cost for any weights by induction over the block writes (`mpc_input_hessian`); false of the code (`mpc_input_weight_wrong`, `mpc_construct_iff`); partial when Q is nonzero where R is.
  * *partial*: `MPC.mpc_input_hessian`, `MPC.mpc_input_weight_partial`, `MPC.mpc_input_weight_wrong`, `MPC.mpc_construct_iff`. False of the code: an entry of R is only used where Q has a nonzero entry, and with more inputs than states the constructor reads Q out of range. Exact Hessian for all weights; partial where Q has no zeros where R has none.
* **C42 MPC running constraints hold for the actual input**. From `mpc_program` and an exact solver. False: `mpc_running_wrong`; partial: `mpc_running_partial` for constraints that are re-linearised; `mpc_running_deviation` says what is bounded instead.
  * *partial*: `MPC.mpc_running_partial`, `MPC.mpc_running_deviation`, `MPC.mpc_running_wrong`. False of the code: constraints without set_time stay linearised around the default elements, so they bound the deviation (witness: |u| <= 1, Optimal, u >= 4). Partial: constraints with set_time, or desired trajectories that are at the default elements at the nodes.
* **C43 MPC copies are independent**. Heap model of the shared pointers: `mpc_copy_shared`, `mpc_copy_wrong` against it; frame theorem `mpc_copy_partial` over every operation.
  * *partial*: `MPC.mpc_copy_partial`, `MPC.mpc_no_share`, `MPC.mpc_copy_shared`, `MPC.mpc_copy_wrong`, `MPC.mpc_copy_same`. False of the code: copies share the desired trajectories (witness). Partial: any other operation on any other object leaves the results of an object alone, and so do setters on objects that share nothing.
* **C44 MPC output and warm start logic**. State machine; induction over call histories.
  * *proved*: `MPC.mpc_output`, `MPC.mpc_call_defined`, `MPC.mpc_reset`, `MPC.mpc_new_cold`, `MPC.mpc_warm_kept`. After any history; the solver is a parameter. LGR nodes by contract.
* **C45 ASIF QP is feasible whenever the input set is**. The feasible set of the built program is described exactly (`asif_program`); an explicit slack.
  * *proved*: `ASIF.asif_feasible`, `ASIF.asif_feasible_iff`, `ASIF.asif_program`. Any manifold; the construction must end (C48).
* **C46 ASIF is minimally invasive**. From `asif_program`: the cost is a positive definite form that vanishes only at zero; histories of filter calls as a state machine; the solver is a parameter that is exact when it says Optimal.
  * *proved*: `ASIF.asif_zero_unique`, `ASIF.asif_passes`, `ASIF.asif_safe`, `ASIF.asif_optimal_call`. Any history of calls; solver exact when it says Optimal (C68 for the library's own). Input constraints exactly for inputs in a vector space. Barrier condition as the filter states it (C47, C49 for what that means).
* **C47 ASIF enforces the barrier at the documented look-ahead times**. False: witness with T = 2, K = 2, dt = 7/10 (second constraint at 7/5). Partial: exact condition on dt for all times to be right, and k*tau <= t_k < k*tau+dt always (`asif_schedule`).
  * *partial*: `ASIF.asif_times_wrong`, `ASIF.asif_times_partial`, `ASIF.asif_schedule`. False of the code: witness. Right exactly if K <= 1 or tau is a whole number of steps min(dt, tau); otherwise late by less than one step.
* **C48 ASIF integration terminates and covers the horizon**. The steps are described by an independent rule (`Schedule`), shown to exist by the Archimedean property; the loops of the model follow it; converse for dt <= 0.
  * *proved*: `ASIF.asif_schedule`, `ASIF.asif_terminates_iff`, `ASIF.asif_program`. With dt <= 0, T > 0, K >= 1 it never ends (proved).
* **C49 ASIF sensitivity is the derivative of the flow**. False for nonlinear systems: witness x' = x^2+u (the code evaluates the Jacobian at the new state), and on SO(3) for a constant velocity (1 - ad(e w) instead of Ad(exp(-e w)), which keeps lengths). Partial, over the reals, on every Lie group in the sense of `IsLie`: the right derivative of the Euler steps is the product of Ad(exp(-e f)) + e dr_exp(e f) Df = 1 + e dr_exp(e f)(Df - ad f) at the old states; first-order error bound of the filter's product against it (series of dr_exp, discrete Gronwall), needed only on the states passed; the derivative of the barrier along every motion with a given velocity; so feasible corrections satisfy the true barrier condition up to the slack and a term of order dt. Vector spaces separately: equal for affine closed loops.
  * *partial*: `ASIF.asif_sens_wrong`, `ASIF.asif_group_sens_wrong`, `ASIF.asif_exact_sens`, `ASIF.asif_sens_partial`, `ASIF.asif_sens_error`, `ASIF.asif_barrier_derivative`, `ASIF.asif_group_sens`, `ASIF.rd_unique`, `ASIF.asif_group_sens_error`, `ASIF.asif_group_barrier`, `ASIF.asif_group_condition`. False of the code for nonlinear closed loops (witness 5 instead of 3), and on rotations already for a constant velocity (any step length). Partial, on every matrix Lie group: the exact derivative of the steps; the filter's sensitivity is off by at most a constant times dt; what its rows say about the true barrier condition. Equal for affine closed loops in a vector space.
* **C50 ASIF results do not depend on earlier calls' problem data**. Every update writes all entries that can be nonzero: invariant over histories, equality with a freshly allocated program.
  * *proved*: `ASIF.asif_call_program`, `ASIF.asif_history_irrelevant`, `ASIF.asif_update_size`. 
* **C51 EKF covariance stays symmetric**. Invariant over operations.
  * *proved*: `EKF.ekf_covariance_symmetric`, `EKF.ekf_covariance_symmetric_from_init`. Every explicit Runge-Kutta stepper.
* **C52 EKF covariance stays positive semidefinite**. Predict: false, witness; update part proved.
  * *partial*: `EKF.ekf_update_psd_and_decreasing`, `EKF.ekf_predict_step_identity`, `EKF.ekf_predict_step_psd_partial`, `EKF.ekf_predict_breaks_psd`. Update half proved; predict half false of the code (witness), proved when process noise dominates the Euler error.
* **C53 EKF measurement fusion is order independent and Bayes-optimal**. Matrix inversion lemma.
  * *proved*: `EKF.ekf_fusion_information_form`, `EKF.ekf_fusion_order_independent`, `EKF.ekf_fusion_bayes_optimal`. Linear measurements, vector-space state.
* **C54 EKF prediction covers exactly the requested time**. Loop model with fuel; exact sum; non-termination witness for tau<0.
  * *partial*: `EKF.ekf_predict_covers_interval`, `EKF.ekf_predict_default_single_step`, `EKF.ekf_predict_negative_time_hangs`, `EKF.ekf_predict_nonpositive_dt_hangs`. Proved for dt > 0, and for the default dt with tau >= 0; for tau < 0 (default dt) or dt <= 0 the code never returns (proved).
* **C55 EKF uses only the upper triangle of Q and R**. Congruence.
  * *proved*: `EKF.ekf_predict_upper_Q`, `EKF.ekf_update_upper_R`. 
* **C56 PID anti-windup bound**. Invariant over operations.
  * *proved*: `PID.pid_integral_bounded`, `PID.pid_integral_term_bounded`. Any history; limit nonnegative (a negative limit pins the integral: pid_negative_limit_pins_integral).
* **C57 PID control law**. Refinement to a closed-form sum/fold over the history.
  * *proved*: `PID.pid_output_law`, `PID.pid_gains_do_not_disturb_integral`, `PID.pid_zero_error`. Refinement to a history-only specification.
* **C58 PID integrates each instant at most once**. False for non-monotone times: witness; partial for monotone times.
  * *partial*: `PID.pid_integrates_elapsed_time_once_partial`, `PID.pid_counts_time_twice_when_clock_goes_back`. False for clocks that go backwards (witness); proved for non-decreasing call times.
* **C59 Time arithmetic round-trips**. Integer ticks with truncation.
  * *proved*: `Time.time_float_roundtrip`, `Time.time_tick_roundtrip`, `Time.time_tick_arrives`, `Time.time_tick_order`. Idealised floats; integer ticks without overflow.
* **C60 Ipopt Hessian and structure callbacks agree**. Invariant over all callback histories: the stored positions of `H_` are the union of the patterns, the state of the problem keeps its invariant. The structure list is the transpose of the entries, the value list is in the same order, and the triplets sum to `sigma d2f + d2g` transposed. Needs a fixed pattern; without it a write past the buffer is proved.
  * *partial*: `Ipopt.ipopt_hessian_partial`, `Ipopt.ipopt_lagrangian`, `Ipopt.ipopt_hessian_overflow`. All callback histories, all NLPs that always store the same positions. False without that: witness (write past the end).
* **C61 Ipopt status mapping**. Induction over the callbacks: only `finalize_solution` changes the solution. Decision table for the last status. `Optimal` for an acceptable point, and for runs without a result, are proved as violations.
  * *partial*: `Ipopt.ipopt_status`, `Ipopt.ipopt_optimal_partial`, `Ipopt.ipopt_acceptable_optimal`, `Ipopt.ipopt_no_result_optimal`, `Ipopt.ipopt_walltime`. The translation is proved for every run. False of the code: STOP_AT_ACCEPTABLE_POINT is reported as Optimal; without a result the status of the warm start (or an uninitialised one) comes back.
* **C62 OSQP failures are not reported as success**. OSQP is a parameter (setup, warm start, solve, info, all error codes as 64-bit words). False of the code (`error &=`): for every error code of solve. Partial for setup errors.
  * *partial*: `OSQP.osqp_error_partial`, `OSQP.osqp_solve_error_ignored`, `OSQP.osqp_solve_error_optimal`, `OSQP.osqp_setup_undefined`, `OSQP.osqp_outcome`. False of the code: `error &= osqp_solve(...)` keeps 0 whatever osqp_solve returns, so a failed solve can come back as Optimal (proved for every error code); a setup that fails validation leaves the workspace uninitialised and cleans it up (undefined). Partial: a failed setup that sets the workspace gives Unknown.
* **C63 OSQP problem equals the given problem**. The compressed columns handed to OSQP are compared entry by entry with the given problem; the upper triangle stands for the symmetric matrix. False for dense entries below `1e-18` (prune with reference `1e-6` and the default precision): witness.
  * *partial*: `OSQP.osqp_problem_wrong`, `OSQP.osqp_problem_partial`, `OSQP.osqp_problem_sparse`, `OSQP.osqp_entries`, `OSQP.osqp_upper`, `OSQP.osqp_optimal`, `OSQP.documented_eq`. False for dense entries below 1e-18 (they are dropped): witness. Partial: the same problem if no entry is that small (dense) and for every sparse problem.
* **C64 Input bound sets are shifted correctly**. Linear algebra of the shifted bounds, read off the built program.
  * *proved*: `ASIF.asif_input_rows`, `ASIF.asif_program`. 
* **C65 Active-set bookkeeping of the polish step**. Index-list model of the two counters.
  * *proved*: `QP.qp_polish_active_set`, `QP.qp_polish_other_rows`, `QP.qp_polish_bounds_finite`. 
* **C66 Derivative evaluation on a mesh**. Exact formula for every order, witness for order one.
  * *partial*: `Mesh.eval_derivative_scaled`, `Mesh.eval_polynomial`. False of the code for p >= 1: the derivative is with respect to the local coordinate in [-1,1], off by the factor ((b-a)/2)^p (witness and exact formula).
* **C67 Solution of the quadratic program on the trajectory**. From C20 (interpolation) and its version for values without end point.
  * *proved*: `OQP.qpsol_nodes`. LGR rule, lagrange_basis and binary_interval_search by contract; final time not zero.
* **C68 Safe inputs pass through the filter unchanged**. The pair (0, 0) is a fixed point of the solver, and polishing keeps it (no active rows, regularised matrix nonsingular); then induction over the history of calls. Linear algebra of Eigen by assumption, met by an exact environment over the reals for all sizes.
  * *proved*: `ASIF.asif_pass_exact`, `QP.qp_zero_exact`. Exact arithmetic; Eigen's LDLT by assumption (SolverOk, met over the reals).
* **C69 OSQP settings follow the parameters**. Settings compared field by field; validation failure as an assumption on the library (OSQP 0.6 validates before it sets the workspace).
  * *partial*: `OSQP.osqp_settings`, `OSQP.osqp_setup_undefined`, `OSQP.osqp_time_zero`. Settings as documented (proved). False of the code for rejected parameters: undefined (proved for every library that validates). max_time = 0 means no limit.
* **C70 Ipopt first-order callbacks**. Same invariant as C60; gradient, values and Jacobian triplets.
  * *proved*: `Ipopt.ipopt_first_order`. 
* **C71 Ipopt bounds**. Ipopt reads bounds from `1e19` on as infinite (its options `nlp_lower_bound_inf`, `nlp_upper_bound_inf`).
  * *proved*: `Ipopt.ipopt_bounds`, `Ipopt.ipopt_bounds_large`. Larger finite bounds are read as infinite: witness.
* **C72 Ipopt options and starting point**. Options are lists of key-value pairs, the last one wins in Ipopt, the first one in the wrapper. Starting point from the invariant of C60.
  * *partial*: `Ipopt.ipopt_start`, `Ipopt.ipopt_cold_start`, `Ipopt.ipopt_hessian_option_partial`, `Ipopt.ipopt_default_hessian`, `Ipopt.ipopt_two_values`. Starting point proved. False of the code without the option hessian_approximation: Ipopt's default is exact, the wrapper announces an empty Hessian and asserts when asked.
* **C73 Fixed sparsity pattern of the transcribed program**. Stored positions as a relation between two runs (`MRel`, `PInv`): every object reachable by calls stores at most the positions of one reference call, and after a derivative call exactly these. Assumption `FixedOCP` on the derivative records (`Spec/Pattern.lean`), met by dense ones.
  * *proved*: `Ipopt.nlp_pattern`. 
* **C74 Optimal control problems through the Ipopt interface**. Composition: C73 and C28-C30 make the transcribed program an instance of the hypotheses of C60 and C70 (`ocp_steady`); then the triplets are identified with partial derivatives of the collocated problem. Without the condition on mixed derivatives the Hessian is not exact (C30).
  * *proved*: `Ipopt.ipopt_ocp_hessian`, `Ipopt.ipopt_ocp_first_order`, `Ipopt.ipopt_ocp_feasible`. For problems without mixed second derivatives by integrals and states (otherwise C30 applies).
* **C75 Derivatives of flattened functions**. The objects with their buffers as a state machine; entry formulas for the block products; chain rule for maps into a group (`HasMv`, `HasRd`). The time-time entry of the Hessian lacks the acceleration of the reference: exact formula for all inputs, witness.
  * *partial*: `Flatten.flat_inner_jacobian`, `Flatten.flat_inner_hessian`, `Flatten.flat_inner_exact_partial`, `Flatten.flat_inner_hessian_wrong`, `Flatten.flat_endpt_jacobian`, `Flatten.flat_endpt_hessian`, `Flatten.flat_endpt_exact_partial`. Jacobians proved. False of the code for the second derivative by time when the reference accelerates (witness; the missing term is stated for all inputs); all derivatives are right for references of constant velocity.
* **C76 Flattened functions do not depend on earlier calls**. Invariant on the buffers (sizes and stored positions), then the numbers after a call are determined by its arguments.
  * *proved*: `Flatten.flat_inner_history`, `Flatten.flat_endpt_history`, `Flatten.flat_dyn_history`. 
* **C77 Jacobian of the flattened dynamics**. As C75, with the product rule for `dr_expinv`. The time column lacks the acceleration of the reference: exact formula, witness.
  * *partial*: `Flatten.flat_dyn_jacobian`, `Flatten.flat_dyn_jacobian_exact_partial`, `Flatten.flat_dyn_jacobian_wrong`. Derivatives by error and input proved. False of the code for the derivative by time when the reference accelerates (witness; the missing term is stated for all inputs).
* **C78 Hessian of the flattened dynamics**. Induction over the loop of the series: values, Jacobians and Hessians of the iterates; the result holds the second derivatives of the dynamics with the truncated series, which is the dynamics for nilpotent groups. For other groups the remainder is a power series in ad(e), differentiated twice term by term (Proofs/PowSeries.lean), which bounds the error of the Hessian while ad(e) is below 2π.
  * *partial*: `Flatten.flat_dyn_hessian`, `Flatten.flat_dyn_hessian_error`, `Flatten.flat_dyn_hessian_half_turn`, `Flatten.flat_dyn_hessian_so3`, `Flatten.flat_dyn_hessian_const_partial`, `Flatten.flat_dyn_hessian_nilpotent_partial`, `Flatten.flat_dyn_exact_partial`, `Flatten.flatten_exact_partial`, `Flatten.flat_dyn_hessian_wrong`. False as stated: rows and columns of time lack the acceleration of the references (flat_dyn_hessian_wrong). Second derivatives by error and input: exact for the dynamics with the series up to B22 (all groups) and on groups with nilpotent ad; in general the error of the truncation is bounded wherever ad(e) is smaller than 2 pi in some norm, with numbers for half a turn and for SO(3). With references of constant velocity the rows and columns of time are right too.
* **C79 The QP solver terminates on solvable convex programs**. The step is an averaged operator in a weighted norm (`Proofs/QPConv.lean`): the distance to a solution falls by a multiple of the step size, step sizes do not grow, residuals are bounded by the step size; then the loop ends at a check.
  * *proved*: `QP.qp_terminates`, `QP.qp_terminates_optimal`, `QP.qp_eventually_optimal`, `QP.qp_rate`. Exact arithmetic and linear solver (the hypotheses on it are met by an exact one on every convex program). The code is Optimal, PrimalInfeasible or DualInfeasible (the last two can be wrong, C06 and C07); Optimal if the infeasibility tolerances are zero and a row has two finite bounds.
* **C80 The QP solver's iterates converge to a solution**. Fejer monotonicity, compactness, and closedness of the KKT conditions (`Props/QPConvReal.lean`).
  * *proved*: `QP.qp_iterates_converge`, `QP.qp_residuals_vanish`. Over the reals.
* **C81 Quadratic program on Lie groups: constraints**. The program for groups is the program of a problem in local coordinates (`Proofs/OCPQPLie.lean`), whose rows are known from C31/C32; the first-order expansion of `dr_exp(e)^-1 (f - Ad dx_lin)` at `e = 0` gives the rows with `ad` (`Props/OCPQPLie.lean`).
  * *proved*: `OQP.ocp_qp_feasible_lie`, `OQP.err_dynamics`, `OQP.errDyn_hasPd`, `Lie.lin_isLie`, `Lie.pose_velocity_isLie`. Any groups that satisfy the laws of Spec/Lie.lean; the flag for commutative groups must be right.
* **C82 Quadratic program on Lie groups: objective**. False of the code, for two reasons: the end cost error of C33, and the right Hessian of a function on a non-commutative group is not symmetric while only its upper triangle is read (`Props/OCPQPLieExamples.lean`, `ocp_qp_cost_lie_wrong`). Partial: the exact error for all problems (`skewCost`), hence the claim where the groups commute or the gradients vanish.
  * *partial*: `OQP.ocp_qp_cost_lie_partial`, `OQP.ocp_qp_cost_lie_exact`, `OQP.ocp_qp_cost_lie_wrong`. False of the code: the right Hessian on a non-commutative group is not symmetric and only its upper triangle is used (witness on the Heisenberg group), besides the error of C33. The error is stated exactly for all problems; the claim holds where the groups commute or the gradients vanish and the end cost has no second derivatives.
* **C83 Quadratic program on Lie groups: returned trajectory**. Interpolation at the nodes (C18), as for C67.
  * *proved*: `OQP.qpsol_nodes_lie`. 
* **C84 MPC starts at the current state**. From the initial condition of the program: `rminus` of the desired by the current state is the negative of the deviation, and `exp` inverts signs (`IsLie.rplus_neg`), on any group.
  * *proved*: `MPC.mpc_start`. With an exact solver; after any history, on any group that satisfies the laws of Spec/Lie.lean.
* **C85 MPC horizon follows the linearised error dynamics**. The program of a call (`mpc_program`) holds exactly for deviations whose defects vanish for the first-order expansion of the velocity of the error `dr_exp(e)^-1 (f(xd + e, ud + v) - Ad_{exp(-e)} dxd)` (`errVel`, which is that of the error of every trajectory, `OQP.err_dynamics`); in coordinates `errVel_sum`. A complete run on the Heisenberg group (`heis_run`), vectors as a special case (`vec_horizon`).
  * *proved*: `MPC.mpc_program`, `MPC.errVel_sum`, `MPC.vec_horizon`, `MPC.heis_run`. The flag for commutative groups and the pattern of dr_expinv must be right (Sys.IsLie). The objective is that of C39.
* **C86 EKF steppers act on state and covariance together**. Stages of the method as lists of slopes; induction over the stages: the code steps the state as in the coupled equation, and the covariance with the state frozen. False for several stages (witness with `runge_kutta4`); partial for one stage or a linearisation that does not depend on the state.
  * *partial*: `EKF.ekf_stepper_partial`, `EKF.ekf_predict_joint_partial`, `EKF.ekf_stepper_wrong`. False of the code for steppers with several stages: the covariance is stepped with the state frozen (witness with runge_kutta4: 7 instead of more than 11). Proved for one stage (the default) and for linearisations that do not depend on the state; the state alone is always right.
* **C87 Derivative test of optimal control problems**. Unfolding of the loop into a conjunction over trials and derivatives; entry bound from the Frobenius norm. False for small `eps` (the relative tolerance is fixed): witness.
  * *partial*: `OCPTest.test_exact_passes`, `OCPTest.test_detects_partial`, `OCPTest.test_fails`, `OCPTest.test_eps_wrong`, `OCPTest.test_nothing`. False of the code for small eps: a relative deviation of 1e-4 passes whatever eps (witness: off by 1 with eps = 1e-6). No false alarms (proved); agreement within eps if eps >= 1e-4 times the norm of the reference.
* **C88 MPC shares one solver between calls**. Simulation between the world with the solver object (`Model/MPCSolver.lean`) and the world without solver state; the invariant (`WInv`) keeps that every object is analysed for its own stored positions, which no call changes (`transcribe_sparsity`).
  * *proved*: `MPC.mpc_reuse`, `MPC.mpc_sparsity_kept`, `MPC.mpc_sparsity_analysed`. With the modelled QP solver object. Assignment replaces solver and program together. Factorisations are assumed to read the upper triangle only (as LDLT<Upper> does).
* **C89 MPC calls return, with a certified result**. Same invariant, with the budget theorem of the QP solver (C07) and its certificate (C03, `gap_bound`) applied to the program of the call (`mpc_program`); the Hessian is diagonal and nonnegative (`program_psd`).
  * *proved*: `MPC.mpc_returns`, `MPC.mpc_near_optimal`. mpc_returns: max_iter set (also with polishing). mpc_near_optimal: polishing off, positive square roots, exact quadrature rule.
* **C90 MPC on its desired trajectory**. Zero satisfies the program of the call, whose linear cost vanishes; `qp_zero_exact` shows that the solver, polishing and scaling included, returns exactly zero from zero; the result is again a zero warm start, so induction over the calls.
  * *proved*: `MPC.mpc_on_desired`, `MPC.mpc_stays_on_desired`. With scaling and polishing; exact linear algebra (SolverOk), no warm start or a zero one. Constraints without set_time are required at the default elements, around which the code linearises them (C42).
* **C91 QP solver: the steps converge to certificates**. The iteration in the coordinates `(sqrt(sigma) x, sqrt(rho)(z + y/rho))` is averaged (`step_contract`); the steps of an averaged iteration of a Euclidean space converge, with or without a fixed point (`Proofs/Displacement.lean`, by supporting directions and compactness). Row by row, `z` and `y` are projections of the converging variable; the equations of the linear system give the certificate in the limit (`run_limit`).
  * *proved*: `QP.qp_differences_converge`, `QP.qp_residuals_vanish_bounded`, `QP.qp_infeasible_detected`. Over the reals, with an LDLT that succeeds and is exact, 0 < alpha < 2.
* **C92 QP solver returns on every convex program**. False of the code: for a row without bounds `check_stopping` wants `A dx >= -eps |dx|`, so `min x` with the row `-inf <= x <= inf` runs for ever (`qp_free_row_diverges`, by an invariant of the iterates). Partial: returns whenever no direction of unboundedness lowers such a row, in particular if every row has a bound or P is positive definite; from C91 and the continuity of the three tests.
  * *partial*: `QP.qp_always_returns_partial`, `QP.qp_always_returns_bounds`, `QP.qp_unbounded_detected_partial`, `QP.qp_free_row_diverges`. False of the code for rows without any bound: min x with -inf <= x <= inf never returns (witness). Proved for all convex programs in which no direction of unboundedness lowers a free row, in particular if each row has a bound or P is positive definite.
* **C93 MPC desired trajectories in relative time**. The two setters store functions of `time_trait::minus(t, t0)`; what a call evaluates (C44) is rewritten with the law of the clock, which both kinds of clock satisfy.
  * *proved*: `MPC.mpc_rel_output`, `MPC.mpc_rel_velocity`, `MPC.float_clock`, `MPC.tick_clock`. Velocity: with an exact clock. `diff::dr` by contract.
* **C94 Trajectories of feasible points satisfy the problem on the group**. On every closed mesh interval `eval` is one polynomial (`eval_pieces`), so the slopes of the collocation equations are its derivatives and the pieces fit together (`nlp_collocated`). `flat_defect` (C35) turns the defect of the flattened equation into that of the equation on the group.
  * *proved*: `Flatten.nlp_collocated`, `Flatten.unflatten_collocated`. Regular: dr_exp is invertible at the stored errors. Exact quadrature rule and Lagrange basis by contract. The derivative is that within the mesh interval of the point.
* **C95 The collocation points are well defined for every degree**. Existence: the polynomial d^n/dx^n((1-x)^n (1+x)^(n+1)) has n+1 zeros in [-1,1) by Rolle, the last of them -1, and is orthogonal to degree below n by parts; interpolatory weights are integrals of squares. Uniqueness: the difference of two nodal polynomials is orthogonal to itself under the weight 1+x.
  * *proved*: `MPC.mesh_environment_exists`, `MPC.mesh_rule_unique`, `MPC.lgr_unique`, `MPC.quadrature_integral_real`. About the assumptions of the model on lgr_nodes: they can be met for every K and determine the rule. That the tables of the smooth library hold these numbers is not proved (the library is not in the repository).
* **C96 The optimality certificate survives rounding**. Relative errors are counted with `Acc u k x t T` (`|x - t| <= ((1+u)^k - 1) T`). Projection and comparisons are exact, roundings preserve order; so the box and the complementarity of z and y survive up to the roundings of bounds and of one update of y (`noise`), and the computed residuals bound the true ones. In exact arithmetic the model is that of `solveQP` (`solveQPR_exact`) and the certificate that of C01 (`approxKKTR_zero`). `qp_optimal_certificate_float_inexact`: the certificate of C01 itself is false in 53 bits.
  * *proved*: `QP.qp_optimal_certificate_rounded`, `QP.solveQPR_exact`, `QP.approxKKTR_zero`, `QP.approxKKTR_near_minimiser`, `QP.floatArith_rounds`, `QP.qp_optimal_certificate_float_inexact`. Without polishing; relative error model (no overflow, underflow, NaN), positive square roots. Instance: p-bit binary floating point, round to nearest even.
* **C97 Warm start from the solver's own solution**. The assignments 438-440 in order on members that the warm start may alias (`Model/QPAlias.lean`). Witness: the exact solution, passed as `sol()`, is left within two iterations, a copy is kept. Certificate of C01 from any start.
  * *partial*: `QP.qp_own_warmstart_differs`, `QP.qp_own_warmstart_unscaled_partial`, `QP.qp_own_warmstart_certificate`, `QP.solveAt_copy`. False of the code with scaling: z_ is computed from the primal that was just scaled in place (witness). The same without scaling; an Optimal result is certified as in C01 either way.
* **C98 EKF symmetry is exact in floating point**. A second model with a rounding after every operation (`Model/EKFRound.lean`, arithmetic of C96). Mirroring and entrywise steps treat (i, j) and (j, i) alike, so no assumption on the arithmetic is needed; invariant over operations.
  * *proved*: `EKF.ekf_rounded_symmetric`, `EKF.ekf_rounded_upper_Q`, `EKF.ekf_rounded_upper_R`, `EKF.ekf_rounded_exact`. No assumption on the arithmetic; no overflow or NaN in the sense that every operation yields a value.
* **C99 EKF in floating point: termination and definiteness**. False of the code. The clock of `predict` stops when the step is below its resolution: with p+1 bits and a step 2^e nothing above 2^(p+1) steps ever returns, by an invariant on the clock (single precision, steps of a millisecond: five hours). One update in double precision gives a negative variance (witness). Partial: returns within 2 tau/dt passes if 2u(tau+dt) <= dt, clock accurate to i roundings; definite up to an explicit multiple of the unit and of the error of the gain.
  * *partial*: `EKF.ekf_rounded_predict_hangs`, `EKF.ekf_rounded_predict_returns_partial`, `EKF.ekf_rounded_predict_default`, `EKF.ekf_rounded_update_breaks_psd`, `EKF.ekf_rounded_update_psd_partial`. False of the code: non-termination for more than 2^(p+1) steps (all systems), indefinite covariance in double precision (witness). Proved: returns when the rounding unit resolves the step; one step for the default argument; definite up to explicit errors.
* **C100 QP scaling balances the problem**. A round divides entry (i, j) by the square root of the product of two bounds of it (Ruiz equilibration); the loop always ends with a round. Exact square roots.
  * *proved*: `QP.qp_scaling_entries`, `QP.qp_scaling_zero`, `QP.qp_scaling_balanced`. Exact arithmetic and square root. Whether eleven rounds balance every problem is not claimed.
* **C101 Linear-quadratic problems are transcribed exactly**. `IsLQ` (Spec/LQ.lean) says what linear-quadratic means, by values along lines, not by derivatives; `nlpPoint` is the point of the nonlinear program that a deviation stands for. First-order expansions of affine functions and second-order ones of quadratic functions are exact, and the slopes of the linearisation on the mesh are its velocities (`onMesh_poly`).
  * *proved*: `OQP.lq_exact`, `OQP.lq_minimiser`, `OQP.onMesh_poly`. Vector spaces (no Lie bracket term), exact derivatives and quadrature rule by contract.
* **C102 Linear-quadratic problems are solved**. With C101 and the certificate of C01. **False of the code** for integrands with products of different variables: `ocp_to_qp` stores the upper triangle of P, as qp.hpp:63 says, the solver factorises the upper triangle, but `check_stopping` multiplies with the stored matrix (qp_solver.hpp:589). Witness: minimise the integral of (x + u)^2 with x' = u; started at the exact solution the iterates stay there, and the solver never says Optimal and does not return without limits (`lq_never_optimal`; the general fact is `qp_upper_stuck`). Proved for integrands that are sums of functions of one variable each, as in all examples; `lq_returns` also covers polishing.
  * *partial*: `OQP.lq_solved_partial`, `OQP.lq_returns`, `OQP.lq_never_optimal`, `QP.qp_upper_stuck`, `QP.qp_upper_never_returns`. False of the code for integrands with products of different variables: the stopping test reads P without mirroring its upper triangle, so the solver never stops even at the exact solution (witness). Proved for separable integrands.
* **C103 The double integrator example is solved exactly**. Model/DoubleInt.lean transcribes examples/ocp_doubleintegrator.hpp with its hand-written Jacobians and Hessians. Existence of a minimiser needs a feasible point: a motion with five switches at 1.5, 3, 3.5, 4, 4.5 s, which the mesh of ten intervals represents exactly. Uniqueness from strict convexity and the end constraints. The example runs with polishing on, for which C02 applies.
  * *proved*: `DI.ocpDi_dr`, `DI.di_qp_solves_nlp`, `DI.di_unique`, `DI.di_example`. Exact arithmetic. Certificate with polishing off (the example has it on, see C02).
* **C104 Polishing converges on the identified active rows**. With the signs of the perturbation the reduced matrix is a monotone operator, and a refinement pass is its resolvent: distances to every solution and the lengths of the steps do not grow, which gives the rate over any ordered field; over the reals a subsequence converges and Fejer monotonicity does the rest. Identification from the convergence of the iterates (C80). The sign of the perturbation was found untested by a mutation. Also the weights of the rows, found the same way.
  * *proved*: `QP.qp_polish_nonsingular`, `QP.qp_polish_succeeds`, `QP.qp_polish_residual`, `QP.qp_polish_converges`, `QP.qp_polish_identifies`, `QP.qp_row_weights`. Exact arithmetic; LDLT that succeeds on nonsingular matrices. Says nothing about the rows not taken as active (C02).
* **C105 The solver and the three classes of convex programs**. Farkas by induction on the rows over any ordered field (`Proofs/Farkas.lean`), from it multipliers for every minimiser and certificates for every infeasible program; existence of minimisers (Frank-Wolfe) over the reals by minimising on balls with a tie-break on the norm and a limit of normalised directions (`Proofs/FrankWolfe.lean`). Then C79, C80, C91, C92 without certificates as hypotheses; the converse for convergence by the limits of the differences. A certificate bounds the residuals from below, which gives the tolerance of the last part. Infeasibility verdicts on solvable programs are not excluded at any tolerance (C06, C07).
  * *proved*: `QP.qp_infeasible_iff`, `QP.qp_minimiser_iff`, `QP.qp_unbounded_iff`, `QP.qp_classes`, `QP.qp_solvable`, `QP.qp_terminates_solvable`, `QP.qp_converges_iff`, `QP.qp_infeasible_recognised`, `QP.qp_unbounded_recognised`, `QP.qp_optimal_only_solvable`. Over the reals. Unbounded programs with a row without bounds: see C92.
* **C106 ASIF in floating point: look-ahead times**. A second model of `asif_to_qp` with a rounding after every operation (`Model/ASIFRound.lean`); without rounding it is the first one (`toQPR_exact`). **False of the code** with the default parameters (T = 1, K = 10, dt = 0.1, double): 0.5 + 0.1 is below 0.1 * 6, so a whole extra step is taken and constraint 6 is evaluated at 0.7, like constraint 7, and nothing at 0.6 (witness by evaluation in the kernel). Also, an interval of 2^(p+2) steps or more never ends. Partial: the program is built if 2u(2T+dt) <= dt, with steps bounded by 4T/dt + 3, and every constraint is between kT/K and kT/K + dt up to three roundings. Needs that the difference of close numbers is exact (Sterbenz, proved for numbers of p bits): the shortened last step lands on the target.
  * *partial*: `ASIF.asif_rounded_program_partial`, `ASIF.asif_rounded_times`, `ASIF.asif_rounded_rows`, `ASIF.asif_rounded_returns_iff`, `ASIF.asif_rounded_default_late`, `ASIF.asif_rounded_hangs`, `ASIF.toQPR_exact`. False of the code: with the default parameters in double precision constraint 6 is evaluated at 0.7 instead of 0.6 (witness); unresolved steps never return. Proved: returns when the rounding unit resolves the step; every constraint late by at most one step up to three roundings; the rows are those of the rounded schedule.
* **C107 Mesh refinement loop**. Model/MeshRefine.lean is the loop of the two examples. Induction over the passes with an invariant on mesh and warm start (`PassOK`, `NextOK` in Spec/MeshLoop.lean). The exactness of the warm start: sampling a piecewise polynomial on a refined mesh is exact if every new interval has at least the degree of the one around it; conversely a split interval of more than the least degree is left with fewer points than the degree of a polynomial that is lost (`transfer_exact_iff`; `refine_split_loses` is a concrete mesh of the examples). So restarting after a split starts from an approximation of the last solution.
  * *proved*: `Mesh.degrees_restored_iff`, `Mesh.refine_errors_finer_iff`, `Mesh.transfer_exact`, `Mesh.transfer_exact_iff`, `NLP.warm_start`, `NLP.refine_loop`, `NLP.refine_loop_second`, `NLP.refine_transfer_iff`, `NLP.refine_split_loses`. Exact arithmetic; transcription and Ipopt together are a parameter that returns solutions of the right size with a nonzero final time.
* **C108 ASIF enforces the barrier conditions**. False of the code. The slack has a quadratic price, so a small violation is free to first order: `asif_never_enforces` shows, for every admissible desired input, that the result satisfies the barrier conditions only if the desired input already does (then it is returned unchanged); otherwise the slack is positive and equals the worst violation. What remains true is the bound on the violation, of order 1/sqrt(relax_cost) (`asif_violation_bound_partial`, `asif_slack_price`). Model/ASIFDouble.lean transcribes examples/asif_doubleintegrator.cpp with these parameters (relax_cost 100). At rest on the limit the input 0 satisfies everything and the filter returns 0.1783; by induction over the turns the position then stays beyond the limit for ever (`di_loop_leaves`), and from the initial state of the example the limit is exceeded after finitely many turns (`di_loop_exits`; C126 calculates the 200 turns). `best` is an exact solver, which shows that the hypotheses can be met for all turns.
  * *partial*: `ASIF.asif_never_enforces`, `ASIF.asif_slack_price`, `ASIF.asif_violation_bound_partial`, `ASIF.asif_call_violates`, `ASIF.di_rest_safe`, `ASIF.di_filter_accelerates`, `ASIF.di_loop_outside`, `ASIF.di_loop_leaves`, `ASIF.di_loop_exits`, `ASIF.di_loop_runs`. False of the code: the quadratic price of the slack is never exact, so whenever the filter has to change an admissible input the result violates a barrier condition; the example leaves its safe set (theorems). Proved: bounds on the violation. Exact arithmetic, optimal results of an exact solver, positive weights.
* **C109 Multipliers of the optimal control solution**. Spec/Costate.lean states the discrete minimum principle with polynomials per interval, without the transcription. The link is summation by parts: the quadrature of the Legendre-Gauss-Radau points is exact for the product of a multiplier polynomial (degree < K) and the derivative of a state polynomial (degree <= K), so the transpose of the differentiation matrix is a differentiation of the multipliers with a jump at the breakpoints (`MeshFn.by_parts`, induction over the intervals). Both directions (`stationary_iff_costates`). **False of the code**: the rows of the program are multiplied by `w_scaling_` = 1/(largest weight) and `nlpsol_to_ocpsol` does not undo it, so the multipliers of dynamics, integrals and running constraints are those of the problem divided by `w_scaling_`, which exceeds 1 on every mesh with two or more points (`wScaling_gt_one`, `nlp_costates_wrong`), and they change with the mesh (`nlp_costates_two_meshes`; the refinement loop C107 passes them from mesh to mesh). The multipliers of the end constraints are right. Witness: the least energy problem (`nlp_costates_violated`, -1 returned for -2). The partial theorem is the equivalence with the scale. Also: between the collocation points `lambda_dyn` is the multiplier polynomial in the last interval only; in the others `eval` interpolates through the first value of the next interval as well, so the conditions are stated for the polynomial through the values.
  * *partial*: `NLP.nlp_costates_partial`, `NLP.stationary_iff_costates`, `NLP.costates_scale`, `NLP.nlp_costates_wrong`, `NLP.nlp_costates_violated`, `NLP.nlp_costates_two_meshes`, `NLP.wScaling_gt_one`, `MeshFn.by_parts`. False of the code: the multipliers of dynamics, integrals and running constraints are those of the problem divided by w_scaling_ (theorem for every mesh with two or more points, and a witness). Proved: stationary exactly if the rescaled multipliers satisfy the conditions of the problem. Vector spaces, exact arithmetic.
* **C110 The controller always answers**. The object model of the controllers (C66, C98) with the fuel of the solver as a parameter. `Legal` (Spec/MPCAlways.lean) is what the type system and the constructors demand of a history. Induction over the history with the invariant `Alive`: every controller ever made has its program laid out and valid arguments, so that every program of a call has a positive semidefinite Hessian and the solver ends with a verdict from every carried-over state; results do not depend on the fuel once it suffices (Proofs/MPCFuel.lean), so one fuel serves the whole history. `mpc_unique` uses strict convexity of the cost along the collocated linearised dynamics.
  * *proved*: `MPC.mpc_always_returns`, `MPC.mpc_unique`, `MPC.call_always`, `MPC.step_always`, `MPC.history_always`, `MPC.wInv_fuel`, `MPC.step_fuel`, `QP.Solver.solve_fuel`, `QP.loop_fuel`. Exact arithmetic. Factorisations are parameters that satisfy their specification.
* **C111 QP answers converge to exact solutions**. A Hoffman bound over any ordered field, proved by Fourier-Motzkin elimination (Proofs/Hoffman.lean: induction over the variables, the constant grows with each elimination). The KKT conditions are a finite union of systems of linear inequalities, one for each pattern of active rows and signs of multipliers, with the same matrix for every vector and bounds (Proofs/KKTBound.lean); patterns without solution are excluded by a margin. C01 supplies the residuals of an `Optimal` answer. For both tolerances the magnitudes in the relative test are bounded because the iterates converge (C79, C105).
  * *proved*: `QP.qp_error_bound`, `QP.qp_error_bound_abs`, `QP.qp_error_bound_unique`, `QP.qp_answers_converge`, `QP.qp_solutions_stable`, `QP.qp_answers_stable`, `QP.kkt_error_bound`, `Hoffman.hoffman`, `Hoffman.margin`. Exact arithmetic, polishing off. The constant depends on the matrices only, the threshold on the program.
* **C112 Small tolerances give right verdicts**. If a flat direction of the unknowns or of the multipliers existed the solutions would not be bounded (Proofs/QPFlat.lean); each way to be an approximate certificate of norm one is one of finitely many infeasible systems of linear inequalities, and an infeasible system stays infeasible after a small relaxation (`Hoffman.margin`). `PrimalInfeasible` is excluded below a threshold (`qp_threshold_primal`; with a strict point and independent equalities also without convexity, `qp_threshold_strict`). **False of the code for `DualInfeasible`**: the test accepts the direction zero if no row has two finite bounds (qp_solver.hpp:625-641 compares with <= except in rows with two bounds), so an iteration that leaves the unknowns in place is reported as unboundedness. `qp_dual_infeasible_strictly_convex`: strictly convex programs in one unknown, cold start, default parameters (and with all tolerances zero), checked in the kernel. Partial: that is the only case (`qp_threshold_dual_partial`), and with one row with two finite bounds the whole claim holds (`qp_small_tolerances_solve`). A row without entries and with bounds zero, which `ocp_to_qp` writes for a fixed final time, makes the multipliers unbounded; its multiplier never changes (`iterates_emptyRow`), so such rows do no harm (Props/QPZeroRow.lean).
  * *partial*: `QP.qp_threshold_primal`, `QP.qp_threshold_strict`, `QP.qp_threshold_dual_partial`, `QP.qp_threshold_convex_partial`, `QP.qp_small_tolerances_solve`, `QP.qp_threshold_emptyRow`, `QP.qp_small_tolerances_emptyRow`, `QP.qp_dual_infeasible_strictly_convex`. False of the code for DualInfeasible: an iteration that does not move is reported as unboundedness, also for strictly convex programs with default parameters (witness). Proved: everything else, and the whole claim if some row has two finite bounds. Exact arithmetic.
* **C113 QP answers do not depend on how the program is written**. A group of rewritings acts on programs, scalings, iterates and results (`Relabel`, Proofs/QPRelabel.lean: permutations with signs of variables and rows). Every stage of the solver commutes with it: scaling (norms of columns and rows), row weights, the linear system (its matrix is nonsingular, so corresponding right-hand sides have corresponding solutions whatever the factorisation does inside), projection on the bounds, the three stopping tests (the sums of the primal test are independent of the order), the loop (induction), and polishing (the lists of active rows correspond by a bijection, the reduced matrix is nonsingular). **False of the code for rows without bounds**: `check_stopping` treats a row without bounds as one without upper bound (qp_solver.hpp:632-634), so turning it round changes whether the solver ever returns (`qp_free_row_orientation`). Proved for all rewritings that keep the sign of the rows without bounds (`qp_relabel_partial`).
  * *partial*: `QP.qp_relabel_partial`, `QP.qp_free_row_orientation`, `QP.relabel_polish`, `QP.relabel_loop`. False of the code for rows without bounds: turned round, such a row changes whether the solver returns (witness). Proved for every rewriting that keeps the sign of those rows. Exact arithmetic, LDLT that succeeds on nonsingular matrices, same clock readings.
* **C114 The mesh survives rounding**. A second model of the mesh with a rounding after every operation (`Model/MeshRound.lean`); without rounding it is the first one (`runR_id`). Specification: binary rounding (`Binary`, met by round-to-nearest-even with any number of bits, `flBits_binary`). Invariant of one interval `[a, b]`: both ends representable, `a <= b <= 1`, and `a = 0` or `b <= 2 a`; so every width is computed exactly (Sterbenz). It is kept by cutting into at most `N` parts with `4 N u <= 1` (`parts_good`), hence by every history (`runR_kept`; the backward loop of `refine_errors` by induction from the right). Consequences for all histories: breakpoints in nondecreasing order, nodes of an interval exactly from one breakpoint to the next (`interval_nodes_rounded`), all nodes exactly from 0 to 1 in order (`all_nodes_rounded`), one rounding error per weight and matrix factor (`weights_rounded`). A part of a wide interval keeps at least half of its exact width, so with `r` refinements and `8 u (2 N)^r <= d` no interval is empty (`mesh_rounded_partial`; `double`: ten refinements with 16 parts, `mesh_double_ten`). **False without such a bound**: 34 refinements of the last interval in `double` leave an interval of width zero with infinite matrix factors (`mesh_rounded_collapses`); nothing in the code stops refinement at the resolution of `double`.
  * *partial*: `MPC.mesh_rounded_partial`, `MPC.mesh_double_ten`, `MPC.mesh_rounded_collapses`, `MPC.runR_id`, `MPC.uniformR_start`, `MPC.interval_nodes_rounded`, `MPC.all_nodes_rounded`, `MPC.weights_rounded`, `MPC.flBits_binary`. False of the code: many refinements in double leave an interval of width zero (witness). Proved: order, exact ends and nodes for every history; strict order for histories with few refinements. No overflow or underflow; LGR tables, log and lround external.
* **C115 Controller answers converge to the solution**. The program of a call is a function of the situation: every entry of matrices and bounds is given by `transcribe_spec`, so two histories with different solvers hand over the same numbers (`program_det`). Hence the constant and threshold of C111 for that program serve all histories (`mpc_error_bound`); the minimiser is translated to deviations by C39. Verdicts: the first-state rows have two finite bounds and the problem has one solution (C110), so `DualInfeasible` is excluded below a threshold (C112); `PrimalInfeasible` is excluded if the problem is `Robust` (Spec/MPCError.lean: dynamics, first state and running constraints may all be disturbed a little and deviations still exist), since a flat direction of the multipliers would separate a disturbed problem from its bounds (`flatMult_shifted`, `robust_shift`). With C110 every call returns, so it returns `Optimal` (`mpc_small_tolerances_solve`). Example: `x' = u` with bounded input is robust in every situation.
  * *proved*: `MPC.mpc_error_bound`, `MPC.mpc_small_tolerances_solve`, `MPC.program_det`, `MPC.robust_shift`, `MPC.ex_robust`, `QP.flatMult_shifted`. Exact arithmetic, polishing off, relative tolerance zero. The constant depends on the situation, not on the history or the solver.
* **C116 A QP solution is a complete OCP solution**. Model/OCPQPRecord.lean is the whole record (C67 and C83 covered its two functions): unset vectors are parameters, an empty `std::function` always fails, and the last two template parameters are in the order of the code. **False of the code**: the record is an `OCPSolution<X, U, Nq, Nce, Ncr>` although `OCP::Solution` is `<.., Ncr, Nce>`; `lambda_dyn`, `lambda_cr` are empty and `Q`, `lambda_q`, `lambda_ce` are not set. So `ocpsol_to_nlpsol` fails on it for every problem, mesh and solution (`qpsol_no_warm_start`), and no content of the unset integral is right for all inputs of the double integrator (`qpsol_integral_unset`). Partial: times, states and inputs are right, and the record completed by hand becomes the point `linearisation + z` of the nonlinear program (`qpsol_warm_start_partial`, from a lemma on what `ocpsol_to_nlpsol` does with any record); for the double integrator a global minimiser (`di_warm_start`).
  * *partial*: `OQP.qpsol_no_warm_start`, `OQP.qpsol_integral_unset`, `OQP.qpsol_warm_start_partial`, `OQP.di_warm_start`, `NLP.ocpsolToNlpsol_samples`. False of the code: the record has swapped sizes, empty multiplier functions and unset integrals, so ocpsol_to_nlpsol fails on it for every problem. Proved: times, states and inputs are right, and the completed record is the point of the nonlinear program. Flat problems.
* **C117 Independence of the frame of reference**. Spec/Frame.lean defines when two environments differ by a frame (motions commute, differences and adjoint agree) and when two histories are the same in both frames. `pid_frame` (all setters, resets and calls, also shifted clock; references must be set before the first call or the frame keeps the default one), `ekf_frame` (after a reset), `asif_frame` (any solver, warm starts and failures included), by simulation over the models of C22-C37. Left translations of groups are frames (`pid_left`, `ekf_left`, `asif_left`), and right derivatives do not depend on the frame (`derivative_moved`), so the hypotheses on the derivatives follow from those on the functions. Instances on the Heisenberg group, which is not commutative.
  * *proved*: `PID.pid_frame`, `EKF.ekf_frame`, `ASIF.asif_frame`, `Frame.pid_left`, `Frame.ekf_left`, `Frame.asif_left`, `Frame.derivative_moved`. The reference of the PID is set before the first call, the EKF is reset first (defaults are not moved). Exact arithmetic.
* **C118 The predictive controller does not depend on the frame of reference**. Spec/MPCFrame.lean: frames, moved controllers and moved histories (every new controller gets its desired trajectories at once, since the default trajectory does not move). The programs of corresponding calls are equal (`program_frame`), hence a solver that starts anew gives equal answers, hence, by C88, so does the stored solver; simulation over whole histories with shared trajectory cells (`outs_moved`). **False of the code** for running constraints without `set_time` (C42): they stay linearised at the default elements, and a call at the desired state is solvable in one frame and infeasible in another (`mpc_frame_wrong`). `mpc_frame_partial` has exactly this condition as a hypothesis; `mpc_left` gives left translations of groups, with an instance with shifted state, input and clock.
  * *partial*: `MPC.mpc_frame_partial`, `MPC.mpc_frame_wrong`, `MPC.crFrames_timed`, `MPC.mpc_left`, `MPC.vec_frame`, `MPC.program_frame`. False of the code for running constraints without set_time, which are linearised at the default elements: moving the frame makes a solvable call infeasible (witness). Proved for all others, with the controller's own QP solver. Exact arithmetic; the same clock readings in corresponding solves.
* **C119 The covariance of the EKF covers the errors of its estimates**. Spec/EKFStat.lean: second moments over finite probability spaces, uncorrelated noises, the truth of a linear system; the filter runs once per outcome. Errors are linear in the first error and the noises, so their second moments follow the recursion of the covariance (Joseph form). Equality for exact covariances and measurements only (`ekf_update_statistics`), covering for larger ones (`ekf_covers_partial`, by induction over histories). **False of the code** for predictions: the forward step drops `dt^2 A P A^T`, so with exact covariances the error is larger by exactly this than the filter says (`ekf_predict_gap`), after any history never smaller (`ekf_optimistic`), and for x' = -x the filter claims to know exactly a state that is -1/2 or 1/2 (`ekf_predict_wrong`). `ekf_covers_partial` asks that the stated process noise covers the dropped term as well. The gain is optimal and updates are monotone on every manifold (`ekf_update_best`, `ekf_update_monotone`). The truth is taken to move by the forward step of its dynamics plus noise.
  * *partial*: `EKF.ekf_covers_partial`, `EKF.ekf_update_statistics`, `EKF.ekf_optimistic`, `EKF.ekf_predict_gap`, `EKF.ekf_predict_wrong`, `EKF.ekf_update_best`, `EKF.ekf_update_monotone`. False of the code for predictions: the forward step makes the covariance too small by dt^2 A P A^T (theorem and witness). Proved for updates, and for predictions whose stated process noise covers the dropped term. Vector spaces, linear systems, exact arithmetic; optimality and monotonicity of the update on every manifold.
* **C120 The predictive control example never fails**. Model/MPCDouble.lean: the set-up and the loop of examples/mpc_doubleintegrator.cpp. The program has as many rows as variables (62), every row has two finite bounds, and the rows determine the variables: an interpolating polynomial moves on an interval at most by its length times the largest slope at the collocation points (`slope_bound`, from exactness of the rule for the square of the derivative), so inputs are at most r, velocities 7 r and positions 37 r when all rows are at most r (`di_determines`). Rows that determine the variables within C exclude both infeasibility verdicts for tolerances up to 1 / (n C) and 1 / C, whatever the cost and the warm start (`qp_square_verdict`); with C110 every call ends, so every call is Optimal. Induction over turns (`mpc_double_any`, `mpc_double`).
  * *proved*: `MPC.mpc_double`, `MPC.mpc_double_any`, `MPC.di_call`, `MPC.di_determines`, `MeshFn.slope_bound`, `QP.qp_square_verdict`. Exact arithmetic; collocation rule, polynomial basis and linear solver by their specifications (instances exist and are given). Termination of the QP solver is not bounded in iterations. The example with its own parameters and 1200 turns is instantiated for every initial state.
* **C121 Derivatives written by hand for the problem on SE(2)**. Model/SE2Ocp.lean: every member of the five function objects, on any state group with a pose, a velocity and the functions of the smooth library that the file calls (`PoseOps`). Spec/SE2Ocp.lean: `IsPose` says what these are in terms of matrices, exponentials and `IsLie`; `JacAt`, `HessAt`, `DrEAt` are derivatives along right perturbations, nothing about the code. The difference to the desired state is differentiated through the local logarithm (`diff_deriv`: `dr_expinv` by state, `-dl_expinv` times the body velocity by time), then the chain rule. `se2_derivatives_partial` covers everything but the second derivatives by time; `se2_hessian_lacks_time` refutes five of these on the desired trajectory. Instances: vectors (every point), and pairs of a pose of the plane and a velocity as matrices, which is the state of the example (`pvPose`).
  * *partial*: `SE2.se2_derivatives_partial`, `SE2.se2_hessian_lacks_time`, `SE2.integral_jacAt`, `SE2.integral_hessAt`, `SE2.ce_drAt`, `SE2.dyn_dr`, `SE2.cr_dr`, `SE2.theta_dr`. False for the second derivatives of the integrand by time (ocp_se2.hpp:121), everything else proved. The smooth library by its specification; regular points only (the logarithm inverts the exponential nearby and dr_exp is invertible).
* **C122 The vehicle under PID control reaches its trajectory**. Model/PIDSe2.lean: the loop around the model of the controller (Model/PID.lean), the allocation and limits of inputs, one step of Runge-Kutta 4, on any group with `rplus` and difference. `pid_se2_motion` holds over every ordered field and every difference. For convergence (`pid_se2_converges`) the state is written by the error of pose in exponential coordinates and the errors of two velocities; the step in these coordinates is differentiated at the desired state (`next_deriv`, which needs the series of `dr_exp` and of the adjoint: `ad_cube`, `dr_coeffs`); a quadratic Lyapunov function with a rational certificate (`V_turn`, sums of squares) decreases by 1/125 per linear turn, hence by almost that near the trajectory (`turn_near`), uniformly in the frame because the error does not depend on it. Instance: rigid motions of the plane as matrices (`se2_isLie`, `se2_ad`).
  * *proved*: `PIDSe2.pid_se2_motion`, `PIDSe2.pid_se2_converges`, `PIDSe2.turn_near`, `PIDSe2.V_turn`, `PIDSe2.next_deriv`, `PIDSe2.dr_coeffs`. Convergence is local: the start of the example itself (identity, at rest) is far from the trajectory and saturates the inputs, convergence from there is not claimed. Exact arithmetic; a stage of the integrator is the state plus the weighted sum of derivatives (smooth's odeint operations by assumption).
* **C123 Predictive control with limited inputs has a solution from every state**. Proofs/Collocation.lean: on one interval polynomials that vanish with their derivative at its start and satisfy the one-sided bound at the nodes vanish, for every degree (`poly_zero`: exactness of the rule on P P' / (t - a)^2 and monotonicity); by induction over the mesh the collocation equations have only the trivial homogeneous solution (`colloc_zero`), so the linear ones are uniquely solvable from every initial value with every right-hand side (`colloc_solve`; `colloc_unique` for nonlinear ones). Spec/MPCSolvable.lean states the two conditions with derivatives of the error dynamics, Props/MPCSolvable.lean solves the dynamics for inputs in the middle (`mpc_robust`, `mpc_admissible`) and composes with C115 (`mpc_input_limits_solved`). Props/MPCSolvableExamples.lean: the double integrator with every trajectory, a system on the Heisenberg group, and the coarse mesh without solution.
  * *proved*: `MPC.mpc_robust`, `MPC.mpc_admissible`, `MPC.mpc_input_limits_solved`, `MPC.mesh_lengths`, `MeshFn.colloc_solve`, `MeshFn.colloc_unique`, `MeshFn.colloc_zero`, `MeshFn.poly_zero`. The threshold for the tolerances depends on the situation (system, trajectory, time, state), not on the history; no value is given. Polishing off and exact arithmetic, as in C115.
* **C124 The vehicle with predictive control and a safety filter: speeds, backup, gradient and solvability**. Model/Vehicle.lean is the program with the group, both solvers and the square root as parameters. Spec/Vehicle.lean says what is assumed of the group (velocity additive, position moving with the rotated translation, the bracket) and of the solver (`Near`). Props/Vehicle.lean: the Runge-Kutta step in the speeds is a convex combination with five (two and a half) times the input, so the box of speeds is invariant (`vehicle_moderate`, `vehicle_flow`, `backup_iff`, `backup_admissible`, `filter_feasible`). Props/VehicleMPC.lean: `safe_deriv`, `safe_centre`, `xdes_deriv`, `desired_input`; `vehicle_admissible` and `vehicle_mpc_solved` apply C123 with weights for the error dynamics. Props/VehicleExamples.lean: the group of poses of the plane and velocities as matrices meets all assumptions (Proofs/LieGlobal.lean gives differences between any two elements), with the 1200 turns of the example.
  * *proved*: `Vehicle.vehicle_moderate`, `Vehicle.vehicle_flow`, `Vehicle.backup_iff`, `Vehicle.backup_admissible`, `Vehicle.filter_feasible`, `Vehicle.safe_deriv`, `Vehicle.safe_centre`, `Vehicle.xdes_deriv`, `Vehicle.desired_input`, `Vehicle.vehicle_admissible`, `Vehicle.vehicle_mpc_solved`, `Vehicle.vehicle_follows`, `Vehicle.vehicle_program_solved`, `ASIF.asif_near_call`, `Vehicle.veh_good`. Exact arithmetic. Nothing is claimed about the distance to the obstacle: the barrier conditions are softened and discretised (C45, C47, C108). The tolerances for the predictive controller depend on time and state.
* **C125 The safety filter with its solver: every call returns, and softened constraints are never called infeasible**. Props/QPSoft.lean: in a program softened by one variable an approximate Farkas certificate would need its entries on the softened rows to sum to almost zero while none is much above zero, so all of them are small, and then so are the entries on the rows with a variable of their own (`softened_farkas`); with a diagonal cost above the tolerance and one two-sided row the dual test fails (`diagonal_dual`, `qp_soft_verdict`). Props/ASIFAlways.lean: the programs of the filter are of this kind (`built_softened`, `built_diag`), calls return by C92 (`call_always`, `asif_always_returns`), answers respect the rows to tolerance (`withQP_near`). Props/VehicleFilter.lean bounds two columns of the sensitivity along the trajectories as complex numbers (`along_march`, `vehicle_steep`) and composes everything (`vehicle_filter_optimal`, `vehicle_runs`). Props/VehicleExamples.lean: the 1200 turns of the example on its group (`veh_runs`).
  * *proved*: `ASIF.asif_always_returns`, `QP.qp_soft_verdict`, `QP.softened_farkas`, `QP.diagonal_dual`, `ASIF.withQP_near`, `Vehicle.vehicle_steep`, `Vehicle.vehicle_filter_optimal`, `Vehicle.vehicle_runs`, `Vehicle.veh_runs`. Exact arithmetic and no polishing, as the example sets it. The theorem about the whole run asks for relative tolerance zero: with the default 1/1000 the residual of the input rows is relative to the input of the predictive controller, which is not bounded a priori.
* **C126 The example of the safety filter, as written, exceeds both of its limits although every call is Optimal**. Spec/ASIFDoubleRun.lean says which input is best at a position and speed, without the program. Proofs/ASIFDoubleSim.lean: two conditions with multipliers prove that an input is best (`Cert.ideal`), and there is one (`ideal_unique`); the 200 turns are calculated in rational numbers by the kernel, each input checked with its two conditions (`sim_run`, `sim_ideal`). This is a proof about the one run of the example, not a sample of a general claim. Props/ASIFDoubleRun.lean: every optimal run of an exact solver is the calculated one (`di_loop_ideal`, `di_run_exact`). The modelled solver returns Optimal by C125 with a = 1 (`di_steep`, `di_run_optimal`). The matrices of the program do not depend on the state and only lower bounds move, so C111 for near data (`qp_answers_stable`) keeps the input close to the ideal one, and by induction the run (`di_call_close`, `di_loop_close`, `di_run_modelled`). Props/ASIFDoubleRunExamples.lean: the parameters as written (`di_as_written`).
  * *proved*: `ASIF.di_run_exact`, `ASIF.di_loop_ideal`, `ASIF.ideal_unique`, `ASIF.ideal_exceeds`, `ASIF.di_run_optimal`, `ASIF.di_as_written`, `ASIF.di_steep`, `ASIF.di_call_close`, `ASIF.di_loop_close`, `ASIF.di_run_modelled`. Exact arithmetic. The size of the tolerance below which the modelled solver exceeds both limits is not calculated; C127 shows for the default 1/1000 that the position limit is exceeded.
* **C127 The example of the safety filter exceeds its position limit also with the default tolerances**. An Optimal answer satisfies the Karush-Kuhn-Tucker conditions with residuals bounded by C01. Props/ASIFDoubleDefault.lean writes the program of the example out (`diBuilt_low`, `diBuilt_slope`, `diBuilt_tail`) and the conditions for it (`di_near`); the relative parts of the residuals depend on the answer itself. Proofs/ASIFDoubleTol.lean: if the correction were larger than `diPush` allows, some violated row would have to carry a multiplier that its slack, at its price of 100, cannot pay, whatever the residuals (`tol_push`, `diPush_rows`). So speed plus input has a lower bound that depends on position plus speed alone (`di_call_push`). Proofs/ASIFDoubleLow.lean: with it the turn is monotone in position and in position plus speed, so a sequence of integers calculated by the kernel bounds the run from below until it crosses the limit (`Above.next`, `lowRun_example`, `di_loop_pushed`); from other starts every turn advances by 1/80000 at least (`Pushed.advances`, `di_loop_exceeds`).
  * *proved*: `ASIF.di_run_default`, `ASIF.di_as_written_exceeds`, `ASIF.di_loop_exceeds`, `ASIF.di_loop_pushed`, `ASIF.di_call_push`, `ASIF.di_call_low`, `ASIF.di_near`. Exact arithmetic, polishing off as in the example. The speed limit is exceeded only by less than the tolerance and is not claimed.
* **C128 The problem on SE(2) as a quadratic program**. Spec/SE2QP.lean states the regulation problem without the code (`Regulates`, `effort`, `IsBest`; `IsPlane`: bracket of `se(2)`, logarithm of a state with pose one). Proofs/SE2QP.lean calculates every number of the program (`numbers`): the dynamics with the bracket of twice the desired velocity, the identity as hessian of the cost, bounds shifted by the linearisation, an empty row for the final time; `qpLin_vel` shows that the derivative of the desired motion is the velocity used. Props/SE2QP.lean: feasible points and cost are those of the regulation problem (`Numbers.feasible`, `Numbers.cost`), every disturbance gives exactly one motion on meshes with intervals shorter than 1/5 (`error_solve`, from the collocation theorem of C110), so there is exactly one best deviation (`best_unique`). Props/SE2QPMain.lean: no flat direction of the multipliers apart from the empty row (`Numbers.flat`), so C112 with empty rows applies. Instance: poses of the plane with velocities, the LGR rules over the reals, exact square root and factorisation, default parameters.
  * *proved*: `SE2.se2_qp_best`, `SE2.se2_qp_returns`, `SE2.se2_qp_accurate`, `SE2.numbers`, `SE2.best_unique`, `SE2.error_solve`, `SE2.qpLin_vel`. Exact arithmetic; automatic differentiation of xdes enters as its closed form, shown to be the velocity. Optimal is claimed for small tolerances without polishing (C02, C112).
* **C129 The problem on SE(2) as a nonlinear program**. Spec/SE2NLP.lean states the motions of the vehicle and their cost without the code (`Drives`, `expense`); `collocated_iff` shows that this is the problem `ocp_se2` at the collocation points. Proofs/SE2NLP.lean: the exponential map of the plane is regular at angles less than a full turn (`plane_regular`: in a small enough unit of length `ad` is less than `2π`, then the series of C79 converges); along a straight line the inverse derivative of the exponential keeps the velocity (`straight_drExpinv`, nilpotent `ad`). Props/SE2NLP.lean: the flattened references are constant, so the theorems of C75 and C77 apply, at single points for the integral and the end constraints (`se2_flat_derivatives`); the straight motion is affine in the collocation time (`slope_affine`); the loop is that of C107, the solutions those of C94 (`se2_nlp_run`). Instance: poses of the plane with velocities, LGR rules over the reals, an Ipopt that returns the straight motion.
  * *proved*: `SE2.straight_feasible`, `SE2.se2_nlp_cost`, `SE2.se2_flat_derivatives`, `SE2.se2_nlp_no_hessian`, `SE2.se2_nlp_run`, `SE2.collocated_iff`, `SE2.plane_regular`. Exact arithmetic. That Ipopt returns, with a feasible vector at angles less than a full turn, is a hypothesis; that it finds a minimum is not claimed.
* **C130 The double integrator as a nonlinear program**. Spec/DoubleNLP.lean states the motions (`Moves`), their cost (`expense`), solutions (`Best`) and equal passes without the code. Proofs/DoubleNLP.lean: the weighted sum of slopes is the way covered (`slope_quad`, from the summation by parts of C109), so a position with any slopes exists whose end is given by quadrature; a speed of degree five that keeps the limits at all times (Bernstein coefficients on a few intervals) gives a feasible point on every mesh (`ease_feasible`; the piecewise motion of C103 only fits special meshes). Props/DoubleNLP.lean: uniqueness from C103 (`di_nlp_best`); the derivatives always store the same positions, so C74 applies (`di_nlp_hessian`); the loop is that of C107, the solutions those of C94 (`di_nlp_run`); by induction over the passes two runs agree (`di_nlp_same`). Instance: LGR rules over the reals, versions of Ipopt with different multipliers.
  * *proved*: `DI.di_nlp_best`, `DI.di_nlp_hessian`, `DI.di_nlp_run`, `DI.di_nlp_same`, `DI.moves_iff`, `DI.slope_quad`, `DI.ease_feasible`. Exact arithmetic. That Ipopt returns with an exact solution is a hypothesis of the run.
* **C131 The snippets of the documentation**. Model/Snippets.lean holds the five snippets, with the drawn numbers as arguments. Spec/Snippets.lean states the parts of the group (a change of velocity leaves the pose, the attitude turns) and the results as numbers: `prior`, `posterior`, `correction`. Props/Snippets.lean: one Euler step (`predict_rest`), the gain by the uniqueness of linear systems (`gain`), the estimate (`ekf_snippet`), positive definiteness by sums of squares (`posterior_pd`); the controller in the identity is on its desired trajectory, so C90 applies (`mpc_snippet`). The safety filter returns by `ASIF.call_always`. Instance: SE(2) and velocities over the reals (`Props/SnippetsExamples.lean`).
  * *proved*: `Snippets.ekf_snippet`, `Snippets.ekf_snippet_velocity`, `Snippets.posterior_pd`, `Snippets.seen_deriv`, `Snippets.pid_snippet`, `Snippets.wall_deriv`, `Snippets.asif_snippet`, `Snippets.snippet_ufn`, `Snippets.mpc_snippet`. Exact arithmetic; group functions, quadrature and linear solver are parameters with the stated properties.
* **C132 The quadratic program of the snippets is solved**. False of the code: the documentation of QuadraticProgram asks for a positive semidefinite P, the snippet draws any matrix, and nothing checks it. Props/QPIndefinite.lean (`qp_zero_any`): if the linear cost is zero and zero is feasible, a cold start reports Optimal at zero whatever P is. Props/SnippetsQP.lean (`qp_snippet_wrong`): a draw with P = -1 for which the point reported as Optimal costs more than every other point of the box. Partial: for symmetric positive semidefinite draws it returns (`qp_snippet_partial`); if the bounds of a row cross, it reports PrimalInfeasible without an iteration (`qp_snippet_crossed`), whatever P is.
  * *partial*: `Snippets.qp_snippet_partial`, `Snippets.qp_snippet_crossed`, `Snippets.qp_snippet_wrong`, `QP.qp_zero_any`. False of the code: for a matrix that is not positive semidefinite a maximiser can be reported as Optimal (witness). Proved: return for symmetric positive semidefinite draws, the verdict for crossed bounds.
* **C133 The result does not depend on the factorisation**. Props/QPFactor.lean: both matrices that are factorised are nonsingular for convex programs (C104 for the polish step), so both factorisations succeed and their solve functions are equal (`slv_unique`); the iteration (`loop_same`), the polish step and the conclusion then agree (`qp_any_factorisation`). Instance: the inverse matrix and Cramer's rule on another clock, all sizes, default parameters.
  * *proved*: `QP.qp_any_factorisation`, `QP.loop_same`, `QP.factor_same`. Exact arithmetic.
* **C134 The benchmarks compare what they claim**. Model/Bench.lean holds the benchmarks with the drawn numbers, times and solvers as arguments. Props/Bench.lean: `draw_convex` (a triangle with positive diagonal), `draw_feasible`, `draw_infeasible`, `draw_unique` (C105 and strict convexity), `sparse_values`, `sparse_near`, `work_returns`, `dense_sparse` (C133), `bench_run`, `osqp_given` (C63), `batch_counts`, `compare_sound` (the geometric mean as powers), `compare_same`, `plotted`. Instances in Props/BenchExamples.lean.
  * *proved*: `Bench.draw_convex`, `Bench.draw_feasible`, `Bench.draw_infeasible`, `Bench.draw_unique`, `Bench.sparse_values`, `Bench.sparse_near`, `Bench.work_returns`, `Bench.dense_sparse`, `Bench.bench_run`, `Bench.osqp_given`, `Bench.batch_counts`, `Bench.compare_sound`, `Bench.compare_same`, `Bench.plotted`. Exact arithmetic; random numbers, clock, norm and OSQP are parameters; printing and plots are left out.
* **C135 Verdicts of infeasibility survive rounding**. Spec/QPRoundInf.lean extends the certificates of C06 and C07 by the roundings of the test. Props/QPRoundInf.lean: the sum of the test accumulates 2 m + 1 roundings (`dySumR_acc`), the loop returns a verdict only from a test or from the check of empty rows (`run_verdict`); `qp_primal_infeasible_rounded`, `qp_primal_infeasible_rounded_zero`, `qp_slack_rounded`, `qp_dual_infeasible_rounded`, `qp_convex_rounded`; without rounding the certificates are those of C06 and C07 (`certificates_zero`). Instances in 53 bits: Props/QPRoundInfExamples.lean, among them a feasible program that is called infeasible (`flat_run_float`), so that the tolerance cannot be left out.
  * *proved*: `QP.qp_primal_infeasible_rounded`, `QP.qp_primal_infeasible_rounded_zero`, `QP.qp_slack_rounded`, `QP.qp_dual_infeasible_rounded`, `QP.qp_convex_rounded`, `QP.certificates_zero`, `QP.flat_run_float`. No overflow, underflow or NaN; polishing off.
* **C136 The PID controller in floating point**. Model/PIDRound.lean: the controller with a rounding after every operation. Props/PIDRound.lean: `pid_bounded_any_arithmetic` (no assumption on the rounding), `pid_drift` (the clamp does not expand distances), `pid_output_rounded`, `pid_dead_zone`, `pid_rounded_exact` (without rounding it is the first model). Props/PIDRoundExamples.lean: 53 bits; `line_dead` and `line_exact` for the same calls in both arithmetics.
  * *proved*: `PID.pid_bounded_any_arithmetic`, `PID.pid_drift`, `PID.pid_output_rounded`, `PID.pid_rounded_exact`, `PID.pid_dead_zone`, `PID.line_dead`, `PID.line_exact`. Differences of the group and of times are given numbers; no overflow, underflow or NaN.
* **C137 Time arithmetic in double precision on 64-bit ticks**. Model/TimeRound.lean: roundings of `double`, ticks of 64 bits, `none` for undefined behaviour. Props/TimeRound.lean: `time_plus_rounded`, `time_plus_undefined`, `time_plus_overflow`, `time_minus_rounded`, `time_minus_undefined`, `time_plus_mono`, `time_double_rounded`; `time_rounded_exact` (without rounding it is the model of C59); `time_relative_rounded` (desired trajectories in relative time); `time_step_partial` and `time_step_double_partial` bound the step by a measured difference. Refuted as stated for that step: `time_step_short`, `time_step_past`, `time_step_stuck`. `time_double_lost`: a clock in `double` loses ten nanoseconds.
  * *partial*: `Time.time_plus_rounded`, `Time.time_plus_undefined`, `Time.time_plus_overflow`, `Time.time_minus_rounded`, `Time.time_minus_undefined`, `Time.time_plus_mono`, `Time.time_double_rounded`, `Time.time_rounded_exact`, `Time.time_relative_rounded`, `Time.time_step_partial`, `Time.time_step_double_partial`, `Time.time_step_short`, `Time.time_step_past`, `Time.time_step_stuck`, `Time.time_plus_long`, `Time.time_double_lost`. The code does not meet the last claim (arrival); the rest is proved. Infinite and not-a-number durations are not modelled.
* **C138 What a tolerance on the nonlinear program means**. Spec/NLPTol.lean: `Near` (the discretised problem with errors), `Top` (the largest weight). Props/NLPTol.lean: `nlp_tolerance_iff`, row by row from `nlp_constraints` (C28); `nlp_tolerance_sharp` and `nlp_tolerance_amplified`: a problem without motion whose input exceeds its bound.
  * *proved*: `NLP.nlp_tolerance_iff`, `NLP.nlp_tolerance_sharp`, `NLP.nlp_tolerance_amplified`. Exact arithmetic; the tolerance is that with which Ipopt accepts a point.
* **C139 What an Optimal result on the transcribed quadratic program means for a nonlinear problem**. Spec/OCPQPTol.lean: `NearLin` (the linearised problem with errors), `Bent` and `BentOCP` (Lipschitz derivatives). Props/OCPQPTol.lean: `ocp_qp_tolerance_iff` row by row from the transcription (C32); `taylor_err`, the remainder, by comparing derivatives along the segment; `ocp_qp_optimal_near` composes both with the certificate of C01 and with the trajectory of C102. Props/OCPQPTolExamples.lean: `ocp_qp_curvature_sharp` (the constraint u^2 <= 0 linearised at 0); `curved_solved`: linearised at u = 1 the modelled solver does return Optimal for every warm start (C79).
  * *proved*: `OQP.ocp_qp_tolerance_iff`, `OQP.ocp_qp_optimal_near`, `OQP.ocp_qp_curvature_sharp`, `OQP.curved_solved`. Exact arithmetic, polishing off (with polishing the certificate of C01 fails, see C02); the bound on the true constraints is for states in R^n.
* **C140 What an Optimal result on the transcribed quadratic program means on Lie groups**. Spec/OCPQPLieTol.lean: `NearLinG`, `NearG` (linearised and true problem with errors), `BentTo`, `BentG` (bounds on the change of derivatives within a distance). Props/OCPQPLieTol.lean: `ocp_qp_tolerance_lie` row by row from the transcription (C81); `taylor_err_zero`, the remainder at zero; `ocp_qp_optimal_near_lie` composes with the certificate of C01. Unlike C139 no condition on the linearisation is needed, since the equations of motion are those of the error. Props/OCPQPLieTolExamples.lean: `ocp_qp_curvature_sharp_lie`; `gzero_solved`: on a problem on the Heisenberg group the modelled solver returns Optimal for every warm start (C79).
  * *proved*: `OQP.ocp_qp_tolerance_lie`, `OQP.ocp_qp_optimal_near_lie`, `OQP.ocp_qp_curvature_sharp_lie`, `OQP.gzero_solved`. Exact arithmetic, polishing off (with polishing the certificate of C01 fails, see C02); the end constraints must not depend on the integral for the statement about the true ones.
* **C141 What an Optimal answer of the model-predictive controller means for the problem of the call**. Spec/MPCTol.lean: `WithinTol`, `runAt`, `velAt`, `NearHorizon` (linearised problem of the call with errors), `NearMotion` (the nonlinear one). Props/MPCTol.lean: `program_near`, row by row, the rows of the program of a call up to tau are exactly `NearHorizon`; `near_motion`, the remainder; `mpc_optimal_near` composes with the certificate of C01 after any history; `mpc_optimal_affine`. As in C42 constraints that do not see the time are linearised around the default elements, which `runAt` says. Props/MPCTolExamples.lean: `ex_near`, `ex_affine`: `x' = u` with bounded input from every state at every time, with calls that do report Optimal (C115).
  * *proved*: `MPC.program_near`, `MPC.mpc_optimal_near`, `MPC.mpc_optimal_affine`, `MPC.ex_near`, `MPC.ex_affine`. Exact arithmetic, polishing off (with polishing the certificate of C01 fails, see C02).
* **C142 Answers of the safety filter converge to the best input**. Spec/ASIFTol.lean: `Allowed`, `Best` (correction and slack of least weighted squares). Props/ASIFTol.lean: `asif_best_unique` by the midpoint, `asif_best_exists` by the existence of minimisers of convex programs that do not recede (C105); `prog_minimiser`: minimisers of the program are the best answers; `asif_error_bound` composes with the error bound for unique solutions (C111) and the certificate (C01); `asif_small_tolerances_solve` with the returning calls (C125). Props/ASIFTolExamples.lean: `car_near`, a car in front of a wall after two other calls: the input tends to 1.
  * *proved*: `ASIF.asif_best_unique`, `ASIF.asif_best_exists`, `ASIF.asif_error_bound`, `ASIF.asif_small_tolerances_solve`, `ASIF.car_near`. Exact arithmetic, polishing off (with polishing the certificate of C01 fails, see C02). Barrier condition as the filter states it (C47, C49 for what that means).
* **C143 Repeated readings of a sensor shrink the uncertainty as 1/k and lead the filter to the truth**. Spec/EKFRepeat.lean: `readings` (one sensor, many values), `meanNoise`. Props/EKFRepeat.lean: `post_le` (P' L P' <= P' for the posterior in information form), `sensor_le` (k H P' H^T <= R by completing the square), `psd_cauchy`; `ekf_repeat_variance`, `ekf_repeat_estimate`, `ekf_repeat_consistent` on top of the information form of the fused updates (C53). Props/EKFRepeatExamples.lean: `swing_filter`, readings 3 +- 1 of the sum of two coordinates.
  * *proved*: `EKF.ekf_repeat_variance`, `EKF.ekf_repeat_estimate`, `EKF.ekf_repeat_consistent`, `EKF.swing_filter`. Vector-space states and linear sensors; exact solver for the gain (SolveOk).
* **C144 On any manifold the filter's inverse covariance grows by the information collected**. Spec/EKFInfo.lean: `Reading`, `mirrored`, `infoAt` (sum of information at given points). Props/EKFInfo.lean: `update_cov_info` from the closed form of an update; `ekf_information_bound` by induction over the list and `post_le`; `ekf_information_sum`, `ekf_update_sensor_bound`; `square_information`: two readings of the square of a scalar, linearised at 1 and 13/7.
  * *proved*: `EKF.ekf_information_bound`, `EKF.ekf_information_sum`, `EKF.ekf_update_sensor_bound`, `EKF.square_information`. Exact arithmetic and exact solver for the gain; the covariance is that of the tangent coordinates, the filter does not transport it when the estimate moves.
* **C145 Mean squared error after k readings of a sensor is at most a k-th of the sensor's variance**. Props/EKFMeanSquare.lean: `sensorEvents` as events of the statistical specification (Spec/EKFStat.lean), `moment_quad`, `run_sensor` (the run is the fused list of readings); `ekf_repeat_mean_square` composes the covering of errors (C119) with the 1/k bound (C143). `coins_mean_square`: three coins, two readings.
  * *proved*: `EKF.ekf_repeat_mean_square`, `EKF.coins_mean_square`. Second moments on a finite probability space; exact arithmetic and exact solver for the gain.
* **C146 The PID controller leaves no steady error unless its integral is at the limit**. Spec/PIDSteady.lean: `Sample`, `calls`, `Spaced`. Props/PIDSteady.lean: `run_calls_iErr` (recursion of the integral), `pid_equilibrium` by cases of the clamp, `pid_saturates` by induction over the calls, `pid_no_steady_error` (the clamp is inactive in the end, so elapsed time times error is the difference of a convergent sequence). Concrete cases `halving_steady` (integral tends to -1, limit 2) and `stuck_saturates`.
  * *proved*: `PID.pid_equilibrium`, `PID.pid_saturates`, `PID.pid_no_steady_error`, `PID.halving_steady`, `PID.stuck_saturates`. Exact arithmetic (in floating point the integral has a dead zone, see C136).
* **C147 Predictions of the filter with small steps follow the differential equations of estimate and covariance**. Spec/EKFFlow.lean: `Flow` (the differential equations). Props/EKFFlow.lean: `tangent_error` (mean value inequality), `euler_grid` (induction over any grid of steps, staying in the tube), `pack_odeStep` (a step of the filter is a forward step of both equations); `ekf_predict_first_order` composes with the grid of the prediction loop (C54); `linear_lipschitz` and compactness give `ekf_predict_linear_first_order`. `decay_flow`, `decay_predicted`: x' = -x with noise 1.
  * *proved*: `EKF.ekf_predict_first_order`, `EKF.ekf_predict_linear_first_order`, `EKF.decay_flow`, `EKF.decay_predicted`. Exact arithmetic, vector space, Euler stepper (the default). The first-order gap is real: see C119 for what one step loses.
* **C148 The safety filter enforces its barrier conditions along the exact flow of the backup controller up to a constant times dt**. Spec/ASIFFlow.lean: `BackupFlow` (the differential equations of state and sensitivity), `SmoothLoop`, `SmoothBarrier`. Props/ASIFFlow.lean: `walk_near` (perturbed forward steps, induction over the steps, staying in a tube), `walk_eq` (the filter's steps of state and sensitivity are such steps; the derivative is taken at the new state, a second-order perturbation), `loopRhs_lipschitz`, `asif_lookahead_steps`, `asif_lookahead_first_order` (with the schedule of C48), `barrier_near`, `asif_program_flow` (with the rows of the program, `asif_program`). `chase_flow`, `chase_safe`: a car that follows a moving point before a wall.
  * *proved*: `ASIF.asif_lookahead_steps`, `ASIF.asif_lookahead_first_order`, `ASIF.asif_program_flow`, `ASIF.chase_flow`, `ASIF.chase_safe`. Exact arithmetic and vector spaces; the sensitivity on groups is C49.
* **C149 A double integrator under the PID controller tracks any moving reference with exponentially decaying error**. Spec/PIDTrack.lean: `Motion`, `energy`, `rate`. Props/PIDTrack.lean: `decay` (differential inequality), `rate_le`, `oscillator` (Lyapunov function with a mixed term), `ClosedLoop` (the plant driven by the output of the model's `call` after any history), `pid_tracks` (with `pid_integral_bounded`, C56), `pid_tracks_exactly`. `critical_loop`, `critical_tracks`: gains 1 and 2; `undamped_loop`, `undamped_energy`: kd = 0 oscillates. The loop is closed in continuous time: sampling and the group are not part of this claim; `pid_se2_converges` treats a sampled loop on SE(2).
  * *proved*: `PID.pid_tracks`, `PID.pid_tracks_exactly`, `PID.critical_loop`, `PID.critical_tracks`, `PID.undamped_loop`, `PID.undamped_energy`. Exact arithmetic; vector space; the controller is evaluated in continuous time.
* **C150 What the safety filter guarantees along the motion of the plant**. Props/ASIFInvariant.lean: `Guarded` (the plant driven by the results of the model's `Filter.call`), `Recoverable`; `asif_invariant` combines the first row of the program with the bound on the slack (C108) and the differential inequality `PID.decay`; `asif_invariant_exact` for M = 0. `finder` is an exact solver; `wall_call` computes the result of the filter for all states, `wall_guarded` the closed loop, `wall_bound` the conclusion and `wall_passed` shows that the safe set is left. The loop is closed in continuous time; sampling is not part of the claim.
  * *proved*: `ASIF.asif_invariant`, `ASIF.asif_invariant_exact`, `ASIF.finder_exact`, `ASIF.wall_call`, `ASIF.wall_guarded`, `ASIF.wall_bound`, `ASIF.wall_passed`. Exact arithmetic and exact solver; the filter is evaluated in continuous time. For the solver with tolerances see C142.
* **C151 Called every h seconds with held outputs, the PID controller stabilises a double integrator exactly if 0 < kp, kp h < 2 kd and kd h < 2**. Spec/PIDSampled.lean: `Clocked`, `Piecewise`, `Held`, `Vanishes`. Props/PIDSampled.lean: `recurrence_tends` (quadratic Lyapunov function of Schur and Cohn, decreasing by a square, and a 2x2 system for the limit), `err_tends`, `output_eq` (the model's `call` after the earlier calls), `pid_sampled_tracks`; `err_root` (eigenvector of a real root outside the unit disc, intermediate value theorem), `err_volume` (determinant), `err_unstable`, `pid_sampled_unstable`; `default_gains_sampled` is the concrete case.
  * *proved*: `PID.pid_sampled_tracks`, `PID.pid_sampled_unstable`, `PID.default_gains_sampled`. Exact arithmetic, vector space, no integral gain.
* **C152 What the safety filter guarantees when it is called once per period**. Props/ASIFSampled.lean: `SampledGuard` (calls of the model's filter at 0, p, 2p, ..., held inputs), `Drops`, `SampledRecoverable`; `decay_on` (differential inequality within a period), `asif_sampled_invariant` (induction over the periods). `wall_sampled`, `wall_sampled_bound`: the car of C150 called once per second.
  * *proved*: `ASIF.asif_sampled_invariant`, `ASIF.wall_sampled`, `ASIF.wall_sampled_bound`. Exact arithmetic and exact solver.
* **C153 Errors, innovations and noise of the Kalman filter balance exactly**. Spec/EKFBalance.lean: `errorSq`, `innovationSq`, `noiseSq`. Props/EKFBalance.lean: `complete_square` (matrix identity), `ekf_update_balance`, `ekf_balance` (induction over the readings, `totals` adds the terms up), `ekf_noiseless`, `ekf_error_information`, `ekf_error_bound` (with C144). `bal_converges`: squared error at most 48/k after k readings. `reading_balance`: 25/3 + 9 = 16 + 4/3 for one reading.
  * *proved*: `EKF.ekf_update_balance`, `EKF.ekf_balance`, `EKF.ekf_noiseless`, `EKF.ekf_error_information`, `EKF.ekf_error_bound`, `EKF.reading_balance`, `EKF.bal_converges`. Exact arithmetic and exact solver.
* **C154 What a constant disturbance does to the sampled PID loop**. Spec/PIDOffset.lean: `SettlesBehind`. Props/PIDOffset.lean: `pid_sampled_offset` (shifted errors satisfy the recurrence of C151), `vanishing_cancels` (with vanishing errors the disturbance plus the integral term vanishes), hence `pid_integral_learns`, and `pid_windup_offset` because the integral is clamped. `held_learned`: integral -1 under unit force. `pushed_settles`: a mass pushed with unit force settles at 1 instead of 0; `resting_offset`: at limit 1/2 and ki = 1 it rests at 1/2.
  * *proved*: `PID.pid_sampled_offset`, `PID.pid_windup_offset`, `PID.pid_integral_learns`, `PID.pushed_settles`, `PID.resting_offset`, `PID.held_learned`. Exact arithmetic.
* **C155 The Kalman filter forgets its first estimate**. Spec/EKFForget.lean: `AffineSensor`. Props/EKFForget.lean: `update_contracts` (one update, by `complete_square` of C153), `ekf_forgets` (induction over the readings, with C144), `ekf_forgets_direction`. `bal_forgets`: estimates 0 and 10 differ by at most sqrt(300 / k) after k readings.
  * *proved*: `EKF.update_contracts`, `EKF.ekf_forgets`, `EKF.ekf_forgets_direction`, `EKF.bal_forgets`. Exact arithmetic and exact solver.
* **C156 Integral gain rejects a constant disturbance in the sampled PID loop**. Props/PIDReject.lean: `first_order_tends`, `cubic_tends` (Schur-Cohn conditions for a third-order recurrence, by splitting off a real root and `recurrence_tends` of C151), `err3_tends`, `pid_sampled_rejects` (specification of C151 and C154). `returned_rejects`: the mass of C154 with ki = 1/2 returns to the reference and the integral tends to -2.
  * *proved*: `PID.cubic_tends`, `PID.pid_sampled_rejects`, `PID.returned_rejects`. Exact arithmetic. That the conditions are also necessary is not claimed.

