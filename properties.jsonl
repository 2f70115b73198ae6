{"id": "C01", "title": "Optimal status certifies the KKT conditions to tolerance", "statement": "If solve_qp returns code Optimal with polishing disabled, the returned primal x and dual y come with a point z inside [l,u] such that |Ax-z| <= eps_abs + eps_rel*max(|Ax|,|z|), |Px+q+A'y| <= eps_abs + eps_rel*max(|Px|,|q|,|A'y|) in the max norm, and exact complementarity: y_i > 0 only where z_i = u_i and y_i < 0 only where z_i = l_i.", "quantifier": "every QP (any size, any P, A, q, any bounds including infinite ones), every parameter set, every warm start, every number of iterations, with or without scaling", "why_tests_cant": "the claim ranges over all problems and all iteration counts; a test sees single problems and cannot observe the auxiliary point z", "anchors": ["include/smooth/feedback/qp_solver.hpp: QPSolver::solve, QPSolver::check_stopping, detail::polish_qp", "include/smooth/feedback/qp.hpp: QPSolutionStatus::Optimal"]}
{"id": "C02", "title": "Polished Optimal solutions still satisfy the tolerances", "statement": "If solve_qp returns code Optimal with polishing enabled, the returned (polished) primal and dual satisfy the same tolerance-KKT conditions.", "quantifier": "every QP, parameter set and warm start with polish = true", "why_tests_cant": "only specific problems can be sampled; the polish step is accepted without re-checking residuals so the failing inputs are rare", "anchors": ["include/smooth/feedback/qp_solver.hpp: QPSolver::solve 515-539, detail::polish_qp"]}
{"id": "C03", "title": "Optimal points are near-minimisers of the objective", "statement": "For convex problems (P symmetric positive semidefinite), if solve_qp returns Optimal without polishing then for every feasible w the objective at the returned x exceeds the objective at w by at most r_d*|w-x|_1 + r_p*|y|_1, where r_d, r_p are the tolerance bounds on dual and primal residual; in particular a zero-residual return is a global minimiser.", "quantifier": "every convex QP, every feasible comparison point w, every parameter set", "why_tests_cant": "quantifies over all feasible points of all QPs", "anchors": ["include/smooth/feedback/qp_solver.hpp: QPSolver::solve, check_stopping", "include/smooth/feedback/qp.hpp"]}
{"id": "C04", "title": "Warm starting from an exact solution returns that solution", "statement": "If the warm start is an exact KKT pair of the problem then every iterate equals that pair, and (when iterations allow one stopping check) solve_qp without polishing returns exactly the pair with code Optimal.", "quantifier": "every QP with an exact KKT pair, every number of iterations, every scaling", "why_tests_cant": "needs all problems and an induction over the number of iterations", "anchors": ["include/smooth/feedback/qp_solver.hpp: QPSolver::solve 436-510, check_stopping"]}
{"id": "C05", "title": "Stationary solver iterates are exact solutions", "statement": "If one solver iteration leaves primal, dual and auxiliary variables unchanged, the (unscaled) point is an exact KKT point, hence a global minimiser when P is positive semidefinite.", "quantifier": "every QP, every relaxation alpha != 0, sigma, rho > 0, every scaling", "why_tests_cant": "quantifies over all QPs and points", "anchors": ["include/smooth/feedback/qp_solver.hpp: QPSolver::solve 452-470"]}
{"id": "C06", "title": "PrimalInfeasible is only reported for infeasible problems", "statement": "If solve_qp returns PrimalInfeasible then no x satisfies l <= Ax <= u.", "quantifier": "every QP, parameter set, warm start", "why_tests_cant": "a universally quantified soundness claim about feasibility", "anchors": ["include/smooth/feedback/qp_solver.hpp: QPSolver::check_stopping 600-618, solve 361-366", "include/smooth/feedback/qp.hpp: PrimalInfeasible 'A certificate of primal infeasibility was found'"]}
{"id": "C07", "title": "DualInfeasible is only reported for unbounded or infeasible problems", "statement": "If solve_qp returns DualInfeasible then the objective is unbounded below on the feasible set, or the feasible set is empty.", "quantifier": "every convex QP, parameter set, warm start", "why_tests_cant": "soundness over all QPs", "anchors": ["include/smooth/feedback/qp_solver.hpp: QPSolver::check_stopping 620-641", "include/smooth/feedback/qp.hpp: DualInfeasible"]}
{"id": "C08", "title": "Iteration budget and exit-code logic", "statement": "With max_iter set solve_qp always terminates, reports iter <= max_iter, and reports MaxIterations exactly when no other verdict was reached, in which case iter = max_iter; Unknown is returned exactly when the factorisation failed; MaxTime is reported only if max_time is set and was exceeded; Optimal/infeasible verdicts require a passed test at the last executed iteration (or trivially empty bounds).", "quantifier": "every QP, warm start, parameter set, every behaviour of the factorisation and of the clock", "why_tests_cant": "all interleavings of clock behaviour, check schedule and problem data", "anchors": ["include/smooth/feedback/qp_solver.hpp: QPSolver::solve 428-566", "include/smooth/feedback/qp.hpp: QPSolutionStatus"]}
{"id": "C09", "title": "Stopping criteria are evaluated every stop_check_iter iterations", "statement": "For every configured stop_check_iter the solver evaluates its stopping criteria (and its time limit) at least once in every stop_check_iter consecutive iterations, so a solve with a reachable stopping condition or time limit ends.", "quantifier": "every positive stop_check_iter, every problem", "why_tests_cant": "non-termination cannot be observed by a test", "anchors": ["include/smooth/feedback/qp_solver.hpp: QPSolverParams::stop_check_iter, QPSolver::solve 476"]}
{"id": "C10", "title": "Trivially empty bounds are detected before iterating", "statement": "solve_qp reports PrimalInfeasible with iter = 0 whenever some row has l_i = +inf, u_i = -inf or u_i < l_i (and the factorisation succeeds); if no row is like that, the pre-check does not fire.", "quantifier": "every QP and every row, any parameters", "why_tests_cant": "all rows of all problems", "anchors": ["include/smooth/feedback/qp_solver.hpp: QPSolver::solve 361-374"]}
{"id": "C11", "title": "Internal problem scaling does not change the problem", "statement": "Scaling factors are strictly positive for every problem data; the scaled problem's feasible points, objective ordering and KKT points correspond one-to-one with the original's, and scaling followed by unscaling of warm starts and solutions is the identity.", "quantifier": "every QP (including zero rows/columns), every number of scaling rounds", "why_tests_cant": "all problem data", "anchors": ["include/smooth/feedback/qp_solver.hpp: QPSolver::scale, QPSolver::solve 436-445,480-484,546-548"]}
{"id": "C12", "title": "A failed polish is reported as PolishFailed", "statement": "If polishing is enabled, the iteration is optimal and the polish step fails, the returned code is PolishFailed.", "quantifier": "every QP whose polish factorisation fails", "why_tests_cant": "the failing factorisation is hard to provoke in tests", "anchors": ["include/smooth/feedback/qp_solver.hpp: QPSolver::solve 515-544", "include/smooth/feedback/qp.hpp: QPSolutionStatus::PolishFailed"]}
{"id": "C13", "title": "Only the upper triangle of P is used", "statement": "Two problems that differ only in the strictly lower triangle of P give the same result.", "quantifier": "every pair of QPs agreeing on the upper triangle", "why_tests_cant": "quantifies over pairs of problems", "anchors": ["include/smooth/feedback/qp.hpp: QuadraticProgram::P 'only upper triangular part is used'", "include/smooth/feedback/qp_solver.hpp: QPSolver::solve, check_stopping"]}
{"id": "C14", "title": "A solver object can be reused", "statement": "The result of QPSolver::solve depends only on the problem, warm start and parameters, not on problems solved earlier by the same object.", "quantifier": "every history of analyze/solve calls on problems with the same sparsity pattern", "why_tests_cant": "histories are unbounded", "anchors": ["include/smooth/feedback/qp_solver.hpp: QPSolver (members), analyze, solve"]}
{"id": "C15", "title": "Mesh invariant", "statement": "After any sequence of mesh operations the interval start points begin at 0, are strictly increasing and lie in [0,1), and every interval degree lies between Kmin and Kmax+1.", "quantifier": "every history of refine_ph, refine_errors, increase_degrees, decrease_degrees, set_N_colloc_ival on any constructed mesh with 1 <= Kmin <= Kmax", "why_tests_cant": "unbounded operation histories", "anchors": ["include/smooth/feedback/collocation/mesh.hpp: Mesh"]}
{"id": "C16", "title": "refine_ph divides exactly as documented", "statement": "refine_ph(i,D) leaves all other intervals untouched; if D exceeds Kmax (or the interval is already above Kmax) interval i becomes n = max(2, ceil(D/Kmin)) equal parts covering exactly the old interval, all of degree Kmin; if D is below the current degree nothing changes; otherwise only the degree of interval i becomes D.", "quantifier": "every mesh, interval and degree", "why_tests_cant": "all meshes and degrees", "anchors": ["include/smooth/feedback/collocation/mesh.hpp: Mesh::refine_ph"]}
{"id": "C17", "title": "refine_errors refines exactly the intervals above target", "statement": "refine_errors keeps every interval whose error is at most the target unchanged, refines each other interval exactly as refine_ph on that interval alone would, and keeps every old breakpoint.", "quantifier": "every mesh and error vector", "why_tests_cant": "index shifting during insertion across all meshes", "anchors": ["include/smooth/feedback/collocation/mesh.hpp: Mesh::refine_errors"]}
{"id": "C18", "title": "Mesh nodes are ordered, complete and start/end at 0/1", "statement": "all_nodes returns N_colloc()+1 strictly increasing nodes, the first 0 and the last 1, where interval i contributes its own nodes in order, and all_weights has the same length.", "quantifier": "every mesh reachable by any history, every degree", "why_tests_cant": "all meshes", "anchors": ["include/smooth/feedback/collocation/mesh.hpp: Mesh::all_nodes, all_weights, interval_nodes, N_colloc"]}
{"id": "C19", "title": "Quadrature weights integrate exactly", "statement": "Mesh weights are nonnegative, sum to one, and the composite rule integrates every piecewise polynomial that the underlying rule integrates exactly, over the whole mesh.", "quantifier": "every mesh, every polynomial up to the rule's degree", "why_tests_cant": "all meshes and polynomials", "anchors": ["include/smooth/feedback/collocation/mesh.hpp: Mesh::all_weights, interval_weights", "include/smooth/feedback/collocation/mesh_function.hpp: mesh_integrate"]}
{"id": "C20", "title": "Trajectory evaluation interpolates", "statement": "Mesh::eval at the j-th node returns exactly the j-th value given, and eval reproduces any function that is polynomial of degree at most the interval degree from its node samples; with extend=false the last interval uses one node less.", "quantifier": "every mesh, value sequence, time in [0,1]", "why_tests_cant": "all meshes, values, times", "anchors": ["include/smooth/feedback/collocation/mesh.hpp: Mesh::eval, interval_find"]}
{"id": "C21", "title": "Differentiation and integration matrices are exact", "statement": "For values of a polynomial of degree at most K at the nodes of an interval, multiplying with the differentiation matrix gives its derivative at the collocation points, the integration matrix exists and recovers the node values from the derivative values and the first value.", "quantifier": "every interval length > 0, every degree, every polynomial", "why_tests_cant": "all polynomials and degrees", "anchors": ["include/smooth/feedback/collocation/mesh.hpp: Mesh::interval_diffmat, interval_diffmat_unscaled, interval_intmat"]}
{"id": "C22", "title": "Interval lookup returns the containing interval", "statement": "interval_find(t) returns the first interval for t < 0, the last for t > 1, and otherwise the unique interval whose half-open span contains t (the last interval for t = 1).", "quantifier": "every mesh and every t", "why_tests_cant": "all meshes and times", "anchors": ["include/smooth/feedback/collocation/mesh.hpp: Mesh::interval_find"]}
{"id": "C23", "title": "Dynamics error estimate vanishes on exact solutions", "statement": "mesh_dyn_error is nonnegative, has one entry per interval, and is zero on every interval on which the trajectory is a polynomial of at most the degree of the comparison interval solving the dynamics.", "quantifier": "every mesh, dynamics, trajectory", "why_tests_cant": "all trajectories and meshes", "anchors": ["include/smooth/feedback/collocation/dyn_error.hpp: mesh_dyn_error"]}
{"id": "C24", "title": "mesh_eval value, Jacobian and Hessian", "statement": "mesh_eval yields F_i = w_i f(t_i,x_i,u_i) (w_i = 1 unless scaled), its Jacobian with respect to (t0,tf,X,U) is the true derivative, and the Hessian of lambda'F it stores is the true second derivative on and above the diagonal and zero below.", "quantifier": "every twice differentiable f, every mesh, every point and multiplier", "why_tests_cant": "derivatives at all points in all directions", "anchors": ["include/smooth/feedback/collocation/mesh_function.hpp: mesh_eval"]}
{"id": "C25", "title": "mesh_integrate value, Jacobian and Hessian", "statement": "mesh_integrate yields F = (tf-t0) sum_i w_i g(t_i,x_i,u_i), with exact Jacobian and exact upper-triangular Hessian of lambda'F.", "quantifier": "every twice differentiable g with at least one component, every mesh, point, multiplier", "why_tests_cant": "derivatives at all points", "anchors": ["include/smooth/feedback/collocation/mesh_function.hpp: mesh_integrate"]}
{"id": "C26", "title": "mesh_dyn value, Jacobian and Hessian", "statement": "mesh_dyn yields for each collocation point the weighted collocation defect w_i((tf-t0) f_i - sum_k D_ki x_k) over the interval containing the point, with exact Jacobian and upper-triangular Hessian of lambda'F.", "quantifier": "every twice differentiable f, every mesh, point, multiplier", "why_tests_cant": "the interval bookkeeping loop must be right for all meshes", "anchors": ["include/smooth/feedback/collocation/mesh_function.hpp: mesh_dyn"]}
{"id": "C27", "title": "Output buffers can be reused", "statement": "Calling mesh_eval, mesh_integrate or mesh_dyn with a buffer left from earlier calls on the same mesh gives the same numerical result as with a fresh buffer.", "quantifier": "every history of calls", "why_tests_cant": "unbounded histories", "anchors": ["include/smooth/feedback/collocation/mesh_function.hpp: mesh_eval, mesh_integrate, mesh_dyn", "include/smooth/feedback/utils/sparse.hpp: set_zero"]}
{"id": "C28", "title": "NLP feasibility equals discretised OCP feasibility", "statement": "A vector satisfies the variable and constraint bounds of the NLP built by ocp_to_nlp iff final time is nonnegative, every collocation equation holds, the integral variables equal the quadrature, and all running and end constraints hold at their nodes; the variable and constraint segments tile the vectors without overlap.", "quantifier": "every OCP, mesh and vector", "why_tests_cant": "all vectors and meshes", "anchors": ["include/smooth/feedback/ocp_to_nlp.hpp: OCPNLP, detail::ocp_nlp_structure"]}
{"id": "C29", "title": "NLP first derivatives are exact", "statement": "df_dx and dg_dx of the NLP are the true derivatives of f and g.", "quantifier": "every differentiable OCP, mesh, point", "why_tests_cant": "all points and directions", "anchors": ["include/smooth/feedback/ocp_to_nlp.hpp: OCPNLP::df_dx, dg_dx"]}
{"id": "C30", "title": "NLP Hessians are exact", "statement": "d2f_dx2 and d2g_dx2 are the upper triangles of the true Hessians of f and lambda'g.", "quantifier": "every twice differentiable OCP, mesh, point, multiplier", "why_tests_cant": "cross-derivative blocks only matter for particular objectives", "anchors": ["include/smooth/feedback/ocp_to_nlp.hpp: OCPNLP::d2f_dx2, d2g_dx2"]}
{"id": "C31", "title": "OCP/NLP solutions round-trip", "statement": "Converting an NLP solution to an OCP solution and back restores primal variables and multipliers exactly.", "quantifier": "every mesh, every solution with nonzero final time", "why_tests_cant": "all solutions and meshes", "anchors": ["include/smooth/feedback/ocp_to_nlp.hpp: nlpsol_to_ocpsol, ocpsol_to_nlpsol"]}
{"id": "C32", "title": "QP feasibility equals linearised OCP feasibility", "statement": "A vector is feasible for the QP built by ocp_to_qp iff the deviation satisfies the collocated linearised dynamics, the linearised running constraints at every node and the linearised end constraints.", "quantifier": "every OCP, mesh, linearisation trajectory, vector", "why_tests_cant": "all vectors", "anchors": ["include/smooth/feedback/ocp_to_qp.hpp: ocp_to_qp_update_dyn, _cr, _ce"]}
{"id": "C33", "title": "QP cost is the second-order model of the OCP cost", "statement": "The QP objective equals the second-order Taylor expansion of the OCP cost around the linearisation trajectory (up to a constant).", "quantifier": "every OCP with cost linear in the integral variable, mesh, trajectory", "why_tests_cant": "all costs", "anchors": ["include/smooth/feedback/ocp_to_qp.hpp: ocp_to_qp_update_cost"]}
{"id": "C34", "title": "In-place QP updates equal a fresh conversion", "statement": "After any sequence of in-place updates, ocp_to_qp_update leaves the QP numerically equal to the one built from scratch for the last arguments.", "quantifier": "every history of updates on one mesh/OCP structure", "why_tests_cant": "unbounded histories", "anchors": ["include/smooth/feedback/ocp_to_qp.hpp: ocp_to_qp_allocate, ocp_to_qp_update*, detail::OcpToQpWorkmemory"]}
{"id": "C35", "title": "Flattened OCP is equivalent", "statement": "Trajectories of the flattened problem correspond to trajectories of the original: cost, running and end constraints agree at corresponding points, and the flattened dynamics hold iff the original dynamics hold.", "quantifier": "every OCP and linearisation", "why_tests_cant": "all trajectories", "anchors": ["include/smooth/feedback/ocp_flatten.hpp: flatten_ocp, FlatDyn, FlatInnerFun, FlatEndptFun, unflatten_ocpsol"]}
{"id": "C36", "title": "Bernoulli coefficients of the flattened Hessian", "statement": "The coefficients used for the derivative of the inverse exponential map are the Bernoulli numbers.", "quantifier": "every index of the table", "why_tests_cant": "the table is finite but its meaning is an infinite-series identity", "anchors": ["include/smooth/feedback/ocp_flatten.hpp: detail::kBn, FlatDyn::hessian"]}
{"id": "C37", "title": "Second-order chain rule helper", "statement": "d2r_fog adds exactly the second derivative of a composition of twice differentiable functions to its output, at the requested offset.", "quantifier": "all twice differentiable f, g on vector spaces, all sizes and offsets", "why_tests_cant": "all functions and points", "anchors": ["include/smooth/feedback/utils/sparse.hpp: d2r_fog"]}
{"id": "C38", "title": "Sparse block operations touch exactly the block", "statement": "block_add, block_write, block_add_identity, block_write_identity change exactly the entries of the addressed block as documented, and nothing else.", "quantifier": "all matrices, blocks, offsets and scales", "why_tests_cant": "all matrices", "anchors": ["include/smooth/feedback/utils/sparse.hpp: block_add, block_add_identity, block_write, block_write_identity, set_zero"]}
{"id": "C39", "title": "MPC weights take effect", "statement": "After set_weights, the optimisation problem solved by the MPC uses the new weights.", "quantifier": "every weight, every call history", "why_tests_cant": "histories of setter calls", "anchors": ["include/smooth/feedback/mpc.hpp: MPC::set_weights, MPC::operator()"]}
{"id": "C40", "title": "MPC terminal weight penalises the terminal state", "statement": "Qtf weighs the deviation of the final state of the horizon, and only that.", "quantifier": "every weight", "why_tests_cant": "all weights", "anchors": ["include/smooth/feedback/mpc.hpp: detail::MPCObj::hessian"]}
{"id": "C41", "title": "MPC input weight is fully used", "statement": "Every entry of R weighs the corresponding pair of input deviations, regardless of Q.", "quantifier": "every Q, R, input and state dimension", "why_tests_cant": "all weights", "anchors": ["include/smooth/feedback/mpc.hpp: detail::MPCIntegrand::hessian 218-224"]}
{"id": "C42", "title": "MPC running constraints hold for the actual input", "statement": "If the MPC's QP is solved exactly and running constraints are linear, the returned input satisfies them, also after the desired trajectories have been changed.", "quantifier": "every sequence of setter calls", "why_tests_cant": "histories of setter calls", "anchors": ["include/smooth/feedback/mpc.hpp: MPC::operator() 475-495", "include/smooth/feedback/ocp_to_qp.hpp: ocp_to_qp_update_cr"]}
{"id": "C43", "title": "MPC copies are independent", "statement": "Changing the desired trajectories of a copy does not affect the original.", "quantifier": "every history of copies and setter calls", "why_tests_cant": "histories", "anchors": ["include/smooth/feedback/mpc.hpp: MPC (defaulted copy), xdes_, udes_"]}
{"id": "C44", "title": "MPC output and warm start logic", "statement": "The returned input is the desired input at the current time plus the first input deviation, equals the first element of the input trajectory; trajectory lengths are N and N+1 with N at least K; the warm start is replaced exactly when the solve ended Optimal, MaxTime or MaxIterations and warm starting is on, and reset_warmstart clears it.", "quantifier": "every history of calls", "why_tests_cant": "histories of solver outcomes", "anchors": ["include/smooth/feedback/mpc.hpp: MPC::MPC, MPC::operator(), reset_warmstart"]}
{"id": "C45", "title": "ASIF QP is feasible whenever the input set is", "statement": "For every state and time the QP built by the safety filter has a feasible point if some input satisfies the input constraints, however unsafe the state.", "quantifier": "every system, barrier, time, state", "why_tests_cant": "all states", "anchors": ["include/smooth/feedback/asif_func.hpp: asif_to_qp_update"]}
{"id": "C46", "title": "ASIF is minimally invasive", "statement": "If the desired input already satisfies the input constraints and all barrier constraints, the unique optimum of the filter QP is zero correction and zero slack, so the desired input is returned unchanged; any optimal point satisfies the barrier inequality up to the reported slack and the input constraints exactly.", "quantifier": "every system, barrier, desired input, positive definite weights", "why_tests_cant": "all states and inputs", "anchors": ["include/smooth/feedback/asif_func.hpp: asif_to_qp_update", "include/smooth/feedback/asif.hpp: ASIFilter::operator()"]}
{"id": "C47", "title": "ASIF enforces the barrier at the documented look-ahead times", "statement": "Constraint k is evaluated at time k*tau, tau = T/K.", "quantifier": "every horizon T, K and integration step dt", "why_tests_cant": "all step sizes", "anchors": ["include/smooth/feedback/asif_func.hpp: ASIFtoQPParams, asif_to_qp_update 190-210"]}
{"id": "C48", "title": "ASIF integration terminates and covers the horizon", "statement": "With positive dt, T and K the inner integration loop terminates for every k, the sampled times are strictly increasing and at least k*tau.", "quantifier": "every positive dt, T, K", "why_tests_cant": "non-termination", "anchors": ["include/smooth/feedback/asif_func.hpp: asif_to_qp_update 193-209"]}
{"id": "C49", "title": "ASIF sensitivity is the derivative of the flow", "statement": "The matrix used to propagate barrier gradients is the derivative of the numerically integrated closed-loop flow with respect to the initial state.", "quantifier": "every closed-loop system", "why_tests_cant": "all systems", "anchors": ["include/smooth/feedback/asif_func.hpp: asif_to_qp_update 150-165,200-207"]}
{"id": "C50", "title": "ASIF results do not depend on earlier calls' problem data", "statement": "The QP solved in a filter call depends only on the current arguments, not on earlier calls; the warm start changes only after an Optimal solve.", "quantifier": "every call history", "why_tests_cant": "histories", "anchors": ["include/smooth/feedback/asif_func.hpp: asif_to_qp_allocate, asif_to_qp_update", "include/smooth/feedback/asif.hpp: ASIFilter::operator()"]}
{"id": "C51", "title": "EKF covariance stays symmetric", "statement": "After any sequence of reset, predict and update calls the covariance is symmetric provided every reset covariance is.", "quantifier": "every history, system, measurement", "why_tests_cant": "histories", "anchors": ["include/smooth/feedback/ekf.hpp: EKF::predict, EKF::update, EKF::reset"]}
{"id": "C52", "title": "EKF covariance stays positive semidefinite", "statement": "After any sequence of predict and update calls with positive (semi)definite noise the covariance is positive semidefinite, and update never increases it.", "quantifier": "every history", "why_tests_cant": "histories and all matrices", "anchors": ["include/smooth/feedback/ekf.hpp: EKF::predict, EKF::update"]}
{"id": "C53", "title": "EKF measurement fusion is order independent and Bayes-optimal", "statement": "For linear measurements on a vector space an update equals the information-form Bayes update, so fusing independent measurements gives the same estimate and covariance in any order.", "quantifier": "all measurements, all orders", "why_tests_cant": "all matrices", "anchors": ["include/smooth/feedback/ekf.hpp: EKF::update"]}
{"id": "C54", "title": "EKF prediction covers exactly the requested time", "statement": "predict(tau, dt) terminates and performs steps of positive length at most dt whose sum is exactly tau (one step if dt is not given).", "quantifier": "every tau and dt", "why_tests_cant": "non-termination, all step sizes", "anchors": ["include/smooth/feedback/ekf.hpp: EKF::predict 93-125"]}
{"id": "C55", "title": "EKF uses only the upper triangle of Q and R", "statement": "Noise covariances that agree on the upper triangle give identical filters.", "quantifier": "every Q, R, history", "why_tests_cant": "pairs of matrices", "anchors": ["include/smooth/feedback/ekf.hpp: predict, update doc comments"]}
{"id": "C56", "title": "PID anti-windup bound", "statement": "After any sequence of calls and resets every component of the integral state has magnitude at most windup_limit, for every nonnegative limit.", "quantifier": "every history of calls with any times (also non-monotone) and states", "why_tests_cant": "histories", "anchors": ["include/smooth/feedback/pid.hpp: PID::operator(), reset_integral"]}
{"id": "C57", "title": "PID control law", "statement": "The output is feed-forward acceleration plus kp*error plus kd*velocity error plus ki*integral, where the integral is the clamped right-endpoint sum of error over elapsed time since the first call; gains and reference can change without disturbing the integral.", "quantifier": "every history", "why_tests_cant": "histories", "anchors": ["include/smooth/feedback/pid.hpp: PID::operator()"]}
{"id": "C58", "title": "PID integrates each instant at most once", "statement": "The integral accounts for no more time than the span between earliest and latest call times.", "quantifier": "every sequence of call times", "why_tests_cant": "histories", "anchors": ["include/smooth/feedback/pid.hpp: PID::operator() 125-140"]}
{"id": "C59", "title": "Time arithmetic round-trips", "statement": "minus(plus(t,d),t) recovers d exactly for floating-point (idealised) time and to within one tick, rounding toward zero, for chrono and ROS clocks; plus is monotone.", "quantifier": "every time, duration, tick period", "why_tests_cant": "all values", "anchors": ["include/smooth/feedback/time.hpp: time_trait", "include/smooth/feedback/compat/ros.hpp: time_trait for ROS types"]}
{"id": "C60", "title": "Ipopt Hessian and structure callbacks agree", "statement": "The triplets handed to Ipopt have row >= column, are listed in the same order in the structure call and every value call, and represent the transpose of sigma*d2f+d2g.", "quantifier": "every NLP, point, multiplier", "why_tests_cant": "all NLPs", "anchors": ["include/smooth/feedback/compat/ipopt.hpp: IpoptNLP::eval_h, get_nlp_info"]}
{"id": "C61", "title": "Ipopt status mapping", "statement": "Status Optimal is reported only when Ipopt reported SUCCESS, and each documented Ipopt outcome maps to its documented status.", "quantifier": "every Ipopt outcome", "why_tests_cant": "rare solver outcomes", "anchors": ["include/smooth/feedback/compat/ipopt.hpp: IpoptNLP::finalize_solution"]}
{"id": "C62", "title": "OSQP failures are not reported as success", "statement": "If OSQP setup or solve returns an error, the returned solution code is Unknown.", "quantifier": "every OSQP error code", "why_tests_cant": "error injection is not available in tests", "anchors": ["include/smooth/feedback/compat/osqp.hpp: solve_qp_osqp"]}
{"id": "C63", "title": "OSQP problem equals the given problem", "statement": "The problem handed to OSQP has the same feasible set and objective as the one given.", "quantifier": "every QP", "why_tests_cant": "all QPs", "anchors": ["include/smooth/feedback/compat/osqp.hpp: solve_qp_osqp (prune)"]}
{"id": "C64", "title": "Input bound sets are shifted correctly", "statement": "A correction mu satisfies the filter's input rows iff the corrected input lies in the manifold bound set l <= A(u - c) <= u (vector-space inputs).", "quantifier": "every bound set, desired input, correction", "why_tests_cant": "all inputs", "anchors": ["include/smooth/feedback/common.hpp: ManifoldBounds", "include/smooth/feedback/asif_func.hpp: asif_to_qp_update 225-240"]}
{"id": "C65", "title": "Active-set bookkeeping of the polish step", "statement": "The polish step indexes only rows whose multiplier is nonzero beyond tolerance and whose bound is finite, each row at most once, lower-active rows first; multipliers of other rows and the dimensions are untouched.", "quantifier": "every QP and dual vector", "why_tests_cant": "all duals", "anchors": ["include/smooth/feedback/qp_solver.hpp: detail::polish_qp 108-204"]}
{"id": "C66", "title": "Derivative evaluation on a mesh", "statement": "Mesh::eval with derivative order p returns the p-th derivative with respect to t of the piecewise polynomial through the given values.", "quantifier": "every mesh, time, values, derivative order", "why_tests_cant": "tests only use order 0", "anchors": ["include/smooth/feedback/collocation/mesh.hpp: Mesh::eval 435-481"]}
{"id": "C67", "title": "Solution of the quadratic program on the trajectory", "statement": "qpsol_to_ocpsol returns a trajectory that, at the time of every mesh node, is the linearisation plus the deviation stored for that node in the primal solution (inputs: at every collocation point).", "quantifier": "every mesh, linearisation, primal vector, final time", "why_tests_cant": "the test only integrates one system and compares with a tolerance", "anchors": ["include/smooth/feedback/ocp_to_qp.hpp: qpsol_to_ocpsol 452-499"]}
{"id": "C68", "title": "Safe inputs pass through the filter unchanged", "statement": "With the library's own QP solver and exact arithmetic, a filter that has only received desired inputs satisfying the input constraints and the barrier conditions returns each of them exactly, with code Optimal, polished or not.", "quantifier": "every system, barrier, history of such calls, solver parameters with stop_check_iter >= 2", "why_tests_cant": "call histories; numerical tests compare with a tolerance", "anchors": ["include/smooth/feedback/asif.hpp: ASIFilter::operator() 82-102", "include/smooth/feedback/qp_solver.hpp: solve_qp, QPSolver::solve, polish_qp"]}
{"id": "C69", "title": "OSQP settings follow the parameters", "statement": "Every parameter of the solver interface reaches OSQP with its documented meaning, and parameters that OSQP rejects lead to a defined result with code Unknown.", "quantifier": "every parameter set, every library", "why_tests_cant": "invalid parameters and failed setups are not exercised", "anchors": ["include/smooth/feedback/compat/osqp.hpp: solve_qp_osqp"]}
{"id": "C70", "title": "Ipopt first-order callbacks", "statement": "After every history of callbacks, the objective, gradient, constraint and Jacobian callbacks return the values at the point asked for, and the Jacobian triplets have the announced number and the same positions in the structure call and every value call.", "quantifier": "every NLP with a fixed sparsity pattern, point and callback history", "why_tests_cant": "callback histories", "anchors": ["include/smooth/feedback/compat/ipopt.hpp: IpoptNLP::eval_f, eval_grad_f, eval_g, eval_jac_g"]}
{"id": "C71", "title": "Ipopt bounds", "statement": "The bounds that Ipopt works with describe the same box as the bounds of the NLP.", "quantifier": "every NLP with finite bounds below 1e19 in magnitude", "why_tests_cant": "all bounds", "anchors": ["include/smooth/feedback/compat/ipopt.hpp: IpoptNLP::get_bounds_info"]}
{"id": "C72", "title": "Ipopt options and starting point", "statement": "A warm start reaches Ipopt unchanged, a run without one starts from zero, and the Hessian is announced exactly when Ipopt is going to use an exact Hessian.", "quantifier": "every option list, warm start and callback history", "why_tests_cant": "option lists and histories", "anchors": ["include/smooth/feedback/compat/ipopt.hpp: IpoptNLP::get_starting_point, solve_nlp_ipopt 298-338"]}
{"id": "C73", "title": "Fixed sparsity pattern of the transcribed program", "statement": "If the derivative routines of an optimal control problem always store the same positions, then the constraint Jacobian and both Hessians of the transcribed program store the same positions at every point, with every multiplier, after every history of calls; the Hessians store nothing below the diagonal.", "quantifier": "every problem, mesh, call history, point and multiplier", "why_tests_cant": "patterns are compared at a few points at best; an NLP solver silently corrupts memory if they differ", "anchors": ["include/smooth/feedback/ocp_to_nlp.hpp: OCPNLP::dg_dx, d2f_dx2, d2g_dx2", "include/smooth/feedback/collocation/mesh_function.hpp: mesh_eval, mesh_integrate, mesh_dyn", "include/smooth/feedback/utils/sparse.hpp: block_add, set_zero"]}
{"id": "C74", "title": "Optimal control problems through the Ipopt interface", "statement": "After every history of callbacks the matrix that Ipopt assembles from the triplets is the Hessian of sigma*objective + sum of multipliers times constraints of the collocated problem, the first-order callbacks return its values, gradient and Jacobian, and the points that satisfy the bounds Ipopt reads are exactly the feasible points of the collocated problem.", "quantifier": "every problem with exact derivatives of fixed pattern and without mixed second derivatives by integrals and states, every mesh, callback history, point and multiplier, bounds below 1e19", "why_tests_cant": "composition of three layers with hidden state", "anchors": ["include/smooth/feedback/ocp_to_nlp.hpp: OCPNLP", "include/smooth/feedback/compat/ipopt.hpp: IpoptNLP"]}
{"id": "C75", "title": "Derivatives of flattened functions", "statement": "The jacobian and hessian members of the flattened running and end point functions return the first and second partial derivatives of the flattened function by its flat arguments.", "quantifier": "every group, function with right derivatives, reference trajectory and point", "why_tests_cant": "tests compare with numerical derivatives at a few points, for references without acceleration", "anchors": ["include/smooth/feedback/ocp_flatten.hpp: FlatInnerFun, FlatEndptFun"]}
{"id": "C76", "title": "Flattened functions do not depend on earlier calls", "statement": "The matrices that FlatInnerFun, FlatEndptFun and FlatDyn keep between calls do not change later results: after every history of jacobian and hessian calls the next call is defined and returns the same numbers as on a fresh object.", "quantifier": "every call history", "why_tests_cant": "call histories with hidden state", "anchors": ["include/smooth/feedback/ocp_flatten.hpp: FlatInnerFun, FlatEndptFun, FlatDyn (mutable members)"]}
{"id": "C77", "title": "Jacobian of the flattened dynamics", "statement": "FlatDyn::jacobian returns the partial derivatives of the flattened dynamics by time, error and input.", "quantifier": "every group, dynamics, reference trajectory and point where the exponential map is regular", "why_tests_cant": "all points; references with acceleration are not tested", "anchors": ["include/smooth/feedback/ocp_flatten.hpp: FlatDyn::jacobian"]}
{"id": "C78", "title": "Hessian of the flattened dynamics", "statement": "FlatDyn::hessian returns the second partial derivatives of the flattened dynamics.", "quantifier": "every group, dynamics, reference trajectory and point", "why_tests_cant": "the code uses a truncated infinite series", "anchors": ["include/smooth/feedback/ocp_flatten.hpp: FlatDyn::hessian"]}
{"id": "C79", "title": "The QP solver terminates on solvable convex programs", "statement": "Without limits on iterations or time, solve_qp returns on every convex program that has a solution with multipliers: from some iteration on every iterate passes the optimality test, whatever the warm start and the scaling, with an explicit rate.", "quantifier": "every convex program with a solution, positive eps_abs, 0 < alpha < 2, stop_check_iter >= 2, every warm start", "why_tests_cant": "termination for all inputs; a test can only run finitely many programs", "anchors": ["include/smooth/feedback/qp_solver.hpp: QPSolver::solve 448-510, check_stopping"]}
{"id": "C80", "title": "The QP solver's iterates converge to a solution", "statement": "The primal, dual and auxiliary iterates converge, and the limit is an exact minimiser with its multipliers.", "quantifier": "every convex program with a solution (also with many), every warm start and scaling, 0 < alpha < 2", "why_tests_cant": "a limit of infinitely many iterations", "anchors": ["include/smooth/feedback/qp_solver.hpp: QPSolver::solve 448-477"]}
{"id": "C81", "title": "Quadratic program on Lie groups: constraints", "statement": "For states and inputs on Lie groups, ocp_to_qp succeeds and a vector satisfies the constraints of the program exactly when the deviation it holds satisfies the collocated linearisation of the error dynamics and the linearised running and end constraints; the error dynamics are those of the error of every trajectory of the system.", "quantifier": "every pair of Lie groups (commutative or not), problem with right derivatives, mesh, linearisation and final time", "why_tests_cant": "the test compares with numerical derivatives on one problem", "anchors": ["include/smooth/feedback/ocp_to_qp.hpp: ocp_to_qp_allocate, ocp_to_qp_update"]}
{"id": "C82", "title": "Quadratic program on Lie groups: objective", "statement": "The objective of the program is, up to a constant, the second-order expansion of the cost of the trajectory x_lin (+) dx, u_lin (+) du.", "quantifier": "every pair of Lie groups, problem whose cost is linear in the integral, mesh, linearisation and final time", "why_tests_cant": "the objective is not tested on groups", "anchors": ["include/smooth/feedback/ocp_to_qp.hpp: ocp_to_qp_update_cost"]}
{"id": "C83", "title": "Quadratic program on Lie groups: returned trajectory", "statement": "The trajectory that qpsol_to_ocpsol returns is, at the time of every mesh node, the linearisation moved by rplus with the deviation stored for that node (inputs: at every collocation point).", "quantifier": "every pair of Lie groups, mesh, linearisation, primal vector, final time", "why_tests_cant": "the test only integrates one system and compares with a tolerance", "anchors": ["include/smooth/feedback/ocp_to_qp.hpp: qpsol_to_ocpsol 452-499"]}
{"id": "C84", "title": "MPC starts at the current state", "statement": "When the solver reports Optimal, the state trajectory that the MPC returns starts exactly at the current state, also on groups that do not commute.", "quantifier": "every Lie group, system, desired trajectory, time, current state and call history", "why_tests_cant": "the code negates a tangent vector of the opposite difference; tests only use states close to the desired ones", "anchors": ["include/smooth/feedback/mpc.hpp: detail::MPCCE, MPC::operator()"]}
{"id": "C85", "title": "MPC horizon follows the linearised error dynamics", "statement": "The program of every call is satisfied exactly by the deviations that start at the current state, satisfy the collocated first-order expansion of the dynamics of the error x - xdes(t) on the group (with the ad terms of a non-commutative group), and the linearised running constraints.", "quantifier": "every pair of Lie groups, dynamics, desired trajectory, time and call history", "why_tests_cant": "histories and groups; tests use one system and a tolerance", "anchors": ["include/smooth/feedback/mpc.hpp: detail::MPCDyn, MPC::operator()", "include/smooth/feedback/ocp_to_qp.hpp: ocp_to_qp_update"]}
{"id": "C86", "title": "EKF steppers act on state and covariance together", "statement": "With any ODE stepper, a prediction is that stepper applied to the coupled differential equation of state and covariance over the interval.", "quantifier": "every explicit Runge-Kutta stepper, system, noise, interval and step size", "why_tests_cant": "tests only use the default stepper", "anchors": ["include/smooth/feedback/ekf.hpp: EKF::predict, Stpr"]}
{"id": "C87", "title": "Derivative test of optimal control problems", "statement": "test_ocp_derivatives returns true exactly if at every trial point every derivative that the problem provides agrees with the reference within eps; a problem with exact derivatives always passes.", "quantifier": "every problem, number of trials, set of random points and eps", "why_tests_cant": "the test helper itself is only run on right derivatives", "anchors": ["include/smooth/feedback/ocp.hpp: test_ocp_derivatives"]}
{"id": "C88", "title": "MPC shares one solver between calls", "statement": "The QP solver object that an MPC analyses once and then reuses, copies and assigns with the controller never changes a result: every history of constructor, copy, assignment, setter and operator() calls gives the results it would give with a new solver for every program. The program of every call stores the same positions in the same order as the one that was analysed.", "quantifier": "every Lie group, system, history of calls on any number of controllers, parameter set and linear algebra that reads the upper triangle", "why_tests_cant": "hidden solver state over call histories; a changed pattern is undefined behaviour that tests need not notice", "anchors": ["include/smooth/feedback/mpc.hpp: MPC::MPC 419-424, operator() 490, copy and assignment", "include/smooth/feedback/qp_solver.hpp: QPSolver::analyze, solve"]}
{"id": "C89", "title": "MPC calls return, with a certified result", "statement": "With a limit on iterations every call of operator() on an existing controller returns, after every history. If it reports Optimal, the stored solution violates the constraints of its program by at most the primal tolerance, and its cost exceeds that of any admissible deviation over the horizon by at most the stated combination of both tolerances.", "quantifier": "every Lie group, system, desired trajectory, time, state and call history; certificate: polishing off", "why_tests_cant": "all histories and states; optimality of the answer is not tested", "anchors": ["include/smooth/feedback/mpc.hpp: MPC::operator()", "include/smooth/feedback/qp_solver.hpp: QPSolver::solve, check_stopping"]}
{"id": "C90", "title": "MPC on its desired trajectory", "statement": "If the desired trajectory satisfies the dynamics and the constraints at the nodes and the current state lies on it, the call reports Optimal and returns exactly the desired input and the desired trajectories; this goes on for any number of such calls.", "quantifier": "every Lie group, system, desired trajectory, horizon, mesh and sequence of times; a controller that has no stored solution but zero; linear algebra exact", "why_tests_cant": "tests use a tolerance and one system", "anchors": ["include/smooth/feedback/mpc.hpp: MPC::operator()", "include/smooth/feedback/ocp_to_qp.hpp: ocp_to_qp_update, qpsol_to_ocpsol", "include/smooth/feedback/qp_solver.hpp: QPSolver::solve, polish_qp"]}
{"id": "C91", "title": "QP solver: the steps converge to certificates", "statement": "For every convex program, feasible or not, bounded or not, the differences of consecutive iterates converge. The limit of the dual differences is zero or an exact Farkas certificate, and it is not zero whenever the program has one; the limit of the primal differences is zero or an exact direction of unboundedness, and it is not zero whenever the program has one. So an infeasible program with a certificate passes the test for it from some iteration on, and on a feasible program that is not unbounded both residuals vanish.", "quantifier": "every convex program with a non-empty box, warm start, scaling and penalty; the limit of infinitely many iterations", "why_tests_cant": "a limit of infinitely many iterations on programs without a solution", "anchors": ["include/smooth/feedback/qp_solver.hpp: QPSolver::solve 448-477, check_stopping 596-641"]}
{"id": "C92", "title": "QP solver returns on every convex program", "statement": "Without any limit on iterations or time, solve_qp returns on every convex program: feasible or not, bounded or not, whatever the bounds.", "quantifier": "every convex program, warm start and parameter set with positive tolerances", "why_tests_cant": "termination without bound, programs of all sizes", "anchors": ["include/smooth/feedback/qp_solver.hpp: solve_qp, QPSolver::solve, check_stopping"]}
{"id": "C93", "title": "MPC desired trajectories in relative time", "statement": "After set_xdes_rel(fx, tx) and set_udes_rel(fu, tu), a call at time t returns fu(t - tu) plus the first input deviation, and trajectories that are fu and fx at t - tu + tau and t - tx + tau plus the deviations, up to the accuracy of the clock (exact for idealised floating point, one tick for tick clocks); the stored velocity is the velocity of the stored trajectory.", "quantifier": "every Lie group, system, trajectory, reference time, time of call and call history", "why_tests_cant": "all times and clocks", "anchors": ["include/smooth/feedback/mpc.hpp: MPC::set_xdes_rel 575-588, set_udes_rel 539-545, operator()", "include/smooth/feedback/time.hpp: time_trait"]}
{"id": "C94", "title": "Trajectories of feasible points satisfy the problem on the group", "statement": "Flatten an optimal control problem on Lie groups, transcribe it, and convert a point of the nonlinear program back with nlpsol_to_ocpsol and unflatten_ocpsol: the state is a continuous curve, and state and input satisfy the original problem at the collocation points (differential equation, running constraints, integrals by quadrature, end constraints) exactly when the point is feasible; the objective of the program is the cost of the trajectory.", "quantifier": "every Lie group, problem, reference trajectory, mesh, and point of the program with positive final time and regular states", "why_tests_cant": "the chain of four conversions is only tested on two problems with a tolerance", "anchors": ["include/smooth/feedback/ocp_to_nlp.hpp: ocp_to_nlp, nlpsol_to_ocpsol", "include/smooth/feedback/ocp_flatten.hpp: flatten_ocp, unflatten_ocpsol", "include/smooth/feedback/collocation/mesh.hpp: Mesh::eval"]}
{"id": "C95", "title": "The collocation points are well defined for every degree", "statement": "For every number of points K there is exactly one set of nodes and weights with what the mesh relies on (nodes increase from -1 and stay below 1, positive weights, exact for degree 2K-2), so the collocation points and weights of a mesh do not depend on where the reference rules come from, and all statements about meshes hold for meshes of every degree.", "quantifier": "every number of points, every mesh", "why_tests_cant": "tables can only be tested for finitely many K", "anchors": ["include/smooth/feedback/collocation/mesh.hpp: lgr_plus_one 33-48, all_nodes, all_weights"]}
{"id": "C96", "title": "The optimality certificate survives rounding", "statement": "In floating point arithmetic (relative error u of every operation, no overflow or underflow), with any warm start, scaling, LDLT and square root, an Optimal result without polishing satisfies the KKT conditions to the requested tolerance up to explicit multiples of u, and its cost exceeds the minimum by at most an explicit amount.", "quantifier": "every program, precision, rounding (to nearest or directed), order of summation, linear solver, warm start and parameter set with polishing off", "why_tests_cant": "rounding errors of all sizes; tests run on well scaled programs", "anchors": ["include/smooth/feedback/qp_solver.hpp: QPSolver::solve 338-518, check_stopping 549-641, scale"]}
{"id": "C97", "title": "Warm start from the solver's own solution", "statement": "solver.solve(pbm, solver.sol()) gives the same result as passing a copy of solver.sol().", "quantifier": "every program, parameter set and solution held by the solver", "why_tests_cant": "the tests never pass sol() back; solve takes the warm start by reference and overwrites sol_ while reading it", "anchors": ["include/smooth/feedback/qp_solver.hpp: QPSolver::solve 343-344, 436-440, sol() 290"]}
{"id": "C98", "title": "EKF symmetry is exact in floating point", "statement": "In every arithmetic, whatever it does to the results of operations, the covariance after any history is symmetric to the last bit (if every reset covariance is), and only the upper triangles of Q and R are read. Without rounding the two models agree.", "quantifier": "every arithmetic, order of summation, linear solver, group, stepper and history", "why_tests_cant": "tests use a tolerance and few histories", "anchors": ["include/smooth/feedback/ekf.hpp: EKF::predict, EKF::update 129-138"]}
{"id": "C99", "title": "EKF in floating point: termination and definiteness", "statement": "In floating point arithmetic predict with a positive step size returns after covering the requested time, and update keeps the covariance positive semidefinite and does not increase it.", "quantifier": "every precision, system, measurement, time and step size", "why_tests_cant": "the failures need many steps or precise measurements", "anchors": ["include/smooth/feedback/ekf.hpp: EKF::predict 91-98, EKF::update 129-138"]}
{"id": "C100", "title": "QP scaling balances the problem", "statement": "After scale no entry of the scaled cost and constraint matrices exceeds one and the scale of the cost is between 0 and 1e6; columns and rows without entries keep scale one; and once the largest entries are within 0.1 of one before a round, every other column and row keeps an entry of at least 9/11.", "quantifier": "every problem with symmetric P, any magnitudes, any number of rounds", "why_tests_cant": "all magnitudes of data; the tests only look at solutions", "anchors": ["include/smooth/feedback/qp_solver.hpp: QPSolver::scale 673-730"]}
{"id": "C101", "title": "Linear-quadratic problems are transcribed exactly", "statement": "If dynamics and constraints are affine in state and input, the integrand quadratic and the end cost affine, and the linearisation is a polynomial of the degree of the mesh, then the quadratic program of ocp_to_qp is the nonlinear program of ocp_to_nlp with the final time fixed: its feasible points are the feasible points, its cost is the objective up to a constant, and its minimisers are the minimisers.", "quantifier": "every linear-quadratic problem (any dependence on time), mesh, final time and linearisation about a polynomial", "why_tests_cant": "equality of two transcriptions for all problems and meshes; no test compares them", "anchors": ["include/smooth/feedback/ocp_to_qp.hpp: ocp_to_qp", "include/smooth/feedback/ocp_to_nlp.hpp: ocp_to_nlp"]}
{"id": "C102", "title": "Linear-quadratic problems are solved", "statement": "On the quadratic program of a convex linear-quadratic problem the solver returns, and an Optimal result gives a trajectory that satisfies the constraints up to the primal tolerance and whose cost exceeds that of any feasible trajectory by at most the stated combination of both tolerances; started at a solution, the solver reports Optimal.", "quantifier": "every convex linear-quadratic problem, mesh, final time, polynomial linearisation, warm start and parameter set (polishing off for the certificate)", "why_tests_cant": "all problems; the examples only plot one solution", "anchors": ["include/smooth/feedback/ocp_to_qp.hpp: ocp_to_qp", "include/smooth/feedback/qp_solver.hpp: QPSolver::solve, check_stopping 589", "include/smooth/feedback/qp.hpp: QuadraticProgram 63"]}
{"id": "C103", "title": "The double integrator example is solved exactly", "statement": "The derivatives written by hand in the double integrator example are right. On every mesh its quadratic program has the minimisers of its nonlinear program; on the mesh of the example there is exactly one, the solver returns, and an Optimal result without polishing is a near-minimiser of the nonlinear program.", "quantifier": "every mesh (first part); every linear solver, warm start and parameter set with positive tolerances (second part)", "why_tests_cant": "optimality over all trajectories", "anchors": ["examples/ocp_doubleintegrator.hpp", "examples/ocp_doubleintegrator_qp.cpp: main", "examples/ocp_doubleintegrator_nlp.cpp: main", "include/smooth/feedback/ocp_to_qp.hpp: ocp_to_qp"]}
{"id": "C104", "title": "Polishing converges on the identified active rows", "statement": "On a convex program the perturbed system of the polish step is nonsingular whatever rows are taken as active, so polishing does not fail. If the rows taken as active belong to some pair that satisfies the reduced optimality conditions, the sum of the squared residuals after k refinement passes is at most delta^2/k times the squared norm of that pair, and the polished pair converges to an exact solution of the reduced conditions as k grows. From some iteration on the active rows are identified if no nonzero multiplier of the limit is within the activity threshold.", "quantifier": "every convex program, scaling, set of active rows (also linearly dependent), number of passes, delta > 0", "why_tests_cant": "limits, and all active sets; tests look at a few well-posed programs", "anchors": ["include/smooth/feedback/qp_solver.hpp: polish_qp 92-204, QPSolver::solve 366-373"]}
{"id": "C105", "title": "The solver and the three classes of convex programs", "statement": "Every convex program is infeasible, unbounded, or has a minimiser, and not two of these; a Farkas certificate or an empty row, a direction of unboundedness, and multipliers exist in exactly these cases. The iterates converge exactly if there is a minimiser, and then to one with its multipliers; without limits the solver returns. If no row is empty and no point is feasible, every check from some iteration on passes the primal infeasibility test; if the program is unbounded and every row has a bound, the dual infeasibility test. With relative tolerance zero and a small enough absolute tolerance, Optimal is returned only on programs that have a minimiser.", "quantifier": "every convex program, warm start, scaling, penalty, linear solver that is exact (last part: any linear solver, polishing on or off)", "why_tests_cant": "existence of certificates and limits for all programs", "anchors": ["include/smooth/feedback/qp_solver.hpp: QPSolver::solve 448-510, check_stopping 549-641"]}
{"id": "C106", "title": "ASIF in floating point: look-ahead times", "statement": "In floating point arithmetic asif_to_qp returns for every positive horizon and step size, and constraint k is evaluated at the time at which exact arithmetic evaluates it, up to rounding errors.", "quantifier": "every precision, system, barrier, backup controller, horizon, number of constraints and step size", "why_tests_cant": "an extra integration step depends on the last bit of a sum; the tests do not look at the times", "anchors": ["include/smooth/feedback/asif_func.hpp: asif_to_qp_update 138-143, 173-179"]}
{"id": "C107", "title": "Mesh refinement loop", "statement": "The loop transcribe, solve, measure, refine, convert returns after at most the given number of passes. Every pass works on a valid mesh without extra degrees, with a warm start of the right size, and measures the error of every interval with one more point than it has. It ends by break exactly if no error of the last pass exceeds the target. Each refinement keeps the breakpoints and adds points; the warm start takes the values of the last solution at the new nodes, and it is the same solution at every time exactly if no interval of more than the least degree is split. Increasing and decreasing the degrees restores the mesh exactly if it holds no degree above the largest one.", "quantifier": "every problem, solver that returns, valid start mesh, target and number of passes", "why_tests_cant": "loops of all lengths over all meshes; the examples are only run for one problem", "anchors": ["examples/ocp_se2_nlp.cpp: 35-91", "examples/ocp_doubleintegrator_nlp.cpp: 28-82", "include/smooth/feedback/collocation/mesh.hpp: refine_errors, increase_degrees, decrease_degrees, eval", "include/smooth/feedback/ocp_to_nlp.hpp: nlpsol_to_ocpsol, ocpsol_to_nlpsol", "include/smooth/feedback/collocation/dyn_error.hpp"]}
{"id": "C108", "title": "ASIF enforces the barrier conditions", "statement": "If some admissible input satisfies the barrier conditions of a call, the input that the filter returns satisfies them. In particular the closed loop of the double integrator example keeps the position below its limit.", "quantifier": "every system, barrier, backup controller, desired input and call history with exactly solved programs; example: every number of turns and every exact solver", "why_tests_cant": "the relaxed program violates conditions by small amounts everywhere; the tests do not check the conditions at the result and the example only plots", "anchors": ["include/smooth/feedback/asif_func.hpp: asif_to_qp_update 182-197", "include/smooth/feedback/asif.hpp: ASIFilter::operator()", "examples/asif_doubleintegrator.cpp: main"]}
{"id": "C109", "title": "Multipliers of the optimal control solution", "statement": "At a stationary point of the nonlinear program the functions and vectors lambda_dyn, lambda_q, lambda_cr, lambda_ce of nlpsol_to_ocpsol satisfy the first order conditions of the optimal control problem at the collocation points: adjoint equation, transversality, stationarity of the Hamiltonian in the input and the condition on the final time. Conversely such multipliers make the point stationary.", "quantifier": "every problem with exact derivatives, mesh, solution with positive final time, and call history of the OCPNLP object", "why_tests_cant": "the tests convert multipliers back and forth but never compare them with costates", "anchors": ["include/smooth/feedback/ocp_to_nlp.hpp: nlpsol_to_ocpsol 442-508, OCPNLP w_scaling_ 121-124, g, dg_dx", "include/smooth/feedback/ocp.hpp: OCPSolution"]}
{"id": "C110", "title": "The controller always answers", "statement": "Without limits on iterations and time every history of calls on predictive controllers (construct, copy, assign, call, set desired trajectories and weights, reset) returns, whatever the solver objects carry over from call to call; every call then reports Optimal, PrimalInfeasible or DualInfeasible. The program of a call has either no admissible point or exactly one best one.", "quantifier": "every history that uses only objects made from valid arguments, every system, constraint, bound and state, both storage types, every solver parameters in range with polishing on or off", "why_tests_cant": "non-termination of an iterative solver with carried-over state cannot be observed by running it", "anchors": ["include/smooth/feedback/mpc.hpp: MPC::operator()", "include/smooth/feedback/qp_solver.hpp: QPSolver::solve"]}
{"id": "C111", "title": "QP answers converge to exact solutions", "statement": "For every cost and constraint matrix there is a constant C such that an Optimal answer without polishing lies within C times the tolerance of an exact solution with its multipliers, once the tolerance is below a threshold that depends on the program. As the tolerances tend to zero the answers tend to the set of exact solutions. Exact solutions depend on the cost vector and the bounds in a Lipschitz way.", "quantifier": "every program (convex for the convergence), warm start, linear solver and parameter set with polishing off", "why_tests_cant": "small residuals do not bound the distance to a solution by themselves; the tests compare few programs with known solutions", "anchors": ["include/smooth/feedback/qp_solver.hpp: QPSolver::solve, check_stopping 570-595"]}
{"id": "C112", "title": "Small tolerances give right verdicts", "statement": "For a convex program whose solutions and multipliers exist and are bounded there is a threshold such that with tolerances below it the solver reports neither PrimalInfeasible nor DualInfeasible, so that without limits it reports Optimal, with an answer within a constant times the tolerance of a minimiser.", "quantifier": "every such program, warm start, linear solver, clock and parameter set below the threshold", "why_tests_cant": "the threshold depends on the program; wrong verdicts need coincidences", "anchors": ["include/smooth/feedback/qp_solver.hpp: check_stopping 598-641, QPSolver::solve"]}
{"id": "C113", "title": "QP answers do not depend on how the program is written", "statement": "Renumbering the variables and the rows of a program, and replacing variables and rows by their negatives (bounds exchanged), changes the answer of solve_qp accordingly and nothing else: same status, number of iterations and objective, and the same point and multipliers in the new numbering and signs.", "quantifier": "every convex program, renumbering, choice of signs, warm start and parameter set with positive sigma, rho and delta", "why_tests_cant": "tests do not compare runs on rewritten programs; all sizes and permutations", "anchors": ["include/smooth/feedback/qp_solver.hpp: solve_qp, QPSolver::solve, scale, check_stopping, polish_qp"]}
{"id": "C114", "title": "The mesh survives rounding", "statement": "In floating point arithmetic, after every history of mesh operations the breakpoints start at 0 and increase strictly below 1, the nodes of every interval run from its start exactly to the start of the next one, all nodes run from exactly 0 to exactly 1 in order, and weights and differentiation matrices are finite and carry only rounding errors.", "quantifier": "every binary precision, constructor, history of refinements and degree changes", "why_tests_cant": "tests use few refinements; cancellation and coincidences of breakpoints appear only after many", "anchors": ["include/smooth/feedback/collocation/mesh.hpp: Mesh, refine_ph, refine_errors, interval_nodes, interval_weights, all_nodes, interval_diffmat"]}
{"id": "C115", "title": "Controller answers converge to the solution", "statement": "For every situation of a predictive controller (system, arguments, desired trajectories, time, state) there are a constant and a threshold such that, after every history of calls and with every warm start, an Optimal call with tolerance below the threshold applies an input, and predicts states and inputs, within the constant times the tolerance of the solution of the linearised problem. If the problem stays solvable under small disturbances, then small tolerances without limits make every such call return, report Optimal and apply such an input.", "quantifier": "every system, constraint, desired trajectory, state, history, linear solver and parameter set with polishing off and relative tolerance zero", "why_tests_cant": "the constant is a supremum over all histories and solver settings; tests look at single calls", "anchors": ["include/smooth/feedback/mpc.hpp: MPC::operator()", "include/smooth/feedback/ocp_to_qp.hpp: ocp_to_qp_update", "include/smooth/feedback/qp_solver.hpp: QPSolver::solve"]}
{"id": "C116", "title": "A QP solution is a complete OCP solution", "statement": "If qpsol solves the quadratic program of a problem, qpsol_to_ocpsol returns a solution of the problem's type with its times, states, inputs, integrals and multipliers, so that it can be handed to ocpsol_to_nlpsol as a starting point of the nonlinear program.", "quantifier": "every problem with one integral, mesh, final time, linearisation and vector of the size of the program", "why_tests_cant": "the tests read only x and u of the record; what unset members contain depends on the library and the stack", "anchors": ["include/smooth/feedback/ocp_to_qp.hpp: qpsol_to_ocpsol 452-497", "include/smooth/feedback/ocp.hpp: OCPSolution 112-153, OCP::Solution 70", "include/smooth/feedback/ocp_to_nlp.hpp: ocpsol_to_nlpsol 515-554"]}
{"id": "C117", "title": "Independence of the frame of reference", "statement": "Expressed in another frame (a left translation of the group, and another origin of time), the PID controller gives the same inputs, the EKF the moved estimate with the same covariance, and the safety filter the same inputs and codes.", "quantifier": "every frame change that commutes with motions and keeps differences, and every history of calls", "why_tests_cant": "a test compares the numbers of a few states in one frame; invariance is about all pairs of histories, and fails only for states away from the identity", "anchors": ["include/smooth/feedback/pid.hpp: PID", "include/smooth/feedback/ekf.hpp: EKF", "include/smooth/feedback/asif.hpp: ASIFilter", "include/smooth/feedback/asif_func.hpp: asif_to_qp_update"]}
{"id": "C118", "title": "The predictive controller does not depend on the frame of reference", "statement": "Expressed in another frame of states and inputs and with another origin of time, the predictive controller returns the moved inputs and trajectories and the same codes, after every history.", "quantifier": "every frame change, every history of constructions, copies, assignments, calls, changes of trajectories and weights and resets, every QP solver setting", "why_tests_cant": "the tests use trajectories near the identity of the group, where all frames look alike", "anchors": ["include/smooth/feedback/mpc.hpp: MPC 380-636, MPCDyn 125-163, MPCCR 234-273", "include/smooth/feedback/ocp_to_qp.hpp: ocp_to_qp_update", "include/smooth/feedback/qp_solver.hpp: QPSolver::solve"]}
{"id": "C119", "title": "The covariance of the EKF covers the errors of its estimates", "statement": "For linear systems with uncorrelated noise, the covariance that the filter keeps is that of the error of its estimate if it is told the right noise covariances, and covers it if it is told larger ones; no other gain does better, and larger priors or noises never give smaller covariances.", "quantifier": "every linear system, every history of predictions and updates, every distribution with finitely many outcomes", "why_tests_cant": "a test sees one run of the filter; covariance is a statement about all outcomes of the noise at once", "anchors": ["include/smooth/feedback/ekf.hpp: EKF::predict 79-107, EKF::update 116-140"]}
{"id": "C120", "title": "The predictive control example never fails", "statement": "In the closed loop of the double integrator example every call of the controller reports Optimal, so nothing is printed about a failing solver; the states are those of a double integrator under the returned inputs, and the inputs leave their bounds by no more than the solver's tolerances allow.", "quantifier": "every initial state, every number of turns, every desired trajectory with every stated derivative, every linear solver that solves; QP tolerances of the infeasibility tests up to 1/2294 and 1/37 (the example has 1/10000)", "why_tests_cant": "the example runs 1200 turns from one random state and nobody reads its output; a call from another state could be taken for infeasible", "anchors": ["examples/mpc_doubleintegrator.cpp: main", "include/smooth/feedback/mpc.hpp: MPC::operator() 458-519", "include/smooth/feedback/qp_solver.hpp: QPSolver::check_stopping"]}
{"id": "C121", "title": "Derivatives written by hand for the problem on SE(2)", "statement": "The jacobian and hessian members of SE2Theta, SE2Dyn, SE2Integral, SE2Cr and SE2Ce are the first and second right derivatives of the functions beside them, entry by entry, with the sizes that OCP documents. FALSE for the hessian of the integrand: the derivatives by time are left at zero (there is a todo) and are not zero, on the desired trajectory (t,t) is 5/4 where the code has 0.", "quantifier": "every time, state, input, end state and integral; every state group with the functions of the smooth library; where the difference to the desired state (the logarithm of the initial state) is regular", "why_tests_cant": "the example only compares the final trajectory in a plot; a wrong second derivative only slows Ipopt down or makes it stop elsewhere", "anchors": ["examples/ocp_se2.hpp: SE2Theta 28-49, SE2Dyn 52-81, SE2Integral 95-127, SE2Cr 130-151, SE2Ce 154-183"]}
{"id": "C122", "title": "The vehicle under PID control reaches its trajectory", "statement": "In the example pid_se2.cpp the inputs are the difference of poses plus the difference of velocities (all gains at their default of one, no integral), the lateral part of it steered by 0.3, limited to [-1, 1]; the lateral velocity never changes and the speeds change by at most 1/20 per turn. From every state close enough to the desired trajectory and without lateral velocity, the errors of pose and velocity and the inputs decay at least as fast as 0.997^k, although the vehicle cannot be pushed sideways.", "quantifier": "every number of turns, every frame of the desired trajectory, every start (motion) or every start close to the trajectory (convergence); every group with the bracket of SE(2)", "why_tests_cant": "the example plots one run of 600 turns; nothing shows that another start does not diverge or oscillate", "anchors": ["examples/pid_se2.cpp: 21-68", "include/smooth/feedback/pid.hpp: operator() 74-87"]}
{"id": "C123", "title": "Predictive control with limited inputs has a solution from every state", "statement": "If errors of the linearised system grow (in some weighted norm, one-sided) at a rate below the number of mesh intervals per horizon, and the running constraints limit only the inputs and leave some room, then the problem of every call has admissible deviations from every state at every time, keeps them under all small disturbances, has exactly one solution, and with tolerances below a threshold the solver reports Optimal after any history of calls. With a coarser mesh this is false: x' = 3 x over one interval with two points has no admissible deviation from any state but the desired one.", "quantifier": "every group, system, mesh, degree, desired trajectory, time, state, disturbance and history of calls", "why_tests_cant": "tests call the controller on one system from one state; that the collocation equations are regular for every degree and every system of this kind is a statement about all of them", "anchors": ["include/smooth/feedback/mpc.hpp: MPC::MPC 405-425, operator() 458-522", "include/smooth/feedback/ocp_to_qp.hpp: ocp_to_qp_update_dyn 199-278", "include/smooth/feedback/collocation/mesh.hpp: interval_diffmat 312-333"]}
{"id": "C124", "title": "The vehicle with predictive control and a safety filter: speeds, backup, gradient and solvability", "statement": "In every run of the program, with any group of states whose second part is the velocity, any predictive controller and any solver of the filter that is accurate to a tolerance: as long as the filter reports Optimal, forward speed and rate of turn stay within the limits at which the backup input is admissible, the lateral speed is the initial one, and the inputs respect their bounds up to the tolerance. Along the filter's trajectories the backup input stays admissible. The filter's program always has a feasible point. The hand-held direction makes the gradient of the barrier right everywhere except at the centre of the obstacle, where the barrier is not differentiable and the filter uses zero. The predictive controller has an admissible deviation at every time from every state, and with small tolerances its calls report Optimal; its desired input zero does not hold its desired trajectory.", "quantifier": "every group of this form, solver, initial state, number of turns, schedule, time and direction", "why_tests_cant": "the example is only run and plotted, from one state with one solver; what its constants guarantee about speeds and feasibility is a statement about all runs", "anchors": ["examples/mpc_asif_vehicle.cpp: 39-209", "include/smooth/feedback/asif.hpp: operator() 82-102", "include/smooth/feedback/mpc.hpp: operator() 458-522"]}
{"id": "C125", "title": "The safety filter with its solver: every call returns, and softened constraints are never called infeasible", "statement": "With the modelled solver and exact arithmetic every call of a safety filter returns, after any calls, with a verdict if there are no limits. If the coefficients of the inputs in the barrier conditions are at most a, the bounds are separate bounds on inputs with a common point, the weights exceed the tolerance for dual infeasibility and the tolerance for primal infeasibility is at most 1 / (1 + a (2 (K nh + 1) + 1)), the verdict is Optimal. For the vehicle of the example a is 10 at all moderate speeds, so with the default tolerances every call of its filter reports Optimal; and the whole program, with both modelled solvers, runs to its end for any number of turns, with moderate speeds and inputs within the bounds up to the absolute tolerance (relative tolerance zero).", "quantifier": "every group, dynamics, barrier, backup controller, history of calls, warm start and fuel; every moderate state, input of the predictive controller and number of turns", "why_tests_cant": "tests solve a few programs; a false verdict of infeasibility depends on iterates that no test enumerates, and termination of all calls of all runs is not observable", "anchors": ["include/smooth/feedback/asif.hpp: operator() 82-102", "include/smooth/feedback/asif_func.hpp: asif_to_qp_update 118-208", "include/smooth/feedback/qp_solver.hpp: check_stopping 574-644, solve 343-568", "examples/mpc_asif_vehicle.cpp: 93-209"]}
{"id": "C126", "title": "The example of the safety filter, as written, exceeds both of its limits although every call is Optimal", "statement": "With the modelled solver and the parameters of the example every call of its filter returns Optimal, from every state, for every desired input and any number of turns. With exact minimisers the 200 turns of the example are one determined sequence of states: after 81 turns the speed is above its limit 3/2, after 148 turns and from then on the position is above its limit 3, and at the end it is above 16/5. With the modelled solver and relative tolerance zero the same happens for every absolute tolerance below some positive one.", "quantifier": "every exact solver and fuel; every state, desired input and number of turns; every linear solver, parameters of the iteration and small tolerance", "why_tests_cant": "the example is only run and plotted, with rounding and one tolerance; that the limits are exceeded by design and not by tolerance or rounding needs the exact run and its stability", "anchors": ["examples/asif_doubleintegrator.cpp: 23-87", "include/smooth/feedback/asif.hpp: operator() 82-102", "include/smooth/feedback/asif_func.hpp: asif_to_qp_update 118-208", "include/smooth/feedback/qp_solver.hpp: check_stopping 574-644, solve 343-568"]}
{"id": "C127", "title": "The example of the safety filter exceeds its position limit also with the default tolerances", "statement": "With the modelled solver and the tolerances 1/1000 of its defaults (or smaller ones, or up to 1/999, which covers the float nearest to 1/1000) and no polishing (the parameters of the example), the 200 turns of the example run to the end with every status Optimal, and during the first 175 of them the position exceeds its limit 3. The same happens from every start within the position limit that does not move backwards, after a number of turns given by the distance to the limit.", "quantifier": "every linear solver, parameters of the iteration, fuel and tolerances up to 1/999, absolute and relative; every start with position at most 3 and speed at least 0, every number of turns", "why_tests_cant": "a plot of one run with one rounding; whether a tolerance of 1/1000 hides or causes the violation needs bounds for all answers that the stopping test admits", "anchors": ["examples/asif_doubleintegrator.cpp: 23-87", "include/smooth/feedback/qp_solver.hpp: check_stopping 574-644", "include/smooth/feedback/asif_func.hpp: asif_to_qp_update 118-208", "include/smooth/feedback/asif.hpp: operator() 82-102"]}
{"id": "C128", "title": "The problem on SE(2) as a quadratic program", "statement": "The program ocp_se2_qp.cpp on poses of the plane: no assertion fails; the quadratic program that the solver reads is the regulation problem of the vehicle to the desired motion (feasible points: deviations that start at rate of turn 0, move as the linearised error of a vehicle with speed 1 and rate of turn 1/2 under their accelerations, and respect the limits; cost: their effort), and it has exactly one solution. main returns, with any positive tolerances and with polishing; the returned trajectory is at the nodes the desired motion moved by the deviation of the solution. With small tolerances and without polishing the status is Optimal and the trajectory is within a constant times the tolerance of the best one.", "quantifier": "every group of poses with the bracket of the plane, quadrature rules with the properties of C13, parameters of the solver, exact square roots and factorisations", "why_tests_cant": "a run shows one plot; that the linearisation is the right one, that its solution is unique, and that the empty row of the fixed final time does not lead to a verdict of infeasibility, is not visible", "anchors": ["examples/ocp_se2_qp.cpp: main 23-45", "examples/ocp_se2.hpp: 30-190", "include/smooth/feedback/ocp_to_qp.hpp: ocp_to_qp, qpsol_to_ocpsol", "include/smooth/feedback/qp_solver.hpp: solve_qp"]}
{"id": "C129", "title": "The problem on SE(2) as a nonlinear program", "statement": "The program ocp_se2_nlp.cpp on poses of the plane. On every mesh the nonlinear program has a feasible point (the vehicle drives straight on), every feasible point takes five seconds and costs at least five. The first derivatives of the flattened problem are right: everywhere for the objective and the limits, at angles less than a full turn for the dynamics, at regular points for the integral and the end constraints; Hessians are not computed with the options given. If Ipopt returns feasible vectors with angles less than a full turn, main comes to its end after at most ten passes, and every stored solution is a motion of the vehicle, defined at all times, that satisfies the problem on the group at the collocation points of its mesh, starts at the pose one with speed 1, respects the limits and has the reported cost; if the loop was left early the measured errors are at most 1e-6, otherwise ten passes had a larger error.", "quantifier": "every group of poses with the bracket of the plane, quadrature rules with the properties of C13, callbacks of Ipopt, contents of fresh vectors", "why_tests_cant": "a run shows one plot of one sequence of meshes; that the flattened program is feasible on every mesh and that its solutions are motions of the vehicle is not visible", "anchors": ["examples/ocp_se2_nlp.cpp: main 23-91", "examples/ocp_se2.hpp: 28-197", "include/smooth/feedback/ocp_flatten.hpp: flatten_ocp, unflatten_ocpsol", "include/smooth/feedback/ocp_to_nlp.hpp: nlpsol_to_ocpsol, ocpsol_to_nlpsol", "include/smooth/feedback/compat/ipopt.hpp: solve_nlp_ipopt"]}
{"id": "C130", "title": "The double integrator as a nonlinear program", "statement": "The program ocp_doubleintegrator_nlp.cpp. On every mesh with degrees of at least five, the first one of a single interval too, the nonlinear program has exactly one solution. With the options given Hessians are computed, and what Ipopt assembles after any history of callbacks is the Hessian of the Lagrangian. If Ipopt solves the programs it is given, main comes to its end after at most ten passes; every stored solution is a motion of the body that keeps its limits, starts and stops as asked for, and moves correctly at the collocation points, with the reported cost, and no feasible vector costs less. The result does not depend on Ipopt: any two versions that solve their programs lead to the same passes, meshes, trajectories and errors, whatever their multipliers and their use of warm starts.", "quantifier": "every mesh with degrees of at least five, quadrature rules with the properties of C13, callbacks of Ipopt, contents of fresh vectors", "why_tests_cant": "a run shows one sequence of meshes with one version of Ipopt", "anchors": ["examples/ocp_doubleintegrator_nlp.cpp: main 23-83", "examples/ocp_doubleintegrator.hpp: 16-151", "include/smooth/feedback/ocp_to_nlp.hpp: nlpsol_to_ocpsol, ocpsol_to_nlpsol", "include/smooth/feedback/compat/ipopt.hpp: solve_nlp_ipopt"]}
{"id": "C131", "title": "The snippets of the documentation", "statement": "The program snippets.cpp, except its quadratic program (C132). The Kalman filter: for every drawn input the prediction and the sighting of the landmark give one estimate and one covariance, which are calculated and do not depend on the input but for the velocity; the covariance is positive definite, and the derivative of the measurement is right. The PID controller: for every drawn state the output is the difference to the desired state minus the velocity, so that the output plus the velocity leads to the desired state in one second. The safety filter: the derivative of the barrier is right and for every drawn state the call returns with a verdict. The predictive controller: the derivatives of dynamics and constraints are right, and the call returns the input 0 exactly with the code Optimal.", "quantifier": "every drawn input, state and velocity, every Lie group with the parts of Bundle<SE2, R^3>, quadrature rules with the properties of C13, linear solvers that solve", "why_tests_cant": "the snippets run once with one seed, print nothing and check nothing", "anchors": ["examples/snippets.cpp: Sigma 17-35, ekf_snippet 37-72, pid_snippet 74-92, asif_snippet 94-112, mpc_snippet 114-137", "include/smooth/feedback/ekf.hpp: EKF", "include/smooth/feedback/pid.hpp: PID", "include/smooth/feedback/asif.hpp: ASIFilter", "include/smooth/feedback/mpc.hpp: MPC"]}
{"id": "C132", "title": "The quadratic program of the snippets is solved", "statement": "For every draw of the program in qp_snippet solve_qp returns, and Optimal means that a minimiser was found.", "quantifier": "every draw of P, q, A, l, u", "why_tests_cant": "the snippet draws one program with one seed and does not look at the solution", "anchors": ["examples/snippets.cpp: qp_snippet 139-164", "include/smooth/feedback/qp.hpp: QuadraticProgram 31-45", "include/smooth/feedback/qp_solver.hpp: solve_qp, check_stopping"]}
{"id": "C133", "title": "The result does not depend on the factorisation", "statement": "For convex quadratic programs and without a limit on time, solve_qp returns the same (code, iterations, solution, multipliers, objective) whatever factorisation is used, as long as it succeeds on nonsingular matrices and then solves the system; the clock and the order of elimination do not matter. Dense and sparse programs with the same values are thus solved alike.", "quantifier": "every size, every convex program, all parameters with positive sigma, rho and delta and no limit on time, every warm start, every pair of factorisations", "why_tests_cant": "a test compares two factorisations on a few programs and up to tolerances", "anchors": ["include/smooth/feedback/qp_solver.hpp: QPSolver::solve, factorizations, polish_qp", "include/smooth/feedback/qp_solver.hpp: dense and sparse KKT systems"]}
{"id": "C134", "title": "The benchmarks compare what they claim", "statement": "Every program drawn by random_qp is strictly convex; it has exactly one solution if it can be satisfied, which is the case if the slack is not negative or the rows are independent; a row without entries and with negative slack makes it infeasible. The sparse copy is the same program unless an entry is below 1e-18 (then it differs by no more than that). Every call of the solver returns within 10000 iterations and reports the cost of its solution; the dense and the sparse solver report the same but for the time; OSQP is given the same program. solve_batch counts the solved problems and averages the times; compare_results is about the problems that both solved, its extremes are attained, and its averages lie between the extremes; the comparisons of the dense and of the sparse solver with OSQP agree but for times, and the plotted times are those of the problems that dense solver and OSQP both solved.", "quantifier": "every draw, size and density; every batch; every clock; every OSQP", "why_tests_cant": "the benchmark runs one seed and prints numbers that nothing checks", "anchors": ["benchmarks/bench_types.hpp: random_qp 19-41, qp_dense_to_sparse 46-62, solve_batch 86-111", "benchmarks/smooth_bench.hpp: operator() 14-28", "benchmarks/osqp_bench.hpp: operator() 15-29", "benchmarks/bench.cpp: compare_results 21-131, main 140-215"]}
{"id": "C135", "title": "Verdicts of infeasibility survive rounding", "statement": "In floating point (any rounding with relative error u, any linear solver and scaling, without polishing) PrimalInfeasible means that there is no feasible point or that a Farkas certificate holds up to the tolerance and explicit rounding errors, which bounds how small a feasible point can be; with tolerance zero the verdict is right; and a program with a point that keeps an explicit distance from its bounds is never called infeasible. DualInfeasible means a direction of unboundedness up to tolerance and rounding; a strictly convex program with a two-sided row is never called unbounded if its curvature exceeds tolerance and rounding.", "quantifier": "every size, program, warm start, parameters with nonnegative tolerances, every rounding, every linear solver", "why_tests_cant": "rounding errors of all programs and all orders of summation cannot be sampled", "anchors": ["include/smooth/feedback/qp_solver.hpp: check_stopping 574-644", "include/smooth/feedback/qp_solver.hpp: solve 350-568"]}
{"id": "C136", "title": "The PID controller in floating point", "statement": "Whatever the arithmetic does, the integral stays within the limit of PIDParams. With relative rounding errors u the integral after N calls differs from the exact one by at most N ((1 + u)^2 - 1) (limit + largest contribution), and the output by four roundings of its terms plus the gain times that drift. Contributions that are rounded away are lost however many calls there are: in double precision an integral of 1000 never grows under a position error of 1e-12 sampled every 10 ms, so the integral action has a dead zone.", "quantifier": "every history of public operations, every limit, every rounding, every group and time type; the dead zone for every number of calls", "why_tests_cant": "the drift and the dead zone only show after arbitrarily many calls", "anchors": ["include/smooth/feedback/pid.hpp: operator() 74-87", "include/smooth/feedback/pid.hpp: PIDParams 20"]}
{"id": "C137", "title": "Time arithmetic in double precision on 64-bit ticks", "statement": "plus is defined and right to one tick and one rounding, and minus to two roundings, while times and differences fit in 64 bits; outside, the conversion or the sum is undefined behaviour (on a nanosecond clock 10^10 seconds are, whatever the time). plus keeps the order of times and durations. Stepping by a measured difference arrives.", "quantifier": "every time, duration, number of ticks in a second and rounding; the last claim is false in double: 15 nanoseconds move the clock by 14 (on a clock with 49 ticks in a second one tick never moves it), but up to 2^51 ticks the step is at most one tick short and never passes the target", "why_tests_cant": "one difference in about fifty is short by one tick; the overflow shows only with long horizons", "anchors": ["include/smooth/feedback/time.hpp: time_trait for floating point 41-48", "include/smooth/feedback/time.hpp: time_trait for time_point 53-68", "include/smooth/feedback/time.hpp: time_trait for duration 74-89"]}
{"id": "C138", "title": "What a tolerance on the nonlinear program means", "statement": "A vector and its constraint values lie between the bounds of the program up to a tolerance eps exactly when the equations of motion and the running constraints hold at every collocation point up to eps W / w (w the weight of the point, W the largest weight, at least 1e-6), the integrals up to eps W, and the final time and the end constraints up to eps. The factor is attained on every mesh and at every point: with one interval 99 times as long as the other, a vector within eps of all bounds violates a running constraint by 99 eps.", "quantifier": "every OCP, mesh of LGR intervals, vector, tolerance and history of calls; sharpness for every mesh and collocation point", "why_tests_cant": "tests compare trajectories on one mesh; the factor grows as the mesh is refined unevenly", "anchors": ["include/smooth/feedback/ocp_to_nlp.hpp: OCPNLP, w_scaling_ 122-124, bounds 126-155, g"]}
{"id": "C139", "title": "What an Optimal result on the transcribed quadratic program means for a nonlinear problem", "statement": "A vector meets the bounds of the program of ocp_to_qp up to tau exactly when the deviation it holds meets every constraint of the collocated linearised problem up to the same tau (no weight of the mesh enters, unlike in ocp_to_nlp). If solve_qp without polishing returns Optimal, the deviation meets the linearised problem up to the primal tolerance rp of the stopping test; if the derivatives of dynamics and constraints change by at most L per unit of distance and the linearisation is a polynomial of the mesh on every interval, then linearisation plus deviation meets the collocated nonlinear problem up to rp + L/2 |z|^2, in the equations of motion up to rp + tf L/2 |z|^2. The remainder is attained on every mesh and for every size of the deviation.", "quantifier": "every OCP with two continuous derivatives, mesh of LGR intervals, linearisation, final time, tolerance, warm start and linear solver; the statement about the linearised problem also for states in Lie groups through the term ad", "why_tests_cant": "the gap between the linearised and the true constraints depends on the size of the step and on second derivatives; a test at one linearisation sees one step", "anchors": ["include/smooth/feedback/ocp_to_qp.hpp:197-370", "include/smooth/feedback/qp_solver.hpp:344-560", "include/smooth/feedback/qp_solver.hpp:574-680"]}
{"id": "C140", "title": "What an Optimal result on the transcribed quadratic program means on Lie groups", "statement": "For states and inputs on Lie groups a vector meets the bounds of the program of ocp_to_qp up to tau exactly when the deviation it holds meets the collocated linearisation of the error dynamics and the linearised constraints up to tau. If solve_qp without polishing returns Optimal, this holds with the primal tolerance rp of the stopping test; if in the coordinates around the linearisation derivatives change by at most L per unit of distance within a distance r that contains the deviation z, then x_lin + z, u_lin + z meet the running and end constraints up to rp + L/2 |z|^2 and the collocated equations of motion of the error up to rp + tf L/2 |z|^2. The remainder in the equations of motion is attained on the Heisenberg group for every size of the deviation.", "quantifier": "every pair of Lie groups (commutative or not), problem with right derivatives, mesh, linearisation, final time, tolerance, warm start and linear solver", "why_tests_cant": "the gap between linearised and true constraints depends on the step, on second derivatives and on the group; a test at one linearisation sees one step", "anchors": ["include/smooth/feedback/ocp_to_qp.hpp:120-390", "include/smooth/feedback/qp_solver.hpp: solve 343-568, check_stopping 574-644"]}
{"id": "C141", "title": "What an Optimal answer of the model-predictive controller means for the problem of the call", "statement": "After every history of the controller, with polishing off: if a call reports Optimal, the deviation z in the answer meets the linearised problem of that call up to the primal tolerance rp of the stopping test (collocated error dynamics, first state relative to the measured state, running constraints), and the input returned is u_des + z_u(0). If in the coordinates around the desired trajectory derivatives change by at most L per unit of distance within a distance that contains z, the deviation meets the nonlinear running constraints up to rp + L/2 |z|^2 and the nonlinear error dynamics up to rp + tf L/2 |z|^2. If the running constraints are affine and see the time, and the relative tolerance is zero, the returned input with the first state of the horizon meets them up to the absolute tolerance.", "quantifier": "every history of constructions, settings and calls, every pair of Lie groups, dynamics, constraints, mesh size, desired trajectory, time, state, tolerance, warm start and linear solver", "why_tests_cant": "the tolerance of the solver reaches the plant through the transcription, the group and the warm starts of earlier calls; a test sees one history at one tolerance", "anchors": ["include/smooth/feedback/mpc.hpp:458-560", "include/smooth/feedback/qp_solver.hpp: solve 343-568, check_stopping 574-644", "include/smooth/feedback/ocp_to_qp.hpp:120-390"]}
{"id": "C142", "title": "Answers of the safety filter converge to the best input", "statement": "For a safety filter with positive weights and some admissible input every call has exactly one best pair of correction and slack: admissible, with the barrier conditions up to the slack, and of least weighted squares. There are constants C and e0 for the call such that after every history, without polishing, with relative tolerance zero and absolute tolerance e at most e0, an Optimal answer of the filter with the library's own solver differs from the best correction by at most C e in every component and satisfies the barrier conditions up to the best slack plus C e. If the bounds are separate bounds on inputs and the infeasibility tolerances are small for the coefficients of the barrier conditions, the call does return Optimal.", "quantifier": "every manifold of states and inputs, dynamics, backup controller, barrier, horizon, state, desired input, history of calls, warm start, factorisation and small tolerance", "why_tests_cant": "the distance between the returned and the best input depends on the active constraints and on the warm start left by earlier calls; a test compares one call at one tolerance", "anchors": ["include/smooth/feedback/asif.hpp: operator() 82-102", "include/smooth/feedback/asif_func.hpp: asif_to_qp_update 118-208", "include/smooth/feedback/qp_solver.hpp: solve 343-568, check_stopping 574-644"]}
{"id": "C143", "title": "Repeated readings of a sensor shrink the uncertainty as 1/k and lead the filter to the truth", "statement": "In a vector space, after k updates with the same linear sensor y = H x + c and noise covariance R, the variance of every combination u of predicted readings is at most (u'Ru)/k, whatever the prior covariance and the readings. If the prior error is P y, the squared error of the predicted reading is at most 2 (u'Ru) (y'Py/k + b' R^-1 b), where b is the mean of the noises that occurred. So for a positive definite prior and noises whose means tend to zero, the predicted readings converge to the reading at the true state.", "quantifier": "every dimension, prior, sensor matrix (also one that does not observe the whole state), noise covariance, sequence and number of readings", "why_tests_cant": "a test fuses a few readings and compares with a tolerance; the rate and the limit concern all numbers of readings and all noise sequences", "anchors": ["include/smooth/feedback/ekf.hpp: EKF::update"]}
{"id": "C144", "title": "On any manifold the filter's inverse covariance grows by the information collected", "statement": "After any list of updates on any manifold, with nonlinear measurements, the inverse covariance is the inverse of the prior plus the sum of H' R^-1 H, every measurement linearised at the estimate before its own update and R taken as the symmetric matrix with the upper triangle passed. For a prior that is only positive semidefinite the covariance is still at most the prior and at most the inverse of the information in every direction the information sees. Right after an update the variance of every combination of predicted readings is at most that of the sensor.", "quantifier": "every manifold, dimension, list of measurement functions, readings and noise matrices, prior", "why_tests_cant": "tests compare single updates; the sum over a history at changing linearisation points and the bound in all directions quantify over all histories", "anchors": ["include/smooth/feedback/ekf.hpp: EKF::update"]}
{"id": "C145", "title": "Mean squared error after k readings of a sensor is at most a k-th of the sensor's variance", "statement": "In a vector space, if the first covariance covers the first error, the noise covariance handed to the filter covers the noises of the readings, and the noises are uncorrelated with each other and with the first error, then after k readings of the same linear sensor the mean squared error of every combination of predicted readings is at most a k-th of the variance of that combination of the sensor's noise.", "quantifier": "every finite probability space, dimension, sensor, prior, number of readings", "why_tests_cant": "a statement about averages over all outcomes and all numbers of readings; a test draws some noises", "anchors": ["include/smooth/feedback/ekf.hpp: EKF::update"]}
{"id": "C146", "title": "The PID controller leaves no steady error unless its integral is at the limit", "statement": "Called again and again at times at least d apart, if a component of the integral converges to a value strictly inside the anti-windup limit (or there is no limit), the error of that component tends to zero. A call after positive time that leaves a component of the integral unchanged has zero error there, or the component sits at a limit and the error pushes against it. With errors of at least e0 in a component the integral reaches its limit b within N + 1 calls as soon as N d e0 >= 2 b, and stays there.", "quantifier": "every manifold, time type, reference trajectory, gains, limit, sequence of states and times, whatever drives the states", "why_tests_cant": "a statement about limits of infinite sequences of calls and about all plants; tests run a fixed number of calls", "anchors": ["include/smooth/feedback/pid.hpp: operator() 74-87"]}
{"id": "C147", "title": "Predictions of the filter with small steps follow the differential equations of estimate and covariance", "statement": "In a vector space with the default stepper, let g' = f(t, g), S' = A S + S A' + Q with A the derivative of f at the estimate, on [0, tau]. If along this solution the right-hand side is Lipschitz in time with K and, within rho of the solution, Lipschitz in estimate and covariance with l, then predict over tau with steps dt returns, and every entry of estimate and covariance differs from the solution by at most exp(l tau) K tau dt, as soon as that is at most rho. For linear systems there is a constant C with error at most C dt for every dt > 0.", "quantifier": "every dimension, nonlinear dynamics, derivative function, process noise, horizon and step", "why_tests_cant": "a bound for all step sizes and all systems against the exact solution of a differential equation; tests compare one step size with a tolerance", "anchors": ["include/smooth/feedback/ekf.hpp: EKF::predict 80-103"]}
{"id": "C148", "title": "The safety filter enforces its barrier conditions along the exact flow of the backup controller up to a constant times dt", "statement": "In a vector space let phi' = f(phi, bu(t, phi)) and S' = A S, S(0) = 1, on the horizon [0, T], with A the derivative of the closed loop given to the filter. If closed loop and A are Lipschitz and A is bounded, there are C and h0 > 0 such that for every dt <= h0 and every number K of constraints the state and the sensitivity used in constraint k are within C dt of phi and S at the time of the constraint, which is in [k T / K, k T / K + dt). If moreover barrier and its derivatives are Lipschitz, every feasible correction of the program (with first velocity bounded by V) satisfies the barrier condition along the exact flow with exact sensitivity up to slack plus C dt, with C independent of dt and K.", "quantifier": "every dimension, dynamics, backup controller, barrier, horizon, number of constraints, step and correction", "why_tests_cant": "a bound for all step sizes against the exact solution of differential equations; tests compare nothing with an exact flow", "anchors": ["include/smooth/feedback/asif_func.hpp: asif_to_qp_update 118-208"]}
{"id": "C149", "title": "A double integrator under the PID controller tracks any moving reference with exponentially decaying error", "statement": "Let x'' = u + w in a vector space, where u is at each time what the controller returns after any history of operations that left it with gains kp, kd, ki, the reference r (a motion with its velocity and acceleration) and windup limit b. In every component with kp, kd > 0 and |w| <= W, with c = kp kd / (2 (kp + kd^2)), the weighted squared error (r' - v)^2 + kp (r - x)^2 at time t is at most 5/3 of the first one times exp(-2 c t / 5), plus 125/12 ((W + |ki| b) / c)^2. With ki = 0 and w = 0 only the decaying term is left. Without derivative gain this is false: the error can oscillate for ever.", "quantifier": "every dimension, reference motion, gains, windup limit, disturbance, history of the controller and time", "why_tests_cant": "a bound for all times and all histories of a closed loop in continuous time; tests check single outputs", "anchors": ["include/smooth/feedback/pid.hpp: PID::operator() 74-87"]}
{"id": "C150", "title": "What the safety filter guarantees along the motion of the plant", "statement": "Let the input of a plant be at each time what the filter returns there (code Optimal, exact solver, any history, any desired inputs and backup controllers), let the input enter the dynamics linearly and the barrier not depend on time, alpha > 0, relax_cost > 0. If at each time some correction within the input bounds satisfies all barrier conditions without slack at weighted cost at most M, then with sigma = sqrt(M / relax_cost) every component of the barrier satisfies h(x(t)) >= (h(x(0)) + sigma / alpha) exp(-alpha t) - sigma / alpha. If the desired inputs satisfy the conditions (M = 0) the safe set is invariant. Otherwise it is not: a car driven at a wall passes it although every call is Optimal and braking is admissible.", "quantifier": "every state space, dynamics, barrier, history, desired input, backup controller and time", "why_tests_cant": "a statement about all motions of a closed loop in continuous time; tests run single calls", "anchors": ["include/smooth/feedback/asif.hpp: ASIFilter::operator() 82-102", "include/smooth/feedback/asif_func.hpp: asif_to_qp_update 118-208"]}
{"id": "C151", "title": "Called every h seconds with held outputs, the PID controller stabilises a double integrator exactly if 0 < kp, kp h < 2 kd and kd h < 2", "statement": "Let a double integrator be driven by the outputs of the controller, each held until the next call h seconds later, with integral gain zero in component k and a reference whose acceleration is constant between calls. If 0 < kp, kp h < 2 kd and kd h < 2, the errors of position and velocity tend to zero from every first state. If one of the three fails, some motion with the constant reference zero does not tend to it. With the gains a new controller has (kp = kd = 1) the loop is stable exactly for h < 2.", "quantifier": "every dimension, component, gains, period, first state, earlier history of the controller and reference", "why_tests_cant": "an exact stability boundary over all gains and periods, in infinite time", "anchors": ["include/smooth/feedback/pid.hpp: PID::operator() 74-87, default gains 192-194"]}
{"id": "C152", "title": "What the safety filter guarantees when it is called once per period", "statement": "Let the filter be called every p seconds and its result be held in between (code Optimal, exact solver, any history, any desired inputs and backup controllers), with the input entering the dynamics linearly, a barrier that does not depend on time, alpha > 0 and relax_cost > 0. If at each call some correction within the input bounds satisfies all barrier conditions without slack at weighted cost at most M, and the left-hand side of the barrier condition drops by at most L within a period, then with B = sqrt(M / relax_cost) + L every component of the barrier satisfies h(x(t)) >= (h(x(0)) + B / alpha) exp(-alpha t) - B / alpha at all times, also between the calls.", "quantifier": "every state space, dynamics, barrier, period, history, desired input, backup controller and time", "why_tests_cant": "a statement about all times of all motions of a sampled closed loop; tests run single calls", "anchors": ["include/smooth/feedback/asif.hpp: ASIFilter::operator() 82-102", "include/smooth/feedback/asif_func.hpp: asif_to_qp_update 118-208"]}
{"id": "C153", "title": "Errors, innovations and noise of the Kalman filter balance exactly", "statement": "Let the state be a vector, the covariance of the estimate and of the sensors positive definite and the solver exact. For every update, whatever the sensor function, the reading and the true state x: the error of the new estimate measured by the new covariance plus the innovation measured by its predicted covariance H P H' + R equals the error of the old estimate measured by the old covariance plus the deviation of the reading from the linearised sensor at x measured by R (all squared). The same holds for the sums over any list of updates, and the covariance stays positive definite. In particular, if all readings are those of the linearised sensor at x, the normalised error never exceeds its first value, and neither do all squared innovations together. If the information collected (sum of H' R^-1 H) is at least c > 0 in every direction, the squared distance of the estimate to x is at most the first error plus all noise, over c.", "quantifier": "every dimension, sensor function, list of readings, true state and initial estimate", "why_tests_cant": "an identity over all readings and runs; tests compare one update with recorded numbers", "anchors": ["include/smooth/feedback/ekf.hpp: EKF::update 116-139"]}
{"id": "C154", "title": "What a constant disturbance does to the sampled PID loop", "statement": "Let a double integrator be driven by the outputs of the controller, held for h seconds each, plus a constant disturbance w, with a reference whose acceleration is constant between calls. Without integral gain and with 0 < kp, kp h < 2 kd, kd h < 2 the position error tends to -w / kp and the velocity error to zero, from every first state. With integral gain ki and anti-windup limit b, if |w| > |ki| b the errors of position and velocity do not both tend to zero, whatever the gains, the period and the motion. Whenever both errors tend to zero and ki is not zero, the integral tends to -w / ki.", "quantifier": "every dimension, gains, period, reference, disturbance, first state and history that left the integral within its limit", "why_tests_cant": "a limit over infinitely many calls for all gains; tests make a few calls", "anchors": ["include/smooth/feedback/pid.hpp: PID::operator() 74-87"]}
{"id": "C155", "title": "The Kalman filter forgets its first estimate", "statement": "Two filters for a vector state with equal positive definite covariances and different estimates get the same readings, of any values, from affine sensors with positive definite noise. Their covariances stay equal. With d the difference of the estimates and S = H P H' + R, each update lowers d' P^-1 d by exactly (H d)' S^-1 (H d). So it never grows, and d weighted by the information collected (sum of H' R^-1 H) is at most the first d' P^-1 d. In a direction v about which that information is at least c (c v v' below it), (v' d)^2 is at most the first d' P^-1 d over c.", "quantifier": "every dimension, list of affine sensors, readings and pair of first estimates", "why_tests_cant": "compares two runs over all readings; tests run one filter", "anchors": ["include/smooth/feedback/ekf.hpp: EKF::update 116-139"]}
{"id": "C156", "title": "Integral gain rejects a constant disturbance in the sampled PID loop", "statement": "Let a double integrator be driven by the outputs of the controller, called every h seconds and held in between, plus a constant disturbance w, with a reference whose acceleration is constant between calls and no anti-windup limit (the default). With d = kd h - kp h^2 / 2, if kp > 0, ki > 0, kp h < 2 kd, kd h < 2 and ki h (2 - d) < 2 d kp, then from every first state and every first value of the integral the errors of position and velocity tend to zero and the integral tends to -w / ki.", "quantifier": "every dimension, gains and period within the conditions, reference, disturbance, first state and integral", "why_tests_cant": "a limit over infinitely many calls for all gains; tests make a few calls", "anchors": ["include/smooth/feedback/pid.hpp: PID::operator() 74-87"]}
