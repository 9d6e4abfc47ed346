{"id": "C01", "title": "EKF covariance stays symmetric PSD over any history", "statement": "Starting from a symmetric positive semidefinite covariance, after ANY finite interleaving of ExtendedKalmanFilter.predict and .correct calls that do not raise (fused, rejected as outlier, or skipped because the model returned None), with PSD process noise and PD measurement noise, the covariance of the returned StateWithCovariance is symmetric positive semidefinite.", "quantifier": "every state type, every process/measurement model and Jacobian values, every dimension, every finite call history", "why_tests_cant": "Tests run a handful of models for a fixed number of steps; the claim is about all histories and all matrices.", "anchors": ["navlie/filters.py:ExtendedKalmanFilter.predict", "navlie/filters.py:ExtendedKalmanFilter.correct", "navlie/types.py:StateWithCovariance.symmetrize"]}
{"id": "C02", "title": "EKF correction never increases uncertainty", "statement": "For a PSD prior covariance P and PD measurement covariance R, the covariance returned by a non-raising ExtendedKalmanFilter.correct (no prediction needed) is below P in the Loewner order: P - P' is PSD, whatever the innovation, outlier verdict or model.", "quantifier": "all models, dimensions, measurements, priors", "why_tests_cant": "A matrix inequality over all real matrices; no sampling settles it.", "anchors": ["navlie/filters.py:ExtendedKalmanFilter.correct"]}
{"id": "C03", "title": "EKF correction is the Bayes/MAP update for linear-Gaussian models", "statement": "For a vector state and a linear measurement model y = Cx + v, the state and covariance returned by ExtendedKalmanFilter.correct are the exact posterior: the state is the unique minimizer of the sum of the prior and measurement Mahalanobis costs, and the covariance is the inverse of P^-1 + C^T R^-1 C.", "quantifier": "all dimensions, PD P and R, all C, y", "why_tests_cant": "Universally quantified optimality statement over reals.", "anchors": ["navlie/filters.py:ExtendedKalmanFilter.correct", "navlie/lib/models.py:LinearMeasurement"]}
{"id": "C04", "title": "Simultaneous linear measurements commute", "statement": "Fusing two measurements of the same instant with linear models in either order gives the same state and the same covariance.", "quantifier": "all PSD priors, all linear models, all measurement values, all dimensions", "why_tests_cant": "Order-independence over all reals.", "anchors": ["navlie/filters.py:ExtendedKalmanFilter.correct"]}
{"id": "C05", "title": "EKF time bookkeeping and refusal to go backwards in predict", "statement": "ExtendedKalmanFilter.predict with an input returns a state stamped t+dt where dt defaults to u.stamp - x.stamp; it raises RuntimeError exactly when dt<0 and ValueError exactly when neither state nor input carries a stamp and dt is missing; the argument x is never modified. Without an input it returns the state unchanged.", "quantifier": "all stamps (including None), all dt (including None), all models", "why_tests_cant": "Decision logic over unbounded timestamp combinations incl. rare None combinations.", "anchors": ["navlie/filters.py:ExtendedKalmanFilter.predict"]}
{"id": "C06", "title": "EKF correct decision logic", "statement": "ExtendedKalmanFilter.correct predicts first iff an input is given and y.stamp - x.stamp > 1e-11; after a fusion the stamp equals the (possibly predicted) stamp; if the model returns None nothing but the prediction changes; if the outlier test fires (normalized innovation squared above the chi-square 0.99 quantile) state value and covariance equal the predicted ones.", "quantifier": "all stamps, measurements, models, thresholds", "why_tests_cant": "Branch combinations over unbounded data.", "anchors": ["navlie/filters.py:ExtendedKalmanFilter.correct", "navlie/filters.py:check_outlier"]}
{"id": "C07", "title": "Out-of-order measurements are refused by the EKF", "statement": "ExtendedKalmanFilter.correct raises when the measurement is older than the state (as the other filters do). (False in the code: the guard compares with -1e10. Proved for all inputs instead: a measurement is refused iff it is more than 1e10 seconds older than the state, and every other measurement that is not newer than the state is fused exactly as if it had been taken at the time of the state.)", "quantifier": "all stamps", "why_tests_cant": "A test that happens to use ordered data never sees the missing guard.", "anchors": ["navlie/filters.py:ExtendedKalmanFilter.correct"]}
{"id": "C08", "title": "Jacobian evaluation point x_jac is honoured", "statement": "Documentation: predict/correct accept x_jac, the state at which to evaluate model Jacobians. Claim: the result depends on the model Jacobians only through their value at x_jac. (False in the code: only the covariances are evaluated at x_jac while the Jacobians are evaluated at x.state; negation proved with a witness. Proved for all inputs instead: predict/correct with x_jac equal predict/correct without it for the model whose noise covariance is frozen at x_jac.)", "quantifier": "all states, evaluation points and models", "why_tests_cant": "Tests never pass x_jac with a model whose Jacobian is state dependent.", "anchors": ["navlie/filters.py:ExtendedKalmanFilter.predict", "navlie/filters.py:ExtendedKalmanFilter.correct"]}
{"id": "C09", "title": "Prediction over a split interval equals one prediction", "statement": "For a linear time-invariant model whose transition satisfies A(s+t)=A(t)A(s) and whose noise satisfies Q(s+t)=A(t)Q(s)A(t)^T+Q(t), predicting dt1 and then dt2 yields the same state, covariance and stamp as predicting dt1+dt2.", "quantifier": "all dt1, dt2 >= 0, all dimensions, covariances", "why_tests_cant": "Infinite family of interval splits.", "anchors": ["navlie/filters.py:ExtendedKalmanFilter.predict"]}
{"id": "C10", "title": "Iterated EKF never increases its cost", "statement": "With line search enabled, every accepted step of IteratedKalmanFilter.correct strictly decreases the MAP cost e^T P^-1 e + z^T R^-1 z (cost of the returned mean <= cost of the prior mean), for every measurement model with state-independent noise covariance (the cost is re-weighted at each iterate otherwise), and at most max_iters Gauss-Newton steps are taken.", "quantifier": "all nonlinear models, priors, measurements, tolerances, iteration limits", "why_tests_cant": "Universally quantified over nonlinear functions and iteration counts.", "anchors": ["navlie/filters.py:IteratedKalmanFilter.correct"]}
{"id": "C11", "title": "Iterated EKF equals EKF on linear models", "statement": "For a linear measurement model on a vector state the iterated filter (with or without line search) returns the same covariance as ExtendedKalmanFilter.correct for every max_iters >= 1, and the same mean unless the first step is shorter than step_tol, in which case the mean is left unchanged.", "quantifier": "all dimensions, models, priors, max_iters >= 1", "why_tests_cant": "Induction over iterations for all matrices.", "anchors": ["navlie/filters.py:IteratedKalmanFilter.correct", "navlie/filters.py:ExtendedKalmanFilter.correct"]}
{"id": "C12", "title": "Iterated EKF error and rejection behaviour", "statement": "IteratedKalmanFilter.correct raises RuntimeError exactly when the measurement is older than the state; a measurement rejected as an outlier at the first iterate leaves the mean unchanged and only symmetrizes the covariance; with max_iters = 0 the call fails (unbound local) rather than returning; a model returning None makes it raise AttributeError instead of skipping the measurement.", "quantifier": "all stamps, models and settings", "why_tests_cant": "Rare branch combinations.", "anchors": ["navlie/filters.py:IteratedKalmanFilter.correct"]}
{"id": "C13", "title": "Sigma points match the first two moments of a standard normal", "statement": "generate_sigmapoints(dof, method) returns weights summing to 1, with weighted mean zero and weighted second moment the identity, for 'unscented', 'cubature' and 'gh', all weights positive, and any other method name is refused.", "quantifier": "every dof >= 1 and every method name", "why_tests_cant": "Unbounded dimension.", "anchors": ["navlie/filters.py:generate_sigmapoints"]}
{"id": "C14", "title": "Sigma-point filter is exact on linear models", "statement": "On a vector state with linear process and measurement models SigmaPointKalmanFilter.predict/.correct return exactly the Kalman filter mean and covariance, for any sigma-point set matching the first two moments.", "quantifier": "all dimensions, matrices, covariance factors, sigma-point sets", "why_tests_cant": "All linear models and all dimensions.", "anchors": ["navlie/filters.py:SigmaPointKalmanFilter.predict", "navlie/filters.py:SigmaPointKalmanFilter.correct"]}
{"id": "C15", "title": "Sigma-point correction keeps the covariance PSD", "statement": "For ANY nonlinear measurement function, the covariance P - K Pxy^T returned by SigmaPointKalmanFilter.correct is symmetric PSD and below the prior covariance when the weights are nonnegative, the sigma points match the second moment and R is PD.", "quantifier": "all nonlinear models, all dimensions", "why_tests_cant": "Quantifies over arbitrary functions.", "anchors": ["navlie/filters.py:SigmaPointKalmanFilter.correct"]}
{"id": "C16", "title": "Sigma-point filter time bookkeeping and errors", "statement": "SigmaPointKalmanFilter.predict/correct raise RuntimeError exactly for negative time differences, raise ValueError when no input covariance is available, and stamp the result t+dt; the input argument is not modified.", "quantifier": "all stamps, inputs", "why_tests_cant": "Decision logic over all combinations.", "anchors": ["navlie/filters.py:SigmaPointKalmanFilter.predict", "navlie/filters.py:SigmaPointKalmanFilter.correct"]}
{"id": "C17", "title": "IMM interaction mixes by total probability", "statement": "For a row-stochastic transition matrix and a probability vector with all predicted probabilities positive, the IMM interaction uses mixing weights that are nonnegative, whose columns each sum to one, and that satisfy Bayes' rule mu_mix[i,j] * c[j] = Pi[i,j] mu[i]; the predicted probabilities c sum to 1.", "quantifier": "every number of modes, every stochastic matrix and probability vector", "why_tests_cant": "All stochastic matrices of all sizes.", "anchors": ["navlie/filters.py:InteractingModelFilter.interaction"]}
{"id": "C18", "title": "IMM mode probabilities remain a probability vector", "statement": "Over any history of interaction/predict/correct calls the IMM model probabilities are nonnegative and sum to one, and one correction multiplies the predicted probabilities by the likelihoods and normalizes.", "quantifier": "all numbers of modes, likelihoods >= 0, histories", "why_tests_cant": "All histories.", "anchors": ["navlie/filters.py:InteractingModelFilter.correct"]}
{"id": "C19", "title": "IMM/GSF posterior odds follow Bayes' rule even for small likelihoods", "statement": "After a correction, the ratio of two model probabilities equals the ratio of prior probability times likelihood. (False in the code when all products are below the allclose tolerance 1e-8: weights are reset to uniform; proved for all inputs: Bayes' rule if some product exceeds the tolerance, uniform weights otherwise.)", "quantifier": "all likelihood vectors", "why_tests_cant": "Needs extreme likelihoods that tests do not produce.", "anchors": ["navlie/filters.py:InteractingModelFilter.correct", "navlie/filters.py:GaussianSumFilter.correct"]}
{"id": "C20", "title": "Gaussian mixing matches the moments of the mixture", "statement": "gaussian_mixing on vector states with weights summing to one returns the mixture mean and the mixture covariance (sum of covariances plus spread of means), independent of which component is used as the reference point; the covariance is symmetric PSD when the components are and the weights are nonnegative; mixing identical components returns that component.", "quantifier": "every number of components, dimension, weights, covariances", "why_tests_cant": "Unbounded sizes, all reals.", "anchors": ["navlie/utils/mixture.py:gaussian_mixing", "navlie/utils/mixture.py:gaussian_mixing_vectorspace", "navlie/utils/mixture.py:reparametrize", "navlie/utils/mixture.py:update_X"]}
{"id": "C21", "title": "run_filter fuses every in-window measurement exactly once, in time order", "statement": "run_filter processes events exactly as the schedule specified by: for each input interval [t_k, t_{k+1}), fuse (in stamp order) all not yet fused measurements with stamp < t_{k+1}, record, then predict to t_{k+1}. Every measurement with x0.stamp <= stamp < last input stamp is fused exactly once, none after the last input stamp is fused.", "quantifier": "all lists of inputs and measurements (any order, any rates, duplicates, empty), all filters", "why_tests_cant": "All schedules.", "anchors": ["navlie/filters.py:run_filter"]}
{"id": "C22", "title": "run_filter output shape and stamps", "statement": "run_filter returns exactly one result per input interval (number of retained inputs - 1), the k-th result describes a state recorded before predicting to the (k+1)-th input stamp, and result stamps are nondecreasing for time-sorted data.", "quantifier": "all schedules", "why_tests_cant": "All schedules.", "anchors": ["navlie/filters.py:run_filter"]}
{"id": "C23", "title": "run_filter ignores data older than the initial state", "statement": "Inputs and measurements stamped before x0.stamp are not processed. (False when every measurement is older than x0: nothing is dropped and stale measurements are fused; proved exactly, for every filter and log: each list is cut to its entries not older than x0 if it has any and is kept whole otherwise.)", "quantifier": "all schedules", "why_tests_cant": "Corner case of all-stale data.", "anchors": ["navlie/filters.py:run_filter"]}
{"id": "C24", "title": "CompositeState slices partition the degrees of freedom", "statement": "get_slices yields consecutive, disjoint slices in sub-state order, the i-th of length the i-th dof, covering exactly 0..dof; get_slice_by_id returns the slice of the first sub-state with that id and raises ValueError for an unknown id.", "quantifier": "every list of sub-states including nested composites and duplicates", "why_tests_cant": "Unbounded lists.", "anchors": ["navlie/composite.py:CompositeState.get_slices", "navlie/composite.py:CompositeState.get_slice_by_id", "navlie/composite.py:CompositeState.dof"]}
{"id": "C25", "title": "Composite plus/minus are inverse", "statement": "If every sub-state satisfies (x+dx)-x = dx and x+(y-x)=y then so does the composite (nested to any depth); plus consumes dx sub-state by sub-state in order and keeps ids, and sub-state stamps.", "quantifier": "all composites, all perturbations of matching size, any nesting depth", "why_tests_cant": "Structural induction over composites.", "anchors": ["navlie/composite.py:CompositeState.plus", "navlie/composite.py:CompositeState.minus"]}
{"id": "C26", "title": "By-id accessors read and write exactly one sub-state", "statement": "set_*_by_id changes only the addressed sub-state's attribute, leaves all others, and get_*_by_id then returns the written value; remove_state_by_id removes exactly one sub-state; unknown ids raise ValueError and change nothing.", "quantifier": "all composites, ids, values", "why_tests_cant": "Frame properties over all lists.", "anchors": ["navlie/composite.py:CompositeState.get_value_by_id", "navlie/composite.py:CompositeState.set_value_by_id", "navlie/composite.py:CompositeState.remove_state_by_id"]}
{"id": "C27", "title": "plus_by_id perturbs the addressed sub-state", "statement": "CompositeState.plus_by_id(dx, id) changes the addressed sub-state by dx. (False in the code: the result of State.plus, which does not modify in place, is discarded; proved that plus_by_id never changes any value, so the claim holds iff the perturbation does nothing.)", "quantifier": "all composites, ids and perturbations", "why_tests_cant": "No test exercises it; the claim is about all inputs.", "anchors": ["navlie/composite.py:CompositeState.plus_by_id"]}
{"id": "C28", "title": "Matrix blocks addressed by ids obey read-over-write", "statement": "get_matrix_block_by_ids after set_matrix_block_by_ids with the same ids returns the written block; blocks of other id pairs and entries outside are unchanged; a block of the wrong size raises ValueError. (The last part is false for axes of length one, which numpy broadcasts silently: proved.)", "quantifier": "all composites, matrices, ids", "why_tests_cant": "All lists/matrices.", "anchors": ["navlie/composite.py:CompositeState.set_matrix_block_by_ids", "navlie/composite.py:CompositeState.get_matrix_block_by_ids"]}
{"id": "C29", "title": "Composite Jacobians are block diagonal", "statement": "plus_jacobian and minus_jacobian of a composite are block diagonal with the sub-state Jacobians at the sub-state slices and zero elsewhere; jacobian_from_blocks places given blocks at the addressed columns and zeros elsewhere.", "quantifier": "all composites", "why_tests_cant": "Unbounded block counts.", "anchors": ["navlie/composite.py:CompositeState.plus_jacobian", "navlie/composite.py:CompositeState.minus_jacobian", "navlie/composite.py:CompositeState.jacobian_from_blocks"]}
{"id": "C30", "title": "CompositeProcessModel acts independently per sub-state", "statement": "evaluate/jacobian/covariance of a CompositeProcessModel apply the i-th model to the i-th sub-state (and the i-th input, or the shared input), with block-diagonal Jacobian and covariance; the Jacobian of every cross pair is zero; changing one sub-state does not affect the prediction of another.", "quantifier": "all model lists, states, inputs", "why_tests_cant": "All lists.", "anchors": ["navlie/composite.py:CompositeProcessModel"]}
{"id": "C31", "title": "CompositeMeasurementModel only depends on its sub-state", "statement": "A composite measurement evaluates the wrapped model on the addressed sub-state and its Jacobian is the wrapped Jacobian in that sub-state's columns and zero in all others.", "quantifier": "all composites, ids, models", "why_tests_cant": "All lists.", "anchors": ["navlie/composite.py:CompositeMeasurementModel"]}
{"id": "C32", "title": "Lie group state plus/minus are inverse in both directions", "statement": "For MatrixLieGroupState with direction 'left' or 'right', (x.plus(dx)).minus(x) = dx within the injectivity domain of Exp, and x.plus(y.minus(x)) = y; plus preserves id, stamp and direction; any other direction raises ValueError; error definitions are invariant: right-direction minus is unchanged by left multiplication of both arguments, left-direction minus by right multiplication.", "quantifier": "every group, element, perturbation", "why_tests_cant": "All groups and elements.", "anchors": ["navlie/lib/states.py:MatrixLieGroupState.plus", "navlie/lib/states.py:MatrixLieGroupState.minus"]}
{"id": "C33", "title": "Pose component accessors address disjoint slots", "statement": "Writing attitude, position (and velocity for SE_2(3)) of a pose state and reading it back returns the written value, leaves the other components unchanged, and jacobian_from_blocks puts each block in the columns of that component.", "quantifier": "all SE(2), SE(3), SE_2(3) values and written components", "why_tests_cant": "All values.", "anchors": ["navlie/lib/states.py:SE2State", "navlie/lib/states.py:SE3State", "navlie/lib/states.py:SE23State"]}
{"id": "C34", "title": "Random state constructors return the right type", "statement": "random() of every Lie group state class returns a state of that class. (False for SE3State, which returns an SE2State; proved that it is the only exception.)", "quantifier": "all arguments", "why_tests_cant": "Untested.", "anchors": ["navlie/lib/states.py:SE3State.random"]}
{"id": "C35", "title": "Levenberg-Marquardt never increases the cost", "statement": "Over any run of Problem.solve with LM (any number of iterations, any residuals, losses and Jacobians), each accepted step strictly decreases the total cost, rejected steps leave all variables unchanged, hence the cost at the returned variables is at most the cost at the initial variables; the damping parameter stays positive.", "quantifier": "all problems, residual functions, iteration limits", "why_tests_cant": "All nonlinear functions and iteration counts.", "anchors": ["navlie/batch/problem.py:Problem._solve_LM"]}
{"id": "C36", "title": "Constant variables never move", "statement": "Variables listed by set_variables_constant have exactly their initial value in the result of solve, for GN and LM, any number of iterations; the caller's initial variables are never modified.", "quantifier": "all problems", "why_tests_cant": "All histories of iterations.", "anchors": ["navlie/batch/problem.py:Problem.set_variables_constant", "navlie/batch/problem.py:Problem.solve", "navlie/batch/problem.py:Problem._correct_states"]}
{"id": "C37", "title": "Problem assembly partitions rows and columns", "statement": "The stacked error has one contiguous row slice per residual in insertion order and one contiguous column slice per non-constant variable; the Jacobian is zero outside the (residual, its key) blocks and total sizes equal the sums of sizes.", "quantifier": "all problems", "why_tests_cant": "Unbounded sizes.", "anchors": ["navlie/batch/problem.py:Problem._compute_size_of_problem", "navlie/batch/problem.py:Problem.compute_error_jac_cost"]}
{"id": "C38", "title": "Total cost is the sum of robust losses", "statement": "The cost reported by compute_error_jac_cost is the sum over all residuals of loss(||e||), provided each residual is listed with its loss; weighted rows satisfy the robust-gradient identity.", "quantifier": "all problems and losses", "why_tests_cant": "All residual lists.", "anchors": ["navlie/batch/problem.py:Problem.compute_error_jac_cost", "navlie/batch/losses.py"]}
{"id": "C39", "title": "Every added residual contributes", "statement": "Every residual passed to add_residual contributes to the cost. (False when a list of residuals is paired with a shorter list of losses: they are silently dropped; proved over all histories of calls: the i-th residual is evaluated with the i-th loss of the concatenated lists, all residuals contribute iff there are at least as many losses in total, and each with its own loss if every call brings one loss or equally many.)", "quantifier": "all add_residual calls", "why_tests_cant": "API misuse corner not tested.", "anchors": ["navlie/batch/problem.py:Problem.add_residual"]}
{"id": "C40", "title": "One Gauss-Newton step solves linear least squares", "statement": "For residuals affine in the variables with full column rank, one GN step from ANY initial point lands on the unique minimizer of the total squared cost, and the next step is zero.", "quantifier": "all linear problems, sizes, initial points", "why_tests_cant": "All matrices.", "anchors": ["navlie/batch/problem.py:Problem._solve_GN"]}
{"id": "C41", "title": "get_covariance_block returns the block of the current covariance", "statement": "After solve, get_covariance_block(k1,k2) is the (k1,k2) block of the inverse information matrix of the latest solve. (False on a second solve: the covariance is cached and stale. Proved over all histories of API calls: the covariance read is that of the first query made with an invertible information matrix; witness proved; unknown keys give None.)", "quantifier": "all problems, call histories", "why_tests_cant": "Requires call histories with two solves.", "anchors": ["navlie/batch/problem.py:Problem.get_covariance_block", "navlie/batch/problem.py:Problem.compute_covariance"]}
{"id": "C42", "title": "Robust losses are sound", "statement": "For L2 and Cauchy: loss(0)=0, loss >= 0, loss is increasing in |e|, weight is in (0,1], weight(e)*e is the derivative of loss at e, and Cauchy is at most L2.", "quantifier": "all real residuals and all scale parameters c != 0", "why_tests_cant": "Real analysis over all reals.", "anchors": ["navlie/batch/losses.py:L2Loss", "navlie/batch/losses.py:CauchyLoss"]}
{"id": "C43", "title": "Whitened residual cost is the Mahalanobis distance", "statement": "The squared norm of the error returned by PriorResidual / ProcessResidual / MeasurementResidual equals e^T Sigma^-1 e of the raw error with the model's covariance.", "quantifier": "all states, models and PD covariances", "why_tests_cant": "All matrices.", "anchors": ["navlie/batch/residuals.py:PriorResidual", "navlie/batch/residuals.py:ProcessResidual", "navlie/batch/residuals.py:MeasurementResidual"]}
{"id": "C44", "title": "Max-Mixture residual cost is the dominant mode's negative log-likelihood", "statement": "For MaxMixtureResidual half the squared norm of the returned error equals min_k(-log alpha_k + 1/2 ||e_k||^2) + log alpha_max, and the number under the square root is never negative.", "quantifier": "all component counts, errors, weights, covariances", "why_tests_cant": "All reals.", "anchors": ["navlie/batch/gaussian_mixtures.py:MaxMixtureResidual"]}
{"id": "C45", "title": "Max-Sum-Mixture, Sum-Mixture and Hessian-Sum-Mixture residual costs equal the mixture negative log-likelihood up to a constant", "statement": "For each of the three residuals half the squared norm of the returned error equals (a state-independent constant) minus log sum_k alpha_k exp(-1/2 ||e_k||^2), and the argument of every square root is non-negative.", "quantifier": "all component counts, errors, positive weights, damping >= 0", "why_tests_cant": "Inequalities (Gibbs) over all reals and sizes.", "anchors": ["navlie/batch/gaussian_mixtures.py:MaxSumMixtureResidual", "navlie/batch/gaussian_mixtures.py:SumMixtureResidual", "navlie/batch/gaussian_mixtures.py:HessianSumMixtureResidual"]}
{"id": "C46", "title": "BatchEstimator builds the full factor graph", "statement": "For inputs and measurements in the window, the batch problem contains one prior, one process residual per consecutive input pair, and one measurement residual per measurement, each attached to variables whose stamps are nearest to the residual's stamp; initial variables are strictly increasing in stamp. The construction succeeds if at most one stamp of the data in use is older than the initial state, and raises RuntimeError if two are.", "quantifier": "all schedules", "why_tests_cant": "All schedules.", "anchors": ["navlie/batch/estimator.py:BatchEstimator.solve"]}
{"id": "C47", "title": "BatchEstimator accepts measurements after the last input", "statement": "A measurement stamped after the last input is handled. (False: IndexError; witness proved.)", "quantifier": "all schedules", "why_tests_cant": "Schedule corner case.", "anchors": ["navlie/batch/estimator.py:BatchEstimator.solve"]}
{"id": "C48", "title": "associate_stamps returns a valid one-to-one matching", "statement": "The returned index pairs are within range, one-to-one on both sides, sorted, and every pair's stamps differ by less than max_difference; no further admissible pair with both sides unmatched exists (maximality).", "quantifier": "all stamp lists (any length, order, duplicates), offsets, thresholds", "why_tests_cant": "Greedy algorithm over all inputs.", "anchors": ["navlie/utils/common.py:associate_stamps"]}
{"id": "C49", "title": "find_nearest_stamp_idx returns a nearest stamp", "statement": "The index returned for each query minimizes |stamp - query| over all stamps; ties are broken toward the smaller stamp.", "quantifier": "all non-empty stamp lists and queries", "why_tests_cant": "All reals.", "anchors": ["navlie/utils/common.py:find_nearest_stamp_idx"]}
{"id": "C50", "title": "state_interp interpolates linearly and exactly at nodes", "statement": "For time-sorted states, linear interpolation at query t between t_i and t_{i+1} returns x_i + alpha (x_{i+1} - x_i) with alpha=(t-t_i)/(t_{i+1}-t_i), is exact at node stamps, clamps outside the range, and stamps the result with the query.", "quantifier": "all state lists and queries", "why_tests_cant": "All lists/times.", "anchors": ["navlie/utils/common.py:state_interp"]}
{"id": "C51", "title": "van_loans discretization composes over time", "statement": "van_loans(A,L,Q,dt) yields A_d, Q_d with A_d(s+t)=A_d(t)A_d(s), Q_d(s+t)=A_d(t)Q_d(s)A_d(t)^T+Q_d(t), Q_d(0)=0 and Q_d symmetric; so discretizing in one or several steps agrees.", "quantifier": "all A, L, symmetric Q, all s, t", "why_tests_cant": "Matrix exponential identity for all matrices.", "anchors": ["navlie/utils/common.py:van_loans"]}
{"id": "C52", "title": "Sequential measurement scheduling never collides", "statement": "schedule_sequential_measurements(n models, freq) returns offsets i/freq and the frequency freq/n such that each model's stamps never coincide with another model's and the union of all stamps is the grid j/freq.", "quantifier": "every n >= 1, freq > 0, all sample indices", "why_tests_cant": "All integers.", "anchors": ["navlie/utils/common.py:schedule_sequential_measurements"]}
{"id": "C53", "title": "Finite difference Jacobian is exact where it should be", "statement": "utils.jacobian (and the default jacobian_fd of models) is exact for affine functions with any step; central differences are also exact for quadratic functions; method names outside the list raise ValueError.", "quantifier": "all affine/quadratic functions, dimensions, steps != 0", "why_tests_cant": "All functions in the class.", "anchors": ["navlie/utils/common.py:jacobian", "navlie/types.py:MeasurementModel.jacobian_fd"]}
{"id": "C54", "title": "Filter consistency results (NEES) are well-formed", "statement": "GaussianResult.ees is e^T P^-1 e and nonnegative; it is invariant under linear change of coordinates; GaussianResultList stacks results in order with one entry each; MonteCarloResult averages are between min and max over trials; bounds raise ValueError for confidence outside (0,1).", "quantifier": "all results and trial counts", "why_tests_cant": "All matrices/lists.", "anchors": ["navlie/utils/common.py:GaussianResult", "navlie/utils/common.py:GaussianResultList", "navlie/utils/common.py:MonteCarloResult"]}
{"id": "C55", "title": "Slicing GaussianResultList keeps errors and covariances aligned", "statement": "results[k1, k2] restricts error and covariance to the same time steps and components, and recomputes nees from them. (True whenever a two-dimensional result is returned for slices with positive steps. False otherwise: results[-1:, 0] returns one error but T+1 covariances, results[:-2:-2] pairs the error of the last step with the covariance of the first; results[t] and results[t, j] raise, as do slices that end beyond the last step; results[:, j].ees is one number. All proved for every list.)", "quantifier": "all slices", "why_tests_cant": "Index corner cases.", "anchors": ["navlie/utils/common.py:GaussianResultList.__getitem__"]}
{"id": "C56", "title": "Generated ground truth does not depend on the measurement schedule", "statement": "DataGenerator.generate returns one state per time stamp and, for a process model with the flow property f(f(x,u,s),u,t)=f(x,u,s+t), the ground truth states are the same whatever measurements are scheduled.", "quantifier": "all measurement schedules, models with the flow property", "why_tests_cant": "All schedules.", "anchors": ["navlie/datagen.py:DataGenerator.generate"]}
{"id": "C57", "title": "Generated measurements are complete and time-consistent", "statement": "Every generated measurement stamped before the final time carries the model evaluated at the true state of exactly its stamp (process noise-free between samples), and the output is sorted.", "quantifier": "all schedules", "why_tests_cant": "All schedules.", "anchors": ["navlie/datagen.py:DataGenerator.generate", "navlie/datagen.py:generate_measurement"]}
{"id": "C58", "title": "B-spline trajectory is C2 and reproduces constants", "statement": "The cumulative cubic basis and its derivatives as coded are consistent (dot/ddot are the derivatives), the basis values match across segment boundaries to second order, lie in [0,1], and a spline whose control points coincide is constant with zero velocity. A spline whose control points follow a constant twist (a straight line, an arc, a screw motion) is that motion exactly, with its velocity and acceleration.", "quantifier": "all u in [0,1], all control points and groups", "why_tests_cant": "All reals.", "anchors": ["navlie/bspline.py:SE3Bspline"]}
{"id": "C59", "title": "Pinhole projection laws", "statement": "Pixel projection is invariant to the depth scaling of the point, inverse to back-projection of normalized coordinates, validity tests are exactly image bounds and positive depth.", "quantifier": "all camera intrinsics with nonzero focal lengths, all points", "why_tests_cant": "All reals.", "anchors": ["navlie/lib/camera.py:PoseCamera", "navlie/lib/camera.py:PinholeCamera"]}
{"id": "C60", "title": "IMU group matrices compose", "statement": "G_matrix satisfies G(g,a)G-composition, inverse_IE3 is a two-sided inverse, adjoint_IE3 satisfies X xi X^-1 = (Ad xi), and IMU kinematics over an interval with constant input is X' = G X U with U the product.", "quantifier": "all group elements and durations", "why_tests_cant": "All reals.", "anchors": ["navlie/lib/imu.py"]}
{"id": "C61", "title": "Preintegration equals step-by-step propagation", "statement": "Applying one accumulated relative motion increment to a state equals propagating the state through every single input in order (same final value), for the body-velocity, IMU and linear increments; the Jacobians multiply accordingly.", "quantifier": "all input sequences of any length, all initial states", "why_tests_cant": "Induction over input histories.", "anchors": ["navlie/lib/preintegration.py:IMUIncrement", "navlie/lib/preintegration.py:BodyVelocityIncrement", "navlie/lib/preintegration.py:LinearIncrement"]}
{"id": "C62", "title": "Linear increment bias correction", "statement": "For a linear increment, updating the bias after preintegration gives the same value as re-preintegrating with the new bias; reading .value any number of times returns the same result. (The second half is false in the code: each read re-applies the correction; witness proved.)", "quantifier": "all input sequences, biases, number of reads", "why_tests_cant": "Histories of reads.", "anchors": ["navlie/lib/preintegration.py:LinearIncrement"]}
{"id": "C63", "title": "Integrator process models are exact flows", "statement": "SingleIntegrator, DoubleIntegrator and DoubleIntegratorWithBias evaluate() satisfy the flow property in dt for constant inputs, their jacobian() is the exact linear part and covariance() is PSD and composes over split intervals. (False in part: the covariances of the two halves of an interval add up to less than that of the whole, and a random walk in the input of DoubleIntegratorWithBias breaks the flow property; proved.)", "quantifier": "all states, inputs, dt >= 0", "why_tests_cant": "All reals.", "anchors": ["navlie/lib/models.py:SingleIntegrator", "navlie/lib/models.py:DoubleIntegrator", "navlie/lib/models.py:DoubleIntegratorWithBias"]}
{"id": "C64", "title": "Analytic measurement Jacobians are the true derivatives", "statement": "The jacobian() of RangePointToAnchor, RangePoseToAnchor, PointRelativePosition, GlobalPosition, Altitude, Gravitometer, Magnetometer, InvariantMeasurement, LinearMeasurement, RangePoseToPose, PointRelativePositionSLAM and CameraProjection is the derivative of evaluate(x.plus(dx)) at dx=0 wherever the model is differentiable, for every state class the model accepts and both perturbation directions; range Jacobians at zero range are not a number. (False in part: the Jacobian an invariant innovation reports is the derivative only where the innovation is zero; proved.)", "quantifier": "all states where defined", "why_tests_cant": "Derivatives at all points.", "anchors": ["navlie/lib/models.py"]}
{"id": "C65", "title": "SLAM relative position Jacobian addresses configured sub-states", "statement": "PointRelativePositionSLAM.jacobian places the pose and landmark blocks at the sub-states named by pose_state_id and landmark_state_id. (False: it uses the first and second sub-state; proved for every composite. RangePoseToPose and CameraProjection do use the named ones, and then the matrix is the derivative with respect to the whole composite state; proved.)", "quantifier": "all composite orders", "why_tests_cant": "Tests use only the default order.", "anchors": ["navlie/lib/models.py:PointRelativePositionSLAM"]}
{"id": "C66", "title": "StateWithCovariance refuses malformed covariances", "statement": "The constructor raises ValueError iff the covariance is not square or its size differs from the state's dof; symmetrize makes it symmetric, is idempotent and preserves x^T P x.", "quantifier": "all shapes and matrices", "why_tests_cant": "All matrices.", "anchors": ["navlie/types.py:StateWithCovariance"]}
{"id": "C67", "title": "EKF correction never fails on well-formed uncertainty", "statement": "If the prior covariance is PSD, the measurement covariance is PD and the measurement is not older than the state, ExtendedKalmanFilter.correct always returns a result (no LinAlgError), with or without outlier rejection.", "quantifier": "all models, dimensions, priors, measurements, x_jac/outlier settings", "why_tests_cant": "Invertibility of the innovation covariance must hold for all inputs.", "anchors": ["navlie/filters.py:ExtendedKalmanFilter.correct"]}
{"id": "C68", "title": "A one-model IMM is the underlying filter", "statement": "An InteractingModelFilter with a single model and transition matrix [[1]] on vector states: interaction returns the mixture unchanged, predict and correct return exactly what the single ExtendedKalmanFilter returns, with model probability one.", "quantifier": "all models, estimates, measurements, inputs", "why_tests_cant": "Equality of two algorithms on all inputs.", "anchors": ["navlie/filters.py:InteractingModelFilter"]}
{"id": "C69", "title": "run_imm_filter records each estimate before using the measurements of its interval", "statement": "run_imm_filter performs, per input interval, record - correct (interaction then correct, in stamp order) - predict; hence the measurements of the last input interval never influence the returned list.", "quantifier": "all filters, schedules", "why_tests_cant": "a property of every schedule of inputs and measurements", "anchors": ["navlie/filters.py:run_imm_filter"]}
{"id": "C70", "title": "Mixture residual Jacobians yield the gradient of the mixture's negative log-likelihood", "statement": "For SumMixtureResidual, MaxSumMixtureResidual and HessianSumMixtureResidual, e^T J computed from the error and Jacobian that evaluate() returns equals sum_k p_k e_k^T J_k, with p_k the posterior probability of component k and J_k its Jacobian (zero for states it does not depend on); this is the derivative of the cost 1/2||e||^2 along any motion of the state, so a least squares solver follows the gradient of the mixture's likelihood.", "quantifier": "all component counts, dimensions, errors, Jacobians, positive weights, requested Jacobian subsets", "why_tests_cant": "Calculus identity over all reals and sizes.", "anchors": ["navlie/batch/gaussian_mixtures.py:GaussianMixtureResidual.evaluate", "navlie/batch/gaussian_mixtures.py:MaxSumMixtureResidual.mix_jacobians", "navlie/batch/gaussian_mixtures.py:SumMixtureResidual.mix_jacobians", "navlie/batch/gaussian_mixtures.py:HessianSumMixtureResidual.mix_jacobians"]}
{"id": "C71", "title": "BatchEstimator compares every measurement with the state of its own time", "statement": "A measurement residual is attached to a variable whose stamp is the measurement's. (True for all variables but the first: the first variable keeps the stamp of x0 while standing for the first stamp of the data, so when x0 is older than all data a measurement at the first stamp is compared with the state at x0's time; proved.)", "quantifier": "all schedules, models", "why_tests_cant": "a property of every schedule of inputs and measurements", "anchors": ["navlie/batch/estimator.py:BatchEstimator.solve"]}
{"id": "C72", "title": "BatchEstimator fuses measurements taken between inputs", "statement": "A measurement stamped strictly between two inputs contributes to the trajectory. (False: process residuals link only the variables at input stamps, so the variable of such a measurement is tied to nothing but its own measurements; if these have fewer components than the state has degrees of freedom, the normal equations are singular at every linearization point and solve() cannot return, whatever the solver; proved for all schedules.)", "quantifier": "all schedules, models, dimensions, solver settings", "why_tests_cant": "a property of every schedule; singularity must hold at every linearization point", "anchors": ["navlie/batch/estimator.py:BatchEstimator.solve", "navlie/batch/problem.py:Problem.get_covariance_block"]}
{"id": "C73", "title": "state_interp accepts states in any order and the documented query forms", "statement": "state_interp sorts by time, and accepts a float, an object with a stamp, or lists of them. (False: only the stamps are sorted, not the states, so an unsorted list interpolates between the wrong states without an error; a single int raises AttributeError and a single stamped object TypeError; proved.)", "quantifier": "all state classes, lists and queries", "why_tests_cant": "statement about all inputs of the documented types", "anchors": ["navlie/utils/common.py:state_interp"]}
{"id": "C74", "title": "Data generator constructor pairs every model with its own frequency and offset", "statement": "DataGenerator(models, freqs, offsets) holds every model with its own frequency and offset when the lists match, applies a single frequency or a one-element offset list to all models, refuses a missing frequency or a wrong number of offsets, uses an array as covariance of the inputs at all times and a function as it is, and leaves its arguments alone. (False in part: a float offset raises TypeError, a short list of frequencies silently drops models, and a one-element offset list of the caller is changed in place; witnesses proved.)", "quantifier": "all lists of models, frequencies and offsets", "why_tests_cant": "Tests construct generators with one or two matching lists.", "anchors": ["navlie/datagen.py:DataGenerator.__init__", "navlie/datagen.py:DataGenerator.add_measurement_model"]}
{"id": "C75", "title": "Spline constructor covers the given trajectory with evenly spaced control points", "statement": "SE3Bspline(trajectory, max_dt) places control points at start + i*dt for all such times before the trajectory's last stamp, each the linear interpolation of the trajectory there, with dt at most max_dt, and the spline has a value up to the end time it announces. (False in part: dt is max(max_dt, average spacing), so max_dt is a minimum; get_pose, get_velocity and get_acceleration return None from end_time - dt on; a trajectory without duration is accepted and every query raises IndexError; proved.)", "quantifier": "all trajectories, state classes and spacings", "why_tests_cant": "Tests build one spline from one trajectory.", "anchors": ["navlie/bspline.py:SE3Bspline.__init__", "navlie/bspline.py:SE3Bspline.get_pose"]}
{"id": "C76", "title": "IMU kinematics model is the exact solution of the documented continuous-time kinematics", "statement": "IMUKinematics.evaluate maps the navigation state at time 0 of any trajectory of rdot = v, vdot = C a + g, Cdot = C omega^x with constant unbiased readings to the state at time dt; cutting the interval does not change the result; biases only enter by being subtracted from the reading and drift by dt times their walk; readings are perturbed component by component; the covariance is positive semidefinite. (False in part: below the small angle tolerance the position uses the zero-angle value; walks given as None make the reading unusable; covariance of a bias-less SE23 state raises ValueError although evaluate and jacobian support it; proved.)", "quantifier": "all states, readings, biases, walks, durations and gravity vectors", "why_tests_cant": "A statement about solutions of a differential equation, for all reals.", "anchors": ["navlie/lib/imu.py:IMUKinematics.evaluate", "navlie/lib/imu.py:IMU", "navlie/lib/imu.py:U_matrix", "navlie/lib/imu.py:N_matrix", "navlie/lib/imu.py:IMUKinematics.covariance"]}
{"id": "C77", "title": "IMU process Jacobian and noise Jacobian are the derivative of the process model", "statement": "The Jacobian IMUKinematics.jacobian returns is the derivative of evaluate with respect to plus-perturbations of the state, in both perturbation directions, and covariance is L Q L^T with L the derivative with respect to noise on the reading. The columns of the navigation state and of the accelerometer bias are exact even for finite perturbations. (False in part: attitude and velocity rows of the gyroscope columns are right, but the position row is not: at zero rate it is 5/24 dt^3 instead of 1/6 dt^3, as L_matrix halves one block twice; proved.)", "quantifier": "all navigation states, biases, readings, durations, gravity vectors, perturbations", "why_tests_cant": "Derivative identities over all reals; a finite-difference test with a tolerance does not see the wrong third-order term.", "anchors": ["navlie/lib/imu.py:IMUKinematics.jacobian", "navlie/lib/imu.py:L_matrix", "navlie/lib/imu.py:IMUKinematics.covariance", "navlie/lib/imu.py:adjoint_IE3"]}
{"id": "C78", "title": "Body-frame velocity model is the exact solution on the group, with exact Jacobian and noise covariance", "statement": "For every group SO(2), SO(3), SE(2), SE(3), SE_2(3): BodyFrameVelocity.evaluate is the exact solution of Tdot = T u^ over dt, stays in the group, does not change when the interval is cut, jacobian maps any finite perturbation of the state to the perturbation of the result in both directions, and covariance is L Q L^T with L the derivative of the result with respect to the input, positive semidefinite.", "quantifier": "all groups, states, inputs, durations, perturbations, covariances", "why_tests_cant": "Equalities over all group elements and a derivative; tests check samples with finite differences.", "anchors": ["navlie/lib/models.py:BodyFrameVelocity.evaluate", "navlie/lib/models.py:BodyFrameVelocity.jacobian", "navlie/lib/models.py:BodyFrameVelocity.covariance", "navlie/lib/states.py:MatrixLieGroupState.plus"]}
{"id": "C79", "title": "Relative body-frame velocity model follows its documentation and returns the derivative and the noise covariance", "statement": "RelativeBodyFrameVelocity.evaluate is Exp(dt u1) T Exp(dt u2), jacobian is its derivative, covariance is the noise covariance to first order. (False in part: the sign of u1 is the opposite of the documented one; the right Jacobian is exact, the left one is refused; the covariance uses the adjoint of T Exp(dt u2) where that of its inverse is needed, so it is wrong for noise on the first input; all proved.)", "quantifier": "all groups, states, inputs, durations, perturbations", "why_tests_cant": "Equalities over all group elements and a derivative.", "anchors": ["navlie/lib/models.py:RelativeBodyFrameVelocity.evaluate", "navlie/lib/models.py:RelativeBodyFrameVelocity.jacobian", "navlie/lib/models.py:RelativeBodyFrameVelocity.covariance"]}
{"id": "C80", "title": "Body-velocity increments can be corrected for a new bias without integrating again", "statement": "After update_bias(b + db), the value of a BodyVelocityIncrement agrees to first order in db with preintegrating the same inputs with bias b + db. (False: the bias Jacobian has the wrong sign, the corrected value moves in the opposite direction; proved for all groups and input lists.)", "quantifier": "all groups, inputs, durations, biases and bias changes", "why_tests_cant": "A derivative over all reals; the wrong sign is not seen when the bias is not updated.", "anchors": ["navlie/lib/preintegration.py:BodyVelocityIncrement.increment", "navlie/lib/preintegration.py:BodyVelocityIncrement.value"]}
{"id": "C81", "title": "Preintegrated IMU model returns the derivative of its prediction and the exact noise Jacobian", "statement": "For every increment built from IMU readings and every state, PreintegratedIMUKinematics.jacobian is the derivative of evaluate with respect to plus-perturbations of pose and biases, in both perturbation directions, and covariance is L S L^T with S the covariance of the increment and L the matrix by which noise on the increment (plus) moves the prediction, exactly.", "quantifier": "all reading lists, states, biases, perturbations, gravity vectors", "why_tests_cant": "A derivative identity on a matrix group over all reals.", "anchors": ["navlie/lib/preintegration.py:PreintegratedIMUKinematics.evaluate", "navlie/lib/preintegration.py:PreintegratedIMUKinematics.jacobian", "navlie/lib/preintegration.py:PreintegratedIMUKinematics.covariance", "navlie/lib/preintegration.py:IMUIncrement.plus"]}
{"id": "C82", "title": "IMU increments can be corrected for a new bias without integrating again", "statement": "After update_bias, the value of an IMUIncrement agrees to first order with preintegrating the readings again with the new bias; for a change of the accelerometer bias exactly. (False in part: attitude and velocity are right for gyroscope biases, the position is not: at rest the correction moves it by 5/24 dt^3 [a]x db; proved.)", "quantifier": "all reading lists (no step turning by a full turn), biases and bias changes of any size", "why_tests_cant": "A statement for all lists of readings by induction; tests compare a few samples with tolerances.", "anchors": ["navlie/lib/preintegration.py:IMUIncrement.increment", "navlie/lib/preintegration.py:IMUIncrement.value", "navlie/lib/preintegration.py:IMUIncrement.update_bias"]}
{"id": "C83", "title": "Invariant measurements do not change the EKF update", "statement": "For a state with an orthogonal attitude, correcting the extended Kalman filter with InvariantMeasurement(y) gives exactly the same posterior mean and covariance, the same outlier decision and the same exceptions as correcting with the measurement y itself, whichever direction is chosen.", "quantifier": "all measurements, models with a Jacobian, states, covariances", "why_tests_cant": "An identity between two matrix expressions for all inputs.", "anchors": ["navlie/lib/models.py:InvariantMeasurement", "navlie/lib/models.py:_InvariantInnovation", "navlie/filters.py:ExtendedKalmanFilter.correct"]}
{"id": "C84", "title": "Copies are separate", "statement": "copy() of a state (vector, Lie group, composite of any nesting, IMU), of an estimate, of a mixture and of an input, and plus(), return an object with the same contents that shares no mutable object with anything that existed before: no later use of the copy can change the original or anything else the caller holds, and no later use of older objects can change the copy. (False in part: VectorInput.copy shares its covariance, and IMUState.copy resets the stamps and ids of its sub-states; both characterized exactly and proved.)", "quantifier": "all heaps, nestings of states, contents, and all programs of later reads, writes and allocations", "why_tests_cant": "Quantifies over all object graphs and all later client programs; a test mutates one attribute.", "anchors": ["navlie/lib/states.py:VectorState.copy", "navlie/lib/states.py:MatrixLieGroupState.copy", "navlie/composite.py:CompositeState.copy", "navlie/lib/imu.py:IMUState.copy", "navlie/types.py:StateWithCovariance.copy", "navlie/lib/states.py:MixtureState.copy", "navlie/lib/states.py:VectorInput.copy", "navlie/lib/imu.py:IMU.copy", "navlie/composite.py:CompositeState.plus"]}
{"id": "C85", "title": "What constructors share with the caller", "statement": "VectorState and the biases of IMUState are built from copies of the arrays given, and Lie group states built from exponential coordinates own their matrix, so later changes by the caller do not affect them; Lie group states built from a matrix, composite states, estimates and vector inputs keep the caller's own objects and always show their current contents.", "quantifier": "all heaps, arrays and states, and all later client programs", "why_tests_cant": "Quantifies over all later client programs and object graphs.", "anchors": ["navlie/lib/states.py:VectorState.__init__", "navlie/lib/states.py:MatrixLieGroupState.__init__", "navlie/composite.py:CompositeState.__init__", "navlie/types.py:StateWithCovariance.__init__", "navlie/lib/states.py:VectorInput.__init__", "navlie/lib/imu.py:IMUState.__init__"]}
{"id": "C86", "title": "Filtering leaves the caller's estimate alone", "statement": "ExtendedKalmanFilter.predict and correct on mutable objects compute exactly what the value-level filter computes (same result, same exceptions), return an estimate that shares no object with anything that existed before, and leave every existing object unchanged, whenever the models do not write into the state they are given; correct protects the caller's objects from any model code. (False in part: predict hands the caller's own state object to the process model, so a model that works in place moves the caller's estimate; proved.)", "quantifier": "all heaps, states of any nesting, models as arbitrary code, estimates, inputs, measurements, steps", "why_tests_cant": "Quantifies over all object graphs and all model code; a test runs one model on one state.", "anchors": ["navlie/filters.py:ExtendedKalmanFilter.predict", "navlie/filters.py:ExtendedKalmanFilter.correct", "navlie/lib/models.py:SingleIntegrator.evaluate", "navlie/types.py:StateWithCovariance.copy"]}
{"id": "C87", "title": "The estimates run_filter returns are independent of each other", "statement": "run_filter on mutable objects raises what the value-level run_filter raises; otherwise the estimates it returns have, when the run ends, the contents they had when they were recorded, no two of them share an object, no object of the caller has changed, and all but the first share nothing with the caller; the first one is made of the caller's own x0 and P0 unless a measurement is fused before the second input. (False for process models that update their argument: then x0 is the state of every estimate returned; proved.)", "quantifier": "all heaps, filters that only allocate (in particular the EKF with models that copy), states, lists of inputs and measurements of any length", "why_tests_cant": "Quantifies over all runs and object graphs; a test looks at one run with one model.", "anchors": ["navlie/filters.py:run_filter", "navlie/filters.py:ExtendedKalmanFilter.predict", "navlie/filters.py:ExtendedKalmanFilter.correct", "navlie/types.py:StateWithCovariance.__init__"]}
{"id": "C88", "title": "For linear systems run_filter gives the batch (MAP) answer", "statement": "For a linear process model and linear measurements with positive definite noise, run_filter around the EKF (no outlier rejection) does not raise, and each estimate it records is the exact marginal, mean and covariance, of the least squares problem made of the prior, one process factor per propagation and one measurement factor per retained measurement up to that time; in particular a trajectory of least cost exists and every such trajectory ends in its mean.", "quantifier": "all linear models (any dependence on input and dt), noises, lists of inputs with distinct stamps and measurements of any length", "why_tests_cant": "An equality between a recursion and a minimization over trajectories, for logs of all lengths.", "anchors": ["navlie/filters.py:run_filter", "navlie/filters.py:ExtendedKalmanFilter.predict", "navlie/filters.py:ExtendedKalmanFilter.correct"]}
{"id": "C89", "title": "For linear systems BatchEstimator returns the exact posterior marginals", "statement": "For a linear process model and linear measurements with positive definite noise, inputs with distinct stamps beginning at the stamp of the prior and measurements at input stamps, BatchEstimator.solve with Gauss-Newton does not raise and returns one estimate per input, in time order and stamped accordingly; the state and covariance of each estimate are exactly the mean and covariance of the marginal, at that time, of the least squares objective made of the prior, one process term per pair of consecutive inputs and one term per measurement.", "quantifier": "all linear models, noises, state dimensions, priors, lists of inputs and measurements in any order and of any length", "why_tests_cant": "An equality between the output of an optimizer and the minima of a family of constrained problems, for graphs of all sizes.", "anchors": ["navlie/batch/estimator.py:BatchEstimator.solve", "navlie/batch/problem.py:Problem.solve", "navlie/batch/problem.py:Problem.get_covariance_block", "navlie/batch/residuals.py:PriorResidual", "navlie/batch/residuals.py:ProcessResidual", "navlie/batch/residuals.py:MeasurementResidual"]}
{"id": "C90", "title": "For linear systems the filter and the batch estimator agree", "statement": "Given the same prior, inputs and measurements (linear models, measurements at input stamps other than the last), run_filter around the EKF and BatchEstimator.solve both succeed, and the last estimate of the filter has exactly the mean and the covariance that the batch solution has for that time (the last input but one).", "quantifier": "all linear models, noises, state dimensions, priors, lists of inputs and measurements in any order and of any length", "why_tests_cant": "Relates two separate algorithms on logs of all lengths; a test compares one run to a tolerance.", "anchors": ["navlie/filters.py:run_filter", "navlie/filters.py:ExtendedKalmanFilter", "navlie/batch/estimator.py:BatchEstimator.solve"]}
{"id": "C91", "title": "The EKF does not depend on how the state is described", "statement": "If a map of values, inputs and the time origin, acting linearly on perturbations, turns the models of one EKF into the models of another, then run_filter on the mapped data returns exactly the mapped estimates (P becomes M P M^T), one by one, or raises the same exception; the map need not be invertible, so filtering a sub-state that does not depend on the rest equals reading it off the full filter.", "quantifier": "all pairs of EKFs related by such a map (any state types, any dimensions), initial estimates, logs of any length, with or without outlier rejection", "why_tests_cant": "Relates runs of two different programs on all data; a test compares one pair of runs.", "anchors": ["navlie/filters.py:ExtendedKalmanFilter.predict", "navlie/filters.py:ExtendedKalmanFilter.correct", "navlie/filters.py:run_filter"]}
{"id": "C92", "title": "The world frame and the time origin are conventions", "statement": "For the EKF on SE(3) poses with BodyFrameVelocity, PointRelativePosition and RangePoseToAnchor, expressing the initial pose, the landmarks and the anchors in another world frame and all stamps from another origin gives the same run: every mean is multiplied by the frame change, every covariance is unchanged (right perturbations) or transforms by the adjoint (left perturbations); the same exceptions are raised and the same measurements rejected. The process model part holds on SO(2), SO(3), SE(2), SE(3) and SE_2(3).", "quantifier": "all frames in SE(3), time origins, initial estimates, noises, input and measurement logs of any length, both perturbation directions", "why_tests_cant": "A symmetry of the whole run, for every frame and log.", "anchors": ["navlie/filters.py:ExtendedKalmanFilter", "navlie/filters.py:run_filter", "navlie/lib/models.py:BodyFrameVelocity", "navlie/lib/models.py:PointRelativePosition", "navlie/lib/models.py:RangePoseToAnchor", "navlie/lib/states.py:SE3State"]}
{"id": "C93", "title": "On linear systems all the Kalman filters give the same run", "statement": "For a linear system driven by noisy inputs, with linear measurements of positive definite noise and no outlier rejection, run_filter around the unscented, cubature and Gauss-Hermite filters (with or without mean iteration) succeeds and returns exactly the estimates it returns around the EKF; around the iterated filter it returns the same stamps and covariances for every step tolerance, iteration limit and line search setting, and the same means when the tolerance is 0. (False for measurements later than the current estimate by at most 1e-11: the EKF does not propagate to them, the sigma point filters do; proved.)", "quantifier": "all linear systems with invertible transition matrix, noises, state and input dimensions, initial estimates, input and measurement logs of any length in any order", "why_tests_cant": "Equates the runs of five different algorithms on logs of all lengths; a test compares two of them on one log to a tolerance.", "anchors": ["navlie/filters.py:run_filter", "navlie/filters.py:ExtendedKalmanFilter", "navlie/filters.py:IteratedKalmanFilter", "navlie/filters.py:SigmaPointKalmanFilter", "navlie/filters.py:generate_sigmapoints"]}
{"id": "C94", "title": "Filters reproduce perfect data", "statement": "If the initial estimate is the true state, the inputs drive the process model along the true trajectory and every measurement equals its model on it (or the model gives none), run_filter around the EKF succeeds and every estimate is the true state at its stamp, whatever the covariances, Jacobians and gates; around the iterated filter the same holds whenever it returns. Data produced by the DataGenerator without noise are such data, so filtering them with the same process model gives back the ground truth at and between the samples.", "quantifier": "all process models with the flow property, measurement models, state types, covariances, schedules and stamps (equal or more than 1e-11 apart), logs of any length", "why_tests_cant": "Composes the generator and the filter over all schedules of samples and measurements.", "anchors": ["navlie/filters.py:run_filter", "navlie/filters.py:ExtendedKalmanFilter", "navlie/filters.py:IteratedKalmanFilter", "navlie/datagen.py:DataGenerator.generate"]}
{"id": "C95", "title": "A filter of independent sub-states is one filter for each sub-state", "statement": "run_filter around an EKF of a CompositeState with a CompositeProcessModel, a log of (composite or shared) inputs and a log of CompositeMeasurements, started with uncorrelated sub-states, gives for every sub-state exactly the values, stamps, covariance blocks and exceptions of an EKF of this sub-state alone (which sees the measurements of the other sub-states as measurements without a value), and the sub-states stay uncorrelated. More generally this holds for any part of a state that evolves on its own. (False in part: every sub-state keeps the stamp it had at the start, only the composite's stamp moves; proved.)", "quantifier": "all numbers, types and sizes of sub-states, sub-models that do not read stamps, covariances, gates, logs of any length in any order", "why_tests_cant": "Equates a filter of arbitrary size with a family of small filters on all logs.", "anchors": ["navlie/composite.py:CompositeProcessModel", "navlie/composite.py:CompositeMeasurementModel", "navlie/composite.py:CompositeMeasurement", "navlie/composite.py:CompositeState.plus", "navlie/filters.py:run_filter", "navlie/filters.py:ExtendedKalmanFilter"]}
{"id": "C96", "title": "Multiple-model filters: copies, order of the models, independence of components", "statement": "An IMM all of whose models are the same EKF, with every mode reachable, is that EKF: in every mixture returned by run_imm_filter all modes hold the EKF's estimate (or both raise the same exception); for any filter, what run_imm_filter records is x0 followed by the predictions of run_filter's estimates to the next input. On vector states, listing the models (and the rows and columns of the transition matrix) in another order only reorders the modes of the result. A Gaussian sum filter's components are those of separate EKF runs, and their order does not matter for any state type.", "quantifier": "all numbers of models, transition matrices, state types (vector states for the order of IMM models), models, covariances, permutations, logs of any length in any order", "why_tests_cant": "Symmetries over all permutations and all logs; a test tries one ordering of two models.", "anchors": ["navlie/filters.py:InteractingModelFilter", "navlie/filters.py:GaussianSumFilter", "navlie/filters.py:run_imm_filter", "navlie/filters.py:run_gsf_filter", "navlie/utils/mixture.py:gaussian_mixing"]}
{"id": "C97", "title": "The order in which data, residuals and variables are given does not matter", "statement": "run_filter, run_imm_filter and BatchEstimator.solve return the same on every ordering of the input list and of the measurement list in which entries with equal stamps keep their relative order (so on every ordering at all, when stamps are distinct). A Problem may be built by its add_variable, add_residual and set_variables_constant calls in any order (each variable added once): solve returns for both orders or for neither, and gives the same optimal value of every variable, the same cost at every iteration, and get_covariance_block returns the same block for every pair of keys.", "quantifier": "all logs of any length, all filters, all problems: residuals, losses, variables, constants, both solvers, all tolerances and iteration limits, all permutations", "why_tests_cant": "A symmetry over all permutations; the columns and rows of every linear system solved are permuted.", "anchors": ["navlie/filters.py:run_filter", "navlie/filters.py:run_imm_filter", "navlie/batch/estimator.py:BatchEstimator.solve", "navlie/batch/problem.py:Problem.solve", "navlie/batch/problem.py:Problem.add_residual", "navlie/batch/problem.py:Problem.add_variable", "navlie/batch/problem.py:Problem.get_covariance_block"]}
{"id": "C98", "title": "Multiple-model estimates: one clock, evaluation, Monte Carlo schedules", "statement": "In every mixture returned by run_imm_filter and run_gsf_filter all modes have the same stamp (for the IMM, exactly the initial stamp and then those of the retained inputs). MixtureResultList.from_estimates gives one result per mixture, in order, with its model probabilities; the results of a run_imm_filter are comparisons with the true state at their own stamps. If all modes agree, or one has probability one, the result is the GaussianResult of that estimate; on vector states the error is the average of the modes' errors and the squared error at most their average. monte_carlo returns the same whatever the number of jobs and the order in which they finish, and the averages do not depend on the order of the trials. (False in part: from_estimates takes the truth at the stamp of the first mode while the result has the stamp of the most probable one, and monte_carlo with no trials raises IndexError; proved.)", "quantifier": "all numbers of models, state types, models, logs of any length, mixtures, all orders of completion of the jobs, trials that depend only on their number", "why_tests_cant": "Quantifies over schedules of parallel jobs and over all logs.", "anchors": ["navlie/filters.py:run_imm_filter", "navlie/filters.py:run_gsf_filter", "navlie/utils/common.py:MixtureResult", "navlie/utils/common.py:MixtureResultList.from_estimates", "navlie/utils/common.py:monte_carlo", "navlie/utils/common.py:MonteCarloResult"]}
{"id": "C99", "title": "Simulate and filter with the same model: the truth comes back", "statement": "Generate data without noise from any process model (no property beyond evaluate(x,u,0)=x; Euler steps included) and run the EKF with the same process model from the true initial state: the run succeeds, there is one result per input but the last, and the k-th result is a state from which the k-th input leads exactly to the (k+1)-th ground truth state; it is the k-th ground truth state itself if no measurement falls strictly between the two samples. The same holds for the iterated filter whenever it returns.", "quantifier": "all process models, measurement models, state types, frequencies, offsets, covariances, gates, numbers of samples and measurements", "why_tests_cant": "Composes the generator and the filter over all schedules of samples and measurements, and all models.", "anchors": ["navlie/filters.py:run_filter", "navlie/filters.py:ExtendedKalmanFilter", "navlie/filters.py:IteratedKalmanFilter", "navlie/datagen.py:DataGenerator.generate"]}
{"id": "C100", "title": "The simulated datasets are consistent", "statement": "With noise_active=False, an input frequency that is a multiple of the measurement frequency and times that are multiples of 1e-10 s, SimulatedPoseRangingDataset and the two inertial datasets can be built for any initial state, covariances, start and end, and the EKF with the dataset's process model on its data from the initial state returns exactly the ground truth (biases included). The simulated IMU reading makes the vehicle turn at (0.1, 0, 0.5) rad/s and have the prescribed world acceleration, whatever attitude and biases are. Noise changes neither the ground truth nor the stamps nor which measurements are taken, for any DataGenerator. Landmarks stand on the cylinder, level by level, equally spaced and pairwise distinct. (False in part: with noise_active=False the biases of the ground truth still follow a random walk, so two constructions with the same arguments differ; with one level of landmarks the height is ignored; the documentation of the profile says rotation about the z-axis only; proved.)", "quantifier": "all initial states, covariances, frequencies, start and end times, draws of the bias walk, both perturbation directions; all generators for the part on noise; all radii, heights, numbers of levels and landmarks", "why_tests_cant": "Quantifies over all random draws, durations and initial states, and composes the generator with the filter.", "anchors": ["navlie/lib/datasets.py:SimulatedPoseRangingDataset", "navlie/lib/datasets.py:SimulatedInertialGPSDataset", "navlie/lib/datasets.py:SimulatedInertialLandmarkDataset", "navlie/lib/datasets.py:generate_landmark_positions", "navlie/datagen.py:DataGenerator.generate"]}
{"id": "C101", "title": "TUM trajectories are loaded line by line", "statement": "load_tum_trajectory of a file with at least two lines of eight numbers gives one SE3State per line, in the order of the lines, with the stamp, position and attitude of the line; lines that do not have eight numbers raise an exception. (False in part: a correct file with a single line raises IndexError; proved.)", "quantifier": "all files with any number of lines", "why_tests_cant": "Quantifies over all files.", "anchors": ["navlie/utils/common.py:load_tum_trajectory"]}
{"id": "C102", "title": "Batch estimation on perfect data returns the truth, and when it stops", "statement": "Any state class and models (nonlinear included), positive definite covariances, distinct input stamps starting at the stamp of x0, measurements at input stamps that equal what their model returns for the dead reckoned state: BatchEstimator.solve, with GN or LM, does not raise and returns exactly the dead reckoned trajectory; the covariance of each state is that of the marginal of the posterior of the errors linearized at that trajectory. More generally a Problem whose residuals are zero at the initial variables returns them, with cost history of one GN step and of no LM step. (False in part: from such a point LM never notices that it has converged; it rejects max_iters zero steps and multiplies the damping by 2^(k(k+1)/2) after k iterations; proved.)", "quantifier": "all state classes whose plus/minus/minus_jacobian satisfy the laws at zero, all models, all logs of any length in any order, all solver settings, all problems", "why_tests_cant": "Composes graph building, residuals, assembly, the solver loops and the covariance query for all models and all logs.", "anchors": ["navlie/batch/estimator.py:BatchEstimator.solve", "navlie/batch/problem.py:Problem.solve", "navlie/batch/problem.py:Problem._solve_LM", "navlie/batch/problem.py:Problem._solve_gauss_newton", "navlie/batch/residuals.py:ProcessResidual", "navlie/batch/residuals.py:MeasurementResidual", "navlie/batch/residuals.py:PriorResidual"]}
{"id": "C103", "title": "Filter and batch agree on perfect data, for nonlinear models", "statement": "On the data of C102 without a measurement at the last input, run_filter with the EKF (with or without outlier rejection) and BatchEstimator.solve (GN or LM) both succeed; the filter returns the dead reckoned states up to the last input but one, the batch estimator all of them, and the last covariance of the filter equals the covariance of the batch estimator for that state.", "quantifier": "all state classes, nonlinear models, covariances, logs of any length in any order, solver settings", "why_tests_cant": "An equality between two different algorithms over all models and logs.", "anchors": ["navlie/filters.py:run_filter", "navlie/filters.py:ExtendedKalmanFilter.correct", "navlie/filters.py:ExtendedKalmanFilter.predict", "navlie/batch/estimator.py:BatchEstimator.solve", "navlie/batch/problem.py:Problem.get_covariance_block"]}
{"id": "C104", "title": "Passes of the iterated Kalman filter are Gauss-Newton steps", "statement": "Take a state with covariance x and a measurement y at the same time, and build a Problem with the variable x.state, PriorResidual(x.state, x.covariance) and MeasurementResidual(y), default loss. Problem.solve with GN, N iterations and no tolerances returns the state that IteratedKalmanFilter.correct (no line search) returns after N passes, whatever the measurement model; with any tolerances it returns the state after some number j of passes, 1 <= j <= N, and conversely the filter with a step tolerance returns its prior mean or a Gauss-Newton iterate. For N = 1 mean and covariance are those of ExtendedKalmanFilter.correct. Further passes change nothing at a point where the gradient of the cost vanishes, and only there. (False in part: after j > 1 iterations the covariance block of the Problem is not that of the filter with the same number of passes but that of the filter with one pass less - the information matrix is one step behind the mean; proved.)", "quantifier": "all states, measurement models, Jacobians, covariances, numbers of passes, tolerances", "why_tests_cant": "iterating a nonlinear map is sensitive to every detail; tests compare two numbers after convergence", "anchors": ["navlie/filters.py:IteratedKalmanFilter.correct", "navlie/filters.py:ExtendedKalmanFilter.correct", "navlie/batch/problem.py:Problem._solve_gauss_newton", "navlie/batch/residuals.py:PriorResidual.evaluate", "navlie/batch/residuals.py:MeasurementResidual.evaluate"]}
{"id": "C105", "title": "The covariance run_filter reports is the covariance of its error", "statement": "Take a linear process model, linear measurements and a truth such that the initial error, the process noises and the measurement noises of the run have mean zero, the modelled covariances, and are uncorrelated with each other (no distribution assumed). Then run_filter with the EKF succeeds in every outcome, the covariances and stamps it reports are the same in every outcome, every reported estimate is unbiased, and the covariance of (true state at its stamp minus estimate) is exactly the covariance it reports. The NEES of GaussianResult has mean equal to the number of degrees of freedom, and the innovation in the details of correct has mean zero and the covariance S returned with it. If the models overstate the noise covariances, the reported covariance is an upper bound and the mean NEES at most the degrees of freedom; if they understate them, a lower bound and at least.", "quantifier": "all probability spaces, distributions of the noises, linear time-varying systems (singular covariances of prior and process included), logs of any length in any order, numbers and sizes of measurements", "why_tests_cant": "A statement about all distributions and all logs; a Monte Carlo test samples one system and checks a confidence interval.", "anchors": ["navlie/filters.py:run_filter", "navlie/filters.py:ExtendedKalmanFilter.predict", "navlie/filters.py:ExtendedKalmanFilter.correct", "navlie/utils/common.py:GaussianResult"]}
{"id": "C106", "title": "No affine function of the data beats the filter", "statement": "In the setting of C105 every estimate that run_filter reports is an affine function of the values of the measurements fused before it, and every other affine function Z of these values has an error covariance at least as large (the difference is positive semidefinite), hence a mean square error at least as large. The innovation returned by correct is uncorrelated with everything fused before.", "quantifier": "all probability spaces, noises, linear systems, logs of any length, all affine estimators", "why_tests_cant": "Quantifies over all competing estimators.", "anchors": ["navlie/filters.py:run_filter", "navlie/filters.py:ExtendedKalmanFilter.predict", "navlie/filters.py:ExtendedKalmanFilter.correct"]}
{"id": "C107", "title": "A Problem object behaves the same whatever was done to it before", "statement": "solve on a Problem depends only on the calls that defined the problem (constructor, add_residual, add_variable, set_variables_constant, in their order): earlier solves, queries, evaluations, assignments by the user to returned dictionaries, and calls that raised at any point, do not change what the next solve returns or raises. None of these calls changes the definition. The dictionary of variables that a solve returned is never changed by a later call and no two solves return the same one. Residuals of residuals.py, mixtures and linear residuals satisfy the proviso that Jacobians of constant variables are left out. (False in part: slices of variables are never removed, so after a solve followed by set_variables_constant and another solve, get_covariance_block of the variable now constant returns the block of the variable that took its place instead of None; for residuals that return Jacobians of constant variables the outcome depends on history; a tuple of keys is taken as one key; proved.)", "quantifier": "all histories of API calls of any length, with exceptions at any point, all residuals, losses, states and solver settings", "why_tests_cant": "Quantifies over all histories of calls and all points at which one of them may raise.", "anchors": ["navlie/batch/problem.py:Problem.solve", "navlie/batch/problem.py:Problem._solve_gauss_newton", "navlie/batch/problem.py:Problem._solve_LM", "navlie/batch/problem.py:Problem._compute_size_of_problem", "navlie/batch/problem.py:Problem._correct_states", "navlie/batch/problem.py:Problem.set_variables_constant", "navlie/batch/problem.py:Problem.add_residual", "navlie/batch/problem.py:Problem.get_covariance_block"]}
{"id": "C108", "title": "compute_error_jac_cost evaluates the problem at the variables passed", "statement": "After a solve, compute_error_jac_cost(variables) leaves the object unchanged and returns the weighted error, Jacobian and cost at the variables passed (at the result of the solve if none are passed, including later assignments by the user to the dictionary that solve returned); the cost is the sum of the losses there, and at the result it is the last entry of the cost history. (False in part: before the first solve it raises KeyError whatever is passed, because it looks the keys up in the variables of the last solve; after a residual has been added to a solved problem it raises until the next solve; proved.)", "quantifier": "all histories, residuals, losses, variables passed", "why_tests_cant": "Quantifies over histories of calls.", "anchors": ["navlie/batch/problem.py:Problem.compute_error_jac_cost", "navlie/batch/problem.py:Problem._compute_size_of_problem", "navlie/batch/problem.py:Problem.solve"]}
{"id": "C109", "title": "Sigma-point predictions are exact on polynomial models", "statement": "With normal errors of the prior and of the input, covariance diag(P,Q), and vector states: if the process model is a polynomial in these errors of degree at most 3 (unscented, cubature) or 5 (Gauss-Hermite), the predicted mean (iterate_mean=True) is the exact expectation of the propagated state; if twice the degree is within that bound (quadratic models for Gauss-Hermite), the reported covariance is exactly the mean square deviation of the propagated state from the reported mean, with or without iterate_mean. The point sets themselves integrate all polynomials of that degree exactly against the standard normal distribution, in every dimension, and degree 3 is sharp for unscented and cubature. (False in part: with iterate_mean=False the mean is the model at the old mean, e.g. 0 instead of 2 for x^2+u^2; the cubature filter reports covariance 0 for that model, whose variance is 4; proved.)", "quantifier": "all dimensions, covariances, polynomial models, methods, time steps", "why_tests_cant": "Quantifies over all polynomial models, dimensions and covariances, and compares with integrals against a normal distribution.", "anchors": ["navlie/filters.py:generate_sigmapoints", "navlie/filters.py:SigmaPointKalmanFilter.predict", "navlie/filters.py:mean_state"]}
{"id": "C110", "title": "Sigma-point corrections are honest and best on quadratic measurements", "statement": "If the true state is the estimate plus a normal error of covariance P and the measurement is a polynomial h of that error plus zero-mean noise of covariance R uncorrelated with both, then a Gauss-Hermite correction with quadratic h (any method with affine h) returns x + C_xh (C_hh+R)^-1 (y - E h) and P - C_xh (C_hh+R)^-1 C_xh^T with the exact moments, is unbiased, reports exactly the covariance of its error, and no estimator affine in the measurement has a smaller error covariance. For quadratic h the other methods still use the exact E h and C_xh. (False in part: on x+x^2 the cubature filter reports variance 1/2 while its mean square error is 1; proved.)", "quantifier": "all probability spaces, noises, dimensions, polynomial measurement models, competing affine estimators", "why_tests_cant": "Quantifies over probability spaces, measurement functions and all competing estimators.", "anchors": ["navlie/filters.py:SigmaPointKalmanFilter.correct", "navlie/filters.py:generate_sigmapoints"]}
{"id": "C111", "title": "Pose estimation with exact odometry and perfect measurements returns the true trajectory", "statement": "If the true pose T(t), on any of SO(2), SO(3), SE(2), SE(3), SE_2(3), solves dT/dt = T u^ with the logged body-frame velocities held between their stamps, the filter starts at the true pose with any covariance, and every measurement (of any model) has the value of its model at the true pose, then run_filter with BodyFrameVelocity returns exactly the true pose at the stamp of every estimate, for left and right perturbations, with or without outlier rejection; likewise the iterated filter whenever it returns; likewise for data that DataGenerator generates without noise.", "quantifier": "all groups, trajectories, velocities, measurement models, logs of any length and order, covariances, settings", "why_tests_cant": "Quantifies over all trajectories and logs, and compares a discrete-time filter with the solution of a differential equation.", "anchors": ["navlie/lib/models.py:BodyFrameVelocity", "navlie/lib/states.py:MatrixLieGroupState", "navlie/filters.py:run_filter", "navlie/datagen.py:DataGenerator"]}
{"id": "C112", "title": "More data and less noise never increase the reported covariance", "statement": "On linear systems the covariances that run_filter reports depend only on the models and the stamps, not on the initial state, the measured values or the offsets of the dynamics; a smaller initial covariance, smaller process noise or smaller measurement noise gives smaller covariances (in the order of positive semidefinite differences) at every reported estimate. If the dynamics compose over time and the noise of a long step is at least that of two short ones (van_loans discretizations, SingleIntegrator), additional measurements anywhere in the log never increase a covariance: each estimate reported with more data is at least as late and has at most the covariance of the other one predicted to its time. (False in part: for DoubleIntegrator, whose noise is held over a step, an additional measurement can increase a reported variance from 0 to a positive value; proved.)", "quantifier": "all linear systems, logs of any length and order, added measurements, initial covariances", "why_tests_cant": "Compares pairs of runs on arbitrary logs.", "anchors": ["navlie/filters.py:run_filter", "navlie/filters.py:ExtendedKalmanFilter.predict", "navlie/filters.py:ExtendedKalmanFilter.correct", "navlie/lib/models.py:DoubleIntegrator.covariance", "navlie/lib/models.py:SingleIntegrator.covariance"]}
{"id": "C113", "title": "Inertial navigation reproduces a perfect IMU log", "statement": "A vehicle moves by the continuous-time IMU kinematics (Cdot = C (omega - b_g)^x, vdot = C (f - b_a) + g, rdot = v) with constant biases and readings held from stamp to stamp. Initialised at the true IMUState and given these readings and error-free measurements of any kind, run_filter around the EKF raises nothing and returns the true attitude, velocity, position and biases at every stamp, for every noise covariance and perturbation direction; so does the iterated filter whenever it returns. (False in part: in a step that turns by an angle p above zero and below the small angle tolerance the position is off by up to p |f| dt^2 / 2, and is wrong unless the vehicle turns about the direction of f; attitude, velocity and biases are still exact; proved.)", "quantifier": "all motions, biases, readings, measurement models, logs of any length and order (stamps equal or more than 1e-11 apart)", "why_tests_cant": "Relates the output of a whole run to the solution of a differential equation, for all logs and motions.", "anchors": ["navlie/lib/imu.py:IMUKinematics", "navlie/lib/imu.py:N_matrix", "navlie/lib/imu.py:IMUState", "navlie/filters.py:run_filter", "navlie/filters.py:ExtendedKalmanFilter"]}
{"id": "C114", "title": "Time plots draw the data they are given", "statement": "plot_error draws for every component of the error its values against the stamps, and if asked the band of plus and minus three standard deviations, one component per axes, in columns of at most three. plot_nees draws the NEES over the stamps and, with a confidence interval, the expected NEES and both bounds, each divided by the dof if normalized; over any number of calls on one axes every automatic legend entry appears once. plot_meas draws every measured component against the sorted stamps, with the value and three sigma of the model at the true state nearest in time (gaps where the model has no value), and plot_meas_by_model one such plot for each model, of its measurements only. (False in part: one-component errors and a single Axes raise AttributeError in plot_error; without a confidence interval plot_nees does not show the expected value, and for one outside (0,1) it raises after drawing; plot_meas sorts the caller's list; plot_meas_by_model raises for an empty list, and on given axes for models with several components; proved.)", "quantifier": "all results, dimensions, stamps, axes arguments, sequences of calls, measurements, models", "why_tests_cant": "Quantifies over all result lists, sequences of plotting calls and measurement lists in any order.", "anchors": ["navlie/utils/plot.py:plot_error", "navlie/utils/plot.py:plot_nees", "navlie/utils/plot.py:plot_meas", "navlie/utils/plot.py:plot_meas_by_model"]}
{"id": "C115", "title": "Pose plots show the poses", "statement": "plot_poses draws a line through the positions of all poses and, at every step-th pose, arrows at its position along the columns of its attitude: three on 3D axes, the first two (projected for 3D poses) on planar ones; plot_camera_poses draws for every step-th pose exactly the eight edges of the camera pyramid, scaled, rotated by the attitude and moved to the position, so a rigid motion of the poses moves the drawing by it; set_axes_equal gives all axes the largest of their ranges, keeps centres, never cuts off anything and is idempotent. (False in part: an empty list, planar poses on 3D axes, 3D poses on given planar axes without plot_2d and steps below one raise; an inverted axis is turned round; proved.)", "quantifier": "all pose lists, steps, axes, scales, attitudes, limits", "why_tests_cant": "Quantifies over all trajectories, steps and axis limits.", "anchors": ["navlie/utils/plot.py:plot_poses", "navlie/utils/plot.py:plot_camera_poses", "navlie/utils/plot.py:CameraPoseVisualizer", "navlie/utils/plot.py:set_axes_equal"]}
{"id": "C116", "title": "Trajectory alignment returns the associated poses, moved as reported", "statement": "state_list_to_evo_traj followed by evo_traj_to_state_list keeps all poses and stamps in order. associate_and_align_trajectories returns as many reference as estimated states, the k-th ones associated with each other; reference poses are unchanged; without align the estimates are unchanged and the identity is returned; with align every estimate is moved by exactly the rotation and position returned (after scaling by the returned scale if correct_scale), so relative attitudes and, up to the scale, relative positions between estimates are kept. Failure of the association is passed on. (False in part: state ids and directions are dropped, and the reference keeps its own stamps although it is documented to get those of the estimate; proved.)", "quantifier": "all trajectories of rotations and positions, associations, alignments, options", "why_tests_cant": "Quantifies over all trajectories and over every association and alignment the packages may return.", "anchors": ["navlie/utils/alignment.py:state_list_to_evo_traj", "navlie/utils/alignment.py:evo_traj_to_state_list", "navlie/utils/alignment.py:associate_and_align_trajectories"]}
{"id": "C117", "title": "With Gaussian noise the filter reports the posterior distribution and its NEES is chi-square", "statement": "On a linear system with white jointly Gaussian noise of the modelled covariances, every estimate that run_filter reports is a function of the measurements fused so far such that the true state minus the estimate is normally distributed with mean zero and exactly the reported covariance, independently of those measurements. Therefore the NEES of GaussianResult for it has the chi-square distribution with as many degrees of freedom as the state, lies between nees_lower_bound(c) and nees_upper_bound(c) with probability exactly c, and below the one-sided bound with probability c.", "quantifier": "all linear systems, inputs, logs of any length and order, all white Gaussian noises, all confidence levels in (0,1)", "why_tests_cant": "A statement about probability distributions over all noise realisations.", "anchors": ["navlie/filters.py:run_filter", "navlie/filters.py:ExtendedKalmanFilter", "navlie/utils/common.py:GaussianResult", "navlie/utils/common.py:GaussianResultList.nees_lower_bound", "navlie/utils/common.py:GaussianResultList.nees_upper_bound"]}
{"id": "C118", "title": "With Gaussian noise no estimator whatsoever beats the filter", "statement": "On a linear system with white jointly Gaussian noise, the distribution of the true state given the fused measurements is the normal distribution around the reported estimate with the reported covariance (its probabilities integrate to the joint probabilities of data and state). No measurable function of the fused measurements, linear or not, has a smaller error covariance or a smaller mean square error than the reported estimate.", "quantifier": "all linear systems, logs, white Gaussian noises, measurable estimators with finite second moments", "why_tests_cant": "Quantifies over all estimators, that is over all functions of the data.", "anchors": ["navlie/filters.py:run_filter", "navlie/filters.py:ExtendedKalmanFilter.predict", "navlie/filters.py:ExtendedKalmanFilter.correct"]}
{"id": "C119", "title": "The outlier test rejects one in a hundred good measurements", "statement": "With reject_outliers=True, a measurement that follows its model exactly is flagged as an outlier and discarded with probability exactly 0.01: the innovation is normal with the reported innovation covariance. In a run of run_filter on a linear system with white Gaussian noise in which K measurements are fused, all of them are accepted with probability exactly 0.99^K (the tests are independent), and when they are, the run returns what it returns without the test. So a long run on perfect data almost surely discards good measurements.", "quantifier": "all linear systems, inputs, logs of any length and order, white Gaussian noises", "why_tests_cant": "A statement about probabilities over all noise realisations and runs of any length.", "anchors": ["navlie/filters.py:check_outlier", "navlie/filters.py:ExtendedKalmanFilter.correct", "navlie/filters.py:run_filter"]}
{"id": "C120", "title": "Monte Carlo consistency bounds are exact", "statement": "If an experiment with a linear system, white Gaussian noise and run_filter is repeated independently N times, evaluated by GaussianResultList.from_estimates against true states that include the stamps of the estimates, and collected by monte_carlo, then monte_carlo succeeds and at every step the average NEES lies between nees_lower_bound(c) and nees_upper_bound(c) of MonteCarloResult with probability exactly c, and below the one-sided bound with probability c, for every number of trials and every order in which parallel jobs finish.", "quantifier": "all numbers of trials, orders of completion, linear systems, logs, white Gaussian noises, confidence levels in (0,1)", "why_tests_cant": "A statement about probability distributions over repeated experiments and over schedules of the parallel jobs.", "anchors": ["navlie/utils/common.py:monte_carlo", "navlie/utils/common.py:MonteCarloResult", "navlie/utils/common.py:GaussianResultList.from_estimates", "navlie/filters.py:run_filter"]}
{"id": "C121", "title": "BatchEstimator returns the posterior distribution given all data", "statement": "On a linear system with white noise of the modelled covariances (inputs with distinct stamps starting at the stamp of the prior, measurements at stamps of inputs), BatchEstimator.solve with Gauss-Newton does not raise; for every input time the error of the returned state has mean zero and its covariance is exactly the returned covariance; the state is an affine function of the measurements, and no affine function of all or some of the measurements, in particular what run_filter reports at that time, has a smaller error covariance. If the noise is Gaussian, the returned state and covariance are mean and covariance of the distribution of the state given all the measurements (later ones included), and the NEES of a batch estimate has the chi-square distribution.", "quantifier": "all linear systems with positive definite covariances, logs of any length, noise distributions, affine estimators", "why_tests_cant": "A statement about probability distributions and about all other estimators, for logs of any length.", "anchors": ["navlie/batch/estimator.py:BatchEstimator.solve", "navlie/batch/problem.py:Problem.solve", "navlie/batch/problem.py:Problem.compute_covariance"]}
{"id": "C122", "title": "The Gaussian sum filter reports the posterior over hypotheses and state", "statement": "Let the true initial state be drawn from one of several Gaussian hypotheses with the initial weights as probabilities and then follow a linear system with white Gaussian noise. Then run_gsf_filter with GaussianSumFilter and scalar measurements does not raise, and each mixture reported is the distribution of the hypothesis and the state given the measurements fused so far: the weight of a component is the probability of its hypothesis given the data, and the state given data and hypothesis is normal with the mean and covariance of the component, hence the state given the data has the mixture as its distribution. (False in part: this is so only while the unnormalised weights exceed 1e-8 for some component; at a correction where none does the weights are reset to be equal; the statement is proved on exactly the other outcomes.)", "quantifier": "all linear systems, hypotheses, weights, logs of any length and order, white Gaussian noises, sets of data and states", "why_tests_cant": "A statement about conditional probability distributions over all noise realisations.", "anchors": ["navlie/filters.py:GaussianSumFilter.predict", "navlie/filters.py:GaussianSumFilter.correct", "navlie/filters.py:run_gsf_filter"]}
{"id": "C123", "title": "The IMM filter with static modes reports the posterior over models and state", "statement": "Let the truth follow, from a common Gaussian initial state, one of several linear systems with white Gaussian noise, chosen once with equal probabilities. Then run_imm_filter with the identity as transition matrix does not raise, and each reported result is the distribution of the active model and the state given the measurements fused so far: model_probabilities are the probabilities of the models given the data, and given data and model the state is normal with the mean and covariance of that model's filter. (False in part: as for the Gaussian sum filter, only while no weight reset occurs.)", "quantifier": "all numbers of models, linear systems, logs of any length and order, white Gaussian noises, sets of data and states", "why_tests_cant": "A statement about conditional probability distributions over all noise realisations.", "anchors": ["navlie/filters.py:InteractingModelFilter.interaction", "navlie/filters.py:InteractingModelFilter.predict", "navlie/filters.py:InteractingModelFilter.correct", "navlie/filters.py:run_imm_filter"]}
{"id": "C124", "title": "What the measurements cannot see the filter does not learn", "statement": "If an uncertainty of the state is carried along by the Jacobians of the process model and annihilated by the Jacobians of all measurements fused (for linear systems: it lies along unobservable directions), then adding it to the initial covariance given to run_filter with an EKF changes nothing but that it is added to every reported covariance: same estimates, same exceptions, same outlier decisions. So the reported covariance never falls below the initial one along unobservable directions, and on linear systems moving the initial estimate along them moves all estimates by the same.", "quantifier": "all EKF models (linear or not), logs of any length and order, unobservable directions, uncertainties, with and without outlier rejection", "why_tests_cant": "Quantifies over all systems and logs; a test cannot tell zero information from little information.", "anchors": ["navlie/filters.py:run_filter", "navlie/filters.py:ExtendedKalmanFilter.predict", "navlie/filters.py:ExtendedKalmanFilter.correct"]}
{"id": "C125", "title": "Inertial navigation does not learn its position without measurements of it", "statement": "With ExtendedKalmanFilter and IMUKinematics on IMUState, fusing any number of Gravitometer, Magnetometer and AbsoluteVelocity measurements (and Altitude for the horizontal position), an uncertainty of the initial position added to the initial covariance is reported unchanged in the position block of every later covariance, with the same estimates; the position never becomes more certain than it was at the start. (Proved for any uncertainty of the position with direction left and for isotropic uncertainties with direction right.)", "quantifier": "all IMU logs of any length, gravity vectors, noise covariances, initial states, measurement values and stamps", "why_tests_cant": "Quantifies over all IMU and measurement logs.", "anchors": ["navlie/lib/imu.py:IMUKinematics.jacobian", "navlie/lib/models.py:Gravitometer", "navlie/lib/models.py:Magnetometer", "navlie/lib/models.py:AbsoluteVelocity", "navlie/lib/models.py:Altitude", "navlie/filters.py:run_filter"]}
{"id": "C126", "title": "Covariances can be computed before the data arrive", "statement": "With ExtendedKalmanFilter without outlier rejection, when Jacobians and noise covariances do not depend on the state (or, for measurements, only by an orthogonal change of coordinates), the stamps and covariances reported by run_filter, and the exceptions, depend only on the initial covariance, the inputs and the stamps: not on the initial estimate and not on what is measured. This is so for linear systems, and for poses with right perturbations, BodyFrameVelocity and AbsolutePosition with isotropic noise, whose covariances are those of a linear Kalman filter. (False with outlier rejection; proved.)", "quantifier": "all models of this kind, logs of any length and order, initial estimates, measured values", "why_tests_cant": "Quantifies over pairs of logs; a test compares a few.", "anchors": ["navlie/filters.py:run_filter", "navlie/filters.py:ExtendedKalmanFilter.correct", "navlie/lib/models.py:BodyFrameVelocity", "navlie/lib/models.py:AbsolutePosition", "navlie/lib/models.py:LinearMeasurement"]}
{"id": "C127", "title": "Dead reckoning has an honest covariance for errors of any size", "statement": "Running run_filter with an ExtendedKalmanFilter without measurements and process noise, the true state is off each reported estimate by a perturbation which is a fixed matrix times the perturbation at the start, with the same matrix that carries the covariance, exactly and for initial errors of any size: for linear systems, for BodyFrameVelocity on every matrix Lie group and both directions, and for IMUKinematics with known biases. So the reported covariances are the second moments of the errors if the initial one is, and the NEES stays what it was.", "quantifier": "all groups, inputs, logs of any length, initial errors of any size, distributions of the initial error", "why_tests_cant": "Quantifies over all errors and trajectories, and over distributions.", "anchors": ["navlie/filters.py:run_filter", "navlie/filters.py:ExtendedKalmanFilter.predict", "navlie/lib/models.py:BodyFrameVelocity.jacobian", "navlie/lib/imu.py:IMUKinematics.jacobian"]}
{"id": "C128", "title": "The cost of a linear Gaussian least-squares problem is a chi-square statistic", "statement": "Take a `Problem` with vector variables, linear residuals and L2 losses, solved by Gauss-Newton from any initial values, whose data is random and whose stacked error at the true values of the variables is a standard normal vector (each residual whitened by the square root of its information). Then twice the cost after `solve` has the chi-square distribution with (rows of the problem - unknowns) degrees of freedom, so it exceeds the quantile for p with probability 1 - p; the error of the estimate is normal with mean zero and a covariance whose blocks are exactly what `get_covariance_block` returns; and the cost is independent of the error of the estimate.", "quantifier": "all sets of variables, constants, residuals, Jacobians of full column rank, all probability spaces, all (random) initial values, all quantiles", "why_tests_cant": "The statement is about probability distributions over all data sets; a simulation estimates them for one problem with a sampling error.", "anchors": ["navlie/batch/problem.py:Problem.solve", "navlie/batch/problem.py:Problem._solve_gauss_newton", "navlie/batch/problem.py:Problem.get_covariance_block", "navlie/batch/losses.py:L2Loss"]}
{"id": "C129", "title": "The cost of a linear Gaussian batch estimate is a chi-square statistic", "statement": "Take `BatchEstimator.solve` with Gauss-Newton on a linear system whose prior error, process noises and measurement noises are jointly Gaussian, uncorrelated and of the modelled covariances. The batch objective (twice the negative log posterior up to a constant: squared Mahalanobis norms of the prior error, the process errors and the measurement errors) takes its least value at the returned states; over the data this value has the chi-square distribution with as many degrees of freedom as the measurements have scalar components in total, so that it exceeds the quantile for p with probability 1 - p; and it is independent of the errors of all the returned states.", "quantifier": "all linear systems with positive definite noise covariances, all sets of inputs and measurements, all probability spaces, all quantiles", "why_tests_cant": "The statement is about probability distributions over all data sets; a simulation estimates them for one data set size with a sampling error.", "anchors": ["navlie/batch/estimator.py:BatchEstimator.solve", "navlie/batch/problem.py:Problem.solve", "navlie/batch/residuals.py:ProcessResidual", "navlie/batch/residuals.py:MeasurementResidual", "navlie/batch/residuals.py:PriorResidual"]}
{"id": "C130", "title": "Innovations of a run are white, and their squares add up to the batch cost", "statement": "Run `ExtendedKalmanFilter` (without outlier rejection) through `run_filter` on a linear system and collect the details (`z`, `S`) that the corrections report with `output_details=True`. (a) At every estimate that is recorded, the sum of the normalised innovations squared `z^T S^-1 z` reported until then is the least cost of a trajectory: prior, process and measurement terms of the batch problem until then; if the measurements are at inputs other than the last, the sum over the whole run is the objective at the states that `BatchEstimator.solve` returns for the same data. (b) If the initial error and the noises are white with the modelled covariances, the reported innovations have mean zero and the reported covariances `S`, and the innovations of different corrections are uncorrelated. (c) If the noises are also jointly Gaussian, so are the innovations, and the sum of the normalised innovations squared has the chi-square distribution with as many degrees of freedom as measurement components were fused, so that it exceeds the quantile for p with probability 1 - p.", "quantifier": "all linear systems, all sets of inputs and measurements in any order, all values of the data (a), all probability spaces and noises (b, c), all quantiles", "why_tests_cant": "(a) must hold for every log; (b) and (c) are statements about distributions over all logs, which a simulation estimates with a sampling error for one system.", "anchors": ["navlie/filters.py:ExtendedKalmanFilter.correct", "navlie/filters.py:ExtendedKalmanFilter.predict", "navlie/filters.py:run_filter", "navlie/batch/estimator.py:BatchEstimator.solve"]}
{"id": "C131", "title": "Worst-case guarantees of the linear filter: errors are bounded by the noise that occurred", "statement": "Run `ExtendedKalmanFilter` (without outlier rejection) through `run_filter` with linear models. No assumption about the noise is made. (a) Whatever the true trajectory and whatever the data, at every estimate that is recorded, the normalised innovations squared reported until then plus the normalised estimation error squared are at most the normalised error squared of the initial estimate plus the energy of the noise until then (each noise measured by its modelled covariance); so the squared error of each component is at most its reported variance times that budget. (b) If the data follow the models exactly, the normalised estimation error squared never increases from one recorded estimate to a later one, and an initial error within k standard deviations (in the normalised sense) stays within k reported standard deviations. (c) Two runs on the same data from different initial values (same covariance) report the same stamps and covariances, their normalised distance never grows, and each component of their difference is at most the reported standard deviation times the initial normalised distance.", "quantifier": "all linear systems, all true trajectories, all sets of inputs and measurements in any order, all data, all initial values", "why_tests_cant": "A worst-case bound over all noises and all logs; a test or simulation sees only some noise sequences.", "anchors": ["navlie/filters.py:ExtendedKalmanFilter.correct", "navlie/filters.py:ExtendedKalmanFilter.predict", "navlie/filters.py:run_filter"]}
{"id": "C132", "title": "Online operation: estimates do not depend on the future, and runs can be continued", "statement": "`run_filter`, `run_gsf_filter` and `run_imm_filter`, with any filter. (a) The run on the data recorded until a time T gives exactly the first estimates of the run on all the data, and if it raises, the run on all the data raises the same; two logs that agree until T give the same estimates for all input intervals that end by T. (b) A run can be stopped and continued (`run_filter`, `run_gsf_filter`) from one of the estimates it returned, with the same inputs and the measurements not yet fused: the continued run returns that estimate and all the later ones. (False in part: (b) holds if the estimate is stamped as its input; if a later measurement was fused before it was recorded, that input counts as older than the estimate and the continued run is always one estimate short; and passing the whole log again fuses a measurement stamped as the estimate twice; proved.)", "quantifier": "all filters, all initial estimates, all sets of inputs and measurements in any order, all times T and all continuations of the log, all estimates to continue from", "why_tests_cant": "Independence of the future quantifies over all continuations of a log; a test compares a few.", "anchors": ["navlie/filters.py:run_filter", "navlie/filters.py:run_gsf_filter", "navlie/filters.py:run_imm_filter"]}
{"id": "C133", "title": "The units in which measurements are expressed do not matter", "statement": "Expressing a measurement in other units or another frame (multiplying its value, its predictions and its Jacobians by an invertible matrix, and changing its noise covariance accordingly) does not change what `correct` does: `ExtendedKalmanFilter`, `IteratedKalmanFilter` (with or without line search) and the sigma point filters return the same estimate and covariance, take the same decision about outliers and raise the same exceptions; so `run_filter` returns the same results, even with different units for each measurement. The same for the estimates of the models of an `InteractingModelFilter` and for their probabilities. (False in part: the probabilities depend on the units, because `correct` resets them to equal ones if all likelihoods are small in absolute terms: a measurement of a position which favours one of two models when expressed in metres leaves them equally probable when expressed in nanometres; proved. They do not if in both units the likelihood times the prior probability of some model exceeds 1e-8; proved.)", "quantifier": "all states, models, measurements and invertible matrices, all three Kalman filters and their options, all logs; all interacting multiple model filters", "why_tests_cant": "Equality of the results for every invertible matrix, with no tolerance; a test compares a few within one.", "anchors": ["navlie/filters.py:ExtendedKalmanFilter.correct", "navlie/filters.py:IteratedKalmanFilter.correct", "navlie/filters.py:SigmaPointKalmanFilter.correct", "navlie/filters.py:InteractingModelFilter.correct", "navlie/filters.py:check_outlier", "navlie/filters.py:run_filter"]}
{"id": "C134", "title": "Information adds up", "statement": "Correcting an `ExtendedKalmanFilter` estimate on a vector space with linear measurements taken at the same time, one after the other, succeeds and adds up what each of them knows: with a positive definite prior covariance the inverse of the covariance grows by C\u1d40 R\u207b\u00b9 C for each measurement, and the inverse of the covariance times the estimate by C\u1d40 R\u207b\u00b9 y; with a singular prior covariance the same in the form P (1 + I P)\u207b\u00b9. So the order of the measurements does not matter; nor whether they are given one by one or stacked into a single measurement with block diagonal noise; measuring the same thing k times is the same as measuring it once with the mean value and 1/k of the noise covariance; and if the measurements determine the state, the covariance afterwards is at most the inverse of their information matrix, whatever the prior.", "quantifier": "all lists of linear measurements with positive definite noise covariances, all prior estimates and positive semidefinite covariances", "why_tests_cant": "An identity between the results for lists of any length and dimension, in exact arithmetic; a test checks a few, within a tolerance.", "anchors": ["navlie/filters.py:ExtendedKalmanFilter.correct", "navlie/lib/models.py:LinearMeasurement"]}
{"id": "C135", "title": "A CompositeInput is a map from identifiers to inputs", "statement": "After any history of `add_input`, `remove_input_by_id`, `set_stamp_by_id`, `set_input_by_id` and `set_stamp_for_all` that keeps identifiers unique, a `CompositeInput` holds exactly the inputs those calls describe, each under its identifier: `get_input_by_id`, `get_stamp_by_id` and `get_dof_by_id` return what was last stored under the identifier, exactly the calls for an absent identifier raise `ValueError` and they change nothing, and `dof` is the sum over all inputs held. `stamp` is that of the first input (`IndexError` without inputs); `plus` keeps all identifiers and stamps and hands every input its own part of the perturbation. `add_input` never hides or doubles an input. (False in part: it does not check the identifier; an input added under one already present cannot be read until the first is removed, but counts in `dof`; proved.)", "quantifier": "all composite inputs with unique identifiers, all histories of calls, including calls that raise", "why_tests_cant": "Ranges over histories of calls of any length; the code carries the remark that these methods have no tests.", "anchors": ["navlie/composite.py:CompositeInput"]}
{"id": "C136", "title": "Batch estimates do not depend on the units of the measurements", "statement": "Express every measurement given to `BatchEstimator.solve` in other units: replace a measurement by an invertible linear map of it (a different one for each if wanted: centimetres for metres, degrees for radians, or a mix of its rows), with value, prediction, Jacobian and noise covariance changed accordingly. The solve succeeds for one set of measurements exactly if it does for the other, and returns the same states with the same covariance of each. Nor does it matter which square root of the information whitens a residual: premultiplying every residual of a `Problem`, and its Jacobians, by an orthogonal matrix leaves the variables, the cost after every iteration and all covariance blocks of `solve` unchanged, for every loss function.", "quantifier": "all process models, initial estimates, inputs, measurements with symmetric noise covariances and invertible maps of them, both solvers, all settings; for problems: all residuals, losses and orthogonal matrices, which may vary from point to point", "why_tests_cant": "Ranges over all models and invertible maps and over every iteration of the solver; a test fixes one pair of units.", "anchors": ["navlie/batch/estimator.py:BatchEstimator", "navlie/batch/residuals.py:MeasurementResidual", "navlie/batch/problem.py:Problem"]}
{"id": "C137", "title": "Gross outliers with a Cauchy loss are ignored", "statement": "A linear least squares problem is solved with Gauss-Newton, and then again with extra measurements added, each with a Cauchy loss. However small the tolerance, there is a distance such that, if every one of the extra measurements misses the first estimate by at least that distance, the second solve succeeds and returns the first estimate and its covariances up to the tolerance: gross outliers have no influence at all, however many there are. The distance depends on the problem, on which sensors the extra measurements come from and on the scales of the losses, but not on the values measured.", "quantifier": "all linear problems over vector variables that Gauss-Newton solves, any initial values, constants, number of iterations and stopping tolerances, all numbers of extra linear measurements of any of the variables, all non-zero scales of the losses, all tolerances", "why_tests_cant": "A limit over the values of the outliers and every iteration of the solver; a test tries one outlier.", "anchors": ["navlie/batch/losses.py:CauchyLoss", "navlie/batch/problem.py:Problem.add_residual", "navlie/batch/problem.py:Problem.solve", "navlie/batch/problem.py:Problem.get_covariance_block"]}
{"id": "C138", "title": "Holding variables at their estimates changes no other estimate", "statement": "A linear least squares problem is solved with Gauss-Newton. Some of its variables are then set constant at their estimates (`set_variables_constant`) and the problem is solved again, from any values of the remaining variables. As long as one free component remains, the second solve succeeds and returns exactly the same variables, and no linear combination of the remaining variables has a larger variance, according to `get_covariance_block`, than it had before.", "quantifier": "all linear problems over vector variables that Gauss-Newton solves, all sets of variables to hold, all initial values of the others, all combinations of the remaining variables", "why_tests_cant": "Ranges over all problems, all subsets of variables and all combinations; a test tries one subset.", "anchors": ["navlie/batch/problem.py:Problem.set_variables_constant", "navlie/batch/problem.py:Problem.solve", "navlie/batch/problem.py:Problem.get_covariance_block"]}
{"id": "C139", "title": "Only the ratios of the noise covariances matter", "statement": "Multiply the initial covariance and the covariances of all process and measurement noises by the same positive number. The states estimated by the extended and the iterated Kalman filter (also over whole runs of `run_filter`) and by `BatchEstimator` (Gauss-Newton and Levenberg-Marquardt, without a gradient tolerance) do not change, and all covariances they return are multiplied by that number. (False in part: with outlier rejection the common scale matters; a measurement that is rejected can be fused when everything is twice as uncertain; proved.)", "quantifier": "all models, estimates, inputs, measurements, runs, solver settings without gradient tolerance, and positive factors", "why_tests_cant": "Ranges over all models, logs and factors; a test compares one run.", "anchors": ["navlie/filters.py:ExtendedKalmanFilter", "navlie/filters.py:IteratedKalmanFilter", "navlie/filters.py:run_filter", "navlie/batch/estimator.py:BatchEstimator.solve"]}
{"id": "C140", "title": "Attaching a variable that only one residual knows changes nothing else", "statement": "A linear least squares problem is solved with Gauss-Newton. A variable is added together with one residual that determines it (whatever the values of the other variables, exactly one value of the new one makes the residual zero: a prediction to a new time, a first sighting of a landmark), and the larger problem is solved, from any value of the new variable. The solve succeeds and returns the same estimates of the old variables, the value of the new one that makes its residual zero, and the same covariance blocks of the old variables.", "quantifier": "all linear problems over vector variables that Gauss-Newton solves, all new variables, residuals and initial values", "why_tests_cant": "Ranges over all problems and all residuals that can be attached; a test attaches one.", "anchors": ["navlie/batch/problem.py:Problem.add_variable", "navlie/batch/problem.py:Problem.add_residual", "navlie/batch/problem.py:Problem.solve", "navlie/batch/problem.py:Problem.get_covariance_block"]}
{"id": "C141", "title": "The posterior of one batch is the prior of the next", "statement": "A linear least squares problem is solved with Gauss-Newton, and k is one of its free variables. Further variables and residuals, which involve k but no other variable of the old problem, may be added to it and everything solved together; or they may go into a problem of their own, in which all that is left of the old one is a prior residual on k, built from its estimate and its covariance block. The prior can be built from these. One of the two problems is solved exactly when the other is, from any initial value of k in the second; they return the same values of k and of the new variables, and the same covariance blocks of these.", "quantifier": "all linear problems over vector variables that Gauss-Newton solves, all choices of k, all further variables (free or constant), residuals and initial values", "why_tests_cant": "Ranges over all problems and all continuations; a test compares one pair of solves.", "anchors": ["navlie/batch/problem.py:Problem.solve", "navlie/batch/problem.py:Problem.get_covariance_block", "navlie/batch/residuals.py:PriorResidual.__init__", "navlie/batch/residuals.py:PriorResidual.evaluate"]}
{"id": "C142", "title": "Levenberg-Marquardt solves linear problems, and how fast", "statement": "A linear least squares problem that Gauss-Newton solves is solved by Levenberg-Marquardt too, for every nonnegative initial damping factor tau, number of iterations and step tolerance (the other tolerances not set, as by default). No useful step is rejected: in the recorded cost history the excess over the least cost after pass i is at most (q_i/(1+q_i))^2 times what it was before it, with q_i = tau*rho/3^i for a number rho that does not depend on tau, the number of iterations or the tolerance. So at the end the excess is within the product of these factors of the initial one, unless the step tolerance t ended the passes, when every entry of every estimate is within (1 + tau*rho)*t of the Gauss-Newton estimate. Without tolerances the estimates tend to those of Gauss-Newton as more iterations are allowed. The covariance blocks are exactly those of Gauss-Newton: the damping does not enter them.", "quantifier": "all linear problems over vector variables that Gauss-Newton solves, all damping factors, numbers of iterations and step tolerances", "why_tests_cant": "Ranges over all problems and all numbers of iterations; a test runs the solver on a few and compares up to a tolerance.", "anchors": ["navlie/batch/problem.py:Problem._solve_LM", "navlie/batch/problem.py:Problem._solve_gauss_newton", "navlie/batch/problem.py:Problem.is_converged", "navlie/batch/problem.py:Problem.get_covariance_block"]}
{"id": "C143", "title": "On perfect data Gauss-Newton converges quadratically to the truth from every good enough initial guess", "statement": "Let a least squares problem over vector variables with L2 losses have nonlinear residuals that are smooth around an assignment v (the error is its linearization up to a quadratic term, the Jacobians returned are Lipschitz) and that vanish at v: perfect data. If Gauss-Newton succeeds when it starts at v (the information matrix there is invertible and something is free), there are a radius r > 0 and a constant k with k*r <= 1/2 such that from every initial assignment with all entries within rho <= r of v, and for every number M >= 1 of iterations, Gauss-Newton succeeds, and all entries of its result are within (k*rho)^(2^M) of v, the number of correct digits doubling with every iteration, or it stopped early because of the step tolerance t, and all entries are within k*t^2 of v. The constants do not depend on the initial guess, M or t. Without tolerances the results tend to v.", "quantifier": "all problems over vector variables with L2 losses and smooth residuals vanishing at some assignment, all initial assignments in a neighbourhood, all numbers of iterations and step tolerances", "why_tests_cant": "An estimate for every initial guess in a neighbourhood and every number of iterations; a test starts from a few guesses.", "anchors": ["navlie/batch/problem.py:Problem._solve_gauss_newton", "navlie/batch/problem.py:Problem.compute_error_jac_cost", "navlie/batch/problem.py:Problem._correct_states", "navlie/batch/problem.py:Problem.is_converged"]}
{"id": "C144", "title": "With small residuals Gauss-Newton converges linearly to a stationary point from every good enough initial guess", "statement": "Let a least squares problem over vector variables with L2 losses have nonlinear residuals that are smooth around an assignment v (the error is its linearization up to a quadratic term, the Jacobians returned are Lipschitz with a constant B), and let one iteration of Gauss-Newton from v stay at v: v is a stationary point of the cost, with residuals that need not vanish. Let l > 0 bound the information matrix there from below, c be the cost, m the number of error components and n of free components, and let the residuals be small: 4 m B (n + 1) sqrt(2c) < beta*l for some beta < 1. Then there is a radius r > 0 such that from every initial assignment with all entries within rho <= r of v and for every number M >= 1 of iterations, Gauss-Newton succeeds, and all entries of its result are within n*beta^M*rho of v, or it stopped early because of the step tolerance t, and all entries are within beta/(1-beta)*t of v.", "quantifier": "all problems over vector variables with L2 losses and smooth residuals small at a stationary assignment, all initial assignments in a neighbourhood, all numbers of iterations and step tolerances", "why_tests_cant": "An estimate for every initial guess in a neighbourhood and every number of iterations; a test starts from a few guesses.", "anchors": ["navlie/batch/problem.py:Problem._solve_gauss_newton", "navlie/batch/problem.py:Problem.compute_error_jac_cost", "navlie/batch/problem.py:Problem._correct_states", "navlie/batch/problem.py:Problem.is_converged"]}
{"id": "C145", "title": "On perfect data Levenberg-Marquardt converges to the truth from every good enough initial guess", "statement": "Let a least squares problem over vector variables with L2 losses have nonlinear residuals that are smooth around an assignment v and vanish at v: perfect data. If Gauss-Newton succeeds when it starts at v (the information matrix there is invertible and something is free), then for every initial damping factor tau >= 0 there are a radius r > 0, a factor beta < 1 and a constant k such that from every initial assignment with all entries within rho <= r of v, and for every number M of iterations, Levenberg-Marquardt succeeds, and all entries of its result are within k*beta^M*rho of v, or it stopped early because of the step tolerance t, and all entries are within t/(1-beta) of v. The constants do not depend on the initial guess, M or t: the gain ratio rejects no step and the damping does not grow. Without tolerances the results tend to v.", "quantifier": "all problems over vector variables with L2 losses and smooth residuals vanishing at some assignment, all initial damping factors, all initial assignments in a neighbourhood, all numbers of iterations and step tolerances", "why_tests_cant": "An estimate for every initial guess in a neighbourhood and every number of iterations, with the adaptive damping; a test starts from a few guesses.", "anchors": ["navlie/batch/problem.py:Problem._solve_LM", "navlie/batch/problem.py:Problem.compute_error_jac_cost", "navlie/batch/problem.py:Problem._correct_states", "navlie/batch/problem.py:Problem.is_converged"]}
