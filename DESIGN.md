# Formal model of decargroup/navlie in Lean 4 — design

`/repo` is read as text only. Everything below is about a hand-written Lean model of that text.

## 1. Modelling conventions

* Functions are modelled one by one, branch by branch; Python exceptions are values of
  `Verif.Err` inside `Except Err _`. Each definition cites `file:lines`.
* Floats are modelled by `ℝ` (or an arbitrary ordered field). Rounding, NaN, overflow and underflow are NOT
  modelled: a division by zero or a singular solve is an explicit branch or an explicit hypothesis.
* numpy arrays are Mathlib `Matrix` (fixed, arbitrary dimension) when the code's shapes are fixed by the
  types, and dynamically sized matrices (`DMat`) or lists with explicit shape checks and numpy
  broadcasting where the code checks, slices or broadcasts.
* In-place mutation is modelled by returning the new value. Where aliasing itself is the subject
  (C84–C87: copies, constructors, filters, run_filter) there is a separate model with an explicit heap of
  mutable objects (`Model/Heap`, `Model/HeapEkf`), and `FilterRefines` ties it to the value-level filter.
* `while`/`for` loops are recursions; where the code's loop has no bound, fuel is explicit and a theorem
  shows that enough fuel exists (C10) or the theorem is for every fuel.
* Layout: `Model/` — the code; `Lemmas/` — mathematics about the model; `Props/` — specifications
  (small separate definitions such as `MapEstimate`, `MarginalAt`, `schedule`, `IsNearest`) and the theorems
  `Cnn_…`, each followed by an `example` that instantiates its hypotheses.
* When the English property is false of the code, the property text says so in parentheses; the theorem then
  is (a) an exact statement for all inputs of what the code does and (b) a witness refuting the claim.

## 2. Trusted base

* Lean 4.33.0's kernel. Axioms: every theorem depends on at most `propext`, `Classical.choice`, `Quot.sound`
  (no axioms of our own, no compiled evaluation).
* My reading of the Python text, i.e. that each definition does what the cited lines do.
* Behaviour assumed of third-party code (either baked into a definition or a hypothesis of the theorem):
  - numpy/scipy: `linalg.solve(A,b)` = `A⁻¹ b` and raises `LinAlgError` exactly when `det A = 0`; `inv` alike;
    `cholesky` returns the lower triangular factor with positive diagonal and raises when the matrix is not
    positive definite; `expm` = the matrix exponential; `interp`, `searchsorted`, `interp1d('nearest',
    'extrapolate')`, `arange`, `round`/`rint`, `unique`, `argsort` by their documented algorithms; `sort` is a
    stable sort by key; `chi2.ppf(0.99, ·)` and `multivariate_normal.pdf` are parameters; sparse solvers are exact.
  - pymlg: `Exp` is the matrix exponential of `wedge`; `left_jacobian` is the exact series
    `Σ adⁿ/(n+1)!`, `left_jacobian_inv` its inverse, `right_jacobian(ξ) = left_jacobian(−ξ)`; `adjoint` and `odot`
    by their closed formulas (`SO2.odot(b) = [−b₁; b₀]`, `SO3.odot(b) = −b^×`); `Log` is a parameter with
    `Exp (Log X) = X` where needed; the small-angle tolerance is a positive parameter.
  - Python: `dict` insertion order, list slicing, truthiness, attribute lookup errors.
* Heap model simplifications: every array owns its memory (numpy views are not objects), an exception discards the
  heap, inputs and measurements are values in the heap filter.

## 3. What is modelled and what is not

Modelled (one definition per function, comments cite the lines):
`types.py` (State/Measurement/ProcessModel/StateWithCovariance API, finite differences), `filters.py` (EKF, iterated EKF, sigma-point
filters, IMM, GSF, `run_filter`, `run_imm_filter`, `run_gsf_filter`, `generate_sigmapoints`, `mean_state`, gaussian mixing), `composite.py`,
`batch/problem.py`, `batch/residuals.py`, `batch/losses.py`, `batch/gaussian_mixtures.py`, `batch/estimator.py`, `bspline.py`, `datagen.py`,
`utils/common.py` (results, interpolation, `van_loans`, `associate_stamps`, `find_nearest_stamp_idx`, schedules, `load_tum_trajectory`), `utils/mixture.py`,
`lib/states.py`, `lib/models.py`, `lib/imu.py`, `lib/preintegration.py`, `lib/camera.py`, `lib/datasets.py`.

Not modelled: matplotlib itself (plots are modelled as lists of draw calls), printing (`__repr__`, headers, summaries), multiprocessing of `jacobian` pools
and joblib workers beyond "apply to every element, in any order of completion", parsing of numbers in files, the inside of the package evo, pickling, ROS conversion, timing, random number
quality (a random draw is an arbitrary value), floating-point rounding, and the sandbox cannot run the code, so nothing here was
compared with an execution.

## 4. Per property: where it is stated, how it is proved

The statement in words is in `properties.jsonl`, the exact theorem names in `MANIFEST.json`. Modules are under `lean/Verif/`.

| id | property | status | theorems in | how |
|----|----|----|----|----|
| C01 | EKF covariance stays symmetric PSD over any history | proved | Props/Ekf | matrix algebra ((I−KG)P = Joseph form), induction over an arbitrary history of predict/correct calls |
| C02 | EKF correction never increases uncertainty | proved | Props/Ekf | Loewner order from the Joseph form |
| C03 | EKF correction is the Bayes/MAP update for linear-Gaussian models | proved | Props/Ekf | matrix inversion lemma and completion of the square |
| C04 | Simultaneous linear measurements commute | proved | Props/Ekf | information form of the update |
| C05 | EKF time bookkeeping and refusal to go backwards in predict | proved | Props/Ekf | case analysis over all argument combinations |
| C06 | EKF correct decision logic | proved | Props/Ekf | case analysis over all argument combinations |
| C07 | Out-of-order measurements are refused by the EKF | proved | Props/Ekf, Props/Exact | case analysis; general statement of what the code does plus witness. The English claim is false of the code; what the code does instead is characterized exactly for all inputs: C07_exact (refused iff more than 1e10 s older), C07_treated_as_current (otherwise fused as if taken now); C07_out_of_order_fused is a witness. |
| C08 | Jacobian evaluation point x_jac is honoured | proved | Props/Ekf, Props/Exact | dependency statement: two calls agreeing on the stated quantities return the same; witness. The documented behaviour is refuted (C08_xjac_not_honoured); C08_predict_exact and C08_correct_exact say exactly what x_jac does. |
| C09 | Prediction over a split interval equals one prediction | proved | Props/Ekf | algebra of LTI discretisations |
| C10 | Iterated EKF never increases its cost | proved | Props/Iekf | loop invariant over the fuel recursion, termination measure. Line search is modelled with explicit fuel; C10_iekf_terminates shows that enough fuel always exists, so the fuel bound is not a restriction. |
| C100 | The simulated datasets are consistent | proved | Props/Datasets | C99 with times on a grid of 1e-10 s, where rounding has no effect and a measurement is never strictly between samples; the models never give None and never raise on these states; induction over the loop for noise and biases. exact arithmetic; draws of the bias walk are an arbitrary function of the sample time |
| C101 | TUM trajectories are loaded line by line | proved | Props/Datasets | the rows as a list of lists of numbers; case analysis on the shape loadtxt returns. np.loadtxt is modelled by the list of rows of numbers, SO3.from_quat by an arbitrary function |
| C102 | Batch estimation on perfect data returns the truth, and when it stops | proved | Props/PerfectBatch2 | the graph is computed explicitly; each factor corresponds to one of the linear error problem of C89 with zero data, so the assembled systems are equal (ProbSim); zero right-hand side gives zero steps in both loops; the covariance is that of the linear problem. exact arithmetic; the process model keeps the stamp of its state; rounding of stamps does not move them |
| C103 | Filter and batch agree on perfect data, for nonlinear models | proved | Props/PerfectFilter | induction over the filter loop: the EKF and the linear filter of the errors have the same covariance at every step; C90 for the linear problem and C102 for the batch side. exact arithmetic; hypotheses of C102, no measurement at the last input, nonnegative chi-squared threshold |
| C104 | Passes of the iterated Kalman filter are Gauss-Newton steps | proved | Props/IekfGaussNewton | the two residuals are assembled explicitly; the information matrix is the inverse of the Kalman covariance at the operating point (push-through identity), so the directions agree; induction over both loops. exact arithmetic; full-rank prior and noise covariances; no line search, no outlier test; plus_jacobian inverse to minus_jacobian |
| C105 | The covariance run_filter reports is the covariance of its error | proved | Props/Honest | random vectors over a probability space with second moments (Mathlib integrals); induction over the events of the run: the error after a step is a linear combination of the error before and the next noise, and the Joseph form is the reported covariance; relations kept by conjugation and addition (equality, the two Loewner orders) in one proof. exact arithmetic; linear models, no outlier rejection, positive definite measurement noise; at least one entry of each non-empty log not older than x0 |
| C106 | No affine function of the data beats the filter | proved | Props/Best | orthogonality principle: induction over the events with the span of the data as invariant (the estimate lies in it, the error and all noises ahead are orthogonal to it); Pythagoras. setting of C105; the initial estimate is not random |
| C107 | A Problem object behaves the same whatever was done to it before | proved | Props/ProblemObj, Props/ProblemObj2 | the object as a state transformer whose effects stay when it raises, dictionaries as heap objects; simulation by the functions of C35-C41 with a frame invariant (only dictionaries made since the call are written), then two runs that differ in slices and sizes are related; induction over histories. exact arithmetic; states in dictionaries are values (copying is C84); after a call in which NaN appears everything such a call can write is arbitrary |
| C108 | compute_error_jac_cost evaluates the problem at the variables passed | proved | Props/ProblemObj3 | same object model; invariant that the row slices are those of the last solve. exact arithmetic |
| C109 | Sigma-point predictions are exact on polynomial models | proved | Props/SigmaGauss | moments of the rules monomial by monomial against Gaussian integrals (Mathlib multivariateGaussian, its image under a square root of the covariance), polynomials composed with affine maps; then the prediction is a weighted sum over the points. vector states, positive definite P and Q, exact arithmetic; process model keeps the stamp |
| C11 | Iterated EKF equals EKF on linear models | proved | Props/Iekf | closed form of one pass, invariant of the loop. Also records that a first step shorter than step_tol leaves the mean unchanged. |
| C110 | Sigma-point corrections are honest and best on quadratic measurements | proved | Props/SigmaGauss | same quadrature; error covariance of an affine estimator expanded, completion of the square. vector states, positive definite P and R, no outlier rejection, exact arithmetic |
| C111 | Pose estimation with exact odometry and perfect measurements returns the true trajectory | proved | Props/PoseTrack | BodyFrameVelocity on group members as a process model; uniqueness for dT/dt = T u^ gives the flow of C94, whose theorems then apply. exact arithmetic; group laws of the five groups are C78_groups; stamps equal or more than 1e-11 apart |
| C112 | More data and less noise never increase the reported covariance | proved | Props/MoreData | simulation between two runs for equal stamps (optimality of the Kalman gain gives monotonicity of a correction); for added measurements an invariant over the loops with the two estimates at different times, sorting a sublist is a sublist of the sorted list. exact arithmetic; positive definite measurement noise, no outlier rejection; for added measurements stamps equal or more than 1e-11 apart |
| C113 | Inertial navigation reproduces a perfect IMU log | proved | Props/ImuTrack | `Props/ImuTrack.lean`: the matrix equation T' = G T + T M integrated with one-sided derivatives on each interval (`two_sided`), so one model step between any two times of the run is exact (`imuMoves_step`); a version of the C94 schedule argument in which the model has to follow the truth only between stamps of the run (`FollowsAt`, `sound_schedule_at`). Below the tolerance: closed form of what is left out and the Taylor bounds of sine and cosine. readings without bias walk, biases constant; the admissible-angle condition is only asked between times of the run; C113_small_turn says what happens otherwise; imuMoves_exists and the example show motions and logs exist |
| C114 | Time plots draw the data they are given | proved | Props/Plot | `Model/Plot.lean`: a plot is the list of draw calls on each axes; induction over the sequence of calls (legend), over the sorted stamps (nearest state) and over the measurements (grouping by model). a plot is the list of draw calls per axes; colours, titles and layout left out |
| C115 | Pose plots show the poses | proved | Props/PosePlot | `Model/PosePlot.lean`: lines and arrows as data; arithmetic of `range`, matrix algebra for the cameras. a plot is the list of lines and arrows; colours and widths left out |
| C116 | Trajectory alignment returns the associated poses, moved as reported | proved | Props/Alignment | `Model/Alignment.lean` with evo and pymlg as parameters (`Evo.Ok` states what is assumed of them); every rotation has a unit quaternion (`exists_quat`, rank one of the matrix of products). evo (association, Umeyama) and pymlg quaternions are parameters with stated assumptions; exists_quat and plainEvo_ok show that these can be met |
| C117 | With Gaussian noise the filter reports the posterior distribution and its NEES is chi-square | proved | Props/GaussNoise | random logs as in C105; induction over the events keeps the estimate and the truth in the space spanned by the noises and the constants (`best_events`), in which everything is jointly Gaussian; uncorrelated Gaussians are independent (`gauss_indep`); whitening gives the chi-square law (`quad_chi2`). exact arithmetic; chi2.ppf is any function with the defining property of the quantile (one exists: exists_ppf) |
| C118 | With Gaussian noise no estimator whatsoever beats the filter | proved | Props/GaussNoise | independence of error and data: the cross term of any other estimator vanishes; Fubini for the posterior. measurable estimators |
| C119 | The outlier test rejects one in a hundred good measurements | proved | Props/FalseAlarm | the squared innovation is chi-square and independent of the data before it; induction over the events with the probability of the joint event (`gate_events`). chi2.ppf as in C117 |
| C12 | Iterated EKF error and rejection behaviour | proved | Props/Iekf | case analysis of the loop exits |
| C120 | Monte Carlo consistency bounds are exact | proved | Props/MonteCarlo | `chi2_sum` (sums of independent chi-squares), `evalTrial_ok` (interpolation at the stamps of the truth), the order of completion by C98. trials are independent copies of one experiment; chi2.ppf as in C117 |
| C121 | BatchEstimator returns the posterior distribution given all data | proved | Props/GaussNoise, Props/Smoother | the marginals of C89 and a Gauss-Markov theorem for sums of linear terms (`gauss_markov`); the score is orthogonal to the data by induction along the chain of states (`chain_cross`). exact arithmetic, Gauss-Newton; marginals of the batch problem from C89 |
| C122 | The Gaussian sum filter reports the posterior over hypotheses and state | proved | Props/Bayes | Bayes' rule for densities of the normal law (`normal_density`, `bayes_rule`): invariant of the bank of filters along the events (`bank_events`): mode, data and state errors have joint law weight x density x normal (`Bank`), each correction multiplies the density by `gaussPdf`. scalar measurements (others raise); linear Kalman filters; outcomes without a weight reset |
| C123 | The IMM filter with static modes reports the posterior over models and state | proved | Props/Bayes | same invariant as C122 with one system per mode; with the identity transition the interaction step keeps states and weights (`interaction_id`). identity transition matrix, linear Kalman filters, outcomes without a weight reset |
| C124 | What the measurements cannot see the filter does not learn | proved | Props/Unlearned | simulation between the two runs (`FilterSim`): the innovation covariance and the gain do not change, the covariance differs by the unseen part; PSD along the run by C01. EKF; the unseen uncertainty may depend on time but not on the state |
| C125 | Inertial navigation does not learn its position without measurements of it | proved | Props/UnobservableImu | C124 with the position block: the process Jacobian turns position perturbations by a rotation (`imu_posDirs`), the measurement Jacobians have zero position columns. states with biases; direction right: isotropic position uncertainty only |
| C126 | Covariances can be computed before the data arrive | proved | Props/Offline | simulation between the two runs keeping stamp and covariance; orthogonal changes of a measurement as in C83. EKF; the negative part is stated for one correct call |
| C127 | Dead reckoning has an honest covariance for errors of any size | proved | Props/LogLinear | induction over the inputs with the accumulated transition matrix; exactness of the Jacobians by C77/C78. true states are those reported by a run started at the true state; with process noise the linear case is C105 |
| C128 | The cost of a linear Gaussian least-squares problem is a chi-square statistic | proved | Props/LeastSquaresLaw | All problems of the family have the same Jacobian H (`alike_linearize`); by C40 the estimate is one Gauss-Newton step from the truth and the cost is half the squared distance of the noise from the columns of H. An orthonormal basis of the orthogonal complement gives the chi-square law and the independence (`lsq_law`).. Beside it: two measurements of one number, one degree of freedom. |
| C129 | The cost of a linear Gaussian batch estimate is a chi-square statistic | proved | Props/BatchCostLaw | The objective is a sum of squares of whitened terms (`batch_obj`); stacking them gives a least-squares problem (`quad_law`) whose noise is standard normal (`gauss_law`), and the law of C128 (`lsq_law`) applies. The prior and the process terms have exactly as many rows as there are unknowns.. Beside it: the random walk of C121 with one measurement, one degree of freedom. |
| C13 | Sigma points match the first two moments of a standard normal | proved | Props/Sigma | sums over Fin, product rule weights, Gauss–Hermite nodes as roots |
| C130 | Innovations of a run are white, and their squares add up to the batch cost | proved | Props/Innovations, Props/InnovationsBatch | `Reports` (Props/Innovations.lean) collects the details along the events of the run. (a) follows the induction of C88 with the constant of the marginal made explicit: a correction adds exactly its normalised innovation squared (`marginal_correct`). (b) is an induction along the events with the invariant that the noises ahead are orthogonal to the data so far (`Ahead`): the innovation is a function of the data (`innov_facts`), so later innovations are orthogonal to it. (c) uses that uncorrelated jointly Gaussian vectors are independent (`gauss_indep`) and that chi-square laws convolve (`chi2_conv`).. Beside them: a run with three inputs and a measurement; the Gaussian random walk of C117, whose single innovation gives one degree of freedom. |
| C131 | Worst-case guarantees of the linear filter: errors are bounded by the noise that occurred | proved | Props/Energy | `truthNees`, `noiseEnergy` and `PerfectEvents` (Props/Energy.lean) are written along the events of the run, with the models of the filter only. Induction along the events: a prediction is bounded by completing the square over the previous state (`mahal_predict`), a correction preserves the balance exactly (`marginal_correct`). Components are bounded by the Cauchy-Schwarz inequality (`mahal_component`). (c) is (b) with one run in the role of the truth.. Beside them: a run with three inputs and a perfect measurement from an initial value five standard deviations off; one with a measurement that is off, whose energy is computed; two runs five standard deviations apart. |
| C132 | Online operation: estimates do not depend on the future, and runs can be continued | proved | Props/Causal | Over the abstract filter of Model/RunFilter.lean, so for all of them. Sorting commutes with cutting at a time (`sort_filter`, from the uniqueness of stable sorting, C97); the schedule of the data until T is a prefix of the schedule of all data (`schedule_upTo`), and performing a prefix gives a prefix of the estimates or the same exception (`exec_prefix`). (b): the events after the j-th recording are the schedule of the remaining data (`schedule_at`, `schedule_since`).. `C132_late` and `C132_again` are the refuted parts. Beside them: runs on four inputs and two measurements, and on the part of them available at 3/2; a run continued from its first estimate; one continued from an estimate that has seen a measurement between two inputs. |
| C133 | The units in which measurements are expressed do not matter | proved | Props/Units | `inUnits` is the specification. The innovation covariance becomes M S Mᵀ, the gain K M⁻¹ (`solve_units`), the normalised innovation squared does not change (`quad_units`); carried through every branch of the three `correct` functions, including the line search of the iterated filter and the weighted sums of the sigma point filters, then through `run_filter` by simulation. The likelihood is divided by . `C133_imm_units_matter` is the refuted part. Beside them: centimetres, and a correction that succeeds. |
| C134 | Information adds up | proved | Props/Information | `infoMat`, `infoVec` and `stackAll` are the specification. By induction over the list: one correction multiplies the covariance by (1 + Cᵀ R⁻¹ C P)⁻¹ (`kCov_push`), and these factors multiply to 1 + I P. Everything else follows because the result depends on the list only through its information matrix and vector (`fuseEach_congr`).. Beside them: the two coordinates of a point measured separately, with a regular and with a singular prior. |
| C135 | A CompositeInput is a map from identifiers to inputs | proved | Props/CompositeInput | `mapHistory` on functions from identifiers to inputs is the specification. One call is matched with its effect on the map (`call_spec`, by list induction), then induction over the history. `C26_history` is the same for `CompositeState`.. `C135_shadow` is the refuted part. Inputs are values: one input object at two positions is outside the model. Beside them: a history of six calls, one of which raises. |
| C136 | Batch estimates do not depend on the units of the measurements | proved | Props/BatchUnits | Two square roots of the information in two units differ by an orthogonal matrix (`roots_rot`), so residuals and Jacobians are premultiplied by it. The Hessian blocks, the gradient and the weighted cost of a residual do not change under that (`localAsm_rot`), so both problems assemble the same normal equations, and `solve_of_alike` (from C97) carries this through every iteration.. A covariance must be symmetric, since the code reads the lower half of its inverse. `SameResult`: the same state, and covariance arrays with the same entries. Beside them: a nonlinear batch in metres and in centimetres. |
| C137 | Gross outliers with a Cauchy loss are ignored | proved | Props/Outliers | The weight of an outlier is computed at the iterate (`IsPiece.scaled`), so every iteration is a weighted linear problem: information `A0 + Σ w HᵀH`, gradient `A0 (δ - δ*) + Σ w Hᵀ r` (`pieces_linearize`). As `A0` is bounded below, one step ends within `Σ w ‖H‖ ‖r(δ*)‖ / λ` of `δ*` (`step_close`), and within a fixed ball the Cauchy weights make this at most `4 Σ c² ‖H‖ / (λ T)` (`cauchy_small`, `outs_quiet`); so no iterate leaves the ball (`robust_loop`). The inverse of the information moves by as little (`inv_close`).. `CloseTo`: the same variables, of the same sizes, with every component within the tolerance, and every covariance block that the first problem answers is answered by the second with entries within the tolerance. `RobustSensor.miss`: the norm of the residual of the extra measurement at the first estimate. The first solve starts from a new problem (no slices, no cached covariance). Beside it: an outlier as large as one likes on a scalar problem. |
| C138 | Holding variables at their estimates changes no other estimate | proved | Props/Hold | The estimate is the unique minimizer of the cost (C40); holding variables at it leaves it in the smaller set of assignments, where it is still the minimizer, and the only one: a direction in which the smaller problem is flat would be flat for the larger (`C138_hold`). A displacement `w` of the remaining variables is a displacement `z` of all, with `zᵀAz = wᵀA'w`, so completing the square (`square_bound`, `square_exact`) gives `u'ᵀA'⁻¹u' ≤ uᵀA⁻¹u`.. `comboVar`: the variance of a combination, from the covariance blocks of every pair of its variables. The covariance part is for the first solve of a new problem (no cached covariance, see C41). Beside it: `x - 1` and `x + y - 5`, with `x` held and `y` started at 100. |
| C139 | Only the ratios of the noise covariances matter | proved | Props/Ratios, Props/RatiosBatch | The gain `PGᵀ(GPGᵀ+R)⁻¹` does not change when `P` and `R` are scaled together (`solve_smul`, `gain_smul`); the iterated filter compares costs that are all scaled (`lineSearch_noisier`), `run_filter` is simulated step by step (`run_noisier`). Batches: the Cholesky factor of a scaled matrix is scaled by the square root (`npCholesky_smul`, from uniqueness), so every residual is multiplied by one number `a` (`factor_times`); then costs are multiplied by `a²`, the normal equations by `a²`, so the steps are equal, the damped matrix too (its diagonal scales with it), the gain ratio is unchanged, and the covariance is divided by `a²` (`solve_times`, `covBlock_times`).. `noisierProc`, `noisierMeas`, `noisier`, `noisierStMeas` are the models, measurements and estimates with scaled covariances. No outlier rejection, except in `C139_outliers_matter`. Equality includes errors. Batches: no tolerance on the gradient (it is absolute). |
| C14 | Sigma-point filter is exact on linear models | proved | Props/Sigma | moments of the point set plus affine maps |
| C140 | Attaching a variable that only one residual knows changes nothing else | proved | Props/Attach | The cost of the larger problem is the old cost plus half the square of the new residual (`attach_cost`), so its minimizers are the old minimizer with the determined value; it is unique, so the larger normal equations are regular. The variance of a combination is a maximum that mentions only the costs (`C140_variance`, completing the square), and the maxima of the two problems agree: an old assignment extends to one with the same cost, a new one restricts to one that costs no more. Equal variances of all combinations make the blocks equal (`combo_entries`, polarization).. `Determines` is the hypothesis in words above; `determines_of_det`: an invertible square Jacobian with respect to the new variable suffices. `C140_variance`: the reported variance of a combination is the greatest value of twice its change minus twice the increase of the cost, over all assignments. The covariance part is for the first solve of a new problem (no cached covariance, see C41). Beside it: `x - 1` and `x + y - 5`, with `z - y - 2` attached. |
| C141 | The posterior of one batch is the prior of the next | proved | Props/Chain | Schur complement: the covariance block is that of the inverse information matrix, and minimizing the quadratic cost over the other columns leaves half the Mahalanobis square with that block (`section_min`, by completing the square), which is the cost of the prior residual (`priorAt_norm`). So the two problems have, for each assignment of k and the new variables, equal least costs up to a constant; the minimizer is unique in one iff in the other, uniqueness of the minimizer is the solvability of the normal equations (`linear_solve_of_unique`), and the variances are maxima over assignments (`C140_variance`), which agree.. `joined` is the old problem with the further variables and residuals, `continued` the problem of their own; that the residuals involve no other old variable is that `continued` is a well-formed linear problem. `priorAt_code`: the prior of the theorem is, in errors and Jacobians, the one that the model of `PriorResidual` computes. `profile`: what the covariance block of a solved problem says, that the least cost with k held at y exceeds the minimum by half of (y - estimate)' block^-1 (y - estimate), attained by one assignment. Residuals carry the default loss, as in `LinearProblem`; no cached covariance at the first solve, see C41. Beside it: `x - 1` and `x + y - 5`, continued with `z - y - 2`. |
| C142 | Levenberg-Marquardt solves linear problems, and how fast | proved | Props/Damping | In coordinates `z` around the minimum a damped step solves `(A + mu) d = -A z` (`damped_step`): the decrease of the cost is the predicted one, so the gain ratio is exactly 1, the step is accepted and `mu` is divided by 3; the new displacement satisfies `(A + mu) z' = mu z`, hence `(l + mu)^2 z'Az' <= mu^2 zAz`. At the minimum the step is zero, is rejected and nothing moves. Invariant of the loop (`lm_pass`, `lm_loop`), induction over the number of iterations; the step tolerance bounds `z` through `z = -d - mu A⁻¹ d`. The assembly does not look at the configuration (`linearize_cfg`).. `lmOf` is the problem with Levenberg-Marquardt selected; `lmRate` the factor q_i/(1+q_i), at most tau*rho/3^i. rho is the greatest diagonal entry of H'H divided by a lower bound of its eigenvalues. The history of the theorem is what the object records without its last entry, which repeats the final cost. The covariance part is for the first solve of a new problem (no cached covariance, see C41). Exact arithmetic: with rounding the computed gain ratio of a step near the minimum is noise and steps may be rejected there. Beside it: `x - 1` and `x + y - 5` from 0 and 0, where the initial cost is not the least one. |
| C143 | On perfect data Gauss-Newton converges quadratically to the truth from every good enough initial guess | proved | Props/Local | One step (`newton_step`): with `H` close to the Jacobian `H0` at the truth, `. `SmoothNear` is the smoothness hypothesis, per residual and in terms of what `evaluate` returns; `Near` is closeness in all entries with the same keys, sizes and constants; `gnOf` the problem with Gauss-Newton, an initial assignment, a number of iterations and a step tolerance (no other tolerances, the defaults). Vector variables; on Lie groups the same argument needs the chart of the group and is not made. Beside it: the residual x^2 - 2 with the truth sqrt 2. |
| C144 | With small residuals Gauss-Newton converges linearly to a stationary point from every good enough initial guess | proved | Props/LinearRate | One step (`stationary_step`): with `H` close to the Jacobian `H0` at the stationary point, where `H0^T e0 = 0`, the normal equations bound `. Smoothness, closeness and the problem with Gauss-Newton as in C143. That `v` is stationary is said by a run: one iteration from `v` returns `v`; the information matrix is the one this run reports. Smallness of the residuals is needed: Gauss-Newton may diverge from a stationary point with large ones. Beside it: the residual (x, 1/100 + x^2), whose minimum 0 has the cost 1/20000. |
| C145 | On perfect data Levenberg-Marquardt converges to the truth from every good enough initial guess | proved | Props/LmLocal | One step (`damped_shrink`): with `H` close to the Jacobian at the truth and `. Smoothness, closeness and the problem as in C143; `lmOf` is the problem with Levenberg-Marquardt, a number of iterations, a step tolerance, an initial damping factor and no other tolerances. Beside it: the residual x^2 - 2 with the truth sqrt 2 and the damping factor 1. |
| C15 | Sigma-point correction keeps the covariance PSD | proved | Props/Sigma | Schur complement of a PSD joint covariance, induction over histories |
| C16 | Sigma-point filter time bookkeeping and errors | proved | Props/Sigma | case analysis. Non-modification of the arguments is structural in a pure model (the code copies x first) and is not a theorem. |
| C17 | IMM interaction mixes by total probability | proved | Props/Imm | finite sums, total probability |
| C18 | IMM mode probabilities remain a probability vector | proved | Props/Imm | normalisation of non-negative weights, invariant of the history |
| C19 | IMM/GSF posterior odds follow Bayes' rule even for small likelihoods | proved | Props/Imm | finite sums; witnesses for the reset. Both branches proved: Bayes' rule whenever some product exceeds the 1e-8 tolerance, uniform weights otherwise. The Gaussian sum filter refuses measurements with more than one component. |
| C20 | Gaussian mixing matches the moments of the mixture | proved | Props/Imm | finite sums of outer products |
| C21 | run_filter fuses every in-window measurement exactly once, in time order | proved | Props/RunFilter | refinement: the nested loop equals execution of a declarative schedule. run_filter = exec of the documented schedule, for every filter; fused measurements counted. Logs whose entries are all stale are C23. |
| C22 | run_filter output shape and stamps | proved | Props/RunFilter | induction over the schedule. for every filter obeying the stamp laws; every EKF does |
| C23 | run_filter ignores data older than the initial state | proved | Props/Exact, Props/RunFilter | induction; exact characterisation. False when every entry is stale; C23_exact gives the calls made for every filter and every log, C23_stale_iff says exactly when a stale measurement is fused. |
| C24 | CompositeState slices partition the degrees of freedom | proved | Props/Composite | list induction over sub-states |
| C25 | Composite plus/minus are inverse | proved | Props/Composite | structural induction over nested composites. any nesting depth; laws of the elementary classes are hypotheses, proved for VectorState here and for matrix Lie groups in C32 |
| C26 | By-id accessors read and write exactly one sub-state | proved | Props/Composite, Props/CompositeInput | list induction; `C26_history` (Props/CompositeInput.lean): the map from identifiers to states is the specification, induction over the history. sub-states are values: aliasing of one object at two positions is outside the model |
| C27 | plus_by_id perturbs the addressed sub-state | proved | Props/Composite | direct evaluation, exact condition. The claim is false in the code; proved exactly when it holds (iff the perturbation does nothing). |
| C28 | Matrix blocks addressed by ids obey read-over-write | proved | Props/Composite | index arithmetic on dynamically sized matrices with numpy broadcasting. exact condition for the ValueError proved, including numpy broadcasting |
| C29 | Composite Jacobians are block diagonal | proved | Props/Composite | structural induction |
| C30 | CompositeProcessModel acts independently per sub-state | proved | Props/Composite | list induction |
| C31 | CompositeMeasurementModel only depends on its sub-state | proved | Props/Composite | list induction |
| C32 | Lie group state plus/minus are inverse in both directions | proved | Lemmas/Group, Props/States | group algebra over the pymlg laws; laws proved for SO(2). the pymlg group laws are hypotheses; they are proved for SO(2) with its full atan2 logarithm |
| C33 | Pose component accessors address disjoint slots | proved | Props/States | block matrices |
| C34 | Random state constructors return the right type | proved | Props/Exact, Props/States | case analysis over classes. Proved exactly which classes return their own class. |
| C35 | Levenberg-Marquardt never increases the cost | proved | Props/Problem | loop invariant of LM |
| C36 | Constant variables never move | proved | Props/Problem | loop invariant |
| C37 | Problem assembly partitions rows and columns | proved | Props/Assembly | induction over residuals and keys. a residual that lists the same key twice overwrites its own block and is excluded by the hypothesis on distinct keys |
| C38 | Total cost is the sum of robust losses | proved | Props/Assembly | sums, loop-free |
| C39 | Every added residual contributes | proved | Props/Exact, Props/Problem | induction over add_residual histories. Exact over every history of add_residual calls: which residual is evaluated with which loss, and all contribute iff there are at least as many losses as residuals. |
| C40 | One Gauss-Newton step solves linear least squares | proved | Props/GaussNewton, Props/LinearProblem, Props/LinearTotal | normal equations, injectivity ⇒ uniqueness; GN terminates after at most two passes. C40_linear is about vector states and linear residuals; C40_gn_affine is the general statement |
| C41 | get_covariance_block returns the block of the current covariance | proved | Props/Exact, Props/LinearProblem, Props/Problem | induction over API histories. False from the second solve on (C41_witness); C41_exact says, for every history of API calls, which covariance is cached. |
| C42 | Robust losses are sound | proved | Props/Problem | calculus (derivatives of the losses, monotonicity) |
| C43 | Whitened residual cost is the Mahalanobis distance | proved | Props/Residuals | Cholesky algebra. exactness of the Jacobians is for vector states and linear models; a measurement model returning None raises |
| C44 | Max-Mixture residual cost is the dominant mode's negative log-likelihood | proved | Props/Mixture | log/exp inequalities |
| C45 | Max-Sum-Mixture, Sum-Mixture and Hessian-Sum-Mixture residual costs equal the mixture negative log-likelihood up to a constant | proved | Props/Mixture | log-sum-exp identities. the value theorems have no shape hypothesis; the code raises for MaxSum with column errors and for HSM with a single scalar error (witness theorems) |
| C46 | BatchEstimator builds the full factor graph | proved | Props/BatchEst, Props/BatchGaps | refinement of the construction loop to a declarative graph. process models are assumed not to touch the stamp of the state (true of all in lib/models.py); the initial estimate theorem needs inputs with distinct stamps; variable 0 carries x0's stamp, see C71 |
| C47 | BatchEstimator accepts measurements after the last input | proved | Props/BatchEst | general refutation. the English claim is false of the code; its negation is proved for every schedule with distinct input stamps |
| C48 | associate_stamps returns a valid one-to-one matching | proved | Props/Stamps | greedy matching invariant. the docstring's claim that every element gets a match is refuted by a witness |
| C49 | find_nearest_stamp_idx returns a nearest stamp | proved | Props/Stamps | order reasoning. scipy interp1d('nearest','extrapolate') is modelled by its midpoint/searchsorted algorithm |
| C50 | state_interp interpolates linearly and exactly at nodes | proved | Props/Interp | searchsorted characterisation. all state classes and lists in time order |
| C51 | van_loans discretization composes over time | proved | Props/VanLoan | block-triangular exponential, integral representation. stronger: A_d = exp(A dt), Q_d is the integral of exp(As) L Q L^T exp(As)^T |
| C52 | Sequential measurement scheduling never collides | proved | Props/Stamps | integer arithmetic |
| C53 | Finite difference Jacobian is exact where it should be | proved | Props/FiniteDiff | algebra, Taylor remainder |
| C54 | Filter consistency results (NEES) are well-formed | proved | Props/Results | algebra, quadratic forms |
| C55 | Slicing GaussianResultList keeps errors and covariances aligned | proved | Props/Results | slice arithmetic. alignment proved for all slices with positive steps when a matrix is returned; the false parts proved as general statements |
| C56 | Generated ground truth does not depend on the measurement schedule | proved | Props/Datagen | induction over the merged schedule. all schedules, noise settings and flow models; shown to fail for a non-flow model |
| C57 | Generated measurements are complete and time-consistent | proved | Props/Datagen | induction over the schedule. including which measurements stay empty and what raises |
| C58 | B-spline trajectory is C2 and reproduces constants | proved | Props/Bspline | polynomials, derivatives, continuity at knots; for a constant twist the three exponentials commute and the basis functions sum to 1 + u. SE3.Log is a parameter whose only assumed property is Exp(Log X) = X on the relative poses used |
| C59 | Pinhole projection laws | proved | Props/Camera | field arithmetic. including that to_pixel_coors refuses what to_normalized_coords returns |
| C60 | IMU group matrices compose | proved | Props/Imu | block matrices and exponentials. U_matrix is an exponential, so products of U over constant input compose |
| C61 | Preintegration equals step-by-step propagation | proved | Props/Preint, Props/PreintImu, Props/PreintLin | induction over readings. for IMU readings without bias walk (the increment ignores walks); all three kinds of increments, induction over the readings |
| C62 | Linear increment bias correction | proved | Props/PreintLin | state of the increment after reads. false after a bias update: reading value changes the increment; proved |
| C63 | Integrator process models are exact flows | proved | Props/Integrators | derivatives and flows. false parts (split covariances, random-walk input) proved false |
| C64 | Analytic measurement Jacobians are the true derivatives | proved | Props/MeasurementValues, Props/Measurements, Props/MeasurementsInv, Props/MeasurementsPair | Fréchet derivatives of evaluate(x.plus(dx)) at zero. Frechet derivatives at zero of evaluate(x.plus(dx)), for SO3/SE2/SE3/SE23/IMU states, left and right |
| C65 | SLAM relative position Jacobian addresses configured sub-states | proved | Props/Slam | block positions; derivative. false for the SLAM model: proved; true for the two other models |
| C66 | StateWithCovariance refuses malformed covariances | proved | Props/Integrators | shape cases |
| C67 | EKF correction never fails on well-formed uncertainty | proved | Props/Ekf | positive definiteness of the innovation |
| C68 | A one-model IMM is the underlying filter | proved | Props/Imm | one-component sums |
| C69 | run_imm_filter records each estimate before using the measurements of its interval | proved | Props/RunFilter | refinement as C21 |
| C70 | Mixture residual Jacobians yield the gradient of the mixture's negative log-likelihood | proved | Props/MixtureGrad | gradient of log-sum-exp |
| C71 | BatchEstimator compares every measurement with the state of its own time | proved | Props/BatchEst, Props/BatchGaps | general statement over schedules. false for the first variable; proved as a general statement about all schedules that start late |
| C72 | BatchEstimator fuses measurements taken between inputs | proved | Props/BatchGaps, Props/Unobservable | kernel vector of the information matrix. false of the code; the failure is proved for every schedule, model and solver setting |
| C73 | state_interp accepts states in any order and the documented query forms | proved | Props/Interp | witness and general statements. the English claim is false of the code; witness and general statements proved |
| C74 | Data generator constructor pairs every model with its own frequency and offset | proved | Props/Datagen | case analysis on constructor arguments. the parts of the claim that are false of the code are proved as general statements |
| C75 | Spline constructor covers the given trajectory with evenly spaced control points | proved | Props/Bspline | list arithmetic. the false parts are proved as general statements |
| C76 | IMU kinematics model is the exact solution of the documented continuous-time kinematics | proved | Props/Imu, Props/ImuJac | ODE uniqueness/verification by differentiation. hypothesis AngleOk: rotation angle zero or not below the small angle tolerance; traj_exists shows trajectories exist |
| C77 | IMU process Jacobian and noise Jacobian are the derivative of the process model | proved | Props/ImuJac | finite perturbations and Fréchet derivatives. exact for finite perturbations of the navigation state and the accelerometer; first order for the gyroscope; the wrong position row is proved wrong |
| C78 | Body-frame velocity model is the exact solution on the group, with exact Jacobian and noise covariance | proved | Props/Group | group laws of the five groups. generic over the group laws, which are proved for all five groups |
| C79 | Relative body-frame velocity model follows its documentation and returns the derivative and the noise covariance | proved | Props/Group | group algebra; witnesses. the false parts are proved with witnesses |
| C80 | Body-velocity increments can be corrected for a new bias without integrating again | proved | Props/Preint | derivative of a product of exponentials; witness. false: sign; proved |
| C81 | Preintegrated IMU model returns the derivative of its prediction and the exact noise Jacobian | proved | Props/PreintImuJac | finite perturbation identity. for every reachable increment |
| C82 | IMU increments can be corrected for a new bias without integrating again | proved | Props/PreintImuBias | derivatives along the reading list. the false position part is proved wrong |
| C83 | Invariant measurements do not change the EKF update | proved | Props/MeasurementsInv | whitening invariance. for measurements and states without an explicit linearization point |
| C84 | Copies are separate | proved | Props/HeapCopy | heap model: disjointness of reachable addresses. on a heap of mutable objects; false for VectorInput covariances and IMUState sub-state stamps/ids: proved |
| C85 | What constructors share with the caller | proved | Props/HeapCtor | heap model: reachability of caller's addresses |
| C86 | Filtering leaves the caller's estimate alone | proved | Props/HeapAny, Props/HeapEkf, Props/HeapModels | heap model: frame rules. on a heap of mutable objects; false for predict with models that write into their argument: proved |
| C87 | The estimates run_filter returns are independent of each other | proved | Props/HeapRun | heap model: simulation of the value-level filter. on a heap of mutable objects; false for models that write into their argument: proved |
| C88 | For linear systems run_filter gives the batch (MAP) answer | proved | Props/FilterBatch | induction over the schedule with minimised cost (dynamic programming). without outlier rejection, positive definite noise, distinct input stamps |
| C89 | For linear systems BatchEstimator returns the exact posterior marginals | proved | Props/BatchObjective | stacked normal equations, Schur complement = marginalisation. vector states, exact arithmetic, Gauss-Newton |
| C90 | For linear systems the filter and the batch estimator agree | proved | Props/BatchEqualsFilter | composition of C88 and C89 by uniqueness of marginals. vector states, exact arithmetic, no outlier rejection, Gauss-Newton |
| C91 | The EKF does not depend on how the state is described | proved | Props/Equivariance, Props/EquivarianceLin | simulation between two filters, lifted through the driver (FilterSim) |
| C92 | The world frame and the time origin are conventions | proved | Props/WorldFrame | C91 with left multiplication by the frame change; equivariance of each model and Jacobian. at zero range the Jacobian of the code is NaN, 0 in the model |
| C93 | On linear systems all the Kalman filters give the same run | proved | Props/AllFilters | lockstep induction over the schedule of C21 with positive definiteness as invariant; single steps from C03, C11, C14. vector states, exact arithmetic; iterated filter with positive tolerance: covariances and stamps only, its means may differ (C11) |
| C94 | Filters reproduce perfect data | proved | Props/NoiseFree | invariant "the estimate is the truth at its stamp" along the schedule of C21 (zero innovation, zero step); C56, C57 show that generated data are perfect. exact arithmetic; measurements without a value (C57) are left out of the log |
| C95 | A filter of independent sub-states is one filter for each sub-state | proved | Props/Decouple | simulation (FilterSim) between the filter of the whole and the filter of the part, with the invariant that the covariance is positive semidefinite and has no cross block. sub-models that do not read stamps; blockDiag_array and padded_array tie the typed matrices to the arrays of C30, C31 |
| C96 | Multiple-model filters: copies, order of the models, independence of components | proved | Props/ImmSym | simulations between the runs (FilterSim for equal exceptions, FilterLe for runs that return); mixing on vector states does not depend on the reference (C20). copies: measurements with a value and positive definite covariance; order and components: whenever the run returns |
| C97 | The order in which data, residuals and variables are given does not matter | proved | Props/Order | stable sorting is determined by the groups of equal stamps; the slices of the two problems define a bijection of columns, under which the linear systems, steps and stopping tests of the two solvers correspond (Lemmas/ProbOrder). exact arithmetic; problems not solved before (the covariance cache and cost history of an earlier solve are C41) |
| C98 | Multiple-model estimates: one clock, evaluation, Monte Carlo schedules | proved | Props/MixResults | invariant of the loops ("all modes show the clock t"); C20 and C54 for the mixture; the table of results filled in any order of completion. joblib is modelled by its contract: any order of completion, results returned by index |
| C99 | Simulate and filter with the same model: the truth comes back | proved | Props/RoundTrip | the generator and the filter loop advance in step: invariant "the current input leads the estimate to the next ground truth state" (Tracks), kept by prediction and fusion. exact arithmetic; stamps equal or more than 1e-11 apart; inputs stamped with the time asked |

## 5. Defects and surprises found while modelling (all proved, most with an exact statement of the actual behaviour)

* Filters: out-of-order measurements are fused, the guard is −1e10 s (C07); `x_jac` is not the linearisation point (C08); the IEKF leaves the mean
  unchanged when the first step is shorter than `step_tol` (C11), and raises `AttributeError` on a `None` prediction and `UnboundLocalError`
  with `max_iters=0` (C12); IMM divides by zero when a predicted mode probability is zero (C17); mode weights are reset to uniform when all are below 1e-8,
  and the GSF refuses vector measurements (C19); `run_filter` drops nothing when every entry is stale (C23), never fuses measurements at or
  after the last input, and does not record the last prediction; `run_imm_filter` records before fusing (C69).
* Composite: extra components of `dx` are ignored and `new_stamp` is written only to sub-states (C25); `plus_by_id` does nothing (C27); blocks with a
  length-1 axis are broadcast silently (C28); square matrices of the wrong size are accepted (C32); `SE3State.random` returns an `SE2State` (C34);
  a filter never moves the stamps of the sub-states, only that of the composite (C95).
* Batch: GN with `max_iters=0` raises (C36); loss lists of another length shift or drop residuals (C39); the cached covariance is stale after a second
  solve (C41); LM after a rejected step uses the gradient of the rejected point (C35); a `None` measurement raises (C43); Max-Sum mixtures with column errors and HSM
  with one scalar error raise (C45); measurements after the last input raise `IndexError` (C47); the first variable keeps `x0.stamp` (C71);
  measurements between inputs give a disconnected, singular problem (C72); duplicate input stamps make the variables lag; LM started
  at an exact solution never detects convergence: it rejects `max_iters` zero steps (C102); the information matrix
  of Gauss-Newton is one step behind the variables (C104); `get_covariance_block` of a variable made constant after a solve returns the block of
  another variable (C107); `compute_error_jac_cost` cannot be used before the first solve nor after adding residuals to a solved problem (C108).
* Utilities: `associate_stamps` may skip elements (C48); `state_interp` sorts stamps but not states (C73); result slicing loses alignment (C55); the data
  generator mispairs models and frequencies and leaves measurements empty (C57, C74); the spline's `max_dt` acts as a minimum and degenerate
  trajectories raise (C75); `to_pixel_coors` refuses the output of `to_normalized_coords` and points behind the camera project (C59).
* IMU and preintegration: walks given as `None` are unusable (C76); one block of `L_matrix` is halved twice (C77); `RelativeBodyFrameVelocity`
  has the opposite sign of its documentation and uses the adjoint of the wrong element (C79); the bias Jacobian of `BodyVelocityIncrement` has the wrong
  sign (C80) and a `2·dof` covariance is unusable (C61); reading `LinearIncrement.value` changes it (C62); the position part of the IMU bias correction is wrong (C82);
  random-walk inputs break the flow property (C63).
* Measurement models: the SLAM model mis-addresses blocks (C65); `RangePoseToPose` with equal ids loses a block; scalar covariance on an `SO3State`
  raises for Gravitometer/Magnetometer; the invariant-innovation Jacobian is the derivative only at zero innovation.
* Aliasing: `VectorInput.copy` shares its covariance, `IMUState.copy` resets sub-stamps and ids (C84); constructors alias the caller's arrays
  (C85); `EKF.predict` hands the original state to the process model, so an in-place model moves the caller's estimate (C86); the first result of
  `run_filter` aliases `x0`/`P0` (C87).
* Datasets: with `noise_active=False` the inertial datasets still draw a random bias walk (C100); a single level of landmarks lies on the ground whatever the
  height (C100); a TUM file with one line raises `IndexError` (C101).
* Sigma points: `iterate_mean=False` biases the predicted mean; cubature covariances may be far off on quadratic models (C109, C110).
* `DoubleIntegrator`: the noise is one acceleration per step, so an additional measurement, which cuts a step, can increase a reported variance (C112).
* Plots: `plot_error` raises `AttributeError` for one-component results and for a bare `Axes`; `plot_nees` shows the expected NEES only with a confidence
  interval, and for one outside (0, 1) raises after drawing two lines; `plot_meas` sorts the caller's list in place and takes the truth at the nearest stamp
  however far it is (the documentation says interpolated); `plot_meas_by_model` raises `UnboundLocalError` for an empty list and `IndexError` on given axes
  for models with several components (C114).
* `plot_poses` raises for 2D poses on 3D axes and for 3D poses on planar axes unless `plot_2d` is set (C115); `associate_and_align_trajectories` returns the
  reference at its own stamps, not at those of the estimate as documented, and drops ids and perturbation directions (C116).
* `reject_outliers=True`: the test discards one in a hundred measurements that follow the model exactly; a run with K of them keeps all with probability
  0.99^K, so the reported covariances of long runs are based on a random subset of the data (C119).

## 6. Testing the theorems

`seeded/LOG.jsonl` records every edit of the model that was tried, the claim it breaks, and the theorems that stopped proving. Edits that survived led to
tightened theorems (field `theorems_tightened`) until they failed too.
