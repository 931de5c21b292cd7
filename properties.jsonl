{"id": "C01", "title": "The reported covariance is the true error covariance, after any history", "statement": "If a KalmanFilter is started unbiased with P equal to the covariance of its estimation error, the true state evolves as x'=Fx+Bu+w and measurements are z=Hx+v with zero-mean noises of covariance Q and R that are uncorrelated with everything that came before, then after every sequence of predict(), update(z) and update(None) calls the estimate kf.x is still unbiased and kf.P is exactly the covariance of the estimation error.", "quantifier": "all dimensions, all probability spaces and second-order noise models, all finite sequences of predict/update/update(None), with per-call F,B,Q,R,H", "why_tests_cant": "a Monte-Carlo test samples one system and one history and can only compare statistically; the claim is an identity for every system and every history", "anchors": ["filterpy/kalman/kalman_filter.py: KalmanFilter.predict, KalmanFilter.update"]}
{"id": "C02", "title": "update() is the exact Gaussian Bayes posterior", "statement": "For a prior N(x,P) and a measurement z=Hx+v, v~N(0,R), the state and covariance after update(z) are the mean and covariance of the posterior: the prior exponent plus the likelihood exponent equals, for every candidate state, the exponent of N(kf.x,kf.P) plus the exponent of the innovation kf.y under N(0,kf.S).", "quantifier": "all dimensions, all priors, measurements and positive definite P, R; all candidate states", "why_tests_cant": "the identity must hold at every point of the state space and for every matrix; tests compare a few numbers", "anchors": ["filterpy/kalman/kalman_filter.py: KalmanFilter.update", "filterpy/kalman/kalman_filter.py: update"]}
{"id": "C03", "title": "update() uses the optimal gain", "statement": "Among all linear corrections x+K'(z-Hx), the gain used by update() gives the smallest error covariance: for every other gain K' the covariance it would yield exceeds kf.P by a positive semidefinite matrix.", "quantifier": "all dimensions, all positive semidefinite P and R with invertible S, all alternative gains", "why_tests_cant": "the minimum is over an infinite set of gains and matrices", "anchors": ["filterpy/kalman/kalman_filter.py: KalmanFilter.update"]}
{"id": "C04", "title": "Covariances stay symmetric positive semidefinite", "statement": "Starting from symmetric positive semidefinite P and using positive semidefinite Q and R, P, P_prior and P_post remain symmetric positive semidefinite after any sequence of predict, update, update(None), update_sequential and steady-state calls that does not raise.", "quantifier": "all dimensions, all histories of calls", "why_tests_cant": "an invariant over all call histories", "anchors": ["filterpy/kalman/kalman_filter.py: KalmanFilter.predict, update, update_sequential, predict_steadystate, update_steadystate"]}
{"id": "C05", "title": "A measurement never increases uncertainty", "statement": "P before update(z) minus P after it is positive semidefinite, for any measurement and any positive semidefinite R.", "quantifier": "all dimensions, P, R, H, z", "why_tests_cant": "matrix inequality for every input", "anchors": ["filterpy/kalman/kalman_filter.py: KalmanFilter.update"]}
{"id": "C06", "title": "A missing measurement changes nothing but the bookkeeping", "statement": "update(None) leaves x, P, K, S, F, H, Q, R, B and the priors unchanged, sets y to zero, z to 'no measurement', and x_post,P_post to the current x,P; so a history with missing measurements ends with the same x and P as the same history with those calls deleted.", "quantifier": "all filter states, all histories with None inserted at arbitrary places", "why_tests_cant": "quantifies over where in an arbitrary history the missing measurements occur", "anchors": ["filterpy/kalman/kalman_filter.py: KalmanFilter.update"]}
{"id": "C07", "title": "x_prior/P_prior and x_post/P_post always mirror the last predict/update", "statement": "In every history, after a predict() the attributes x_prior,P_prior equal x,P and no update changes them; after an update() x_post,P_post equal x,P and no predict changes them.", "quantifier": "all histories of predict/update calls", "why_tests_cant": "invariant over all histories", "anchors": ["filterpy/kalman/kalman_filter.py: KalmanFilter.predict, update"]}
{"id": "C08", "title": "Per-call overrides do not stick", "statement": "Passing F, B, Q to predict() or R, H to update() affects only that call: the attributes are unchanged afterwards and the resulting x,P equal those obtained by assigning the attribute, making the plain call, and restoring it; a scalar Q or R means that multiple of the identity.", "quantifier": "all filter states and all override values", "why_tests_cant": "universally quantified over states and overrides", "anchors": ["filterpy/kalman/kalman_filter.py: KalmanFilter.predict, update"]}
{"id": "C09", "title": "get_prediction and get_update are faithful previews", "statement": "get_prediction(u,...) returns exactly the x,P that predict(u,...) would produce, get_update(z) returns exactly the x,P that update(z) would produce (including None), and neither changes the filter. residual_of(z) is the residual that update(z) will find, and measurement_of_state(x) is the measurement a filter standing at x expects: an update with it finds a zero residual and leaves x where it is.", "quantifier": "all filter states and arguments (alpha=1 and alpha>1)", "why_tests_cant": "universally quantified equality of two code paths", "anchors": ["filterpy/kalman/kalman_filter.py: KalmanFilter.get_prediction, get_update, residual_of, measurement_of_state", "filterpy/kalman/fading_memory.py, filterpy/kalman/square_root.py, filterpy/hinfinity/hinfinity_filter.py: residual_of, measurement_of_state"]}
{"id": "C10", "title": "batch_filter equals the hand-written loop", "statement": "KalmanFilter.batch_filter over n measurements returns exactly the posteriors and priors a user gets by calling predict and update n times (or update then predict when update_first=True) with the per-step matrices, and leaves the filter in the same final state.", "quantifier": "all lists of measurements of any length, all per-step model lists, both orders", "why_tests_cant": "unbounded length; equality at every index", "anchors": ["filterpy/kalman/kalman_filter.py: KalmanFilter.batch_filter"]}
{"id": "C11", "title": "RTS smoother returns the optimal smoothed trajectory", "statement": "Feeding batch_filter's output to rts_smoother returns, as xs, the trajectory minimising the joint negative log-posterior of all states given all measurements; the final state and covariance are unchanged by smoothing.", "quantifier": "all linear systems with positive definite covariances, all sequence lengths, per-step F and Q", "why_tests_cant": "optimality over all trajectories of any length", "anchors": ["filterpy/kalman/kalman_filter.py: KalmanFilter.rts_smoother", "filterpy/kalman/kalman_filter.py: rts_smoother"]}
{"id": "C12", "title": "Smoothing never increases uncertainty", "statement": "The smoothed covariance returned by rts_smoother at every step is symmetric positive semidefinite and does not exceed the filtered covariance it was given.", "quantifier": "all sequence lengths and all systems with positive definite covariances", "why_tests_cant": "induction over arbitrary length, matrix inequality", "anchors": ["filterpy/kalman/kalman_filter.py: KalmanFilter.rts_smoother", "filterpy/kalman/kalman_filter.py: rts_smoother"]}
{"id": "C13", "title": "The smoother method and the smoother function agree", "statement": "KalmanFilter.rts_smoother and the module-level rts_smoother return the same means and covariances for the same Xs, Ps, Fs, Qs.", "quantifier": "all inputs, including time-varying Fs and Qs", "why_tests_cant": "equality for all sequences; a test with constant F cannot see the difference", "anchors": ["filterpy/kalman/kalman_filter.py: KalmanFilter.rts_smoother", "filterpy/kalman/kalman_filter.py: rts_smoother"]}
{"id": "C14", "title": "Sequential updating equals joint updating", "statement": "For measurements with uncorrelated blocks (block diagonal R), calling update_sequential once per block gives the same x and P as one update() with the stacked measurement.", "quantifier": "all dimensions, all block partitions, all positive definite P and R blocks", "why_tests_cant": "all partitions of all measurement vectors", "anchors": ["filterpy/kalman/kalman_filter.py: KalmanFilter.update_sequential"]}
{"id": "C15", "title": "update_correlated reduces to, and generalises, update", "statement": "With M=0 update_correlated gives exactly the x, P, K, S of update(); with process/measurement noise correlation M the resulting P is the true error covariance and its gain is optimal.", "quantifier": "all filter states, measurements and correlation matrices", "why_tests_cant": "universally quantified", "anchors": ["filterpy/kalman/kalman_filter.py: KalmanFilter.update_correlated"]}
{"id": "C16", "title": "Steady-state operation", "statement": "predict_steadystate and update_steadystate never change P, K, S; and if the filter's gain and covariance are at the fixed point of predict/update then running steady-state calls gives the same x as the full filter for every measurement history.", "quantifier": "all measurement histories", "why_tests_cant": "unbounded histories", "anchors": ["filterpy/kalman/kalman_filter.py: KalmanFilter.predict_steadystate, update_steadystate"]}
{"id": "C17", "title": "Likelihood properties describe the last measurement", "statement": "After update(z), log_likelihood is the log density of the innovation under N(0,S), mahalanobis its normalised distance; reading the three properties in any order and any number of times returns the same values and changes no other attribute; likelihood is always strictly positive even when exp underflows.", "quantifier": "all histories of updates and property reads in any order", "why_tests_cant": "cache coherence over arbitrary interleavings of reads and updates", "anchors": ["filterpy/kalman/kalman_filter.py: KalmanFilter.log_likelihood, likelihood, mahalanobis, update, update_sequential"]}
{"id": "C18", "title": "Fading factor alpha", "statement": "Setting alpha to a value below 1 raises ValueError and leaves the filter unchanged; otherwise reading alpha returns the value set; predict scales the propagated covariance by alpha squared before adding Q, and FadingKalmanFilter with the same alpha gives the same x and P as KalmanFilter for every history.", "quantifier": "all alpha, all histories", "why_tests_cant": "unbounded histories and all alpha", "anchors": ["filterpy/kalman/kalman_filter.py: KalmanFilter.alpha", "filterpy/kalman/fading_memory.py: FadingKalmanFilter"]}
{"id": "C19", "title": "Module-level functions agree with the class", "statement": "kalman.predict, kalman.update, predict_steadystate and update_steadystate return the same x and P (and y, K, S) as the KalmanFilter methods; with return_all the log-likelihood is that of the measurement under the prior, as the method reports.", "quantifier": "all inputs", "why_tests_cant": "universally quantified equality of two implementations", "anchors": ["filterpy/kalman/kalman_filter.py: update, predict, update_steadystate, predict_steadystate"]}
{"id": "C20", "title": "Construction validates dimensions", "statement": "KalmanFilter(dim_x,dim_z,dim_u) raises ValueError exactly when dim_x<1, dim_z<1 or dim_u<0, and otherwise starts with x=0, P=Q=F=I, H=0, R=I, alpha=1, and priors/posteriors equal to x,P.", "quantifier": "all integer dimensions", "why_tests_cant": "all integers", "anchors": ["filterpy/kalman/kalman_filter.py: KalmanFilter.__init__"]}
{"id": "C21", "title": "Linear EKF is the Kalman filter", "statement": "When Hx is linear with Jacobian H, ExtendedKalmanFilter.predict/update give exactly the x,P,K,S,y of KalmanFilter for every history; predict_update(z) gives the same x,P as predict followed by update, and records the same prior.", "quantifier": "all histories, all linear systems", "why_tests_cant": "unbounded histories", "anchors": ["filterpy/kalman/EKF.py: ExtendedKalmanFilter"]}
{"id": "C22", "title": "UKF is exact on linear systems", "statement": "With linear fx and hx, UnscentedKalmanFilter with Merwe, Julier or simplex sigma points gives exactly the x and P of KalmanFilter for every predict/update history, whatever the (valid) alpha, beta, kappa.", "quantifier": "all linear systems, dimensions, sigma-point parameters and histories alternating predict and update/None", "why_tests_cant": "all dimensions, parameters and histories", "anchors": ["filterpy/kalman/UKF.py: UnscentedKalmanFilter", "filterpy/kalman/sigma_points.py", "filterpy/kalman/unscented_transform.py"]}
{"id": "C23", "title": "Sigma points encode the mean and covariance", "statement": "For MerweScaledSigmaPoints, JulierSigmaPoints and SimplexSigmaPoints the mean weights sum to 1 and the unscented transform of sigma_points(x,P) with zero noise returns exactly (x,P); the number of points equals num_sigmas().", "quantifier": "all dimensions n, all x, all P with a matrix square root, all parameters for which the weights are defined", "why_tests_cant": "all dimensions (the simplex recursion is built column by column)", "anchors": ["filterpy/kalman/sigma_points.py: MerweScaledSigmaPoints, JulierSigmaPoints, SimplexSigmaPoints", "filterpy/kalman/unscented_transform.py: unscented_transform"]}
{"id": "C24", "title": "Unscented transform is affine-equivariant and path independent", "statement": "Transforming sigma points by an affine map transforms the mean by the map and the covariance by congruence (plus noise); the fast path and the residual_fn path return the same covariance when residual_fn is subtraction.", "quantifier": "all point sets, weights summing to 1, affine maps", "why_tests_cant": "universally quantified", "anchors": ["filterpy/kalman/unscented_transform.py: unscented_transform"]}
{"id": "C25", "title": "Cubature filter is exact on linear systems", "statement": "The cubature points of (x,P) have mean x and covariance P, and with linear fx,hx CubatureKalmanFilter gives the x and P of KalmanFilter.", "quantifier": "all linear systems and histories", "why_tests_cant": "universally quantified", "anchors": ["filterpy/kalman/CubatureKalmanFilter.py: spherical_radial_sigmas, ckf_transform, CubatureKalmanFilter"]}
{"id": "C26", "title": "Ensemble filter statistics", "statement": "After predict(), EnsembleKalmanFilter.x and P are the sample mean and (N-1)-normalised sample covariance of the ensemble, P is positive semidefinite; after update, x is the ensemble mean; with linear hx the posterior P is the Kalman update of the sample covariance, and x moves by K times the innovation of the mean perturbed measurement.", "quantifier": "all ensembles, all noise draws, all N>1", "why_tests_cant": "all random draws", "anchors": ["filterpy/kalman/ensemble_kalman_filter.py: EnsembleKalmanFilter"]}
{"id": "C27", "title": "Information filter equals the Kalman filter", "statement": "InformationFilter with P_inv the inverse of P gives, for every predict/update history, the same x as KalmanFilter and P_inv equal to the inverse of KalmanFilter's P.", "quantifier": "all linear systems with invertible covariances and transition, all histories", "why_tests_cant": "unbounded histories; algebraic equivalence of two different recursions", "anchors": ["filterpy/kalman/information_filter.py: InformationFilter"]}
{"id": "C28", "title": "Square-root filter equals the Kalman filter", "statement": "SquareRootKalmanFilter gives for every predict/update history the same x, P, K, y as KalmanFilter, whichever valid QR/Cholesky factor the linear-algebra library returns; its P is always symmetric positive semidefinite, and P_prior/P_post report prior and posterior.", "quantifier": "all linear systems, all histories, all sign/rotation choices of the factorisation", "why_tests_cant": "depends on every possible factor the library may return", "anchors": ["filterpy/kalman/square_root.py: SquareRootKalmanFilter"]}
{"id": "C29", "title": "Fixed-lag smoother bookkeeping and filtering", "statement": "FixedLagSmoother.smooth keeps one smoothed entry per measurement, its x and P are those of the Kalman filter for every history, smooth_batch returns the same smoothed and filtered sequences as repeated smooth and does not modify the object; entries older than the lag are final.", "quantifier": "all measurement histories and lags", "why_tests_cant": "unbounded histories", "anchors": ["filterpy/kalman/fixed_lag_smoother.py: FixedLagSmoother"]}
{"id": "C30", "title": "Fixed-lag smoothing is optimal at lag zero", "statement": "The smoothed estimate for the newest time step equals the Kalman filter estimate for that step (no future data is available).", "quantifier": "all histories", "why_tests_cant": "universally quantified", "anchors": ["filterpy/kalman/fixed_lag_smoother.py: FixedLagSmoother.smooth, smooth_batch"]}
{"id": "C31", "title": "IMM mode probabilities are always a distribution", "statement": "After construction and after every update, IMMEstimator.mu is nonnegative and sums to 1, cbar sums to 1, and each column of omega is a probability distribution, for any stochastic transition matrix and positive likelihoods.", "quantifier": "all banks, all histories", "why_tests_cant": "invariant over histories", "anchors": ["filterpy/kalman/IMM.py: IMMEstimator"]}
{"id": "C32", "title": "IMM mixing preserves the mixture's mean and covariance", "statement": "The mixed initial conditions computed by predict have the same overall mean and covariance (weighted by cbar) as the bank before mixing (weighted by mu), and IMMEstimator.x,P are the moments of the Gaussian mixture; P stays positive semidefinite.", "quantifier": "all banks, all mode probabilities, all row-stochastic M", "why_tests_cant": "universally quantified", "anchors": ["filterpy/kalman/IMM.py: IMMEstimator.predict, _compute_state_estimate"]}
{"id": "C33", "title": "MMAE probabilities are Bayes posteriors", "statement": "After any sequence of updates MMAEFilterBank.p[i] equals p0[i] times the product of filter i's likelihoods, normalised; p is a distribution; x is the p-weighted mean of the filters' states and P the covariance of the mixture.", "quantifier": "all banks, all measurement histories", "why_tests_cant": "product over unbounded histories", "anchors": ["filterpy/kalman/mmae.py: MMAEFilterBank"]}
{"id": "C34", "title": "update(None) on a filter bank is a no-op", "statement": "As documented, update(None) on MMAEFilterBank and IMMEstimator changes nothing.", "quantifier": "all bank states", "why_tests_cant": "universally quantified", "anchors": ["filterpy/kalman/mmae.py: MMAEFilterBank.update", "filterpy/kalman/IMM.py: IMMEstimator.update"]}
{"id": "C35", "title": "H-infinity filter", "statement": "HInfinityFilter.P is symmetric after every update; update(None) changes nothing; with gamma=0 its covariance follows the Kalman recursion; batch_filter runs with its default arguments and equals the loop.", "quantifier": "all systems and histories", "why_tests_cant": "universally quantified", "anchors": ["filterpy/hinfinity/hinfinity_filter.py: HInfinityFilter"]}
{"id": "C36", "title": "g-h and g-h-k filters track their model exactly", "statement": "A GHFilter started on a straight line keeps estimate and rate exactly on the line with zero residual, a GHKFilter on a parabola likewise, for every g,h,k, dt and any number of steps; from any start the estimate error obeys the same linear recursion regardless of the data.", "quantifier": "all gains, time steps, polynomial coefficients and step counts", "why_tests_cant": "all gains and unbounded steps", "anchors": ["filterpy/gh/gh_filter.py: GHFilter.update, GHKFilter.update, GHFilterOrder.update"]}
{"id": "C37", "title": "g-h batch processing equals repeated update", "statement": "GHFilter.batch_filter and GHKFilter.batch_filter return the initial state followed by exactly the estimates repeated update() calls would give, and leave the filter's state unchanged.", "quantifier": "all data lists and gains", "why_tests_cant": "unbounded lists", "anchors": ["filterpy/gh/gh_filter.py: GHFilter.batch_filter, GHKFilter.batch_filter"]}
{"id": "C38", "title": "GHFilterOrder agrees with the specialised filters", "statement": "GHFilterOrder of order 1 (order 2) gives the same estimates as GHFilter (GHKFilter) with the same gains for every data sequence, order 0 is exponential smoothing, and an order outside 0..2 raises ValueError.", "quantifier": "all data sequences", "why_tests_cant": "unbounded sequences", "anchors": ["filterpy/gh/gh_filter.py: GHFilterOrder, GHFilter, GHKFilter"]}
{"id": "C39", "title": "Variance reduction factors", "statement": "For a stable g-h filter, VRF returns the steady-state variances of position and velocity, i.e. the fixed point of the error covariance recursion under unit-variance measurement noise, and VRF_prediction the variance of the prediction.", "quantifier": "all stable g,h and dt", "why_tests_cant": "an identity in g,h,dt", "anchors": ["filterpy/gh/gh_filter.py: GHFilter.VRF, VRF_prediction, GHKFilter.VRF, VRF_prediction"]}
{"id": "C40", "title": "Gain selection functions", "statement": "critical_damping_parameters(theta,order) gives gains whose filter error dynamics have theta as a repeated eigenvalue; benedict_bornder_constants gives h=g^2/(2-g); least_squares_parameters(n) gives the gains of the expanding-memory least squares filter; optimal_noise_smoothing(g) satisfies its defining relations.", "quantifier": "all theta, g, n", "why_tests_cant": "polynomial identities for all parameters", "anchors": ["filterpy/gh/gh_filter.py: critical_damping_parameters, benedict_bornder_constants, least_squares_parameters, optimal_noise_smoothing"]}
{"id": "C41", "title": "LeastSquaresFilter is the least squares polynomial fit", "statement": "After n updates LeastSquaresFilter.x is the value and derivatives, at the latest sample, of the polynomial of the given order minimising the sum of squared residuals over all n measurements (n greater than the order).", "quantifier": "all data sequences of any length, orders 0,1,2, all dt>0", "why_tests_cant": "unbounded data; optimality over all polynomials", "anchors": ["filterpy/leastsq/least_squares.py: LeastSquaresFilter.update"]}
{"id": "C42", "title": "LeastSquaresFilter reset and errors", "statement": "reset() restores the state at construction so any later history behaves as on a fresh object; errors() is defined at every step of the recursion and equals sigma times the square roots of the diagonal of the inverse normal matrix.", "quantifier": "all histories, all n, orders 0..2", "why_tests_cant": "all n", "anchors": ["filterpy/leastsq/least_squares.py: LeastSquaresFilter.reset, errors"]}
{"id": "C43", "title": "FadingMemoryFilter is the critically damped g-h filter and tracks polynomials", "statement": "FadingMemoryFilter of order 0,1,2 gives the same estimates as the g / g-h / g-h-k filter with critical_damping_parameters(beta), tracks polynomials of its order exactly, and its P is the steady-state variance for unit measurement noise.", "quantifier": "all beta, data sequences, dt", "why_tests_cant": "unbounded sequences and all beta", "anchors": ["filterpy/memory/fading_memory.py: FadingMemoryFilter"]}
{"id": "C44", "title": "Resamplers return valid index vectors", "statement": "systematic_resample, stratified_resample and multinomial_resample return N indices, each in range(N), the first two in nondecreasing order, they never select a zero-weight particle, and they terminate without IndexError for normalised weights.", "quantifier": "all N, all normalised weight vectors, all random draws", "why_tests_cant": "all random draws and all weights; index overrun depends on unlucky draws", "anchors": ["filterpy/monte_carlo/resampling.py: systematic_resample, stratified_resample, multinomial_resample"]}
{"id": "C45", "title": "Systematic resampling is maximally even", "statement": "For every draw, particle i is selected floor(N w_i) or ceil(N w_i) times.", "quantifier": "all N, normalised weights, draws in [0,1)", "why_tests_cant": "all draws", "anchors": ["filterpy/monte_carlo/resampling.py: systematic_resample"]}
{"id": "C46", "title": "Stratified resampling counts", "statement": "For every draw, the number of copies of particle i differs from N w_i by less than 2, and the number of copies of particles 0..i differs from N times their total weight by less than 1.", "quantifier": "all N, normalised weights, draws", "why_tests_cant": "all draws", "anchors": ["filterpy/monte_carlo/resampling.py: stratified_resample"]}
{"id": "C47", "title": "Residual resampling keeps floor(N w_i) copies", "statement": "residual_resample returns N indices in range containing at least floor(N w_i) copies of every particle i, and the remaining picks are distributed proportionally to the fractional parts.", "quantifier": "all N, normalised weights, draws", "why_tests_cant": "all weights", "anchors": ["filterpy/monte_carlo/resampling.py: residual_resample"]}
{"id": "C48", "title": "Discrete Bayes update", "statement": "normalize returns a vector proportional to its input that sums to 1; update(likelihood, prior) returns the Bayes posterior, sums to 1, is invariant to scaling the likelihood, and successive updates commute.", "quantifier": "all lengths, all priors and likelihoods with nonzero evidence", "why_tests_cant": "all sizes", "anchors": ["filterpy/discrete_bayes/discrete_bayes.py: normalize, update"]}
{"id": "C49", "title": "Discrete Bayes predict", "statement": "predict(pdf, offset, kernel) in wrap mode is the circular shift by offset followed by circular convolution with the centred kernel, preserves total probability for a kernel summing to 1, preserves nonnegativity, and commutes with rotations of the pdf; in constant mode off-grid mass is replaced by cval.", "quantifier": "all grid sizes, offsets, odd kernels", "why_tests_cant": "all sizes and offsets", "anchors": ["filterpy/discrete_bayes/discrete_bayes.py: predict"]}
{"id": "C50", "title": "Q_discrete_white_noise", "statement": "Q_discrete_white_noise(dim,dt,var,block_size,order_by_dim) is var*G*G^T for the piecewise-constant white noise gain G, hence symmetric positive semidefinite for var>=0; with block_size it is I kron Q or Q kron I according to order_by_dim, the two being permutations of each other; dim outside {2,3,4} raises ValueError.", "quantifier": "all dt, var, block sizes, all dim", "why_tests_cant": "all sizes and values", "anchors": ["filterpy/common/discretization.py: Q_discrete_white_noise, order_by_derivative"]}
{"id": "C51", "title": "Q_continuous_white_noise composes over time", "statement": "Q_continuous_white_noise(dim,dt,sd) is the integral over [0,dt] of F(s) L L^T F(s)^T; splitting an interval gives the same noise: Q(a+b)=F(b)Q(a)F(b)^T+Q(b); symmetric positive semidefinite for dt,sd>=0; bad dim raises ValueError.", "quantifier": "all dt, spectral densities, block sizes", "why_tests_cant": "all real time steps", "anchors": ["filterpy/common/discretization.py: Q_continuous_white_noise"]}
{"id": "C52", "title": "kinematic_state_transition is a semigroup", "statement": "kinematic_state_transition(order,dt) is the Taylor shift matrix: applied to the derivatives of a polynomial of that order at time t it gives them at t+dt; F(a)F(b)=F(a+b), F(0)=I, for every order; a negative or non-integer order raises ValueError.", "quantifier": "all orders, all dt", "why_tests_cant": "all orders (general-order loop vs hard-coded low orders)", "anchors": ["filterpy/common/kinematic.py: kinematic_state_transition"]}
{"id": "C53", "title": "kinematic_kf builds a dim-dimensional kinematic filter", "statement": "kinematic_kf(dim, order) returns a filter whose F moves each coordinate independently by the 1-D kinematic matrix and whose H measures each coordinate's position, in either variable ordering; invalid dim/order/dim_z raise ValueError.", "quantifier": "all dim, order, both orderings", "why_tests_cant": "all dimensions", "anchors": ["filterpy/common/kinematic.py: kinematic_kf"]}
{"id": "C54", "title": "van Loan discretisation", "statement": "van_loan_discretization(F,G,dt) returns Phi=exp(F dt) and Q the covariance of the integrated noise over dt, composing over time.", "quantifier": "all matrices F,G and dt", "why_tests_cant": "all matrices", "anchors": ["filterpy/common/discretization.py: van_loan_discretization"]}
{"id": "C55", "title": "runge_kutta4", "statement": "runge_kutta4(y,x,dx,f) integrates y'=f(x) exactly for cubic f, is exact to fourth order on linear equations (equals the degree-4 Taylor polynomial of the exponential), and reduces to y for dx=0.", "quantifier": "all polynomials of degree at most 3, all linear equations, all dx", "why_tests_cant": "all polynomials and steps", "anchors": ["filterpy/common/helpers.py: runge_kutta4"]}
{"id": "C56", "title": "Saver records the history faithfully", "statement": "After any sequence of state changes and save() calls, every saved attribute list has length len(saver), and its k-th element is the attribute's value at the k-th save, independent of later in-place mutation of the object; ignore, skip_private and skip_callable exclude exactly the attributes they name.", "quantifier": "all histories of mutations and saves", "why_tests_cant": "aliasing bugs only show for particular mutation histories", "anchors": ["filterpy/common/helpers.py: Saver"]}
{"id": "C57", "title": "reshape_z accepts exactly the convertible measurements", "statement": "reshape_z(z,dim_z,ndim) returns the dim_z measurement values in order whenever z is a scalar (dim_z=1), a vector, a row or a column of dim_z elements, and raises ValueError otherwise.", "quantifier": "all array shapes and dim_z, ndim 0,1,2", "why_tests_cant": "all shapes", "anchors": ["filterpy/common/helpers.py: reshape_z"]}
{"id": "C58", "title": "inv_diagonal and outer_product_sum", "statement": "inv_diagonal(S) is the matrix inverse of S for diagonal S with nonzero diagonal and raises ValueError for non-square input; outer_product_sum(A,B) is the sum of outer products of rows, symmetric positive semidefinite when A=B.", "quantifier": "all matrices of any size", "why_tests_cant": "all sizes", "anchors": ["filterpy/common/helpers.py: inv_diagonal, outer_product_sum"]}
{"id": "C59", "title": "Product of Gaussians", "statement": "stats.mul is commutative and associative, its precision is the sum of precisions and its mean the precision-weighted mean; mul_pdf's scale factor makes the pointwise product of the two densities equal scale*density(mean,var); mul gives the posterior of a scalar Kalman update.", "quantifier": "all means, all positive variances, all points", "why_tests_cant": "pointwise equality of functions for all parameters", "anchors": ["filterpy/stats/stats.py: mul, mul_pdf, gaussian"]}
{"id": "C60", "title": "Multivariate product of Gaussians", "statement": "multivariate_multiply is commutative, its covariance is the inverse of the sum of inverse covariances, and it equals the Kalman update with H=I.", "quantifier": "all means and positive definite covariances of any dimension", "why_tests_cant": "all dimensions", "anchors": ["filterpy/stats/stats.py: multivariate_multiply"]}
{"id": "C61", "title": "Gaussian density functions", "statement": "stats.gaussian(x,mean,var) is the normal density (positive, symmetric about the mean, integrates to 1; the normed array form sums to 1); stats.add gives the distribution of the sum of independent Gaussians; norm_cdf is the probability of the interval irrespective of endpoint order; log_likelihood/likelihood/mahalanobis agree with each other.", "quantifier": "all parameters", "why_tests_cant": "integrals and equalities for all parameters", "anchors": ["filterpy/stats/stats.py: gaussian, add, norm_cdf, logpdf, log_likelihood, likelihood, mahalanobis, NEES"]}
{"id": "C62", "title": "compare_kf and copy_states", "statement": "compare_kf returns None when the two filters agree on all common public attributes and the list of differing attribute names otherwise; after copy_states(dst, src) the two agree on every common attribute, and attributes not in common are untouched.", "quantifier": "all filter pairs", "why_tests_cant": "universally quantified", "anchors": ["filterpy/common/helpers.py: compare_kf, copy_states"]}
{"id": "C63", "title": "UKF RTS smoother", "statement": "On linear systems UnscentedKalmanFilter.rts_smoother returns the same smoothed means and covariances as the Kalman RTS smoother, using the Qs argument when it is given.", "quantifier": "all linear systems, sequence lengths, Qs", "why_tests_cant": "all lengths", "anchors": ["filterpy/kalman/UKF.py: UnscentedKalmanFilter.rts_smoother"]}
{"id": "C64", "title": "Steady-state lag formulas", "statement": "The systematic errors the filters advertise are the limits actually reached: GHKFilter.bias_error(j) is the limit of prediction minus truth when the data have constant jerk j, and FadingMemoryFilter.e times the first neglected polynomial coefficient is the limiting error of each state component, for every initial state.", "quantifier": "all stable gains / all beta in [0,1), time steps, initial states, polynomial coefficients", "why_tests_cant": "a limit over unbounded runs, for all gains", "anchors": ["filterpy/gh/gh_filter.py: GHKFilter.bias_error", "filterpy/memory/fading_memory.py: FadingMemoryFilter.__init__ (attribute e)"]}
{"id": "C65", "title": "g-h filters remember the last measurement", "statement": "After update(z) the documented attribute z of GHFilter, GHKFilter and GHFilterOrder is the measurement passed in.", "quantifier": "all filters, gains, measurements", "why_tests_cant": "all inputs and states", "anchors": ["filterpy/gh/gh_filter.py: GHFilter.update, GHKFilter.update, GHFilterOrder.update"]}
{"id": "C66", "title": "Resampling is unbiased", "statement": "For draws uniform on [0,1), the expected number of copies of particle i returned by systematic_resample, stratified_resample and multinomial_resample is N*w_i.", "quantifier": "all N, all normalised weights, every probability space carrying uniform draws (no independence needed)", "why_tests_cant": "an expectation over a continuum of draws, for all weights; sampling only estimates it", "anchors": ["filterpy/monte_carlo/resampling.py: systematic_resample, stratified_resample, multinomial_resample"]}
{"id": "C67", "title": "linear_ode_discretation agrees with van Loan", "statement": "linear_ode_discretation(F,L,Q,dt) never raises and returns exp(F dt) and the covariance of the noise accumulated over dt by x'=Fx+Lw with noise density Q (defaults L=I, Q=0); with Q=I it returns the same pair as van_loan_discretization(F,L,dt).", "quantifier": "all matrices F, L, Q, all dt", "why_tests_cant": "all matrices and steps", "anchors": ["filterpy/common/discretization.py: linear_ode_discretation, van_loan_discretization"]}
{"id": "C68", "title": "Covariance ellipse", "statement": "covariance_ellipse(P, deviations) describes exactly the contour of points at Mahalanobis distance `deviations` from the centre: turning the axis-aligned ellipse with the returned radii (larger first) by the returned angle gives the set of points q with qᵀ P⁻¹ q = deviations².", "quantifier": "all positive definite 2x2 covariances, all positive numbers of deviations, all singular value decompositions the library may return", "why_tests_cant": "equality of two point sets for all covariances", "anchors": ["filterpy/stats/stats.py: covariance_ellipse"]}
{"id": "C69", "title": "Student t samples", "statement": "rand_student_t(df, mu, std) returns mu + std*T where T has Student's t distribution with df degrees of freedom (given ideal normal and gamma generators).", "quantifier": "all parameters and all draws", "why_tests_cant": "distributional statement", "anchors": ["filterpy/stats/stats.py: rand_student_t"]}
{"id": "C70", "title": "UKF batch_filter equals the loop", "statement": "UnscentedKalmanFilter.batch_filter(zs, Rs, dts) returns the estimates of, and leaves the filter in the state after, the loop predict(dts[i]); update(zs[i], Rs[i]), with the filter's own R and step where Rs or dts is left out, and accepts every documented form of dts and missing measurements anywhere.", "quantifier": "all filters (arbitrary fx, hx, mean and residual functions), all measurement sequences with missing values, all Rs and dts", "why_tests_cant": "all sequence lengths and argument combinations", "anchors": ["filterpy/kalman/UKF.py: UnscentedKalmanFilter.batch_filter"]}
{"id": "C71", "title": "test_matrix_dimensions tells good configurations from bad ones", "statement": "test_matrix_dimensions(z) succeeds exactly when the filter's arrays have shapes with which predict() and update(z) run without a shape error and keep the shapes of x and P; otherwise it raises AssertionError.", "quantifier": "all dimensions, all shapes of x, P, Q, F, H, R and z with at most two axes", "why_tests_cant": "all combinations of array shapes of all sizes", "anchors": ["filterpy/kalman/kalman_filter.py: KalmanFilter.test_matrix_dimensions, predict, update"]}
{"id": "C72", "title": "1-D and column states behave alike", "statement": "A KalmanFilter may store its state as a 1-D array or as a column, and measurements and controls may be passed as numbers (when there is one), vectors, rows or columns: every history of predict/update/steady-state calls computes the same numbers, raises the same exceptions and leaves every attribute in its shape; a measurement of any other shape is refused with ValueError before anything but the likelihood caches has changed; an F or H with the wrong number of columns and a control vector of the wrong length are refused with ValueError too.", "quantifier": "all dimensions, both representations, all histories of calls", "why_tests_cant": "numpy broadcasting silently accepts wrong shapes; all sizes and call histories must be covered", "anchors": ["filterpy/kalman/kalman_filter.py: KalmanFilter.predict, update, predict_steadystate, update_steadystate", "filterpy/common/helpers.py: reshape_z"]}
{"id": "C73", "title": "More uncertainty in never gives less uncertainty out", "statement": "If the initial covariance P, the process noises Q and the measurement noises R of one KalmanFilter are all at most those of another (in the sense of covariance matrices), and the alpha fading factors are at most the other's, then after the same history of predict and update calls the first filter's covariance P, and every variance on its diagonal, is at most the other's.", "quantifier": "all dimensions, all pairs of filters with ordered noise matrices, all histories of calls", "why_tests_cant": "an order between two whole runs; the gain is itself a nonlinear function of P, Q and R", "anchors": ["filterpy/kalman/kalman_filter.py: KalmanFilter.predict, update, alpha"]}
{"id": "C74", "title": "Units do not matter", "statement": "Rescaling (or linearly recombining) the state and the measurement units and transforming x, P, Q, R, F, H, B and the data accordingly gives exactly the rescaled estimates, covariances, gains and residuals after any history of calls, fails in exactly the same cases, shifts the log-likelihood only by the constant Jacobian of the measurement units and leaves the Mahalanobis distance unchanged.", "quantifier": "all dimensions, all invertible changes of state and measurement coordinates, all histories of calls (except update_sequential with part of the measurement)", "why_tests_cant": "all invertible matrices and histories", "anchors": ["filterpy/kalman/kalman_filter.py: KalmanFilter.predict, update, predict_steadystate, update_steadystate, update_correlated, log_likelihood, mahalanobis"]}
{"id": "C75", "title": "The order of simultaneous measurements is irrelevant", "statement": "Several update(z, R, H) calls without a predict in between give the same x and P in whatever order they are made.", "quantifier": "all dimensions, any number of measurements with individual R and H, all permutations, positive definite P and R", "why_tests_cant": "factorially many orders", "anchors": ["filterpy/kalman/kalman_filter.py: KalmanFilter.update"]}
{"id": "C76", "title": "Superposition: estimates are affine in the data, covariances do not depend on it", "statement": "Running the same calls on a weighted mean of two data sets (initial states, controls, measurements) gives the same weighted mean of the two runs' estimates and residuals; P, S, K and whether a call raises do not depend on the data at all.", "quantifier": "all dimensions, filters, weights, data sets and histories of calls", "why_tests_cant": "all histories and pairs of data sets", "anchors": ["filterpy/kalman/kalman_filter.py: KalmanFilter.predict, update, update_sequential, update_correlated, predict_steadystate, update_steadystate"]}
{"id": "C77", "title": "Estimating a constant is weighted least squares", "statement": "With no predict in between, any sequence of update(z, R, H) calls succeeds and leaves in x the unique minimiser of the squared deviation from the initial estimate (weighted by P) plus all squared residuals (weighted by R), and in P the curvature of that cost.", "quantifier": "all dimensions, any number of measurements with individual R and H, positive definite P and R", "why_tests_cant": "any number of measurements of any size", "anchors": ["filterpy/kalman/kalman_filter.py: KalmanFilter.update"]}
{"id": "C78", "title": "Residuals are white with covariance S", "statement": "If the filter's model is right (as in C01), the residual y reported by each update has mean zero and covariance exactly the reported S, the residuals of two different updates of the same history are uncorrelated, and the remaining estimation error is uncorrelated with all of them. (This is what consistency checks with y and S, such as NIS, rely on.)", "quantifier": "all dimensions, probability distributions of noises, histories of predict/update/update(None) with per-call overrides", "why_tests_cant": "a statement about expectations over all noise distributions and pairs of instants of all histories", "anchors": ["filterpy/kalman/kalman_filter.py: KalmanFilter.predict, update, y, S"]}
{"id": "C79", "title": "Array views of a Saver show the saved history", "statement": "Whatever sequence of save(), saver[k] = list, to_array(), to_array(flatten=True) and flatten() is called, saver.k always shows the same data as saver[k]: as the list, or as an array whose i-th slice is the i-th saved value (columns without their column axis after flatten). to_array succeeds exactly if every attribute kept its shape; otherwise it raises ValueError and leaves every attribute as a list. saver[k], keys and len are never changed by it, and the next save() turns all attributes back into lists.", "quantifier": "all histories of calls, keys, array shapes and values", "why_tests_cant": "all call orders including failed conversions", "anchors": ["filterpy/common/helpers.py: Saver.save, __setitem__, keys, to_array, flatten"]}
{"id": "C80", "title": "Splitting a prediction interval changes nothing", "statement": "With the library's kinematic transition matrices and continuous white-noise matrices, predicting over a+b in one predict() or over a and then b in two gives the same state and covariance.", "quantifier": "orders 1 to 3 (those the noise function accepts), all time steps, spectral densities and filter states", "why_tests_cant": "a relation between three modules for all real time steps", "anchors": ["filterpy/common/kinematic.py: kinematic_state_transition", "filterpy/common/discretization.py: Q_continuous_white_noise", "filterpy/kalman/kalman_filter.py: KalmanFilter.predict"]}
{"id": "C81", "title": "g-h and g-h-k filters are constant-gain Kalman filters", "statement": "A GHFilter is a KalmanFilter with the constant-velocity model and constant gain (g, h/dt) run with predict_steadystate/update_steadystate; a GHKFilter is one with the constant-acceleration model and gain (g, h/dt, 2k/dt^2): same estimates and residuals for every measurement sequence.", "quantifier": "all gains, time steps different from 0, initial states, measurement sequences of any length", "why_tests_cant": "all sequences; two classes must agree step by step", "anchors": ["filterpy/gh/gh_filter.py: GHFilter.update, GHKFilter.update", "filterpy/kalman/kalman_filter.py: KalmanFilter.predict_steadystate, update_steadystate"]}
{"id": "C82", "title": "A bank of identical filters is one filter", "statement": "An IMMEstimator or MMAEFilterBank made of N copies of one filter behaves as that filter: through every history of predict/update calls it survives what the filter survives and reports the filter's state and covariance; the IMM's mode probabilities follow the Markov chain one step per measurement and the MMAE's do not move.", "quantifier": "all numbers of filters, mode probabilities, stochastic matrices that keep every mode reachable, filter classes with positive likelihood, histories of calls", "why_tests_cant": "all histories and bank sizes; a test compares one run", "anchors": ["filterpy/kalman/IMM.py: IMMEstimator", "filterpy/kalman/mmae.py: MMAEFilterBank"]}
{"id": "C83", "title": "A perfect measurement is a constraint that is never forgotten", "statement": "update(z, R=0) succeeds exactly when the prior uncertainty of the measured combination is non-singular; afterwards the state reproduces z and the covariance has no uncertainty in it; a second perfect measurement of the same combination raises LinAlgError; and every later history of updates, missing measurements and predictions whose model respects the constraint keeps the state on it.", "quantifier": "all dimensions, symmetric prior covariances, measurement matrices, histories of calls", "why_tests_cant": "all priors and histories, including singular covariances", "anchors": ["filterpy/kalman/kalman_filter.py: KalmanFilter.update, KalmanFilter.predict"]}
{"id": "C84", "title": "The initial covariance is forgotten and the steady state is unique", "statement": "Two KalmanFilters with the same model and different initial covariances, put through the same calls with whatever data: the relative difference of their covariances shrinks by c/(1+c) with every predict(), where c bounds the carried-over uncertainty relative to the process noise, and never grows in update(). If the model (positive definite Q, R) has a steady state covariance it is the only one, and from every initial covariance the filter converges to it exponentially fast.", "quantifier": "all dimensions, models, initial covariances, data, histories of predict/update/update(None)", "why_tests_cant": "asymptotic statement over infinitely many steps and all matrices", "anchors": ["filterpy/kalman/kalman_filter.py: KalmanFilter.predict, KalmanFilter.update"]}
{"id": "C85", "title": "The initial state is forgotten", "statement": "Two KalmanFilters that differ only in the initial state estimate and get the same calls and data: their covariances stay equal and the squared difference of the estimates, in the filter's own standard deviations, shrinks by c/(1+c) with every predict() and never grows; where a steady state exists the estimates converge to each other exponentially fast.", "quantifier": "all dimensions, models, initial states, data, histories of predict/update/update(None)", "why_tests_cant": "asymptotic statement over infinitely many steps", "anchors": ["filterpy/kalman/kalman_filter.py: KalmanFilter.predict, KalmanFilter.update"]}
{"id": "C86", "title": "An information filter can start without any prior information", "statement": "An InformationFilter started with P_inv = 0 (no prior knowledge) is determined by its measurements alone: the first measurement that determines the state gives the weighted least squares fit to it, independently of the starting x, and from then on the filter agrees with a KalmanFilter started at that fit with its covariance.", "quantifier": "all starting states, invertible transitions, noise matrices and later histories", "why_tests_cant": "histories are unbounded and the claim is independence of an arbitrary starting state", "anchors": ["filterpy/kalman/information_filter.py: InformationFilter.predict", "filterpy/kalman/information_filter.py: InformationFilter.update"]}
{"id": "C87", "title": "Only the ratios of P, Q and R matter", "statement": "Multiplying the initial covariance, Q, R, M and every covariance passed in a call by the same number c leaves the states, gains, residuals and exceptions of a KalmanFilter unchanged and multiplies every covariance by c; the log-likelihood changes by a known amount, so it can be used to find the scale.", "quantifier": "all models, all c != 0, all histories of calls", "why_tests_cant": "a relation between two runs over every history", "anchors": ["filterpy/kalman/kalman_filter.py: KalmanFilter.predict", "filterpy/kalman/kalman_filter.py: KalmanFilter.update", "filterpy/kalman/kalman_filter.py: KalmanFilter.update_sequential", "filterpy/kalman/kalman_filter.py: KalmanFilter.update_correlated"]}
{"id": "C88", "title": "Independent subsystems decouple", "statement": "A KalmanFilter holding two systems that do not influence each other (stacked state, block diagonal matrices) gives exactly the two separate filters' estimates with uncorrelated covariances, whatever is called; measuring one subsystem with update_sequential leaves the other untouched; log-likelihoods of joint measurements add up.", "quantifier": "all dimensions, models, histories", "why_tests_cant": "a relation between three filters over every history and every dimension", "anchors": ["filterpy/kalman/kalman_filter.py: KalmanFilter.predict", "filterpy/kalman/kalman_filter.py: KalmanFilter.update", "filterpy/kalman/kalman_filter.py: KalmanFilter.update_sequential", "filterpy/kalman/kalman_filter.py: KalmanFilter.log_likelihood"]}
{"id": "C89", "title": "The pseudo-inverse handles redundant and noise-free measurements", "statement": "With kf.inv = np.linalg.pinv (the documented alternative) update and update_correlated never raise; whenever the ordinary inverse works nothing changes; for singular S the update is still the best linear estimate and reports the covariance of its own error; redundant noise-free measurements are satisfied as closely as possible and repeating one does nothing.", "quantifier": "all models with positive semidefinite P and R (singular or zero included), all measurements, all histories", "why_tests_cant": "singular innovation covariances are exactly the inputs unit tests avoid; optimality quantifies over every other estimator", "anchors": ["filterpy/kalman/kalman_filter.py: KalmanFilter.__init__ (inv)", "filterpy/kalman/kalman_filter.py: KalmanFilter.update", "filterpy/kalman/kalman_filter.py: KalmanFilter.update_correlated", "filterpy/kalman/kalman_filter.py: KalmanFilter.update_sequential"]}
{"id": "C90", "title": "The unscented and cubature transforms are exact beyond linear functions", "statement": "For a quadratic function and any random vector with mean x and covariance P, the unscented transform of the sigma points of (x, P) (Merwe, Julier, simplex, any valid parameters) and the cubature transform give exactly the mean of the function; UnscentedKalmanFilter.predict with a quadratic fx therefore moves x to the true mean. For a distribution symmetric about its mean this stays true when any odd function of the deviation is added (Merwe and Julier points). The transformed variance of a quadratic function of one normal variable is exact if and only if the function is linear or alpha^2*kappa + beta = 2 (Merwe), respectively kappa = 2 (Julier).", "quantifier": "all dimensions, all distributions with the given mean and covariance, all quadratic functions, all parameters, all square-root routines with the Cholesky contract; for the variance all normal variables and all parabolas", "why_tests_cant": "Tests push a few functions through the transform and compare with tolerances or with a random sample; a wrong centre weight of the covariance is invisible for linear functions.", "anchors": ["filterpy/kalman/sigma_points.py: MerweScaledSigmaPoints, JulierSigmaPoints, SimplexSigmaPoints", "filterpy/kalman/unscented_transform.py: unscented_transform", "filterpy/kalman/CubatureKalmanFilter.py: spherical_radial_sigmas, ckf_transform", "filterpy/kalman/UKF.py: UnscentedKalmanFilter.predict"]}
{"id": "C91", "title": "The other filter classes keep the same books as KalmanFilter", "statement": "For ExtendedKalmanFilter, FadingKalmanFilter, UnscentedKalmanFilter, CubatureKalmanFilter, EnsembleKalmanFilter, SquareRootKalmanFilter and InformationFilter: after any sequence of calls that does not raise, x_prior and P_prior are the estimate left by the most recent predict(), x_post and P_post the one left by the most recent update() (also update(None)), and no call changes the attributes the user sets (F, H, B, Q, R, dt, fx, hx). For the classes with cached likelihood properties, log_likelihood, likelihood and mahalanobis are those of the residual and innovation covariance left by the most recent measurement, whatever predictions, missing measurements and readings followed. An argument given to a single call (dt, fx, hx, R, R_inv, R2) acts as if the attribute had been assigned for that call and put back afterwards, also when the call raises.", "quantifier": "all filters, all finite sequences of predict, update, update(None) and property readings with all arguments, all values of fx, hx and the Jacobian, all draws of the ensemble filter, all factorisation routines", "why_tests_cant": "A cache that is not cleared, a copy taken too early or an override that leaks is seen only after a particular interleaving of calls; tests look at x and P after simple predict/update pairs.", "anchors": ["filterpy/kalman/EKF.py: ExtendedKalmanFilter.predict, update, log_likelihood, likelihood, mahalanobis", "filterpy/kalman/fading_memory.py", "filterpy/kalman/UKF.py: UnscentedKalmanFilter.predict, update", "filterpy/kalman/CubatureKalmanFilter.py", "filterpy/kalman/ensemble_kalman_filter.py", "filterpy/kalman/square_root.py", "filterpy/kalman/information_filter.py"]}
{"id": "C92", "title": "The unscented filter does not care in which coordinates, or in which turn of a circle, the state is written", "statement": "The x_mean_fn, z_mean_fn, residual_x, residual_z and state_add arguments (and the subtract argument of the sigma point classes) let a user filter states that are not vectors. If those functions respect what the states and measurements stand for, two filters whose states stand for the same thing stay in step: covariances, gains, residuals, likelihoods and exceptions are identical and the states go on standing for the same thing. In particular a filter whose functions work through an arbitrary change of coordinates is the ordinary filter in those coordinates, and a filter with the usual wrapped-difference residual and atan2 mean gives the same results when the state or any measurement is written with full turns added to its angles.", "quantifier": "all dimensions, sigma point classes and parameters, bijective coordinate changes, sets of angle components, process and measurement functions respecting them, noise arguments, and all histories of predict, update, update(None) and property reads", "why_tests_cant": "It compares two runs for arbitrary function arguments over unbounded histories; a test fixes one function and one trajectory, and a residual function ignored at one of its four call sites shows only when an estimate crosses the wrap.", "anchors": ["filterpy/kalman/UKF.py:UnscentedKalmanFilter.predict", "filterpy/kalman/UKF.py:UnscentedKalmanFilter.update", "filterpy/kalman/UKF.py:UnscentedKalmanFilter.cross_variance", "filterpy/kalman/unscented_transform.py:unscented_transform", "filterpy/kalman/sigma_points.py:MerweScaledSigmaPoints.sigma_points", "filterpy/kalman/sigma_points.py:JulierSigmaPoints.sigma_points", "filterpy/kalman/sigma_points.py:SimplexSigmaPoints.sigma_points"]}
{"id": "C93", "title": "NEES and mahalanobis mean what the documentation says, and cautious tuning is safe", "statement": "In the world of C01, record truth, estimate and P after every call and pass them to stats.NEES: each number returned has expected value dim_x. The expected square of mahalanobis after an update is dim_z, so a gate at distance t rejects a genuine measurement with probability at most dim_z/t^2 whatever the noise distribution. If the filter was told noise and initial covariances larger than the true ones, it stays unbiased, P never falls below the true error covariance, and both statistics are at most dim_x and dim_z ('equal to or less than the dimension of x', as the documentation of NEES says).", "quantifier": "all dimensions, probability spaces and noise distributions with the given second moments, all histories of predict, update and update(None) with any per-call F, B, u, Q, R, H", "why_tests_cant": "Expectations over arbitrary distributions and unbounded histories; a Monte-Carlo test sees a finite sample of one distribution and one model.", "anchors": ["filterpy/stats/stats.py:NEES", "filterpy/kalman/kalman_filter.py:KalmanFilter.mahalanobis", "filterpy/kalman/kalman_filter.py:KalmanFilter.predict", "filterpy/kalman/kalman_filter.py:KalmanFilter.update"]}
{"id": "C94", "title": "The filter computes the exact posterior distribution, and log-likelihoods add up to the evidence", "statement": "If the system really is linear with independent normal noises of the covariances the KalmanFilter object was told, then after any history of predict, update and update(None) calls the conditional distribution of the true state given all measurements is the normal distribution with mean kf.x and covariance kf.P; and adding up kf.log_likelihood after every update gives the logarithm of the joint probability density of all the measurements.", "quantifier": "all dimensions, all plans of calls of any length with per-call overrides of u, B, F, Q, R, H, all measured values, all positive semidefinite (also singular) initial covariances and process noises, all positive definite measurement noises", "why_tests_cant": "A statement about probability distributions over all possible measurement records; tests see single records.", "anchors": ["filterpy/kalman/kalman_filter.py: KalmanFilter.predict, KalmanFilter.update, KalmanFilter.log_likelihood"]}
{"id": "C95", "title": "No estimator of any kind beats kf.x", "statement": "Under the assumptions of C94, no way of estimating the true state from the measurements, linear or not, has a smaller mean penalty than kf.x, for every penalty that is symmetric and convex in the error: squared error, absolute error, any norm.", "quantifier": "all plans of calls as in C94, all measurable estimators (functions of all measurements), all symmetric convex penalties", "why_tests_cant": "Ranges over all functions of the measurements and all penalties.", "anchors": ["filterpy/kalman/kalman_filter.py: KalmanFilter.predict, KalmanFilter.update"]}
{"id": "C96", "title": "MMAE computes the posterior probability of every model and the best estimate", "statement": "If nature picks one of the models of an MMAEFilterBank of Kalman filters with the initial probabilities and then follows it, then after any history of bank.predict and bank.update calls bank.p[i] is the conditional probability of model i given all measurements, the state is then normal with the mean and covariance of filter i, and after an update bank.x has the smallest mean squared error among all estimators.", "quantifier": "all numbers of models, all dimensions, all plans of calls of any length with per-call R and H, all measured values, all initial probabilities, all estimators", "why_tests_cant": "A statement about conditional distributions over all measurement records and about all functions of the measurements.", "anchors": ["filterpy/kalman/mmae.py: MMAEFilterBank.predict, MMAEFilterBank.update", "filterpy/kalman/kalman_filter.py: KalmanFilter.likelihood"]}
{"id": "C97", "title": "The covariance and gain of an observable model settle", "statement": "For a KalmanFilter with constant F, H, Q, R whose model is observable (no non-zero state is invisible to the noiseless sensor forever), the covariance reported after dim_x or more predict()/update(z) cycles lies below one bound that depends neither on the initial state and covariance nor on the data; a steady state covariance exists, and a filter started from an exactly known state climbs to the smallest one; if Q is positive definite it is unique and kf.P and kf.K converge to the steady state values from every initial covariance. In general a steady state exists exactly when some filter with a constant gain keeps its error covariance bounded.", "quantifier": "all dimensions, all observable models with Q PSD and R PD (Q PD for convergence), any fading factor, all initial states and covariances, all infinite data sequences", "why_tests_cant": "existence and convergence of a limit over infinitely many cycles, and a bound uniform over all initial covariances, are beyond any finite run", "anchors": ["filterpy/kalman/kalman_filter.py:KalmanFilter.predict", "filterpy/kalman/kalman_filter.py:KalmanFilter.update"]}
{"id": "C98", "title": "Constant gain operation loses nothing in the long run", "statement": "A KalmanFilter holding the steady state covariance and gain and run with predict_steadystate/update_steadystate forgets its initial state estimate, and on a linear system with noises of covariance Q and R, from any initial estimate however wrong, its estimate becomes unbiased and its error covariance tends to the steady state covariance, the one the full filter reaches.", "quantifier": "all filters at their fixed point with positive definite P, Q, R, all controls, all data, all second-order noise distributions, all initial estimates", "why_tests_cant": "a statement about limits and about the distribution of the error over all noise sequences", "anchors": ["filterpy/kalman/kalman_filter.py:KalmanFilter.predict_steadystate", "filterpy/kalman/kalman_filter.py:KalmanFilter.update_steadystate"]}
{"id": "C99", "title": "H-infinity worst case guarantee", "statement": "HInfinityFilter bounds the worst case: whatever the initial state, the disturbances of sensor and state and the controls, the estimation errors weighed by Q and summed over any number of update/predict steps are at most 1/gamma times the initial error weighed by P^-1 plus all disturbances weighed by V^-1 and W^-1, as long as P^-1 - gamma Q stays positive definite.", "quantifier": "all dimensions, matrices, initial states, disturbance sequences and numbers of steps", "why_tests_cant": "a bound over all disturbance sequences, including the adversarial one", "anchors": ["filterpy/hinfinity/hinfinity_filter.py:HInfinityFilter.update", "filterpy/hinfinity/hinfinity_filter.py:HInfinityFilter.predict"]}
{"id": "C100", "title": "A fading filter is exponentially discounted least squares", "statement": "With a fading factor alpha and no process noise, after any history of predict, update and missed measurements x is the end point of the one trajectory of the model that minimises the discounted least squares cost, in which a squared residual (weighted with the inverse of its R) counts alpha^2 times less with every prediction made since, and the distance from the initial estimate is discounted in the same way. The cost of any other trajectory exceeds the minimum by (X-x)' P^-1 (X-x), X being its end point. This holds for KalmanFilter with alpha set and for FadingKalmanFilter.", "quantifier": "all dimensions, all alpha > 0, all positive definite initial covariances, all histories of calls with or without a control, per-call invertible F, per-call R and H, missed measurements", "why_tests_cant": "an optimisation statement over all trajectories and all histories; tests compare a few numbers", "anchors": ["filterpy/kalman/kalman_filter.py: KalmanFilter.predict, KalmanFilter.update, KalmanFilter.alpha", "filterpy/kalman/fading_kalman_filter.py: FadingKalmanFilter.predict, FadingKalmanFilter.update"]}
{"id": "C101", "title": "The order in which the filters of a bank are listed does not matter", "statement": "Listing the filters of an IMMEstimator or MMAEFilterBank in another order (with their probabilities, and for the IMM the rows and columns of the transition matrix) does not change the estimates x and P, the priors and the posteriors after any history of predict and update; the probabilities and the filters appear in the new order.", "quantifier": "all permutations, all banks of any filter class, all histories of calls that do not raise", "why_tests_cant": "a symmetry over all permutations and all histories", "anchors": ["filterpy/kalman/IMM.py: IMMEstimator.__init__, predict, update", "filterpy/kalman/mmae.py: MMAEFilterBank.__init__, predict, update"]}
{"id": "C102", "title": "An IMM that cannot switch modes is an MMAE bank", "statement": "An IMMEstimator whose transition matrix is the identity has, over every history of predict and update, the same filters and probabilities as the MMAEFilterBank with the same filters and starting probabilities, and after every update the same estimate x.", "quantifier": "all filter classes whose x and P can be written back, all banks, all starting probabilities that add up to one, all histories; for banks of Kalman filters the runs are also shown to succeed", "why_tests_cant": "relates two classes over all histories", "anchors": ["filterpy/kalman/IMM.py: IMMEstimator.__init__, predict, update", "filterpy/kalman/mmae.py: MMAEFilterBank.__init__, predict, update"]}
{"id": "C103", "title": "A nonlinear EKF update is a Gauss-Newton step on the posterior", "statement": "For any measurement function, Jacobian, residual function and noise, ExtendedKalmanFilter.update(z) with positive definite P and R never raises; it leaves in x the unique minimiser of the log posterior linearised at the prior estimate, and in P the inverse of its Hessian (so P^-1 grows by H^T R^-1 H and uncertainty never increases). If HJacobian really returns the derivative of the residual's measurement function, the slope of the true log posterior in every direction is -2 d^T P'^-1 (x'-x): the update always points towards more probable states, and leaves x unchanged exactly when x is a stationary point. Covariances stay symmetric positive semidefinite through every history of predict, update and predict_update calls, raising ones included.", "quantifier": "all dimensions, measurement functions, Jacobians, residual functions, measurements, noises and all histories of calls", "why_tests_cant": "the property ranges over arbitrary nonlinear user functions and unbounded histories; a test exercises one radar function", "anchors": ["filterpy/kalman/EKF.py: ExtendedKalmanFilter.update, predict, predict_update"]}
{"id": "C104", "title": "How much noise each resampler adds", "statement": "With independent uniform draws, the average of any function of the particles after stratified_resample, systematic_resample or multinomial_resample equals the weighted average before it, in expectation. Its variance after multinomial_resample is exactly the weighted population variance divided by N; after stratified_resample it is never larger. systematic_resample makes the number of copies of each particle as little variable as whole numbers with that mean can be, so no unbiased resampler does better on single particles; but for averages over several particles it can be noisier than multinomial_resample.", "quantifier": "all particle counts, weights and functions of the particles, over the law of the random draws", "why_tests_cant": "a statement about a probability distribution over all draws; Monte Carlo tests only estimate it for a few weights", "anchors": ["filterpy/monte_carlo/resampling.py: stratified_resample, systematic_resample, multinomial_resample"]}
{"id": "C105", "title": "A wrong start is forgotten and the filter becomes honest", "statement": "A KalmanFilter with the right model (R positive definite; process noise that reaches every direction; nothing unseen that does not die out) but a wrong initial x and P becomes consistent: whatever x and P it is started with and whatever the system's initial state is, predict/update never fails, the mean of its error tends to zero, and the covariance of its actual error tends to the same limit as the P it reports. The full filter and the filter run with predict_steadystate/update_steadystate, each started anywhere, agree in mean square in the limit; and on every single data sequence whose residuals grow at most polynomially their states converge to each other.", "quantifier": "all dimensions, models, initial states, initial covariances, control sequences, noise distributions (only means and covariances matter) and infinite measurement sequences", "why_tests_cant": "a limit over infinite histories and a statement about the distribution of the error; a simulation shows a few finite runs", "anchors": ["filterpy/kalman/kalman_filter.py: KalmanFilter.predict, update, predict_steadystate, update_steadystate"]}
{"id": "C106", "title": "A whole run of the discrete Bayes filter is the posterior over all histories", "statement": "Alternating discrete_bayes.predict and discrete_bayes.update for any number of steps computes the exact posterior of the hidden Markov model: the belief in cell i is the total probability weight of all position histories ending in i divided by that of all histories (in 'constant' mode with cval 0, of the histories that never leave the grid). If the object really moves as offset and kernel say and the likelihoods are right up to a factor per step, the belief is the conditional probability of each cell given all measurements so far. The run breaks down (0/0) exactly when no history is compatible with the measurements.", "quantifier": "all grid sizes, priors, offsets, kernels (also of changing length), modes, likelihoods and numbers of steps", "why_tests_cant": "the number of histories grows exponentially and the claim is about a conditional probability; tests compare a few one-step results", "anchors": ["filterpy/discrete_bayes/discrete_bayes.py: predict, update, normalize"]}
{"id": "C107", "title": "The ensemble filter tends to the Kalman filter as the ensemble grows", "statement": "On a linear model an EnsembleKalmanFilter and a KalmanFilter given the same calls (predict, update with or without R, update(None)) agree in the limit of large ensembles: if the members' draws are independent with the means and covariances that the code asks of multivariate_normal, then with probability one the estimate x and the covariance P of the ensemble filter tend to kf.x and kf.P after every finite history. The same holds for any deterministic tables of draws whose sample moments tend to those values.", "quantifier": "all linear models with positive semidefinite Q and P and positive definite R, all finite histories of calls and measurements, all laws of the draws (not only normal ones)", "why_tests_cant": "a test runs one ensemble of one size with one seed; the claim is about a limit over sizes and about almost every sequence of draws", "anchors": ["filterpy/kalman/ensemble_kalman_filter.py: EnsembleKalmanFilter.__init__, initialize, predict, update", "filterpy/kalman/kalman_filter.py: KalmanFilter.predict, update"]}
{"id": "C108", "title": "A bank of filters rarely gives up the right model", "statement": "If one filter of an MMAEFilterBank describes the system correctly (its motion, sensor and noise models, normal noises), then during a whole run its weight bank.p[i] falls to eps or below at some time with probability at most eps divided by its initial weight, and the odds bank.p[j]/bank.p[i] of any other filter ever rise by a factor c with probability at most 1/c. On average the log_likelihood values that a KalmanFilter with the correct model adds up are at least as large as those of any other model fed with the same measurements.", "quantifier": "all banks with a distribution of weights, all models with positive semidefinite Q and positive definite R, all plans of predict/update calls with their arguments, all run lengths and all thresholds", "why_tests_cant": "a statement about the probability of an event over all times of a run; a test can only run a few simulated histories", "anchors": ["filterpy/kalman/mmae.py: MMAEFilterBank.predict, update", "filterpy/kalman/kalman_filter.py: KalmanFilter.update, log_likelihood"]}
{"id": "C109", "title": "The discrete Bayes filter forgets its initial belief", "statement": "Two runs of the predict/update loop of discrete_bayes on the same steps from different initial beliefs: the odds of any two cells under one belief relative to the other never move further apart. On a ring (mode='wrap'), if the kernel leaves two neighbouring moves possible and no likelihood rules a cell out, both runs succeed whatever the initial beliefs, and the probabilities they give to any set of cells differ by an amount that shrinks exponentially with the number of steps.", "quantifier": "all grid sizes, beliefs, offsets, kernels (possibly different in every step), likelihoods, numbers of steps", "why_tests_cant": "quantifies over all pairs of initial beliefs, all data and unbounded run lengths; a test can only run a few", "anchors": ["filterpy/discrete_bayes/discrete_bayes.py: predict", "filterpy/discrete_bayes/discrete_bayes.py: update"]}
{"id": "C110", "title": "What the measurements cannot see stays unknown", "statement": "If no measurement of a history depends on a displacement v of the state (H v = 0 at every update, v moving with the model), then two KalmanFilters started v apart get the same gains, residuals, covariances, likelihoods and exceptions, and their estimates stay exactly the moved v apart; and a filter whose covariance allowed for one unit of v at the start still allows for one unit of the moved v after any number of measurements, so it never becomes certain of what it cannot observe.", "quantifier": "all dimensions, models, data, displacements and histories of calls (all predict and update methods and property reads for the estimates; predict, update, update_sequential and reads for the covariance), whatever routine kf.inv is", "why_tests_cant": "ranges over all histories and all unobservable directions", "anchors": ["filterpy/kalman/kalman_filter.py: KalmanFilter.predict", "filterpy/kalman/kalman_filter.py: KalmanFilter.update", "filterpy/kalman/kalman_filter.py: KalmanFilter.update_sequential", "filterpy/kalman/kalman_filter.py: KalmanFilter.update_correlated"]}
{"id": "C111", "title": "Leaving out measurements never makes the filter surer", "statement": "Take any history of predict, update(z) and update(None) and leave out any of its measurements, by not making the call or by passing None: the filter with all measurements ends with a covariance P at most that of the filter without them, whatever the data. With positive definite measurement noise and controls of the right shape neither history raises.", "quantifier": "all dimensions, models, per-call F, B, Q, R, H, data, histories and choices of measurements to leave out", "why_tests_cant": "ranges over all histories and all subsets of measurements", "anchors": ["filterpy/kalman/kalman_filter.py: KalmanFilter.predict", "filterpy/kalman/kalman_filter.py: KalmanFilter.update"]}
{"id": "C112", "title": "With small uncertainties the nonlinear filters are the Kalman filter of the linearised system", "statement": "Run an UnscentedKalmanFilter with differentiable fx and hx, any of the three sigma point classes with valid parameters, from x + eps*xi with covariance eps^2 P and noises eps^2 Q, eps^2 R, feeding it measurements that deviate by eps*zeta_i from what the noise-free trajectory would give (some possibly None). For all small enough eps every predict and update succeeds, and as eps tends to 0, after any number of cycles, (x - nominal)/eps, P/eps^2, K, S/eps^2 and y/eps tend to the x, P, K, S, y of the KalmanFilter whose F and H are the Jacobians along the noise-free trajectory, started at xi, P and given the zeta_i. The same holds for an ExtendedKalmanFilter that is given the Jacobians and whose predict_x is overridden by the dynamics, if the Jacobians are continuous; so both nonlinear filters agree to first order.", "quantifier": "every differentiable fx and hx, every sigma point class with valid parameters, every start, positive definite P, Q, R and every finite sequence of measurements and missing measurements", "why_tests_cant": "It is a limit statement about arbitrary nonlinear functions; a test sees one function at a few sizes of the uncertainty.", "anchors": ["filterpy/kalman/UKF.py: UnscentedKalmanFilter.predict, update", "filterpy/kalman/sigma_points.py: MerweScaledSigmaPoints, JulierSigmaPoints, SimplexSigmaPoints", "filterpy/kalman/EKF.py: ExtendedKalmanFilter.predict, predict_x, update"]}
{"id": "C113", "title": "runge_kutta4 is a method of fourth order", "statement": "Calling runge_kutta4 in a loop (y = runge_kutta4(y, x, dx, f); x += dx) follows the solution of y' = f(y, x): for any smooth f and any solution on an interval, covering the interval with N calls gives, at every one of the N points, an error of at most c / N^4, one call from a point of the solution errs by at most c dx^5, and a start that is off by d adds at most a constant multiple of d. The order is exactly four: on y' = 5 x^4 every call is wrong by dx^5 / 24.", "quantifier": "every finite-dimensional value y (scalar or vector), every four times continuously differentiable right-hand side f(y, x) with no bound assumed on it, every solution on every interval, every number of steps from some number on", "why_tests_cant": "A test compares a few step sizes on one equation; the order of a method is a statement about all equations and about the limit of small steps, and a wrong coefficient in one stage leaves a method that still converges and passes any tolerance test.", "anchors": ["filterpy/common/helpers.py: runge_kutta4"]}
{"id": "C114", "title": "Filters do not interfere through shared arrays, and arrays read off a filter keep their contents", "statement": "Two filters that were given the same numpy arrays (as x, P, probabilities and so on) do not influence each other: whatever calls are made on them in whatever order, each one ends up as if it had been alone; and an array that the caller assigned to an attribute, or read off one (a list of kf.x collected in a loop), is not changed by later calls. This holds for KalmanFilter without update_sequential, ExtendedKalmanFilter, FadingKalmanFilter, UnscentedKalmanFilter, CubatureKalmanFilter, InformationFilter, HInfinityFilter, GHFilter and GHKFilter. For the others it fails (update_sequential and SquareRootKalmanFilter.update overwrite x; MMAEFilterBank overwrites the caller's p; IMMEstimator.x, GHFilterOrder.x, FadingMemoryFilter.x, the ensemble and LeastSquaresFilter's return value are overwritten by later calls); there, objects that share no overwritten array do not influence each other, copies are never changed, and the remaining attributes are safe.", "quantifier": "every class, every number of objects, every pattern of sharing arrays between them, every interleaving of calls including calls that raise, every array that exists", "why_tests_cant": "Interference needs a particular sharing of arrays and a particular interleaving of calls on several objects, and is invisible in tests that use one object and compare values at once; there are unboundedly many sharings and interleavings.", "anchors": ["filterpy/kalman/kalman_filter.py: KalmanFilter.update_sequential", "filterpy/kalman/square_root.py: SquareRootKalmanFilter.update", "filterpy/kalman/mmae.py: MMAEFilterBank.update", "filterpy/kalman/IMM.py: IMMEstimator._compute_state_estimate", "filterpy/leastsq/least_squares.py: LeastSquaresFilter.update", "filterpy/gh/gh_filter.py: GHFilterOrder.update", "filterpy/memory/fading_memory.py: FadingMemoryFilter.update", "filterpy/kalman/ensemble_kalman_filter.py: EnsembleKalmanFilter"]}
{"id": "C115", "title": "Rounding errors do not build up in a Kalman filter", "statement": "Take a KalmanFilter whose model is observable, with positive definite Q and R and fading factor at least 1, and run it with computer arithmetic: after every predict() and every update() the stored x and P differ from the exact result of that call by at most tau in every entry (P staying symmetric). If tau is small enough then for ever after, whatever the controls and measurements, no call fails, P stays positive definite, P is within a constant times tau of the P computed without rounding, and x is within a constant times tau*(1+Y) of the exact x, Y being the largest residual seen so far in standard deviations of the measurement noise. The constants depend only on the model and the initial covariance, not on the number of cycles. Without observability the errors can add up without limit.", "quantifier": "all observable models of any size with positive definite Q and R, all positive semidefinite initial covariances, all rounding rules (a possibly different one at every call) with error at most tau, all control and measurement sequences, any number of cycles", "why_tests_cant": "a test runs finitely many cycles with one rounding rule, where slow accumulation cannot be told from a bounded error", "anchors": ["filterpy/kalman/kalman_filter.py: KalmanFilter.predict, KalmanFilter.update"]}
{"id": "C116", "title": "Exactly which gains make a g-h or g-h-k filter work", "statement": "A GHFilter converges to every straight line, from every start, if and only if 0 < g, 0 < h and 2g + h < 4; a GHKFilter converges to every parabola, from every start, if and only if g, h and k are positive, 2g + h < 4 and 2k < g(h + k). The time step does not matter. With such gains, measurement errors of at most eps never make position, rate (or acceleration) stray by more than a constant, depending on the gains and the time step only, times eps plus the error at the start.", "quantifier": "all gains, all time steps other than 0, all starts, lines and parabolas, all bounded disturbances, any number of steps", "why_tests_cant": "a test tries some gains for some steps; that every gain outside the region fails for some start and every gain inside works for all starts and all time needs a proof", "anchors": ["filterpy/gh/gh_filter.py: GHFilter.update, GHKFilter.update"]}
{"id": "C117", "title": "What the plotted covariance ellipses and surfaces mean", "statement": "plot_covariance(mean, cov, ...) draws one ellipse per number of deviations asked for (std, or else the quantiles of interval, or else the roots of variance), in order; the ellipse for d deviations is exactly the set of points at Mahalanobis distance d from the mean, and a Gaussian quantity with that mean and covariance lies inside it with probability exactly 1 - exp(-d^2/2). A call raises a ValueError exactly if not exactly one of cov and ellipse is given or if no size (std, interval or variance) is. plot_3d_covariance draws only points at Mahalanobis distance std and refuses a matrix with a negative eigenvalue. A user would also expect the ellipse for interval=p to contain the quantity with probability p, and the lines of show_semiaxis to be the semiaxes of an ellipse drawn.", "quantifier": "every mean, every positive definite covariance, every list of deviations, every grid size, every result of the SVD/eigenvalue routine meeting its contract", "why_tests_cant": "A test can compare a picture with a stored one; it cannot settle what set of points is drawn for every covariance or how much probability it contains.", "anchors": ["filterpy/stats/stats.py:plot_covariance", "filterpy/stats/stats.py:_std_tuple_of", "filterpy/stats/stats.py:covariance_ellipse", "filterpy/stats/stats.py:plot_3d_covariance", "filterpy/stats/stats.py:_eigsorted"]}
{"id": "C118", "title": "When the nonlinear filters cannot break down", "statement": "Take an UnscentedKalmanFilter, CubatureKalmanFilter or EnsembleKalmanFilter with positive definite P and R (semidefinite P and at least two members for the ensemble filter) and, for the first two, either a positive definite Q or predictions that are affine and invertible (then a singular Q such as that of Q_discrete_white_noise will do). Take any history of predict and update calls with at most one measurement after each predict, any number of missing measurements, and per-call fx, hx, dt and positive definite R. No call ever raises and P, P_prior and P_post stay positive definite (semidefinite for the ensemble), whatever nonlinear functions fx and hx are and whatever noise is drawn. For the unscented filter this needs sigma point weights that can never give a negative variance: for MerweScaledSigmaPoints exactly when alpha^2*kappa + n*beta >= 0 (so the usual alpha=0.001, beta=2, kappa=0 is safe although the centre weight is very negative), for JulierSigmaPoints exactly when kappa >= 0, for SimplexSigmaPoints always. Outside that range, for every state and covariance there are fx and Q for which predict raises LinAlgError. With any semidefinite Q a single unscented predict fails exactly when some direction is left undisturbed by Q and fx sends all sigma points to the same place in that direction.", "quantifier": "all dimensions, all functions fx and hx, all histories, all alpha, beta, kappa", "why_tests_cant": "The claim is about every nonlinear function and every history; a test tries a handful of smooth functions, for which even bad weights usually survive.", "anchors": ["filterpy/kalman/UKF.py:UnscentedKalmanFilter.predict", "filterpy/kalman/UKF.py:UnscentedKalmanFilter.update", "filterpy/kalman/sigma_points.py:MerweScaledSigmaPoints._compute_weights", "filterpy/kalman/sigma_points.py:JulierSigmaPoints._compute_weights", "filterpy/kalman/sigma_points.py:SimplexSigmaPoints._compute_weights", "filterpy/kalman/CubatureKalmanFilter.py:CubatureKalmanFilter.update", "filterpy/kalman/ensemble_kalman_filter.py:EnsembleKalmanFilter.update"]}
{"id": "C119", "title": "Exactly when a measurement is refused", "statement": "With symmetric positive semidefinite covariances (singular ones included), KalmanFilter.update, FadingKalmanFilter.update and ExtendedKalmanFilter.update raise LinAlgError exactly if some combination of the measured quantities is already known exactly (zero variance under P) and is measured without noise (zero variance under R); then x, P, x_post, P_post and z are as before the call, and otherwise the call succeeds. With a positive definite P only redundant noise-free sensors are refused. update_correlated is refused exactly if some combination of the measurements has an innovation uncorrelated with both state error and measurement error. rts_smoother (method and function) fails exactly if between two consecutive entries some direction of the predicted state is known exactly and not disturbed by the process noise; FixedLagSmoother.smooth likewise after its own prediction; multivariate_multiply exactly if both Gaussians are without uncertainty in a common direction. With positive definite measurement noise no history of KalmanFilter calls raises LinAlgError or divides by zero.", "quantifier": "all dimensions, all states, all measurements, all semidefinite covariances including singular ones, all measurement and residual functions, all lengths of the smoothed record and all histories", "why_tests_cant": "Whether an innovation covariance is singular depends on the interplay of P, H and R; tests use a few invertible ones and never the boundary between success and failure.", "anchors": ["filterpy/kalman/kalman_filter.py: KalmanFilter.update, update_correlated, update_sequential, rts_smoother; function rts_smoother", "filterpy/kalman/fading_memory.py: FadingKalmanFilter.update", "filterpy/kalman/EKF.py: ExtendedKalmanFilter.update", "filterpy/kalman/fixed_lag_smoother.py: FixedLagSmoother.smooth", "filterpy/stats/stats.py: multivariate_multiply"]}
{"id": "C120", "title": "Printing an object is harmless and truthful", "statement": "repr(obj) of KalmanFilter, ExtendedKalmanFilter, FadingKalmanFilter, UnscentedKalmanFilter and CubatureKalmanFilter raises exactly if reading obj.mahalanobis raises, and otherwise every labelled value in the text is that attribute of the object. Printing the object and reading log_likelihood, likelihood and mahalanobis, at any points of a history and any number of times, is never noticed: unless one of these readings itself raises, the history ends as it would have without them (normally or with the same exception), and no attribute other than the caches and no later reading differs. A KalmanFilter whose covariances are covariance matrices can always be printed. The texts of EnsembleKalmanFilter, InformationFilter, SquareRootKalmanFilter, IMMEstimator, GHFilter, GHKFilter, GHFilterOrder, HInfinityFilter, MMAEFilterBank, FixedLagSmoother, FadingMemoryFilter and LeastSquaresFilter show the attributes under their names. pretty_str(label, arr) is str(arr) with the label in front and the rows aligned, a column vector on one line, a list as its elements labelled label[0], label[1], ...; it raises only for a non-empty list with label None.", "quantifier": "all dimensions, all object states, all histories of calls with printing and reading interleaved anywhere, all nested lists of arrays", "why_tests_cant": "The caching properties make printing write to the object, so whether it can be noticed depends on every later call of the history; tests print a handful of objects and look at none of the text.", "anchors": ["filterpy/common/helpers.py:pretty_str", "filterpy/kalman/kalman_filter.py:KalmanFilter.__repr__", "filterpy/kalman/EKF.py:ExtendedKalmanFilter.__repr__", "filterpy/kalman/fading_memory.py:FadingKalmanFilter.__repr__", "filterpy/kalman/UKF.py:UnscentedKalmanFilter.__repr__", "filterpy/kalman/CubatureKalmanFilter.py:CubatureKalmanFilter.__repr__", "filterpy/kalman/ensemble_kalman_filter.py:EnsembleKalmanFilter.__repr__", "filterpy/kalman/information_filter.py:InformationFilter.__repr__", "filterpy/kalman/square_root.py:SquareRootKalmanFilter.__repr__", "filterpy/kalman/IMM.py:IMMEstimator.__repr__", "filterpy/kalman/mmae.py:MMAEFilterBank.__repr__", "filterpy/kalman/fixed_lag_smoother.py:FixedLagSmoother.__repr__", "filterpy/hinfinity/hinfinity_filter.py:HInfinityFilter.__repr__", "filterpy/gh/gh_filter.py:GHFilter.__repr__", "filterpy/gh/gh_filter.py:GHKFilter.__repr__", "filterpy/gh/gh_filter.py:GHFilterOrder.__repr__", "filterpy/memory/fading_memory.py:FadingMemoryFilter.__repr__", "filterpy/leastsq/least_squares.py:LeastSquaresFilter.__repr__"]}
{"id": "C121", "title": "Whole-number arrays behave like the same numbers as floats", "statement": "Passing integer arrays (np.array([0, 1]) instead of np.array([0., 1.])) as state, matrices, control inputs, measurements, probabilities or beliefs changes no result. For KalmanFilter: every history of calls without update_sequential ends the same (normally or with the same exception, with the same attributes) whatever the dtypes; from a state estimate of floats every history ends the same, except possibly the stored copy z. update_sequential raises TypeError exactly if x was set to integers and every call since then kept them (no measurement processed, all predictions with integer matrices) and the call would have worked with floats; x and P are then unchanged. SquareRootKalmanFilter and FixedLagSmoother likewise give the same from a float state (the former after a first prediction too, the latter also if the first call has no control input). rts_smoother, MMAEFilterBank, FadingMemoryFilter and discrete_bayes give the same for floats; FadingMemoryFilter also for order 0 and scalar starts; discrete_bayes.predict also for an integer belief whenever the exact result consists of whole numbers.", "quantifier": "all dimensions, all filter states, all histories of calls with arbitrary dtypes of the arrays of each call, all measurement sequences", "why_tests_cant": "numpy truncates on element assignment and refuses in-place addition to integer arrays, so the effect of a dtype set at the start depends on the whole history of calls; tests use float literals throughout.", "anchors": ["filterpy/kalman/kalman_filter.py: KalmanFilter.update_sequential, predict, update, rts_smoother", "filterpy/kalman/square_root.py: SquareRootKalmanFilter.update", "filterpy/kalman/fixed_lag_smoother.py: FixedLagSmoother.smooth", "filterpy/kalman/mmae.py: MMAEFilterBank.update", "filterpy/memory/fading_memory.py: FadingMemoryFilter", "filterpy/discrete_bayes/discrete_bayes.py: normalize, update, predict"]}
{"id": "C122", "title": "Missing measurements: exactly when the uncertainty stays bounded", "statement": "After a history of predict and update calls (update(None) for a missing measurement, any F, H, Q and R per call) the variances that KalmanFilter reports lie below one bound however uncertain the filter was before, if and only if the history reveals the state: every displacement of the initial state that none of the measurements actually taken depends on has vanished by the end. For cycles of a constant model this says that the measurements taken, without noise, determine where the model takes the state. Hence, with any pattern of missing measurements that leaves every L consecutive cycles revealing, one bound holds for all times from L on, all initial states and covariances and all data; an observable model recovers from an outage of any length within n measured cycles (n = dim_x); a covariance that prediction does not increase bounds everything reported, with no measurements at all. Measurements at regular intervals alone are not enough: a model that is observable can have a variance that grows without bound when every second measurement is missing.", "quantifier": "every model with positive definite R, every history of predict/update calls, every initial state and covariance, all data, every pattern of missing measurements and every time", "why_tests_cant": "Whether uncertainty stays bounded concerns infinitely many histories of unbounded length and arbitrarily large initial covariances.", "anchors": ["filterpy/kalman/kalman_filter.py:KalmanFilter.predict", "filterpy/kalman/kalman_filter.py:KalmanFilter.update"]}
{"id": "C123", "title": "What the plotted probability curves show", "statement": "plot_gaussian_pdf given a positive variance (or variance=None and a positive std) joins 1000 evenly spaced points of the density of that normal distribution between the limits given, and marks the mean if asked to; without limits the curve covers 99.8 percent of the probability and its middle point is at the mean and is the highest. plot_gaussian_cdf joins points whose heights are the probabilities of being at most there: they increase strictly within (0, 1) and, without limits, run from 0.001 to just below 0.999 and pass one half at the mean. plot_discrete_cdf(xs, ys) draws the running sums of ys over xs (or over 0, 1, ...); for probabilities they never decrease and end at 1; lists of different lengths are refused. Both or neither of variance and std, and a negative variance, raise a ValueError. A user would also expect that std can be given instead of variance, as documented, and that plot_gaussian draws what plot_gaussian_pdf draws.", "quantifier": "every mean, every positive deviation, all limits, all lists of probabilities, all combinations of the documented arguments", "why_tests_cant": "A test can look at a few pictures; which points are drawn, and that a function fails for every combination of its arguments, are statements about all inputs.", "anchors": ["filterpy/stats/stats.py:plot_gaussian_pdf", "filterpy/stats/stats.py:plot_gaussian_cdf", "filterpy/stats/stats.py:plot_discrete_cdf", "filterpy/stats/stats.py:plot_gaussian"]}
{"id": "C124", "title": "An exception can be caught and the call repeated", "statement": "If a call on a filter raises and the program catches the exception and goes on, the filter is as if the call had never been made: for KalmanFilter, ExtendedKalmanFilter, FadingKalmanFilter, CubatureKalmanFilter, SquareRootKalmanFilter, HInfinityFilter (predict, update), EnsembleKalmanFilter, GHFilter and GHKFilter, any program of calls and attribute assignments in which all exceptions are ignored ends with the same estimate, priors, posteriors and settings as the program without the calls that raised (which then raises nothing); only results describing the last attempted measurement (y, S, for some classes SI, K, sigmas_h, and the cached likelihoods) may differ. A KalmanFilter.update with a measurement after a failed call leaves exactly the object it would have left without it. The same holds for UnscentedKalmanFilter.update, FixedLagSmoother.smooth, and InformationFilter.update when it computes no log-likelihood or the measurement has one entry or as many as the state. For IMMEstimator and MMAEFilterBank the failing call leaves exactly this: the filters before the first one that raised have made their step, that one is as its own exception left it, the later ones and the bank's own estimate are untouched. It is false for: the banks (a repeated update counts the measurement twice in the first filters), UnscentedKalmanFilter.predict (x and P are already the predicted ones when redrawing the sigma points raises), InformationFilter.update in all other dimensions (every call raises after the measurement has been applied), and the setters InformationFilter.F and HInfinityFilter.V (the refused matrix is stored, its inverse is not).", "quantifier": "all filters of the classes named, all dimensions, all programs (lists of calls and assignments of any length, with any pattern of exceptions), all arguments", "why_tests_cant": "Crash points: the property is about every place at which a call can raise in every history; a test tries one failing call and looks at one or two attributes.", "anchors": ["filterpy/kalman/kalman_filter.py: KalmanFilter.predict, update, update_correlated, update_sequential", "filterpy/kalman/EKF.py: predict, update, predict_update", "filterpy/kalman/fading_memory.py: predict, update", "filterpy/kalman/UKF.py: predict, update", "filterpy/kalman/CubatureKalmanFilter.py", "filterpy/kalman/ensemble_kalman_filter.py", "filterpy/kalman/information_filter.py: update, F", "filterpy/kalman/square_root.py", "filterpy/hinfinity/hinfinity_filter.py", "filterpy/kalman/fixed_lag_smoother.py: smooth", "filterpy/kalman/IMM.py: predict, update", "filterpy/kalman/mmae.py: predict, update", "filterpy/gh/gh_filter.py: GHFilter.update, GHKFilter.update"]}
{"id": "C125", "title": "Exactly which models let the filter settle, with singular process noise", "statement": "For a KalmanFilter whose R is positive definite and whose process noise Q, possibly singular, reaches every direction of the state through F: a steady covariance exists if and only if everything the sensor never sees dies out by itself (with the factor alpha counted in); otherwise the reported covariance of every run exceeds every bound. If it exists it is unique and positive definite, and from every positive semidefinite start the reported covariance tends to it at an exponential rate and the gain to the steady gain; two filters that differ only in their initial state agree in the limit on all data; with the constant steady gain the error of a correctly modelled system has mean tending to zero and covariance tending to the steady P. After as many cycles as there are states the filter never claims more than a fixed certainty. Without noise in every direction there can be several steady covariances.", "quantifier": "all dimensions, F, H, positive semidefinite Q, positive definite R, alpha > 0 (>= 1 for the claims on states), initial states and positive semidefinite covariances, data sequences", "why_tests_cant": "statements about limits of infinite runs, and an if-and-only-if over all models", "anchors": [{"file": "filterpy/kalman/kalman_filter.py", "symbols": ["predict", "update", "predict_steadystate", "update_steadystate"]}]}
{"id": "C126", "title": "Filters built by kinematic_kf settle", "statement": "A filter built by kinematic_kf with Q from Q_discrete_white_noise or Q_continuous_white_noise for the same order, dt, number of coordinates and ordering (positive variance), and positive definite R, settles: it has exactly one steady covariance and gain, and P and K tend to them from every start. This holds whenever H is replaced by one from which every position can be computed, and for one coordinate with the H kinematic_kf puts in. It is false for two or more coordinates with the H kinematic_kf puts in: every row measures the sum of the positions, and the reported covariance grows without bound from every start.", "quantifier": "all numbers of coordinates and of measurements, orders 1-3, time steps, variances, both orderings, all R, starts and data", "why_tests_cant": "a limit of infinite runs, for a family of models of unbounded size", "anchors": [{"file": "filterpy/common/kinematic.py", "symbols": ["kinematic_kf", "kinematic_state_transition"]}, {"file": "filterpy/common/discretization.py", "symbols": ["Q_discrete_white_noise", "Q_continuous_white_noise"]}, {"file": "filterpy/kalman/kalman_filter.py", "symbols": ["predict", "update"]}]}
{"id": "C127", "title": "A missing measurement changes nothing but the bookkeeping, in every filter class", "statement": "For every filter class, calling update(None) where there is no measurement is the same as not making the call: for every history of predict, update and likelihood calls, deleting the calls update(None) gives the same exception at the same place, or the same final object, apart from z and the attributes that mirror the last update; and in the filters that take the inverse of the measurement noise update(None) leaves the same belief as a measurement with no information.", "quantifier": "all histories of calls, interleaved in any way, on every ExtendedKalmanFilter, FadingKalmanFilter, UnscentedKalmanFilter, CubatureKalmanFilter, EnsembleKalmanFilter, SquareRootKalmanFilter, InformationFilter and HInfinityFilter, of any dimensions and in any state", "why_tests_cant": "A test tries a missing measurement in one place of one run; what matters is that no history, with any number of missing measurements anywhere, is affected by them.", "anchors": ["filterpy/kalman/EKF.py: ExtendedKalmanFilter.update", "filterpy/kalman/fading_memory.py: FadingKalmanFilter.update", "filterpy/kalman/UKF.py: UnscentedKalmanFilter.update", "filterpy/kalman/CubatureKalmanFilter.py: CubatureKalmanFilter.update", "filterpy/kalman/ensemble_kalman_filter.py: EnsembleKalmanFilter.update", "filterpy/kalman/square_root.py: SquareRootKalmanFilter.update", "filterpy/kalman/information_filter.py: InformationFilter.update", "filterpy/hinfinity/hinfinity_filter.py: HInfinityFilter.update"]}
{"id": "C128", "title": "How fast a bank of filters changes its mind", "statement": "After any history, however long and one-sided, the probability with which an IMMEstimator enters the next measurement for mode j (cbar[j]) is at least the smallest transition probability eps into it, and one measurement that is r times as likely under mode j as under every other gives mu[j] >= eps r/(eps r + 1 - eps), with x within the complementary fraction of filter j's state. An MMAEFilterBank changes over from filter i to filter j exactly when the product of all likelihoods since the beginning favours j, and never gives probability back to a filter whose probability is zero.", "quantifier": "all banks of any filters with positive likelihoods, all transition matrices with positive entries, all initial mode probabilities, all histories of predict and update calls, all modes and all likelihood ratios", "why_tests_cant": "A test sees one manoeuvre after one quiet stretch; the guarantee must hold after every stretch, and the claim about MMAE is about all splits of all histories.", "anchors": ["filterpy/kalman/IMM.py: IMMEstimator.update, IMMEstimator._compute_mixing_probabilities, IMMEstimator._compute_state_estimate", "filterpy/kalman/mmae.py: MMAEFilterBank.update"]}
{"id": "C129", "title": "Units do not matter in the other filters and in banks", "statement": "Expressing the state of a FadingKalmanFilter, ExtendedKalmanFilter, HInfinityFilter, EnsembleKalmanFilter or InformationFilter, and everything given to it (matrices, noises, measurements, user functions, random draws), in other units or coordinates x' = T x, z' = U z changes nothing but the units of what it reports: after any history of calls the estimates, covariances, gains and residuals are the translated ones, the Mahalanobis distance is the same, log-likelihoods are shifted by -log|det U|, and the same call raises the same exception. The probabilities of an IMMEstimator or MMAEFilterBank of KalmanFilters and their estimates do not depend on the units either. (Violated: with a floating-point exponential the likelihoods of many sensors underflow in one system of units and not in the other, and the bank then learns nothing; the covariance of MMAEFilterBank depends on the units; so does the state of an InformationFilter after its information matrix became singular.)", "quantifier": "all invertible T and U, all filters, user functions, draws and call histories; for banks all numbers of filters and all histories whose updates carry a measurement; for the information filter all histories that keep the information matrix invertible", "why_tests_cant": "a unit test fixes one system of units; that nothing depends on them is a statement about pairs of runs in all of them", "anchors": ["filterpy/kalman/fading_memory.py: FadingKalmanFilter", "filterpy/kalman/EKF.py: ExtendedKalmanFilter", "filterpy/hinfinity/hinfinity_filter.py: HInfinityFilter", "filterpy/kalman/ensemble_kalman_filter.py: EnsembleKalmanFilter", "filterpy/kalman/information_filter.py: InformationFilter", "filterpy/kalman/IMM.py: IMMEstimator", "filterpy/kalman/mmae.py: MMAEFilterBank"]}
{"id": "C130", "title": "Scales do not matter in the unscented and cubature filters, axes do", "statement": "Measure every state variable on another (positive) scale and the measurements in any other linear coordinates, translating x, P, Q, R, the functions fx, hx, the mean, residual, subtract and state_add functions, and every call accordingly. Then UnscentedKalmanFilter (with Merwe, Julier or simplex points) and CubatureKalmanFilter report the same estimates, covariances, gains and Mahalanobis distances in the new scales after any history of calls, raise the same exceptions at the same calls, and rts_smoother does so too. For turned axes this fails: the estimate of a nonlinear filter depends on the directions of the coordinate axes.", "quantifier": "all scales, all invertible changes of the measured quantities, all functions, all sigma point parameters, all histories of calls, every Cholesky routine meeting its contract", "why_tests_cant": "a test compares two unit systems on a few runs; the sigma points go through a Cholesky factorisation, whose behaviour under scaling is a fact about all matrices", "anchors": ["filterpy/kalman/UKF.py: UnscentedKalmanFilter.predict, update, rts_smoother, cross_variance", "filterpy/kalman/sigma_points.py: MerweScaledSigmaPoints, JulierSigmaPoints, SimplexSigmaPoints", "filterpy/kalman/unscented_transform.py: unscented_transform", "filterpy/kalman/CubatureKalmanFilter.py: CubatureKalmanFilter, ckf_transform, spherical_radial_sigmas"]}
{"id": "C131", "title": "What sigma_points accepts", "statement": "sigma_points(x, P) of the Merwe, Julier and simplex objects gives the same points for every way of writing the state (number when n = 1, list, 1-D array, single row; for the simplex also a column or any other arrangement of n entries) and the covariance (number c for c I, or n by n array). Every other pair of arguments raises an exception, a wrong number of state entries always ValueError; nothing is silently broadcast into wrong points.", "quantifier": "all dimensions n > 0, all numbers, lists and arrays of up to two axes and any shape as arguments, all parameters, every square root routine", "why_tests_cant": "numpy broadcasting makes many wrong shapes compute something; tests try a few shapes, the claim is about all of them", "anchors": ["filterpy/kalman/sigma_points.py: MerweScaledSigmaPoints.sigma_points, JulierSigmaPoints.sigma_points, SimplexSigmaPoints.sigma_points"]}
{"id": "C132", "title": "What a small ensemble cannot learn", "statement": "update(z) of an EnsembleKalmanFilter moves every ensemble member and the estimate x only by combinations of the deviations of the members from their mean. If all members agree on a quantity a.x, no sequence of measurements changes its estimate or the covariance reported for it; after predict() the reported variance of a.x is zero exactly if the members agree on it. With no more members than state variables such a quantity exists after every predict(), whatever Q is: the filter takes it for certain and ignores all measurements of it until the next predict(). The order of the members never matters.", "quantifier": "all ensembles of two or more members, all functions fx and hx, all noises, draws and measurements, all histories of calls", "why_tests_cant": "a test sees one ensemble and one draw; that no measurement function, noise or draw can leave the span is a statement about all of them", "anchors": ["filterpy/kalman/ensemble_kalman_filter.py: EnsembleKalmanFilter.predict, update"]}
{"id": "C133", "title": "A LeastSquaresFilter is the Kalman filter of a polynomial", "statement": "A KalmanFilter for a polynomial signal (the matrix of kinematic_state_transition(order, dt), a position sensor of variance R, Q = 0, no fading; kinematic_kf(dim=1, order, dt) with Q and R set builds it in either ordering) fits polynomials. After any number of predict()/update(z) cycles its estimate is the unique polynomial that minimises the squared misfit divided by R plus the squared distance, in units of the initial covariance, between the polynomial at the start and the initial state; any other polynomial costs (c - x)' P^-1 (c - x) more. When the initial covariance is made larger and larger, and there are more samples than coefficients, the estimate tends to the least squares polynomial and P to R times the inverse of the normal matrix, for every order and every initial state. For orders 0 to 2 this limit is what LeastSquaresFilter reports from the same samples, and with R = noise_sigma^2 its errors() are the limits of sqrt(diag P). Conversely a LeastSquaresFilter can be handed over to a Kalman filter after any number of samples that determine the fit: with x the fit and P = R times the inverse normal matrix the two objects report the same estimate and the same standard deviations for ever after.", "quantifier": "every order (limit and penalised fit), orders 0-2 for LeastSquaresFilter; every dt, R, initial state and positive definite covariance, every sample sequence and number of samples", "why_tests_cant": "Two independently written recursions (closed-form gains in LeastSquaresFilter, matrix Riccati recursion in KalmanFilter) must agree for all data, all lengths and in a limit; a test compares a few runs with one large P.", "anchors": ["filterpy/leastsq/least_squares.py: LeastSquaresFilter", "filterpy/kalman/kalman_filter.py: KalmanFilter.predict, KalmanFilter.update", "filterpy/common/kinematic.py: kinematic_state_transition, kinematic_kf"]}
{"id": "C134", "title": "Repeated readings may be combined first", "statement": "Several readings of the same quantity that arrive at the same time, each with its own covariance, may be given to KalmanFilter.update one after the other or combined first: one update with their average weighted by the inverse covariances and with the combined covariance (sum of the inverses, inverted) leaves the same x and P. For k readings of one sensor this is the plain average with R/k; for two readings it is what stats.multivariate_multiply returns. The product of the likelihoods the filter reports for the readings equals the likelihood it reports for the combined reading times a positive number that depends on the readings only, not on the filter; hence an MMAEFilterBank of Kalman filters ends with the same mode probabilities, estimate and covariance either way.", "quantifier": "every filter with positive definite P, every non-empty list of readings with positive definite covariances, every measurement matrix override, every bank of such filters and every distribution over them", "why_tests_cant": "The claim is an identity between histories of different length with arbitrarily many readings and sizes; tests compare one pair of runs.", "anchors": ["filterpy/kalman/kalman_filter.py: KalmanFilter.update, likelihood", "filterpy/stats/stats.py: multivariate_multiply", "filterpy/kalman/mmae.py: MMAEFilterBank.update"]}
{"id": "C135", "title": "Numbers, 1-D arrays and columns in the module-level functions", "statement": "kalman.predict, kalman.update and their steady-state versions may be given a state as a 1-D array or as a column and a measurement as a number, vector, row or column: the numbers computed are the same and the state comes back in the form in which it was passed. A problem with one variable may be written with plain numbers, arrays of one value, one-by-one matrices or any mixture: a program of any length that passes x and P from call to call computes the textbook filter for one variable, and plain numpy numbers stay numbers. Arrays of a wrong shape raise ValueError.", "quantifier": "all sizes, all values, all forms of the arguments and their mixtures, all sequences of calls", "why_tests_cant": "The outcome depends on run-time shapes through numpy's rules for dot, broadcasting and inversion and through two bare except clauses; tests fix one shape each, and the mixtures multiply.", "anchors": ["filterpy/kalman/kalman_filter.py:update", "filterpy/kalman/kalman_filter.py:predict", "filterpy/kalman/kalman_filter.py:update_steadystate", "filterpy/kalman/kalman_filter.py:predict_steadystate", "filterpy/common/helpers.py:reshape_z"]}
{"id": "C136", "title": "What a measurement is worth", "statement": "With a regular covariance and regular measurement noise, the call update(z, R, H) reduces the entropy of the estimate by exactly ½ log(det S / det R), where S is kf.S after the call. This worth is never negative, is zero exactly when H = 0, and does not depend on the value measured. Worths of successive updates add up to the total reduction, and the total does not depend on the order of simultaneous measurements. A surer filter learns less from the same measurement, so several measurements are together worth at most the sum of what each would have been worth alone. The total is at most n/2·log(1 + Σ tr(R⁻¹HPHᵀ)/n), so of N measurements with signal-to-noise ratio at most c, at most n·log(1+Nc/n)/(2w) are worth w or more when it is their turn. predict changes the entropy by at least log|det F| + n/2·log α², and by exactly this much without process noise.", "quantifier": "all state and measurement sizes, all positive definite P and R (own or overridden), all H, F, alpha > 0, all positive semidefinite Q, all measured values, all finite sequences of updates and all their orders", "why_tests_cant": "The claims compare determinants of arbitrary covariances and count measurements in sequences of any length; a test can only look at a few matrices and a few sequences.", "anchors": ["filterpy/kalman/kalman_filter.py: KalmanFilter.update, KalmanFilter.predict"]}
{"id": "C137", "title": "The other KalmanFilter methods on 1-D and column states", "statement": "Whether the state of a KalmanFilter is a 1-D array or a column does not matter to update_correlated, get_prediction, get_update, residual_of, measurement_of_state and mahalanobis: they accept the measurement as a number (one sensor), 1-D array, row or column, give the values of the mathematical filter, and keep the form of the state. get_prediction and get_update return what predict and update with the same arguments would store, or raise the same exception, whatever the shapes. For a column state update_sequential(start, z_i, R_i, H_i) processes exactly the sensors start … start+len-1, and a range past the last sensor is refused without effect. (Refuted in part: update_sequential never works with a 1-D state and leaves y and K overwritten; one value past the last sensor with its own R_i and H_i is accepted silently; update_correlated with an explicit H turns a column state into a matrix if z is 1-D.)", "quantifier": "all state and measurement sizes, all values of all attributes and arguments, 1-D and column states, all forms of measurements; for the previews all shapes of all arrays, matching or not", "why_tests_cant": "The outcome depends on numpy's broadcasting, reshaping and slicing rules for every combination of array shapes; tests use one shape, usually the column.", "anchors": ["filterpy/kalman/kalman_filter.py: KalmanFilter.update_correlated, update_sequential, get_prediction, get_update, residual_of, measurement_of_state, mahalanobis"]}
{"id": "C138", "title": "1-D and column states in the other filters", "statement": "Whether the state of a FadingKalmanFilter, ExtendedKalmanFilter, HInfinityFilter, SquareRootKalmanFilter, InformationFilter or FixedLagSmoother is a 1-D array or a column does not matter: predict, update (or smooth) accept measurements and controls of the same form, keep the form of the state, and compute the values of the mathematical filter, or raise the same exception. The state keeps its form only if the measurement has the form of the state or is a single number or one-entry array. (Refuted in part: a 1-D measurement turns the column state of a new filter into an n by m matrix without any exception; the SquareRootKalmanFilter raises ValueError after overwriting gain and residual; predict() with a control matrix of several columns turns the state into a matrix; FadingKalmanFilter.batch_filter never works with 1-D states; InformationFilter.update can raise after the state has already changed.)", "quantifier": "all state, measurement and control sizes, all values of all attributes and arguments, 1-D and column states, measurements of any shape", "why_tests_cant": "The outcome depends on numpy's broadcasting rules for every combination of array shapes; a wrong combination does not raise but silently produces a matrix where the state should be.", "anchors": ["filterpy/kalman/fading_memory.py: FadingKalmanFilter.update, predict, batch_filter", "filterpy/kalman/EKF.py: ExtendedKalmanFilter.update, predict", "filterpy/hinfinity/hinfinity_filter.py: HInfinityFilter.update, predict", "filterpy/kalman/square_root.py: SquareRootKalmanFilter.update, predict", "filterpy/kalman/information_filter.py: InformationFilter.update, predict", "filterpy/kalman/fixed_lag_smoother.py: FixedLagSmoother.smooth"]}
{"id": "C139", "title": "The cubature filter is the unscented filter with kappa = 0, except for redrawing its points", "statement": "JulierSigmaPoints(n, kappa=0) and MerweScaledSigmaPoints(n, alpha=1, beta=0, kappa=0) give the points of the cubature rule plus a centre of weight zero. A CubatureKalmanFilter and an UnscentedKalmanFilter with these points that hold the same numbers reach the same x and P in predict, for every fx, and the same x, P, K, y, S and likelihoods in update as long as they hold the same points, for every hx, or raise the same exception. The only difference is that the unscented filter draws new points from (x, P) after predict: with the line ckf.sigmas_f = spherical_radial_sigmas(ckf.x, ckf.P) after every predict the two filters agree over every history, and the cubature filter becomes exact on linear systems with process noise. Without that line the estimates differ.", "quantifier": "all dimensions, all process and measurement functions, all noise matrices, all histories of predict and update (with missing measurements and R overrides), every Cholesky routine meeting its contract", "why_tests_cant": "The two classes share no code; a test compares them on a few functions with tolerances, and the difference caused by stale points is invisible without process noise.", "anchors": ["filterpy/kalman/CubatureKalmanFilter.py: spherical_radial_sigmas, ckf_transform, CubatureKalmanFilter.predict, update", "filterpy/kalman/UKF.py: UnscentedKalmanFilter.predict, update", "filterpy/kalman/sigma_points.py: JulierSigmaPoints, MerweScaledSigmaPoints"]}
{"id": "C140", "title": "rts_smoother returns the exact distribution of every state given all the measurements", "statement": "If the system moves and is measured as the filter believes and the initial state and all noises are jointly normal, then for each time step the x and P returned by rts_smoother after batch_filter are the mean and the covariance of the conditional distribution of the true state given all the measurements of the batch, and that distribution is normal; no other way of computing a state from all the measurements, linear or not, has a smaller mean penalty for any symmetric convex penalty. The last x and P of batch_filter are the mean and covariance of the conditional distribution of the last state. The covariances P, Q and R may be singular (the process noise models of filterpy.common are), measurements may be missing, and F, Q, H, R may change at every step.", "quantifier": "all dimensions, all filters without control input and without fading memory, all batch lengths, all jointly normal initial states and noises on any probability space, all patterns of missing measurements, every inverse routine that returns the inverse or a pseudo-inverse, all penalties", "why_tests_cant": "A test sees one realisation of the noise; a conditional distribution is a statement about every event that the measurements can decide.", "anchors": ["filterpy/kalman/kalman_filter.py: KalmanFilter.batch_filter, rts_smoother, predict, update"]}
{"id": "C141", "title": "With normal noise NEES and mahalanobis have chi-square distributions, independently from call to call", "statement": "If the initial state and all noises are jointly normal and the filter was told the true covariances, then every value returned by NEES has the chi-square distribution with dim_x degrees of freedom, and the squares of the mahalanobis values read after the measurements of a run are independent of each other and each chi-square with dim_z degrees of freedom. Hence their sum is chi-square with (number of measurements) * dim_z degrees of freedom, and a gate at distance t lets all measurements of a run through with probability F(t^2) to the power of the number of measurements, where F is the distribution function of one of them (1 - exp(-t^2/2) for two measured numbers).", "quantifier": "all dimensions, all filters without fading memory, all sequences of predict, update and update(None) calls with any per-call arguments, all jointly normal initial states and noises on any probability space, all gates", "why_tests_cant": "The tables used to judge a filter (chi-square bounds on NEES and on normalised innovations) presuppose a distribution and independence over a whole run; sampled runs can only be compatible with them.", "anchors": ["filterpy/stats/stats.py: NEES", "filterpy/kalman/kalman_filter.py: KalmanFilter.mahalanobis, predict, update"]}
{"id": "C142", "title": "Disturbances of any kind enter the estimate boundedly and leave it exponentially fast", "statement": "For a KalmanFilter with constant matrices, R positive definite, process noise Q that reaches every direction of the state and a sensor from which nothing lasting is hidden, there are C and sigma < 1, the same for all initial states and all data, such that after k cycles of predict(u)/update(z) the squared error of kf.x is at most C times what is left of the squared initial error and of the squared disturbances (of the state and of the measurements) when each cycle keeps the part sigma. The disturbances may be anything: biased, correlated, malicious, far larger than Q and R say. So bounded disturbances give bounded errors; replacing one measurement by any other changes the estimate k cycles later by at most a constant times sigma^(k/2) times the change; and two runs on different data differ by what is left of the differences of the data. The same holds for predict_steadystate/update_steadystate at the steady gain. No such bound exists if something lasting is hidden from the sensor.", "quantifier": "all dimensions, models, initial states and covariances (singular ones included), all control sequences, all disturbance sequences and all data of any length", "why_tests_cant": "The claim is uniform over infinitely many adversarial data sequences of any length; a test tries a few.", "anchors": ["filterpy/kalman/kalman_filter.py: KalmanFilter.predict, update, predict_steadystate, update_steadystate"]}
{"id": "C143", "title": "Forms of state and measurement in the sigma point and ensemble filters", "statement": "UnscentedKalmanFilter, CubatureKalmanFilter and EnsembleKalmanFilter compute the same estimates whether a measurement is given as a number (one sensor), a 1-D array or a column, and calls that cannot be carried out raise an exception. As coded: UnscentedKalmanFilter accepts exactly 1-D measurements (or one number for all sensors) and keeps a 1-D state through any sequence of calls; a column measurement is accepted whenever it can be broadcast, turns the state into a matrix and makes the next predict raise ValueError. CubatureKalmanFilter.predict accepts a state of any shape with dim_x entries and leaves a column, after which exactly columns (or one number) are fit measurements; a 1-D measurement, or any measurement before the first predict, turns the state into a matrix. EnsembleKalmanFilter accepts exactly 1-D arrays of dim_z values: numbers raise TypeError, columns raise, and with one sensor an empty array is silently accepted.", "quantifier": "all dimensions, sigma point objects (Merwe, Julier, simplex), square roots, models fx and hx, ensembles and draws, all arrays of at most two axes as measurement, all sequences of calls", "why_tests_cant": "Shape errors surface one call later or never, and depend on coincidences of dimensions (dim_x = dim_z, dim_z = 1) that a test fixes.", "anchors": ["filterpy/kalman/UKF.py: UnscentedKalmanFilter.predict, update, cross_variance", "filterpy/kalman/CubatureKalmanFilter.py: CubatureKalmanFilter.predict, update, spherical_radial_sigmas", "filterpy/kalman/ensemble_kalman_filter.py: EnsembleKalmanFilter.update", "filterpy/kalman/sigma_points.py: sigma_points"]}
{"id": "C144", "title": "Which filters can be put into a bank", "statement": "IMMEstimator and MMAEFilterBank, documented for any Kalman-type filter class, work with every filter class of the package: a bank of linear filters of another class reports, after every history, the probabilities and estimates of the bank of the corresponding KalmanFilters. As coded this holds for IMMEstimator with UnscentedKalmanFilters (predict's u is the time step), with CubatureKalmanFilters without process noise, and with FadingKalmanFilters if predict(0) is called; and for MMAEFilterBank with UnscentedKalmanFilters if no H is given and the time step is passed as u. With every other class, and in every other call, a call raises an exception or silently does something else.", "quantifier": "all dimensions, numbers of filters, sigma point objects, linear models with any step-dependent transition matrix, positive definite noise, transition matrices of the modes, all histories in which each measurement follows a prediction (all histories for FadingKalmanFilter)", "why_tests_cant": "The banks call predict(u), update(z, R, H) and likelihood positionally on objects of unknown classes; tests use KalmanFilter only. What a positional argument means differs from class to class, and a wrong meaning (a zero time step, an old likelihood) raises nothing.", "anchors": ["filterpy/kalman/IMM.py: IMMEstimator.predict, update", "filterpy/kalman/mmae.py: MMAEFilterBank.predict, update", "filterpy/kalman/UKF.py: UnscentedKalmanFilter.predict, update, likelihood", "filterpy/kalman/CubatureKalmanFilter.py: CubatureKalmanFilter.predict, update", "filterpy/kalman/fading_memory.py: FadingKalmanFilter.predict, update", "filterpy/kalman/EKF.py: ExtendedKalmanFilter.update", "filterpy/kalman/information_filter.py: InformationFilter.P", "filterpy/kalman/square_root.py: SquareRootKalmanFilter", "filterpy/kalman/ensemble_kalman_filter.py: EnsembleKalmanFilter.predict, update", "filterpy/hinfinity/hinfinity_filter.py: HInfinityFilter.predict, update"]}
{"id": "C145", "title": "Nearby inputs give nearby estimates", "statement": "If a sequence of calls on a KalmanFilter (predict, update, update(None), update_correlated, update_sequential, assignments to alpha, with any overrides) succeeds, every sequence of calls that differs little enough, on a filter that differs little enough, succeeds as well, and its estimates differ arbitrarily little: the state and covariance, prior and posterior, depend continuously on the initial estimate, the model, the noises, the controls and the measurements. A measurement whose noise grows without bound has, in the limit, the effect of update(None), whatever it reads; one whose noise tends to zero has, in the limit, the effect of a perfect measurement where that is possible. Residual, gain and log-likelihood, the smoothed values of rts_smoother, and the probabilities and estimates of an IMMEstimator or MMAEFilterBank of Kalman filters depend continuously on their inputs in the same way. The same holds for whole histories of an ExtendedKalmanFilter, an UnscentedKalmanFilter (with any of the library's sigma points) and a CubatureKalmanFilter whose user-supplied functions are continuous, of a FadingKalmanFilter and of an HInfinityFilter. It also holds for an EnsembleKalmanFilter whose random draws are close, for rts_smoother of an UnscentedKalmanFilter, and for the beliefs of the discrete Bayes filter after any history of predictions and updates (nearby priors, kernels and likelihoods).", "quantifier": "all dimensions, all successful histories of any length, all families of filters and arguments converging along any filter (sequences, neighbourhoods of a point), all numbers of models in a bank", "why_tests_cant": "A jump (a gate, a clamp, a threshold, a rounded intermediate value) may sit anywhere in an uncountable set of inputs; tests see points.", "anchors": ["filterpy/kalman/kalman_filter.py: KalmanFilter.predict, update, update_correlated, update_sequential, alpha, log_likelihood, rts_smoother", "filterpy/kalman/IMM.py: IMMEstimator.predict, update", "filterpy/kalman/mmae.py: MMAEFilterBank.predict, update", "filterpy/kalman/EKF.py: ExtendedKalmanFilter.predict, update, predict_update", "filterpy/kalman/UKF.py: UnscentedKalmanFilter.predict, update", "filterpy/kalman/CubatureKalmanFilter.py: CubatureKalmanFilter.predict, update", "filterpy/kalman/fading_memory.py: FadingKalmanFilter.predict, update", "filterpy/hinfinity/hinfinity_filter.py: HInfinityFilter.predict, update, V", "filterpy/kalman/ensemble_kalman_filter.py: EnsembleKalmanFilter.predict, EnsembleKalmanFilter.update", "filterpy/kalman/UKF.py: UnscentedKalmanFilter.rts_smoother", "filterpy/discrete_bayes/discrete_bayes.py: predict, update"]}
{"id": "C146", "title": "Rounding errors in the g-h, fading-memory and least-squares filters", "statement": "If every update of a GHFilter or GHKFilter stores its estimates with a rounding error of at most tau, and the later updates compute with these, then for any measurements and however long the filter runs its estimates differ from the exact ones by at most a constant times tau, exactly for the gains for which the filter works (C116): 0 < g, 0 < h, 2g + h < 4, and for the GHKFilter also 0 < k and 2k < g(h + k). A FadingMemoryFilter of any order does so exactly when |beta| < 1. A LeastSquaresFilter does so as well.", "quantifier": "all gains, time steps, orders, all rounding functions (which may depend on the step and the whole object), all starting states, all sequences of measurements of any length", "why_tests_cant": "Floating-point errors accumulate over runs of any length, with every possible sequence of roundings; a finite test sees one sequence and stops before the drift is visible.", "anchors": ["filterpy/gh/gh_filter.py: GHFilter.update, GHKFilter.update", "filterpy/memory/fading_memory.py: FadingMemoryFilter.update", "filterpy/leastsq/least_squares.py: LeastSquaresFilter.update"]}
{"id": "C147", "title": "Nearby inputs give nearby estimates in the information filter", "statement": "If a sequence of calls on an InformationFilter (predict, update, update(None), assignments to F) succeeds, every sequence of calls that differs little enough, on a filter that differs little enough, succeeds as well, and its state and information matrix, prior and posterior, differ arbitrarily little.", "quantifier": "all dimensions, all successful histories of any length, all families of filters and arguments converging along any filter (sequences, neighbourhoods of a point), with and without compute_log_likelihood", "why_tests_cant": "A jump may sit anywhere in an uncountable set of inputs; tests see points.", "anchors": ["filterpy/kalman/information_filter.py: InformationFilter.predict, update, F"]}
{"id": "C148", "title": "Reading a Saver leaves it as it is", "statement": "Looking at a Saver (saver[k], saver.k, saver.keys, len(saver), repr(saver)), at any point of its history, changes nothing that is recorded now or later: the histories, the number of saves, the attributes and the outcome of to_array and flatten are as if nothing had been read. A key that was never recorded cannot be read.", "quantifier": "all sequences of save, item assignment, to_array, flatten and readings, all recorded arrays, all keys", "why_tests_cant": "The readings may be interleaved with the calls in infinitely many ways.", "anchors": ["filterpy/common/helpers.py: Saver.__getitem__, __setitem__, keys, save, to_array, flatten, __repr__"]}
{"id": "C149", "title": "Error bars and ellipses cover the truth as often as they say, whatever was measured", "statement": "With a correct linear model and normal noise, the error of kf.x is normal with covariance kf.P and independent of all the measurements: an interval of t reported deviations sqrt(w'Pw) around a combination w'x covers the true value with exactly the normal probability of t deviations, the ellipsoid of kf.P with the chi-square probability, and the ellipse that plot_covariance(kf.x, kf.P, std=t) draws with probability 1-exp(-t^2/2); and that also holds among only those runs whose measurements have any given property, such as surprising ones. The same holds at every time for the states and covariances that batch_filter followed by rts_smoother returns.", "quantifier": "all dimensions, all plans of predict, update and update(None) calls with any matrices, all directions w, all t, all measurable sets of measurement histories; singular initial covariances allowed", "why_tests_cant": "A coverage is a probability over all noises, and the claim is conditional on every possible measurement history; a simulation estimates one number with error.", "anchors": ["filterpy/kalman/kalman_filter.py: KalmanFilter.predict, update, P, x, batch_filter, rts_smoother", "filterpy/stats/stats.py: plot_covariance, covariance_ellipse"]}
{"id": "C150", "title": "The numbering of ensemble members and sigma points is irrelevant", "statement": "The estimates do not depend on which ensemble member or sigma point comes first. If the members of an EnsembleKalmanFilter, and the random draws made for them, are numbered differently, every sequence of predict and update calls raises the same exceptions and gives the same x, P, priors, posteriors, K, S and SI, and leaves the same members in the new order. If the sigma point object of an UnscentedKalmanFilter returns the same points with the same weights in another order, every sequence of calls gives the same estimates and reports, and so does rts_smoother, provided user-supplied functions for weighted means do not depend on the order themselves.", "quantifier": "all permutations, all ensemble sizes and dimensions, all process and measurement functions, all sigma point objects and weights, all residual functions, all histories of calls including failing ones", "why_tests_cant": "A test uses one order. A slip that treats one member or point specially, such as a wrong range in a loop, a misaligned weight or a pair of sums running over different orders, shows up only for particular ensembles.", "anchors": ["filterpy/kalman/ensemble_kalman_filter.py: EnsembleKalmanFilter.predict, EnsembleKalmanFilter.update", "filterpy/kalman/UKF.py: UnscentedKalmanFilter.predict, UnscentedKalmanFilter.update, UnscentedKalmanFilter.cross_variance, UnscentedKalmanFilter.rts_smoother", "filterpy/kalman/unscented_transform.py: unscented_transform"]}
{"id": "C151", "title": "A ring has no special cell and a corridor no special direction", "statement": "Counting the cells of a ring (mode 'wrap') from another one, in the prior and in every likelihood, gives after any history of predict and update the same beliefs counted that way; offsets matter only up to whole turns; two moves with their own kernels may be made in either order. Exchanging left and right in everything the user supplies (opposite offsets; prior, likelihoods and kernels read backwards) gives the same beliefs read backwards after any history in any mode, as long as kernels have an odd number of taps. With an even number of taps this fails, because such a kernel has no middle tap; on a ring it holds again with the offset corrected by one.", "quantifier": "all grid sizes, priors, likelihoods, kernels, offsets, histories of any length, histories in which an update fails included", "why_tests_cant": "A wrong sign of an offset, a kernel applied the wrong way round, or a cell treated specially at the seam of the ring is invisible with symmetric kernels and priors in the middle, which is what tests use.", "anchors": ["filterpy/discrete_bayes/discrete_bayes.py: predict, update, normalize"]}
{"id": "C152", "title": "No estimate depends on later measurements", "statement": "The batch_filter methods of KalmanFilter, FadingKalmanFilter, HInfinityFilter, UnscentedKalmanFilter and GHFilter and the module-level batch_filter report for the first k measurements of a recording exactly what they report when the recording ends after those k measurements, and a shortened recording is never refused when the whole one is accepted. The fixed-lag smoother looks ahead fewer than N steps: the smoothed state of step j is not changed by any call of smooth after that for step j+N-1 (step j if N = 0), and the smoothed state of step j and all filtered states returned by smooth_batch do not depend on measurements after that step.", "quantifier": "all filters, all lists of measurements (with missing ones where the method allows them) and all continuations of them, all optional per-step arguments, both orders of predict and update, all lags and all numbers of later calls", "why_tests_cant": "A test compares finitely many recordings; that nothing leaks backwards from the future has to hold for every recording, every continuation and every length.", "anchors": ["filterpy/kalman/kalman_filter.py: KalmanFilter.batch_filter, batch_filter", "filterpy/kalman/fading_memory.py: FadingKalmanFilter.batch_filter", "filterpy/hinfinity/hinfinity_filter.py: HInfinityFilter.batch_filter", "filterpy/kalman/UKF.py: UnscentedKalmanFilter.batch_filter", "filterpy/gh/gh_filter.py: GHFilter.batch_filter", "filterpy/kalman/fixed_lag_smoother.py: FixedLagSmoother.smooth, smooth_batch"]}
{"id": "C153", "title": "A recording may be processed in pieces", "statement": "Calling batch_filter of KalmanFilter, FadingKalmanFilter or HInfinityFilter on the first part of a recording and then, on the same object, on the rest (with the rest of the optional per-step lists) gives the same estimates, the same final object and the same exception as one call on the whole recording. The same holds for UnscentedKalmanFilter.batch_filter as long as the second part does not begin with a missing measurement, and for the module-level batch_filter if the second call starts with the last estimate of the first. GHFilter.batch_filter and FixedLagSmoother.smooth_batch leave nothing in the object, so a second call starts again from the initial state.", "quantifier": "all filters, all recordings (with missing measurements), all places to cut them, all optional per-step lists, both orders of predict and update", "why_tests_cant": "That nothing is lost or counted twice at a cut has to hold for every recording and every cut; a test tries a few.", "anchors": ["filterpy/kalman/kalman_filter.py: KalmanFilter.batch_filter, batch_filter", "filterpy/kalman/fading_memory.py: FadingKalmanFilter.batch_filter", "filterpy/hinfinity/hinfinity_filter.py: HInfinityFilter.batch_filter", "filterpy/kalman/UKF.py: UnscentedKalmanFilter.batch_filter", "filterpy/gh/gh_filter.py: GHFilter.batch_filter", "filterpy/kalman/fixed_lag_smoother.py: FixedLagSmoother.smooth_batch"]}
{"id": "C154", "title": "What must be stored to resume a filter", "statement": "A filter that is stopped and later rebuilt from its estimate (x and P, or the square root or inverse of P) and its settings goes on exactly as if it had never stopped: the same estimates and the same exceptions for every later sequence of predict and update calls, whatever the new object holds in its other attributes (residuals, gains, priors, cached likelihoods). This holds for KalmanFilter, FadingKalmanFilter, HInfinityFilter, SquareRootKalmanFilter, ExtendedKalmanFilter, GHFilter, GHKFilter, GHFilterOrder and FadingMemoryFilter, and for IMMEstimator and MMAEFilterBank with their probabilities if it holds for their filters. In addition the gain K must be stored for steady-state operation, the ensemble for EnsembleKalmanFilter, the smoothed states and their number for FixedLagSmoother, the number of measurements for LeastSquaresFilter, the private flag _no_information for InformationFilter, and the innovation covariance S for a KalmanFilter in a bank, where a missing measurement is rated with the S of an earlier step. UnscentedKalmanFilter and CubatureKalmanFilter can be resumed from x and P only before a predict; between predict and update the propagated sigma points are needed too, and without them an unscented filter silently ignores the measurement.", "quantifier": "all filters, all values of the attributes not stored, all later sequences of predict and update calls with all optional arguments, including missing measurements and calls that raise", "why_tests_cant": "Whether some forgotten attribute influences a later estimate must be known for every state and every later sequence of calls; a test compares a few runs.", "anchors": ["filterpy/kalman/kalman_filter.py: KalmanFilter", "filterpy/kalman/fading_memory.py: FadingKalmanFilter", "filterpy/hinfinity/hinfinity_filter.py: HInfinityFilter", "filterpy/kalman/square_root.py: SquareRootKalmanFilter", "filterpy/kalman/EKF.py: ExtendedKalmanFilter", "filterpy/kalman/information_filter.py: InformationFilter", "filterpy/kalman/ensemble_kalman_filter.py: EnsembleKalmanFilter", "filterpy/kalman/fixed_lag_smoother.py: FixedLagSmoother", "filterpy/kalman/UKF.py: UnscentedKalmanFilter", "filterpy/kalman/CubatureKalmanFilter.py: CubatureKalmanFilter", "filterpy/gh/gh_filter.py: GHFilter, GHKFilter, GHFilterOrder", "filterpy/memory/fading_memory.py: FadingMemoryFilter", "filterpy/leastsq/least_squares.py: LeastSquaresFilter", "filterpy/kalman/IMM.py: IMMEstimator", "filterpy/kalman/mmae.py: MMAEFilterBank"]}
{"id": "C155", "title": "A recording may be smoothed in blocks, from the end", "statement": "If rts_smoother (the KalmanFilter method, the module-level function or the UnscentedKalmanFilter method) succeeds on a recording, then calling it on the rows from any place on (with the corresponding parts of the optional lists) succeeds and returns exactly those rows of the whole result: what happened before has no further influence once the filtered rows are given. And the rows before that place can be smoothed later: calling it on them followed by the smoothed row at that place, instead of the filtered one, returns exactly the rows before that place of the whole result. So a long recording can be smoothed block by block with one overlapping row.", "quantifier": "all filtered rows, all recordings of any length, all places to cut, all optional lists and time steps, all inverse functions", "why_tests_cant": "A wrong index at a block boundary shows only for some cuts and some lists; the claim is about every cut of every recording.", "anchors": ["filterpy/kalman/kalman_filter.py: KalmanFilter.rts_smoother, rts_smoother", "filterpy/kalman/UKF.py: UnscentedKalmanFilter.rts_smoother"]}
