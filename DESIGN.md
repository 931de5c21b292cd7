# Formal model of filterpy in Lean 4

Source of truth: `/repo/filterpy` (read as text, never run).  Everything here is
about a *model* of that source; each definition of the model cites the file and
lines it models.

## 1. Trusted base

* Lean 4.33.0 kernel.  Every theorem depends on at most the three standard axioms
  `propext`, `Classical.choice`, `Quot.sound`.  There is no `sorry`, no axiom of our
  own, no `native_decide`/`bv_decide`.
* The reading of the Python code into the model (the citations are there so that it
  can be re-checked).
* Contracts of library routines which are not filterpy code, taken as follows:
  | routine | modelled as |
  |---|---|
  | numpy `dot`, `+`, `-`, `.T`, `outer`, `eye`, `zeros` | the mathematical operation on `Matrix (Fin m) (Fin n) ℝ` |
  | `linalg.inv` | the matrix inverse; raises `LinAlgError` iff `det = 0` |
  | `scipy.linalg.cholesky` (sigma points, CKF, square root) | a *parameter*: any function returning, for positive definite `A`, an upper factor `U` with `UᵀU = A` (`IsCholUpper`); existence is proved (`cholUpper_exists`); C130 needs the full contract `IsCholesky` (reads the upper triangle, upper triangular factor with positive diagonal, `LinAlgError` otherwise), existence `isCholesky_exists` |
  | `scipy.linalg.qr` | a *parameter*: any `R` with `RᵀR = MᵀM` of the right block shape (`SqrtLib`); existence is proved (`qr_exists`) |
  | `numpy.linalg.svd` (covariance ellipse) | a *parameter*: any orthogonal/diagonal factorisation (`IsSvd`) |
  | `scipy.stats.norm.cdf` | a *parameter*: any function that is the Gaussian distribution function (`IsNormCdf`) |
  | `numpy.searchsorted` | a *parameter*: any function returning the insertion index on sorted input |
  | `expm` | `NormedSpace.exp` |
  | `scipy.ndimage` `convolve`/`shift`, `np.roll` | their documented index formulas |
  | `multivariate_normal.logpdf` | the closed-form log density for positive definite covariance (`allow_singular` is not modelled); for InformationFilter also the documented broadcasting check |
  | `numpy.random.multivariate_normal` (ensemble filter) | the draws are arguments |
  | random number generators | explicit arguments: the theorem quantifies over every draw |
  | `math.exp` in `likelihood` | a parameter (so underflow to 0 is allowed) |
  | `copy.deepcopy`, `np.copy` | value semantics, except in the `Saver` model, which has an explicit heap, and in C114 (`Model/Heap`, `Model/Arrays`), which adds a memory of arrays to the models of the filters |

### Not modelled
* Floating-point rounding: scalars are real numbers (or an arbitrary field).  All
  equalities are exact-arithmetic equalities.  C115 bounds what rounding can do to a Kalman filter, with rounding
  as an arbitrary small perturbation of the `x` and (symmetric) `P` that each call stores.
* Array *shape* errors: model functions are typed by dimension, so the wrong-shape
  runs of numpy (broadcasting, `ValueError: shapes not aligned`) are outside the typed model.
  `reshape_z`, `inv_diagonal`, `test_matrix_dimensions`, the constructors and the main methods of
  `KalmanFilter` (`predict`, `update` and their steady-state versions) are also modelled with
  run-time shapes (`Model/NdArray`, `Model/KalmanShapes`); C72 proves that the typed model is what
  they compute, for 1-D and for column states.  The module-level functions are modelled in the same way
  (`Model/KalmanFuncShapes`, C135), and so are `update_correlated`, `update_sequential`, the previews,
  `residual_of`, `measurement_of_state` and `mahalanobis` (`Model/KalmanShapesMore`, C137).  Arrays of three or more axes are not represented.
* In `FadingKalmanFilter`, `ExtendedKalmanFilter`, `HInfinityFilter`, `SquareRootKalmanFilter`, `InformationFilter` and
  `FixedLagSmoother` the state, the measurement and the control are also modelled with run-time shapes (`Model/OtherShapes`,
  C138); their matrices are typed.  The same is done for the state and the measurement of `UnscentedKalmanFilter` and
  `CubatureKalmanFilter` and for the measurement of `EnsembleKalmanFilter` (`Model/SigmaFilterShapes`, C143).  In the banks
  1-D and column state vectors are both `Fin n → ℝ`.
* The banks are modelled over an abstract filter class (`FilterClass`); `Model/Bank` instantiates it with `KalmanFilter` and
  `Model/BankClasses` with the other classes of the package (C144).
* Sharing of arrays is modelled (C114) per attribute name: two *different* attributes that refer to one array are not
  represented, nor are the sigma point arrays of the UKF and CKF.
* Dtypes: arrays hold floats, except in C121 (`Model/IntArrays`), which follows arrays of integers through the code that
  assigns to elements or adds in place.  Overflow of 64-bit integers is not modelled.
* plotting beyond the points, patches and surfaces of C117 and C123, warnings; of `__repr__` the conversion of single numbers and arrays to text.
* `filterpy/examples` (demonstration scripts) and the test suites.

## 2. Layout (`/verif/lean/Verif`)

* `Model/*`  – the model, one file per source file; definitions only.
* `Spec/*`   – small independent specifications (probability, least squares, ...).
* `Lemmas/*` – helper lemmas.
* `Props/*`  – the property theorems (names start with the property id), each followed by
  an `example` showing that the hypotheses are met by a concrete case; refutations
  (`..._refuted`) with concrete witnesses where the code does not satisfy the property,
  next to the `..._partial` theorem that does hold.

Exceptions are values of `Except Err`.  Methods are functions from the object's state to
`Except Err` of the new state.  `None` arguments are `Option`s.

## 3. Plan per property

| id | model | proof |
|---|---|---|
| C01 | KalmanFilter state machine; spec: probability space, covariance of random vectors | induction over the call history, bilinearity of covariance |
| C02 | update | completing the square, information form, Woodbury |
| C03, C05 | update, batch_filter | difference of Joseph forms is `(K'-K)S(K'-K)ᵀ`; over whole runs the estimation error is uncorrelated with every measurement (`C03_best_linear`), also for singular or non-Gaussian noise |
| C04 | state machine | invariant by induction over operations |
| C06, C07, C08, C09 | state machine | case analysis, induction over histories |
| C10 | batch_filter as fold | induction over the measurement list |
| C11, C12, C13 | both RTS smoothers | backward induction; joint cost splits into a sum of squares. For singular or non-Gaussian noise: the smoothing error is uncorrelated with every measurement, hence best linear (`C11_best_linear`); `C12_singular` for semidefinite covariances. C13 is false for time-varying models: refuted, partial for constant F,Q |
| C14 | update_sequential | information form, additivity over blocks |
| C15 | update_correlated | covariance algebra |
| C16 | steady state methods | induction over measurements |
| C17 | caches | invariant over reads/updates; false after update_sequential: refuted |
| C18, C28, C27, C21, C22 | FadingKalmanFilter, SquareRoot, Information, EKF, UKF | simulation relation with KalmanFilter, induction over histories |
| C19 | module functions | equality; log-likelihood of `return_all` refuted |
| C20 | constructor over `Int` | case analysis |
| C23, C24 | sigma points, unscented transform | sums over `Fin`, induction for the simplex |
| C25 | cubature filter | moments; equality with KF refuted when Q≠0, partial |
| C26 | ensemble filter | algebra of sample moments |
| C29, C30 | fixed-lag smoother | induction; C30 refuted |
| C31, C32 | IMM | sums; invariants |
| C33, C34 | MMAE | product formula by induction; covariance and None claims refuted |
| C35 | H∞ | algebra; default batch_filter refuted |
| C36–C40 | g-h family | polynomial identities, induction |
| C41, C42 | least squares | normal equations by induction; `errors` at small n refuted |
| C43 | fading memory | identities; P refuted where wrong |
| C44–C47 | resamplers | loop invariants; C47 refuted |
| C48, C49 | discrete Bayes | sums over `Fin n`/`ZMod n` |
| C50–C53 | discretisation, kinematics | matrix identities, integrals, binomial theorem; C53 H refuted |
| C54 | van Loan | matrix exponential, derivatives |
| C55 | RK4 | `ring`, interval integrals |
| C56 | Saver with heap | invariant over mutation/save histories; properties alias: refuted |
| C57, C58 | helpers | case analysis on shapes |
| C59–C61 | stats | algebra, Mathlib Gaussian measure |
| C62 | compare_kf | refuted (NameError), partial |
| C63 | UKF smoother | simulation with RTS; `Qs` ignored: refuted |
| C64 | `GHKFilter.bias_error`, `FadingMemoryFilter.e` as limits of the lag | stable linear error recursion converges to its fixed point; order-1 fading `e[0]` refuted |
| C65 | `z` attribute of GHFilter, GHKFilter, GHFilterOrder after update | case analysis; refuted except for GHFilterOrder of order 1 |
| C66 | systematic, stratified, multinomial resampling with uniform draws | expected counts: measure of the set of draws selecting particle `i`, summed over the draws |
| C67 | `linear_ode_discretation` | block matrix exponential |
| C68 | covariance ellipse | spectral theorem, uniqueness of the PSD root |
| C69 | `rand_student_t` as a function of its two draws | refuted: every sample is shrunk towards `mu` by `1/√2` |
| C70 | UKF batch_filter | induction over measurements; scalar `dts` refuted |
| C71 | `test_matrix_dimensions` on arrays with run-time shapes | soundness by inverting the checks; both directions refuted in general |
| C72 | numpy arrays with run-time shapes (dot, broadcasting, reshape_z) and the KalmanFilter methods on them | simulation of the typed model, induction over calls; scalar and mixed controls and `update(z, H=H)` refuted |
| C73 | two runs of `KalmanFilter` compared in the Loewner order | monotonicity of the Joseph form under the optimal gain, induction over the history |
| C74 | every call transformed by invertible `T` (state) and `U` (measurement) | simulation relation `InUnits`, induction over the history |
| C75 | list of `update(z, R, H)` calls and a permutation of it | information form: both orders add up the same list of `Hᵀ R⁻¹ H` and `Hᵀ R⁻¹ z` |
| C76 | three runs in lock step, the third on blended data | relation `Blend`, induction over the history; the case of weight 0 gives independence of the data |
| C77 | list of `update(z, R, H)` calls against an explicit cost function | completing the square at each call, induction |
| C78 | the stochastic world of C01 | the error after each call is an affine image of the error before and fresh noise; orthogonality of the new error to the residual is carried through the history |
| C79 | `Saver`'s two dictionaries, `to_array`, `flatten`, `__setitem__` on arrays with shape and entries (`Model/SaverArray`) | invariant over all call sequences; slices of the concatenated entries |
| C80 | `predict` with the matrices of `kinematic_state_transition` and `Q_continuous_white_noise` | semigroup law of the transition matrices and additivity of the noise integral |
| C81 | `GHFilter.update`, `GHKFilter.update` against the steady-state Kalman cycle | simulation, induction over the measurements |
| C82 | `IMMEstimator`, `MMAEFilterBank` over an abstract filter class | simulation by the single filter, induction over the calls; the MMAE covariance is refuted |
| C83 | `KalmanFilter.update` with a zero noise matrix, then any history | algebra of the gain (H K = 1), invariant `A x = c`, `A P = 0` by induction |
| C84 | KalmanFilter state machine | the posterior is monotone and sub-homogeneous in the prior; contraction of the relative size; induction over calls |
| C85 | KalmanFilter state machine | invariant d dᵀ ≤ V P, Lyapunov argument, induction over calls |
| C86 | `IF.update`, `IF.predict`, `IF.recover`, `IF.predictNoInfo` (Model/InformationFilter) | Normal equations for the fit, then C27 from the recovered state (`C86_start_partial`); `C86_update_first` for an immediate update. Refuted: x reported before the next predict, two updates in a row, Q = 0, and partial information (`C86_*_refuted`). |
| C87 | `KF.run`, `KF.readLogLik` (Model/KalmanFilter, Model/KalmanOps) | Simulation relation `InScale` preserved by every call (`C87_ratios`); `C87_likelihood` for the likelihood. |
| C88 | `KF.predict`, `KF.update`, `KF.updateSequential`, `KF.readLogLik` (Model/KalmanFilter) | Block algebra, then the relation `Stacked` is preserved by every call (`C88_decoupled`, `C88_likelihood`). |
| C89 | `KF.update`, `KF.updateCorrelated`, `KF.updateSequential` with `inv` any function satisfying the Penrose equations (`IsPinv`, existence proved) | The kernel of S lies in the kernel of P Hᵀ, so K S = P Hᵀ for every pseudo-inverse (`C89_optimal`, `C89_constraint`, `C89_twice`, `C89_total`, `C89_agrees`). Refuted for update_sequential, which ignores kf.inv (`C89_sequential_refuted`). |
| C90 | Model/SigmaPoints, Cubature, UKF | moments of the point sets (C23, C25) expanded in the quadratic function (`C90_mean`, `C90_cubature_mean`, `C90_predict`); pairing of opposite points (`C90_symmetric`); the first four moments of a normal variable from its moment generating function (`C90_variance_merwe`, `C90_variance_julier`) |
| C91 | Model/EKF, FadingKF, UKF, Cubature, EnKF, SquareRoot, InformationFilter, Reads (the cached properties) | a generic record of books (calls, kind of call, estimate, copies, attributes) with the three claims over histories; a lemma reduces them to single calls; each class is then checked call by call (`C91_ekf`, `C91_fkf`, `C91_ukf`, `C91_ckf`, `C91_enkf`, `C91_square_root_partial`, `C91_information_partial`); arguments of single calls (`C91_*_arguments`, `C91_noise_argument`) |
| C92 | The UKF of C22 with its function arguments; the call alphabet of C91. | Relational induction over the calls: a binary relation on states and one on measurements, respected by the functions, is preserved; instances for bijections and for full turns. |
| C93 | KF and NEES as in C01 and C61; the stochastic world of C01 with covariances bounded instead of equal. | The error is a fixed linear image of independent noises whose gains depend only on what the filter was told; Joseph form monotone in the noise; trace of the product of the inverse and the covariance; Markov's inequality. |
| C94 | `KF` model as for C01; the random system is `Spec.unfolds`/`Spec.world` (Spec/GaussWorld.lean) built from Mathlib's normal distribution, `Measure.bind` and products; the user's loop is `Spec.listen` | Induction on the plan: moves by convolution of normal laws, measurements by Bayes' rule for singular priors and Tonelli; theorems C94_runs, C94_evidence, C94_posterior |
| C95 | as for C94 | C94 plus the reflection symmetry of the normal law; theorem C95_best, with squared and absolute error shown to be penalties |
| C96 | `MMAE` model over `kfClass Real.exp` (likelihoods that do not underflow); random system `Spec.chosen` built on `Spec.world` of C94 | C33 (product of likelihoods) combined with C94 (the product is the joint density); theorems C96_runs, C96_posterior, C96_best. Histories with update(None) are excluded: see C34 |
| C97 | KF.predict, KF.update iterated (cycles) | deadbeat gains along the subspace of invisible errors bound the Riccati iteration; monotone bounded covariances converge; continuity of the Riccati map; C84 for convergence from everywhere |
| C98 | KF.predictSteadystate, KF.updateSteadystate iterated; the true system as in Spec.NoisySystem | Lyapunov argument with the steady state covariance; covariance recursion of the error |
| C99 | HInf.update, HInf.predict in a duel with nature (Spec.duel) | storage function argument: completing the square for the measurement, parallel sum inequality for the disturbance, induction over the steps |
| C100 | Model/KalmanFilter, Model/FadingKF; specification Spec.discounted in Props/FadingLeastSquares | induction over the calls: a movement keeps the discounted distance, a measurement completes the square; the class through C18 |
| C101 | Model/IMM, Model/MMAE | every step commutes with the permutation; the MMAE covariance refuted by a witness |
| C102 | Model/IMM, Model/MMAE, Model/Bank | simulation: the mixing probabilities are the identity, so that mixing leaves every filter alone |
| C103 | Model/EKF.lean as for C21; user functions are arbitrary total functions | complete the square in the linearised posterior; directional derivatives of the true posterior; induction over calls for positive semidefiniteness |
| C104 | Model/Resampling.lean with the draws as arguments; a probability space carrying independent uniform draws | each pick is a measurable function of its own draw; variance of a sum of independent picks; Cauchy-Schwarz over strata; floor/ceiling counts of C45 |
| C105 | Model/Kalman.lean; a probability space carrying a linear system with white noises (Spec.NoisySystem of C98) | the difference of the two filters obeys a contraction (Lyapunov inequality of the steady covariance) driven by the vanishing gain difference times a residual bounded in mean square; Cauchy-Schwarz for covariances transfers the limit of C98 to the full filter |
| C106 | Model/DiscreteBayes.lean; the loop from the documentation of update as bayesRun | each predict is a multiplication by the transition probabilities (C49); forward recursion equals the sum over histories by induction; conditional probability by induction with Bayes' theorem |
| C107 | Model/EnKF.lean, Model/KalmanFilter.lean; a history with its draws as DrawStep | sample moments of affine images of the draws (exact), continuity of the gain, Joseph form; induction over the history; strong law of large numbers for the sample means and cross products |
| C108 | Model/MMAE.lean, Model/KalmanFilter.lean; distributions as in C94 and C96 | the weights are ratios of the data densities (C96); maximal inequality for likelihood ratios by splitting at the first time, using that the measurements of the first k calls have the distribution of the shortened plan; Gibbs inequality |
| C109 | Model/DiscreteBayes, bayesRun of C106 | odds form of the Birkhoff contraction; every cell is reached within n steps |
| C110 | Model/KalmanFilter, KalmanOps | simulation with a moving displacement; Joseph form keeps a rank one lower bound for every gain |
| C111 | Model/KalmanFilter, KalmanOps | monotonicity of the Riccati recursion (C73) with the gain 0 for a measurement left out |
| C112 | `UKF.predict/update`, `EKF.predictBy/update`, `KF.run` | sigma points stay within a multiple of the standard deviations; a differentiable function acts on a shrinking bounded cloud as its Jacobian up to o(eps); limits of the matrix expressions; induction over cycles |
| C113 | Model/Discretization.lean rungeKutta4; the loop is rkLoop | Props/RungeKuttaOrder.lean, Lemmas/SmallSteps.lean: Taylor's formula with a uniform remainder, expansion of the solution by repeated integration, the four stages expanded to fourth order, Lipschitz stability of a step, and a cut-off of the field outside a ball around the solution |
| C114 | Model/Heap.lean (memory of arrays, objects holding references, calls that rebind or overwrite), Model/Arrays.lean (per class and call: which attributes are rebound, which overwritten) | Lemmas/Heap.lean, Props/Aliasing.lean: the tables are complete for the call models; simulation of every object by one that is alone, invariant on existing cells; refutations with two-object worlds |
| C115 | `Spec.roundedRun`: the calls of the model `KF`, the result of each replaced by an arbitrary result within `tau` (`Spec.Rounds`) | covariances compared relatively: predictions contract (Q > 0 and the carried uncertainty is bounded by observability), measurements do not expand; estimates compared in standard deviations, with the effect of a wrong gain bounded by Cauchy-Schwarz in the posterior covariance |
| C116 | GH.update, GHK.update (Model/GH.lean) | necessity: a matrix with vanishing powers has det(1-A), det(1+A), det(1-adj A) > 0 and |det A| < 1 (intermediate value theorem, no eigenvalues); sufficiency: the steady-state covariance is an explicit sum of squares, a Lyapunov function |
| C117 | plotCovariance (patches and segments), stdTupleOf, plot3dCovariance (surface grid); SVD and eigenvalues as parameters with contracts | C68 scaled to any number of deviations; probability by polar coordinates; the surface through the root V diag(sqrt lambda) |
| C118 | `UKF.predict/update`, `merwe`, `julier`, `simplex`, `CKF.predict/update`, `EnKF.predict/update` (Model/UKF, SigmaPoints, Cubature, EnKF) | Invariant over the run: the joint second-moment form of state and measurement sigma points is nonnegative, hence S is positive definite and the new covariance is (`joint_core`). The weights' form is diagonalised exactly (`symmetric_var`). `C118_breaks` builds the function that makes the covariance indefinite. |
| C119 | Existing models KF, FKF, EKF, FLS, KFun, Stats; specification NothingToWeigh (a vector in both kernels). | The quadratic form of H P H' + R splits into two nonnegative terms, so its kernel is the common kernel; induction over the smoother loops and over histories. |
| C120 | Model/Printing: the labelled values handed to pretty_str, with the caching reads in the order of the code; pretty_str on lines of characters | one scheme for the five caching classes; simulation of a history by the history without printing; structural induction over nested lists |
| C121 | Model/IntArrays: the methods that assign to elements or add in place, with the dtype of the array as a flag | simulation of the dtype-aware object by the float object over all histories; invariant for which calls keep an integer state; refutations by induction over measurement sequences |
| C122 | Model/KalmanFilter, Model/KalmanOps (existing). | Upper bound A P A^T + N with A ranging over the displacements left over, by induction over the calls with a gain that removes what each measurement sees; conversely the floor of C110 for P = c^2 v v^T. Outages: finitely many patterns per window. Props/KalmanOutages. |
| C123 | Model/Curves: the points, limits and line handed to matplotlib, with run-time types for the arguments; scipy's norm as a parameter with a contract. | Symmetry and strict monotonicity of the normal distribution function; partial sums. Giving only std, and plot_gaussian, refuted for all arguments. Props/Curves. |
| C124 | The existing models: every method returns either the new object or the exception together with the object it leaves behind. Spec: programs as lists of calls and assignments, run with exceptions ignored (`caught`), the calls that succeeded (`survivors`), and `Atomic`. | A simulation: two objects that agree except for the diagnostics make the same step or raise the same exception; a failing call changes only diagnostics; induction over the program. For banks an induction over the loop; witnesses for the refutations (two one-dimensional Kalman filters, one of which refuses). |
| C125 | Model/Kalman.lean; Spec.Reachable, Spec.Detectable | one predict/update cycle is a monotone, concave map of the covariance that becomes strictly positive after n steps, so scaling by a factor below one bounds the distance of two runs; the constant gain error dynamics satisfy an n-step Lyapunov inequality; the unseen subspace is invariant, and a covariance that dominates a reachable noise on it cannot be steady unless it contracts |
| C126 | Model/Discretization.lean, Model/Kalman.lean; Spec.Copies, Spec.KinematicNoise, Spec.Settles, Spec.GetsLost | powers of the transition matrix are transition matrices of longer times, so an unobservable or unreachable direction gives a polynomial with infinitely many roots; then C125. Counterexample: first position forward, second backward |
| C127 | the class models and their call types (`EkfOp`, `FkfOp`, `UkfCall`, `CkfCall`, `EnkfOp`, `SrCall`, `IfCall`, `HInfOp`); random draws are arguments of the calls that make them | `Spec.DeletesMissing` compares the run of any history with the run of the history without its missing measurements, through a projection that forgets `z` and the mirrors; one commutation lemma per class and induction over the history. Refuted for `HInfinityFilter`: `update(None)` skips the propagation of `P` that the class does inside `update`, so without measurements `P` never changes (`C127_hinfinity_blind_refuted`) |
| C128 | `IMM` and `MMAE` over an arbitrary filter class with positive likelihoods (`PosLik`) | the mode probabilities are a distribution after every history (C31), so `cbar` is an average of a column of `M`; Bayes' rule with a lower bound on one prior weight; for MMAE the product formula of C33 |
| C129 | Model/FadingKF, EKF, HInfinity, EnKF, InformationFilter, IMM, MMAE (all as they are) | simulation relations between the two objects, preserved by every call (Props/OtherUnits); witnesses for the three violations |
| C130 | Model/UKF.lean, SigmaPoints.lean, Cubature.lean; Spec/Cholesky.lean is the contract of scipy.linalg.cholesky (reads the upper triangle, unique upper factor with positive diagonal, LinAlgError otherwise) | The Cholesky factor of a rescaled matrix is the rescaled factor (uniqueness); simulation between the two filters. Turned axes: explicit counterexample. |
| C131 | Model/SigmaShapes.lean (arguments with run-time shapes, row assignment, broadcasting, indexing and their exceptions; `subtract` is the default), on top of Model/NdArray.lean | Loop invariant for the rows stored so far gives the typed points of Model/SigmaPoints; the last turn of the loop can only succeed if the factor has n rows, so a successful call implies admissible arguments. Refuted for lists with the simplex points and for numbers in 0-d arrays |
| C132 | Model/EnKF.lean (draws are arguments) | The gain is the transposed deviations times a matrix (the measurement deviations sum to zero, so deviations from x and from the mean give the same cross covariance); hence its transpose kills every direction in which the members agree. Existence of such a direction by dimension count; reordering by reindexing sums, lifted to histories |
| C133 | Model/KalmanFilter, Model/PolyFilters, Model/Discretization | information form of one cycle: (FPF')^-1 = G'P^-1 G with G = F(-dt), and the normal matrix and vector obey the same recursion; completion of the square; continuity of the inverse; uniqueness of the fit (C41), errors (C42) |
| C134 | Model/KalmanFilter, Model/MMAE, Model/Stats | information form of a list of updates; Bayes' rule for every reading (C02) and the factorisation of a product of Gaussian densities in one argument; Bayes' rule of the bank is invariant under a common factor (C33) |
| C135 | New model NFun (Model/KalmanFuncShapes): the functions on arrays with run-time shapes, the two try/except blocks, Python numbers without attributes. Specification OneNumber, NumCall, Holds, vecAs. | Arrays of one value are closed under every operation used, with the value computed alongside; induction over programs. For matrices, refinement of the model KFun of C19. |
| C136 | `KF.update`, `KF.predict` (Model/KalmanFilter); Spec/KalmanWorth defines log-volume and worth | `C136_entropy` shows that log-volume is the entropy of the normal law up to a constant; matrix determinant lemma for one update, induction over the sequence, eigenvalue inequalities (det(1+X) ≥ 1+tr X, AM-GM) |
| C137 | Methods of NKF (Model/KalmanShapesMore) on arrays with run-time shapes: slices that clip, reshape, slice assignment, in-place addition. Specification Stores, Holds, HoldsCol, vecAs (Spec/Shapes). | The arrays follow the typed model KF step by step (simulation); previews by case analysis over all shapes; refutations exhibit the failing calls for every 1-D filter. |
| C138 | NFKF, NEKF, NHInf, NSR, NIF, NFLS (Model/OtherShapes): state, measurement and control are arrays with run-time shapes, matrices are typed. Specification Accepted, UOk, ...Stores (Spec/OtherShapes). | The arrays follow the typed models step by step (simulation); the exactness theorems invert the broadcasting rules; refutations exhibit the failing call for every column filter. |
| C139 | The models of C22 (UKF, SigmaPts) and C25 (CKF); EvenPoints, CubatureTwin and predictRedrawn are the specification. | The weightless centre drops out of every weighted sum; the Cholesky factor of n P is sqrt(n) times that of P; then simulation over histories, and C22 for linear systems. |
| C140 | The models of C10 and C11 (batchFilter, rtsSmoother); Spec.Combination, JointlyNormal, decidedBy, Posterior, Unbeaten in Props/KalmanSmoothLaw.lean. | C11's second-moment argument shows that the smoothing error is uncorrelated with every measurement; jointly normal and uncorrelated vectors are independent, so the error keeps its law whatever was measured. C140_exists builds such a system for every filter and plan. |
| C141 | The models of C01, C61 and C93 (worldRun, nees, readMahal); Spec.chiSquare, Mix, NormalWorld, MeasureAt in Props/KalmanChiSquare.lean. | Errors and residuals are linear combinations of the initial error and the noises; residuals of different calls are uncorrelated (C78), hence independent when jointly normal; a square root of the covariance turns the normalised square into a sum of squares of standard normals. C141_exists builds such a world for every filter and list of calls. |
| C142 | The model of C01/C16; Spec.remaining and Spec.Disturbed in Props/KalmanRobust.lean, Spec.Reachable and Spec.Detectable of C125. | The error recursion with the steady gain contracts in a fixed quadratic length (C125); the gain approaches the steady one exponentially fast (C105), so the product of the perturbed factors stays within a constant of a power. For the converse a hidden lasting displacement is never corrected. |
| C143 | NUKF, NCKF, NEnKF (Model/SigmaFilterShapes): state, residual and measurement are arrays with run-time shapes; default residual and addition functions. Specification UKFStores, CKFStores, EnKFStores, PointsOf, HasEntries (Spec/SigmaFilterShapes), Accepted (C138). | Simulation of the typed models C22/C25/C26 step by step and through runs; the exactness theorems invert the broadcasting rules; for an ensemble filter with one sensor and a longer measurement the innovation covariance has equal rows and cannot be inverted. |
| C144 | One FilterClass per class and bank (Model/BankClasses): what the bank's positional calls do to an object of that class, including TypeError for wrong arity and AttributeError for missing attributes. Specification SameIMM, SameMMAE, BankOp, BankOp.Alternating (Spec/BankClasses). | A relation between a filter and its Kalman filter (Twin) that is kept by the calls a bank makes, including the assignment of the mixed x and P; lifted to banks by induction over the history. Refutations: the first filter's exception ends the bank's call; witnesses for the zero time step and the repeated likelihood. |
| C145 | The models of C01-C19 and C31-C33. Specification OptNear, ArgNear, UNear, OpNear, KFNear, ResidualNear (Spec/Nearby), IMMNear, MMAENear (Spec/NearbyBanks), ListNear, RtsNear, EKFNear, UKFNear, CKFNear, EnKFNear, UkfRtsNear, BayesStepNear. | Continuity of products, transposes and of the inverse at invertible matrices, call by call, then induction over the history; a measurement with noise r R is rescaled by 1/r; finitely many filters of a bank are close eventually; for the sigma point filters, the Cholesky factor is continuous (Lemmas/CholNear: bounded entries, a limit point is again a factor, factors are unique). |
| C146 | The models of C36 and C41-C43. Specification roundedUpdates, GhRounds, GhkRounds, FadingRounds, LsqRounds (Spec/RoundedUpdates). | The difference of the rounded and the exact run obeys the linear recursion of the filter; bounded disturbances have bounded effects exactly when the powers of the transition matrix vanish (choosing the signs of the roundings makes the sum of the absolute entries of the powers visible); then C116. |
| C147 | The model of C27. Specification InfoCall, InfoCallNear, IFNear, Informed, InformedRun (Props/InfoNearby). | As C145, for histories whose predictions all find an invertible information matrix; a counterexample where one does not. |
| C148 | The model of C79, with getItem on a dictionary that creates missing entries (Model/SaverReads). | Simulation: the saver that was read is the saver that was not, with empty histories under further keys. |
| C149 | The models of C94 (user's loop in a normal world) and C117 (plots). | The disintegration of the world's law over the measurements (C94) with a covariance that does not depend on them; affine images of normal laws. |
| C150 | Model/EnKF.lean, Model/UKF.lean | Props/Renumbering.lean: the sums over members and points are invariant under permutations; induction over the calls and over the backward loop |
| C151 | Model/DiscreteBayes.lean; specification turned, backwards, mirrored | Props/DiscreteBayesMirror.lean: move probabilities are invariant under the renumbering, induction over the history (C151_ring, C151_turns, C151_moves_commute, C151_mirror, C151_mirror_even); C151_even_refuted |
| C152 | Model/KalmanFilter.lean, KalmanFuncs.lean, FadingKF.lean, HInfinity.lean, UKF.lean, GH.lean, FixedLag.lean: the batch loops of the Kalman, fading, H-infinity, unscented and g-h filters; FLS.smooth, FLS.smoothBatch | Props/Causality.lean: induction on the zipped rows for prefixes; the lag loop touches only the last N entries and commutes with truncation |
| C153 | the batch methods as for C152; specification thenBatch (two calls, outputs joined) and argsFrom | Props/Pieces.lean: the loops split along appended rows, the zipped lists split with take/drop, and no step changes the defaults; witnesses for the two methods that start again |
| C154 | predict, update and their variants of the filter classes; specification keptKF, keptFKF, ... (what is stored) and SameResumed (same exception or same stored values) | Props/Resume.lean, Props/ResumeBank.lean: each call maps states that agree on the stored values to such states; induction over the sequence of calls; witnesses for the information and unscented filters |
| C155 | the three rts_smoother models; a backward loop in general | Props/SmoothParts.lean: each smoother is an instance of one backward loop, for which dropping and replacing rows is shown by induction |

Refutations are stated about the model with concrete witnesses; every property with a refutation also has the part that
does hold, as strong as we could make it.

## 4. Disagreements between code and documentation found while reading

Each line names the theorem that proves the disagreement about the model; lines without a theorem are outside the model
and were only read.

### Kalman filter and module functions
* `rts_smoother` (method and function) ignores the control input `B u` (`C11_control_refuted`).
* The method uses `Fs[k+1]`, the function `Fs[k]` (`C13_time_varying_refuted`).
* `log_likelihood`, `likelihood`, `mahalanobis` and `S` are stale after `update_sequential`
  (`C17_stale_after_sequential_refuted`).
* `log_likelihood_of(z)` after `update(z)` compares `z` with the posterior state, so it is not the `log_likelihood` of `z`
  (`C17_log_likelihood_of_refuted`).
* `update_sequential` ignores `kf.inv`, so the documented pseudo-inverse does not help there (`C89_sequential_refuted`).
* Module `update` with singular `S` silently uses the entrywise reciprocal (`C19_singular_refuted`); with a scalar `R` and
  two or more measurements adds it to every entry of `S` (`C19_scalar_R_refuted`);
  the module `predict` with a scalar `Q` adds it to every entry of `P` (`C19_scalar_Q_refuted`); its documented float call raises
  (`C19_float_refuted`); `return_all` evaluates the log-likelihood at the posterior state (`C19_loglik_refuted`).
* FadingKalmanFilter and EKF `predict()` with a control matrix of two or more columns turn `x` into a matrix
  (`C18_fading_control_refuted`).
* EKF: `update(None)` keeps the old residual (`C21_none_y_refuted`); `predict_update` records the prior before predicting
  (`C21_prior_refuted`), linearises at the state before the prediction (`C21_predict_update_nonlinear_refuted`) and raises
  for `None` (`C21_predict_update_none_refuted`).
* InformationFilter: the log-likelihood uses the information matrix (`C27_loglik_value_refuted`,
  `C27_loglik_raises_refuted`); `predict` before `F` is set raises (`C27_default_F_refuted`).
  Without prior information: after the first `update` the attribute `x` holds the information vector, not the state
  (`C86_reported_refuted`); a second `update` multiplies that by `P_inv` (`C86_two_updates_refuted`); `predict` needs an
  invertible `Q` (`C86_noiseless_refuted`) and leaves `P_inv` as it is, so information does not decay
  (`C86_no_decay_refuted`).
* The predictions of `InformationFilter` jump where the information becomes singular: the process noise is then left out
  (`C147_singular_refuted`).
* SquareRootKalmanFilter: `P_post` returns the prior's covariance (`C28_P_post_refuted`); `dim_x` is not checked
  (`C28_init_refuted`).

### Sigma-point and ensemble filters
* UKF: two updates without a predict reuse stale sigma points, the variance can become negative
  (`C22_repeated_updates_refuted`); `rts_smoother` ignores `Qs` (`C63_Qs_refuted`); `batch_filter` refuses scalar `dts`
  (`C70_scalar_dts_refuted`).
* CKF: sigma points are not redrawn after `predict`, so the gain ignores `Q` (`C25_process_noise_refuted`; the line
  `ckf.sigmas_f = spherical_radial_sigmas(ckf.x, ckf.P)` after `predict` repairs this, `C139_linear`); a 1-D
  measurement with two or more components broadcasts the state (`C25_flat_measurement_refuted`).
* EnKF: a second update without predict can give a negative variance (`C26_second_update_refuted`).

### Shared arrays
* `KalmanFilter.update_sequential` and `SquareRootKalmanFilter.update` overwrite the array that was assigned to `x`
  (`C114_sequential_refuted`, `C114_square_root_refuted`).
* `MMAEFilterBank` keeps the array of probabilities it is given and overwrites it (`C114_mmae_refuted`).
* `IMMEstimator.x`, `GHFilterOrder.x`, `FadingMemoryFilter.x` and the array returned by `LeastSquaresFilter.update` are
  overwritten by later calls (`C114_imm_refuted`, `C114_order_refuted`, `C114_least_squares_refuted`).

### Shapes (KalmanFilter)
* `test_matrix_dimensions()` refuses a 1-D state with several measurements and a 1-D `z` that `update` accepts
  (`C71_default_rejects_refuted`, `C71_vector_z_refuted`); it accepts an `R` of shape `(1,)`, a scalar `z` and an `H` with
  the wrong number of rows, with which `update` raises (`C71_vector_R_refuted`, `C71_scalar_z_refuted`,
  `C71_wrong_H_refuted`).
* A scalar control (also the default `u=0` of `batch_filter`) turns a 1-D state into an `n × n` array
  (`C72_scalar_control_refuted`); so does a control vector in the other representation (`C72_mixed_control_refuted`);
  `update(z, H=H)` with `z` in the other representation corrupts the state silently (`C72_update_H_refuted`,
  `C72_update_H_documented_refuted`); `y` changes shape between `update(z)` and `update(None)`
  (`C72_residual_shape_refuted`).
* `predict_steadystate(u=None)` raises `TypeError` when there is a `B` (`C16_none_control`).
- The module-level `update` and `update_steadystate` raise `AttributeError` for a Python number as state, although the
  docstring calls them so; after one call of `predict` the state is a numpy number and they work
  (`C135_python_number_refuted`).  A 1-D `H` of two or more values raises `ValueError` after the gain has been computed
  (`C135_row_H_refuted`); controls in the other form than the state silently make `x` a matrix
  (`C135_mixed_control_refuted`).
* `update_sequential` never succeeds with a 1-D state (`C137_sequential_refuted`), and the residual and the gain are
  already overwritten when the `ValueError` is raised (`C137_sequential_half_done_refuted`).  With its own `R_i` and `H_i`
  a single value for an index beyond the last sensor is accepted silently and leaves `y`, `K` stale
  (`C137_sequential_beyond_refuted`).  `update_correlated` with an explicit `H` and a 1-D `z` turns a column state into
  a matrix (`C137_correlated_H_refuted`).
* A 1-D measurement silently turns the column state of a new `FadingKalmanFilter`, `HInfinityFilter`, `FixedLagSmoother`, or
  of an `InformationFilter` that computes no likelihood, into an `n × m` matrix (`C138_fading_refuted`, `C138_hinf_refuted`,
  `C138_fixed_lag_refuted`, `C138_information_refuted`).  `SquareRootKalmanFilter` raises `ValueError` instead, after it has
  overwritten gain and residual (`C138_square_root_refuted`).
* A function `Hx` that returns a 1-D array turns the column state of an `ExtendedKalmanFilter` into an `n × n` matrix
  (`C138_ekf_refuted`).
* `predict()` of a `FadingKalmanFilter` with a control matrix of several columns, or with a 1-D state, turns the state into a
  matrix (`C138_fading_predict_refuted`, `C138_fading_predict_vec_refuted`): `dot(B, 0)` has the shape of `B`; the other
  filters do the same (`C138_predict_refuted`).  Its
  `batch_filter` never works with 1-D states of two or more entries (`C138_fading_batch_refuted`).
* `InformationFilter.update` with one number for several sensors raises `ValueError` after state and information have changed
  (`C138_information_half_done_refuted`); without prior information a number makes a 1-D state an `n × n` matrix
  (`C138_information_none_refuted`).
* In all of these filters a single number or one-entry array silently stands for the readings of all sensors (`Spec.Accepted`).
* A column measurement of an `UnscentedKalmanFilter` either raises or turns the state into a matrix, and the next `predict`
  raises `ValueError` (`C143_ukf_column`, `C143_ukf_square_refuted`); with one sensor `[[z]]` always does
  (`C143_ukf_one_refuted`).  In a `CubatureKalmanFilter` it is the other way round: `predict` leaves a column, and 1-D
  measurements (`C143_ckf_flat_refuted`) and every `update` before the first `predict` (`C143_ckf_start_refuted`) turn the
  state into a matrix.
* `EnsembleKalmanFilter.update` refuses numbers (`C143_enkf_number_refuted`) and columns (`C143_enkf_column_refuted`), and with
  one sensor accepts an empty array as a measurement (`C143_enkf_empty_refuted`).

### Smoothers, banks, H∞
* The banks call their filters with positional arguments whose meaning differs between the classes (C144).
  `IMMEstimator.predict()` raises for every class except `KalmanFilter`, `UnscentedKalmanFilter` and `CubatureKalmanFilter`, and
  `update` for the classes without `likelihood` and for `ExtendedKalmanFilter` (`C144_imm_others_refuted`).
  `MMAEFilterBank.update` works with `KalmanFilter` and `UnscentedKalmanFilter` only (`C144_mmae_others_refuted`), with the
  latter only without `H` (`C144_mmae_matrix_refuted`).
* `MMAEFilterBank.predict()` gives unscented filters a time step of length zero (`C144_mmae_step_refuted`).
* `IMMEstimator.update(None)` repeats the likelihoods of the last measurement when the filters are unscented
  (`C144_imm_missing_refuted`).
* FixedLagSmoother: after the first `N` steps the newest smoothed value is never the filtered one
  (`C30_newest_refuted`, `C30_lag_one_refuted`).
* IMM: an unreachable mode divides by zero (`C31_absorbing_start_refuted`); `predict` weights its estimate by `mu`
  instead of the predicted mode probabilities (`C32_prior_weights_refuted`); `update(None)` changes `mu`
  (`C34_imm_refuted`).
* MMAE: the covariance zips the *components* of `x` with the filters (`C33_covariance_refuted`, `C82_mmae_covariance_refuted`), and
  so depends on the order of the filters (`C101_mmae_covariance_refuted`) and on the units
  (`C129_mmae_covariance_refuted`); `update(None)` changes `p` (`C34_mmae_refuted`).
* Banks replace every underflowed likelihood by the same number, so with many sensors they learn nothing in units that
  make the densities small (`C129_underflow_refuted`).
* InformationFilter: after its information matrix became singular, `predict` mixes covariances with information
  matrices and its state depends on the units (`C129_information_lost_refuted`).
* UKF and CKF: turning the coordinate axes changes the estimates of a nonlinear
  `UnscentedKalmanFilter` or `CubatureKalmanFilter`, because the Cholesky factor is tied to the axes
  (`C130_ukf_axes_refuted`, `C130_ckf_axes_refuted`).
* Sigma points: `SimplexSigmaPoints.sigma_points` raises `AttributeError` for the documented list argument
  (`C131_list_refuted`); a number in a 0-d array is not the covariance `c·I` but an exception (`C131_number_refuted`).
* HInfinityFilter: `batch_filter` with its default `saver=False` always raises (`C35_default_batch_refuted`); the gain
  carries an extra factor `F`, so with `gamma=0` the state is not the Kalman filter's
  (`C35_gamma_zero_state_refuted`) and the worst case guarantee fails unless `F` is the identity
  (`C99_worst_case_refuted`); `P` is propagated only inside `update`, so while measurements are missing it never changes
  (`C127_hinfinity_blind_refuted`, `C127_hinfinity_uninformative_refuted`).

### g-h family, least squares, fading memory
* `GHFilter.batch_filter` saves the unchanged filter (`C37_gh_saver_refuted`); `GHKFilter.batch_filter` ignores `k` and
  `ddx` (`C37_ghk_batch_refuted`); the GHK variance reduction factors can be negative (`C39_ghk_vrf_refuted`).
* `LeastSquaresFilter.errors` divides by zero for small `n` (`C42_errors_refuted`); `FadingMemoryFilter` order 1 has the
  wrong `P[1]` (`C43_P_one_refuted`) and an `e[0]` that is not the lag (`C64_fading_one_refuted`).
* `z` is not recorded by GHFilter, GHKFilter and GHFilterOrder of order 0 or 2 (`C65_z_refuted`).
* `LeastSquaresFilter` forgets nothing, rounding errors included: they pile up without bound over a long run, for every
  order (`C146_leastsq_refuted`).  The filters with constant gains do not have this problem (C146).

### Resampling, discretisation, helpers, statistics
* `multinomial_resample` can pick a zero-weight particle (`C44_multinomial_refuted`); `residual_resample` divides by zero
  or draws from the wrong distribution (`C47_division_refuted`, `C47_distribution_refuted`).
* `kinematic_state_transition` accepts `3.0` and then raises (`C52_float_refuted`); `kinematic_kf` measures the sum of the
  positions for `dim > 1` (`C53_H_refuted`), so its covariance grows without bound (`C126_sum_refuted`).
* `Saver` stores property values uncopied (`C56_property_alias_refuted`).
* `discrete_bayes.predict` with a kernel of an even number of taps is not mirror symmetric: the tap right of the middle
  counts as the middle (`C151_even_refuted`).
* `GHFilter.batch_filter` and `FixedLagSmoother.smooth_batch` store nothing in the object, so a second call on the rest of a
  recording starts again from the initial state (`C153_gh_refuted`, `C153_lag_refuted`).
* An `UnscentedKalmanFilter` rebuilt from `x` and `P` between `predict` and `update` ignores the measurement, because its sigma
  points are still zero (`C154_unscented_refuted`); an `InformationFilter` rebuilt without the private flag
  `_no_information` may give other estimates (`C154_information_refuted`).
* After a missing measurement a `KalmanFilter` in a bank is rated with the innovation covariance of an earlier step, so banks
  with the same estimates and settings may go different ways (`C154_bank_refuted`).
* `saver["typo"]` returns an empty list and records the key, although `saver.typo` does not exist (`C148_unknown_refuted`).
* `reshape_z` with `ndim=0` drops values (`C57_ndim_zero_refuted`).
* `compare_kf` raises instead of reporting (`C62_compare_kf_refuted`, `C62_compare_kf_function_refuted`); `copy_states`
  does not copy function attributes (`C62_copy_states_refuted`).
* `rand_student_t` doubles the gamma draw, so its samples have the wrong scale (`C69_student_t_refuted`).
* Printing a `KalmanFilter` between `update` and `update_sequential` changes what `mahalanobis` returns afterwards
  (`C120_print_then_sequential_refuted`).
* A `CubatureKalmanFilter` starts with the plain number `y = 0`; until its first measurement `mahalanobis`, and with it
  `print(ckf)` and `Saver(ckf).save()`, raises `AttributeError` (`C120_ckf_new_refuted`).
* Misprinted lines: `dim_x` and `dim_z` of `FadingKalmanFilter` and `FixedLagSmoother` show the state
  (`C120_fkf_refuted`, `C120_fls_partial`), `gamma` of `HInfinityFilter` shows `dim_u` (`C120_hinf_partial`),
  `ddx_prediction` of `GHKFilter` shows `dx_prediction` (`C120_ghk_refuted`), `log-p` of `MMAEFilterBank` shows the
  probabilities (`C120_mmae_refuted`); an `ExtendedKalmanFilter` calls itself `KalmanFilter` (`C120_titles_refuted`) and a
  `GHKFilter` calls itself `GHFilter`.
* `plot_covariance(interval=p)` takes its deviations from the normal distribution of one variable, so the ellipse always
  contains less than `p` (`C117_interval_refuted`); the `show_semiaxis` lines are half a deviation long
  (`C117_semiaxis_refuted`).
* `plot_gaussian_pdf(std=...)` is always refused because `variance` has a default (`C123_std_refuted`); `plot_gaussian`
  raises for every combination of its arguments because it passes them on in the wrong positions
  (`C123_deprecated_refuted`).
* Arrays of whole numbers (`np.array([0, 0])`) are integers to numpy.  `update_sequential` and
  `SquareRootKalmanFilter.update` raise `TypeError` on an integer state estimate (`C121_kf_sequential_refuted`,
  `C121_srkf_refuted`), and so do `rts_smoother` on integer arrays (`C121_rts_refuted`), `FixedLagSmoother.smooth` with a
  control input (`C121_fls_refuted`) and `MMAEFilterBank.update` with integer probabilities, which it truncates first
  (`C121_mmae_refuted`).
* `FadingMemoryFilter` of order 1 or 2 built from an integer array truncates its state after every measurement and may
  never move (`C121_fading_refuted`, `C121_fading2_refuted`).
* `discrete_bayes.predict` on an integer belief returns integers: a certain position becomes an array of zeros
  (`C121_bayes_predict_refuted`); `normalize` refuses an integer array (`C121_bayes_refuted`).
* An exception does not always mean that nothing happened (C124).  If one filter of an `IMMEstimator` or `MMAEFilterBank`
  raises in `update`, the filters before it have already taken the measurement in, and repeating the call counts it twice
  (`C124_bank_refuted`).  `UnscentedKalmanFilter.predict` stores the predicted `x` and `P` before it redraws the sigma
  points, which may raise (`C124_ukf_predict_refuted`).  `InformationFilter.update` with `1 < dim_z != dim_x` and the default
  `compute_log_likelihood=True` always raises, after having applied the measurement (`C124_information_update_refuted`).
  The setters `InformationFilter.F` and `HInfinityFilter.V` store a matrix they refuse (`C124_information_setF_refuted`,
  `C124_hinfinity_setV_refuted`).
