{"id": "C01", "title": "filter returns the exact posterior", "statement": "For a linear-Gaussian process with the filter's parameters, KalmanFilter.filter(X) returns at each time t the mean and covariance of the conditional distribution of the state at t given the unmasked observations at times 0..t; that distribution is the Gaussian with that mean and covariance.", "quantifier": "all state/observation dimensions, all lengths, all time-varying or constant A,b,C,d,Q,R, all initial moments, all positive semidefinite (possibly singular) covariances, all mask patterns, every probability space carrying independent Gaussian noises", "why_tests_cant": "Tests compare with stored numbers on one data set; being a posterior is a statement about a measure over all trajectories.", "anchors": ["pykalman/standard.py:_filter", "pykalman/standard.py:_filter_predict", "pykalman/standard.py:_filter_correct", "pykalman/standard.py:KalmanFilter.filter"]}
{"id": "C02", "title": "smooth returns the exact posterior given all data", "statement": "KalmanFilter.smooth(X) returns at each time t the mean and covariance of the conditional distribution of the state at t given all unmasked observations of X (past and future); that distribution is the Gaussian with that mean and covariance.", "quantifier": "same as C01, for every t in 0..T-1", "why_tests_cant": "Same as C01; the backward recursion has to be right for every trajectory and every singular predicted covariance.", "anchors": ["pykalman/standard.py:_smooth", "pykalman/standard.py:_smooth_update", "pykalman/standard.py:KalmanFilter.smooth"]}
{"id": "C03", "title": "lag-one smoothed covariance is exact", "statement": "The pairwise covariances that em uses at time t are the conditional cross-covariances of the states at t and t-1 given all unmasked observations.", "quantifier": "same as C01, every t in 1..T-1", "why_tests_cant": "It is an internal quantity whose only visible effect is the quality of em updates.", "anchors": ["pykalman/standard.py:_smooth_pair"]}
{"id": "C04", "title": "loglikelihood is the log density of the observations", "statement": "KalmanFilter.loglikelihood(X) is the logarithm of the joint probability density of the unmasked observations under the linear-Gaussian process with the filter's parameters.", "quantifier": "all dimensions, lengths, parameters with positive definite innovation covariances, mask patterns and observation values", "why_tests_cant": "A test can only compare against another evaluation at sample points.", "anchors": ["pykalman/standard.py:_loglikelihoods", "pykalman/standard.py:KalmanFilter.loglikelihood", "pykalman/utils/_sklearn.py:log_multivariate_normal_density"]}
{"id": "C05", "title": "em never decreases the likelihood", "statement": "Each iteration of KalmanFilter.em yields parameters whose loglikelihood on the same observations is at least that of the previous parameters.", "quantifier": "all data, masks, parameter values and em_vars selections for which the covariances before and after are positive definite", "why_tests_cant": "Monotonicity is claimed for every start point and data set; tests check a few runs.", "anchors": ["pykalman/standard.py:_em", "pykalman/standard.py:KalmanFilter.em"]}
{"id": "C06", "title": "each em update is a maximiser", "statement": "Every parameter em replaces is a maximiser of the expected complete-data log-likelihood under the smoothed posterior, with the other parameters at the values em used (those already updated, the rest old).", "quantifier": "all smoothed statistics, all competing parameter values (for covariances: all positive definite competitors), all mask patterns", "why_tests_cant": "Being a maximiser compares with every competitor.", "anchors": ["pykalman/standard.py:_em_observation_matrix", "pykalman/standard.py:_em_observation_covariance", "pykalman/standard.py:_em_transition_matrix", "pykalman/standard.py:_em_transition_covariance", "pykalman/standard.py:_em_initial_state_mean", "pykalman/standard.py:_em_initial_state_covariance", "pykalman/standard.py:_em_transition_offset", "pykalman/standard.py:_em_observation_offset"]}
{"id": "C07", "title": "the gain is optimal among all linear gains", "statement": "The filtered covariance returned after an observation is the smallest, in the positive-semidefinite order, among the error covariances of all linear corrections of the predicted mean by that observation, and it is attained by the gain used.", "quantifier": "all predicted covariances, observation models and noise covariances that are positive semidefinite, all competing gains; no Gaussian assumption", "why_tests_cant": "The competitor gain ranges over all matrices.", "anchors": ["pykalman/standard.py:_filter_correct"]}
{"id": "C08", "title": "returned covariances are symmetric positive semidefinite", "statement": "With positive semidefinite initial, transition and observation covariances every covariance returned by filter and smooth is symmetric positive semidefinite.", "quantifier": "all dimensions, lengths, parameters, masks and data", "why_tests_cant": "Needs an invariant along arbitrarily long runs.", "anchors": ["pykalman/standard.py:_filter", "pykalman/standard.py:_smooth", "pykalman/standard.py:KalmanFilter.filter", "pykalman/standard.py:KalmanFilter.smooth"]}
{"id": "C09", "title": "more data never increases uncertainty", "statement": "The filtered covariance never exceeds the predicted covariance and the smoothed covariance never exceeds the filtered one (positive-semidefinite order).", "quantifier": "all dimensions, lengths, positive semidefinite parameters, masks and data, all t", "why_tests_cant": "An order between matrices at every step of every run.", "anchors": ["pykalman/standard.py:_filter_correct", "pykalman/standard.py:_smooth_update"]}
{"id": "C10", "title": "covariances do not depend on observed values", "statement": "Two observation sequences with the same length and the same masked rows get the same covariances from filter and smooth, whatever their values.", "quantifier": "all pairs of data sets with equal missingness pattern, all parameters", "why_tests_cant": "Relates two runs for all data.", "anchors": ["pykalman/standard.py:_filter", "pykalman/standard.py:_smooth"]}
{"id": "C11", "title": "filter is causal", "statement": "filter(X[:k]) equals the first k entries of filter(X): later observations never change earlier filtered estimates.", "quantifier": "all X, all k, all parameters", "why_tests_cant": "Quantifies over all continuations.", "anchors": ["pykalman/standard.py:_filter", "pykalman/standard.py:KalmanFilter.filter"]}
{"id": "C12", "title": "online equals batch", "statement": "Feeding the observations one by one to filter_update, starting from the initial moments corrected by the first observation, produces exactly the sequence that filter returns, when filter_update is given the time step's parameters.", "quantifier": "all sequences, parameters (constant or per-step), masks", "why_tests_cant": "Equality of two algorithms for all histories; the tests run one sequence.", "anchors": ["pykalman/standard.py:KalmanFilter.filter_update", "pykalman/standard.py:_filter"]}
{"id": "C13", "title": "filter and smooth can be resumed", "statement": "Filtering X+Y equals filtering X and then continuing with Y from the last filtered moments with the parameters of the later time steps. The rows of smooth(X+Y) for Y are those of smooth on Y alone with that start, and what comes after X reaches the smoothed rows of X only through the first smoothed row after X.", "quantifier": "all splits of all sequences", "why_tests_cant": "Quantifies over split points and data.", "anchors": ["pykalman/standard.py:_filter", "pykalman/standard.py:_smooth", "pykalman/standard.py:KalmanFilter.smooth"]}
{"id": "C14", "title": "the last smoothed estimate is the last filtered estimate", "statement": "smooth(X) and filter(X) agree on the last time step, and smooth returns one entry per observation.", "quantifier": "all non-empty X and parameters", "why_tests_cant": "All inputs.", "anchors": ["pykalman/standard.py:_smooth"]}
{"id": "C15", "title": "masked values are irrelevant", "statement": "Values stored under the mask never influence filter, smooth, loglikelihood or em, and masking some components of a row is the same as masking the whole row.", "quantifier": "all pairs of masked arrays with the same rows masked and the same values in unmasked rows", "why_tests_cant": "Relates two runs for all hidden values.", "anchors": ["pykalman/standard.py:_filter_correct", "pykalman/standard.py:_loglikelihoods", "pykalman/standard.py:_em"]}
{"id": "C16", "title": "without observations filter returns the prior", "statement": "If every row is masked, filter and smooth return the unconditional mean and covariance of the process at each time and loglikelihood is 0.", "quantifier": "all lengths and parameters", "why_tests_cant": "All lengths and parameters; smoothing needs a proof that the backward pass is neutral.", "anchors": ["pykalman/standard.py:_filter", "pykalman/standard.py:_smooth", "pykalman/standard.py:_loglikelihoods"]}
{"id": "C17", "title": "loglikelihood is a sum over time and extends additively", "statement": "loglikelihood(X) is the sum over unmasked rows of the log density of each row under its one-step prediction; appending observations adds their conditional log densities; masked rows add 0.", "quantifier": "all X, all extensions", "why_tests_cant": "All histories.", "anchors": ["pykalman/standard.py:_loglikelihoods", "pykalman/standard.py:KalmanFilter.loglikelihood"]}
{"id": "C18", "title": "constant parameters equal repeated parameters", "statement": "Passing a parameter once or repeated for each time step gives the same filter and smooth results.", "quantifier": "every parameter among A,b,C,d,Q,R, all lengths, all data", "why_tests_cant": "All lengths, parameters and data.", "anchors": ["pykalman/standard.py:_last_dims", "pykalman/standard.py:_filter", "pykalman/standard.py:_smooth"]}
{"id": "C19", "title": "too short time-varying parameters are rejected, surplus is ignored", "statement": "filter fails with an IndexError exactly when some time-varying parameter has fewer entries than the run needs (number of observations for observation matrix, offset and covariance, one less for the transition parameters), masked rows included; entries beyond those never influence the result.", "quantifier": "all lengths of parameters and data", "why_tests_cant": "All combinations of lengths.", "anchors": ["pykalman/standard.py:_last_dims", "pykalman/standard.py:_filter", "pykalman/standard.py:_filter_correct"]}
{"id": "C20", "title": "filter and smooth are equivariant under change of state coordinates", "statement": "Replacing the state x by Lx+c for an invertible L (transforming all parameters accordingly) transforms filtered means and covariances accordingly and leaves loglikelihood unchanged. The same holds for an L that is not square, for example when offsets are written as an additional state that is always 1.", "quantifier": "all invertible L, all c, all parameters, data and masks", "why_tests_cant": "A relation between two runs for all coordinate changes.", "anchors": ["pykalman/standard.py:_filter", "pykalman/standard.py:_loglikelihoods"]}
{"id": "C21", "title": "filter is invariant under rescaling of observations", "statement": "Replacing every observation z by Lz+c for an invertible L, with observation matrix, offset and covariance transformed accordingly, leaves filtered means and covariances unchanged.", "quantifier": "all invertible L, all c, all data, masks and positive definite innovation covariances", "why_tests_cant": "A relation between two runs for all L.", "anchors": ["pykalman/standard.py:_filter_correct"]}
{"id": "C22", "title": "an uninformative observation equals a missing one", "statement": "A time step whose observation matrix is zero gives the same filtered moments as a masked step.", "quantifier": "all parameters and values", "why_tests_cant": "All values.", "anchors": ["pykalman/standard.py:_filter_correct"]}
{"id": "C23", "title": "em changes only the selected parameters", "statement": "em(X, n_iter, em_vars) leaves every parameter not in em_vars at its value (or default), with n_iter=0 it leaves the parameters at their defaults-resolved values, and em with a+b iterations equals em with a iterations followed by em with b.", "quantifier": "all em_vars subsets, all iteration counts, all data", "why_tests_cant": "All subsets and counts.", "anchors": ["pykalman/standard.py:KalmanFilter.em", "pykalman/standard.py:_em"]}
{"id": "C24", "title": "em covariances are valid", "statement": "The covariances em returns are symmetric positive semidefinite.", "quantifier": "all data and masks, positive semidefinite starting covariances", "why_tests_cant": "All data.", "anchors": ["pykalman/standard.py:_em_observation_covariance", "pykalman/standard.py:_em_transition_covariance", "pykalman/standard.py:_em_initial_state_covariance"]}
{"id": "C25", "title": "dimension inference is sound and order independent", "statement": "Constructing a filter succeeds exactly when all supplied arrays and explicit dimensions agree on n_dim_state and n_dim_obs (on the axes listed in the constructor); the inferred dimension is the common value, 1 if nothing is supplied, and does not depend on the order in which arguments are considered.", "quantifier": "all combinations of supplied/omitted arrays of all shapes", "why_tests_cant": "2^11 combinations times all shapes.", "anchors": ["pykalman/standard.py:_determine_dimensionality", "pykalman/standard.py:KalmanFilter.__init__"]}
{"id": "C26", "title": "parameters resolve by fixed priority and bad names are rejected", "statement": "Parameters are taken from the first source that has a non-None value, in the order given, each converted by its validator; a parameter that no source provides, or a name without validator, raises ValueError.", "quantifier": "all source dictionaries", "why_tests_cant": "All dictionaries.", "anchors": ["pykalman/utils/_sklearn.py:preprocess_arguments", "pykalman/utils/_sklearn.py:get_params", "pykalman/standard.py:KalmanFilter._initialize_parameters"]}
{"id": "C27", "title": "filter_update refuses to guess time-varying parameters", "statement": "filter_update uses an explicit argument when given; otherwise it uses the model's parameter if that is constant and raises ValueError if the model's parameter varies in time.", "quantifier": "all parameters and arguments", "why_tests_cant": "All combinations.", "anchors": ["pykalman/standard.py:_arg_or_default", "pykalman/standard.py:KalmanFilter.filter_update"]}
{"id": "C28", "title": "observation parsing", "statement": "A one-dimensional sequence of T numbers is treated as T scalar observations; a two-dimensional array with T>1 rows or one column is used as it is; parsing twice equals parsing once. (A single row with k>1 columns is read as k scalar observations: filter on a single multi-dimensional observation does not treat it as one time step.)", "quantifier": "all shapes and values", "why_tests_cant": "All shapes.", "anchors": ["pykalman/standard.py:KalmanFilter._parse_observations"]}
{"id": "C29", "title": "CholeskyKalmanFilter equals KalmanFilter", "statement": "With positive definite covariances CholeskyKalmanFilter.filter, smooth and loglikelihood return what KalmanFilter returns; with a covariance that is not positive definite filter fails with LinAlgError. A transition or observation covariance that varies with time is refused with ValueError by filter, smooth, loglikelihood and em: no method silently uses one of its members.", "quantifier": "all dimensions, lengths, data, masks, parameters; every sign convention of the QR routine", "why_tests_cant": "Equality of two algorithms for all inputs.", "anchors": ["pykalman/sqrt/cholesky.py:_filter", "pykalman/sqrt/cholesky.py:_filter_predict", "pykalman/sqrt/cholesky.py:_filter_correct", "pykalman/sqrt/cholesky.py:_reconstruct_covariances"]}
{"id": "C30", "title": "BiermanKalmanFilter equals KalmanFilter", "statement": "On data with at least one row and parameters given as floats (integers: C31, C103), BiermanKalmanFilter.filter returns what KalmanFilter.filter returns for positive definite observation covariance and positive semidefinite transition and initial covariance. An observation covariance that varies with time is refused with ValueError. Without rows KalmanFilter.filter returns empty arrays, BiermanKalmanFilter.filter raises IndexError.", "quantifier": "all dimensions, lengths, data, fully masked rows, parameters", "why_tests_cant": "Equality of two algorithms (sequential scalar UDU updates against joint update) for all inputs.", "anchors": ["pykalman/sqrt/bierman.py:_filter", "pykalman/sqrt/bierman.py:_filter_predict", "pykalman/sqrt/bierman.py:_filter_correct", "pykalman/sqrt/bierman.py:_filter_correct_single", "pykalman/sqrt/bierman.py:decorrelate_observations"]}
{"id": "C31", "title": "udu is a UDU' factorisation", "statement": "For a symmetric positive semidefinite matrix udu returns a unit upper triangular U and a nonnegative D with U diag(D) U' equal to the input. It raises AssertionError exactly if two entries across the diagonal differ by more than the tolerances of np.allclose; below these, the entries under the diagonal are ignored.", "quantifier": "all positive semidefinite matrices of all sizes (exact arithmetic)", "why_tests_cant": "All matrices, including singular ones where the algorithm divides by pivots.", "anchors": ["pykalman/sqrt/bierman.py:udu", "pykalman/sqrt/bierman.py:UDU_decomposition"]}
{"id": "C32", "title": "one Bierman scalar update is the Kalman update", "statement": "Processing one scalar observation with unit noise on a UDU-factored covariance yields factors of the Kalman-updated covariance and the Kalman gain.", "quantifier": "all sizes, factors and observation rows", "why_tests_cant": "All inputs.", "anchors": ["pykalman/sqrt/bierman.py:_filter_correct_single"]}
{"id": "C33", "title": "processing decorrelated components one at a time equals the joint update", "statement": "With observation noise covariance I, correcting by the components of an observation one after the other gives the same mean and covariance as correcting by the vector at once; multiplying observation, offset and matrix by the inverse Cholesky factor of the noise covariance does not change the correction.", "quantifier": "all dimensions and parameters", "why_tests_cant": "All inputs.", "anchors": ["pykalman/sqrt/bierman.py:_filter_correct", "pykalman/sqrt/bierman.py:decorrelate_observations"]}
{"id": "C34", "title": "sigma points reproduce the moments", "statement": "The sigma points and weights generated from a mean and covariance have exactly that weighted mean and covariance; mean weights sum to 1; there are 2n+1 points.", "quantifier": "all dimensions, means, positive definite covariances, alpha, beta, kappa with n+lambda>0", "why_tests_cant": "All moments.", "anchors": ["pykalman/unscented.py:moments2points", "pykalman/unscented.py:points2moments"]}
{"id": "C35", "title": "unscented filters on affine systems equal the Kalman filter", "statement": "If transition and observation functions are affine, AdditiveUnscentedKalmanFilter.filter returns what KalmanFilter.filter returns.", "quantifier": "all affine functions, data, masks, lengths, dimensions (while covariances stay positive definite so that Cholesky succeeds)", "why_tests_cant": "Equality of two algorithms.", "anchors": ["pykalman/unscented.py:additive_unscented_filter", "pykalman/unscented.py:unscented_filter_predict", "pykalman/unscented.py:unscented_filter_correct"]}
{"id": "C36", "title": "unscented smoother on affine systems equals the Kalman smoother", "statement": "If the transition function is affine AdditiveUnscentedKalmanFilter.smooth returns what KalmanFilter.smooth returns.", "quantifier": "as C35", "why_tests_cant": "Equality of two algorithms.", "anchors": ["pykalman/unscented.py:additive_unscented_smoother"]}
{"id": "C37", "title": "augmented unscented filter on affine systems equals the Kalman filter", "statement": "If transition and observation functions are affine in state and noise UnscentedKalmanFilter.filter returns what KalmanFilter.filter returns.", "quantifier": "as C35", "why_tests_cant": "Equality of two algorithms.", "anchors": ["pykalman/unscented.py:augmented_unscented_filter", "pykalman/unscented.py:augmented_points", "pykalman/unscented.py:augmented_unscented_filter_points"]}
{"id": "C38", "title": "unscented filter: causal, online equals batch, masked values irrelevant", "statement": "For arbitrary (nonlinear) functions the additive unscented filter is causal, its filter_update iterated equals filter, and values under the mask have no influence.", "quantifier": "all functions, data, masks", "why_tests_cant": "All functions.", "anchors": ["pykalman/unscented.py:additive_unscented_filter", "pykalman/unscented.py:AdditiveUnscentedKalmanFilter.filter_update"]}
{"id": "C39", "title": "per-time-step functions of unscented filters", "statement": "The documentation promises transition_functions[t] and observation_functions[t] are used at step t. (Claimed by the docs; the code always uses the first function.)", "quantifier": "all lists of functions", "why_tests_cant": "Tests use a single function.", "anchors": ["pykalman/unscented.py:AdditiveUnscentedKalmanFilter", "pykalman/standard.py:_last_dims", "pykalman/unscented.py:UnscentedMixin._initialize_parameters"]}
{"id": "C40", "title": "square-root unscented filter equals the additive unscented filter", "statement": "AdditiveUnscentedKalmanFilter (sqrt) returns the moments of the standard additive unscented filter. (Holds for the gain when n_dim_obs = 1 or the innovation factor is symmetric; fails in general for n_dim_obs >= 2; the factor of the moments is right when no weight is negative, i.e. n_dim_state <= 3, and fails beyond.) smooth agrees for one state and one observation dimension; for two state dimensions and one observation dimension it agrees exactly if at every row but the first the data reduce the variance of the first component, and otherwise divides by zero; with at least two more state than observation dimensions, or with at least two state dimensions and a missing last row, it always divides by zero.", "quantifier": "all functions, moments, dimensions", "why_tests_cant": "Tests use one model where deviations are hidden.", "anchors": ["pykalman/sqrt/unscented.py:_unscented_correct", "pykalman/sqrt/unscented.py:points2moments", "pykalman/sqrt/unscented.py:_additive_unscented_filter"]}
{"id": "C41", "title": "cholupdate updates a Cholesky factor", "statement": "cholupdate(R, X, w) returns an upper triangular factor of R'R + sum_i w x_i x_i' for w=+1 updates.", "quantifier": "all factors with positive diagonal and all vectors", "why_tests_cant": "All inputs.", "anchors": ["pykalman/sqrt/unscented.py:cholupdate"]}
{"id": "C42", "title": "sample follows the state equations", "statement": "sample(T) returns T states and T observations where each state is the transition of the previous one plus a noise draw and each observation the emission of its state plus a noise draw; a given initial_state is returned as the first state; equal random streams give equal samples.", "quantifier": "all parameters, lengths, random streams", "why_tests_cant": "All streams.", "anchors": ["pykalman/standard.py:KalmanFilter.sample"]}
{"id": "C43", "title": "sample honours time-varying covariances", "statement": "With time-varying transition/observation covariances the noise at step t has the covariance of step t. (Fails: the code keeps using the first one.)", "quantifier": "all time-varying covariances, lengths >= 3 (transition) or >= 2 (observation)", "why_tests_cant": "The noise covariance is not visible in one sample.", "anchors": ["pykalman/standard.py:KalmanFilter.sample"]}
{"id": "C44", "title": "square-root filter_update output can be fed back", "statement": "filter_update returns a mean of shape (n,) and covariance of shape (n,n) that can be passed to the next call. (Fails for the Cholesky, Bierman and square-root unscented classes, which return shape (1,n,n).)", "quantifier": "all inputs", "why_tests_cant": "All inputs; shape of result is not asserted by tests.", "anchors": ["pykalman/sqrt/cholesky.py:CholeskyKalmanFilter.filter_update", "pykalman/sqrt/bierman.py:BiermanKalmanFilter.filter_update", "pykalman/sqrt/unscented.py:AdditiveUnscentedKalmanFilter.filter_update", "pykalman/sqrt/cholesky.py:_reconstruct_covariances"]}
{"id": "C45", "title": "em works with default em_vars on all linear classes", "statement": "em(X) with default arguments estimates the default variables. (Holds for KalmanFilter; for the Cholesky and Bierman classes it raises TypeError; assigning em_vars after construction has no effect on KalmanFilter.)", "quantifier": "all data", "why_tests_cant": "Configuration-dependent.", "anchors": ["pykalman/standard.py:KalmanFilter.em", "pykalman/sqrt/cholesky.py:CholeskyKalmanFilter.em", "pykalman/sqrt/bierman.py:BiermanKalmanFilter.em"]}
{"id": "C46", "title": "seeding", "statement": "check_random_state maps None to the global stream, an integer to a fresh stream determined by it, a RandomState to itself; anything else is a documented ValueError. (The last part fails: AttributeError.)", "quantifier": "all arguments", "why_tests_cant": "All arguments.", "anchors": ["pykalman/utils/_sklearn.py:check_random_state"]}
{"id": "C47", "title": "smooth and filter agree on the model's own mean path", "statement": "If every unmasked observation equals its one-step prediction (zero innovations), filtered and smoothed means equal the unconditional mean path.", "quantifier": "all parameters, masks, lengths", "why_tests_cant": "All lengths.", "anchors": ["pykalman/standard.py:_filter", "pykalman/standard.py:_smooth"]}
{"id": "C48", "title": "filtered and smoothed means are affine in the data", "statement": "For fixed parameters and mask the filtered and smoothed means are affine functions of the observations: an affine combination of data sets gives the affine combination of the means. They are linear functions of data, offsets and initial mean taken together (superposition, for arbitrary factors), and the covariances do not change. In particular known inputs can be subtracted: the model without offsets and initial mean, applied to the deviations of the readings from the mean path, returns the deviations of the means from that path and the same covariances.", "quantifier": "all data sets X, Y, scalars, parameters", "why_tests_cant": "All data.", "anchors": ["pykalman/standard.py:_filter", "pykalman/standard.py:_smooth"]}
{"id": "C49", "title": "loglikelihood supports what filter supports", "statement": "loglikelihood accepts the same time-varying parameters as filter. (Fails for a time-varying observation covariance, which filter accepts.)", "quantifier": "all models with 3-D observation covariance", "why_tests_cant": "Configuration-dependent.", "anchors": ["pykalman/standard.py:_loglikelihoods"]}
{"id": "C50", "title": "robot data set padding", "statement": "load_robot returns observations with one masked row prepended, all other rows unmasked and equal to the data. filter, smooth and loglikelihood of the linear classes treat them as one missing observation followed by the recorded ones, so filter returns the initial mean and covariance in its first row.", "quantifier": "all data contents", "why_tests_cant": "All contents.", "anchors": ["pykalman/datasets/base.py:load_robot"]}
{"id": "C51", "title": "more noise or fewer observations never reduce the reported uncertainty", "statement": "Enlarging the transition, observation or initial covariance, or masking additional rows, never makes a filtered or smoothed covariance smaller (positive-semidefinite order).", "quantifier": "all parameters with positive semidefinite covariances, all data, masks and lengths", "why_tests_cant": "An order relation over all pairs of parameter sets and mask patterns; tests can only compare a few pairs.", "anchors": ["pykalman/standard.py:187-306", "pykalman/standard.py:309-418", "pykalman/standard.py:_smooth", "pykalman/standard.py:_smooth_update"]}
{"id": "C52", "title": "additive unscented filter keeps covariances positive definite", "statement": "With at most three state dimensions and positive definite Q, R and initial covariance, AdditiveUnscentedKalmanFilter.filter and smooth never raise LinAlgError and return positive definite covariances, whatever the (nonlinear) functions and data. (From four state dimensions on the central weight is negative and there are functions for which the filter raises LinAlgError.)", "quantifier": "all functions, data, masks, lengths; all dimensions n <= 3 resp. n >= 4", "why_tests_cant": "Quantifies over all nonlinear functions.", "anchors": ["pykalman/unscented.py:moments2points", "pykalman/unscented.py:additive_unscented_filter", "pykalman/unscented.py:additive_unscented_smoother"]}
{"id": "C53", "title": "unscented filters compute the textbook unscented transform for arbitrary functions", "statement": "Every row returned by filter and smooth, and every result of filter_update, of AdditiveUnscentedKalmanFilter and UnscentedKalmanFilter is the textbook unscented transform (points mean and mean ± sqrt(3) times the columns of the Cholesky factor, weights 1 - k/3 and 1/6) followed by the Kalman resp. Rauch-Tung-Striebel correction, with the functions and covariances of that time step, or those passed to filter_update; and there is a result exactly when the covariances to be factorised are positive definite and the functions of the needed time steps exist.", "quantifier": "all transition and observation functions (nonlinear), symmetric covariances, data, masks, lengths and dimensions", "why_tests_cant": "Quantifies over all functions; the tests use a few particular functions and compare with stored numbers.", "anchors": ["pykalman/unscented.py:62-116", "pykalman/unscented.py:119-206", "pykalman/unscented.py:209-393", "pykalman/unscented.py:396-675", "pykalman/unscented.py:904-1022", "pykalman/unscented.py:1220-1331"]}
{"id": "C54", "title": "reported covariances are honest and estimates optimal", "statement": "On data from the model, the error of row t of filter (state minus filtered mean) is centred Gaussian with exactly the reported covariance, is independent of the unmasked rows 0..t, and its normalised square (NEES) is chi-square with n degrees of freedom; and for every estimator computed from these rows and every direction, the mean square error is the reported variance plus the mean square distance to the filtered mean, so none is better. Likewise smooth with all unmasked rows.", "quantifier": "all linear-Gaussian processes, parameters (time varying, singular covariances allowed), masks, lengths, dimensions; all measurable estimators", "why_tests_cant": "A statement about distributions and about all competing estimators; a test sees finitely many draws.", "anchors": ["pykalman/standard.py:KalmanFilter.filter", "pykalman/standard.py:KalmanFilter.smooth", "pykalman/standard.py:_filter", "pykalman/standard.py:_smooth"]}
{"id": "C55", "title": "one-step forecasts are honest and innovations are white", "statement": "On data from the model, forecasting observation t from row t-1 of filter (C(A mean + b) + d with covariance C(A cov A' + Q)C' + R; from the prior at t = 0) gives a forecast error that is centred Gaussian with exactly that covariance and independent of the unmasked rows 0..t-1; no forecast from these rows is better; and the forecast errors at unmasked times are mutually independent.", "quantifier": "all linear-Gaussian processes, parameters, masks, lengths, dimensions", "why_tests_cant": "A statement about joint distributions over all outcomes.", "anchors": ["pykalman/standard.py:_filter_predict", "pykalman/standard.py:_filter_correct", "pykalman/standard.py:KalmanFilter.filter"]}
{"id": "C56", "title": "constructors and parameters of the unscented filters", "statement": "The constructor of the unscented classes succeeds exactly if all arguments agree on the dimensions (otherwise ValueError), with dimension 1 if nothing determines it. filter and smooth of AdditiveUnscentedKalmanFilter, its square-root variant and UnscentedKalmanFilter then run with exactly the functions and arrays given, a single callable standing for itself at all times, and with identity functions (plus noise), identity covariances and zero mean for what was left out. Objects made with nothing but n_dim_state = n_dim_obs agree across KalmanFilter, AdditiveUnscentedKalmanFilter and UnscentedKalmanFilter. The function used at each time step is the one the given array of functions holds for that step.", "quantifier": "all combinations of given and omitted arguments, dimensions, functions, data and masks", "why_tests_cant": "Two to the ninth combinations of arguments, each with arbitrary values; the tests try a handful.", "anchors": ["pykalman/unscented.py:676-751", "pykalman/unscented.py:1067-1076", "pykalman/unscented.py:1376-1385", "pykalman/unscented.py:862-902", "pykalman/unscented.py:1178-1218"]}
{"id": "C57", "title": "exactness of unscented predictions for polynomial functions", "statement": "At a missing observation the mean returned by AdditiveUnscentedKalmanFilter.filter equals the exact expectation of the transition function under the Gaussian law reported for the step before if the function is a polynomial of degree at most three (degree two suffices without Gaussianity; in one dimension degree five, and there the covariance is exact for degree two); likewise UnscentedKalmanFilter with state and noise jointly. An observation equal to its exact expectation leaves the mean unchanged. From two dimensions on degree four is not exact.", "quantifier": "all polynomial functions of the stated degrees, dimensions, covariances, data and masks", "why_tests_cant": "Compares the numbers returned with exact integrals, for all polynomials.", "anchors": ["pykalman/unscented.py:62-116", "pykalman/unscented.py:119-206", "pykalman/unscented.py:209-393", "pykalman/unscented.py:1178-1218"]}
{"id": "C58", "title": "from the user's arrays to the results of the linear classes", "statement": "Constructing KalmanFilter, CholeskyKalmanFilter or BiermanKalmanFilter from arrays, numbers, rows or sequences of arrays (anything omitted standing for identity matrices and zero vectors) gives an object whose filter, smooth, loglikelihood and filter_update run with exactly the parameters these stand for, on exactly the observations the data stand for (rows, or a list of numbers). Where a square-root class accepts the parameters it returns what KalmanFilter returns. Hence the rows returned are the exact posterior moments of the process with these parameters. em returns an object equal to one constructed from the parameters the algorithm arrives at; em with i and then j iterations ends where i + j iterations end.", "quantifier": "all combinations of given and omitted arguments and their shapes, classes, dimensions, data and masks", "why_tests_cant": "The claim spans constructor, parsing and algorithm for all shapes and values; tests compare stored numbers on one data set.", "anchors": ["pykalman/standard.py:1055-1113", "pykalman/standard.py:1186-1238", "pykalman/standard.py:1240-1354", "pykalman/standard.py:1356-1591", "pykalman/standard.py:1593-1648", "pykalman/sqrt/cholesky.py:351-799", "pykalman/sqrt/bierman.py:514-968"]}
{"id": "C59", "title": "smoothed means are the least-squares trajectory", "statement": "For positive definite covariances the means returned by KalmanFilter.smooth are the unique trajectory minimising the sum of weighted squares: initial state minus initial mean, every state minus what transition matrix and offset make of its predecessor, every unmasked observation minus what observation matrix and offset make of its state; each weighted with the inverse of its covariance. They are hence the most likely trajectory given the data. The mean returned by filter for row t is the last point of the minimiser for rows 0..t.", "quantifier": "all constant or time-varying parameters with positive definite covariances, dimensions, lengths, data and masks; all competing trajectories", "why_tests_cant": "Compares with every other trajectory, over all parameters.", "anchors": ["pykalman/standard.py:309-418", "pykalman/standard.py:421-551"]}
{"id": "C60", "title": "no Gaussian assumption: bounds, unbiasedness, best linear estimates", "statement": "Take a linear system with the matrices, offsets and initial mean passed to KalmanFilter, driven by uncorrelated square-integrable disturbances of any law. If the covariances passed are at least the second moments of the disturbances, the covariance reported by filter and by smooth for a row bounds the mean square error of the reported mean in every direction. If they are equal, the reported covariance is the mean square error; if the disturbances are also centred, no estimator that is linear in the same unmasked rows has a smaller one. For centred disturbances the reported means are unbiased whatever the covariances passed.", "quantifier": "all probability spaces, laws of disturbances, constant or time-varying parameters, masks, lengths, competing linear estimators", "why_tests_cant": "Quantifies over laws of the disturbances and over all linear estimators; expectations cannot be tested exactly.", "anchors": ["pykalman/standard.py:187-306", "pykalman/standard.py:309-418", "pykalman/standard.py:421-551"]}
{"id": "C61", "title": "influence of a wrong initial mean", "statement": "Two runs of filter (or of smooth) on the same observations whose parameters differ only in initial_state_mean report the same covariances. If the two initial means differ in every direction by at most s standard deviations of initial_state_covariance, then the reported means of every row differ in every direction by at most s reported standard deviations.", "quantifier": "all parameters, pairs of initial means, factors s, data, masks, lengths and rows", "why_tests_cant": "A bound in all directions, for all parameters and lengths.", "anchors": ["pykalman/standard.py:187-306", "pykalman/standard.py:309-418", "pykalman/standard.py:421-551"]}
{"id": "C62", "title": "rate at which the initial moments are forgotten", "statement": "Two runs of filter on the same observations that differ in the initial covariance (the first at most 1 + d times the second): if at every step at least the fraction 1 - q of the predicted covariance of the second run is transition covariance, the reported covariance of row t in the first run is at most 1 + d q^t times that in the second. Two runs that differ in the initial mean, by at most s initial standard deviations in every direction: under the same condition the means of row t differ by at most s q^(t/2) reported standard deviations.", "quantifier": "all time-varying or constant parameters, data, masks, lengths, pairs of initial moments, q and d", "why_tests_cant": "A bound in all directions and at all lengths, over all parameters.", "anchors": ["pykalman/standard.py:187-306", "pykalman/standard.py:309-418"]}
{"id": "C63", "title": "steady state", "statement": "KalmanFilter with constant parameters, positive definite transition covariance and a state that can be tracked from the observations (some observer has shrinking errors), on data without masked rows: there is a covariance P such that a run whose initial covariance is that predicted from P reports P at every row, and every run, whatever its initial covariance, reports covariances that converge to P at a geometric rate, independently of the data. The difference between two runs from different initial means tends to zero at a geometric rate as well.", "quantifier": "all such parameters, dimensions, initial moments, data and lengths", "why_tests_cant": "A statement about the limit of arbitrarily long runs.", "anchors": ["pykalman/standard.py:187-306", "pykalman/standard.py:309-418"]}
{"id": "C64", "title": "Results depend smoothly on parameters and data", "statement": "Let the parameters of a KalmanFilter and the unmasked observations depend on some quantity theta (a number, a vector) r times continuously differentiably. Then so do the arrays returned by filter wherever the observation covariances of the unmasked rows are positive definite, the arrays returned by smooth wherever all covariances are positive definite, and the value of loglikelihood there if the observation covariance is constant in time. In particular small changes of parameters or data change the results little, and gradients with respect to parameters exist. With a singular observation covariance this fails: with R = 0 the filtered mean jumps as the initial variance tends to zero.", "quantifier": "all dimensions, lengths, masks, constant or time-varying parameters, all normed spaces of theta, every order of differentiability including infinite", "why_tests_cant": "Differentiability is a limit statement; finite differences on examples neither show it at other parameters nor distinguish a kink from curvature, and the pseudo-inverse used by the code is discontinuous at singular matrices.", "anchors": ["pykalman/standard.py:123-184", "pykalman/standard.py:187-306", "pykalman/standard.py:309-418", "pykalman/standard.py:421-551"]}
{"id": "C65", "title": "em converges to critical points of the likelihood", "statement": "If em leaves the parameters unchanged then they are a critical point of loglikelihood: along every differentiable family of parameters through them that moves only what em estimates and keeps covariances positive definite, the derivative of loglikelihood vanishes. If the parameters returned by em(X, n_iter=k) converge, as k grows, to parameters with positive definite covariances, then em leaves the limit unchanged, and the limit is a critical point of loglikelihood. (The estimated parameters, the covariances that weigh them, and the observation covariance are constant in time.)", "quantifier": "all dimensions, data, masks, selections of em_vars, initial parameters; all differentiable families", "why_tests_cant": "A test runs finitely many iterations and can only see that increments become small, which does not show that the likelihood is stationary; the statement is about all directions and about limits.", "anchors": ["pykalman/standard.py:123-184", "pykalman/standard.py:584-722", "pykalman/standard.py:725-962", "pykalman/standard.py:1418-1533"]}
{"id": "C66", "title": "sample uses the covariances given, whatever their byte order", "statement": "The noise that sample draws has the covariance the user specified, also when the NumPy arrays holding the covariances are not stored in the byte order of the machine (for example arrays read from a big-endian .mat or FITS file). The code passes the covariances through newbyteorder(arr, '='), which changes the label of the byte order without moving bytes.", "quantifier": "for all parameters, lengths, generators, initial states and all covariance arrays of doubles, on machines of either byte order, for KalmanFilter, UnscentedKalmanFilter and AdditiveUnscentedKalmanFilter", "why_tests_cant": "Tests run on one machine with native arrays, for which the conversion does nothing; the claim is about every array content and both byte orders, and a wrong covariance is only visible statistically.", "anchors": ["pykalman/utils/_numpy.py:8-26", "pykalman/standard.py:1159-1182", "pykalman/unscented.py:846-858", "pykalman/unscented.py:1162-1174"]}
{"id": "C67", "title": "Never worse than the latest sensor; an exact sensor is believed", "statement": "After an observation the filtered covariance of the observed quantity, C P C', is at most the observation covariance R in the Loewner order, whatever the prior covariance: the filter is never less certain about what the sensor measures than the sensor itself. If R = 0 and the predicted observation covariance is invertible, the filtered mean reproduces the reading exactly and the filtered covariance of the observed quantity is 0.", "quantifier": "for all parameters with positive semidefinite covariances, all observation sequences and all time steps that are observed", "why_tests_cant": "An inequality between matrices for all covariances and a boundary case (R = 0) of the pseudo-inverse; tests sample finitely many well-conditioned models.", "anchors": ["pykalman/standard.py:233-306", "pykalman/standard.py:309-418", "pykalman/standard.py:1186-1238"]}
{"id": "C68", "title": "Fusing sensors: stacked and sequential updates agree, in either order", "statement": "Observing two sensors with independent noise at once (stacked observation matrices, block-diagonal observation covariance) gives the same filtered mean and covariance as correcting with the first sensor and then with the second, and the order of the two corrections does not matter.", "quantifier": "for all predicted means and positive semidefinite covariances, all observation matrices, offsets, readings and positive definite observation covariances of the two sensors; for whole runs of filter with all parameters and all observations", "why_tests_cant": "Equality of two different numerical procedures for all matrices of all dimensions; tests can only compare single cases.", "anchors": ["pykalman/standard.py:233-306", "pykalman/standard.py:309-418", "pykalman/standard.py:1186-1238", "pykalman/standard.py:1240-1354"]}
{"id": "C69", "title": "Only the ratios of the covariances matter", "statement": "If the initial covariance and all transition and observation covariances are multiplied by the same positive number c, then filter and smooth return exactly the same means, and their covariances are multiplied by c.", "quantifier": "for all parameters (also time-varying, also indefinite or singular covariances), all c > 0 and all observation sequences with any pattern of missing rows", "why_tests_cant": "A statement about all models and all scale factors including singular covariances; a test fixes finitely many.", "anchors": ["pykalman/standard.py:187-306", "pykalman/standard.py:421-553", "pykalman/standard.py:1186-1238", "pykalman/standard.py:1356-1411"]}
{"id": "C70", "title": "Quantities known exactly stay known exactly", "statement": "A linear combination H x of the state components that is known initially, that each transition determines from itself and that no noise enters (for example a conserved total) is reproduced exactly: every filtered and every smoothed mean satisfies H mean = the known value, and H cov = 0, whatever the observations say.", "quantifier": "for all parameters, all matrices H, all observation sequences and all time steps of filter and smooth", "why_tests_cant": "Holds for all observations, including contradictory ones, and all singular covariance structures.", "anchors": ["pykalman/standard.py:187-306", "pykalman/standard.py:421-553", "pykalman/standard.py:1186-1238", "pykalman/standard.py:1356-1411"]}
{"id": "C71", "title": "A missing row can be left out of the model", "statement": "If row k is missing, then filter and smooth on the remaining rows, with a model in which step k is left out (the two transitions around it composed, at the beginning absorbed in the initial moments), return the same rows except row k, and loglikelihood returns the same value. So irregularly sampled data may be handled either by masked rows or by longer steps. If all parameters are constant and the process starts in its stationary law, any number of masked rows in front of the data changes neither the rows returned for the data nor the log likelihood.", "quantifier": "for all (time-varying) parameters, all observation sequences, all missing rows k (first, inner, last); for smooth with positive semidefinite covariances, also singular ones", "why_tests_cant": "Relates two runs with different parameters and lengths for all models; composition of the smoother gains through pseudo-inverses holds only because of a range argument that single numeric cases do not exercise.", "anchors": ["pykalman/standard.py:187-306", "pykalman/standard.py:309-418", "pykalman/standard.py:421-553", "pykalman/standard.py:123-184"]}
{"id": "C72", "title": "A state that does not change: recursive least squares", "statement": "With transition matrix 1, no offset and no transition noise, row t of filter is the posterior of Bayesian linear regression with rows 0..t: covariance = (S0^-1 + sum C'R^-1 C)^-1 and mean = covariance (S0^-1 mu0 + sum C'R^-1 (z - d)) over the rows that are not missing. Every row of smooth is the regression with all rows. The order of the rows, with their observation parameters, does not matter.", "quantifier": "for all dimensions, time-varying observation matrices, offsets and positive definite covariances, positive definite prior covariances, all data, masks and permutations of the rows", "why_tests_cant": "Equality of a recursion with a closed formula for all lengths and data, and invariance under all permutations.", "anchors": ["pykalman/standard.py:187-306", "pykalman/standard.py:309-418", "pykalman/standard.py:421-553", "pykalman/standard.py:1186-1238", "pykalman/standard.py:1356-1411"]}
{"id": "C73", "title": "Masking a row is the limit of infinite observation noise", "statement": "If the observation covariance of one row is multiplied by s and s tends to infinity, then every mean and covariance that filter and smooth return, at all time steps, converges to what is returned when that row is masked.", "quantifier": "for all parameters with positive semidefinite (smooth: positive definite) covariances and positive definite covariances of the observed rows, all data, all rows k and all time steps", "why_tests_cant": "A limit; a test with a large number only checks closeness for one model and one number.", "anchors": ["pykalman/standard.py:187-306", "pykalman/standard.py:309-418", "pykalman/standard.py:421-553"]}
{"id": "C74", "title": "Estimates from simulated data are calibrated against the simulated states", "statement": "Simulate states and observations with sample, mask some observations, and pass them to filter and smooth of the same model (with initial_state passed to sample: of the model that starts there with covariance zero). If the random generator delivers independent draws with the requested normal laws, then the errors of the estimates against the simulated states are centred Gaussian with exactly the reported covariances and independent of the data used, and no other estimator computed from the same data has smaller mean square error.", "quantifier": "for all generators and all distributions of their internal state, all parameters with positive semidefinite covariances and constant noise covariances, all lengths, all masks, with and without a given initial state, all time steps", "why_tests_cant": "A statement about probability laws of the joint output of two methods; a simulation study only gives estimates for a chosen model.", "anchors": ["pykalman/standard.py:1115-1184", "pykalman/standard.py:1186-1238", "pykalman/standard.py:1356-1416"]}
{"id": "C75", "title": "The singular-value cut-off inside pinv does not change results", "statement": "`KalmanFilter.filter` and `smooth` invert the innovation covariance and the predicted state covariance with scipy.linalg.pinv, which treats singular values up to max(shape)*eps times the largest one as zero. The means and covariances returned are nevertheless those of the exact formulas, and if something is dropped the reported covariances still bound the mean square error.", "quantifier": "for every singular value routine, every eps >= 0, every model, number of observations, mask and data", "why_tests_cant": "Whether a singular value falls under the cut-off depends on the ratio of noise and uncertainty along the whole run; a test covers single well-scaled models, and on those the cut-off is never reached. The claim about mean square errors quantifies over all distributions of the disturbances.", "anchors": ["pykalman/standard.py:233-306", "pykalman/standard.py:421-485"]}
{"id": "C76", "title": "A call of em that raises leaves the parameters of the last complete iteration; nothing else changes an object", "statement": "Whatever sequence of filter, smooth, loglikelihood and em calls is made on one object of a linear class, and whichever of them raise, the object's parameters are always those reached by the em iterations completed so far: a raising em leaves exactly the object that em with n_iter = (number of completed iterations) returns, never a mixture of old and new parameters, and read-only methods leave no trace. em of KalmanFilter, on data without nan (for nan see C102) and in exact arithmetic, can only raise before its first assignment of new values. Every later call works with exactly the parameters left behind.", "quantifier": "for every class, constructor arguments, sequence of calls, data, mask, em_vars, n_iter and point at which an exception is raised", "why_tests_cant": "The exception can occur in any iteration of any call of any history; a test fixes one history and one failure.", "anchors": ["pykalman/standard.py:1418-1533", "pykalman/sqrt/cholesky.py:612-739", "pykalman/sqrt/bierman.py:781-908"]}
{"id": "C77", "title": "Which random numbers sample uses: reproducible with an integer seed, no interference between generators", "statement": "A call of sample with an integer random_state (given in the call, else to the constructor) returns the same states and observations whenever it is made and advances no generator. Calls given a RandomState, or none (NumPy's global generator), depend only on that generator: interleaved calls on other objects or with other generators do not change their results. A seed in the call goes before that of the constructor. Asking for more time steps from the same state of the generator extends the sample and leaves its beginning unchanged. A call for T >= 1 steps makes 2T-1 draws (none for T = 0), and one more if no initial state is given; a call that raises because a list of parameters is too short has used up the draws of the steps before it and does not put the generator back.", "quantifier": "for every class with sample, every generator, seed, object, number of steps, initial state and every interleaving of calls, including calls that raise midway", "why_tests_cant": "Reproducibility has to hold against all histories of other calls; a test shows two runs.", "anchors": ["pykalman/standard.py:1115-1184", "pykalman/unscented.py:806-860", "pykalman/unscented.py:1124-1176", "pykalman/utils/_sklearn.py:check_random_state"]}
{"id": "C78", "title": "nan in the data is not treated as missing: it turns all later means into nan, and under a mask it has no effect", "statement": "If a row of the observations without masked entries contains nan, every mean that filter returns for that time and later consists of nan, the means before it are unaffected, and every mean that smooth returns, also for earlier times, consists of nan. The covariances and the exceptions raised are those for data without nan. A nan in a row with a masked entry has no effect at all.", "quantifier": "for all parameters, all lengths, all masks, all positions and numbers of nan", "why_tests_cant": "A statement about all positions of nan in records of any length and all parameters; a test inserts one nan.", "anchors": ["pykalman/standard.py:_filter_correct", "pykalman/standard.py:_filter", "pykalman/standard.py:_smooth", "pykalman/standard.py:_smooth_update"]}
{"id": "C79", "title": "Rounding errors in filter, smooth and loglikelihood stay proportional to the unit roundoff if the noise covariances are positive definite", "statement": "If every operation (sums, inner products, the singular value decomposition in pinv, the Cholesky factorisation, solve, log) is computed with relative errors up to u, then for u up to some u0 filter returns means and covariances that differ from the exact ones (those the other properties describe) by at most K*u, where K and u0 depend on the parameters and the data only and not on how the errors fall. The observation noise has to have a positive definite covariance. For smooth the same holds if the transition noise has positive definite covariances as well, and for loglikelihood, which then raises no exception. The condition cannot be dropped: for a sensor without noise there are data for which the error of filter is at least 1/2 for every u, however small.", "quantifier": "for all dimensions, lengths, parameters, masks and data, all u up to u0 and all arithmetics with errors bounded by u", "why_tests_cant": "Whatever the rounding does: a test sees the errors of one machine on one data set, and in benign cases they cancel.", "anchors": ["pykalman/standard.py:_filter_predict", "pykalman/standard.py:_filter_correct", "pykalman/standard.py:_filter", "pykalman/standard.py:_smooth_update", "pykalman/standard.py:_smooth", "pykalman/standard.py:_loglikelihoods", "pykalman/utils/_sklearn.py:log_multivariate_normal_density"]}
{"id": "C80", "title": "Rounding errors in CholeskyKalmanFilter: results proportional to the unit roundoff, and never a negative variance", "statement": "If every operation (sums, inner products, QR and Cholesky factorisation, the singular value decomposition in pinv, solve, log) is computed with relative errors up to u, then for u up to some u0 filter, smooth and loglikelihood of CholeskyKalmanFilter raise no exception and their results differ from the exact ones by at most K*u, where K and u0 depend on the parameters and the data only; all three covariances have to be positive definite. Moreover, for every u, however large, and all parameters and data for which filter returns at all: if the machine computes no negative inner product of a vector with itself, no returned variance is negative; if its inner products are symmetric, the returned covariances are; and every returned covariance differs from a positive semidefinite matrix by the rounding errors of one inner product per entry only, however long the run. Covariances that vary with time are refused with ValueError as in exact arithmetic. For KalmanFilter variances that never become negative cannot be promised: for every u < 1 there are an arithmetic with errors up to u and a model with positive definite covariances for which filter returns a negative variance.", "quantifier": "for all dimensions, lengths, parameters, masks and data, all u (up to u0 for the first part) and all arithmetics with errors bounded by u", "why_tests_cant": "Whatever the rounding does: a test sees the errors of one machine on one data set; that no variance can become negative, the reason for using a square root filter, is a statement about all runs of any length.", "anchors": ["pykalman/sqrt/cholesky.py:_reconstruct_covariances", "pykalman/sqrt/cholesky.py:_filter_predict", "pykalman/sqrt/cholesky.py:_filter_correct", "pykalman/sqrt/cholesky.py:_filter", "pykalman/sqrt/cholesky.py:CholeskyKalmanFilter.filter", "pykalman/sqrt/cholesky.py:CholeskyKalmanFilter.smooth", "pykalman/sqrt/cholesky.py:CholeskyKalmanFilter.loglikelihood", "pykalman/standard.py:_filter_correct"]}
{"id": "C81", "title": "Rounding errors do not accumulate", "statement": "In arithmetic with errors up to u in every operation, the means and covariances that filter and smooth compute differ from the exact ones by at most K u, with K and the admissible u depending only on the dimensions and on bounds: a bound for the entries of the parameters, the data and the exact filtered variances, and lower bounds q > 0 and r > 0 for the transition and the observation noise. They do not depend on the number of time steps, on the parameters or on the data. With constant observation noise covariance, loglikelihood raises no exception for such u, and its error is at most K u per row plus the error of adding up as many numbers as there are rows, with K again independent of their number. The bound on the variances is automatic if every row is observed and every reading determines the state up to noise. The transition noise is needed: for a constant known exactly (transition noise 0) there is no K that serves for runs of all lengths.", "quantifier": "for all run lengths, all parameters and data within given bounds, all u up to u0 and all arithmetics with errors bounded by u", "why_tests_cant": "A run of a given length in one arithmetic says nothing about longer runs: whether errors are forgotten or pile up is a property of all lengths, all models within the bounds and all ways of rounding.", "anchors": ["pykalman/standard.py:_filter_predict", "pykalman/standard.py:_filter_correct", "pykalman/standard.py:_filter", "pykalman/standard.py:_smooth_update", "pykalman/standard.py:_smooth", "pykalman/standard.py:KalmanFilter.filter", "pykalman/standard.py:KalmanFilter.smooth", "pykalman/standard.py:_loglikelihoods", "pykalman/standard.py:KalmanFilter.loglikelihood", "pykalman/utils/_sklearn.py:log_multivariate_normal_density"]}
{"id": "C82", "title": "Units of the state do not matter to the unscented filters; the order of its components does", "statement": "Expressing the state of an AdditiveUnscentedKalmanFilter or UnscentedKalmanFilter in other units and with other zero points (more generally as L x + c with L lower triangular with positive diagonal), with the functions and covariances rewritten accordingly, changes the results of filter and smooth only by that change of coordinates: means become L mean + c, covariances L cov L^T, and an exception is raised in exactly the same cases. The same holds for the units of both noises of UnscentedKalmanFilter. AdditiveUnscentedKalmanFilter gives identical results when observations are replaced by V z + d for any invertible V (state dimension at most three, positive definite covariances). Contrary to what holds for the linear filters, exchanging two state components can change the results, because the sigma points are spread along the columns of a Cholesky factor.", "quantifier": "for all transition and observation functions (also per-time ones), all symmetric covariances, all lower triangular L with positive diagonal, all offsets and all observation sequences with any missing values (UnscentedKalmanFilter.smooth: while its predicted covariances are invertible); the last sentence is an existence statement", "why_tests_cant": "Quantifies over arbitrary nonlinear functions, over all unit changes and over all histories; a test can only compare a few rescaled runs up to rounding.", "anchors": ["pykalman/unscented.py:moments2points", "pykalman/unscented.py:points2moments", "pykalman/unscented.py:unscented_filter_correct", "pykalman/unscented.py:additive_unscented_filter", "pykalman/unscented.py:additive_unscented_smoother", "pykalman/unscented.py:augmented_unscented_filter", "pykalman/unscented.py:augmented_unscented_smoother"]}
{"id": "C83", "title": "em gives the same model in every system of units", "statement": "Fitting with em does not depend on the units: if state and observations are expressed in other coordinates (state S x with invertible S, observations V z + w with invertible V; initial parameters and data converted accordingly), em returns exactly the converted parameters, for every selection em_vars, mask pattern and number of iterations, and raises the same errors. The same holds for the Cholesky and Bierman filters. Moving the origin of the state is different: matrices are fitted with the offsets held fixed, so the result does depend on the origin of the state.", "quantifier": "all n, m, T, invertible S, V, shifts w, data, masks, em_vars, n_iter, parameters with positive definite covariances (constant or per time step) that stay so during the fit; if w is not 0, some row must be unmasked or the observation offsets not be estimated (with all rows masked em sets the offsets to 0 in any units)", "why_tests_cant": "a test fits one data set in one pair of unit systems with some tolerance and a few iterations; the statement is about every conversion, every subset of em_vars, every mask and any number of iterations, and a regularisation or a wrongly ordered M-step that breaks it can be invisible at the scale of the test data", "anchors": ["pykalman/standard.py:_em", "pykalman/standard.py:_em_observation_matrix", "pykalman/standard.py:_em_observation_covariance", "pykalman/standard.py:_em_transition_matrix", "pykalman/standard.py:_em_transition_covariance", "pykalman/standard.py:_em_initial_state_covariance", "pykalman/standard.py:KalmanFilter.em"]}
{"id": "C84", "title": "Accuracy of the unscented filters for smooth functions", "statement": "For transition and observation functions with bounded derivatives, every moment AdditiveUnscentedKalmanFilter works with is exact up to a constant times the square of the total variance of the state: the predicted mean of a component differs from its exact Gaussian expectation by at most B/4 (tr P)^2, B a bound of the fourth derivative; the predicted covariance by at most (|grad f_i| D_j + |grad f_j| D_i + 2 C_i C_j)(tr P)^2, C and D bounds of second and third derivatives; the same for the predicted observation, its covariance, and the cross covariances used by filter and smooth. For UnscentedKalmanFilter, whose functions take the noise as an argument, the same bounds hold with the total variance of state and noise. The order cannot be improved.", "quantifier": "all n, m, T, smooth functions (constant or per time step) with bounded derivatives, data, masks, symmetric covariance parameters for which the filter returns", "why_tests_cant": "a test evaluates the error for one function at one mean and covariance; the bound must hold for every smooth function and every state the filter can reach, including states of high dimension where the weight of the centre point is negative", "anchors": ["pykalman/unscented.py:unscented_filter_predict", "pykalman/unscented.py:unscented_filter_correct", "pykalman/unscented.py:unscented_transform", "pykalman/unscented.py:moments2points", "pykalman/unscented.py:AdditiveUnscentedKalmanFilter.filter", "pykalman/unscented.py:AdditiveUnscentedKalmanFilter.smooth", "pykalman/unscented.py:UnscentedKalmanFilter.filter", "pykalman/unscented.py:UnscentedKalmanFilter.smooth"]}
{"id": "C85", "title": "Calls made at the same time in several threads", "statement": "Any number of threads call methods of KalmanFilter, CholeskyKalmanFilter and BiermanKalmanFilter objects, and the single attribute reads and assignments of the calls are interleaved in any way. (a) As long as no thread calls em of an object, every filter, smooth, loglikelihood and filter_update of it returns what it returns when it is called alone, and the object does not change; what is called on other objects (em included) does not matter. (b) If exactly one thread calls em of an object, that call does what it does alone, whatever the other threads call: same exception or none, same fitted parameters. (c) A filter, smooth, loglikelihood or filter_update of an object that is being fitted in another thread returns what it returns for parameters each of which is the one before or after some iteration of em. These need not come from the same iteration: the result can be one that no sequential order of the calls gives (em must not run while the object is in use). (d) There is no deadlock, and every schedule ends after a number of steps known in advance.", "quantifier": "for every number of threads, every assignment of objects, classes and calls to them, every schedule, all parameters, data and numbers of iterations; (c): the negation of atomicity by a schedule of two threads", "why_tests_cant": "the number of schedules grows exponentially with the number of attribute accesses, and a test cannot choose the schedule", "anchors": ["pykalman/standard.py:1418-1533", "pykalman/standard.py:1593-1641", "pykalman/utils/_sklearn.py:101-112", "pykalman/sqrt/cholesky.py:612-739", "pykalman/sqrt/bierman.py:781-908"]}
{"id": "C86", "title": "UnscentedKalmanFilter with added noise: when it keeps valid covariances, and when it agrees with the additive class", "statement": "For a system whose noise is simply added (transition f(x) + w, observation g(x) + v), with positive definite Q, R and initial covariance: (a) with one state dimension `UnscentedKalmanFilter.filter` and `.smooth` succeed for all nonlinear f, g and all data and every returned covariance is positive definite; (b) up to three state dimensions the smoother succeeds and returns positive definite covariances whenever the filtered covariances are positive definite; (c) as long as no observation after the first is available it returns exactly what `AdditiveUnscentedKalmanFilter` returns for the same system, filtered and smoothed. These are the limits of the class: for every state dimension n >= 2 and every number of observed quantities there is a random walk with unit covariances and a quadratic sensor for which `filter` returns a covariance with the variance -2, and raises LinAlgError one row later; and there the two classes disagree about the same system.", "quantifier": "all functions f and g (also per time step), all positive definite Q, R, S0, all numbers of observed quantities, all observation sequences of any length with any missing rows; the counterexample for every n >= 2, m >= 1 and all observed values", "why_tests_cant": "Functions and data range over infinite sets; whether a covariance loses positive definiteness depends on the sign of a weight together with the shape of the function, so a finite set of nonlinear functions may pass in any dimension.", "anchors": ["pykalman/unscented.py:62-116", "pykalman/unscented.py:209-291", "pykalman/unscented.py:augmented_unscented_filter", "pykalman/unscented.py:augmented_unscented_smoother", "pykalman/unscented.py:UnscentedKalmanFilter.filter", "pykalman/unscented.py:UnscentedKalmanFilter.smooth"]}
{"id": "C87", "title": "Arrays in memory: inputs are never modified, results are new arrays, the object shares its arrays with the caller", "statement": "(a) `filter`, `smooth`, `filter_update`, `loglikelihood`, `em` and `sample` of KalmanFilter, and the first five of CholeskyKalmanFilter and BiermanKalmanFilter, called with any arrays, whether they return or raise, leave the contents and the masks of every array that existed before the call unchanged. (b) The arrays returned are new and distinct, share no memory with any array that existed before, and hold exactly the rows (or the exception is exactly the one) of the computation on the present values of the arrays. For `sample` this includes the array given as initial state. (c) Hence over any history of calls, new arrays and in-place changes by the caller, an array keeps its contents unless the caller changes that very array in place; results are not affected by later changes to inputs, and a repeated call gives the same result. (d) `em` puts the estimated parameters into new arrays; every other attribute is still the array the constructor was given, not a copy. (e) The object keeps the caller's arrays without copying: changing one in place changes later results.", "quantifier": "all contents of the memory, all objects and arrays of any shapes (with views and arrays that share memory) for (a) and (c); all shapes that fit for (b) and (d); all finite histories of calls, allocations and in-place changes; all iteration counts and selections of em_vars", "why_tests_cant": "A test compares a few arrays before and after one call; aliasing bugs show only for particular combinations of views, masks, missing rows, exceptions and later in-place changes, of which there are infinitely many.", "anchors": ["pykalman/standard.py:187-306", "pykalman/standard.py:309-410", "pykalman/standard.py:488-581", "pykalman/standard.py:123-184", "pykalman/standard.py:584-722", "pykalman/standard.py:1092-1113", "pykalman/standard.py:KalmanFilter.filter", "pykalman/standard.py:KalmanFilter.smooth", "pykalman/standard.py:KalmanFilter.filter_update", "pykalman/standard.py:KalmanFilter.em", "pykalman/standard.py:KalmanFilter._parse_observations", "pykalman/utils/_sklearn.py:40-47", "pykalman/standard.py:KalmanFilter.sample", "pykalman/sqrt/cholesky.py:29-41", "pykalman/sqrt/cholesky.py:_filter", "pykalman/sqrt/cholesky.py:CholeskyKalmanFilter.filter_update", "pykalman/sqrt/cholesky.py:CholeskyKalmanFilter.em", "pykalman/sqrt/bierman.py:29-41", "pykalman/sqrt/bierman.py:57-90", "pykalman/sqrt/bierman.py:_filter", "pykalman/sqrt/bierman.py:BiermanKalmanFilter.filter_update", "pykalman/sqrt/bierman.py:BiermanKalmanFilter.em"]}
{"id": "C88", "title": "Guaranteed error bounds, without probabilities", "statement": "Call misfit of a trajectory the sum of the squared deviations of its initial state from initial_state_mean, of its states from what transition matrix and offset make of their predecessors, and of the unmasked observations from what observation matrix and offset make of its states, each in units of its covariance. For every trajectory, in every direction, the mean of any row returned by KalmanFilter.smooth is off by at most sqrt(misfit minus least misfit) reported standard deviations, hence by at most sqrt(misfit). For every row and direction some trajectory attains the bound, so the reported covariance is exactly the ellipsoid of states compatible with a given misfit. The same holds for row t of filter with the misfit to rows 0..t. Nothing random is assumed: a bound on the energy of the disturbances is a bound on the error.", "quantifier": "all constant or time-varying parameters with positive definite covariances, dimensions, lengths, data, masks, rows, directions and trajectories", "why_tests_cant": "A guarantee against every possible trajectory of disturbances; a test can draw some, and random ones are far from the worst ones.", "anchors": ["pykalman/standard.py:_filter", "pykalman/standard.py:_smooth", "pykalman/standard.py:KalmanFilter.filter", "pykalman/standard.py:KalmanFilter.smooth"]}
{"id": "C89", "title": "A state that does not change is found", "statement": "With transition matrix 1, no offset and no transition noise: (a) if rows 0..t tell at least k times as much about every direction as one measurement of precision M, the covariance of row t of filter is at most M^-1 / k; (b) whatever the data, if the state is x, the mean of row t is in every direction at most sqrt(E) reported standard deviations from x, where E is the squared error of the initial mean plus the squared errors of the unmasked rows, in units of their covariances; (c) with constant observation parameters under which no direction is invisible, after N unmasked rows the covariance is at most (C'R^-1 C)^-1 / N, and for exact rows the squared error of the mean is at most 1/N times a bound in which the rows do not occur.", "quantifier": "all dimensions, (a, b) time-varying or (c) constant observation matrices, offsets and positive definite covariances, positive definite prior covariances, initial means, states, lengths, data and masks", "why_tests_cant": "A rate of convergence is about all lengths and all states; a test sees finitely many finite runs.", "anchors": ["pykalman/standard.py:_filter", "pykalman/standard.py:_filter_correct", "pykalman/standard.py:KalmanFilter.filter"]}
{"id": "C90", "title": "Log densities of many samples under many components", "statement": "log_multivariate_normal_density(X, means, covars) with as many positive definite covariances as means returns, for every sample and component, the log density of that component at that sample, whatever the memory held before. A symmetric covariance that is not positive definite is used with min_covar added to its variances, for its component only; LinAlgError is raised exactly if that is not positive definite either. Covariances beyond the last mean are not looked at. With fewer covariances than means nothing is raised and the columns of the remaining means are uninitialised memory. The call that loglikelihood makes is the case of one sample and one component.", "quantifier": "all dimensions, numbers of samples and components, samples, means, symmetric covariances, values of min_covar and previous contents of the memory", "why_tests_cant": "Uninitialised memory often happens to hold zeros or old results, so that a run shows nothing; the density must be right for all components, also next to ones that need the second attempt.", "anchors": ["pykalman/utils/_sklearn.py:log_multivariate_normal_density", "pykalman/utils/_sklearn.py:50-68"]}
{"id": "C91", "title": "Steady state when only some components have noise", "statement": "KalmanFilter with constant parameters, a transition covariance that may be singular but whose noise the transition matrix carries to every direction within some number of steps (as in constant velocity models with noise on the velocity only), positive definite observation covariance and a state that can be tracked from the observations, on data without masked rows: there is a covariance P such that a run whose initial covariance is that predicted from P reports P at every row, and every run, whatever its initial covariance, reports covariances that converge to P at a geometric rate, independently of the data. The difference between two runs from different initial means tends to zero at a geometric rate as well.", "quantifier": "all such parameters, dimensions, numbers of steps, initial moments, data and lengths", "why_tests_cant": "A statement about the limit of arbitrarily long runs; with a singular covariance no single step contracts.", "anchors": ["pykalman/standard.py:187-306", "pykalman/standard.py:309-418"]}
{"id": "C92", "title": "Rounding errors in em stay proportional to the unit roundoff", "statement": "If every operation is computed with relative errors up to u (as in C79, with products and quotients), then for u up to some u0 KalmanFilter.em with any selection of parameters and any number of iterations succeeds, and every entry of every parameter it sets differs from the exact value (the one the other properties describe) by at most K*u, where K and u0 depend on the parameters, the data and the number of iterations only and not on how the errors fall. Conditions: positive definite covariances at the start; two rows if the transition matrix is estimated; an observed row if the observation matrix is estimated; and an observation covariance that stays positive definite, which it does if it is not estimated or if the observation matrix is kept and has full row rank at an observed row. Moreover the computed loglikelihood of the computed parameters falls by at most K*u from one iteration to the next wherever that of the exact ones does not fall (C05).", "quantifier": "for all dimensions, lengths, parameters, masks, data, selections and numbers of iterations, all u up to u0 and all arithmetics with errors bounded by u", "why_tests_cant": "Whatever the rounding does: a test sees the errors of one machine on one data set; errors of one iteration enter the next through the pseudo-inverses of sums over the whole data.", "anchors": ["pykalman/standard.py:KalmanFilter.em", "pykalman/standard.py:_em", "pykalman/standard.py:_em_observation_matrix", "pykalman/standard.py:_em_observation_covariance", "pykalman/standard.py:_em_transition_matrix", "pykalman/standard.py:_em_transition_covariance", "pykalman/standard.py:_em_initial_state_covariance", "pykalman/standard.py:_em_transition_offset", "pykalman/standard.py:_em_observation_offset", "pykalman/standard.py:_smooth_pair"]}
{"id": "C93", "title": "Bit-for-bit guarantees in floating point", "statement": "In the floating-point arithmetic of any machine, with its rounding, overflow, infinities, nans and exceptions of the linear algebra routines: KalmanFilter.filter on a prefix of the observations returns the prefix of the results; filtering can be stopped and resumed; a program that calls filter_update for one observation after the other gets exactly what filter returns on all of them, or the same exception; values under the mask have no influence on filter, smooth, filter_update, loglikelihood and em; covariances do not depend on data, offsets and initial mean; the last row of smooth is the last row of filter; a constant parameter and the same parameter repeated give the same; em with a+b iterations is em with a followed by em with b, and leaves parameters outside em_vars untouched. All this to the last bit.", "quantifier": "all types of numbers and all operations on them (no law assumed), all dimensions, parameters, masked arrays, splits of the data, iteration counts and selections em_vars", "why_tests_cant": "Tests compare floats with a tolerance on a few inputs; bitwise equality for every input, including those with nan and overflow, needs an argument about the order of the operations.", "anchors": ["pykalman/standard.py:_filter_predict", "pykalman/standard.py:_filter_correct", "pykalman/standard.py:_filter", "pykalman/standard.py:_smooth", "pykalman/standard.py:KalmanFilter.filter_update", "pykalman/standard.py:_loglikelihoods", "pykalman/standard.py:_em"]}
{"id": "C94", "title": "Rounding errors in BiermanKalmanFilter", "statement": "If the three covariances are constant and positive definite, then for rounding errors of relative size u small enough filter, smooth and loglikelihood of BiermanKalmanFilter raise no exception on a non-empty list of observations, and all results differ from the exact ones by at most a constant times u. The same holds for em with at least two observations, an observed one among them if the observation matrix is estimated, and an observation covariance that stays positive definite (which it does if it is not estimated, or if the observation matrix is kept and has full row rank at an observed row); then em lowers the computed log likelihood by at most a constant times u wherever exact em does not lower the exact one (C05). Moreover, whatever the size of the errors, a correction by an observation keeps the factor D of the covariance free of negative entries and returns no negative variance, provided products, quotients and sums without cancellation have the right sign; for a one-dimensional state this holds for all of filter. KalmanFilter in the same arithmetic can return a negative variance.", "quantifier": "all arithmetics with relative errors up to u (any order of summation, any backward stable svd and Cholesky factorization), all dimensions, parameters, numbers of observations, masks, iteration counts and selections em_vars", "why_tests_cant": "Tests run one arithmetic on a few well-conditioned inputs; that errors stay proportional to u, and that a variance can never become negative, must hold for every input and every rounding.", "anchors": ["pykalman/sqrt/bierman.py:udu", "pykalman/sqrt/bierman.py:decorrelate_observations", "pykalman/sqrt/bierman.py:_filter_predict", "pykalman/sqrt/bierman.py:_filter_correct_single", "pykalman/sqrt/bierman.py:_filter_correct", "pykalman/sqrt/bierman.py:_filter", "pykalman/sqrt/bierman.py:BiermanKalmanFilter"]}
{"id": "C95", "title": "Rounding errors in the unscented filters", "statement": "If the transition and observation functions are locally Lipschitz and computed with an error of at most u kappa(x), the exact call of filter or smooth of UnscentedKalmanFilter or AdditiveUnscentedKalmanFilter succeeds and the covariances that it inverts are regular, then for rounding errors of relative size u small enough the call raises no exception and all means and covariances differ from the exact ones by at most a constant times u. For the additive class with at most three state dimensions and positive definite covariances, nothing has to be assumed about the run; with affine functions the results are those of the exact Kalman filter and smoother up to a constant times u. For functions with jumps this is false.", "quantifier": "all arithmetics with relative errors up to u (any order of summation, any backward stable svd and Cholesky factorization, any square root accurate to u), all dimensions, all locally Lipschitz functions and all computed versions of them, all covariances, numbers of observations and masks", "why_tests_cant": "Tests run one arithmetic on a few functions; that errors stay proportional to u and that no Cholesky factorization fails must hold for every function, run and rounding.", "anchors": ["pykalman/unscented.py:points2moments", "pykalman/unscented.py:moments2points", "pykalman/unscented.py:unscented_transform", "pykalman/unscented.py:unscented_correct", "pykalman/unscented.py:augmented_points", "pykalman/unscented.py:augmented_unscented_filter", "pykalman/unscented.py:augmented_unscented_smoother", "pykalman/unscented.py:additive_unscented_filter", "pykalman/unscented.py:additive_unscented_smoother"]}
{"id": "C96", "title": "Rounding errors in CholeskyKalmanFilter.em", "statement": "If the three covariances are constant and positive definite, there are at least two observations, an observed one among them if the observation matrix is estimated, and the observation covariance stays positive definite (which it does if it is not estimated, or if the observation matrix is kept and has full row rank at an observed row), then for rounding errors of relative size u small enough CholeskyKalmanFilter.em raises no exception and all parameters it computes differ from those of an exact KalmanFilter.em by at most a constant times u; the computed loglikelihood of the computed parameters falls by at most a constant times u from one iteration to the next wherever that of the exact ones does not fall (C05).", "quantifier": "all arithmetics with relative errors up to u (any order of summation, any backward stable svd, QR and Cholesky factorization), all dimensions, parameters, observations, masks, iteration counts and selections em_vars", "why_tests_cant": "Every iteration starts from the rounded results of the previous one; that the errors of filter, smoother and updates stay proportional to u through any number of iterations must hold for every input and every rounding.", "anchors": ["pykalman/sqrt/cholesky.py:CholeskyKalmanFilter.em", "pykalman/sqrt/cholesky.py:_filter", "pykalman/sqrt/cholesky.py:_reconstruct_covariances", "pykalman/standard.py:_em", "pykalman/standard.py:_smooth", "pykalman/standard.py:_smooth_pair"]}
{"id": "C97", "title": "Unscented filters bit for bit, with functions that may raise", "statement": "On floating-point numbers (or any other numbers, with any rounding, overflow, nan and any exceptions of the linear algebra or of the user's functions) UnscentedKalmanFilter and AdditiveUnscentedKalmanFilter satisfy exactly: filtering a prefix of the observations gives the prefix of the results, or raises what filtering everything raises; filter on the first observation followed by filter_update for each further one gives bit for bit what filter gives, or the same exception; values in rows with a masked component have no influence, and filter_update without an observation is filter_update with a masked one; the last smoothed row is the last filtered row; only the functions of the times that occur matter, so a single function and the same function repeated in time give the same; an exception that filter or smooth raises is one that cholesky, pinv or a user's function raised or an IndexError for a time without function. The observation function is called for masked rows too.", "quantifier": "all number types and operations, all transition and observation functions including ones that raise, all dimensions, parameters, observations and masks", "why_tests_cant": "Equality of all bits for every rounding, every nan and every point at which a routine or a user's function raises cannot be sampled.", "anchors": ["pykalman/unscented.py:additive_unscented_filter", "pykalman/unscented.py:augmented_unscented_filter", "pykalman/unscented.py:AdditiveUnscentedKalmanFilter.filter_update", "pykalman/unscented.py:UnscentedKalmanFilter.filter_update", "pykalman/unscented.py:unscented_transform", "pykalman/unscented.py:additive_unscented_smoother", "pykalman/unscented.py:augmented_unscented_smoother"]}
{"id": "C98", "title": "em on data that say nothing", "statement": "If every row passed to em is masked, the selected ones of observation matrices, observation offsets and observation covariance become zero, whatever they were, while transition matrix, offset and covariance and initial mean and covariance stay as they were (at least two rows, transition parameters constant in time, covariances positive semidefinite, the initial one positive definite if the transition matrix is selected). A filter trained in this way with the observation covariance selected but not the observation matrices and offsets (the default selection) believes every later measurement completely: its estimate agrees exactly with each unmasked row and the reported covariance of the measured quantity is zero (transition and initial covariance positive definite, observation matrix of full row rank). If em is given a single row, the selected ones of transition matrix, offset and covariance become zero; with all of them selected, every later run of filter returns zero with covariance zero from the second row on, whatever is observed.", "quantifier": "all dimensions, parameters (covariances positive semidefinite where stated), data, numbers of iterations and selections of parameters", "why_tests_cant": "The claim is about every parameter set, every number of iterations and every later run.", "anchors": ["pykalman/standard.py:KalmanFilter.em", "pykalman/standard.py:_em_observation_matrix", "pykalman/standard.py:_em_observation_covariance", "pykalman/standard.py:_em_observation_offset", "pykalman/standard.py:_em_transition_matrix", "pykalman/standard.py:_em_transition_covariance", "pykalman/standard.py:_em_transition_offset", "pykalman/standard.py:_smooth_pair"]}
{"id": "C99", "title": "The user's functions may be ordinary Python functions", "statement": "The transition and observation functions given to the unscented classes need not be functions in the sense of mathematics: they get rows of the array of sigma points, may overwrite them, may remember earlier calls, and may return an array that they use again. If each call returns F of what it gets, in an array that later calls leave alone, then filter and filter_update, also those of the square root class, return what they return for F, whatever is remembered and whatever the transition functions leave in their arguments, provided the observation functions leave their arguments alone; smooth (of both classes) needs that of the transition functions as well; sample (of both classes) then returns the right observations and the right last state, but earlier states as the transition function left them. filter calls the transition function 2n+1 times for every row but the first and the observation function 2n+1 times for every row, in order of time, so that two functions that count their calls can replace functions per time step in filter (not in smooth, which calls the transition function 2n+1 more times for every row but the last, backwards). Whatever the functions do, values under the mask have no influence, later rows none on earlier ones, the last smoothed row is the last filtered one, and one more row is one filter_update made while the functions still remember the end of filter. A function that works in the array it gets gives wrong results without any error: as observation function in filter, as transition function in smooth (negative variances in both cases). An observation function that returns the same output array each time makes filter ignore all measurements; such a transition function makes it forget the covariance of the previous state. Functions that leave the same numbers (zeros, say) in every argument: as observation function in filter, measurements change nothing; as transition function in smooth, the result is that of filter (for the square root class: the means). Whatever the functions return, the number of calls is the same in every class, and square root smoothing ends with the last filtered row, masked values and later rows having no influence.", "quantifier": "all dimensions, functions, kinds of kept state and its contents, data, masks, numbers of rows", "why_tests_cant": "The claim is about every Python function and every history of its calls.", "anchors": ["pykalman/unscented.py:unscented_transform", "pykalman/unscented.py:unscented_filter_correct", "pykalman/unscented.py:additive_unscented_filter", "pykalman/unscented.py:additive_unscented_smoother", "pykalman/unscented.py:augmented_unscented_filter", "pykalman/unscented.py:augmented_unscented_smoother", "pykalman/unscented.py:AdditiveUnscentedKalmanFilter.filter_update", "pykalman/unscented.py:AdditiveUnscentedKalmanFilter.sample", "pykalman/sqrt/unscented.py:_additive_unscented_filter", "pykalman/unscented.py:UnscentedKalmanFilter.filter_update", "pykalman/sqrt/unscented.py:_additive_unscented_smoother", "pykalman/sqrt/unscented.py:AdditiveUnscentedKalmanFilter.filter_update", "pykalman/unscented.py:UnscentedKalmanFilter.sample"]}
{"id": "C100", "title": "Square root filters, bit for bit on the numbers of any machine", "statement": "Whatever numbers and operations a machine has, and whatever its linear algebra returns or raises: in CholeskyKalmanFilter and in the square root AdditiveUnscentedKalmanFilter the results of filter for a prefix of the data are the prefix of the results, an exception for a prefix is the exception for all data, values under a mask have no influence on filter, smooth, loglikelihood, em and filter_update, and filter_update without an observation is filter_update with any masked row; the covariances of CholeskyKalmanFilter and BiermanKalmanFilter depend on the data only through which rows are masked; the last row of smooth is the last row of filter; a constant parameter (or function) and the same repeated give the same; em leaves all parameters outside em_vars alone, and a + b iterations are a iterations followed by a call with b. BiermanKalmanFilter decorrelates all observations with one product of matrices: causality and the irrelevance of masked values hold for it if the machine computes products column by column, and a machine that does not is a counterexample. filter_update continues a run of filter bit for bit wherever factorising the returned covariance gives back the factor that filter had.", "quantifier": "all machines (numbers, operations, routines and their exceptions), dimensions, parameters, data, masks, numbers of rows and iterations", "why_tests_cant": "Tests run on one machine with one linear algebra library, on a few data sets, and compare with tolerances.", "anchors": ["pykalman/sqrt/cholesky.py:_filter", "pykalman/sqrt/cholesky.py:CholeskyKalmanFilter", "pykalman/sqrt/bierman.py:decorrelate_observations", "pykalman/sqrt/bierman.py:_filter", "pykalman/sqrt/bierman.py:BiermanKalmanFilter", "pykalman/sqrt/unscented.py:_additive_unscented_filter", "pykalman/sqrt/unscented.py:AdditiveUnscentedKalmanFilter"]}
{"id": "C101", "title": "loglikelihood on data with nan is a number that ignores everything after the first nan", "statement": "Let one row of the data contain nan with nothing masked, and let it be the first such row. KalmanFilter.loglikelihood raises exactly what it raises for the same data without nan, or it returns a number, not nan: the log-likelihood of the rows before, minus one half for each later row in use (and for the row itself, if the solver spreads nan over all components, which with one observation dimension it always does). Values in later rows have no influence. With nan in the very first row the result is minus half the number of used rows, for all parameters with a positive definite observation covariance. Differences of log-likelihoods of two parameter sets are therefore those of the rows before the first nan; a row with nan is not treated as a masked row; nan in rows with a masked entry has no effect. In the arithmetic of any machine and for CholeskyKalmanFilter and BiermanKalmanFilter too: what is observed after the first used row with nan has no influence on loglikelihood; with nan in initial_state_mean no observation, offset or other entry of the mean has any.", "quantifier": "all dimensions, parameters, data with nan anywhere, masks, numbers of rows, and solvers that return real solutions for real right-hand sides and nan where nan is; for the last sentence all arithmetics that pass nan on", "why_tests_cant": "pykalman/tests/test_loglikelihood.py itself puts nan into the data and only sees a finite number and an optimiser that converges; that the number no longer depends on nearly all of the data shows only in comparison with the model.", "anchors": ["pykalman/standard.py:KalmanFilter.loglikelihood", "pykalman/standard.py:_loglikelihoods", "pykalman/standard.py:KalmanFilter._parse_observations", "pykalman/utils/_sklearn.py:log_multivariate_normal_density", "pykalman/tests/test_loglikelihood.py:test_custom_parameter_inference", "pykalman/sqrt/cholesky.py:CholeskyKalmanFilter.loglikelihood", "pykalman/sqrt/bierman.py:BiermanKalmanFilter.loglikelihood"]}
{"id": "C102", "title": "one nan in the data, on the numbers of any machine: what each class returns, and what em leaves in the object", "statement": "Let one row of the data contain nan with nothing masked, on a machine on which nan spreads through sums, products and np.dot and the routines of scipy.linalg raise when they find it (nothing else is assumed of the arithmetic). In KalmanFilter, CholeskyKalmanFilter and BiermanKalmanFilter: filter, if it returns, has nan in all components of all means from that row on; smooth has nan in all components of all means at all times; filter_update with such an observation, or from a mean of nan, has a mean of nan. em with one iteration, if it returns, leaves every selected parameter that it estimates as nan in all entries without an error; it raises if observation_matrices are selected, or transition_matrices with at least two rows; with two or more iterations it raises if a covariance is selected, so as called by default it always raises. The object then keeps the nan parameters of the first iteration, and from then on filter raises on any data with a row in use. In the unscented classes, with transition functions that do not turn nan into numbers: nan in a row other than the last makes filter and smooth of the classes with additive noise raise, and those of UnscentedKalmanFilter if two more rows follow; nan in the last row makes all smoothed means nan.", "quantifier": "all dimensions, parameters, data, masks, positions of the nan, numbers of iterations, selections of em_vars, functions, and all machine arithmetics in which nan spreads", "why_tests_cant": "A test tries one place for the nan and one arithmetic; that an em that has raised has also overwritten the parameters of the object with nan shows only when the object is used again.", "anchors": ["pykalman/standard.py:KalmanFilter.filter", "pykalman/standard.py:KalmanFilter.smooth", "pykalman/standard.py:KalmanFilter.filter_update", "pykalman/standard.py:KalmanFilter.em", "pykalman/standard.py:_em", "pykalman/sqrt/cholesky.py:CholeskyKalmanFilter.em", "pykalman/sqrt/bierman.py:BiermanKalmanFilter.em", "pykalman/unscented.py:UnscentedKalmanFilter.filter", "pykalman/unscented.py:AdditiveUnscentedKalmanFilter.filter", "pykalman/sqrt/unscented.py:AdditiveUnscentedKalmanFilter.filter"]}
{"id": "C103", "title": "parameters given as integers", "statement": "Parameters may be given as arrays of integers. In BiermanKalmanFilter a single observation matrix given as integers, and a diagonal initial_state_covariance given as integers, give what the same numbers as floats give, in filter, smooth, loglikelihood and em. Observation matrices given as integers for every time step do not: filter and smooth then return what KalmanFilter returns for L trunc(L^-1 C_t) in place of C_t, where L is the Cholesky factor of the observation covariance and trunc drops the fractional parts. This is right if the entries of all L^-1 C_t are integers (unit noise, for example). If they are all below one in absolute value (for example entries -1, 0, 1 and independent noise of variance above one), the results do not depend on the data at all, and no error is raised.", "quantifier": "all dimensions, lengths, data, masks, parameters, numbers of iterations and selections of em_vars", "why_tests_cant": "Tests give floats, or one observation matrix; which integer inputs go wrong depends on the factor of the observation covariance, and the failure is silent.", "anchors": ["pykalman/sqrt/bierman.py:decorrelate_observations", "pykalman/sqrt/bierman.py:udu", "pykalman/sqrt/bierman.py:BiermanKalmanFilter.filter", "pykalman/sqrt/bierman.py:BiermanKalmanFilter.smooth", "pykalman/sqrt/bierman.py:BiermanKalmanFilter.em", "pykalman/utils/_sklearn.py:array2d"]}
{"id": "C104", "title": "rounding errors in programs of filter_update calls", "statement": "A program that calls filter_update once for each observation (or without one), each time with the mean and covariance returned by the call before, stays close to exact arithmetic: for KalmanFilter, CholeskyKalmanFilter, BiermanKalmanFilter, AdditiveUnscentedKalmanFilter and UnscentedKalmanFilter there are K and u0 > 0 such that with errors u <= u0 in every operation (and in the user's functions, and up to a multiple of u in the moments it starts with) no call raises an exception and all results differ from the exact ones by at most K u. Hence filtering some observations with filter and each further one with filter_update gives, up to K u, the rows of the exact filter on all observations. KalmanFilter needs positive semidefinite covariances, positive definite ones for the noise of the observations made; the square root classes positive definite ones; the unscented classes functions that are locally Lipschitz and regular predicted covariances of the observations, which hold if there are at most three state dimensions and positive definite covariances (additive noise), or affine functions.", "quantifier": "all dimensions, numbers of calls, arguments given or omitted, data, masks, starts, and all arithmetics with relative errors up to u in their operations", "why_tests_cant": "A test runs one arithmetic on one program; the constant must hold for every way of rounding, and errors of one call are the input of the next.", "anchors": ["pykalman/standard.py:KalmanFilter.filter_update", "pykalman/sqrt/cholesky.py:CholeskyKalmanFilter.filter_update", "pykalman/sqrt/bierman.py:BiermanKalmanFilter.filter_update", "pykalman/unscented.py:AdditiveUnscentedKalmanFilter.filter_update", "pykalman/unscented.py:UnscentedKalmanFilter.filter_update"]}
{"id": "C105", "title": "rounding errors in the square root unscented filter and smoother", "statement": "AdditiveUnscentedKalmanFilter of sqrt/unscented.py with at most three state dimensions, one observation dimension, positive definite covariances (correlated transition noise included) and locally Lipschitz functions: in exact arithmetic filter raises no exception and its result does not depend on the signs that the QR decomposition chooses, and there are K and u0 > 0 such that with errors u <= u0 in every operation and in the user's functions filter raises no exception, divides by no zero, and returns moments that differ from the exact ones by at most K u. If the transition noise is independent the exact ones are those of the AdditiveUnscentedKalmanFilter of unscented.py; with affine functions the number of state dimensions is arbitrary and they are those of the Kalman filter. The same for programs of filter_update calls, each of which gets the moments returned by the call before, with a start that is wrong by a multiple of u. smooth with one state and one observation dimension: in exact arithmetic it returns the moments of the smoother of unscented.py, and with errors u <= u0 it raises no exception and returns moments within K u of them.", "quantifier": "all functions, parameters, numbers of rows or calls, arguments given or omitted, data, masks, starts, and all arithmetics with relative errors up to u in their operations, sums, square roots, QR, Cholesky and least squares", "why_tests_cant": "A test runs one arithmetic on one data set; the constant must hold for every way of rounding, and the computed triangular factors do not even converge, because the signs of their rows may differ between two computations.", "anchors": ["pykalman/sqrt/unscented.py:cholupdate", "pykalman/sqrt/unscented.py:qr", "pykalman/sqrt/unscented.py:points2moments", "pykalman/sqrt/unscented.py:_unscented_correct", "pykalman/sqrt/unscented.py:_additive_unscented_filter", "pykalman/sqrt/unscented.py:AdditiveUnscentedKalmanFilter.filter", "pykalman/sqrt/unscented.py:AdditiveUnscentedKalmanFilter.filter_update", "pykalman/sqrt/unscented.py:_additive_unscented_smoother", "pykalman/sqrt/unscented.py:AdditiveUnscentedKalmanFilter.smooth"]}
{"id": "C106", "title": "functions that are not defined everywhere", "statement": "The functions handed to the unscented classes may raise exceptions. filter and smooth of AdditiveUnscentedKalmanFilter (unscented.py) return what they would return for any functions defined everywhere that have the same values, or both raise one and the same exception of a function of the user; in that case the exception has been raised by the transition function of a time t at a state within sqrt(3) standard deviations (in every direction) of the filtered estimate of row t, or by the observation function of a time t at a state within sqrt(3) standard deviations of the prediction for row t. So functions defined near the estimates are enough. Conversely, a function that is not defined at an estimate (a prediction) makes both methods raise, for the observation function also if the row is masked. smooth calls the transition functions nowhere else than filter. With one row no transition function is called. The same for UnscentedKalmanFilter with noise within sqrt(3) of its standard deviations, for filter_update, and (without the places) for the square root class. sample calls the functions only at the states that it returns, each at the state of its own row: it raises an exception of a function if and only if one of them (a transition function only if there is a next row) is not defined there, and otherwise returns what it returns for the continued functions.", "quantifier": "all types of exceptions, all functions defined on any sets of states, all symmetric covariances, data, masks, numbers of rows, arguments given or omitted, and all total functions that continue the given ones", "why_tests_cant": "Which states the functions are called with depends on all earlier data; no test can find out that a function is never called outside an ellipsoid, nor that smooth cannot fail after filter has succeeded.", "anchors": ["pykalman/unscented.py:unscented_transform", "pykalman/unscented.py:moments2points", "pykalman/unscented.py:unscented_filter_correct", "pykalman/unscented.py:augmented_points", "pykalman/unscented.py:AdditiveUnscentedKalmanFilter.filter", "pykalman/unscented.py:AdditiveUnscentedKalmanFilter.smooth", "pykalman/unscented.py:AdditiveUnscentedKalmanFilter.filter_update", "pykalman/unscented.py:UnscentedKalmanFilter.filter", "pykalman/unscented.py:UnscentedKalmanFilter.smooth", "pykalman/unscented.py:UnscentedKalmanFilter.filter_update", "pykalman/sqrt/unscented.py:AdditiveUnscentedKalmanFilter.filter", "pykalman/sqrt/unscented.py:AdditiveUnscentedKalmanFilter.smooth", "pykalman/sqrt/unscented.py:AdditiveUnscentedKalmanFilter.filter_update", "pykalman/unscented.py:AdditiveUnscentedKalmanFilter.sample", "pykalman/unscented.py:UnscentedKalmanFilter.sample"]}
{"id": "C107", "title": "nan in the parameters is never lost", "statement": "If a parameter contains nan (one entry is enough) and is used, the call raises or the nan is in the results. KalmanFilter, CholeskyKalmanFilter, BiermanKalmanFilter: if row u is used (not masked) and there is nan in initial_state_covariance, in the observation covariance of time u, or in a transition matrix or covariance of a time before u, then filter, smooth, loglikelihood and em all raise; nan in the observation matrix of time u makes the first two classes raise, and Bierman's filter return nan means from row u on. smooth and em raise also when nothing is observed; filter then returns covariances with nan (KalmanFilter) or raises (square root classes). nan in initial_state_mean, or in an offset that is used, makes all components of all filtered means from the first row that uses it nan, and all smoothed means of all rows. filter_update: the same for the parameters in force, argument or default. The unscented classes raise: for nan in a covariance as soon as it is used, and in initial_state_mean with two rows (the square root class with one). Parameters that are not used do not matter: observation matrices, offsets and covariances of the times of masked rows may be nan without any effect on filter and smooth of KalmanFilter (CholeskyKalmanFilter: matrices and offsets).", "quantifier": "all arithmetics with a nan that the operations of numpy pass on and that the routines of LAPACK refuse, all dimensions, all parameters fixed or per time, all positions of the nan, all data and masks, all user functions", "why_tests_cant": "The nan may be in any entry of any parameter at any time, with any masks in between; that no path loses it (as a comparison or a product with zero might) is a statement about all of them.", "anchors": ["pykalman/standard.py:_filter_correct", "pykalman/standard.py:_filter_predict", "pykalman/standard.py:_filter", "pykalman/standard.py:_smooth_update", "pykalman/standard.py:_smooth", "pykalman/standard.py:KalmanFilter.filter_update", "pykalman/standard.py:KalmanFilter.em", "pykalman/sqrt/cholesky.py:_filter", "pykalman/sqrt/cholesky.py:_filter_correct", "pykalman/sqrt/cholesky.py:_filter_predict", "pykalman/sqrt/bierman.py:udu", "pykalman/sqrt/bierman.py:decorrelate_observations", "pykalman/sqrt/bierman.py:_filter_correct", "pykalman/sqrt/bierman.py:_filter_predict", "pykalman/unscented.py:moments2points", "pykalman/unscented.py:unscented_filter_correct", "pykalman/unscented.py:augmented_points", "pykalman/sqrt/unscented.py:_additive_unscented_filter"]}
{"id": "C108", "title": "Infinite numbers and overflow cannot hide", "statement": "In the arithmetic of IEEE 754 (infinities, nan, overflow of finite numbers) nothing that is not finite gets lost. KalmanFilter, CholeskyKalmanFilter and BiermanKalmanFilter: if one component of one filtered mean is finite, then all components of all filtered means of the rows before are finite, and so are all observations used up to that row, the observation offsets of the rows used, and initial_state_mean and all transition offsets before a row that was used: it is enough to look at the last row. If one component of a smoothed mean (not of the last row) is finite, all filtered means and all observations used are finite. filter_update with an observation: a finite component in the mean returned means that the mean given and the observation were finite. KalmanFilter: if filter returns, every filtered covariance before a row that is used is finite; if smooth returns, every filtered covariance but the last is finite. Matrices and covariances that are infinite and are used make filter, smooth, loglikelihood and em of KalmanFilter and CholeskyKalmanFilter raise. UnscentedKalmanFilter and AdditiveUnscentedKalmanFilter: if filter returns, every filtered covariance but the last is finite; covariances, and initial means used twice, that are infinite make the calls raise, in the square root class too.", "quantifier": "all arithmetics that follow the rules of IEEE 754 for numbers that are not finite (whatever they do with finite ones, at whatever size they overflow), sums of products in any order and fused or not, all dimensions, parameters, data, masks and user functions", "why_tests_cant": "Where an overflow happens depends on sizes, dimensions and the order in which a BLAS adds; that no later operation of the filter turns an infinite number into a finite one must hold for all of them.", "anchors": ["pykalman/standard.py:_filter_correct", "pykalman/standard.py:_filter_predict", "pykalman/standard.py:_filter", "pykalman/standard.py:_smooth_update", "pykalman/standard.py:_smooth", "pykalman/standard.py:KalmanFilter.filter_update", "pykalman/sqrt/cholesky.py:_filter_correct", "pykalman/sqrt/cholesky.py:_filter_predict", "pykalman/sqrt/bierman.py:_filter_correct", "pykalman/sqrt/bierman.py:_filter_predict", "pykalman/unscented.py:moments2points", "pykalman/unscented.py:augmented_points", "pykalman/sqrt/unscented.py:_additive_unscented_filter"]}
{"id": "C109", "title": "The unscented classes leave the caller's arrays alone, and what the user's functions return may share memory", "statement": "filter, smooth, filter_update and sample of UnscentedKalmanFilter, AdditiveUnscentedKalmanFilter and the square root AdditiveUnscentedKalmanFilter change no array that existed before the call (parameters, observations, moments handed to filter_update, results of earlier calls), whether they return or raise, even when the transition and observation functions overwrite the arrays they are given; only arrays that these functions change themselves (their own buffers, globals) may differ. After any sequence of such calls, also failing ones, every other array holds what it held. If the functions leave their arguments as they are, the results are those of the method computed on values, whatever the functions return (a new array, the argument itself, a constant array, the same at every call) and whatever buffers of their own they use; the two arrays returned are new, differ from each other and from everything the caller or the functions have, and exceptions are the same.", "quantifier": "all memories and ways in which the arrays of the caller overlap (views, the same array for several parameters), all user functions as programs on the memory, all dimensions, data, masks, sequences of calls, crash points inside the functions", "why_tests_cant": "Whether an array is changed behind the caller's back depends on which arrays share memory and on what the functions do; a test fixes one aliasing pattern and one pair of functions.", "anchors": ["pykalman/unscented.py:moments2points", "pykalman/unscented.py:points2moments", "pykalman/unscented.py:unscented_transform", "pykalman/unscented.py:unscented_correct", "pykalman/unscented.py:augmented_points", "pykalman/unscented.py:augmented_unscented_filter_points", "pykalman/unscented.py:augmented_unscented_filter", "pykalman/unscented.py:augmented_unscented_smoother", "pykalman/unscented.py:additive_unscented_filter", "pykalman/unscented.py:additive_unscented_smoother", "pykalman/unscented.py:UnscentedKalmanFilter.filter_update", "pykalman/unscented.py:AdditiveUnscentedKalmanFilter.filter_update", "pykalman/sqrt/unscented.py:_additive_unscented_filter", "pykalman/sqrt/unscented.py:_additive_unscented_smoother", "pykalman/sqrt/unscented.py:_reconstruct_covariances", "pykalman/sqrt/unscented.py:AdditiveUnscentedKalmanFilter.filter_update", "pykalman/unscented.py:806-860", "pykalman/unscented.py:1124-1176"]}
{"id": "C110", "title": "Data set objects", "statement": "(a) Bunch exposes its keys as attributes: after any sequence of assignments and deletions through b[k], b.k and the methods of dict, on any number of Bunch objects and with exceptions on the way, b[k] and b.k give the same value for every key, the one last stored; without such a key b[k] raises KeyError and b.k AttributeError (or gives the method of dict of that name); what is done to one object does not show in another. (b) load_robot returns a Bunch with the fields of its documentation, each readable as item and as attribute: n_timesteps counts the padded row, observations has one row more than the file has observations, the first one masked, the others the columns of y; state sequences and offsets are transposed, the lists of covariances become arrays with the time as first axis; with a name missing in the file it raises KeyError and makes no object.", "quantifier": "all histories of operations on any number of Bunch objects, all keys and values; all contents of the data file that have the arrays named, of any size", "why_tests_cant": "The two routes to the data must agree after every history, and a test runs a few; the file shipped is one of all contents.", "anchors": ["pykalman/utils/_sklearn.py:Bunch", "pykalman/datasets/base.py:load_robot"]}
{"id": "C111", "title": "Every iteration of em makes progress, and where repeated em leads", "statement": "On data with at least two rows, one of them unmasked, every iteration of KalmanFilter.em increases loglikelihood strictly unless it leaves all parameters exactly as they are. loglikelihood has an upper bound that depends only on the number of unmasked rows and on a lower bound of the observation covariance; so with the observation covariance not estimated (or bounded below) the values of loglikelihood after 0, 1, 2, ... iterations converge. Every limit point of the parameters (a limit along some increasing sequence of iteration counts) with positive definite covariances is left unchanged by em, is a critical point of loglikelihood, and has as loglikelihood the limit of the values; limit points exist when the estimates stay bounded and the determinants of the estimated covariances stay away from zero. With the default em_vars the values need not converge: there is data on which they grow beyond all bounds while the variances tend to zero. (Parameters that em estimates, covariances that weigh them and the observation covariance are constant in time.)", "quantifier": "all dimensions, data, masks, selections of em_vars, starting parameters with positive definite covariances, numbers of iterations", "why_tests_cant": "A test runs finitely many iterations from a few starting points; strictness, boundedness and the behaviour along infinite sequences of iterations are statements about all of them.", "anchors": ["pykalman/standard.py:123-184", "pykalman/standard.py:584-722", "pykalman/standard.py:725-962", "pykalman/standard.py:1418-1533", "pykalman/standard.py:KalmanFilter.em", "pykalman/standard.py:KalmanFilter.loglikelihood"]}
{"id": "C112", "title": "Systems that do not interact can be run together or apart", "statement": "Let a KalmanFilter model consist of two systems without influence or correlation between them: block diagonal transition matrices, observation matrices and covariances, stacked offsets, stacked initial means. Then filter and smooth return the results of the two separate models side by side: stacked means, block diagonal covariances. For positive definite constant observation covariances the log likelihood is the sum of the two separate ones. Hence what is reported about one system does not depend on the other system, its size, its parameters or its readings. The rows of the two systems have to be masked together: filter skips a row as a whole when any component is masked, so a missing reading of one system also discards the reading of the other one. CholeskyKalmanFilter and BiermanKalmanFilter do the same in filter and smooth, for the covariances for which they agree with KalmanFilter (C29, C30).", "quantifier": "for all numbers of states and observed components of the two systems, all parameters constant or time varying (covariances need not be positive semidefinite for filter and smooth), all data of any length and all masks common to the two systems", "why_tests_cant": "A test compares a few joint models with their parts; the claim is about every pair of systems, including singular innovation covariances where the pseudo-inverse of a block diagonal matrix has to be the block diagonal of the pseudo-inverses.", "anchors": ["pykalman/standard.py:_filter_predict", "pykalman/standard.py:_filter_correct", "pykalman/standard.py:_filter", "pykalman/standard.py:_smooth_update", "pykalman/standard.py:_smooth", "pykalman/standard.py:_loglikelihoods", "pykalman/sqrt/cholesky.py:CholeskyKalmanFilter", "pykalman/sqrt/bierman.py:BiermanKalmanFilter"]}
{"id": "C113", "title": "A filter that keeps past states is a fixed-lag smoother", "statement": "Let a model keep the last L states of another KalmanFilter model in its state vector (x_t, x_{t-1}, ..., x_{t-L}): transitions shift the parts and put the next state in front, noise enters the first part only, the first part is observed; what is assumed about the states before time 0 is arbitrary. Then part i of the mean and of the covariance that filter returns for the larger model at time t is what smooth of the original model returns for time t - i when it is given the rows up to t. The newest part is what filter of the original model returns, and the log likelihood is the same. The same holds for BiermanKalmanFilter (at least one state dimension, constant float covariances, that of the observations positive definite); CholeskyKalmanFilter cannot be used with such a model, its filter raises LinAlgError because the transition covariance is singular.", "quantifier": "for all numbers of states and observed components, all lags L, all times t >= i, all constant or time-varying parameters with positive semidefinite covariances (for the newest part and the log likelihood any covariances), all data and masks", "why_tests_cant": "The claim relates two different algorithms (the forward recursion of a larger model, and the backward recursion) for every lag, run length and mask pattern, including singular predicted covariances, which always occur in the larger model.", "anchors": ["pykalman/standard.py:_filter_predict", "pykalman/standard.py:_filter_correct", "pykalman/standard.py:_filter", "pykalman/standard.py:_smooth_update", "pykalman/standard.py:_smooth", "pykalman/standard.py:_loglikelihoods", "pykalman/sqrt/cholesky.py:CholeskyKalmanFilter", "pykalman/sqrt/bierman.py:BiermanKalmanFilter"]}
{"id": "C114", "title": "Only the information of a row of observations matters", "statement": "For positive semidefinite transition and initial covariances and positive definite observation covariances, the means and covariances returned by KalmanFilter.filter and smooth depend on the observations only through, at every time, the matrix C' R^-1 C and the vector C' R^-1 (z - d), both taken as zero for masked rows. Two models of the same process with different sensors, even with different numbers of observed components, give the same results if these agree at every time. In particular two sensors with uncorrelated noises reading the same quantity may be replaced by a single one that reads the average weighted with the inverse covariances, and a row read through an observation matrix 0 may as well be masked. For constant observation covariances the difference of the log likelihoods of two candidate processes is the same for the two sets of sensors and data, so comparisons of processes by loglikelihood come out the same. CholeskyKalmanFilter and BiermanKalmanFilter likewise return equal results in filter and smooth, for the covariances for which they agree with KalmanFilter (C29, C30).", "quantifier": "all state and observation dimensions of the two models, all parameters (constant or varying in time) with the stated definiteness, all observation sequences and masks", "why_tests_cant": "The claim relates two different models of different dimensions for every parameter and every observation sequence; a test compares the runs of one pair.", "anchors": ["pykalman/standard.py:_filter_correct", "pykalman/standard.py:_filter", "pykalman/standard.py:_smooth", "pykalman/standard.py:KalmanFilter.filter", "pykalman/standard.py:KalmanFilter.smooth", "pykalman/standard.py:_loglikelihoods", "pykalman/sqrt/cholesky.py:CholeskyKalmanFilter", "pykalman/sqrt/bierman.py:BiermanKalmanFilter"]}
{"id": "C115", "title": "Leaving out one observed row and putting it back", "statement": "For positive semidefinite transition and initial covariances and positive definite observation covariances: mask one fully observed row k, run KalmanFilter.smooth, and correct the smoothed mean and covariance of time k by the row left out, with filter_update given the identity as transition matrix, zero transition offset and covariance and the observation parameters of time k. The result is the smoothed mean and covariance of time k with the row in place, whatever the position of the row and the masks of the other rows. With a constant observation covariance, loglikelihood with the row is loglikelihood without it plus the Gaussian log density of the row at mean C m + d and covariance C P C' + R, where m, P are the smoothed mean and covariance of time k without the row. So smooth on masked data gives the exact leave-one-out prediction of a row. The same holds for smooth and loglikelihood of CholeskyKalmanFilter (constant positive definite covariances) and of BiermanKalmanFilter (at least one state dimension, constant float covariances, that of the observations positive definite).", "quantifier": "all dimensions, all parameters (constant or varying in time) with the stated definiteness, all observation sequences, masks and positions of the row", "why_tests_cant": "The claim relates two runs over different data for every position, length and parameter; a test compares the two runs of one example.", "anchors": ["pykalman/standard.py:_filter_correct", "pykalman/standard.py:_smooth", "pykalman/standard.py:_loglikelihoods", "pykalman/standard.py:KalmanFilter.smooth", "pykalman/standard.py:KalmanFilter.filter_update", "pykalman/standard.py:KalmanFilter.loglikelihood", "pykalman/sqrt/cholesky.py:CholeskyKalmanFilter", "pykalman/sqrt/bierman.py:BiermanKalmanFilter"]}
{"id": "C116", "title": "Data may be smoothed from either end", "statement": "For positive definite covariances and at least one observation dimension, let a second KalmanFilter describe the same process backwards in time: it starts with the mean and covariance that the last state has without any data, its transition from a later to the earlier state is the regression of the earlier on the later one, and its sensors are those of the first in reverse order of time. Then smooth of the second on the rows in reverse order returns the means and covariances of smooth of the first in reverse order, loglikelihood (with a constant observation covariance) is the same, and the first row of smooth is the last row of filter of the second. A process with constant parameters that starts in its stationary law and satisfies A S0 = S0 A', in particular every stationary autoregression of one variable, is its own reversal: reversing the data only reverses what smooth returns and does not change loglikelihood. If the covariances of both models are constant and positive definite the same holds for smooth and loglikelihood of CholeskyKalmanFilter and, with at least one state dimension, of BiermanKalmanFilter.", "quantifier": "all state dimensions, positive numbers of observed components, parameters (constant or varying in time) with positive definite covariances, observation sequences of all lengths and masks", "why_tests_cant": "The claim relates the runs of two different models over different data for all parameters and lengths; a test compares one pair of runs.", "anchors": ["pykalman/standard.py:_filter", "pykalman/standard.py:_smooth", "pykalman/standard.py:_smooth_update", "pykalman/standard.py:_loglikelihoods", "pykalman/standard.py:KalmanFilter.smooth", "pykalman/standard.py:KalmanFilter.loglikelihood", "pykalman/sqrt/cholesky.py:CholeskyKalmanFilter", "pykalman/sqrt/bierman.py:BiermanKalmanFilter"]}
{"id": "C117", "title": "Models whose states are linear images of each other", "statement": "Let the states of a second KalmanFilter model be linear images x' = E_t x + e_t of the states of a first one: its transitions take the image of a state to the image of the next state, its transition noise and initial moments are the images of those of the first, and its sensors read from the image what those of the first read from the state. E_t may vary with time and need not be square or invertible: the second model may carry redundant or constant components, or drop components that influence neither the readings nor the rest. Then filter returns for the second model the means E_t m + e_t and covariances E_t P E_t', where m, P is what it returns for the first, and with positive semidefinite covariances smooth does the same, although it inverts covariances that may be singular; loglikelihood is the same. In particular offsets can be given as a further state that is known to be 1, with the offsets in the last column of the matrices: the results are the same with a 1 appended to the means and zeros to the covariances. The same holds for filter and smooth of BiermanKalmanFilter (at least one state dimension and one row, constant float covariances, that of the observations positive definite).", "quantifier": "all numbers of components of the two states, all matrices E_t and vectors e_t, all parameters (constant or varying in time), all observation sequences and masks; for filter and loglikelihood also covariances that are not positive semidefinite", "why_tests_cant": "The claim relates two models of different size for every linear map between their states; a test can only try particular pairs, and singular maps with singular covariances inside the pseudo-inverse of the smoother are the cases that examples miss.", "anchors": ["pykalman/standard.py:_filter_predict", "pykalman/standard.py:_filter_correct", "pykalman/standard.py:_smooth_update", "pykalman/standard.py:_loglikelihoods", "pykalman/standard.py:KalmanFilter.filter", "pykalman/standard.py:KalmanFilter.smooth", "pykalman/standard.py:KalmanFilter.loglikelihood", "pykalman/sqrt/bierman.py:BiermanKalmanFilter"]}
