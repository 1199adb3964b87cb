# Formal model of pykalman: design

Source: `/repo` (pykalman at the pinned commit), read as text, never run.
Everything below lives in `/verif/lean/Verif/`.

## 1. What is modelled, and how

* **Numbers.** Floating point arithmetic is idealised to exact real arithmetic (`ℝ`); for all classes
  there are also models with rounding errors (C79, C80, C81, C92, C94, C95, C96, C104, C105; the table
  in section 2 says which methods),
  and models in which numbers and operations are arbitrary (C93, C97, C100, C102).
  Vectors are `Fin n → ℝ`, matrices `Matrix (Fin n) (Fin m) ℝ`.
  (Two places where the integer dtype of an input changes the result are modelled apart: `store`, `storeC` in `Model/Bierman`, `Model/BiermanDtype`.)
* **External numerical routines.**
  `linalg.pinv` is *defined* as the Moore–Penrose inverse and the four Penrose equations and
  uniqueness are proved; scipy's relative cut-off of tiny
  singular values is left out there and modelled for `filter` and `smooth` in `Model/CutOff` (C75).
  `linalg.cholesky` is *defined* as the unique lower triangular factor with positive diagonal;
  it raises `LinAlgError` when the matrix is not positive definite.
  `linalg.qr` is a *parameter*: any function returning an upper trapezoidal `R` with `RᵀR = AᵀA`
  (what every QR routine guarantees, whatever its signs); theorems hold for all such functions.
  `rng.multivariate_normal` is a parameter (a stream of draws).
* **Time-varying parameters.** `TV α` is either a constant or a list; `lastDims` returns the constant,
  the list entry, or `IndexError`. A lower layer models `_last_dims` on arrays with a run-time shape.
* **Masked arrays.** An observation row is a value per component plus a mask per component.
* **Exceptions** are values of `Except Err`.
* **Loops** become structural recursion over the list of observations, in the order of the code.
* **Objects**: `KalmanFilter` is a record of optional arrays; methods are functions on the record,
  `em` returns the updated record.

### Files

| Python | Lean model | simplifications |
|--------|-----------|-----------------|
| `standard.py` `_last_dims`, `_filter_predict`, `_filter_correct`, `_filter`, `_smooth_update`, `_smooth`, `_smooth_pair`, `_loglikelihoods`, `_arg_or_default`, `_em` and the eight `_em_*`, methods `filter`, `smooth`, `filter_update`, `em`, `loglikelihood` | `Model/Basic`, `Model/Standard` | well-shaped arrays (types carry the dimensions); `filter_update` takes the observation parsed |
| `standard.py` `_determine_dimensionality`, `__init__`, `_initialize_parameters`, `_parse_observations`, choice of `em_vars`; `utils/_sklearn.py` | `Model/Frontend` | arrays with run-time shapes; arrays whose shapes pass the constructor but do not fit are outside the model (`none`); explicit dimensions are natural numbers |
| `standard.py` / `unscented.py` `sample`, `datasets/base.py` `pad_and_mask` | `Model/Sample` | generator abstract |
| `utils/_sklearn.py` `Bunch`, `datasets/base.py` `load_robot` | `Model/Bunch` | the contents of the data file are any arrays, reading the files is not modelled; names that Python looks up in the class before the object (`__dict__`, `__class__`) and keyword arguments named `self` are left out |
| `linalg.pinv` with scipy's cut-off of small singular values, `filter` and `smooth` with it | `Model/CutOff` | exact arithmetic; any routine that returns a singular value decomposition |
| `utils/_numpy.py` and its use in the three `sample` methods | `Model/ByteOrder` | arrays of doubles only |
| `sqrt/cholesky.py` | `Model/Cholesky` | `linalg.qr` abstract |
| `sqrt/bierman.py` | `Model/Bierman` | the class works on real arrays; the integer dtype effect in `udu` is a function `store` applied on assignment, that in `decorrelate_observations` a function `storeC` (`Model/BiermanDtype`) |
| `unscented.py` | `Model/Unscented` | functions given by the user are total and pure; the loops use the default `alpha`, `beta`, `kappa`, as in the code; the sigma points are modelled for all values (C34) |
| `unscented.py` `UnscentedMixin`, `_default_parameters`, first lines of the methods | `Model/UnscentedFrontend` | callables are total functions on arrays; those whose values do not have the declared length are outside the model (`none`) |
| first lines of the methods of the three linear classes; assignments to attributes in `em` | `Model/LinearMethods` | shapes that do not fit the dimensions are outside the model (`none`) |
| `filter` and `smooth` of `KalmanFilter` on data with `nan` | `Model/NaN` | every operation with `nan` gives `nan`, also `0 * nan` (IEEE 754; `numpy.ma` subtraction does not mask it) |
| `loglikelihood` of `KalmanFilter` on data with `nan` | `Model/NaNLoglik` | `numpy.ma`: `**` masks entries that are not finite, `sum` leaves masked entries out, `-0.5 *` a masked entry leaves -0.5 in its place, assignment into an array drops the mask; `np.linalg.solve` (which does not check for `nan`) is an argument. Overflow to infinity, which is masked likewise, does not occur over the reals |
| all classes on data or parameters with `nan`, on the numbers of a machine; the parameters an object has after `em` | `Model/MachineNaN` with `Model/Machine`, `Model/MachineUnscented`, `Model/MachineSqrt` | assumed: `nan` spreads through `+`, `-`, `*` and `np.dot`, also where it meets zeros (IEEE 754; a BLAS that skips zeros is not covered), `check_finite` is on in `scipy.linalg`, `np.allclose` is false with `nan`; `loglikelihood` is in `Model/NaNLoglik` |
| `filter`, `smooth` and `loglikelihood` of `KalmanFilter` and `CholeskyKalmanFilter`, `em` of `KalmanFilter`, all four of `BiermanKalmanFilter`, `em` of `CholeskyKalmanFilter`, `filter` and `smooth` of the two classes of `unscented.py`, and `filter_update` of these five classes, `filter`, `filter_update` and (one state dimension) `smooth` of the class of `sqrt/unscented.py`, with rounding errors | `Model/Rounded`, `Model/RoundedLoglik`, `Model/RoundedCholesky`, `Model/RoundedEm`, `Model/RoundedCholeskyEm`, `Model/RoundedBierman`, `Model/RoundedUnscented`, `Model/RoundedUpdate`, `Model/RoundedSqrtUnscented` | any arithmetic with errors up to `u`: relative (or absolute, near underflow) for sums and products, any order of summation in inner products, backward stable `svd`, `qr`, `cholesky`, `lstsq` and `solve`; no overflow |
| all of `KalmanFilter` except `sample`, on the numbers of any machine | `Model/Machine` | nothing is assumed about the arithmetic; one type of numbers (all arrays `float64`); an operation is a function of the numbers it is given (not of memory layout or thread count) |
| `sample` as called on objects: choice and state of the generators, sequences of calls | `Model/SampleCalls` | generators abstract; `initial_state` is a vector of the right length |
| attributes after an `em` that raised; sequences of calls on one object | `Model/Session` | arrays of floats, hence no truncation in `udu` across calls |
| calls in several threads: order of the attribute reads and assignments in the methods of the three linear classes | `Model/Threads` | one read or assignment of an attribute is atomic (CPython); arrays are never modified in place (so reading one is one step); `sample` is left out; a `filter` that fails would not read all attributes: the remaining reads have no effect |
| the user's functions in `unscented.py` and `sqrt/unscented.py`, as Python has them: kept numbers, overwritten arguments, results in arrays used again | `Model/PyFun` | the kept numbers are a type of the user's choice, common to all functions of a filter; exceptions raised by the functions (`Model/Raising`) and functions that write to other arrays of the caller or keep a reference to a row of the sigma points are not modelled at this level |
| the user's functions in `unscented.py` and `sqrt/unscented.py` raise exceptions | `Model/Raising`, `Model/RaisingSample` | a function returns a value or raises; the exceptions are a type of the user's choice, kept apart from those of the library; `filter`, `smooth`, `filter_update` and `sample` of the three classes |
| arrays in memory: which arrays the functions and methods of `standard.py`, `sqrt/cholesky.py`, `sqrt/bierman.py`, `unscented.py` and `sqrt/unscented.py` allocate, which views they take, which rows they assign | `Model/Memory`, `Model/MemorySample`, `Model/MemoryCholesky`, `Model/MemoryBierman`, `Model/MemoryUnscented`, `Model/MemorySqrtUnscented`, `Model/MemoryUnscentedSample` | NumPy expressions give new arrays, their temporaries are left out; `X[t]`, `X.T`, `np.asarray`, `np.atleast_1d/2d`, `np.ma.atleast_2d` are views of the same block (given arrays of floats: a list or an array of integers would be copied); the arrays in which the functions `_em_…` sum up are left out; the local variables of `udu`, `_filter_correct_single` and `_reconstruct_covariances` are left out; in the unscented classes the user's functions are programs on the memory that get views of the sigma points; the arrays of weights, the local copies in `cholupdate`, the conversions of `_initialize_parameters` and of the optional arguments of `filter_update` are not modelled at this level there |
| `filter_update` of the three square-root classes with the shapes of the covariance arrays | `Model/UpdateShape` | `linalg.cholesky` without batches; arrays with two axes of wrong lengths raise `ValueError` at once |
| `utils/_sklearn.py` `log_multivariate_normal_density` for any number of samples and components | `Model/Mixture` | the contents of the array from `np.empty` are an argument |
| `sqrt/unscented.py` | `Model/SqrtUnscented` | division by zero gives the result `nonFinite` (NumPy goes on with `nan`/`inf`) |

Routines of NumPy/SciPy whose documented behaviour is assumed: `linalg.cholesky` raises `LinAlgError` iff
the (symmetric) matrix is not positive definite, and `ValueError` on arrays of more than two axes;
`linalg.lstsq(A, b)` is `pinv(A) b`; `np.linalg.solve` with a regular matrix; `ma.getmask`, `ma.atleast_2d`, `.T` keep
masks with their entries; for C79, C80, C81, C92, C94–C96 and C104 only: backward stability of `svd` (in `pinv`), `qr`, `cholesky` and `solve`
in LAPACK and the usual error bounds of sums, inner products and `log`; `ndarray.dot` on a row that is not masked; `np.random.RandomState(k)` accepts
exactly `0 ≤ k < 2³²`.

Not modelled: floating point rounding in `AdditiveUnscentedKalmanFilter.smooth` of `sqrt/unscented.py` with two or more state dimensions (C79–C81, C92, C94–C96, C104, C105 for the rest), where exactly overflow happens (C93, C97, C100 and C108 hold wherever it does), performance, warnings, printing, pickling,
`robot.mat` contents, plotting examples, NumPy broadcasting for shapes outside the documented ones, the number that `loglikelihood` of the square root
classes returns on data with `nan` (C101 says that it does not depend on later data; `nan` in the data: C78, C101, C102; in parameters: C107; infinite numbers: C108).

## 2. Trusted base

* Lean 4.33.0 kernel; Mathlib definitions used in statements (measures, independence, kernels and
  conditional distributions, multivariate Gaussian, matrices, `PosDef`/`PosSemidef`, `det`, `log`).
* Axioms: every theorem in `MANIFEST.json` depends on at most `propext`, `Classical.choice` and
  `Quot.sound`. No own axioms, no `sorry`, no native code, no compiler trust.
* That the definitions in `Verif/Model/*` say what the Python says (each cites file and lines).
* That the definitions in `Verif/Spec/*` and the statements in `Verif/Props/*` say what the English says.

How a theorem is stated: `Props/*` contain the property theorems (`Cnn_…`) and examples showing that their
hypotheses hold for concrete non-trivial inputs; `Spec/*` contain the vocabulary, which does not use helper
functions of the model; `Proofs/*` and `Linalg/*` are lemmas.

## 3. Plan per property

| id | model | proof plan |
|----|-------|-----------|
| C01 | `Model/Standard` filter loop | Random variables on any probability space with independent Gaussian noises; prove by induction that the law of the state given the observed history is `multivariateGaussian`; Gaussian conditioning lemma with pseudo-inverse |
| C02 | smoother loop | same, backward kernel and conditional independence of the future |
| C03 | `_smooth_pair` | joint law of two consecutive states given all data |
| C04 | `_loglikelihoods` | chain of conditional densities; density of the multivariate Gaussian |
| C05 | `_em` + loops | complete-data log density = predictive log densities + backward (posterior) log densities; Gibbs' inequality for the latter; C06 for the expectation of the former (`Proofs/EmAscent`, `Proofs/EmMonotone`) |
| C06 | `_em_*` | expected log densities in terms of the smoothed moments; completing squares; `log det` inequality for covariances (`Linalg/LogDet`, `Proofs/Expect`, `Proofs/EmMax`, `Proofs/EmJoint`) |
| C07 | `_filter_correct` | completion of squares with pseudo-inverse |
| C08, C09 | loops | Loewner-order invariants by induction |
| C10, C11, C13, C14, C15, C16, C17, C18, C19, C22 | loops | induction over observations |
| C12, C27 | `filter_update` | induction, case analysis |
| C20, C21, C47, C48 | loops | relational induction |
| C23, C24, C45 | object layer | induction over iterations |
| C25, C26, C28, C46 | front-end layer | list induction, case analysis |
| C29 | `Model/Cholesky` | factor invariant `S Sᵀ = P`, simulation |
| C30–C33 | `Model/Bierman` | loop invariants of `udu` and the scalar update, simulation |
| C34 | `Model/Unscented` | finite sums |
| C35–C37 | `Model/Unscented` | simulation with the Kalman filter |
| C38 | `Model/Unscented` | induction |
| C39, C43, C44, C45 (part), C46 (part), C49, C28 (part), C40 (part) | | negation with a concrete witness; positive `_partial` theorem for the part that holds |
| C41 | `Model/SqrtUnscented` | loop invariant |
| C42 | `sample` | induction |
| C50 | `pad_and_mask` | direct; end to end by C110 and C58 |
| C51 | loops | Loewner-order comparison of two runs by induction; smoothed covariances: the smoother of the noisier model is one estimator for the other, so its error is at least the latter's covariance and at most its own |
| C52 | `Model/Unscented` | nonnegative weights; explicit function for the counterexample |
| C53 | `Model/Unscented` | loops as relations between rows; sums over sigma points = unscented expectation; Cholesky factor of a block diagonal matrix |
| C54, C55 | loops of `filter`, `smooth` | the representation behind C01/C02 (state = estimate + independent Gaussian error) turned into laws, independence and a Pythagorean identity; independence of each innovation from the past gives mutual independence (`Proofs/Errors`) |
| C56 | `Model/UnscentedFrontend` | functions read at each step against those given; C26 (preprocessing) and C25-style case analysis; end to end by C28; defaults via C35–C37 |
| C57 | `Model/Unscented` | C53 turns rows into unscented expectations; linear functionals on polynomials that agree on products of centred coordinates; odd moments vanish by symmetry, fourth ones from rotation invariance (`Proofs/UnscentedExact`) |
| C58 | `Model/LinearMethods` | C25, C26, C28 for the front end, C29/C30 for the classes, then C01, C02 and C23 |
| C59 | `Model/Standard` | the joint log density factorises into predictive likelihood, filtered law of the last state and backward conditionals (`PFun.PD.factor`, from C05); all of these peak at the smoothed means |
| C60 | `Model/Standard` | errors of the means are fixed linear combinations of the disturbances (`Proofs/LinearErrors`); their covariance as a function of the covariances of the disturbances is read off the Gaussian case C54 and is monotone |
| C61 | `Model/Standard` | the difference of the means is the image of the difference of the initial means under the same linear map that carries the initial covariance into the reported one |
| C62 | `Model/Standard` | the correction is monotone and sub-homogeneous in the covariance (Joseph form); each prediction contracts the ratio |
| C63 | `Model/Standard` | an observer bounds the recursion; ratios of any two runs contract (C62), so the run from zero is Cauchy and all runs share its limit |
| C64 | kfFilter, kfSmooth, kfLoglik | Linalg/Smooth: entrywise smoothness is closed under the operations of the model, `pinv` included at invertible matrices; a separate theorem shows the jump for `R = 0` |
| C65 | kfEm, kfLoglik | gradient of loglikelihood = gradient of the expected complete-data log-likelihood at the same parameters, whose partial maximisers the fixed point consists of; continuity of one iteration (Proofs/EmLimit) gives the limit |
| C66 | `Model/ByteOrder` | arrays as bytes with an IEEE 754 decoding; simulation with the model of `sample`; the claim is false for non-native arrays (`C66_fails`) |
| C67 | `Standard`, `Spec/Sensors` | `Props/Sensors`: the update with gain K has covariance `C P C' - C P C' pinv(C P C' + R) C P C'`; completing squares against R; `R = 0` by the Penrose equations. |
| C68 | `Standard`, `Spec/Sensors` | `Proofs/Sensors`: the gain is the unique solution of `K (C P C' + R) = P C'`; block elimination shows that the sequential gains solve the stacked equation. |
| C69 | `Standard`, `Spec/Invariance` | `Props/Invariance`: `pinv (c M) = c⁻¹ pinv M`, so gains and smoother gains do not change; inductions over time. |
| C70 | `Standard`, `Spec/Invariance` | `Props/Invariance`: gains start with the covariance, so `H K = 0`; affine transition maps preserve the level set `H x = y`. |
| C71 | `Standard`, `Spec/Gaps` | `Proofs/Gaps`: `kf` of the shorter run at `t` is `kf` of the longer at `skip k t`; smoother gains compose, `J(k-1) J(k) = J'`, by the range property of the gain; `loglikLoop_erase`. |
| C72 | `Standard`, `Spec/Regression` | `Props/Regression`: information form of the update, induction over time; smoothing gain is 1; sums over permutations. |
| C73 | `Standard`, `Spec/NoisyRow` | `Proofs/NoisyRow`: `gain P (s R) C = gain (P/s) R C → 0`, continuity of the inverse, inductions over time. |
| C74 | `Sample`, `Standard` | `Props/SampleFilter`: C42 shows that a sample follows the state equations driven by the draws; with working draws this is a linear Gaussian process, and C54 applies. |
| C75 | `Model/CutOff` | decompositions unique up to mixing of equal singular values; innovation covariances bounded below by the noise and above by the prior; error coefficients for any gain of the form `P Cᵀ X` with `X` a {2}-inverse; false in general (`C75_fails`, `C75_smooth_overconfident`) |
| C76 | `Model/Session` | induction over the iterations and over the calls; C58 for what the object left behind means |
| C77 | `Model/SampleCalls` | every call is a function of the state of one generator; induction over the calls |
| C78 | `Model/NaN` | simulation between the loops with and without `nan`; a flag says whether an unmasked `nan` has been used |
| C79 | `Model/Rounded`, `Model/RoundedLoglik` | quantities that differ from their limits by O(u) are closed under all operations of the code, including the pseudo-inverse at regular matrices and the Cholesky factor at positive definite ones; induction over time; a counterexample without noise |
| C80 | `Model/RoundedCholesky` | the square roots do not converge as u goes to zero (signs are free), but are bounded, and their products with their transposes converge; blocks of the Gram matrix of an upper triangular factor; inverses of bounded matrices with bounded inverses; signs of the diagonal directly from `M.dot(M.T)`; a counterexample for `KalmanFilter` |
| C81 | `Model/Rounded`, `Model/RoundedLoglik` | the error of a step is `G e Gᵀ` plus O(u) and second order terms; `G` contracts in the norm weighted by the exact predicted covariances (as in C62), with a rate that depends on the bounds only; a bootstrap over the run keeps the second order terms small; the smoother's gain contracts in the same norms; one term of `loglikelihood` is a continuous function of the predicted moments on the set given by the bounds, with errors of the order of `u` (`Proofs/RoundedUniformLoglik`); `Props/RoundedMeasured.lean`: `C81_measured_state_loglik` |
| C82 | Model/Unscented | Spec/UnscentedSymmetry says what a model in other coordinates is; equality of results (with exceptions) by a simulation of the loops; the order of components: a concrete pair of models whose predictions are 3 and 1011/625. UnscentedKalmanFilter.smooth needs invertible predicted covariances (its pseudo-inverse is not equivariant otherwise). |
| C83 | `kfEm`, `cholEm`, `bierEm` | exact equality of results (errors included) by transporting the smoothed moments and each M-step through the change of coordinates; negative witness for moving the origin of the state |
| C84 | `aukfFilter`, `aukfSmooth`, `ukfFilter`, `ukfSmooth` | Taylor's theorem along lines; the polynomial part is exact (C57), the remainder is bounded at the sigma points and under the Gaussian law by fourth moments; a family of quartics shows the order is sharp. For general noise (`C84_general_step`, `C84_general_first_row`, `C84_general_smooth`) state and noises form one Gaussian vector |
| C85 | Model/Threads, Spec/Threads | C85_readers, C85_em, C85_mixture, C85_torn, C85_terminates: invariants over all interleavings of programs that read and assign attributes one at a time; the torn read by an explicit schedule |
| C86 | `ukfFilter`, `ukfSmooth`, `aukfFilter`, `aukfSmooth` | noise that is added drops out of the joint points except for its covariance, so the three-part transform becomes one over state and transition noise; with one state its five weights are nonnegative; a quadratic sensor tuned to the negative central weight gives the counterexample from two states on |
| C87 | `Model/Memory`, `Model/MemorySample`, `Model/MemoryCholesky`, `Model/MemoryBierman`, `Spec/Memory` | `C87_unchanged`, `C87_history`, `C87_filter`, `C87_smooth`, `C87_update`, `C87_loglikelihood`, `C87_em`, `C87_sample`, `C87_results_stay`, `C87_repeatable`, `C87_shared`, `C87_cholesky_filter`, `C87_cholesky_smooth`, `C87_cholesky_loglikelihood`, `C87_cholesky_update`, `C87_cholesky_em`, `C87_bierman_filter`, `C87_bierman_smooth`, `C87_bierman_loglikelihood`, `C87_bierman_update`, `C87_bierman_em`: a heap of blocks, arrays as references (views), row assignments as in the code; the footprint of every function by induction over its loops, the contents by a refinement from the functions on values |
| C88 | filter and smooth | spec: `misfit` (of C59); backward decomposition of the misfit, Cauchy's inequality along the backward recursion, a trajectory attaining it built backwards |
| C89 | filter with a static state | spec: `obsInfo`, `obsErrors`; from the regression form of C72 with Cauchy's inequality |
| C90 | Model/Mixture | spec: `logN`; induction over the components, the contents of the array from `np.empty` an argument |
| C91 | Model/Standard | spec: `NoiseReaches`, `Detectable`; the recursion is monotone and concave, so the covariance gathered from nothing in N steps makes ratios of runs contract every N steps |
| C92 | `Model/RoundedEm` | a run in rounded arithmetic is related to the exact run: the same exception, or values that differ by O(u); the relation is kept by all operations and by the loops over rows and iterations; the matrices that are inverted are sums of positive definite terms in the exact run |
| C93 | `Model/Machine` | `C93_causal`, `C93_resume`, `C93_online_equals_batch`, `C93_masked_values`, `C93_covariances`, `C93_last_row`, `C93_constant_equals_repeated`, `C93_em_only_selected`, `C93_em_add`: the numbers are of any type and the operations any functions; `C93_machines`: exact arithmetic and arithmetic with rounding errors are special cases and give the other models |
| C94 | `Model/RoundedBierman` | `C94_filter`, `C94_smooth`, `C94_loglik`, `C94_em`, `C94_em_nearly_monotone`: the loops of `udu` and `_filter_correct_single` keep the relation "differs by O(u)" as long as no pivot is zero, and that follows from the exact run; `C94_correct`, `C94_one_dimensional`: signs in the loop of `_filter_correct_single`, without any bound on the errors; `C94_standard_negative`: false for `KalmanFilter` |
| C95 | `Model/RoundedUnscented` | `C95_additive_filter`, `C95_additive_smooth`, `C95_general_filter`, `C95_general_smooth`: every step of the loops keeps the relation "differs by O(u)", by the local Lipschitz bound at the exact sigma points; `C95_three_dimensions`, `C95_affine_observations`, `C95_additive_affine`, `C95_general_affine`: the regularity of the inverted covariances follows; `C95_discontinuous`: a jump at a sigma point, and the error is 1/6 for every u |
| C96 | `Model/RoundedCholeskyEm` | `C96_em`, `C96_em_nearly_monotone`: the square root filter with parameters that have errors themselves (`nearP_flCholFull`), then as C92 |
| C97 | `Model/MachineUnscented` | `C97_causal`, `C97_additive_online_equals_batch`, `C97_general_online_equals_batch`, `C97_masked_values`, `C97_last_row`, `C97_functions_in_use`, `C97_exceptions`, `C97_masked_rows_call_observation_function`; `C97_machines`: the models of exact and of rounded arithmetic are special cases |
| C98 | `Model/Standard` | `C98_masked_observation_part`, `C98_masked_dynamics`, `C98_masked_then_measurements_believed`, `C98_single_row`, `C98_single_row_then_deaf` |
| C99 | `Model/PyFun` | A Python function is a map from kept numbers and contents of its arguments to the same afterwards and a way of reading its result later (`PyFun`); `C99_filter`, `C99_smooth`, `C99_filter_update`, `C99_general`, `C99_sqrt_filter`, `C99_filter_again`, `C99_sample`, `C99_sample_keeps`, `C99_counting`, `C99_counting_smooth`, `C99_masked_values`, `C99_causal`, `C99_online`, `C99_general_online`, `C99_no_observation`, `C99_last_smoothed`, `C99_observation_inPlace(_fails)`, `C99_transition_inPlace(_fails)`, `C99_shared_output`, `C99_shared_transition`; `Props/PyFunRest`: `C99_sqrt_smooth`, `C99_sqrt_filter_update`, `C99_general_sample(_keeps)`, `C99_sqrt_masked_values`, `C99_sqrt_causal`, `C99_sqrt_last_smoothed`, `C99_sqrt_no_observation`, `C99_calls`, `C99_general_calls`, `C99_sqrt_calls`, `C99_counting_sample`, `C99_observation_wipes`, `C99_transition_wipes`, `C99_sqrt_wipes` |
| C100 | `Model/MachineSqrt` | `SMachine` adds `cholesky`, `qr`, `lstsq`, `allclose` and comparisons to the machines of C93 and C97, all arbitrary; `Machine.ColumnWise` (`Spec/MachineSqrt`) is the only hypothesis on a product; `C100_causal`, `C100_cholesky_masked_values`, `C100_bierman_masked_values`, `C100_unscented_masked_values`, `C100_covariances`, `C100_last_row`, `C100_no_rows`, `C100_*_constant_equals_repeated`, `C100_functions_in_use`, `C100_em_only_selected`, `C100_em_add`, `C100_*_online`; `C100_bierman_not_causal` shows that the hypothesis is needed; `C100_machines` says that over the reals these functions are those of the other models |
| C101 | `Model/NaNLoglik` | continues the simulation of C78 through `_loglikelihoods`; `SolvesNaN`, `SpreadsNaN` (`Spec/NaNLoglik`) say what is assumed of `np.linalg.solve`; `C101_value`, `C101_scalar`, `C101_rest_ignored`, `C101_first_row`, `C101_comparison`, `C101_masked_nan`, `C101_not_as_missing`; on the machines of C93/C100 (`Machine.LogpdfNaN` is what is assumed of the density) `C101_rest_ignored_machine`, `C101_initial_mean` for all three classes |
| C102 | `Model/MachineNaN`, `Model/MachineSqrt` | `Machine.NaN`, `UMachine.NaN`, `SMachine.NaN` (`Spec/MachineNaN`) say what is assumed of `nan` (`adjoinNaN_nan`: compatible with any arithmetic); invariants of the loops; `C102_filter`, `C102_smooth`, `C102_update`, `C102_em_selected`, `C102_em_matrices`, `C102_em_raises`, `C102_em_default`, `C102_em_destroys`, `C102_additive_raises`, `C102_general_raises`, `C102_unscented_row`, `C102_unscented_smooth`, `C102_unscented_update` |
| C103 | `Model/BiermanDtype` | `decorrelate_observations` assigns into a copy with the element type of `observation_matrices`; what is stored is the decorrelated matrix of other parameters, so C30 applies to those; `C103_floats`, `C103_constant_observation_matrix`, `C103_diagonal_initial_covariance`, `C103_time_varying`, `C103_integers_exact`, `C103_data_ignored`, `C103_data_ignored_unit_sensors`, `C103_fails_for_integer_observation_matrices` |
| C104 | `Model/RoundedUpdate` | a call keeps the relation "differs by O(u)" (and the covariance positive), so any number of calls does (`near_calls`); `C104_standard`, `C104_cholesky`, `C104_bierman`, `C104_additive`, `C104_general`, `C104_three_dimensions`; the exact program continues the rows of `filter` (C12, C38), so a computed batch followed by a computed program is near the exact `filter`: `C104_standard_online`, `C104_cholesky_online`, `C104_bierman_online`, `C104_additive_online`, `C104_three_dimensions_online`, `C104_general_online`, `C104_general_affine_online` |
| C105 | `Model/RoundedSqrtUnscented` | the Gram matrices of the computed factors converge; the family of computations is split into the finitely many parts on which the signs are constant, there the factors converge as well (`SqNear`, `part`, `ev_glue`); a downdate of a positive definite difference divides by numbers bounded away from zero (`near_flCholupdate`): `C105_filter`, `C105_filter_additive`, `C105_filter_affine`, `C105_filter_update`; in the smoother of one state the differences may be zero and only the squares of the downdated numbers converge (`near_flCholupdateR_sq`): `C105_smooth` |
| C106 | `Model/Raising` | functions into `Except E`; the default parameters put the sigma points at `√3` standard deviations in every dimension, also of the augmented state (`sigmaPoints_near`, `Moments.Near.left`); the points of the smoother are among those of the filter (`augPoints_among`, by uniqueness of the Cholesky factor): `C106_additive`, `C106_additive_no_exception`, `C106_additive_transition`, `C106_additive_observation`, `C106_additive_first`, `C106_additive_one_row`, `C106_additive_filter_update`(`_undefined`), `C106_general`, `C106_general_transition`, `C106_general_observation`, `C106_general_first`, `C106_general_filter_update`(`_undefined`), `C106_sqrt`, `C106_sqrt_filter_update`; `C106_continuation`; `Model/RaisingSample`: `C106_sample`(`_undefined`), `C106_general_sample`(`_undefined`) |
| C107 | `Model/MachineNaN`, `Model/Machine*` | the machines of C93/C97/C100 with the `nan` of C102: matrices reach a routine that refuses `nan` (`NaN.full_raises_matrices`, `NaN.full_smooth_raises`), means are followed through the loop (`MeanFlow`); for rows with something masked the loops agree step by step (`run_congr`) |
| C108 | `Model/Machine*` | `SMachine.IEEE` is the rules of IEEE 754 for `∞` and `nan`, with products of matrices computed in any order (`DotOf`); it follows that not being finite spreads like `nan` in C102 and C107 (`SMachine.IEEE.spread`); the converse statements are their contrapositives with `MeanFlow.after`, `NaN.full_cov_after`, `NaN.smoothFull_last`; example machine `small` that overflows at 1000 |
| C109 | `Model/MemoryUnscented`, `Model/MemorySqrtUnscented`, `Model/MemoryUnscentedSample` | User functions are programs `ARef → HM ARef` that get views of the array of sigma points; `C109_unchanged` and `C109_history` only ask that they change nothing but their arguments and a set `W` (`ChangesOnly`); `C109_additive_filter` … `C109_general_sample` ask that they compute a function, with memory `W` of their own and constants `K` (`Computes`), and say that each method refines the method on values (`Refines`) |
| C110 | `Model/Bunch` | objects have a table of items and a table of attributes with addresses; `C110_history` compares every history with functions from names to values (`BunchAct.plain`); `C110_load` reads each field of the result of `loadRobot` |
| C111 | `kfEm`, `kfLoglik` | equality cases of the trace and log-determinant inequalities in the M-step (`Proofs/EmStrict.lean`), continuity of an iteration and of the likelihood, compactness (`Proofs/EmLimitPoints.lean`); an explicit run for the divergence |
| C112 | `Model/Standard` | The block operations commute with products, sums, transposes and pseudo-inverses (`Penrose.unique`); induction over time forwards for the filter, backwards for the smoother; determinants and inverses of blocks for the log likelihood; a counterexample for masks that differ (`Props/Beside`); `Props/SensorsSqrt.lean`: `C112_sqrt` |
| C113 | `Model/Standard` | Induction over time: the covariance of the state `i` times ago with the newest one is the product of `i` smoother gains times the filtered covariance; one more row changes the smoothed moments by the same product (`Proofs/FixedLag`); `Props/SensorsSqrt.lean`: `C113_bierman`, `C113_cholesky_refuses` |
| C114 | `Model/Standard.lean` | `Props/Information.lean`: `C114_information`, `C114_loglikelihood`, `C114_comparison`, `C114_weighted_average`, `C114_uninformative_row`; by the push-through identity `(1 + P C' R⁻¹ C) K = P C' R⁻¹` the corrected moments solve a linear system that contains the row only through its information; `Props/SensorsSqrt.lean`: `C114_sqrt` |
| C115 | `Model/Standard.lean` | `Props/LeaveOneOut.lean`: `C115_leave_one_out`, `C115_loglikelihood`; `Props/LeaveOneOutSqrt.lean`: `C115_sqrt`; the filter of the model that keeps the states since time k (C113) sees row k as one more sensor, whose correction commutes with every later prediction and correction |
| C116 | `Model/Standard.lean` | `Props/Backwards.lean`: `C116_backwards`, `C116_filter_from_the_end`, `C116_loglikelihood`, `C116_reversible`; `Props/BackwardsSqrt.lean`: `C116_sqrt`; both models give every trajectory the same density, so the most likely trajectories (C59) agree; covariances follow from the means under one more (hypothetical) sensor, and the log likelihood row by row, both by C115 |
| C117 | `Model/Standard.lean` | `Props/Image.lean`: `C117_filter`, `C117_smooth`, `C117_loglikelihood`, `C117_offsets_as_state`; `Props/ImageBierman.lean`: `C117_bierman`; products of smoother gains applied to the covariances commute with the maps |

## 4. Disagreements between documentation and code

Each is a theorem (negation with a witness, or what the code does instead) next to a `_partial` theorem
for what does hold.

| where | what | theorems |
|-------|------|----------|
| `KalmanFilter.sample` | time-varying covariances: the first one is used at all times, because the local variable is overwritten | `C43_uses_first_covariance`, `C43_fails` |
| `sample` of three classes | covariances not stored in native byte order are read with their bytes reversed | `C66_foreign_byteswapped`, `C66_fails` |
| `KalmanFilter.filter`, `smooth` | `pinv` drops singular values below `max(shape) eps` times the largest: a precise sensor next to a coarse one is ignored, and smoothed covariances can be smaller than the mean square error | `C75_fails`, `C75_smooth_overconfident` |
| `KalmanFilter.loglikelihood` | time-varying `observation_covariance`: not indexed by time, `ValueError` | `C49_fails_for_time_varying_covariance` |
| `KalmanFilter.em` | the updates of matrices and offsets ignore that the covariance weighing their errors may vary in time: not a maximiser, and the likelihood can go down | `C06_fails`, `C05_fails` |
| `CholeskyKalmanFilter.em`, `BiermanKalmanFilter.em` | with default arguments `TypeError` (`set(None)`) | `C45_fails` |
| `CholeskyKalmanFilter.em` | not atomic: with one observation the first iteration stores a zero transition covariance, the second raises, and all later calls raise | `C76_cholesky_not_atomic` |
| `KalmanFilter.em` | `em_vars` assigned after construction is ignored | `C45_assignment_ignored` |
| `_default_parameters` | the default `"random_state": 0` is never used: without a seed the global generator is used | `C77_unseeded_differ` |
| `check_random_state` | invalid seed: `AttributeError` instead of `ValueError`; the constructor accepts it and all methods raise later | `C46_fails`, `C46_invalid_seed_breaks_methods` |
| `_parse_observations` | a single observation with `k > 1` components is read as `k` scalar observations | `C28_single_row` |
| `_parse_observations` | an empty sequence is read as one observation of dimension zero | `C28_empty_sequence` |
| constructor | only one axis of each matrix is checked: a non-square transition matrix is accepted | `C25_not_square_accepted` |
| `filter_update` of the square-root classes | returns a covariance of shape `(1, n, n)`, which the next call cannot use | C44 |
| `unscented` | a list of functions per time step is not used per step: entry 0 is used always | C39 |
| `udu` | integer matrices: entries truncated on assignment | C30, C31 |
| `decorrelate_observations` | `observation_matrices` of integers for every time step: the decorrelated matrices are truncated on assignment; with entries -1, 0, 1 and noise variance above one the data are silently ignored | C103 |
| `BiermanKalmanFilter` | no rows: `IndexError` from `_reconstruct_covariances`, where `KalmanFilter` returns empty arrays | C30 |
| `udu` | the assertion "M must be symmetric, positive semidefinite" tests symmetry only: an indefinite matrix is accepted and the result has a negative `D` or is no factorisation | `C31_indefinite_not_caught` |
| `udu` | a matrix that is symmetric only up to the tolerances of `np.allclose` is accepted; the entries below the diagonal are ignored | `C31_assertion`, `C31_upper_triangle` |
| `em` | with every row masked the selected observation parameters become zero, with one row the selected transition parameters do (nothing is documented) | C98 |
| `sqrt/unscented.py` gain | `P (R Rᵀ)⁻¹` instead of `P (Rᵀ R)⁻¹` | `C40_fails_two_observations` |
| `sqrt/unscented.py` noise | adds `U Uᵀ` instead of `Uᵀ U = Q` | `C40_adds_wrong_covariance`, `C40_fails_correlated_noise` |
| `sqrt/unscented.py` weights | negative central weight replaced by its absolute value | `C40_fails_from_four_dimensions` |
| `sqrt/unscented.py` smoother | divides by zero for all inputs if the state has two more dimensions than the observation, or two dimensions and the last row is missing; for two state dimensions exactly if some row does not improve the first component | `C40_smooth_divides_by_zero`, `C40_smooth_missing_last`, `C40_smooth_two_partial` |
| `cholupdate` | downdates that would leave the positive definite cone are clipped silently | `C41_clips`, `C41_singular` |
| `AdditiveUnscentedKalmanFilter` | from four state dimensions on covariances can become indefinite | `C52_fails…` |
| `UnscentedKalmanFilter` | from two state dimensions on (noise just added) a returned variance can be negative, and the next row raises `LinAlgError`; the class then disagrees with `AdditiveUnscentedKalmanFilter` about the same system | `C86_fails_from_two_dimensions`, `C86_classes_differ` |
| unscented constructors | `n_dim_obs` different from `n_dim_state` without observation functions is accepted, but the default observation function is the identity, whose values have the length of the state (NumPy then broadcasts or raises, not modelled) | `C56_default_observation` |
| `em` in one thread, other methods in another | the eight parameters are assigned one after the other without a lock: a call at the same time can see a mixture of old and new ones, and returns what no order of the calls gives (nothing is documented) | `C85_torn` |
| unscented classes | a function that overwrites the row it gets, or returns the same output array each time, gives wrong estimates and negative variances without an error; `sample` returns states the transition function has overwritten (nothing is documented) | `C99_observation_inPlace_fails`, `C99_transition_inPlace_fails`, `C99_shared_output`, `C99_shared_transition`, `C99_sample` |
| `BiermanKalmanFilter` | all observations are decorrelated with one product of matrices: with a library that treats columns at the edge differently, the last bits of an estimate can change when later observations are added (nothing is documented) | `C100_bierman_not_causal`; `C100_causal` if products are computed column by column |
| `KalmanFilter.loglikelihood` | `nan` in the data gives neither `nan` nor an error nor a missing row: all rows after the first `nan` count -1/2 each, whatever their values and the parameters (`test_loglikelihood.py` fits parameters to such data) | `C101_value`, `C101_first_row`, `C101_not_as_missing` |
| `em` of the three linear classes | on data with `nan` (not masked) one iteration replaces every selected parameter by `nan` without an error; the next iteration raises, and the object keeps the `nan`s: it cannot be used any more. Nothing in the documentation says so | `C102_em_selected`, `C102_em_default`, `C102_em_destroys` |
| `log_multivariate_normal_density` | with fewer covariances than means the remaining columns are uninitialised memory (no caller in the package does this) | `C90_lengths`, `C90_fails_uninitialised` |

## 5. Seeded faults

`seeded/LOG.jsonl` records one edit of the model per line, made in a scratch copy and rebuilt.

- `theorems_failed` names the declarations in which Lean reported an error. Often these are helper
  lemmas under `Verif/Proofs`; the theorems of the files in `property_files_blocked` were then not
  tried, because a module they import did not build. Such an entry shows that the proof of the
  property depends on the edited line. It does not by itself show that the statement of the
  property becomes false. Harmless edits can fail in this way too, and some in the log do.
- Entries with no failed theorem are edits that survived (the theorems added in response are in
  `theorems_tightened`), edits that break no claim, or edits that did not compile; the note says
  which.
