import Verif.Model.Basic

/-!
# Model of `pykalman/standard.py`: the functions on arrays

Line numbers refer to `/repo/pykalman/standard.py` unless another file is named.
-/

open Matrix

namespace Verif

variable {n m : ℕ}

/-- The parameters that `_initialize_parameters` returns, `standard.py:1632-1641`: each of
`A, b, Q, C, d, R` constant or time varying. -/
structure Params (n m : ℕ) where
  /-- `transition_matrices` -/
  A : TV (Mat n n)
  /-- `transition_offsets` -/
  b : TV (Vec n)
  /-- `transition_covariance` -/
  Q : TV (Mat n n)
  /-- `observation_matrices` -/
  C : TV (Mat m n)
  /-- `observation_offsets` -/
  d : TV (Vec m)
  /-- `observation_covariance` -/
  R : TV (Mat m m)
  /-- `initial_state_mean` -/
  mu0 : Vec n
  /-- `initial_state_covariance` -/
  S0 : Mat n n

/-- `_filter_predict`, `standard.py:187-230`. -/
def filterPredict (A Q : Mat n n) (b : Vec n) (mean : Vec n) (cov : Mat n n) : Vec n × Mat n n :=
  (A *ᵥ mean + b, A * (cov * Aᵀ) + Q)

/-- `_filter_correct`, `standard.py:233-306`: gain, corrected mean, corrected covariance.
The `else` branch (some component masked) leaves the prediction unchanged. -/
noncomputable def filterCorrect (C : Mat m n) (R : Mat m m) (d : Vec m)
    (mean : Vec n) (cov : Mat n n) (o : Obs m) : Mat n m × Vec n × Mat n n :=
  if ¬ o.missing then
    let predObsMean := C *ᵥ mean + d
    let predObsCov := C * (cov * Cᵀ) + R
    let gain := cov * (Cᵀ * pinv predObsCov)
    (gain, mean + gain *ᵥ (o.val - predObsMean), cov - gain * (C * cov))
  else (0, mean, cov)

/-- Row `t` of the five arrays that `_filter` returns, `standard.py:371-375`. -/
structure Step (n m : ℕ) where
  predMean : Vec n
  predCov : Mat n n
  gain : Mat n m
  filtMean : Vec n
  filtCov : Mat n n

/-- Body of the loop of `_filter`, `standard.py:377-410`.  `prev` is row `t - 1` of the result
arrays; it is absent exactly when `t = 0`. -/
noncomputable def filterStep (p : Params n m) (t : ℕ) (prev : Option (Step n m)) (o : Obs m) :
    Res (Step n m) := do
  let pred ← match prev with
    | none => pure (p.mu0, p.S0)
    | some s => do
      let A ← lastDims p.A (t - 1)
      let Q ← lastDims p.Q (t - 1)
      let b ← lastDims p.b (t - 1)
      pure (filterPredict A Q b s.filtMean s.filtCov)
  let C ← lastDims p.C t
  let R ← lastDims p.R t
  let d ← lastDims p.d t
  let c := filterCorrect C R d pred.1 pred.2 o
  pure ⟨pred.1, pred.2, c.1, c.2.1, c.2.2⟩

/-- The loop of `_filter`, `standard.py:377-410`, from time `t` on. -/
noncomputable def filterLoop (p : Params n m) : ℕ → Option (Step n m) → List (Obs m) →
    Res (List (Step n m))
  | _, _, [] => pure []
  | t, prev, o :: os => do
    let s ← filterStep p t prev o
    let rest ← filterLoop p (t + 1) (some s) os
    pure (s :: rest)

/-- `_filter`, `standard.py:309-418`. -/
noncomputable def filterFull (p : Params n m) (obs : List (Obs m)) : Res (List (Step n m)) :=
  filterLoop p 0 none obs

/-- `KalmanFilter.filter`, `standard.py:1186-1238`, on parsed observations and resolved
parameters: the filtered means and covariances. -/
noncomputable def kfFilter (p : Params n m) (obs : List (Obs m)) :
    Res (List (Vec n × Mat n n)) := do
  let steps ← filterFull p obs
  pure (steps.map fun s => (s.filtMean, s.filtCov))

/-- A row of the arrays that `_smooth` returns.  The array of gains has one row less than the
others; here the gain of the last row is 0 and nothing reads it. -/
structure SStep (n : ℕ) where
  mean : Vec n
  cov : Mat n n
  gain : Mat n n

/-- `_smooth_update`, `standard.py:421-485`. -/
noncomputable def smoothUpdate (A : Mat n n) (filtMean : Vec n) (filtCov : Mat n n)
    (predMean : Vec n) (predCov : Mat n n) (nextMean : Vec n) (nextCov : Mat n n) : SStep n :=
  let gain := filtCov * (Aᵀ * pinv predCov)
  ⟨filtMean + gain *ᵥ (nextMean - predMean),
   filtCov + gain * ((nextCov - predCov) * gainᵀ),
   gain⟩

/-- The loop of `_smooth`, `standard.py:531-552`, from time `t` on: `s` is the filter's row at
time `t`, the list holds the later rows.  The last row is copied from the filter, the others are
computed from the row after them. -/
noncomputable def smoothLoop (A : TV (Mat n n)) : ℕ → Step n m → List (Step n m) →
    Res (SStep n × List (SStep n))
  | _, s, [] => pure (⟨s.filtMean, s.filtCov, 0⟩, [])
  | t, s, s' :: rest => do
    let r ← smoothLoop A (t + 1) s' rest
    let At ← lastDims A t
    pure (smoothUpdate At s.filtMean s.filtCov s'.predMean s'.predCov r.1.mean r.1.cov,
      r.1 :: r.2)

/-- `_smooth`, `standard.py:488-553`.  With no time steps `np.zeros((n_timesteps - 1, ...))`
raises `ValueError`. -/
noncomputable def smoothFull (A : TV (Mat n n)) : List (Step n m) → Res (List (SStep n))
  | [] => .error .valueError
  | s :: rest => do
    let r ← smoothLoop A 0 s rest
    pure (r.1 :: r.2)

/-- `KalmanFilter.smooth`, `standard.py:1356-1416`, on parsed observations and resolved
parameters. -/
noncomputable def kfSmooth (p : Params n m) (obs : List (Obs m)) :
    Res (List (Vec n × Mat n n)) := do
  let steps ← filterFull p obs
  let sm ← smoothFull p.A steps
  pure (sm.map fun s => (s.mean, s.cov))

/-- `_smooth_pair`, `standard.py:556-581`: entry `t ≥ 1` is `cov[t] gain[t-1]ᵀ`. -/
def smoothPairAux : SStep n → List (SStep n) → List (Mat n n)
  | _, [] => []
  | prev, s :: rest => (s.cov * prev.gainᵀ) :: smoothPairAux s rest

/-- `_smooth_pair`, `standard.py:556-581`: entry 0 is the zero matrix. -/
def smoothPair : List (SStep n) → List (Mat n n)
  | [] => []
  | s :: rest => 0 :: smoothPairAux s rest

/-- `log_multivariate_normal_density` for one sample and one mixture component,
`utils/_sklearn.py:50-68`: on `LinAlgError` retry with `1e-7` added to the diagonal. -/
noncomputable def logMvn (x mu : Vec m) (cov : Mat m m) : Res ℝ := do
  let L ← match cholesky cov with
    | .ok L => pure L
    | .error _ => cholesky (cov + (1e-7 : ℝ) • (1 : Mat m m))
  let logDet := 2 * ∑ i, Real.log (L i i)
  let sol := L⁻¹ *ᵥ (x - mu)
  pure (-0.5 * (∑ i, sol i ^ 2 + m * Real.log (2 * Real.pi) + logDet))

/-- Body of the loop of `_loglikelihoods`, `standard.py:168-183`.  The observation covariance is
*not* indexed by time there: a time-varying one is added with numpy broadcasting and the
three-dimensional result is refused with `ValueError`: by `linalg.cholesky` (scipy without batch
support) or by the assignment `log_prob[:, c] = ...` (with it, two or more time steps). -/
noncomputable def loglikStep (p : Params n m) (t : ℕ) (s : Step n m) (o : Obs m) : Res ℝ :=
  if ¬ o.missing then do
    let C ← lastDims p.C t
    let d ← lastDims p.d t
    let R ← match p.R with
      | .const R => pure R
      | .seq _ => .error .valueError
    logMvn o.val (C *ᵥ s.predMean + d) (C * (s.predCov * Cᵀ) + R)
  else pure 0

/-- `_loglikelihoods`, `standard.py:123-184`, from time `t` on. -/
noncomputable def loglikLoop (p : Params n m) : ℕ → List (Step n m) → List (Obs m) → Res (List ℝ)
  | t, s :: ss, o :: os => do
    let l ← loglikStep p t s o
    let rest ← loglikLoop p (t + 1) ss os
    pure (l :: rest)
  | _, _, _ => pure []

/-- `KalmanFilter.loglikelihood`, `standard.py:1535-1591`, on parsed observations and resolved
parameters. -/
noncomputable def kfLoglik (p : Params n m) (obs : List (Obs m)) : Res ℝ := do
  let steps ← filterFull p obs
  let ls ← loglikLoop p 0 steps obs
  pure ls.sum

/-! ### One step of the online filter -/

/-- `_arg_or_default`, `standard.py:39-49`, for an optional argument of the right dimension and a
default that is constant or time varying (one dimension more). -/
def argOrDefault {α : Type} (arg : Option α) (dflt : TV α) : Res α :=
  match arg with
  | some a => .ok a
  | none =>
    match dflt with
    | .const a => .ok a
    | .seq _ => .error .valueError

/-- The optional arguments of `filter_update`, `standard.py:1240-1251`. -/
structure UpdateArgs (n m : ℕ) where
  A : Option (Mat n n) := none
  b : Option (Vec n) := none
  Q : Option (Mat n n) := none
  C : Option (Mat m n) := none
  d : Option (Vec m) := none
  R : Option (Mat m m) := none

/-- `KalmanFilter.filter_update`, `standard.py:1240-1354`. `none` as observation is a fully
masked row of zeros. -/
noncomputable def filterUpdate (p : Params n m) (mean : Vec n) (cov : Mat n n)
    (observation : Option (Obs m)) (a : UpdateArgs n m) : Res (Vec n × Mat n n) := do
  let b ← argOrDefault a.b p.b
  let d ← argOrDefault a.d p.d
  let A ← argOrDefault a.A p.A
  let C ← argOrDefault a.C p.C
  let Q ← argOrDefault a.Q p.Q
  let R ← argOrDefault a.R p.R
  let o := match observation with
    | none => ⟨0, fun _ => true⟩
    | some o => o
  let pred := filterPredict A Q b mean cov
  let c := filterCorrect C R d pred.1 pred.2 o
  pure (c.2.1, c.2.2)

/-! ### EM -/

/-- The smoothed statistics `_em` uses: one entry per time step. -/
structure EmStats (n : ℕ) where
  mean : Vec n
  cov : Mat n n
  /-- covariance of this state with the previous one; 0 at time 0 -/
  pair : Mat n n

/-- Loop of `_em_observation_matrix`, `standard.py:739-751`: accumulates `res1`, `res2`. -/
noncomputable def emObsMatLoop (d : TV (Vec m)) : ℕ → List (EmStats n) → List (Obs m) →
    Mat m n → Mat n n → Res (Mat m n × Mat n n)
  | t, s :: ss, o :: os, r1, r2 =>
    if ¬ o.missing then do
      let dt ← lastDims d t
      emObsMatLoop d (t + 1) ss os (r1 + vecMulVec (o.val - dt) s.mean)
        (r2 + (s.cov + vecMulVec s.mean s.mean))
    else emObsMatLoop d (t + 1) ss os r1 r2
  | _, _, _, r1, r2 => pure (r1, r2)

/-- `_em_observation_matrix`, `standard.py:725-752`. -/
noncomputable def emObsMat (d : TV (Vec m)) (ss : List (EmStats n)) (os : List (Obs m)) :
    Res (Mat m n) := do
  let r ← emObsMatLoop d 0 ss os 0 0
  pure (r.1 * pinv r.2)

/-- Loop of `_em_observation_covariance`, `standard.py:776-791`. -/
noncomputable def emObsCovLoop (C : TV (Mat m n)) (d : TV (Vec m)) : ℕ → List (EmStats n) →
    List (Obs m) → Mat m m → ℕ → Res (Mat m m × ℕ)
  | t, s :: ss, o :: os, r, k =>
    if ¬ o.missing then do
      let Ct ← lastDims C t
      let dt ← lastDims d t
      let err := o.val - Ct *ᵥ s.mean - dt
      emObsCovLoop C d (t + 1) ss os (r + (vecMulVec err err + Ct * (s.cov * Ctᵀ))) (k + 1)
    else emObsCovLoop C d (t + 1) ss os r k
  | _, _, _, r, k => pure (r, k)

/-- `_em_observation_covariance`, `standard.py:755-795`. -/
noncomputable def emObsCov (C : TV (Mat m n)) (d : TV (Vec m)) (ss : List (EmStats n))
    (os : List (Obs m)) : Res (Mat m m) := do
  let r ← emObsCovLoop C d 0 ss os 0 0
  if r.2 > 0 then pure ((1.0 / (r.2 : ℝ)) • r.1) else pure r.1

/-- Loop of `_em_transition_matrix`, `standard.py:814-827`; `prev` is the row before. -/
noncomputable def emTransMatLoop (b : TV (Vec n)) : ℕ → EmStats n → List (EmStats n) →
    Mat n n → Mat n n → Res (Mat n n × Mat n n)
  | t, prev, s :: ss, r1, r2 => do
    let bt ← lastDims b (t - 1)
    emTransMatLoop b (t + 1) s ss
      (r1 + (s.pair + vecMulVec s.mean prev.mean - vecMulVec bt prev.mean))
      (r2 + (prev.cov + vecMulVec prev.mean prev.mean))
  | _, _, [], r1, r2 => pure (r1, r2)

/-- `_em_transition_matrix`, `standard.py:798-828`.  (Not called without time steps: `_smooth`
has raised before.) -/
noncomputable def emTransMat (b : TV (Vec n)) : List (EmStats n) → Res (Mat n n)
  | [] => pure (0 * pinv 0)
  | s :: ss => do
    let r ← emTransMatLoop b 1 s ss 0 0
    pure (r.1 * pinv r.2)

/-- Loop of `_em_transition_covariance`, `standard.py:852-871`, `t` is the time of `prev`. -/
noncomputable def emTransCovLoop (A : TV (Mat n n)) (b : TV (Vec n)) : ℕ → EmStats n →
    List (EmStats n) → Mat n n → Res (Mat n n)
  | t, prev, s :: ss, r => do
    let At ← lastDims A t
    let bt ← lastDims b t
    let err := s.mean - At *ᵥ prev.mean - bt
    let vA := s.pair * Atᵀ
    emTransCovLoop A b (t + 1) s ss
      (r + (vecMulVec err err + At * (prev.cov * Atᵀ) + s.cov - vA - vAᵀ))
  | _, _, [], r => pure r

/-- `_em_transition_covariance`, `standard.py:831-876`. -/
noncomputable def emTransCov (A : TV (Mat n n)) (b : TV (Vec n)) : List (EmStats n) →
    Res (Mat n n)
  | [] => pure 0
  | s :: ss => do
    let r ← emTransCovLoop A b 0 s ss 0
    if (s :: ss).length > 1 then pure ((1.0 / ((s :: ss).length - 1 : ℝ)) • r) else pure r

/-- `_em_initial_state_mean`, `standard.py:879-889`. -/
def emInitMean : List (EmStats n) → Res (Vec n)
  | [] => .error .indexError
  | s :: _ => pure s.mean

/-- `_em_initial_state_covariance`, `standard.py:892-912`. -/
def emInitCov (mu : Vec n) : List (EmStats n) → Res (Mat n n)
  | [] => .error .indexError
  | s :: _ => pure (s.cov + vecMulVec s.mean s.mean - vecMulVec mu s.mean - vecMulVec s.mean mu
      + vecMulVec mu mu)

/-- Loop of `_em_transition_offset`, `standard.py:928-932`. -/
noncomputable def emTransOffLoop (A : TV (Mat n n)) : ℕ → EmStats n → List (EmStats n) → Vec n →
    Res (Vec n)
  | t, prev, s :: ss, r => do
    let At ← lastDims A (t - 1)
    emTransOffLoop A (t + 1) s ss (r + (s.mean - At *ᵥ prev.mean))
  | _, _, [], r => pure r

/-- `_em_transition_offset`, `standard.py:915-936`. -/
noncomputable def emTransOff (A : TV (Mat n n)) : List (EmStats n) → Res (Vec n)
  | [] => pure 0
  | s :: ss => do
    let r ← emTransOffLoop A 1 s ss 0
    if (s :: ss).length > 1 then pure ((1.0 / ((s :: ss).length - 1 : ℝ)) • r) else pure 0

/-- Loop of `_em_observation_offset`, `standard.py:951-958`. -/
noncomputable def emObsOffLoop (C : TV (Mat m n)) : ℕ → List (EmStats n) → List (Obs m) →
    Vec m → ℕ → Res (Vec m × ℕ)
  | t, s :: ss, o :: os, r, k =>
    if ¬ o.missing then do
      let Ct ← lastDims C t
      emObsOffLoop C (t + 1) ss os (r + (o.val - Ct *ᵥ s.mean)) (k + 1)
    else emObsOffLoop C (t + 1) ss os r k
  | _, _, _, r, k => pure (r, k)

/-- `_em_observation_offset`, `standard.py:939-962`. -/
noncomputable def emObsOff (C : TV (Mat m n)) (ss : List (EmStats n)) (os : List (Obs m)) :
    Res (Vec m) := do
  let r ← emObsOffLoop C 0 ss os 0 0
  if r.2 > 0 then pure ((1.0 / (r.2 : ℝ)) • r.1) else pure r.1

/-- The names of the parameters `em` can estimate (keys of `given`, `standard.py:1453-1462`). -/
inductive EmVar
  | transitionMatrices | observationMatrices | transitionOffsets | observationOffsets
  | transitionCovariance | observationCovariance | initialStateMean | initialStateCovariance
  deriving DecidableEq, Repr

/-- The `if "x" in given: … else: …` blocks of `_em`, `standard.py:645-710`: `sel` says that the
parameter is estimated. -/
def emPick {α : Type} (sel : Bool) (estimate : Res α) (given : α) : Res α :=
  if sel then estimate else pure given

/-- A constant parameter from its estimate. -/
def emConst {α : Type} (estimate : Res α) : Res (TV α) := do
  let a ← estimate
  pure (TV.const a)

/-- `_em`, `standard.py:584-722`.  `vars x` says that `x` is estimated; otherwise
the value in `given` is returned, which is the parameter's value when `em` was called. -/
noncomputable def emStep (given : Params n m) (vars : EmVar → Bool) (old : Params n m)
    (ss : List (EmStats n)) (os : List (Obs m)) : Res (Params n m) := do
  let C ← emPick (vars .observationMatrices) (emConst (emObsMat old.d ss os)) given.C
  let R ← emPick (vars .observationCovariance) (emConst (emObsCov C old.d ss os)) given.R
  let A ← emPick (vars .transitionMatrices) (emConst (emTransMat old.b ss)) given.A
  let Q ← emPick (vars .transitionCovariance) (emConst (emTransCov A old.b ss)) given.Q
  let mu0 ← emPick (vars .initialStateMean) (emInitMean ss) given.mu0
  let S0 ← emPick (vars .initialStateCovariance) (emInitCov mu0 ss) given.S0
  let b ← emPick (vars .transitionOffsets) (emConst (emTransOff A ss)) given.b
  let d ← emPick (vars .observationOffsets) (emConst (emObsOff C ss os)) given.d
  pure ⟨A, b, Q, C, d, R, mu0, S0⟩

/-- Smoothed statistics of the current parameters, `standard.py:1479-1512`. -/
noncomputable def emStats (p : Params n m) (os : List (Obs m)) : Res (List (EmStats n)) := do
  let steps ← filterFull p os
  let sm ← smoothFull p.A steps
  pure ((sm.zip (smoothPair sm)).map fun q => ⟨q.1.mean, q.1.cov, q.2⟩)

/-- The iterations of `KalmanFilter.em`, `standard.py:1478-1532`. -/
noncomputable def emLoop (given : Params n m) (vars : EmVar → Bool) (os : List (Obs m)) :
    ℕ → Params n m → Res (Params n m)
  | 0, p => pure p
  | k + 1, p => do
    let ss ← emStats p os
    let p' ← emStep given vars p ss os
    emLoop given vars os k p'

/-- `KalmanFilter.em`, `standard.py:1418-1533`, on parsed observations and resolved
parameters: `given` holds the parameters at the time of the call. -/
noncomputable def kfEm (p : Params n m) (os : List (Obs m)) (nIter : ℕ) (vars : EmVar → Bool) :
    Res (Params n m) :=
  emLoop p vars os nIter p

end Verif
