import Verif.Model.RoundedLoglik

/-!
# Model of `em` of `KalmanFilter` in arithmetic with rounding errors

As in `Model/Rounded`; in addition products and quotients of numbers have errors.  The functions are
those of `Model/Standard`, with the operations in the order of the code.  Line numbers refer to
`/repo/pykalman/standard.py`.
-/

open Matrix

namespace Verif

variable {n m k l : ℕ}

/-- Arithmetic with errors of the size of `u`, with products and quotients. -/
structure ArithE (c : ℕ → ℝ) (u : ℝ) extends Arith c u where
  /-- `x * y` on floats. -/
  mulr : ℝ → ℝ → ℝ
  /-- `x / y` on floats. -/
  divr : ℝ → ℝ → ℝ
  mulr_err : ∀ x y, |mulr x y - x * y| ≤ u * (|x * y| + 1)
  divr_err : ∀ x y, y ≠ 0 → |divr x y - x / y| ≤ u * (|x / y| + 1)

/-- The same with the operations of `loglikelihood`. -/
structure ArithEL (c : ℕ → ℝ) (u : ℝ) extends ArithL c u, ArithE c u

variable {c : ℕ → ℝ} {u : ℝ}

/-- `np.outer`. -/
def ArithE.outer (ar : ArithE c u) (x : Vec k) (y : Vec l) : Mat k l := fun i j => ar.mulr (x i) (y j)

/-- A number times a matrix. -/
def ArithE.mscale (ar : ArithE c u) (a : ℝ) (M : Mat k l) : Mat k l := fun i j => ar.mulr a (M i j)

/-- A number times a vector. -/
def ArithE.vscale (ar : ArithE c u) (a : ℝ) (x : Vec k) : Vec k := fun i => ar.mulr a (x i)

/-- Loop of `_em_observation_matrix`, `standard.py:739-751`. -/
noncomputable def flObsMatLoop (ar : ArithE c u) (d : TV (Vec m)) : ℕ → List (EmStats n) →
    List (Obs m) → Mat m n → Mat n n → Res (Mat m n × Mat n n)
  | t, s :: ss, o :: os, r1, r2 =>
    if ¬ o.missing then do
      let dt ← lastDims d t
      flObsMatLoop ar d (t + 1) ss os (ar.madd r1 (ar.outer (ar.vsub o.val dt) s.mean))
        (ar.madd r2 (ar.madd s.cov (ar.outer s.mean s.mean)))
    else flObsMatLoop ar d (t + 1) ss os r1 r2
  | _, _, _, r1, r2 => pure (r1, r2)

/-- `_em_observation_matrix`, `standard.py:725-752`. -/
noncomputable def flObsMat (ar : ArithE c u) (d : TV (Vec m)) (ss : List (EmStats n))
    (os : List (Obs m)) : Res (Mat m n) := do
  let r ← flObsMatLoop ar d 0 ss os 0 0
  pure (ar.mul r.1 (ar.pinv n r.2))

/-- Loop of `_em_observation_covariance`, `standard.py:776-791`. -/
noncomputable def flObsCovLoop (ar : ArithE c u) (C : TV (Mat m n)) (d : TV (Vec m)) :
    ℕ → List (EmStats n) → List (Obs m) → Mat m m → ℕ → Res (Mat m m × ℕ)
  | t, s :: ss, o :: os, r, k =>
    if ¬ o.missing then do
      let Ct ← lastDims C t
      let dt ← lastDims d t
      let err := ar.vsub (ar.vsub o.val (ar.mulV Ct s.mean)) dt
      flObsCovLoop ar C d (t + 1) ss os
        (ar.madd r (ar.madd (ar.outer err err) (ar.mul Ct (ar.mul s.cov Ctᵀ)))) (k + 1)
    else flObsCovLoop ar C d (t + 1) ss os r k
  | _, _, _, r, k => pure (r, k)

/-- `_em_observation_covariance`, `standard.py:755-795`. -/
noncomputable def flObsCov (ar : ArithE c u) (C : TV (Mat m n)) (d : TV (Vec m))
    (ss : List (EmStats n)) (os : List (Obs m)) : Res (Mat m m) := do
  let r ← flObsCovLoop ar C d 0 ss os 0 0
  if r.2 > 0 then pure (ar.mscale (ar.divr 1.0 r.2) r.1) else pure r.1

/-- Loop of `_em_transition_matrix`, `standard.py:814-827`; `prev` is the row before. -/
noncomputable def flTransMatLoop (ar : ArithE c u) (b : TV (Vec n)) : ℕ → EmStats n →
    List (EmStats n) → Mat n n → Mat n n → Res (Mat n n × Mat n n)
  | t, prev, s :: ss, r1, r2 => do
    let bt ← lastDims b (t - 1)
    flTransMatLoop ar b (t + 1) s ss
      (ar.madd r1 (ar.msub (ar.madd s.pair (ar.outer s.mean prev.mean)) (ar.outer bt prev.mean)))
      (ar.madd r2 (ar.madd prev.cov (ar.outer prev.mean prev.mean)))
  | _, _, [], r1, r2 => pure (r1, r2)

/-- `_em_transition_matrix`, `standard.py:798-828`.  (Not called without time steps: `_smooth`
has raised before.) -/
noncomputable def flTransMat (ar : ArithE c u) (b : TV (Vec n)) : List (EmStats n) → Res (Mat n n)
  | [] => pure (ar.mul 0 (ar.pinv n 0))
  | s :: ss => do
    let r ← flTransMatLoop ar b 1 s ss 0 0
    pure (ar.mul r.1 (ar.pinv n r.2))

/-- Loop of `_em_transition_covariance`, `standard.py:852-871`, `t` is the time of `prev`. -/
noncomputable def flTransCovLoop (ar : ArithE c u) (A : TV (Mat n n)) (b : TV (Vec n)) : ℕ →
    EmStats n → List (EmStats n) → Mat n n → Res (Mat n n)
  | t, prev, s :: ss, r => do
    let At ← lastDims A t
    let bt ← lastDims b t
    let err := ar.vsub (ar.vsub s.mean (ar.mulV At prev.mean)) bt
    let vA := ar.mul s.pair Atᵀ
    flTransCovLoop ar A b (t + 1) s ss
      (ar.madd r (ar.msub (ar.msub (ar.madd (ar.madd (ar.outer err err)
        (ar.mul At (ar.mul prev.cov Atᵀ))) s.cov) vA) vAᵀ))
  | _, _, [], r => pure r

/-- `_em_transition_covariance`, `standard.py:831-876`. -/
noncomputable def flTransCov (ar : ArithE c u) (A : TV (Mat n n)) (b : TV (Vec n)) :
    List (EmStats n) → Res (Mat n n)
  | [] => pure 0
  | s :: ss => do
    let r ← flTransCovLoop ar A b 0 s ss 0
    if (s :: ss).length > 1 then
      pure (ar.mscale (ar.divr 1.0 ((s :: ss).length - 1 : ℝ)) r) else pure r

/-- `_em_initial_state_covariance`, `standard.py:892-912`. -/
def flInitCov (ar : ArithE c u) (mu : Vec n) : List (EmStats n) → Res (Mat n n)
  | [] => .error .indexError
  | s :: _ => pure (ar.madd (ar.msub (ar.msub (ar.madd s.cov (ar.outer s.mean s.mean))
      (ar.outer mu s.mean)) (ar.outer s.mean mu)) (ar.outer mu mu))

/-- Loop of `_em_transition_offset`, `standard.py:928-932`. -/
noncomputable def flTransOffLoop (ar : ArithE c u) (A : TV (Mat n n)) : ℕ → EmStats n →
    List (EmStats n) → Vec n → Res (Vec n)
  | t, prev, s :: ss, r => do
    let At ← lastDims A (t - 1)
    flTransOffLoop ar A (t + 1) s ss (ar.vadd r (ar.vsub s.mean (ar.mulV At prev.mean)))
  | _, _, [], r => pure r

/-- `_em_transition_offset`, `standard.py:915-936`. -/
noncomputable def flTransOff (ar : ArithE c u) (A : TV (Mat n n)) : List (EmStats n) → Res (Vec n)
  | [] => pure 0
  | s :: ss => do
    let r ← flTransOffLoop ar A 1 s ss 0
    if (s :: ss).length > 1 then
      pure (ar.vscale (ar.divr 1.0 ((s :: ss).length - 1 : ℝ)) r) else pure 0

/-- Loop of `_em_observation_offset`, `standard.py:951-958`. -/
noncomputable def flObsOffLoop (ar : ArithE c u) (C : TV (Mat m n)) : ℕ → List (EmStats n) →
    List (Obs m) → Vec m → ℕ → Res (Vec m × ℕ)
  | t, s :: ss, o :: os, r, k =>
    if ¬ o.missing then do
      let Ct ← lastDims C t
      flObsOffLoop ar C (t + 1) ss os (ar.vadd r (ar.vsub o.val (ar.mulV Ct s.mean))) (k + 1)
    else flObsOffLoop ar C (t + 1) ss os r k
  | _, _, _, r, k => pure (r, k)

/-- `_em_observation_offset`, `standard.py:939-962`. -/
noncomputable def flObsOff (ar : ArithE c u) (C : TV (Mat m n)) (ss : List (EmStats n))
    (os : List (Obs m)) : Res (Vec m) := do
  let r ← flObsOffLoop ar C 0 ss os 0 0
  if r.2 > 0 then pure (ar.vscale (ar.divr 1.0 r.2) r.1) else pure r.1

/-- `_em`, `standard.py:584-722` (see `emStep`). -/
noncomputable def flEmStep (ar : ArithE c u) (given : Params n m) (vars : EmVar → Bool)
    (old : Params n m) (ss : List (EmStats n)) (os : List (Obs m)) : Res (Params n m) := do
  let C ← emPick (vars .observationMatrices) (emConst (flObsMat ar old.d ss os)) given.C
  let R ← emPick (vars .observationCovariance) (emConst (flObsCov ar C old.d ss os)) given.R
  let A ← emPick (vars .transitionMatrices) (emConst (flTransMat ar old.b ss)) given.A
  let Q ← emPick (vars .transitionCovariance) (emConst (flTransCov ar A old.b ss)) given.Q
  let mu0 ← emPick (vars .initialStateMean) (emInitMean ss) given.mu0
  let S0 ← emPick (vars .initialStateCovariance) (flInitCov ar mu0 ss) given.S0
  let b ← emPick (vars .transitionOffsets) (emConst (flTransOff ar A ss)) given.b
  let d ← emPick (vars .observationOffsets) (emConst (flObsOff ar C ss os)) given.d
  pure ⟨A, b, Q, C, d, R, mu0, S0⟩

/-- The loop of `_smooth_pair`, `standard.py:575-581`. -/
def flSmoothPairAux (ar : Arith c u) : SStep n → List (SStep n) → List (Mat n n)
  | _, [] => []
  | prev, s :: rest => ar.mul s.cov prev.gainᵀ :: flSmoothPairAux ar s rest

/-- `_smooth_pair`, `standard.py:556-581`: entry 0 is the zero matrix. -/
def flSmoothPair (ar : Arith c u) : List (SStep n) → List (Mat n n)
  | [] => []
  | s :: rest => 0 :: flSmoothPairAux ar s rest

/-- Smoothed statistics of the current parameters, `standard.py:1479-1512`. -/
noncomputable def flEmStats (ar : Arith c u) (p : Params n m) (os : List (Obs m)) :
    Res (List (EmStats n)) := do
  let steps ← flFull ar p os
  let sm ← flSmoothFull ar p.A steps
  pure ((sm.zip (flSmoothPair ar sm)).map fun q => ⟨q.1.mean, q.1.cov, q.2⟩)

/-- The iterations of `KalmanFilter.em`, `standard.py:1478-1532`. -/
noncomputable def flEmLoop (ar : ArithE c u) (given : Params n m) (vars : EmVar → Bool)
    (os : List (Obs m)) : ℕ → Params n m → Res (Params n m)
  | 0, p => pure p
  | k + 1, p => do
    let ss ← flEmStats ar.toArith p os
    let p' ← flEmStep ar given vars p ss os
    flEmLoop ar given vars os k p'

/-- `KalmanFilter.em`, `standard.py:1418-1533`, on parsed observations and resolved parameters. -/
noncomputable def flEm (ar : ArithE c u) (p : Params n m) (os : List (Obs m)) (nIter : ℕ)
    (vars : EmVar → Bool) : Res (Params n m) :=
  flEmLoop ar p vars os nIter p

end Verif
