import Verif.Model.RoundedCholesky
import Verif.Model.RoundedEm

/-!
# Model of `CholeskyKalmanFilter.em` in arithmetic with rounding errors

The loop of `Model/Cholesky` with the filter of `Model/RoundedCholesky` and the updates of
`Model/RoundedEm`.  Line numbers refer to `/repo/pykalman/sqrt/cholesky.py`.
-/

open Matrix

namespace Verif

variable {n m : ℕ} {c : ℕ → ℝ} {u : ℝ}

/-- Arithmetic with errors, with all operations of `CholeskyKalmanFilter`. -/
structure ArithCE (c : ℕ → ℝ) (u : ℝ) extends ArithC c u, ArithE c u

/-- Smoothed statistics in `CholeskyKalmanFilter.em`, `cholesky.py:674-717`. -/
noncomputable def flCholStats (ar : ArithCE c u) (p : Params n m) (os : List (Obs m)) :
    Res (List (EmStats n)) := do
  let steps ← flCholFull ar.toArithC p os
  let sm ← flSmoothFull ar.toArith p.A (steps.map (CStep.flStep ar.toArithC m))
  pure ((sm.zip (flSmoothPair ar.toArith sm)).map fun q => ⟨q.1.mean, q.1.cov, q.2⟩)

/-- The iterations of `CholeskyKalmanFilter.em`, `cholesky.py:673-738`. -/
noncomputable def flCholEmLoop (ar : ArithCE c u) (given : Params n m) (vars : EmVar → Bool)
    (os : List (Obs m)) : ℕ → Params n m → Res (Params n m)
  | 0, p => pure p
  | k + 1, p => do
    let ss ← flCholStats ar p os
    let p' ← flEmStep ar.toArithE given vars p ss os
    flCholEmLoop ar given vars os k p'

/-- `CholeskyKalmanFilter.em`, `cholesky.py:612-739`, with an explicit selection `em_vars`. -/
noncomputable def flCholEm (ar : ArithCE c u) (p : Params n m) (os : List (Obs m)) (nIter : ℕ)
    (vars : EmVar → Bool) : Res (Params n m) :=
  flCholEmLoop ar p vars os nIter p

end Verif
