import Verif.Model.RoundedLoglik
import Verif.Model.Cholesky

/-!
# Model of `CholeskyKalmanFilter` in arithmetic with rounding errors

The functions are those of `Model/Cholesky` with every operation on numbers replaced by one with an
error, as in `Model/Rounded` and `Model/RoundedLoglik`; the triangular factor of
`scipy.linalg.qr` is that of a matrix near the given one (backward stability).  Line numbers refer to
`/repo/pykalman/sqrt/cholesky.py`.
-/

open Matrix

namespace Verif

variable {n m k : ℕ}

/-- Arithmetic with errors of the size of `u`, with the operations of `CholeskyKalmanFilter`. -/
structure ArithC (c : ℕ → ℝ) (u : ℝ) extends ArithL c u where
  /-- Second component of `scipy.linalg.qr` (`cholesky.py:96`, `cholesky.py:168`). -/
  qr : ∀ N L : ℕ, Mat N L → Mat N L
  qr_upper : ∀ (N L : ℕ) (A : Mat N L) (i : Fin N) (j : Fin L), (j : ℕ) < (i : ℕ) →
    qr N L A i j = 0
  qr_err : ∀ (N L : ℕ) (A : Mat N L), L ≤ N → ∃ E : Mat N L,
    (∀ i j, |E i j| ≤ c N * u * (sumAbs A + 1)) ∧ (qr N L A)ᵀ * qr N L A = (A + E)ᵀ * (A + E)

variable {c : ℕ → ℝ} {u : ℝ}

/-- `linalg.cholesky(X, lower=True)` of a covariance parameter, `cholesky.py:257-259` (see
`cholParam`). -/
def flCholParam (ar : ArithC c u) : TV (Mat k k) → Res (Mat k k)
  | .const X => ar.chol k X
  | .seq _ => .error .valueError

/-- `_filter_predict`, `cholesky.py:44-107`. -/
def flCholPredict (ar : ArithC c u) (A Q2 : Mat n n) (b : Vec n) (mean : Vec n)
    (cov2 : Mat n n) : Vec n × Mat n n :=
  let T := ar.qr (n + n) n (hstack (ar.mul A cov2) Q2)ᵀ
  (ar.vadd (ar.mulV A mean) b, (T.submatrix (Fin.castAdd n) id)ᵀ)

/-- The matrix `M` of `_filter_correct`, `cholesky.py:161-166`. -/
def flCholCorrectM (ar : ArithC c u) (C : Mat m n) (R2 : Mat m m) (cov2 : Mat n n) :
    Mat (m + n) (m + n) :=
  (fromBlocks R2ᵀ 0 (ar.mul C cov2)ᵀ cov2ᵀ).submatrix finSumFinEquiv.symm finSumFinEquiv.symm

/-- `_filter_correct`, `cholesky.py:110-192`: corrected mean and square root of the corrected
covariance. -/
def flCholCorrect (ar : ArithC c u) (C : Mat m n) (R2 : Mat m m) (d : Vec m)
    (mean : Vec n) (cov2 : Mat n n) (o : Obs m) : Vec n × Mat n n :=
  if ¬ o.missing then
    let S := ar.qr (m + n) (m + n) (flCholCorrectM ar C R2 cov2)
    let gain := (S.submatrix (Fin.castAdd n) (Fin.natAdd m))ᵀ
    let N := (S.submatrix (Fin.castAdd n) (Fin.castAdd n))ᵀ
    let predObsMean := ar.vadd (ar.mulV C mean) d
    (ar.vadd mean (ar.mulV gain (ar.mulV (ar.pinv m N) (ar.vsub o.val predObsMean))),
     (S.submatrix (Fin.natAdd m) (Fin.natAdd m))ᵀ)
  else (mean, cov2)

/-- Body of the loop of `_filter`, `cholesky.py:261-291`. -/
def flCholStep (ar : ArithC c u) (p : Params n m) (Q2 : Mat n n) (R2 : Mat m m)
    (S2 : Mat n n) (t : ℕ) (prev : Option (CStep n)) (o : Obs m) : Res (CStep n) := do
  let pred ← match prev with
    | none => pure (p.mu0, S2)
    | some s => do
      let A ← lastDims p.A (t - 1)
      let b ← lastDims p.b (t - 1)
      pure (flCholPredict ar A Q2 b s.filtMean s.filtCov2)
  let C ← lastDims p.C t
  let d ← lastDims p.d t
  let q := flCholCorrect ar C R2 d pred.1 pred.2 o
  pure ⟨pred.1, pred.2, q.1, q.2⟩

/-- Loop of `_filter`, `cholesky.py:261-291`. -/
def flCholLoop (ar : ArithC c u) (p : Params n m) (Q2 : Mat n n) (R2 : Mat m m)
    (S2 : Mat n n) : ℕ → Option (CStep n) → List (Obs m) → Res (List (CStep n))
  | _, _, [] => pure []
  | t, prev, o :: os => do
    let s ← flCholStep ar p Q2 R2 S2 t prev o
    let rest ← flCholLoop ar p Q2 R2 S2 (t + 1) (some s) os
    pure (s :: rest)

/-- `_filter`, `cholesky.py:195-298`. -/
def flCholFull (ar : ArithC c u) (p : Params n m) (os : List (Obs m)) :
    Res (List (CStep n)) := do
  let Q2 ← flCholParam ar p.Q
  let R2 ← flCholParam ar p.R
  let S2 ← ar.chol n p.S0
  flCholLoop ar p Q2 R2 S2 0 none os

/-- `_reconstruct_covariances`, `cholesky.py:29-41`, on one matrix. -/
def flReconstruct (ar : ArithC c u) (M : Mat n n) : Mat n n := ar.mul M Mᵀ

/-- The row with reconstructed covariances, as passed to `_smooth` and `_loglikelihoods`
(`cholesky.py:594-609`, `cholesky.py:787-797`), which do not read the gain. -/
def CStep.flStep (ar : ArithC c u) (m : ℕ) (s : CStep n) : Step n m :=
  ⟨s.predMean, flReconstruct ar s.predCov2, 0, s.filtMean, flReconstruct ar s.filtCov2⟩

/-- `CholeskyKalmanFilter.filter`, `cholesky.py:351-408`. -/
def flCholFilter (ar : ArithC c u) (p : Params n m) (os : List (Obs m)) :
    Res (List (Vec n × Mat n n)) := do
  let steps ← flCholFull ar p os
  pure (steps.map fun s => (s.filtMean, flReconstruct ar s.filtCov2))

/-- `CholeskyKalmanFilter.smooth`, `cholesky.py:541-610`. -/
noncomputable def flCholSmooth (ar : ArithC c u) (p : Params n m) (os : List (Obs m)) :
    Res (List (Vec n × Mat n n)) := do
  let steps ← flCholFull ar p os
  let sm ← flSmoothFull ar.toArith p.A (steps.map (CStep.flStep ar m))
  pure (sm.map fun s => (s.mean, s.cov))

/-- `CholeskyKalmanFilter.loglikelihood`, `cholesky.py:741-799`. -/
noncomputable def flCholLoglik (ar : ArithC c u) (p : Params n m) (os : List (Obs m)) : Res ℝ := do
  let steps ← flCholFull ar p os
  let ls ← flLoglikLoop ar.toArithL p 0 (steps.map (CStep.flStep ar m)) os
  pure (ar.sum ls.length fun i => ls[i])

end Verif
