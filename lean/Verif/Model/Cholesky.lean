import Verif.Model.Standard
import Mathlib.Data.Matrix.ColumnRowPartitioned

/-!
# Model of `pykalman/sqrt/cholesky.py`

Line numbers refer to `/repo/pykalman/sqrt/cholesky.py` unless another file is named.
-/

open Matrix

namespace Verif

variable {n m : ℕ}

/-- `scipy.linalg.qr` in its default (full) mode, second component (called at `cholesky.py:96` and
`cholesky.py:168`).  Which orthogonal factor is chosen (signs, column order never changes) is left
open: any routine with these two guarantees, for matrices with at least as many rows as columns. -/
structure QR where
  r : ∀ N L : ℕ, Mat N L → Mat N L
  /-- the factor is upper trapezoidal -/
  upper : ∀ (N L : ℕ) (A : Mat N L) (i : Fin N) (j : Fin L), (j : ℕ) < (i : ℕ) → r N L A i j = 0
  /-- `A = Q R` with `QᵀQ = 1`, hence `RᵀR = AᵀA` -/
  gram : ∀ (N L : ℕ) (A : Mat N L), L ≤ N → (r N L A)ᵀ * r N L A = Aᵀ * A

/-- There are QR routines. -/
theorem exists_QR : Nonempty QR := by
  obtain ⟨qr, h⟩ := exists_qrSpec
  exact ⟨⟨fun _ _ A => qr A, fun _ _ A i j => h.upper A i j, fun _ _ A => h.gram A⟩⟩

/-- `np.hstack([X, Y])`. -/
def hstack {a b c : ℕ} (X : Mat a b) (Y : Mat a c) : Mat a (b + c) :=
  (fromCols X Y).submatrix id finSumFinEquiv.symm

/-- `linalg.cholesky(X, lower=True)` of a covariance parameter, `cholesky.py:257-259`.  For a
three-dimensional (time-varying) parameter: `ValueError` (by `linalg.cholesky`, or, where that
accepts stacks of matrices, by the `hstack` or the assignment to a block of `M` that follows). -/
noncomputable def cholParam {k : ℕ} : TV (Mat k k) → Res (Mat k k)
  | .const X => cholesky X
  | .seq _ => .error .valueError

/-- `_filter_predict`, `cholesky.py:44-107`. -/
noncomputable def cholPredict (qr : QR) (A Q2 : Mat n n) (b : Vec n) (mean : Vec n)
    (cov2 : Mat n n) : Vec n × Mat n n :=
  let T := qr.r (n + n) n (hstack (A * cov2) Q2)ᵀ
  (A *ᵥ mean + b, (T.submatrix (Fin.castAdd n) id)ᵀ)

/-- The matrix `M` of `_filter_correct`, `cholesky.py:161-166`. -/
def cholCorrectM (C : Mat m n) (R2 : Mat m m) (cov2 : Mat n n) : Mat (m + n) (m + n) :=
  (fromBlocks R2ᵀ 0 (C * cov2)ᵀ cov2ᵀ).submatrix finSumFinEquiv.symm finSumFinEquiv.symm

/-- `_filter_correct`, `cholesky.py:110-192`: corrected mean and square root of the corrected
covariance. -/
noncomputable def cholCorrect (qr : QR) (C : Mat m n) (R2 : Mat m m) (d : Vec m) (mean : Vec n)
    (cov2 : Mat n n) (o : Obs m) : Vec n × Mat n n :=
  if ¬ o.missing then
    let S := qr.r (m + n) (m + n) (cholCorrectM C R2 cov2)
    let gain := (S.submatrix (Fin.castAdd n) (Fin.natAdd m))ᵀ
    let N := (S.submatrix (Fin.castAdd n) (Fin.castAdd n))ᵀ
    let predObsMean := C *ᵥ mean + d
    (mean + gain *ᵥ (pinv N *ᵥ (o.val - predObsMean)),
     (S.submatrix (Fin.natAdd m) (Fin.natAdd m))ᵀ)
  else (mean, cov2)

/-- Row `t` of the four arrays that `_filter` returns, `cholesky.py:293-298`. -/
structure CStep (n : ℕ) where
  predMean : Vec n
  predCov2 : Mat n n
  filtMean : Vec n
  filtCov2 : Mat n n

/-- Body of the loop of `_filter`, `cholesky.py:261-291`. -/
noncomputable def cholStep (qr : QR) (p : Params n m) (Q2 : Mat n n) (R2 : Mat m m)
    (S2 : Mat n n) (t : ℕ) (prev : Option (CStep n)) (o : Obs m) : Res (CStep n) := do
  let pred ← match prev with
    | none => pure (p.mu0, S2)
    | some s => do
      let A ← lastDims p.A (t - 1)
      let b ← lastDims p.b (t - 1)
      pure (cholPredict qr A Q2 b s.filtMean s.filtCov2)
  let C ← lastDims p.C t
  let d ← lastDims p.d t
  let c := cholCorrect qr C R2 d pred.1 pred.2 o
  pure ⟨pred.1, pred.2, c.1, c.2⟩

/-- Loop of `_filter`, `cholesky.py:261-291`. -/
noncomputable def cholLoop (qr : QR) (p : Params n m) (Q2 : Mat n n) (R2 : Mat m m)
    (S2 : Mat n n) : ℕ → Option (CStep n) → List (Obs m) → Res (List (CStep n))
  | _, _, [] => pure []
  | t, prev, o :: os => do
    let s ← cholStep qr p Q2 R2 S2 t prev o
    let rest ← cholLoop qr p Q2 R2 S2 (t + 1) (some s) os
    pure (s :: rest)

/-- `_filter`, `cholesky.py:195-298`. -/
noncomputable def cholFull (qr : QR) (p : Params n m) (os : List (Obs m)) :
    Res (List (CStep n)) := do
  let Q2 ← cholParam p.Q
  let R2 ← cholParam p.R
  let S2 ← cholesky p.S0
  cholLoop qr p Q2 R2 S2 0 none os

/-- `_reconstruct_covariances`, `cholesky.py:29-41`, on one matrix. -/
def reconstruct (M : Mat n n) : Mat n n := M * Mᵀ

/-- The row with reconstructed covariances, as passed to `_smooth` and `_loglikelihoods`
(`cholesky.py:594-609`, `cholesky.py:787-797`), which do not read the gain. -/
def CStep.step (m : ℕ) (s : CStep n) : Step n m :=
  ⟨s.predMean, reconstruct s.predCov2, 0, s.filtMean, reconstruct s.filtCov2⟩

/-- `CholeskyKalmanFilter.filter`, `cholesky.py:351-408`. -/
noncomputable def cholFilter (qr : QR) (p : Params n m) (os : List (Obs m)) :
    Res (List (Vec n × Mat n n)) := do
  let steps ← cholFull qr p os
  pure (steps.map fun s => (s.filtMean, reconstruct s.filtCov2))

/-- `CholeskyKalmanFilter.smooth`, `cholesky.py:541-610`. -/
noncomputable def cholSmooth (qr : QR) (p : Params n m) (os : List (Obs m)) :
    Res (List (Vec n × Mat n n)) := do
  let steps ← cholFull qr p os
  let sm ← smoothFull p.A (steps.map (CStep.step m))
  pure (sm.map fun s => (s.mean, s.cov))

/-- `CholeskyKalmanFilter.loglikelihood`, `cholesky.py:741-799`. -/
noncomputable def cholLoglik (qr : QR) (p : Params n m) (os : List (Obs m)) : Res ℝ := do
  let steps ← cholFull qr p os
  let ls ← loglikLoop p 0 (steps.map (CStep.step m)) os
  pure ls.sum

/-- `_reconstruct_covariances`, `cholesky.py:29-41`, on a single matrix as `filter_update` calls it:
the result has a leading axis of length one. -/
def reconstruct1 (M : Mat n n) : Fin 1 → Mat n n := fun _ => reconstruct M

/-- `CholeskyKalmanFilter.filter_update`, `cholesky.py:410-539`.  The returned covariance has shape
`(1, n, n)`. -/
noncomputable def cholUpdate (qr : QR) (p : Params n m) (mean : Vec n) (cov : Mat n n)
    (observation : Option (Obs m)) (a : UpdateArgs n m) : Res (Vec n × (Fin 1 → Mat n n)) := do
  let b ← argOrDefault a.b p.b
  let d ← argOrDefault a.d p.d
  let A ← argOrDefault a.A p.A
  let C ← argOrDefault a.C p.C
  let Q ← argOrDefault a.Q p.Q
  let R ← argOrDefault a.R p.R
  let o := match observation with
    | none => ⟨0, fun _ => true⟩
    | some o => o
  let Q2 ← cholesky Q
  let R2 ← cholesky R
  let S2 ← cholesky cov
  let pred := cholPredict qr A Q2 b mean S2
  let c := cholCorrect qr C R2 d pred.1 pred.2 o
  pure (c.1, reconstruct1 c.2)

/-- Smoothed statistics in `CholeskyKalmanFilter.em`, `cholesky.py:674-717`. -/
noncomputable def cholStats (qr : QR) (p : Params n m) (os : List (Obs m)) :
    Res (List (EmStats n)) := do
  let steps ← cholFull qr p os
  let sm ← smoothFull p.A (steps.map (CStep.step m))
  pure ((sm.zip (smoothPair sm)).map fun q => ⟨q.1.mean, q.1.cov, q.2⟩)

/-- The iterations of `CholeskyKalmanFilter.em`, `cholesky.py:673-738`. -/
noncomputable def cholEmLoop (qr : QR) (given : Params n m) (vars : EmVar → Bool)
    (os : List (Obs m)) : ℕ → Params n m → Res (Params n m)
  | 0, p => pure p
  | k + 1, p => do
    let ss ← cholStats qr p os
    let p' ← emStep given vars p ss os
    cholEmLoop qr given vars os k p'

/-- `CholeskyKalmanFilter.em`, `cholesky.py:612-739`, with an explicit selection `em_vars`. -/
noncomputable def cholEm (qr : QR) (p : Params n m) (os : List (Obs m)) (nIter : ℕ)
    (vars : EmVar → Bool) : Res (Params n m) :=
  cholEmLoop qr p vars os nIter p

end Verif
