import Verif.Model.Rounded

/-!
# Model of `loglikelihood` of `KalmanFilter` in arithmetic with rounding errors

As in `Model/Rounded`.  In addition: products, squares, sums, `np.log` with errors; the Cholesky
factor is that of a matrix near the given one, and the solution of a system of equations solves a
system near the given one (backward stability).
-/

open Matrix

namespace Verif

variable {n m k : ℕ}

/-- What `scipy.linalg.cholesky(M, lower=True)` may do: return the factor of a matrix near the one
whose lower triangle is that of `M`, or raise `LinAlgError` if a matrix near that one is not positive
definite. -/
def IsRoundedChol (c u : ℝ) (M : Mat k k) : Res (Mat k k) → Prop
  | .ok L => ∃ E : Mat k k, (∀ i j, |E i j| ≤ c * u * (sumAbs M + 1)) ∧
      IsCholesky (mirrorLower M + E) L
  | .error e => e = .linAlgError ∧ ∃ E : Mat k k, Eᵀ = E ∧
      (∀ i j, |E i j| ≤ c * u * (sumAbs M + 1)) ∧ ¬ (mirrorLower M + E).PosDef

/-- Arithmetic with errors of the size of `u`, with the operations of `loglikelihood`. -/
structure ArithL (c : ℕ → ℝ) (u : ℝ) extends Arith c u where
  /-- `x * y` on floats. -/
  mulr : ℝ → ℝ → ℝ
  /-- `x ** 2` on floats. -/
  sq : ℝ → ℝ
  /-- `np.log`. -/
  log : ℝ → ℝ
  /-- `np.sum`. -/
  sum : ∀ k : ℕ, Vec k → ℝ
  /-- `np.pi`. -/
  npPi : ℝ
  /-- `scipy.linalg.cholesky(M, lower=True)`. -/
  chol : ∀ k : ℕ, Mat k k → Res (Mat k k)
  /-- `np.linalg.solve`. -/
  solve : ∀ k : ℕ, Mat k k → Vec k → Vec k
  mulr_err : ∀ x y, |mulr x y - x * y| ≤ u * (|x * y| + 1)
  sq_err : ∀ x, |sq x - x ^ 2| ≤ u * (x ^ 2 + 1)
  log_err : ∀ x, 0 < x → |log x - Real.log x| ≤ u * (|Real.log x| + 1)
  sum_err : ∀ k (x : Vec k), |sum k x - ∑ i, x i| ≤ c k * u * (∑ i, |x i| + 1)
  pi_err : |npPi - Real.pi| ≤ u * (Real.pi + 1)
  chol_err : ∀ k (M : Mat k k), IsRoundedChol (c k) u M (chol k M)
  solve_err : ∀ k (L : Mat k k) (b : Vec k), L.det ≠ 0 → ∃ G : Mat k k,
    (∀ i j, |G i j| ≤ c k * u * (sumAbs L + 1)) ∧ (L + G) *ᵥ solve k L b = b

variable {c : ℕ → ℝ} {u : ℝ}

/-- `log_multivariate_normal_density`, `utils/_sklearn.py:50-68` (see `logMvn`). -/
noncomputable def flLogMvn (ar : ArithL c u) (x mu : Vec m) (cov : Mat m m) : Res ℝ := do
  let L ← match ar.chol m cov with
    | .ok L => pure L
    | .error _ => ar.chol m (ar.madd cov ((1e-7 : ℝ) • (1 : Mat m m)))
  let logDet := ar.mulr 2 (ar.sum m fun i => ar.log (L i i))
  let sol := ar.solve m L (ar.vsub x mu)
  pure (ar.mulr (-0.5) (ar.add (ar.add (ar.sum m fun i => ar.sq (sol i))
    (ar.mulr m (ar.log (ar.mulr 2 ar.npPi)))) logDet))

/-- Body of the loop of `_loglikelihoods`, `standard.py:168-183` (see `loglikStep`). -/
noncomputable def flLoglikStep (ar : ArithL c u) (p : Params n m) (t : ℕ) (s : Step n m)
    (o : Obs m) : Res ℝ :=
  if ¬ o.missing then do
    let C ← lastDims p.C t
    let d ← lastDims p.d t
    let R ← match p.R with
      | .const R => pure R
      | .seq _ => .error .valueError
    flLogMvn ar o.val (ar.vadd (ar.mulV C s.predMean) d)
      (ar.madd (ar.mul C (ar.mul s.predCov Cᵀ)) R)
  else pure 0

/-- `_loglikelihoods`, `standard.py:123-184`, from time `t` on. -/
noncomputable def flLoglikLoop (ar : ArithL c u) (p : Params n m) :
    ℕ → List (Step n m) → List (Obs m) → Res (List ℝ)
  | t, s :: ss, o :: os => do
    let l ← flLoglikStep ar p t s o
    let rest ← flLoglikLoop ar p (t + 1) ss os
    pure (l :: rest)
  | _, _, _ => pure []

/-- `KalmanFilter.loglikelihood`, `standard.py:1535-1591`, on parsed observations and resolved
parameters. -/
noncomputable def flLoglik (ar : ArithL c u) (p : Params n m) (obs : List (Obs m)) : Res ℝ := do
  let steps ← flFull ar.toArith p obs
  let ls ← flLoglikLoop ar p 0 steps obs
  pure (ar.sum ls.length fun i => ls[i])

end Verif
