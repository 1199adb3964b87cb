import Verif.Model.NaN

/-!
# Model of `loglikelihood` of `KalmanFilter` on data with `nan`

As `Model/NaN`.  The observations are a masked array (`standard.py:1645`), so `X - mu` and the
solution of the linear system in `log_multivariate_normal_density` are masked arrays, and `cv_sol**2`
is `np.ma.power`, which *masks* every entry that is not finite.  `np.sum` of a masked array leaves the
masked entries out; if all are masked the sum is masked, adding numbers to it changes nothing, and
`-0.5 * ` leaves the first factor, `-0.5`, in the place of the product.  The assignment
`log_prob[:, c] = …` copies that number and drops the mask.

What `np.linalg.solve` does with `nan` on the right-hand side is the argument `solve`.
-/

open Matrix

namespace Verif

variable {n m : ℕ}

/-- `-0.5 * (np.sum(cv_sol**2, axis=1) + …)`, `utils/_sklearn.py:63-65`, for one sample in a masked
array; `rest` is `n_dim * np.log(2 * np.pi) + cv_log_det`. -/
noncomputable def maskedQuadratic (sol : NVec m) (rest : ℝ) : ℝ :=
  if (∃ i, sol i = none) ∧ ∀ i, sol i = none then -0.5
  else -0.5 * (∑ i, ((sol i).map (· ^ 2)).getD 0 + rest)

/-- `log_multivariate_normal_density` for one sample in a masked array and one component,
`utils/_sklearn.py:50-68` (see `logMvn`). -/
noncomputable def nanLogMvn (solve : Mat m m → NVec m → NVec m) (x mu : NVec m) (cov : Mat m m) :
    Res ℝ := do
  let L ← match cholesky cov with
    | .ok L => pure L
    | .error _ => cholesky (cov + (1e-7 : ℝ) • (1 : Mat m m))
  let logDet := 2 * ∑ i, Real.log (L i i)
  let sol := solve L fun i => nsub (x i) (mu i)
  pure (maskedQuadratic sol (m * Real.log (2 * Real.pi) + logDet))

/-- Body of the loop of `_loglikelihoods`, `standard.py:162-183` (see `loglikStep`). -/
noncomputable def nanLoglikStep (solve : Mat m m → NVec m → NVec m) (p : Params n m) (t : ℕ)
    (s : NStep n m) (o : NObs m) : Res ℝ :=
  if ¬ o.missing then do
    let C ← lastDims p.C t
    let d ← lastDims p.d t
    let R ← match p.R with
      | .const R => pure R
      | .seq _ => .error .valueError
    nanLogMvn solve o.val (fun i => nadd (ndot C s.predMean i) (some (d i)))
      (C * (s.predCov * Cᵀ) + R)
  else pure 0

/-- `_loglikelihoods`, `standard.py:123-184`, from time `t` on. -/
noncomputable def nanLoglikLoop (solve : Mat m m → NVec m → NVec m) (p : Params n m) :
    ℕ → List (NStep n m) → List (NObs m) → Res (List ℝ)
  | t, s :: ss, o :: os => do
    let l ← nanLoglikStep solve p t s o
    let rest ← nanLoglikLoop solve p (t + 1) ss os
    pure (l :: rest)
  | _, _, _ => pure []

/-- `KalmanFilter.loglikelihood`, `standard.py:1535-1591`, on parsed observations and resolved
parameters. -/
noncomputable def nanLoglik (solve : Mat m m → NVec m → NVec m) (p : Params n m)
    (obs : List (NObs m)) : Res ℝ := do
  let steps ← nanLoop p 0 none obs
  let ls ← nanLoglikLoop solve p 0 steps obs
  pure ls.sum

end Verif
