import Verif.Model.Standard

/-!
# `log_multivariate_normal_density` for any number of samples and components

`logMvn` of `Model/Standard` is the call that `_loglikelihoods` makes (one sample, one component).
Here is the whole function.  `np.empty` gives an array whose contents are whatever the memory held
before; they are the argument `junk`.
-/

open Matrix

namespace Verif

variable {m N : ℕ}

/-- Loop over `enumerate(zip(means, covars))`, `utils/_sklearn.py:55-66`, from component `c` on;
`tab` is `log_prob`. -/
noncomputable def logMvnLoop (X : Fin N → Vec m) (minCovar : ℝ) :
    ℕ → List (Vec m × Mat m m) → (Fin N → ℕ → ℝ) → Res (Fin N → ℕ → ℝ)
  | _, [], tab => pure tab
  | c, (mu, cv) :: rest, tab => do
    let L ← match cholesky cv with
      | .ok L => pure L
      | .error _ => cholesky (cv + minCovar • (1 : Mat m m))
    let logDet := 2 * ∑ i, Real.log (L i i)
    let sol := fun s => L⁻¹ *ᵥ (X s - mu)
    logMvnLoop X minCovar (c + 1) rest fun s k =>
      if k = c then -0.5 * (∑ i, sol s i ^ 2 + m * Real.log (2 * Real.pi) + logDet) else tab s k

/-- `log_multivariate_normal_density`, `utils/_sklearn.py:50-68`: `n_samples` is `N`, `n_dim` is
`m`, `nmix` is the number of means. -/
noncomputable def logMvnTable (X : Fin N → Vec m) (means : List (Vec m)) (covars : List (Mat m m))
    (minCovar : ℝ) (junk : Fin N → ℕ → ℝ) : Res (Fin N → Fin means.length → ℝ) := do
  let tab ← logMvnLoop X minCovar 0 (means.zip covars) junk
  pure fun s c => tab s c

end Verif
