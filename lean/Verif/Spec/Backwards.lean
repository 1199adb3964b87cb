import Verif.Model.Standard

/-!
# Vocabulary for running a model backwards in time (C116)
-/

open Matrix

namespace Verif

variable {n m : ℕ}

/-- `p'` describes the process of `p` on `T` time steps backwards in time.  `mean t` and `cov t` are
the mean and covariance of the state at time `t` without any data.  Time `s` of `p'` is time
`T - 1 - s` of `p`; the transition of `p'` from time `t + 1` of `p` to time `t` is the regression of
the earlier state on the later one: `A' cov(t+1) = cov(t) A_tᵀ`. -/
structure Backwards (p p' : Params n m) (T : ℕ) (mean : ℕ → Vec n) (cov : ℕ → Mat n n) : Prop where
  start : mean 0 = p.mu0 ∧ cov 0 = p.S0
  step : ∀ t, t + 1 < T → ∀ A b Q, lastDims p.A t = .ok A → lastDims p.b t = .ok b →
    lastDims p.Q t = .ok Q → mean (t + 1) = A *ᵥ mean t + b ∧ cov (t + 1) = A * cov t * Aᵀ + Q
  start' : p'.mu0 = mean (T - 1) ∧ p'.S0 = cov (T - 1)
  step' : ∀ s t, s + t + 2 = T → ∀ A, lastDims p.A t = .ok A →
    ∃ A' b' Q', lastDims p'.A s = .ok A' ∧ lastDims p'.b s = .ok b' ∧ lastDims p'.Q s = .ok Q' ∧
      A' * cov (t + 1) = cov t * Aᵀ ∧ b' = mean t - A' *ᵥ mean (t + 1) ∧
      Q' = cov t - A' * A * cov t
  sensors : ∀ s t, s + t + 1 = T → lastDims p'.C s = lastDims p.C t ∧
    lastDims p'.d s = lastDims p.d t ∧ lastDims p'.R s = lastDims p.R t

end Verif
