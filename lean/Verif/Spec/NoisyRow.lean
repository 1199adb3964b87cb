import Verif.Model.Standard

/-!
# Vocabulary for C73
-/

open Matrix

namespace Verif

variable {n m : ℕ}

/-- `p'` is `p` with the observation covariance of time step `k` multiplied by `s`, for a run over
`T` observations. -/
structure NoisyRow (p p' : Params n m) (k : ℕ) (s : ℝ) (T : ℕ) : Prop where
  A : p'.A = p.A
  b : p'.b = p.b
  Q : p'.Q = p.Q
  C : p'.C = p.C
  d : p'.d = p.d
  mu0 : p'.mu0 = p.mu0
  S0 : p'.S0 = p.S0
  R : ∀ t, t < T → t ≠ k → lastDims p'.R t = lastDims p.R t
  noisy : k < T → ∀ R, lastDims p.R k = .ok R → lastDims p'.R k = .ok (s • R)

end Verif
