import Verif.Model.Standard

/-!
# Vocabulary for C69 and C70
-/

open Matrix

namespace Verif

variable {n m k : ℕ}

/-- `p'` is `p` with all covariances multiplied by `c`, for a run over `T` observations. -/
structure ScaledNoise (p p' : Params n m) (c : ℝ) (T : ℕ) : Prop where
  A : p'.A = p.A
  b : p'.b = p.b
  C : p'.C = p.C
  d : p'.d = p.d
  Q : ∀ t, t + 1 < T → ∀ Q, lastDims p.Q t = .ok Q → lastDims p'.Q t = .ok (c • Q)
  R : ∀ t, t < T → ∀ R, lastDims p.R t = .ok R → lastDims p'.R t = .ok (c • R)
  mu0 : p'.mu0 = p.mu0
  S0 : p'.S0 = c • p.S0

/-- The quantity `H x` is known at all times of a run over `T` observations: it has the value `y 0`
initially, its transition depends on itself only, and no noise enters it. -/
structure KnownQuantity (p : Params n m) (H : Mat k n) (y : ℕ → Vec k) (T : ℕ) : Prop where
  init : H *ᵥ p.mu0 = y 0 ∧ H * p.S0 = 0
  noise : ∀ t, t + 1 < T → ∀ Q, lastDims p.Q t = .ok Q → H * Q = 0
  trans : ∀ t, t + 1 < T → ∀ A b, lastDims p.A t = .ok A → lastDims p.b t = .ok b →
    ∀ x, H *ᵥ x = y t → H *ᵥ (A *ᵥ x + b) = y (t + 1)

end Verif
