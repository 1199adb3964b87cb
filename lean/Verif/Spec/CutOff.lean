import Verif.Spec.SecondOrder

/-!
# Specification: conditioning of the matrices the filter inverts
-/

open Matrix

namespace Verif

variable {n m k : ℕ}

/-- `M` is symmetric and all its values on unit vectors are at most `c` and greater than `a`. -/
structure Between (a c : ℝ) (M : Mat k k) : Prop where
  symm : Mᵀ = M
  lower : ∀ v : Vec k, v ≠ 0 → a * (v ⬝ᵥ v) < v ⬝ᵥ (M *ᵥ v)
  upper : ∀ v : Vec k, v ⬝ᵥ (M *ᵥ v) ≤ c * (v ⬝ᵥ v)

/-- `Σ t` is the covariance of the state at time `t` before any observation. -/
structure IsPriorCov (p : Params n m) (T : ℕ) (Sig : ℕ → Mat n n) : Prop where
  zero : Sig 0 = p.S0
  succ : ∀ t, t + 1 < T → ∀ A Q, lastDims p.A t = .ok A → lastDims p.Q t = .ok Q →
    Sig (t + 1) = A * Sig t * Aᵀ + Q

/-- What is asked of the parameters so that no singular value is dropped in `_filter_correct`: the
observation noise is not too small compared to all that is uncertain about the observation. -/
structure Params.ObsConditioned (p : Params n m) (T : ℕ) (eps : ℝ) (Sig : ℕ → Mat n n)
    (a c : ℕ → ℝ) : Prop where
  ratio : ∀ t, t < T → 0 ≤ a t ∧ m * eps * c t ≤ a t
  noise : ∀ t, t < T → ∀ R, lastDims p.R t = .ok R → ∀ v : Vec m, v ≠ 0 →
    a t * (v ⬝ᵥ v) < v ⬝ᵥ (R *ᵥ v)
  total : ∀ t, t < T → ∀ C R, lastDims p.C t = .ok C → lastDims p.R t = .ok R → ∀ v : Vec m,
    v ⬝ᵥ ((C * Sig t * Cᵀ + R) *ᵥ v) ≤ c t * (v ⬝ᵥ v)

/-- The same for `_smooth_update`. -/
structure Params.StateConditioned (p : Params n m) (T : ℕ) (eps : ℝ) (Sig : ℕ → Mat n n)
    (a c : ℕ → ℝ) : Prop where
  ratio : ∀ t, t + 1 < T → 0 ≤ a t ∧ n * eps * c t ≤ a t
  noise : ∀ t, t + 1 < T → ∀ Q, lastDims p.Q t = .ok Q → ∀ v : Vec n, v ≠ 0 →
    a t * (v ⬝ᵥ v) < v ⬝ᵥ (Q *ᵥ v)
  total : ∀ t, t + 1 < T → ∀ v : Vec n, v ⬝ᵥ (Sig (t + 1) *ᵥ v) ≤ c t * (v ⬝ᵥ v)

end Verif
