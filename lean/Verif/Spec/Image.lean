import Verif.Spec.Beside

/-!
# Vocabulary for models that are linear images of other models (C117)
-/

open Matrix

namespace Verif

variable {n m k : ℕ}

/-- The states of `p'` are linear images of the states of `p`, for `T` time steps: `x'_t = E_t x_t + e_t`.
The transition of `p'` takes the image of a state to the image of its successor, the noise of `p'` is
the image of that of `p`, and the sensors read from the image what those of `p` read from the state.
`E_t` is any matrix: `p'` may have more or fewer components than `p`. -/
structure ImageOf (p : Params n m) (p' : Params k m) (T : ℕ) (E : ℕ → Mat k n) (e : ℕ → Vec k) :
    Prop where
  trans : ∀ t, t + 1 < T → ∀ A b, lastDims p.A t = .ok A → lastDims p.b t = .ok b →
    ∃ A' b', lastDims p'.A t = .ok A' ∧ lastDims p'.b t = .ok b' ∧
      ∀ x, A' *ᵥ (E t *ᵥ x + e t) + b' = E (t + 1) *ᵥ (A *ᵥ x + b) + e (t + 1)
  noise : ∀ t, t + 1 < T → ∀ Q, lastDims p.Q t = .ok Q →
    lastDims p'.Q t = .ok (E (t + 1) * Q * (E (t + 1))ᵀ)
  emit : ∀ t, t < T → ∀ C d, lastDims p.C t = .ok C → lastDims p.d t = .ok d →
    ∃ C' d', lastDims p'.C t = .ok C' ∧ lastDims p'.d t = .ok d' ∧
      ∀ x, C' *ᵥ (E t *ᵥ x + e t) + d' = C *ᵥ x + d
  obsNoise : p'.R = p.R
  init : p'.mu0 = E 0 *ᵥ p.mu0 + e 0 ∧ p'.S0 = E 0 * p.S0 * (E 0)ᵀ

/-- The model `p'` has the offsets of `p` in its matrices: one more state, which is 1 and stays so. -/
structure OffsetsAsState (p : Params n m) (p' : Params (n + 1) m) (T : ℕ) : Prop where
  trans : ∀ t, t + 1 < T → ∀ A b, lastDims p.A t = .ok A → lastDims p.b t = .ok b →
    ∃ A', lastDims p'.A t = .ok A' ∧ ∀ x, A' *ᵥ stackVec x ![1] = stackVec (A *ᵥ x + b) ![1]
  emit : ∀ t, t < T → ∀ C d, lastDims p.C t = .ok C → lastDims p.d t = .ok d →
    ∃ C', lastDims p'.C t = .ok C' ∧ ∀ x, C' *ᵥ stackVec x ![1] = C *ᵥ x + d
  noise : ∀ t, t + 1 < T → ∀ Q, lastDims p.Q t = .ok Q →
    lastDims p'.Q t = .ok (blocks Q (0 : Mat 1 1))
  obsNoise : p'.R = p.R
  offsets : p'.b = .const 0 ∧ p'.d = .const 0
  init : p'.mu0 = stackVec p.mu0 ![1] ∧ p'.S0 = blocks p.S0 (0 : Mat 1 1)

end Verif
