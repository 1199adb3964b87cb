import Verif.Spec.Beside

/-!
# Vocabulary: offsets written as a constant state (C20)
-/

open Matrix

namespace Verif

variable {n m : ℕ}

/-- The model `p'` has no offsets; instead a last state that is always 1 carries the offsets of
`p`. -/
structure OffsetsInState (p : Params n m) (p' : Params (n + 1) m) (T : ℕ) : Prop where
  trans : ∀ t, t + 1 < T → ∀ A b, lastDims p.A t = .ok A → lastDims p.b t = .ok b →
    ∃ A', lastDims p'.A t = .ok A' ∧
      ∀ x, A' *ᵥ stackVec x ![1] = stackVec (A *ᵥ x + b) ![1]
  transOff : ∀ t, t + 1 < T → lastDims p'.b t = .ok 0
  noise : ∀ t, t + 1 < T → ∀ Q, lastDims p.Q t = .ok Q → lastDims p'.Q t = .ok (blocks Q 0)
  emit : ∀ t, t < T → ∀ C d, lastDims p.C t = .ok C → lastDims p.d t = .ok d →
    ∃ C', lastDims p'.C t = .ok C' ∧ ∀ x, C' *ᵥ stackVec x ![1] = C *ᵥ x + d
  obsOff : ∀ t, t < T → lastDims p'.d t = .ok 0
  obsNoise : p'.R = p.R
  init : p'.mu0 = stackVec p.mu0 ![1] ∧ p'.S0 = blocks p.S0 0

end Verif
