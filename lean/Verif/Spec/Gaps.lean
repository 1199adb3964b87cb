import Verif.Model.Standard

/-!
# Vocabulary for C71: leaving out a row
-/

open Matrix

namespace Verif

variable {n m : ℕ}

/-- Entry `t` of `a'` is entry `t` of `a` for `t < k` and entry `t + 1` of `a` from `k` on, for the
times below `T`. -/
def DropsEntry {α : Type} (a a' : TV α) (k T : ℕ) : Prop :=
  (∀ t, t < k → t < T → lastDims a' t = lastDims a t) ∧
  (∀ t, k ≤ t → t < T → lastDims a' t = lastDims a (t + 1))

/-- The parameters `p'` describe the model of `p` for `T` observations without the time step `k`:
the observation parameters of step `k` are left out, and the transition into step `k` and the one
out of it are composed to one transition (at the beginning they are absorbed in the initial moments,
at the end there is nothing to compose). -/
structure WithoutStep (p p' : Params n m) (k T : ℕ) : Prop where
  C : DropsEntry p.C p'.C k (T - 1)
  d : DropsEntry p.d p'.d k (T - 1)
  R : DropsEntry p.R p'.R k (T - 1)
  before : ∀ t, t + 1 < k → t + 2 < T → lastDims p'.A t = lastDims p.A t ∧
    lastDims p'.b t = lastDims p.b t ∧ lastDims p'.Q t = lastDims p.Q t
  after : ∀ t, k ≤ t → t + 2 < T → lastDims p'.A t = lastDims p.A (t + 1) ∧
    lastDims p'.b t = lastDims p.b (t + 1) ∧ lastDims p'.Q t = lastDims p.Q (t + 1)
  composed : ∀ j, k = j + 1 → k + 1 < T → ∀ A₁ b₁ Q₁ A₂ b₂ Q₂,
    lastDims p.A j = .ok A₁ → lastDims p.b j = .ok b₁ → lastDims p.Q j = .ok Q₁ →
    lastDims p.A k = .ok A₂ → lastDims p.b k = .ok b₂ → lastDims p.Q k = .ok Q₂ →
    lastDims p'.A j = .ok (A₂ * A₁) ∧ lastDims p'.b j = .ok (A₂ *ᵥ b₁ + b₂) ∧
      lastDims p'.Q j = .ok (A₂ * Q₁ * A₂ᵀ + Q₂)
  first : k = 0 → 1 < T → ∀ A b Q,
    lastDims p.A 0 = .ok A → lastDims p.b 0 = .ok b → lastDims p.Q 0 = .ok Q →
    p'.mu0 = A *ᵥ p.mu0 + b ∧ p'.S0 = A * p.S0 * Aᵀ + Q
  notFirst : k ≠ 0 → p'.mu0 = p.mu0 ∧ p'.S0 = p.S0

end Verif
