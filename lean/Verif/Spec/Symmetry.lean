import Verif.Spec.Runs

/-!
# Vocabulary for statements that compare two models
-/

open Matrix

namespace Verif

variable {n n' m : ℕ}

/-- The model `p'` is the model `p` with the state `x` replaced by `L x + c`, for a run over `T`
observations: transitions commute with the replacement, the emitted observation is the same and
the state noises are images under `L`.  `L` need not be square. -/
structure StateChange (p : Params n m) (p' : Params n' m) (L : Mat n' n) (c : Vec n') (T : ℕ) :
    Prop where
  trans : ∀ t, t + 1 < T → ∀ A b, lastDims p.A t = .ok A → lastDims p.b t = .ok b →
    ∃ A' b', lastDims p'.A t = .ok A' ∧ lastDims p'.b t = .ok b' ∧
      ∀ x, A' *ᵥ (L *ᵥ x + c) + b' = L *ᵥ (A *ᵥ x + b) + c
  noise : ∀ t, t + 1 < T → ∀ Q, lastDims p.Q t = .ok Q → lastDims p'.Q t = .ok (L * Q * Lᵀ)
  emit : ∀ t, t < T → ∀ C d, lastDims p.C t = .ok C → lastDims p.d t = .ok d →
    ∃ C' d', lastDims p'.C t = .ok C' ∧ lastDims p'.d t = .ok d' ∧
      ∀ x, C' *ᵥ (L *ᵥ x + c) + d' = C *ᵥ x + d
  obsNoise : p'.R = p.R
  init : p'.mu0 = L *ᵥ p.mu0 + c ∧ p'.S0 = L * p.S0 * Lᵀ

/-- The model `p'` is the model `p` with the observation `z` at time `t` replaced by
`L t z + c t`. -/
structure ObsChange (p p' : Params n m) (L : ℕ → Mat m m) (c : ℕ → Vec m) (T : ℕ) : Prop where
  A : p'.A = p.A
  b : p'.b = p.b
  Q : p'.Q = p.Q
  emit : ∀ t, t < T → ∀ C d, lastDims p.C t = .ok C → lastDims p.d t = .ok d →
    ∃ C' d', lastDims p'.C t = .ok C' ∧ lastDims p'.d t = .ok d' ∧
      ∀ x, C' *ᵥ x + d' = L t *ᵥ (C *ᵥ x + d) + c t
  obsNoise : ∀ t, t < T → ∀ R, lastDims p.R t = .ok R →
    lastDims p'.R t = .ok (L t * R * (L t)ᵀ)
  init : p'.mu0 = p.mu0 ∧ p'.S0 = p.S0

/-- The data `os'` are the data `os` with every unmasked row `z` replaced by `L t z + c t`. -/
def DataChange (L : ℕ → Mat m m) (c : ℕ → Vec m) (os os' : List (Obs m)) : Prop :=
  os.length = os'.length ∧ ∀ t (h : t < os.length) (h' : t < os'.length),
    (os[t].missing ↔ os'[t].missing) ∧
    (¬ os[t].missing → os'[t].val = L t *ᵥ os[t].val + c t)

/-- The data `os` are the combination `a os₁ + b os₂` of two data sets with the same missing
rows. -/
def DataCombination (a b : ℝ) (os os₁ os₂ : List (Obs m)) : Prop :=
  os.length = os₁.length ∧ os.length = os₂.length ∧
  ∀ t (h : t < os.length) (h₁ : t < os₁.length) (h₂ : t < os₂.length),
    (os[t].missing ↔ os₁[t].missing) ∧ (os[t].missing ↔ os₂[t].missing) ∧
    (¬ os[t].missing → os[t].val = a • os₁[t].val + b • os₂[t].val)

/-- `x` is the path of unconditional means: it starts at the initial mean and follows the
transitions without noise. -/
def MeanPath (p : Params n m) (T : ℕ) (x : ℕ → Vec n) : Prop :=
  x 0 = p.mu0 ∧ ∀ t, t + 1 < T → ∀ A b, lastDims p.A t = .ok A → lastDims p.b t = .ok b →
    x (t + 1) = A *ᵥ x t + b

/-- `p'` differs from `p` only by larger (Loewner order) covariances. -/
structure MoreNoise (p p' : Params n m) (T : ℕ) : Prop where
  A : p'.A = p.A
  b : p'.b = p.b
  C : p'.C = p.C
  d : p'.d = p.d
  Q : ∀ t, t + 1 < T → ∀ Q, lastDims p.Q t = .ok Q →
    ∃ Q', lastDims p'.Q t = .ok Q' ∧ (Q' - Q).PosSemidef
  R : ∀ t, t < T → ∀ R, lastDims p.R t = .ok R →
    ∃ R', lastDims p'.R t = .ok R' ∧ (R' - R).PosSemidef
  mu0 : p'.mu0 = p.mu0
  S0 : (p'.S0 - p.S0).PosSemidef

end Verif
