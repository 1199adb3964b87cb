import Verif.Spec.Symmetry

/-!
# Vocabulary: superposition of inputs and data (C48)
-/

open Matrix

namespace Verif

variable {n m : ℕ}

/-- Three models with the same matrices and covariances; offsets and initial mean of `p` are `a` times
those of `p₁` plus `c` times those of `p₂`, at all times that a run over `T` observations uses. -/
structure Superposes (a c : ℝ) (p p₁ p₂ : Params n m) (T : ℕ) : Prop where
  A : p₁.A = p.A ∧ p₂.A = p.A
  Q : p₁.Q = p.Q ∧ p₂.Q = p.Q
  C : p₁.C = p.C ∧ p₂.C = p.C
  R : p₁.R = p.R ∧ p₂.R = p.R
  S0 : p₁.S0 = p.S0 ∧ p₂.S0 = p.S0
  mu0 : p.mu0 = a • p₁.mu0 + c • p₂.mu0
  b : ∀ t, t + 1 < T → ∀ b₁ b₂, lastDims p₁.b t = .ok b₁ → lastDims p₂.b t = .ok b₂ →
    lastDims p.b t = .ok (a • b₁ + c • b₂)
  d : ∀ t, t < T → ∀ d₁ d₂, lastDims p₁.d t = .ok d₁ → lastDims p₂.d t = .ok d₂ →
    lastDims p.d t = .ok (a • d₁ + c • d₂)

/-- The model without inputs: offsets and initial mean zero. -/
def Params.noInputs (p : Params n m) : Params n m :=
  { p with b := .const 0, d := .const 0, mu0 := 0 }

/-- `os'` are the deviations of the readings `os` from what `p` predicts along `x`, with the same rows
missing. -/
def Deviations (p : Params n m) (x : ℕ → Vec n) (os os' : List (Obs m)) : Prop :=
  os'.length = os.length ∧
  ∀ t (h : t < os.length) (h' : t < os'.length), (os'[t].missing ↔ os[t].missing) ∧
    (¬ os[t].missing → ∀ C d, lastDims p.C t = .ok C → lastDims p.d t = .ok d →
      os'[t].val = os[t].val - (C *ᵥ x t + d))

end Verif
