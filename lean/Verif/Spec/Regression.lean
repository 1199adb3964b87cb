import Verif.Model.Standard
import Mathlib.Algebra.BigOperators.Fin
import Mathlib.LinearAlgebra.Matrix.NonsingularInverse

/-!
# Vocabulary for C72: Bayesian linear regression
-/

open Matrix

namespace Verif

variable {n m : ℕ}

/-- A state that never changes: `x(t+1) = x(t)` without noise. -/
structure Params.Static (p : Params n m) : Prop where
  A : p.A = .const 1
  b : p.b = .const 0
  Q : p.Q = .const 0

/-- Observation parameters of `T` time steps, `z(t) = C t x + d t + noise(R t)`. -/
structure Params.Observes (p : Params n m) (C : ℕ → Mat m n) (d : ℕ → Vec m) (R : ℕ → Mat m m)
    (T : ℕ) : Prop where
  C : ∀ t, t < T → lastDims p.C t = .ok (C t)
  d : ∀ t, t < T → lastDims p.d t = .ok (d t)
  R : ∀ t, t < T → lastDims p.R t = .ok (R t)

/-- Precision matrix of the posterior in Bayesian linear regression with the prior covariance `S` and
the first `T` rows; a missing row contributes nothing. -/
noncomputable def regPrecision (S : Mat n n) (C : ℕ → Mat m n) (R : ℕ → Mat m m) (os : List (Obs m))
    (T : ℕ) : Mat n n :=
  S⁻¹ + ∑ i ∈ Finset.range T, match os[i]? with
    | some o => if o.missing then 0 else (C i)ᵀ * (R i)⁻¹ * C i
    | none => 0

/-- Right-hand side of the normal equations of Bayesian linear regression. -/
noncomputable def regInfo (mu : Vec n) (S : Mat n n) (C : ℕ → Mat m n) (d : ℕ → Vec m)
    (R : ℕ → Mat m m) (os : List (Obs m)) (T : ℕ) : Vec n :=
  S⁻¹ *ᵥ mu + ∑ i ∈ Finset.range T, match os[i]? with
    | some o => if o.missing then 0 else ((C i)ᵀ * (R i)⁻¹) *ᵥ (o.val - d i)
    | none => 0

end Verif
