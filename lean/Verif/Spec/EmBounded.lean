import Verif.Spec.EmCurve

/-!
# Estimates that stay away from the boundary
-/

namespace Verif

variable {n m : ℕ}

/-- The parameters estimated by `em` with the selection `vars`: all entries have absolute value at
most `B`, and the determinants of the covariances are at least `ε`. -/
structure EmBounded (vars : EmVar → Bool) (B ε : ℝ) (q : Params n m) : Prop where
  A : vars .transitionMatrices = true → ∀ i j, |q.A.at 0 i j| ≤ B
  b : vars .transitionOffsets = true → ∀ i, |q.b.at 0 i| ≤ B
  Q : vars .transitionCovariance = true → (∀ i j, |q.Q.at 0 i j| ≤ B) ∧ ε ≤ (q.Q.at 0).det
  C : vars .observationMatrices = true → ∀ i j, |q.C.at 0 i j| ≤ B
  d : vars .observationOffsets = true → ∀ i, |q.d.at 0 i| ≤ B
  R : vars .observationCovariance = true → (∀ i j, |q.R.at 0 i j| ≤ B) ∧ ε ≤ (q.R.at 0).det
  mu0 : vars .initialStateMean = true → ∀ i, |q.mu0 i| ≤ B
  S0 : vars .initialStateCovariance = true → (∀ i j, |q.S0 i j| ≤ B) ∧ ε ≤ q.S0.det

end Verif
