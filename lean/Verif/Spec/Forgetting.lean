import Verif.Model.Standard

/-!
# Specification: systems whose errors can be kept bounded
-/

open Matrix

namespace Verif

variable {n m : ℕ}

/-- The state can be tracked from the observations: some observer `x ↦ A x + K (z - C x)` has errors
that shrink, measured by a positive definite form (`F N Fᵀ < N` for `F = A - K C`). -/
def Detectable (A : Mat n n) (C : Mat m n) : Prop :=
  ∃ (K : Mat n m) (N : Mat n n), N.PosDef ∧
    (N - (A - K * C) * N * (A - K * C)ᵀ).PosDef

/-- Nothing is masked. -/
def FullyObserved (os : List (Obs m)) : Prop := ∀ o ∈ os, ¬ o.missing

/-- Noise of covariance `Q`, entering at every step and carried along by `A`, has moved the state in
every direction after `N` steps (controllability of the pair). -/
def NoiseReaches (A Q : Mat n n) (N : ℕ) : Prop :=
  (∑ k ∈ Finset.range N, A ^ k * Q * (A ^ k)ᵀ).PosDef

end Verif
