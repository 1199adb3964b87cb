import Mathlib.Algebra.MvPolynomial.Degrees
import Mathlib.Data.Real.Basic

/-!
# Polynomial functions of a vector
-/

namespace Verif

/-- A polynomial function of degree at most `N` of the entries of a vector. -/
def PolyFn {ι : Type*} (N : ℕ) (φ : (ι → ℝ) → ℝ) : Prop :=
  ∃ q : MvPolynomial ι ℝ, q.totalDegree ≤ N ∧ ∀ x, φ x = MvPolynomial.eval x q

end Verif
