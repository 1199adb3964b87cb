import Mathlib.MeasureTheory.Integral.Bochner.Basic
import Mathlib.MeasureTheory.Function.L1Space.Integrable
import Mathlib.Data.Matrix.Block
import Mathlib.Data.Matrix.ColumnRowPartitioned

/-!
# Second-moment matrices of linear images of random vectors
-/

open MeasureTheory Matrix

namespace Verif

variable {Ω : Type*} [MeasurableSpace Ω] {μ : Measure Ω} {ι κ : Type*} [Fintype ι]

/-- Second moments of a linear image. -/
theorem moment_mulVec (y : Ω → ι → ℝ) (M : Matrix κ ι ℝ) (S : Matrix ι ι ℝ)
    (hint : ∀ a b, Integrable (fun ω => y ω a * y ω b) μ)
    (hS : ∀ a b, ∫ ω, y ω a * y ω b ∂μ = S a b) (i j : κ) :
    ∫ ω, (M *ᵥ y ω) i * (M *ᵥ y ω) j ∂μ = (M * S * Mᵀ) i j := by
  have e : ∀ ω, (M *ᵥ y ω) i * (M *ᵥ y ω) j
      = ∑ b, ∑ a, (M i a * M j b) * (y ω a * y ω b) := by
    intro ω
    simp only [mulVec, dotProduct, Finset.sum_mul_sum]
    rw [Finset.sum_comm]
    refine Finset.sum_congr rfl fun b _ => Finset.sum_congr rfl fun a _ => by ring
  simp only [e]
  rw [integral_finsetSum _ fun b _ => integrable_finsetSum _ fun a _ => (hint a b).const_mul _]
  simp only [Matrix.mul_apply, Matrix.transpose_apply, Finset.sum_mul]
  refine Finset.sum_congr rfl fun b _ => ?_
  rw [integral_finsetSum _ fun a _ => (hint a b).const_mul _]
  refine Finset.sum_congr rfl fun a _ => ?_
  rw [integral_const_mul, hS]
  ring

end Verif
