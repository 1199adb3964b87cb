import Verif.Model.Unscented
import Verif.Spec.Gauss
import Mathlib.Analysis.Calculus.FDeriv.Basic
import Mathlib.Analysis.Calculus.ContDiff.Defs

/-!
# Smooth functions of a Gaussian vector, and approximate moments

The norm of vectors is the largest entry in absolute value, and the norm of a derivative is the norm
of the multilinear form for it.
-/

open MeasureTheory Matrix

namespace Verif

variable {ι : Type*} [Fintype ι] {n m : ℕ}

/-- A function with second and third derivatives bounded by `C` and `D` everywhere. -/
structure Smooth23 (φ : (ι → ℝ) → ℝ) (C D : ℝ) : Prop where
  contDiff : ContDiff ℝ 3 φ
  second : ∀ x, ‖iteratedFDeriv ℝ 2 φ x‖ ≤ C
  third : ∀ x, ‖iteratedFDeriv ℝ 3 φ x‖ ≤ D

/-- A function with fourth derivative bounded by `B` everywhere. -/
structure Smooth4 (φ : (ι → ℝ) → ℝ) (B : ℝ) : Prop where
  contDiff : ContDiff ℝ 4 φ
  fourth : ∀ x, ‖iteratedFDeriv ℝ 4 φ x‖ ≤ B

/-- Covariance of two functions of a random element. -/
noncomputable def covOf {Ω : Type*} [MeasurableSpace Ω] (ν : Measure Ω) (φ ψ : Ω → ℝ) : ℝ :=
  ∫ x, (φ x - ∫ y, φ y ∂ν) * (ψ x - ∫ y, ψ y ∂ν) ∂ν

/-- `y`, `S` and `Γ` are, up to errors of the order of the square of the variance, the mean of
`g x + noise`, its covariance, and its cross covariance with `x`, for a Gaussian `x` with the moments
`M` and independent noise with covariance `R`.  The constants are bounds of the derivatives of `g`. -/
structure NearMoments (g : Vec n → Vec m) (R : Mat m m) (M : Moments n) (B C D : Fin m → ℝ)
    (y : Vec m) (S : Mat m m) (Γ : Mat n m) : Prop where
  mean : ∀ i, |y i - ∫ x, g x i ∂(gauss M.mean M.cov)| ≤ B i / 4 * M.cov.trace ^ 2
  cov : ∀ i j, |S i j - (covOf (gauss M.mean M.cov) (fun x => g x i) (fun x => g x j) + R i j)|
    ≤ (‖fderiv ℝ (fun x => g x i) M.mean‖ * D j + ‖fderiv ℝ (fun x => g x j) M.mean‖ * D i
      + 2 * (C i * C j)) * M.cov.trace ^ 2
  cross : ∀ i j, |Γ i j - covOf (gauss M.mean M.cov) (fun x => x i) (fun x => g x j)|
    ≤ D j * M.cov.trace ^ 2

end Verif
