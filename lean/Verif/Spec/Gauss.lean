import Mathlib.Probability.Distributions.Gaussian.Multivariate

/-!
# Specification: Gaussian law of a random vector

Mathlib's `multivariateGaussian` lives on `EuclideanSpace`; here it is transported to plain
functions, which is how the model represents vectors.
-/

open MeasureTheory ProbabilityTheory

namespace Verif

/-- The Gaussian law on `ι → ℝ` with mean `μ` and covariance matrix `S`
(meaningful for positive semidefinite `S`, possibly singular). -/
noncomputable def gauss {ι : Type*} [Fintype ι] [DecidableEq ι] (μ : ι → ℝ) (S : Matrix ι ι ℝ) :
    Measure (ι → ℝ) :=
  (multivariateGaussian (WithLp.toLp 2 μ) S).map WithLp.ofLp

end Verif
