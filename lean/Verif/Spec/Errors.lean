import Verif.Spec.Process
import Verif.Spec.Em
import Mathlib.MeasureTheory.Integral.Lebesgue.Basic

/-!
# Specification: honest and optimal estimates

What a user who plots error bars, tests consistency, or compares with another estimator relies on.
Written without reference to the filter's own recursions.
-/

open MeasureTheory ProbabilityTheory Matrix

namespace Verif

variable {n m : ℕ} {Ω H : Type*} [MeasurableSpace Ω] [MeasurableSpace H]

/-- `est` with the reported covariance `cov` is an honest estimate of the random vector `X` from
the data `Y`. -/
structure Honest (μ : Measure Ω) (X : Ω → Vec n) (Y : Ω → H) (est : Ω → Vec n) (cov : Mat n n) :
    Prop where
  /-- the estimate is computed from the data -/
  of_data : ∃ f : H → Vec n, Measurable f ∧ ∀ ω, est ω = f (Y ω)
  /-- the error is centred Gaussian with the reported covariance -/
  law : μ.map (fun ω => X ω - est ω) = gauss 0 cov
  /-- the error has mean zero and the reported covariance as mean square error -/
  moments : HasMoments μ (fun ω => X ω - est ω) 0 cov
  /-- the error is independent of the data -/
  indep : IndepFun Y (fun ω => X ω - est ω) μ
  /-- the normalised squared error has the law of the sum of the squares of `n` independent
  standard normal variables -/
  chiSq : cov.PosDef → μ.map (fun ω => (X ω - est ω) ⬝ᵥ (cov⁻¹ *ᵥ (X ω - est ω)))
    = (gauss (0 : Vec n) 1).map (fun g => g ⬝ᵥ g)

/-- In every direction `v` the mean square error of every estimator `φ` computed from the data is
the variance reported for the direction plus the mean square distance of `φ` from `est`. -/
def Optimal (μ : Measure Ω) (X : Ω → Vec n) (Y : Ω → H) (est : Ω → Vec n) (cov : Mat n n) : Prop :=
  ∀ φ : H → Vec n, Measurable φ → ∀ v : Vec n,
    ∫⁻ ω, ENNReal.ofReal ((v ⬝ᵥ (X ω - φ (Y ω))) ^ 2) ∂μ
      = ENNReal.ofReal (v ⬝ᵥ (cov *ᵥ v))
        + ∫⁻ ω, ENNReal.ofReal ((v ⬝ᵥ (est ω - φ (Y ω))) ^ 2) ∂μ

/-- The forecast of observation `t` from the rows `0 … t-1` returned by `filter`: its mean and its
covariance, computed by hand from row `t - 1` (from the prior if `t = 0`). -/
def forecast (p : Params n m) (rows : List (Vec n × Mat n n)) : ℕ → Vec m × Mat m m
  | 0 => (p.C.at 0 *ᵥ p.mu0 + p.d.at 0, p.C.at 0 * p.S0 * (p.C.at 0)ᵀ + p.R.at 0)
  | t + 1 =>
    let row := rows.getD t 0
    (p.C.at (t + 1) *ᵥ (p.A.at t *ᵥ row.1 + p.b.at t) + p.d.at (t + 1),
     p.C.at (t + 1) * (p.A.at t * row.2 * (p.A.at t)ᵀ + p.Q.at t) * (p.C.at (t + 1))ᵀ
      + p.R.at (t + 1))

end Verif
