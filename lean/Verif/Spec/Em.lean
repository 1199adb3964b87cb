import Verif.Model.Standard
import Verif.Spec.Runs
import Mathlib.Analysis.SpecialFunctions.Log.Basic
import Mathlib.Analysis.Real.Pi.Bounds
import Mathlib.LinearAlgebra.Matrix.NonsingularInverse
import Mathlib.Data.Matrix.Block
import Mathlib.MeasureTheory.Integral.Bochner.Basic

/-!
# Specification: complete-data log-likelihood

The quantity `em` is meant to increase, written down from the textbook formula for the Gaussian
density and the definition of the linear-Gaussian process, without the model's own helpers.
-/

open Matrix MeasureTheory

namespace Verif

variable {n m : ℕ} {α : Type}

/-- Log density at `x` of the Gaussian law with mean `c` and positive definite covariance `S`. -/
noncomputable def logN {k : ℕ} (x c : Vec k) (S : Mat k k) : ℝ :=
  -(1 / 2) * (k * Real.log (2 * Real.pi) + Real.log S.det + (x - c) ⬝ᵥ (S⁻¹ *ᵥ (x - c)))

/-- The value the user specified for time `t` (`0` if none). -/
def TV.at [Zero α] : TV α → ℕ → α
  | .const a, _ => a
  | .seq l, t => l.getD t 0

/-- Log density of a trajectory `x` of the states together with the unmasked rows of `os`: the
initial state, the transitions, and the observations of the unmasked rows. -/
noncomputable def logJoint (p : Params n m) (os : List (Obs m)) (x : ℕ → Vec n) : ℝ :=
  logN (x 0) p.mu0 p.S0
    + ∑ t ∈ Finset.range (os.length - 1), logN (x (t + 1)) (p.A.at t *ᵥ x t + p.b.at t) (p.Q.at t)
    + ∑ t : Fin os.length, if (∃ j, os[t].mask j = true) then 0
        else logN os[t].val (p.C.at t *ᵥ x t + p.d.at t) (p.R.at t)

/-- All covariances a run over `T` observations uses are positive definite. -/
structure Params.PD (p : Params n m) (T : ℕ) : Prop where
  Q : ∀ t, t + 1 < T → ∀ Q, lastDims p.Q t = .ok Q → Q.PosDef
  R : ∀ t, t < T → ∀ R, lastDims p.R t = .ok R → R.PosDef
  S0 : p.S0.PosDef

/-- Every parameter that `em` computes, and the covariance that weighs the errors of a matrix or
offset that `em` computes, is constant in time. -/
structure Params.EmInvariant (p : Params n m) (vars : EmVar → Bool) : Prop where
  A : vars .transitionMatrices = true → p.A.IsConst
  b : vars .transitionOffsets = true → p.b.IsConst
  C : vars .observationMatrices = true → p.C.IsConst
  d : vars .observationOffsets = true → p.d.IsConst
  Q : vars .transitionMatrices = true ∨ vars .transitionOffsets = true ∨
    vars .transitionCovariance = true → p.Q.IsConst
  R : vars .observationMatrices = true ∨ vars .observationOffsets = true ∨
    vars .observationCovariance = true → p.R.IsConst

/-- What an M-step from `p` to `p'` is meant to achieve for an expected complete-data
log-likelihood `E`: every replaced parameter is a maximiser, with the parameters replaced before it
at their new values and the others at their old values.  `em` replaces the parameters in the order
of the fields; `claim` says for which parameters the statement is made.  Competitors of a covariance are positive definite; statements that involve a new
covariance are made when it is positive definite. -/
structure MStepMax (E : Params n m → ℝ) (claim : EmVar → Prop) (p p' : Params n m) : Prop where
  C : claim .observationMatrices → ∀ C',
    E { p with C := .const C' } ≤ E { p with C := p'.C }
  R : claim .observationCovariance → (p'.R.at 0).PosDef → ∀ R', R'.PosDef →
    E { p with C := p'.C, R := .const R' } ≤ E { p with C := p'.C, R := p'.R }
  A : claim .transitionMatrices → ∀ A',
    E { p with C := p'.C, R := p'.R, A := .const A' }
      ≤ E { p with C := p'.C, R := p'.R, A := p'.A }
  Q : claim .transitionCovariance → (p'.Q.at 0).PosDef → ∀ Q', Q'.PosDef →
    E { p with C := p'.C, R := p'.R, A := p'.A, Q := .const Q' }
      ≤ E { p with C := p'.C, R := p'.R, A := p'.A, Q := p'.Q }
  mu0 : claim .initialStateMean → ∀ mu0',
    E { p with C := p'.C, R := p'.R, A := p'.A, Q := p'.Q, mu0 := mu0' }
      ≤ E { p with C := p'.C, R := p'.R, A := p'.A, Q := p'.Q, mu0 := p'.mu0 }
  S0 : claim .initialStateCovariance → p'.S0.PosDef → ∀ S0', S0'.PosDef →
    E { p with C := p'.C, R := p'.R, A := p'.A, Q := p'.Q, mu0 := p'.mu0, S0 := S0' }
      ≤ E { p with C := p'.C, R := p'.R, A := p'.A, Q := p'.Q, mu0 := p'.mu0, S0 := p'.S0 }
  b : claim .transitionOffsets → (p'.Q.at 0).PosDef → ∀ b',
    E { p' with d := p.d, b := .const b' } ≤ E { p' with d := p.d }
  d : claim .observationOffsets → (p'.R.at 0).PosDef → ∀ d',
    E { p' with d := .const d' } ≤ E p'

/-- The covariance that weighs the errors when a matrix or offset is recomputed is constant in time
(`R` for `C` and `d`, `Q` for `A` and `b`; the offsets are recomputed after the covariances). -/
def Weighed (p p' : Params n m) : EmVar → Prop
  | .observationMatrices => p.R.IsConst
  | .observationOffsets => p'.R.IsConst
  | .transitionMatrices => p.Q.IsConst
  | .transitionOffsets => p'.Q.IsConst
  | _ => True

/-- A random vector `Y` has the mean `mean` and the covariance `cov`. -/
structure HasMoments {Ω : Type*} [MeasurableSpace Ω] {ι : Type*} (ν : Measure Ω) (Y : Ω → ι → ℝ)
    (mean : ι → ℝ) (cov : Matrix ι ι ℝ) : Prop where
  int1 : ∀ i, Integrable (fun ω => Y ω i) ν
  int2 : ∀ i j, Integrable (fun ω => Y ω i * Y ω j) ν
  mean_eq : ∀ i, ∫ ω, Y ω i ∂ν = mean i
  second : ∀ i j, ∫ ω, Y ω i * Y ω j ∂ν = cov i j + mean i * mean j

/-- Random states `X 0, X 1, …` have the smoothed means and covariances, and successive states the
lag-one cross-covariances, of the list `ss`. -/
structure SmoothedMoments {Ω : Type*} [MeasurableSpace Ω] (ν : Measure Ω) (X : ℕ → Ω → Vec n)
    (ss : List (EmStats n)) : Prop where
  single : ∀ t s, ss[t]? = some s → HasMoments ν (X t) s.mean s.cov
  pair : ∀ t s s', ss[t]? = some s → ss[t + 1]? = some s' →
    HasMoments ν (fun ω => Sum.elim (X (t + 1) ω) (X t ω)) (Sum.elim s'.mean s.mean)
      (fromBlocks s'.cov s'.pair s'.pairᵀ s.cov)

end Verif
