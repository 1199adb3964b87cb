import Verif.Spec.Process
import Mathlib.MeasureTheory.Function.LpSeminorm.Basic

/-!
# Specification: linear systems with disturbances of any law

Only second moments of the disturbances are spoken of; nothing is Gaussian or independent.
-/

open MeasureTheory Matrix

namespace Verif

variable {n m : ℕ} {Ω : Type*} [MeasurableSpace Ω]

/-- Matrix of the second moments of a random vector. -/
noncomputable def secondMoment {k : ℕ} (μ : Measure Ω) (Y : Ω → Vec k) : Mat k k :=
  of fun a b => ∫ ω, Y ω a * Y ω b ∂μ

/-- The disturbances that matter for `T` observations. -/
def Noise.Used (T : ℕ) : Noise → Prop
  | .init => True
  | .trans t => t + 1 < T
  | .obs t => t < T

/-- States `X t` and observations `Z t`, `t < T`, of a linear system with the matrices and offsets
of `p`, driven by disturbances `u` that are square integrable and mutually uncorrelated.  The
disturbance of the initial state is its deviation from the initial mean in `p`. -/
structure IsLinSystem (μ : Measure Ω) (p : Params n m) (T : ℕ) (X : ℕ → Ω → Vec n)
    (Z : ℕ → Ω → Vec m) (u : (i : Noise) → Ω → Vec (i.dim n m)) : Prop where
  sq : ∀ i : Noise, i.Used T → ∀ a, MemLp (fun ω => u i ω a) 2 μ
  uncor : ∀ i j : Noise, i.Used T → j.Used T → i ≠ j → ∀ a b, ∫ ω, u i ω a * u j ω b ∂μ = 0
  init_eq : ∀ ω, X 0 ω = p.mu0 + u .init ω
  trans_eq : ∀ t, t + 1 < T → ∀ A b, lastDims p.A t = .ok A → lastDims p.b t = .ok b →
    ∀ ω, X (t + 1) ω = A *ᵥ X t ω + b + u (.trans t) ω
  obs_eq : ∀ t, t < T → ∀ C d, lastDims p.C t = .ok C → lastDims p.d t = .ok d →
    ∀ ω, Z t ω = C *ᵥ X t ω + d + u (.obs t) ω

/-- The covariances in `p` are at least the second moments of the disturbances. -/
structure Params.AtLeast (p : Params n m) (T : ℕ) (μ : Measure Ω)
    (u : (i : Noise) → Ω → Vec (i.dim n m)) : Prop where
  S0 : (p.S0 - secondMoment μ (u .init)).PosSemidef
  Q : ∀ t, t + 1 < T → ∀ Q, lastDims p.Q t = .ok Q →
    (Q - secondMoment μ (u (.trans t))).PosSemidef
  R : ∀ t, t < T → ∀ R, lastDims p.R t = .ok R → (R - secondMoment μ (u (.obs t))).PosSemidef

/-- The covariances in `p` are the second moments of the disturbances. -/
structure Params.Exact (p : Params n m) (T : ℕ) (μ : Measure Ω)
    (u : (i : Noise) → Ω → Vec (i.dim n m)) : Prop where
  S0 : secondMoment μ (u .init) = p.S0
  Q : ∀ t, t + 1 < T → ∀ Q, lastDims p.Q t = .ok Q → secondMoment μ (u (.trans t)) = Q
  R : ∀ t, t < T → ∀ R, lastDims p.R t = .ok R → secondMoment μ (u (.obs t)) = R

/-- All disturbances have mean zero. -/
def Centred (T : ℕ) (μ : Measure Ω) (u : (i : Noise) → Ω → Vec (i.dim n m)) : Prop :=
  ∀ i : Noise, i.Used T → ∀ a, ∫ ω, u i ω a ∂μ = 0

/-- An estimator that is a constant plus a linear combination of the first `k` rows of the data. -/
def affineEstimate {k : ℕ} (c : Vec n) (K : Fin k → Mat n m) (y : Fin k → Vec m) : Vec n :=
  c + ∑ s, K s *ᵥ y s

/-- The estimate `est` of `X` from the data `Y`, with the reported covariance `cov`, is sound whatever
the laws of the disturbances are. -/
structure SecondOrderSound {k : ℕ} (μ : Measure Ω) (p : Params n m) (T : ℕ)
    (u : (i : Noise) → Ω → Vec (i.dim n m)) (X : Ω → Vec n) (Y : Ω → Fin k → Vec m)
    (est : Ω → Vec n) (cov : Mat n n) : Prop where
  /-- the error is square integrable -/
  sq : ∀ a, MemLp (fun ω => (X ω - est ω) a) 2 μ
  /-- disturbances no larger than assumed: the mean square error is at most what is reported -/
  conservative : p.AtLeast T μ u → (cov - secondMoment μ (fun ω => X ω - est ω)).PosSemidef
  /-- disturbances as assumed: the mean square error is what is reported -/
  exact : p.Exact T μ u → secondMoment μ (fun ω => X ω - est ω) = cov
  /-- centred disturbances: the estimate is unbiased -/
  unbiased : Centred T μ u → ∀ a, ∫ ω, (X ω - est ω) a ∂μ = 0
  /-- no estimator that is linear in the data has a smaller mean square error, in any direction -/
  best : p.Exact T μ u → Centred T μ u → ∀ (c : Vec n) (K : Fin k → Mat n m),
    (secondMoment μ (fun ω => X ω - affineEstimate c K (Y ω)) - cov).PosSemidef

end Verif
