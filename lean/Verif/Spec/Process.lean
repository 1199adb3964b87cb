import Verif.Model.Standard
import Verif.Spec.Gauss
import Mathlib.Probability.Independence.Basic
import Mathlib.Probability.Kernel.CondDistrib

/-!
# Specification: the linear-Gaussian process a Kalman filter is about

Written without reference to the filter's own recursions.
-/

open MeasureTheory ProbabilityTheory Matrix

namespace Verif

variable {n m : ℕ}

/-- Names of the independent sources of randomness: the initial state, the transition noise from
time `t` to `t + 1`, and the observation noise at time `t`. -/
inductive Noise
  | init
  | trans (t : ℕ)
  | obs (t : ℕ)

/-- Dimension of a noise vector: states have dimension `n`, observations `m`. -/
@[reducible] def Noise.dim (n m : ℕ) : Noise → ℕ
  | .init => n
  | .trans _ => n
  | .obs _ => m

/-- States `X t` and observations `Z t`, `t < T`, form a linear-Gaussian process with the
parameters `p`:
`X 0 ~ N(mu0, S0)`, `X (t+1) = A t X t + b t + W t`, `Z t = C t X t + d t + V t`, with
`W t ~ N(0, Q t)`, `V t ~ N(0, R t)` and `X 0`, all `W t`, all `V t` independent.
`lastDims p.A t = .ok A` says that `A` is the transition matrix the user specified for time `t`.
(Noises of times outside `0 … T-1` play no role and may be constants.) -/
structure IsLinGauss {Ω : Type*} [MeasurableSpace Ω] (μ : Measure Ω) (p : Params n m) (T : ℕ)
    (X : ℕ → Ω → Vec n) (Z : ℕ → Ω → Vec m)
    (noise : (i : Noise) → Ω → Vec (i.dim n m)) : Prop where
  meas : ∀ i, Measurable (noise i)
  indep : iIndepFun noise μ
  init_law : μ.map (noise .init) = gauss p.mu0 p.S0
  trans_law : ∀ t, t + 1 < T → ∀ Q, lastDims p.Q t = .ok Q → μ.map (noise (.trans t)) = gauss 0 Q
  obs_law : ∀ t, t < T → ∀ R, lastDims p.R t = .ok R → μ.map (noise (.obs t)) = gauss 0 R
  init_eq : ∀ ω, X 0 ω = noise .init ω
  trans_eq : ∀ t, t + 1 < T → ∀ A b, lastDims p.A t = .ok A → lastDims p.b t = .ok b →
    ∀ ω, X (t + 1) ω = A *ᵥ X t ω + b + noise (.trans t) ω
  obs_eq : ∀ t, t < T → ∀ C d, lastDims p.C t = .ok C → lastDims p.d t = .ok d →
    ∀ ω, Z t ω = C *ᵥ X t ω + d + noise (.obs t) ω

/-- Which components the user masks, per time step. -/
abbrev MaskPat (m : ℕ) := ℕ → Fin m → Bool

/-- Row `t` counts as unobserved: some component is masked. -/
def MaskPat.rowMissing (mask : MaskPat m) (t : ℕ) : Prop := ∃ j, mask t j = true

instance (mask : MaskPat m) (t : ℕ) : Decidable (mask.rowMissing t) :=
  inferInstanceAs (Decidable (∃ j, mask t j = true))

/-- The unmasked time steps of a run of length `T`. -/
abbrev Unmasked (mask : MaskPat m) (T : ℕ) := {t : Fin T // ¬ mask.rowMissing t}

/-- The information in the first `k` rows: the unmasked rows of the observations, with 0 in the
place of each row that has a masked component. -/
def seen {Ω : Type*} (mask : MaskPat m) (Z : ℕ → Ω → Vec m) (k : ℕ) (ω : Ω) : Fin k → Vec m :=
  fun i => if mask.rowMissing i then 0 else Z i ω

/-- `os` is a masked array that records the outcome `z 0, z 1, …` with the mask `mask`: the data
under a mask is arbitrary. -/
def Records (mask : MaskPat m) (z : ℕ → Vec m) (os : List (Obs m)) : Prop :=
  ∀ t (h : t < os.length), os[t].mask = mask t ∧ (¬ mask.rowMissing t → os[t].val = z t)

/-- All covariances a run over `T` observations uses are positive semidefinite. -/
structure Params.PSD (p : Params n m) (T : ℕ) : Prop where
  Q : ∀ t, t + 1 < T → ∀ Q, lastDims p.Q t = .ok Q → Q.PosSemidef
  R : ∀ t, t < T → ∀ R, lastDims p.R t = .ok R → R.PosSemidef
  S0 : p.S0.PosSemidef

/-- All parameters are defined at all times a run over `T` observations needs: transitions for
`0 … T-2`, observation parameters for `0 … T-1`. -/
structure Params.DefinedFor (p : Params n m) (T : ℕ) : Prop where
  A : ∀ t, t + 1 < T → ∃ A, lastDims p.A t = .ok A
  b : ∀ t, t + 1 < T → ∃ b, lastDims p.b t = .ok b
  Q : ∀ t, t + 1 < T → ∃ Q, lastDims p.Q t = .ok Q
  C : ∀ t, t < T → ∃ C, lastDims p.C t = .ok C
  d : ∀ t, t < T → ∃ d, lastDims p.d t = .ok d
  R : ∀ t, t < T → ∃ R, lastDims p.R t = .ok R

end Verif
