import Verif.Model.Standard
import Verif.Spec.Process
import Mathlib.Analysis.Calculus.ContDiff.Basic

/-!
# Specification: parameters and data that vary smoothly

`E` is any normed space of quantities `θ` on which parameters and data depend: a time step, a
tuning constant, rounding errors of the inputs, the entries of the matrices themselves.
-/

namespace Verif

variable {n m : ℕ} {E : Type*} [NormedAddCommGroup E] [NormedSpace ℝ E] {ι κ : Type*}

/-- A vector whose entries are `r` times continuously differentiable at `x` (`r = 0`:
continuous near `x`). -/
def SmoothV (r : WithTop ℕ∞) (v : E → ι → ℝ) (x : E) : Prop :=
  ∀ i, ContDiffAt ℝ r (fun θ => v θ i) x

/-- A matrix whose entries are `r` times continuously differentiable at `x`. -/
def SmoothM (r : WithTop ℕ∞) (M : E → Matrix ι κ ℝ) (x : E) : Prop :=
  ∀ i j, ContDiffAt ℝ r (fun θ => M θ i j) x

/-- The parameter `a θ` has a value at time `t` for every `θ`, and the value is smooth at `x`. -/
def TVSmooth {α : Type} (smooth : (E → α) → Prop) (a : E → TV α) (t : ℕ) : Prop :=
  ∃ v : E → α, (∀ θ, lastDims (a θ) t = .ok (v θ)) ∧ smooth v

/-- All parameters a run over `T` observations needs exist for every `θ` and depend smoothly on
`θ` at `x`. -/
structure SmoothParams (r : WithTop ℕ∞) (p : E → Params n m) (x : E) (T : ℕ) : Prop where
  A : ∀ t, t + 1 < T → TVSmooth (SmoothM r · x) (fun θ => (p θ).A) t
  b : ∀ t, t + 1 < T → TVSmooth (SmoothV r · x) (fun θ => (p θ).b) t
  Q : ∀ t, t + 1 < T → TVSmooth (SmoothM r · x) (fun θ => (p θ).Q) t
  C : ∀ t, t < T → TVSmooth (SmoothM r · x) (fun θ => (p θ).C) t
  d : ∀ t, t < T → TVSmooth (SmoothV r · x) (fun θ => (p θ).d) t
  R : ∀ t, t < T → TVSmooth (SmoothM r · x) (fun θ => (p θ).R) t
  mu0 : SmoothV r (fun θ => (p θ).mu0) x
  S0 : SmoothM r (fun θ => (p θ).S0) x

/-- The masked array with the rows `v 0, …, v (T - 1)` and the mask `mask`. -/
def table (T : ℕ) (mask : MaskPat m) (v : ℕ → Vec m) : List (Obs m) :=
  (List.range T).map fun t => ⟨v t, mask t⟩

end Verif
