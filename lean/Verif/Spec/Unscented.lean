import Verif.Model.Unscented
import Verif.Spec.Runs

/-!
# Vocabulary for statements about the unscented filters
-/

open Matrix

namespace Verif

variable {n m : ℕ}

/-- The functions of an additive unscented filter are the affine functions `x ↦ A x + b` and
`x ↦ C x + d` of a linear model, at every time step at which that model has parameters; noise
covariances and initial moments are the same and constant. -/
structure UParams.AffineAs (u : UParams n m) (p : Params n m) : Prop where
  f : ∀ t A b, lastDims p.A t = .ok A → lastDims p.b t = .ok b →
    ∃ f, u.f.at t = .ok f ∧ ∀ x, f x = A *ᵥ x + b
  g : ∀ t C d, lastDims p.C t = .ok C → lastDims p.d t = .ok d →
    ∃ g, u.g.at t = .ok g ∧ ∀ x, g x = C *ᵥ x + d
  Q : p.Q = .const u.Q
  R : p.R = .const u.R
  mu0 : p.mu0 = u.mu0
  S0 : p.S0 = u.S0

/-- The functions of an unscented filter with general noise are affine in state and noise,
`(x, w) ↦ A x + G w + b` and `(x, v) ↦ C x + H v + d`, and the linear model has the covariances
`G Q Gᵀ` and `H R Hᵀ`. -/
structure GParams.AffineAs (u : GParams n m) (p : Params n m) : Prop where
  f : ∀ t A b Q, lastDims p.A t = .ok A → lastDims p.b t = .ok b → lastDims p.Q t = .ok Q →
    ∃ f G, u.f.at t = .ok f ∧ Q = G * u.Q * Gᵀ ∧ ∀ x w, f x w = A *ᵥ x + G *ᵥ w + b
  g : ∀ t C d R, lastDims p.C t = .ok C → lastDims p.d t = .ok d → lastDims p.R t = .ok R →
    ∃ g H, u.g.at t = .ok g ∧ R = H * u.R * Hᵀ ∧ ∀ x v, g x v = C *ᵥ x + H *ᵥ v + d
  mu0 : p.mu0 = u.mu0
  S0 : p.S0 = u.S0

/-- A row of means and covariances as `Moments`. -/
def toMoments (r : Vec n × Mat n n) : Moments n := ⟨r.1, r.2⟩

/-- How a caller of `filter_update` provides the function of time step `t`: explicitly, or by
omitting it if the filter has a single function. -/
def FnSupplied {α : Type} (arg : Option α) (fns : Fns α) (t : ℕ) : Prop :=
  (∃ f, arg = some f ∧ fns.at t = .ok f) ∨ (arg = none ∧ ∃ f, fns = .flat [f])

end Verif
