import Verif.Model.Unscented

/-!
# Functions with general noise that just add the noise
-/

namespace Verif

variable {n m : ℕ}

/-- The filter with general noise `u` describes the same system as the filter with additive noise
`p`: wherever `p` has a transition function `φ`, that of `u` is `φ x + w`; likewise for observations;
all other parameters agree. -/
structure AddsNoise (u : GParams n m) (p : UParams n m) : Prop where
  f : ∀ t φ, p.f.at t = .ok φ → u.f.at t = .ok fun x w => φ x + w
  g : ∀ t γ, p.g.at t = .ok γ → u.g.at t = .ok fun x v => γ x + v
  Q : u.Q = p.Q
  R : u.R = p.R
  mu0 : u.mu0 = p.mu0
  S0 : u.S0 = p.S0

end Verif
