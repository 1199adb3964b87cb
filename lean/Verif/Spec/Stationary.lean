import Verif.Model.Standard

/-!
# Vocabulary for C71: a process that starts in its stationary law
-/

open Matrix

namespace Verif

variable {n m : ℕ}

/-- All parameters are constant, and a step of the process does not change its mean and covariance. -/
structure StartsStationary (p : Params n m) (A Q : Mat n n) (b : Vec n) (C : Mat m n) (d : Vec m)
    (R : Mat m m) : Prop where
  mean : A *ᵥ p.mu0 + b = p.mu0
  cov : A * p.S0 * Aᵀ + Q = p.S0
  A : p.A = .const A
  b : p.b = .const b
  Q : p.Q = .const Q
  C : p.C = .const C
  d : p.d = .const d
  R : p.R = .const R

end Verif
