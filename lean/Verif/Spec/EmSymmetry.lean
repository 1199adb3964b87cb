import Verif.Model.Bierman
import Verif.Spec.UnscentedSymmetry

/-!
# Vocabulary: a linear model with state and observations in other coordinates
-/

open Matrix

namespace Verif

variable {n m : ℕ}

/-- The model for the state `S x` and the observations `V z + w` instead of `x` and `z`. -/
noncomputable def Params.changeUnits (p : Params n m) (S : Mat n n) (V : Mat m m) (w : Vec m) :
    Params n m where
  A := p.A.map fun A => S * A * S⁻¹
  b := p.b.map fun b => S *ᵥ b
  Q := p.Q.map fun Q => S * Q * Sᵀ
  C := p.C.map fun C => V * C * S⁻¹
  d := p.d.map fun d => V *ᵥ d + w
  R := p.R.map fun R => V * R * Vᵀ
  mu0 := S *ᵥ p.mu0
  S0 := S * p.S0 * Sᵀ

end Verif
