import Verif.Spec.Em

/-!
# Specification: the weighted least-squares criterion of a trajectory
-/

open Matrix

namespace Verif

variable {n m : ℕ}

/-- Square of an error `e` in units of the covariance `S`. -/
noncomputable def weighted {k : ℕ} (S : Mat k k) (e : Vec k) : ℝ := e ⬝ᵥ (S⁻¹ *ᵥ e)

/-- How badly a trajectory `x` fits: weighted squares of the deviation of the initial state from its
mean, of the states from their predecessors, and of the unmasked observations from the states. -/
noncomputable def misfit (p : Params n m) (os : List (Obs m)) (x : ℕ → Vec n) : ℝ :=
  weighted p.S0 (x 0 - p.mu0)
    + ∑ t ∈ Finset.range (os.length - 1),
        weighted (p.Q.at t) (x (t + 1) - (p.A.at t *ᵥ x t + p.b.at t))
    + ∑ t : Fin os.length, if (∃ j, os[t].mask j = true) then 0
        else weighted (p.R.at t) (os[t].val - (p.C.at t *ᵥ x t + p.d.at t))

end Verif
