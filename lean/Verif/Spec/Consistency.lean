import Verif.Spec.Regression
import Verif.Spec.LeastSquares

/-!
# Vocabulary for C89: what a set of rows tells about a state that does not change
-/

open Matrix

namespace Verif

variable {n m : ℕ}

/-- What the first `T` rows tell about the direction `v`: the squares of the changes of the
observations when the state moves by `v`, in units of the noise; a missing row tells nothing. -/
noncomputable def obsInfo (C : ℕ → Mat m n) (R : ℕ → Mat m m) (os : List (Obs m)) (T : ℕ)
    (v : Vec n) : ℝ :=
  ∑ i ∈ Finset.range T, match os[i]? with
    | some o => if o.missing then 0 else weighted (R i) (C i *ᵥ v)
    | none => 0

/-- Squares of the errors of the first `T` rows, in units of the noise, if the state is `x`. -/
noncomputable def obsErrors (C : ℕ → Mat m n) (d : ℕ → Vec m) (R : ℕ → Mat m m)
    (os : List (Obs m)) (T : ℕ) (x : Vec n) : ℝ :=
  ∑ i ∈ Finset.range T, match os[i]? with
    | some o => if o.missing then 0 else weighted (R i) (o.val - (C i *ᵥ x + d i))
    | none => 0

end Verif
