import Verif.Model.NaNLoglik
import Verif.Spec.NaN

/-!
# Vocabulary for `loglikelihood` on data with `nan`
-/

open Matrix

namespace Verif

variable {n m : ℕ}

/-- A solver of linear systems: exact without `nan`; if the right-hand side consists of `nan`, so
does the result. -/
structure SolvesNaN (solve : Mat m m → NVec m → NVec m) : Prop where
  real : ∀ (L : Mat m m) (v : NVec m) (u : Vec m), IsReal v u → IsReal (solve L v) (L⁻¹ *ᵥ u)
  nan : ∀ (L : Mat m m) (v : NVec m), AllNaN v → AllNaN (solve L v)

/-- One `nan` on the right-hand side reaches every component of the result (LAPACK's `gesv`: forward
substitution carries it to the last component, backward substitution from there to all). -/
def SpreadsNaN (solve : Mat m m → NVec m → NVec m) : Prop :=
  ∀ (L : Mat m m) (v : NVec m), (∃ i, v i = none) → AllNaN (solve L v)

/-- The number of rows without masked entries. -/
def usedRows (os : List (NObs m)) : ℕ := (os.filter fun o => decide (¬ o.missing)).length

/-- Both rows have a masked entry, or neither has. -/
def SameMissing (o o' : NObs m) : Prop := o.missing ↔ o'.missing

end Verif
