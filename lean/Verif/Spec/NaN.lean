import Verif.Model.NaN

/-!
# Vocabulary for statements about `nan` in the data
-/

namespace Verif

variable {n m : ℕ}

/-- A row that is used (nothing is masked) and contains `nan`. -/
def NObs.Bad (o : NObs m) : Prop := (∀ i, o.mask i = false) ∧ ∃ i, o.val i = none

/-- A row of real numbers with the same mask, and the same numbers wherever the row has numbers and
is used. -/
structure Fills (o : NObs m) (o' : Obs m) : Prop where
  mask : o'.mask = o.mask
  val : (∀ i, o.mask i = false) → ∀ i x, o.val i = some x → o'.val i = x

/-- All entries are `nan`. -/
def AllNaN {k : ℕ} (v : NVec k) : Prop := ∀ i, v i = none

/-- All entries are the numbers of `u`. -/
def IsReal {k : ℕ} (v : NVec k) (u : Vec k) : Prop := ∀ i, v i = some (u i)

end Verif
