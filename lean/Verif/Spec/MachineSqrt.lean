import Verif.Model.MachineSqrt
import Verif.Spec.MachineUnscented

/-!
# Vocabulary for the square root filters on the numbers of a machine
-/

namespace Verif

/-- In a product of two matrices, a column of the result is computed from the first factor and the
same column of the second factor: neither the other columns nor their number matter.  (True for the
textbook algorithm; a linear algebra library may treat the columns at the edge differently.) -/
def Machine.ColumnWise (M : Machine) : Prop :=
  ∀ (k l r r' : ℕ) (X : M.A k l) (Y : M.A l r) (Y' : M.A l r') (j : Fin r) (j' : Fin r'),
    (∀ i, Y i j = Y' i j') → ∀ i, M.dotM k l r X Y i j = M.dotM k l r' X Y' i j'

/-- The product with a matrix of one column is the product with that column. -/
def Machine.SingleColumn (M : Machine) : Prop :=
  ∀ (k l : ℕ) (X : M.A k l) (Y : M.A l 1) (i : Fin k),
    M.dotM k l 1 X Y i 0 = M.dotV k l X (fun i => Y i 0) i

end Verif
