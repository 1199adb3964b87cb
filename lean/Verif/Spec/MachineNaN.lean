import Verif.Model.MachineNaN
import Verif.Spec.MachineSqrt

/-!
# Vocabulary for `nan` on the numbers of a machine

`bad` says which numbers are `nan`.  What is assumed is that `nan` spreads through sums, differences,
products and `np.dot`, also over zeros (IEEE 754), and that the routines of `scipy.linalg` refuse it
(`check_finite`).  Nothing is assumed about numbers that are not `nan`.
-/

namespace Verif

variable {n m k l : ℕ}

/-- `nan` on a machine, for `KalmanFilter`. -/
structure Machine.NaN (M : Machine) (bad : M.F → Prop) : Prop where
  add_left : ∀ {x} (y), bad x → bad (M.add x y)
  add_right : ∀ (x) {y}, bad y → bad (M.add x y)
  sub_left : ∀ {x} (y), bad x → bad (M.sub x y)
  sub_right : ∀ (x) {y}, bad y → bad (M.sub x y)
  mul_left : ∀ {x} (y), bad x → bad (M.mul x y)
  mul_right : ∀ (x) {y}, bad y → bad (M.mul x y)
  /-- A `nan` in the vector makes every entry of the product `nan`. -/
  dotV_right : ∀ {k l} (X : M.A k l) {v : M.V l} {j}, bad (v j) → ∀ i, bad (M.dotV k l X v i)
  /-- A `nan` in a row of the matrix makes the entry of that row `nan`. -/
  dotV_left : ∀ {k l} {X : M.A k l} (v : M.V l) {i j}, bad (X i j) → bad (M.dotV k l X v i)
  /-- A `nan` in a row of the first factor makes that row of the product `nan`. -/
  dotM_left : ∀ {k l r} {X : M.A k l} (Y : M.A l r) {i j}, bad (X i j) →
    ∀ c, bad (M.dotM k l r X Y i c)
  /-- A `nan` in a column of the second factor makes that column of the product `nan`. -/
  dotM_right : ∀ {k l r} (X : M.A k l) {Y : M.A l r} {j c}, bad (Y j c) →
    ∀ i, bad (M.dotM k l r X Y i c)
  /-- `scipy.linalg.pinv` raises `ValueError`. -/
  pinv : ∀ {k} {X : M.A k k} {i j}, bad (X i j) → M.pinv k X = .error .valueError

/-- The log density at a mean of `nan`s does not depend on what is observed. -/
def Machine.LogpdfNaN (M : Machine) (bad : M.F → Prop) : Prop :=
  ∀ {k} {x x' mu mu' : M.V k}, (∀ i, bad (mu i)) → (∀ i, bad (mu' i)) → ∀ S,
    M.logpdf k x mu S = M.logpdf k x' mu' S

/-- `nan` on a machine, for the unscented filters. -/
structure UMachine.NaN (M : UMachine) (bad : M.F → Prop) : Prop
    extends base : Machine.NaN M.toMachine bad where
  /-- `scipy.linalg.cholesky` raises `ValueError`. -/
  chol : ∀ {k} {X : M.A k k} {i j}, bad (X i j) → M.chol k X = .error .valueError

/-- `nan` on a machine, for the square root filters, without what `np.allclose` does. -/
structure SMachine.Spread (M : SMachine) (bad : M.F → Prop) : Prop
    extends ubase : UMachine.NaN M.toUMachine bad where
  /-- `scipy.linalg.cholesky` raises `ValueError`. -/
  cholL : ∀ {k} {X : M.A k k} {i j}, bad (X i j) → M.cholL k X = .error .valueError
  /-- `scipy.linalg.qr` raises `ValueError`. -/
  qr : ∀ {k l} {X : M.A k l} {i j}, bad (X i j) → M.qr k l X = .error .valueError

/-- `nan` on a machine, for the square root filters. -/
structure SMachine.NaN (M : SMachine) (bad : M.F → Prop) : Prop
    extends spread : SMachine.Spread M bad where
  /-- `np.allclose` is false. -/
  allClose : ∀ {k} {X : M.A k k} {i j}, bad (X i j) → M.allClose k X = false

namespace Machine

variable {M : Machine}

/-- A row that is used (nothing is masked). -/
def Row.Used (o : M.Row m) : Prop := ∀ i, o.mask i = false

/-- A row that is used and contains `nan`. -/
def Row.HasNaN (bad : M.F → Prop) (o : M.Row m) : Prop := o.Used ∧ ∃ i, bad (o.val i)

/-- All entries are `nan`. -/
def AllBad {ι : Type} (bad : M.F → Prop) (v : ι → M.F) : Prop := ∀ i, bad (v i)

/-- All entries are `nan`. -/
def AllBad₂ {ι κ : Type} (bad : M.F → Prop) (X : ι → κ → M.F) : Prop := ∀ i j, bad (X i j)

/-- The parameters selected for `em` are `nan` in every entry, if there were at least two rows of data
for those of the transition; the matrices of observation (and of transition) are not selected. -/
structure Par.SelectedNaN (bad : M.F → Prop) (vars : EmVar → Bool) (T : ℕ) (p : M.Par n m) :
    Prop where
  C : vars .observationMatrices = false
  A : vars .transitionMatrices = true → T < 2
  R : vars .observationCovariance = true → ∃ R, p.R = .const R ∧ AllBad₂ bad R
  Q : vars .transitionCovariance = true → 2 ≤ T → ∃ Q, p.Q = .const Q ∧ AllBad₂ bad Q
  mu0 : vars .initialStateMean = true → AllBad bad p.mu0
  S0 : vars .initialStateCovariance = true → AllBad₂ bad p.S0
  b : vars .transitionOffsets = true → 2 ≤ T → ∃ b, p.b = .const b ∧ AllBad bad b
  d : vars .observationOffsets = true → ∃ d, p.d = .const d ∧ AllBad bad d

end Machine

/-- A call raises. -/
def Raises {α : Type} (r : Res α) : Prop := ∃ e, r = .error e


/-- A function of the user that does not hide `nan`: if every component of its argument is `nan`, so is
some component of the result (if it returns). -/
def ShowsNaN {M : Machine} {α : Type} (bad : M.F → Prop) (f : M.V n → α → Res (M.V l)) : Prop :=
  ∀ x w y, (∀ i, bad (x i)) → f x w = .ok y → ∃ i, bad (y i)

end Verif
