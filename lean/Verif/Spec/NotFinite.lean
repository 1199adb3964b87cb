import Verif.Spec.ParamNaN
import Mathlib.Data.Multiset.AddSub

/-!
# Vocabulary for infinite numbers and overflow

The numbers of the machine are finite, infinite or `nan`.  What is assumed are the rules of IEEE 754 for
the elementary operations on numbers that are not finite, that every entry of a product of matrices is
computed from the products of the entries by additions (in any order, fused or not), and that the
routines of `scipy.linalg` refuse what is not finite (`check_finite`).  Nothing is assumed about what the
operations do with finite numbers; in particular they may overflow.
-/

namespace Verif

variable {n m : ℕ}

/-- How a machine may compute `∑ a * b` over the given pairs. -/
inductive DotOf (M : Machine) (fma : M.F → M.F → M.F → M.F) : Multiset (M.F × M.F) → M.F → Prop
  | mul (a b) : DotOf M fma {(a, b)} (M.mul a b)
  | fmaZero (a b) : DotOf M fma {(a, b)} (fma a b M.zero)
  | add {s t x y} : DotOf M fma s x → DotOf M fma t y → DotOf M fma (s + t) (M.add x y)
  | fma {s x} (a b) : DotOf M fma s x → DotOf M fma ((a, b) ::ₘ s) (fma a b x)
  /-- An accumulator that starts from zero. -/
  | start {s x} : DotOf M fma s x → DotOf M fma s (M.add M.zero x)
  /-- The factor `alpha = 1` of BLAS. -/
  | scale {s x} : DotOf M fma s x → DotOf M fma s (M.mul M.one x)

/-- The pairs of `x` and `y`. -/
def pairsOf {F : Type} {k : ℕ} (x y : Fin k → F) : Multiset (F × F) :=
  Multiset.ofList (List.ofFn fun i => (x i, y i))

/-- `nan` or infinite. -/
def NotFinite {F : Type} (nan inf : F → Prop) (x : F) : Prop := nan x ∨ inf x

/-- The rules of IEEE 754 for numbers that are not finite, and `check_finite` in `scipy.linalg`. -/
structure SMachine.IEEE (M : SMachine) (nan inf : M.F → Prop)
    (fma : M.F → M.F → M.F → M.F) : Prop where
  nan_add : ∀ {x} (y), nan x → nan (M.add x y)
  add_nan : ∀ (x) {y}, nan y → nan (M.add x y)
  nan_sub : ∀ {x} (y), nan x → nan (M.sub x y)
  sub_nan : ∀ (x) {y}, nan y → nan (M.sub x y)
  nan_mul : ∀ {x} (y), nan x → nan (M.mul x y)
  mul_nan : ∀ (x) {y}, nan y → nan (M.mul x y)
  /-- `∞ + y = ∞` for finite `y`. -/
  inf_add : ∀ {x y}, inf x → ¬ NotFinite nan inf y → inf (M.add x y)
  add_inf : ∀ {x y}, ¬ NotFinite nan inf x → inf y → inf (M.add x y)
  /-- `∞ + ∞ = ∞`, `∞ + -∞ = nan`. -/
  inf_add_inf : ∀ {x y}, inf x → inf y → NotFinite nan inf (M.add x y)
  inf_sub : ∀ {x y}, inf x → ¬ NotFinite nan inf y → inf (M.sub x y)
  sub_inf : ∀ {x y}, ¬ NotFinite nan inf x → inf y → inf (M.sub x y)
  inf_sub_inf : ∀ {x y}, inf x → inf y → NotFinite nan inf (M.sub x y)
  /-- `∞ * y = ∞`, and `nan` if `y` is zero. -/
  inf_mul : ∀ {x y}, inf x → ¬ nan y → NotFinite nan inf (M.mul x y)
  mul_inf : ∀ {x y}, ¬ nan x → inf y → NotFinite nan inf (M.mul x y)
  /-- A fused operation on something not finite. -/
  fma_mul : ∀ (a b x), NotFinite nan inf (M.mul a b) → NotFinite nan inf (fma a b x)
  fma_add : ∀ (a b) {x}, NotFinite nan inf x → NotFinite nan inf (fma a b x)
  dotV : ∀ {k l} (X : M.A k l) (v : M.V l) (i), 0 < l →
    DotOf M.toMachine fma (pairsOf (X i) v) (M.dotV k l X v i)
  dotM : ∀ {k l r} (X : M.A k l) (Y : M.A l r) (i c), 0 < l →
    DotOf M.toMachine fma (pairsOf (X i) fun j => Y j c) (M.dotM k l r X Y i c)
  dot : ∀ {k} (x y : M.V k), 0 < k → DotOf M.toMachine fma (pairsOf x y) (M.dot k x y)
  pinv : ∀ {k} {X : M.A k k} {i j}, NotFinite nan inf (X i j) → M.pinv k X = .error .valueError
  chol : ∀ {k} {X : M.A k k} {i j}, NotFinite nan inf (X i j) → M.chol k X = .error .valueError
  cholL : ∀ {k} {X : M.A k k} {i j}, NotFinite nan inf (X i j) → M.cholL k X = .error .valueError
  qr : ∀ {k l} {X : M.A k l} {i j}, NotFinite nan inf (X i j) → M.qr k l X = .error .valueError

end Verif
