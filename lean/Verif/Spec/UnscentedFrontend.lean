import Verif.Model.UnscentedFrontend
import Verif.Spec.Frontend

/-!
# Vocabulary for statements about the constructors of the unscented filters
-/

open Matrix

namespace Verif

variable {φ : Type} {n m : ℕ}

/-- `n` is what all arguments that determine the dimension of the states say. -/
structure UArgs.StateDim (a : UArgs φ) (n : ℕ) : Prop where
  Q : ∀ x, a.Q = some x → axisLen x 1 = n
  S0 : ∀ x, a.S0 = some x → axisLen x 1 = n
  mu0 : ∀ x, a.mu0 = some x → axisLen x 0 = n
  explicit : ∀ k, a.nDimState = some k → k = n

/-- `m` is what all arguments that determine the dimension of the observations say. -/
structure UArgs.ObsDim (a : UArgs φ) (m : ℕ) : Prop where
  R : ∀ x, a.R = some x → axisLen x 1 = m
  explicit : ∀ k, a.nDimObs = some k → k = m

/-- Nothing says what the dimension of the states is. -/
def UArgs.NoStateDim (a : UArgs φ) : Prop :=
  a.Q = none ∧ a.S0 = none ∧ a.mu0 = none ∧ a.nDimState = none

/-- Nothing says what the dimension of the observations is. -/
def UArgs.NoObsDim (a : UArgs φ) : Prop := a.R = none ∧ a.nDimObs = none

/-- A filter with dimensions `n` and `m` that remembers the arguments. -/
def UArgs.object (a : UArgs φ) (n m : ℕ) : UObj φ :=
  ⟨a.f, a.g, a.Q, a.R, a.mu0, a.S0, n, m, a.randomState⟩

/-- The matrix an optional argument stands for: identity if omitted, else its entries. -/
def MatMeans (arg : Option NDArray) (M : Mat n n) : Prop :=
  (arg = none ∧ M = 1) ∨
    ∃ A, arg = some A ∧ A.shape = [n, n] ∧ ∀ i j : Fin n, M i j = A.data [i, j]

/-- The vector an optional argument stands for: zero if omitted, else its entries. -/
def VecMeans (arg : Option NDArray) (v : Vec n) : Prop :=
  (arg = none ∧ v = 0) ∨ ∃ A, arg = some A ∧ A.shape = [n] ∧ ∀ i : Fin n, v i = A.data [i]

/-- The function on arrays `F` computes the function `f` on vectors. -/
def Computes₁ {a k : ℕ} (F : PyFun₁) (f : Vec a → Vec k) : Prop :=
  ∀ x : Vec a, (F (ndVec x)).shape = [k] ∧ ∀ i : Fin k, (F (ndVec x)).data [i] = f x i

/-- The function on pairs of arrays `F` computes the function `f` on pairs of vectors. -/
def Computes₂ {a b k : ℕ} (F : PyFun₂) (f : Vec a → Vec b → Vec k) : Prop :=
  ∀ (x : Vec a) (w : Vec b), (F (ndVec x) (ndVec w)).shape = [k] ∧
    ∀ i : Fin k, (F (ndVec x) (ndVec w)).data [i] = f x w i

/-- The functions an optional argument stands for, in terms of what each single callable stands for
(`computes`) and of the default. -/
def FnsMeans {ψ : Type} (computes : φ → ψ → Prop) (dflt : ψ → Prop) (arg : Option (FnArg φ))
    (fs : Fns ψ) : Prop :=
  (arg = none ∧ ∃ f, dflt f ∧ fs = .flat [f]) ∨
  (∃ F f, arg = some (.one F) ∧ computes F f ∧ fs = .flat [f]) ∨
  (∃ Fl fl, arg = some (.many (.flat Fl)) ∧ List.Forall₂ computes Fl fl ∧ fs = .flat fl)

/-- A seed that `random_state` may be. -/
def SeedValid : Option Seed → Prop
  | some (.int k) => 0 ≤ k ∧ k < 2 ^ 32
  | some .other => False
  | _ => True

/-- The arguments `a` of an additive unscented filter stand for the parameters `p`. -/
structure UArgs.MeansAdd (a : UArgs PyFun₁) (p : UParams n m) : Prop where
  state : a.StateDim n ∧ (a.NoStateDim → n = 1)
  obs : a.ObsDim m ∧ (a.NoObsDim → m = 1)
  f : FnsMeans Computes₁ (fun f => ∀ x, f x = x) a.f p.f
  g : FnsMeans Computes₁ (fun g => ∃ h : n = m, ∀ x i, g x i = x (Fin.cast h.symm i)) a.g p.g
  Q : MatMeans a.Q p.Q
  R : MatMeans a.R p.R
  mu0 : VecMeans a.mu0 p.mu0
  S0 : MatMeans a.S0 p.S0
  seed : SeedValid a.randomState

/-- The arguments `a` of a general unscented filter stand for the parameters `p`. -/
structure UArgs.MeansGen (a : UArgs PyFun₂) (p : GParams n m) : Prop where
  state : a.StateDim n ∧ (a.NoStateDim → n = 1)
  obs : a.ObsDim m ∧ (a.NoObsDim → m = 1)
  f : FnsMeans Computes₂ (fun f => ∀ x w, f x w = x + w) a.f p.f
  g : FnsMeans Computes₂ (fun g => ∃ h : n = m, ∀ x v i, g x v i = x (Fin.cast h.symm i) + v i)
    a.g p.g
  Q : MatMeans a.Q p.Q
  R : MatMeans a.R p.R
  mu0 : VecMeans a.mu0 p.mu0
  S0 : MatMeans a.S0 p.S0
  seed : SeedValid a.randomState

/-- `X` is a two-dimensional masked array whose rows are the observations `os`.  (A single row with
several columns is read differently, see C28.) -/
structure HasRows (X : MArray) (os : List (Obs m)) : Prop where
  shape : X.shape = [os.length, m]
  not_single : os.length ≠ 1 ∨ m ≤ 1
  entries : ∀ t (h : t < os.length), ∀ j : Fin m,
    X.data [t, j] = os[t].val j ∧ X.mask [t, j] = os[t].mask j

end Verif
