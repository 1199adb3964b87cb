import Verif.Spec.MachineNaN

/-!
# Vocabulary for `nan` in the parameters

As in `Spec/MachineNaN`, `bad` says which numbers are `nan`.
-/

namespace Verif

variable {n m k l : ℕ}

/-- `nan` on a machine, also for `dot` of two vectors (`BiermanKalmanFilter` corrects with the
observations one by one), without what `np.allclose` does. -/
structure SMachine.SpreadDot (M : SMachine) (bad : M.F → Prop) : Prop
    extends sbase : SMachine.Spread M bad where
  dot_left : ∀ {k} {x : M.V k} (y : M.V k) {i}, bad (x i) → bad (M.dot k x y)
  dot_right : ∀ {k} (x : M.V k) {y : M.V k} {i}, bad (y i) → bad (M.dot k x y)

/-- Some entry is `nan`. -/
def HasBad {F ι : Type} (bad : F → Prop) (v : ι → F) : Prop := ∃ i, bad (v i)

/-- Some entry is `nan`. -/
def HasBad₂ {F ι κ : Type} (bad : F → Prop) (X : ι → κ → F) : Prop := ∃ i j, bad (X i j)

/-- What a parameter is at time `t` satisfies `P`: the one array, or entry `t` of the first axis. -/
def TV.AtTime {α : Type} (P : α → Prop) (x : TV α) (t : ℕ) : Prop :=
  (∃ a, x = .const a ∧ P a) ∨ ∃ l a, x = .seq l ∧ l[t]? = some a ∧ P a

/-- What a parameter of `filter_update` is satisfies `P`: the argument if there is one, and otherwise
the parameter of the object. -/
def InForce {α : Type} (P : α → Prop) (arg : Option α) (own : TV α) : Prop :=
  (∃ a, arg = some a ∧ P a) ∨ arg = none ∧ ∃ a, own = .const a ∧ P a

/-- At time `t` the parameter has a value in both, and the same value if the row is used. -/
def TV.AgreeWhenUsed {α : Type} (used : Prop) (x y : TV α) (t : ℕ) : Prop :=
  ∃ a b, x.AtTime (· = a) t ∧ y.AtTime (· = b) t ∧ (used → a = b)

/-- No method of the three linear classes returns (`em` with at least one iteration). -/
structure NothingReturns (M : SMachine) (p : M.Par n m) (os : List (M.Row m)) : Prop where
  filter : Raises (M.filter p os) ∧ Raises (SMachine.cholFilter p os) ∧
    ∀ store, Raises (SMachine.bierFilter store p os)
  smooth : Raises (M.smooth p os) ∧ Raises (SMachine.cholSmooth p os) ∧
    ∀ store, Raises (SMachine.bierSmooth store p os)
  loglikelihood : Raises (M.loglik p os) ∧ Raises (SMachine.cholLoglik p os) ∧
    ∀ store, Raises (SMachine.bierLoglik store p os)
  em : ∀ nIter vars, 0 < nIter → Raises (M.em p os nIter vars) ∧
    Raises (SMachine.cholEm p os nIter vars) ∧
    ∀ store, Raises (SMachine.bierEm store p os nIter vars)

end Verif
