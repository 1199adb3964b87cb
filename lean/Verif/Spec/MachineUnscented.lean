import Verif.Model.MachineUnscented
import Verif.Spec.Machine
import Verif.Spec.Unscented

/-!
# Vocabulary for unscented filters on the numbers of a machine
-/

namespace Verif.UMachine

variable {M : UMachine} {n m : ℕ}

/-- The arguments of a call of `filter_update` from time `t` to time `t + 1` are the parameters of
these times (or omitted where the filter has a single function). -/
structure UArgs.For (a : M.UArgs n m) (p : M.UPar n m) (t : ℕ) : Prop where
  f : FnSupplied a.f p.f t
  Q : a.Q = none ∨ a.Q = some p.Q
  g : FnSupplied a.g p.g (t + 1)
  R : a.R = none ∨ a.R = some p.R

/-- The same for `UnscentedKalmanFilter`. -/
structure GArgs.For (a : M.GArgs n m) (p : M.GPar n m) (t : ℕ) : Prop where
  f : FnSupplied a.f p.f t
  Q : a.Q = none ∨ a.Q = some p.Q
  g : FnSupplied a.g p.g (t + 1)
  R : a.R = none ∨ a.R = some p.R

/-- A program that calls an update once for each observation, each time with the result of the call
before: the list of the results, or the first exception. -/
def calls {σ ο : Type} (update : ℕ → σ → ο → Res σ) : ℕ → σ → List ο → Res (List σ)
  | _, _, [] => .ok []
  | t, r, o :: os =>
    match update t r o with
    | .error e => .error e
    | .ok r' =>
      match calls update (t + 1) r' os with
      | .error e => .error e
      | .ok rest => .ok (r' :: rest)

/-- Two lists of functions that agree at the times before `T`. -/
def AgreeBefore {α : Type} (f f' : Fns α) (T : ℕ) : Prop := ∀ t, t < T → f.at t = f'.at t

/-- All exceptions that a computation may raise are in `E`. -/
def RaisesOnly {α : Type} (E : Err → Prop) (r : Res α) : Prop := ∀ e, r = .error e → E e

end Verif.UMachine
