import Verif.Model.Raising
import Verif.Spec.RoundedUnscented

/-!
# Vocabulary for functions that raise exceptions
-/

namespace Verif

open Matrix

variable {E α β : Type} {n m : ℕ}

/-- `F` is defined everywhere and has the values of `f` where `f` returns one. -/
def Continues (f : α → Except E β) (F : α → β) : Prop := ∀ x y, f x = .ok y → F x = y

/-- The same for functions of state and noise. -/
def Continues₂ {γ : Type} (f : α → γ → Except E β) (F : α → γ → β) : Prop :=
  ∀ x w y, f x w = .ok y → F x w = y

/-- The functions of `v` are defined everywhere and continue those of `u`; the other parameters are the
same. -/
structure EUParams.ContinuedBy (u : EUParams E n m) (v : UParams n m) : Prop where
  f : Fns.Within Continues u.f v.f
  g : Fns.Within Continues u.g v.g
  Q : u.Q = v.Q
  R : u.R = v.R
  mu0 : u.mu0 = v.mu0
  S0 : u.S0 = v.S0

/-- The same for functions of state and noise. -/
structure EGParams.ContinuedBy (u : EGParams E n m) (v : GParams n m) : Prop where
  f : Fns.Within Continues₂ u.f v.f
  g : Fns.Within Continues₂ u.g v.g
  Q : u.Q = v.Q
  R : u.R = v.R
  mu0 : u.mu0 = v.mu0
  S0 : u.S0 = v.S0

/-- In every direction `x` is at most `√3` standard deviations away from the mean. -/
def Moments.Near (M : Moments n) (x : Vec n) : Prop :=
  ∀ d : Vec n, (d ⬝ᵥ (x - M.mean)) ^ 2 ≤ 3 * (d ⬝ᵥ (M.cov *ᵥ d))

/-- An observation of which nothing is seen. -/
def unseen (m : ℕ) : Obs m := ⟨0, fun _ => true⟩

/-- A transition function raises `e` at a state near an estimate that `filter` has returned for an
earlier row; `v` continues the functions of `u`. -/
def EUParams.RaisesInTransition (u : EUParams E n m) (v : UParams n m) (os : List (Obs m)) (e : E) :
    Prop :=
  ∃ t l M f x, t + 1 < os.length ∧ aukfFilter v (os.take (t + 1)) = .ok l ∧ l.getLast? = some M ∧
    u.f.at t = .ok f ∧ M.Near x ∧ f x = .error e

/-- An observation function raises `e` at a state near the prediction for its row, which is what
`filter` returns for this row when nothing of it is seen. -/
def EUParams.RaisesInObservation (u : EUParams E n m) (v : UParams n m) (os : List (Obs m)) (e : E) :
    Prop :=
  ∃ t l M g x, t < os.length ∧ aukfFilter v (os.take t ++ [unseen m]) = .ok l ∧
    l.getLast? = some M ∧ u.g.at t = .ok g ∧ M.Near x ∧ g x = .error e

/-- A transition function raises `e` at a state near an estimate that `filter` has returned for an
earlier row and a noise near zero. -/
def EGParams.RaisesInTransition (u : EGParams E n m) (v : GParams n m) (os : List (Obs m)) (e : E) :
    Prop :=
  ∃ t l M f x w, t + 1 < os.length ∧ ukfFilter v (os.take (t + 1)) = .ok l ∧ l.getLast? = some M ∧
    u.f.at t = .ok f ∧ M.Near x ∧ (⟨0, u.Q⟩ : Moments n).Near w ∧ f x w = .error e

/-- An observation function raises `e` at a state near the initial one, or at one the transition
function returns for a state near an estimate, and a noise near zero. -/
def EGParams.RaisesInObservation (u : EGParams E n m) (v : GParams n m) (os : List (Obs m)) (e : E) :
    Prop :=
  ∃ t g y w, t < os.length ∧ u.g.at t = .ok g ∧ (⟨0, u.R⟩ : Moments m).Near w ∧ g y w = .error e ∧
    ((t = 0 ∧ (⟨u.mu0, u.S0⟩ : Moments n).Near y) ∨
      ∃ s l M f x w', t = s + 1 ∧ ukfFilter v (os.take t) = .ok l ∧ l.getLast? = some M ∧
        v.f.at s = .ok f ∧ M.Near x ∧ (⟨0, u.Q⟩ : Moments n).Near w' ∧ y = f x w')

end Verif
