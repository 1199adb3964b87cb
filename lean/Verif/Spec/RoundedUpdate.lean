import Verif.Spec.RoundedUnscented
import Verif.Spec.Rounded
import Verif.Spec.Runs
import Verif.Spec.Unscented
import Verif.Spec.MachineUnscented
import Verif.Model.RoundedUpdate

/-!
# Vocabulary for the rounding errors of a program of `filter_update` calls
-/

open Matrix

namespace Verif

variable {n m : ℕ}

/-- Two pairs of a mean and a covariance whose entries differ by at most `e`. -/
def PairWithin (e : ℝ) (x y : Vec n × Mat n n) : Prop :=
  (∀ i, |x.1 i - y.1 i| ≤ e) ∧ ∀ i j, |x.2 i j - y.2 i j| ≤ e

/-- The program that calls `KalmanFilter.filter_update` once for each entry of `os`, with the
arguments `a t`, each time with the mean and covariance returned by the call before. -/
noncomputable def kfProgram (p : Params n m) (a : ℕ → UpdateArgs n m) (r : Vec n × Mat n n)
    (os : List (Option (Obs m))) : Res (List (Vec n × Mat n n)) :=
  UMachine.calls (fun t x o => filterUpdate p x.1 x.2 o (a t)) 0 r os

/-- The same program in arithmetic with errors. -/
noncomputable def flProgram {c : ℕ → ℝ} {u : ℝ} (ar : Arith c u) (p : Params n m)
    (a : ℕ → UpdateArgs n m) (r : Vec n × Mat n n) (os : List (Option (Obs m))) :
    Res (List (Vec n × Mat n n)) :=
  UMachine.calls (fun t x o => flUpdate ar p x.1 x.2 o (a t)) 0 r os

/-- The same program with `CholeskyKalmanFilter`; `cov[0]` is taken of the returned array. -/
noncomputable def flCholProgram {c : ℕ → ℝ} {u : ℝ} (ar : ArithC c u) (p : Params n m)
    (a : ℕ → UpdateArgs n m) (r : Vec n × Mat n n) (os : List (Option (Obs m))) :
    Res (List (Vec n × Mat n n)) :=
  UMachine.calls (fun t x o => (flCholUpdate ar p x.1 x.2 o (a t)).map fun q => (q.1, q.2 0)) 0 r os

/-- The same program with `BiermanKalmanFilter`; `cov[0]` is taken of the returned array. -/
noncomputable def flBierProgram {c : ℕ → ℝ} {u : ℝ} (ar : ArithEL c u) (p : Params n m)
    (a : ℕ → UpdateArgs n m) (r : Vec n × Mat n n) (os : List (Option (Obs m))) :
    Res (List (Vec n × Mat n n)) :=
  UMachine.calls (fun t x o => (flBierUpdate ar p x.1 x.2 o (a t)).map fun q => (q.1, q.2 0)) 0 r os

/-- The same program with `AdditiveUnscentedKalmanFilter`. -/
noncomputable def aukfProgram (p : UParams n m) (a : ℕ → UUpdateArgs n m) (M : Moments n)
    (os : List (Option (Obs m))) : Res (List (Moments n)) :=
  UMachine.calls (fun t x o => aukfUpdate p x o (a t)) 0 M os

/-- The same in arithmetic with errors. -/
noncomputable def flAukfProgram {c : ℕ → ℝ} {u : ℝ} (ar : ArithU c u) (p : UParams n m)
    (a : ℕ → UUpdateArgs n m) (M : Moments n) (os : List (Option (Obs m))) :
    Res (List (Moments n)) :=
  UMachine.calls (fun t x o => flAukfUpdate ar p x o (a t)) 0 M os

/-- The same program with `UnscentedKalmanFilter`. -/
noncomputable def ukfProgram (p : GParams n m) (a : ℕ → GUpdateArgs n m) (M : Moments n)
    (os : List (Option (Obs m))) : Res (List (Moments n)) :=
  UMachine.calls (fun t x o => ukfUpdate p x o (a t)) 0 M os

/-- The same in arithmetic with errors. -/
noncomputable def flUkfProgram {c : ℕ → ℝ} {u : ℝ} (ar : ArithU c u) (p : GParams n m)
    (a : ℕ → GUpdateArgs n m) (M : Moments n) (os : List (Option (Obs m))) :
    Res (List (Moments n)) :=
  UMachine.calls (fun t x o => flUkfUpdate ar p x o (a t)) 0 M os

/-- The call has an observation without masked components. -/
def Observed (o : Option (Obs m)) : Prop := ∃ x, o = some x ∧ ¬ x.missing

/-- The covariances that a call of `filter_update` uses (given or default) are positive definite. -/
structure UpdateArgs.PosDef (a : UpdateArgs n m) (p : Params n m) : Prop where
  Q : ∀ Q, argOrDefault a.Q p.Q = .ok Q → Q.PosDef
  R : ∀ R, argOrDefault a.R p.R = .ok R → R.PosDef

/-- The arguments of a call of `filter_update` from time `t` to time `t + 1` are the parameters of
these times (or omitted where the filter has a single value). -/
structure UpdateArgs.SuppliedAt (a : UpdateArgs n m) (p : Params n m) (t : ℕ) : Prop where
  A : Supplied a.A p.A t
  b : Supplied a.b p.b t
  Q : Supplied a.Q p.Q t
  C : Supplied a.C p.C (t + 1)
  d : Supplied a.d p.d (t + 1)
  R : Supplied a.R p.R (t + 1)

/-- The same for `AdditiveUnscentedKalmanFilter`. -/
structure UUpdateArgs.SuppliedAt (a : UUpdateArgs n m) (p : UParams n m) (t : ℕ) : Prop where
  f : FnSupplied a.f p.f t
  g : FnSupplied a.g p.g (t + 1)
  Q : a.Q = none ∨ a.Q = some p.Q
  R : a.R = none ∨ a.R = some p.R

/-- The same for `UnscentedKalmanFilter`. -/
structure GUpdateArgs.SuppliedAt (a : GUpdateArgs n m) (p : GParams n m) (t : ℕ) : Prop where
  f : FnSupplied a.f p.f t
  g : FnSupplied a.g p.g (t + 1)
  Q : a.Q = none ∨ a.Q = some p.Q
  R : a.R = none ∨ a.R = some p.R

/-- A computed optional argument for an exact one: both omitted, or both given and close. -/
def OptWithin {α β : Type} (d : α → β → Prop) : Option α → Option β → Prop
  | none, none => True
  | some a, some b => d a b
  | _, _ => False

/-- Arguments of a call with computed functions for those with the exact functions. -/
structure UUpdateArgs.Within (κf κg : Vec n → ℝ) (u : ℝ) (a b : UUpdateArgs n m) : Prop where
  f : OptWithin (FnErr κf u) a.f b.f
  Q : a.Q = b.Q
  g : OptWithin (FnErr κg u) a.g b.g
  R : a.R = b.R

/-- The same for `UnscentedKalmanFilter`. -/
structure GUpdateArgs.Within (κf : Vec n × Vec n → ℝ) (κg : Vec n × Vec m → ℝ) (u : ℝ)
    (a b : GUpdateArgs n m) : Prop where
  f : OptWithin (fun f g => FnErr κf u (fun x => f x.1 x.2) fun x => g x.1 x.2) a.f b.f
  Q : a.Q = b.Q
  g : OptWithin (fun f g => FnErr κg u (fun x => f x.1 x.2) fun x => g x.1 x.2) a.g b.g
  R : a.R = b.R

/-- Mean and covariance that a call of `AdditiveUnscentedKalmanFilter.filter_update` predicts for the
observation (`unscented.py:1309-1329` and `374-379`). -/
noncomputable def UParams.updateObsMoments (p : UParams n m) (a : UUpdateArgs n m) (M : Moments n) :
    Res (Moments m) := do
  let f ← defaultFunction a.f p.f
  let g ← defaultFunction a.g p.g
  let pts ← moments2points M
  let pts' ← moments2points (points2moments (pts.map f) (some (a.Q.getD p.Q)))
  pure (points2moments (pts'.map g) (some (a.R.getD p.R)))

/-- The same for `UnscentedKalmanFilter.filter_update` (`unscented.py:993-1020`). -/
noncomputable def GParams.updateObsMoments (p : GParams n m) (a : GUpdateArgs n m) (M : Moments n) :
    Res (Moments m) := do
  let f ← defaultFunction a.f p.f
  let g ← defaultFunction a.g p.g
  let pts ← augFilterPoints M (a.Q.getD p.Q) (a.R.getD p.R)
  pure (points2moments ((pts.1.map₂ pts.2.1 f).map₂ pts.2.2 g) none)

/-- In every call with an observation the covariance predicted for it is regular; `M` are the
moments at the start and `l` the results of the calls. -/
def CallsRegular (moments : ℕ → Moments n → Res (Moments m)) (M : Moments n)
    (os : List (Option (Obs m))) (l : List (Moments n)) : Prop :=
  ∀ t o x, os[t]? = some o → Observed o → (M :: l)[t]? = some x → ∀ M', moments t x = .ok M' →
    IsUnit M'.cov.det

end Verif
