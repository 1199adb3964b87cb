import Verif.Model.Machine
import Verif.Spec.Runs

/-!
# Vocabulary for statements about `KalmanFilter` on the numbers of a machine
-/

namespace Verif

variable {M : Machine} {n m : ℕ}

namespace Machine

/-- Two rows with the same data: both have a masked component or none has, and unmasked rows have
equal values. -/
def Row.Sim (o o' : M.Row m) : Prop :=
  ((∃ i, o.mask i = true) ↔ ∃ i, o'.mask i = true) ∧
    (¬ (∃ i, o.mask i = true) → o.val = o'.val)

/-- The parameters for the time steps from `k` on, with new initial moments. -/
def Par.resume (p : M.Par n m) (k : ℕ) (mu : M.V n) (S : M.A n n) : M.Par n m :=
  ⟨p.A.drop k, p.b.drop k, p.Q.drop k, p.C.drop k, p.d.drop k, p.R.drop k, mu, S⟩

/-- The arguments `a` of a call of `filter_update` from time `t` to time `t + 1` are the parameters
of these times (or omitted where the parameter is constant). -/
structure Args.For (a : M.Args n m) (p : M.Par n m) (t : ℕ) : Prop where
  A : Supplied a.A p.A t
  b : Supplied a.b p.b t
  Q : Supplied a.Q p.Q t
  C : Supplied a.C p.C (t + 1)
  d : Supplied a.d p.d (t + 1)
  R : Supplied a.R p.R (t + 1)

/-- A program that calls `filter_update` once for each observation, each time with the result of
the call before: the list of the results, or the first exception. -/
def calls (p : M.Par n m) (a : ℕ → M.Args n m) :
    ℕ → M.V n × M.A n n → List (M.Row m) → Res (List (M.V n × M.A n n))
  | _, _, [] => pure []
  | t, r, o :: os => do
    let r' ← M.update p r.1 r.2 (some o) (a t)
    let rest ← calls p a (t + 1) r' os
    pure (r' :: rest)

end Machine

/-- Two parameters that are given for the same times (with any values). -/
def TV.SameTimes {α : Type} (p p' : TV α) : Prop :=
  ∀ t, (∃ a, lastDims p t = .ok a) ↔ ∃ a, lastDims p' t = .ok a

namespace Machine

/-- Parameters with the same matrices; the offsets and the initial mean can be different. -/
structure Par.SameCovs (p p' : M.Par n m) : Prop where
  A : p.A = p'.A
  Q : p.Q = p'.Q
  C : p.C = p'.C
  R : p.R = p'.R
  S0 : p.S0 = p'.S0
  b : p.b.SameTimes p'.b
  d : p.d.SameTimes p'.d

/-- The parameters outside the selection `vars` are equal. -/
structure Par.AgreeOff (vars : EmVar → Bool) (p p' : M.Par n m) : Prop where
  A : vars .transitionMatrices = false → p'.A = p.A
  b : vars .transitionOffsets = false → p'.b = p.b
  Q : vars .transitionCovariance = false → p'.Q = p.Q
  C : vars .observationMatrices = false → p'.C = p.C
  d : vars .observationOffsets = false → p'.d = p.d
  R : vars .observationCovariance = false → p'.R = p.R
  mu0 : vars .initialStateMean = false → p'.mu0 = p.mu0
  S0 : vars .initialStateCovariance = false → p'.S0 = p.S0

end Machine

end Verif
