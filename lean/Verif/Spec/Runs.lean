import Verif.Model.Standard

/-!
# Vocabulary for statements about runs
-/

open Matrix

namespace Verif

variable {n m : ℕ} {α : Type}

/-- Two rows with the same data: both have a masked component or none has, and unmasked rows have
equal values. -/
def Obs.Sim (o o' : Obs m) : Prop :=
  ((∃ i, o.mask i = true) ↔ ∃ i, o'.mask i = true) ∧
    (¬ (∃ i, o.mask i = true) → o.val = o'.val)

/-- Two masked arrays with the same data row by row. -/
def SameData (os os' : List (Obs m)) : Prop := List.Forall₂ Obs.Sim os os'

/-- The parameter for the time steps from `k` on. -/
def TV.drop (k : ℕ) : TV α → TV α
  | .const a => .const a
  | .seq l => .seq (l.drop k)

/-- The parameters for the time steps from `k` on, with new initial moments. -/
def Params.resume (p : Params n m) (k : ℕ) (mu : Vec n) (S : Mat n n) : Params n m :=
  ⟨p.A.drop k, p.b.drop k, p.Q.drop k, p.C.drop k, p.d.drop k, p.R.drop k, mu, S⟩

/-- If the parameter varies in time it has at least `k` entries. -/
def TV.AtLeast (p : TV α) (k : ℕ) : Prop := ∀ l, p = .seq l → k ≤ l.length

/-- The parameter is constant in time. -/
def TV.IsConst (p : TV α) : Prop := ∃ a, p = .const a

/-- How a caller of `filter_update` provides the parameter of time step `t`: explicitly, or by
omitting it if it is constant in time. -/
def Supplied (arg : Option α) (param : TV α) (t : ℕ) : Prop :=
  (∃ a, arg = some a ∧ lastDims param t = .ok a) ∨ (arg = none ∧ param.IsConst)

/-- The same parameter given once and repeated for at least `k` time steps (or given the same
way). -/
def TV.Repeats (p p' : TV α) (k : ℕ) : Prop :=
  p = p' ∨ ∃ a k', k ≤ k' ∧ p = .const a ∧ p' = .seq (List.replicate k' a)

/-- Equal parameters, or time-varying parameters with the same first `k` entries. -/
def TV.SameUpTo (p p' : TV α) (k : ℕ) : Prop :=
  p = p' ∨ ∃ l l', p = .seq l ∧ p' = .seq l' ∧ l.take k = l'.take k

/-- The parameters outside the selection `vars` are equal. -/
structure AgreeOff (vars : EmVar → Bool) (p p' : Params n m) : Prop where
  A : vars .transitionMatrices = false → p'.A = p.A
  b : vars .transitionOffsets = false → p'.b = p.b
  Q : vars .transitionCovariance = false → p'.Q = p.Q
  C : vars .observationMatrices = false → p'.C = p.C
  d : vars .observationOffsets = false → p'.d = p.d
  R : vars .observationCovariance = false → p'.R = p.R
  mu0 : vars .initialStateMean = false → p'.mu0 = p.mu0
  S0 : vars .initialStateCovariance = false → p'.S0 = p.S0

/-- The three covariances the square-root filters factorise are constant and positive definite. -/
structure Params.PosDef (p : Params n m) : Prop where
  Q : ∃ Q, p.Q = .const Q ∧ Matrix.PosDef Q
  R : ∃ R, p.R = .const R ∧ Matrix.PosDef R
  S0 : Matrix.PosDef p.S0

/-- Constant covariances, that of the observation noise positive definite, the other two positive
semidefinite. -/
structure Params.NoiseDef (p : Params n m) : Prop where
  Q : ∃ Q, p.Q = .const Q ∧ Matrix.PosSemidef Q
  R : ∃ R, p.R = .const R ∧ Matrix.PosDef R
  S0 : Matrix.PosSemidef p.S0

end Verif
