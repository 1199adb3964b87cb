import Verif.Model.LinearMethods
import Verif.Spec.UnscentedFrontend
import Verif.Spec.Runs

/-!
# Vocabulary for statements about calls of the three linear classes
-/

open Matrix

namespace Verif

variable {n m : ℕ}

/-- What an optional argument for an `n × m` matrix stands for, with `dflt` for an omitted one: a
number if `n = m = 1`, a vector if `n = 1`, a matrix, or a sequence of matrices, one for every time
step. -/
inductive MatArg (dflt : Mat n m) : Option NDArray → TV (Mat n m) → Prop
  | omitted : MatArg dflt none (.const dflt)
  | number (hn : n = 1) (hm : m = 1) (a : NDArray) (M : Mat n m) (hs : a.shape = [])
      (hM : ∀ i j, M i j = a.data []) : MatArg dflt (some a) (.const M)
  | row (hn : n = 1) (a : NDArray) (M : Mat n m) (hs : a.shape = [m])
      (hM : ∀ (i : Fin n) (j : Fin m), M i j = a.data [j]) : MatArg dflt (some a) (.const M)
  | matrix (a : NDArray) (M : Mat n m) (hs : a.shape = [n, m])
      (hM : ∀ (i : Fin n) (j : Fin m), M i j = a.data [i, j]) : MatArg dflt (some a) (.const M)
  | sequence (a : NDArray) (l : List (Mat n m)) (hs : a.shape = [l.length, n, m])
      (hM : ∀ t (h : t < l.length) (i : Fin n) (j : Fin m), l[t] i j = a.data [t, i, j]) :
      MatArg dflt (some a) (.seq l)

/-- What an optional argument for a vector of length `n` stands for: zero if omitted, a number if
`n = 1`, a vector, or a sequence of vectors. -/
inductive VecArg : Option NDArray → TV (Vec n) → Prop
  | omitted : VecArg none (.const 0)
  | number (hn : n = 1) (a : NDArray) (v : Vec n) (hs : a.shape = []) (hv : ∀ i, v i = a.data []) :
      VecArg (some a) (.const v)
  | vector (a : NDArray) (v : Vec n) (hs : a.shape = [n]) (hv : ∀ i : Fin n, v i = a.data [i]) :
      VecArg (some a) (.const v)
  | sequence (a : NDArray) (l : List (Vec n)) (hs : a.shape = [l.length, n])
      (hv : ∀ t (h : t < l.length) (i : Fin n), l[t] i = a.data [t, i]) : VecArg (some a) (.seq l)

/-- Ones on the diagonal, zeros elsewhere; the identity if the matrix is square. -/
def eyeMat (n m : ℕ) : Mat n m := Matrix.of fun i j => if (i : ℕ) = j then 1 else 0

/-- The arguments `a` of one of the linear classes stand for the parameters `p`. -/
structure KFArgs.Means (a : KFArgs) (p : Params n m) : Prop where
  dimState : ∀ k, a.nDimState = some k → k = n
  dimObs : ∀ k, a.nDimObs = some k → k = m
  noState : a.A = none → a.b = none → a.Q = none → a.mu0 = none → a.S0 = none → a.C = none →
    a.nDimState = none → n = 1
  noObs : a.C = none → a.d = none → a.R = none → a.nDimObs = none → m = 1
  A : MatArg (eyeMat n n) a.A p.A
  b : VecArg a.b p.b
  Q : MatArg (eyeMat n n) a.Q p.Q
  C : MatArg (eyeMat m n) a.C p.C
  d : VecArg a.d p.d
  R : MatArg (eyeMat m m) a.R p.R
  mu0 : VecArg a.mu0 (.const p.mu0)
  S0 : MatArg (eyeMat n n) a.S0 (.const p.S0)
  seed : SeedValid a.randomState

/-- The object with dimensions `n` and `m` that remembers the arguments. -/
def KFArgs.object (a : KFArgs) (n m : ℕ) : KF :=
  ⟨a.A, a.C, a.Q, a.R, a.b, a.d, a.mu0, a.S0, a.randomState, a.emVars, n, m,
    a.emVars.getD defaultEmNames⟩

/-- What a masked array of data stands for: a two-dimensional one for its rows, a one-dimensional
one for observations of one number each. -/
inductive DataArg (X : MArray) (os : List (Obs m)) : Prop
  | rows (h : HasRows X os)
  | numbers (hm : m = 1) (hne : os ≠ []) (hs : X.shape = [os.length])
      (hx : ∀ t (h : t < os.length) (j : Fin m),
        X.data [t] = os[t].val j ∧ X.mask [t] = os[t].mask j)

/-- The parameters a class can handle: the square-root classes need constant covariances, of which
that of the observations is positive definite, and for the Cholesky form the others as well. -/
def KFClass.Accepts (p : Params n m) : KFClass → Prop
  | .standard => True
  | .cholesky => p.PosDef
  | .bierman => 0 < n ∧ p.NoiseDef

/-- The names documented as default of `em_vars`. -/
def documentedEmVars : EmNames :=
  .names ["transition_covariance", "observation_covariance", "initial_state_mean",
    "initial_state_covariance"]

end Verif
