import Verif.Model.Frontend

/-!
# Model of the methods of the three linear classes, as called on an object

Every method first resolves the parameters and parses the observations (`KF.prepare`), then runs
the algorithm of its class.  `em` assigns its results to the attributes of the object.
-/

open Matrix

namespace Verif

variable {n m : ℕ}

/-- `filter`: `standard.py:1186-1238`, `pykalman/sqrt/cholesky.py:351-408`,
`pykalman/sqrt/bierman.py:514-571`. -/
noncomputable def KF.filterOf (cls : KFClass) (qr : QR) (store : ℝ → ℝ) (k : KF) (X : MArray) :
    Option (Res (List (Vec k.nDimState × Mat k.nDimState k.nDimState))) :=
  (k.prepare X).map fun r => do
    let (p, os) ← r
    match cls with
    | .standard => kfFilter p os
    | .cholesky => cholFilter qr p os
    | .bierman => bierFilter store p os

/-- `smooth`: `standard.py:1356-1416`, `pykalman/sqrt/cholesky.py:541-610`,
`pykalman/sqrt/bierman.py:710-779`. -/
noncomputable def KF.smoothOf (cls : KFClass) (qr : QR) (store : ℝ → ℝ) (k : KF) (X : MArray) :
    Option (Res (List (Vec k.nDimState × Mat k.nDimState k.nDimState))) :=
  (k.prepare X).map fun r => do
    let (p, os) ← r
    match cls with
    | .standard => kfSmooth p os
    | .cholesky => cholSmooth qr p os
    | .bierman => bierSmooth store p os

/-- `loglikelihood`: `standard.py:1535-1591`, `pykalman/sqrt/cholesky.py:741-799`,
`pykalman/sqrt/bierman.py:910-968`. -/
noncomputable def KF.loglikOf (cls : KFClass) (qr : QR) (store : ℝ → ℝ) (k : KF) (X : MArray) :
    Option (Res ℝ) :=
  (k.prepare X).map fun r => do
    let (p, os) ← r
    match cls with
    | .standard => kfLoglik p os
    | .cholesky => cholLoglik qr p os
    | .bierman => bierLoglik store p os

/-- The parameters of the object as typed parameters, as `filter_update` obtains them
(`standard.py:1301-1310`).  Outer `none`: the shapes do not fit, outside the model. -/
def KF.params (k : KF) : Option (Res (Params k.nDimState k.nDimObs)) :=
  match k.initialize with
  | .error e => some (.error e)
  | .ok r => (r.typed k.nDimState k.nDimObs).map .ok

/-- `KalmanFilter.filter_update`, `standard.py:1240-1354`. -/
noncomputable def KF.filterUpdate (k : KF) (mean : Vec k.nDimState)
    (cov : Mat k.nDimState k.nDimState) (o : Option (Obs k.nDimObs))
    (a : UpdateArgs k.nDimState k.nDimObs) :
    Option (Res (Vec k.nDimState × Mat k.nDimState k.nDimState)) :=
  k.params.map fun r => do
    let p ← r
    Verif.filterUpdate p mean cov o a

/-! ### Assignments to the attributes -/

/-- A vector as array. -/
def ndOfVec (v : Vec n) : NDArray :=
  ⟨[n], fun i => if h : i.getD 0 0 < n then v ⟨i.getD 0 0, h⟩ else 0⟩

/-- A matrix as array. -/
def ndOfMat (M : Mat n m) : NDArray :=
  ⟨[n, m], fun i =>
    if h : i.getD 0 0 < n ∧ i.getD 1 0 < m then M ⟨i.getD 0 0, h.1⟩ ⟨i.getD 1 0, h.2⟩ else 0⟩

/-- Equal arrays put side by side along a new first axis. -/
def ndStack (shape : List ℕ) (l : List NDArray) : NDArray :=
  ⟨l.length :: shape, fun i =>
    match l[i.getD 0 0]? with
    | some a => a.data (i.drop 1)
    | none => 0⟩

/-- A constant or varying vector as array. -/
def ndOfVecs : TV (Vec n) → NDArray
  | .const v => ndOfVec v
  | .seq l => ndStack [n] (l.map ndOfVec)

/-- A constant or varying matrix as array. -/
def ndOfMats : TV (Mat n m) → NDArray
  | .const M => ndOfMat M
  | .seq l => ndStack [n, m] (l.map ndOfMat)

/-- The assignments to `self.transition_matrices` … `self.initial_state_covariance` in `em`,
`standard.py:1440-1449` and `1514-1523`; the other attributes stay. -/
def KF.setParams (k : KF) (p : Params n m) : KF :=
  { k with
    A := some (ndOfMats p.A)
    C := some (ndOfMats p.C)
    Q := some (ndOfMats p.Q)
    R := some (ndOfMats p.R)
    b := some (ndOfVecs p.b)
    d := some (ndOfVecs p.d)
    mu0 := some (ndOfVec p.mu0)
    S0 := some (ndOfMat p.S0) }

/-- The object that `em` returns, `standard.py:1418-1533`, `pykalman/sqrt/cholesky.py:612-739`,
`pykalman/sqrt/bierman.py:781-908`. -/
noncomputable def KF.emObject (cls : KFClass) (qr : QR) (store : ℝ → ℝ) (k : KF) (X : MArray)
    (nIter : ℕ) (arg : Option EmNames) : Option (Res KF) :=
  (k.em cls qr store X nIter arg).map fun r => r.map k.setParams

end Verif
