import Verif.Model.LinearMethods

/-!
# Model of what `em` leaves behind, and of sequences of calls on one object

`em` assigns to the attributes of the object before the first iteration and at the end of each
iteration (`pykalman/standard.py:1440-1449` and `1514-1532`, `pykalman/sqrt/cholesky.py:635-644` and
`720-738`, `pykalman/sqrt/bierman.py:803-812` and `889-907`).  In `Model/LinearMethods` only the
object after a call that returns is modelled; here also the object after a call that raises.
-/

open Matrix

namespace Verif

variable {n m : ℕ}

/-- The statistics of one iteration of `em`: `standard.py:1479-1512`, `cholesky.py:674-717`,
`bierman.py:843-886`. -/
noncomputable def KFClass.stats (cls : KFClass) (qr : QR) (store : ℝ → ℝ) (p : Params n m)
    (os : List (Obs m)) : Res (List (EmStats n)) :=
  match cls with
  | .standard => emStats p os
  | .cholesky => cholStats qr p os
  | .bierman => bierStats store p os

/-- The iterations of `em`, `standard.py:1478-1532`, `cholesky.py:673-738`, `bierman.py:842-907`,
on the eight attributes: the values they have at the end, and the exception, if one is raised.  The
attributes are assigned all at once at the end of an iteration, so that an exception leaves the
values of the iteration before. -/
noncomputable def emIterate (cls : KFClass) (qr : QR) (given : Params n m) (vars : EmVar → Bool)
    (os : List (Obs m)) : ℕ → (ℝ → ℝ) → Params n m → Params n m × Option Err
  | 0, _, p => (p, none)
  | k + 1, store, p =>
    match (do
      let ss ← cls.stats qr store p os
      emStep given vars p ss os) with
    | .error e => (p, some e)
    | .ok p' =>
      emIterate cls qr given vars os k (if vars .initialStateCovariance then id else store) p'

/-- Which variables `em` estimates, `standard.py:1452-1471`, `cholesky.py:646-665`,
`bierman.py:815-834`. -/
def KF.selectionOf (cls : KFClass) (k : KF) (arg : Option EmNames) : Res (EmVar → Bool) :=
  match cls with
  | .standard => k.emSelection arg
  | .cholesky => k.emSelectionSqrt arg
  | .bierman => k.emSelectionSqrt arg

/-- The object after a call of `em`, and the exception, if one is raised: `standard.py:1418-1533`,
`cholesky.py:612-739`, `bierman.py:781-908`.  `none`: shapes that do not fit the dimensions, outside
the model. -/
noncomputable def KF.emEffect (cls : KFClass) (qr : QR) (store : ℝ → ℝ) (k : KF) (X : MArray)
    (nIter : ℕ) (arg : Option EmNames) : Option (KF × Option Err) :=
  let Z := parseObservations X
  match k.initialize with
  | .error e => some (k, some e)
  | .ok r =>
    match r.typed k.nDimState k.nDimObs with
    | none => none
    | some p =>
      let k' := k.setParams p
      if Z.shape.drop 1 = [k.nDimObs] then
        match k'.selectionOf cls arg with
        | .error e => some (k', some e)
        | .ok vars =>
          let r := emIterate cls qr p vars (Z.rows k.nDimObs) nIter store p
          some (k'.setParams r.1, r.2)
      else none

/-- A call of a method. -/
inductive KFCall
  | filter (X : MArray)
  | smooth (X : MArray)
  | loglikelihood (X : MArray)
  | em (X : MArray) (nIter : ℕ) (arg : Option EmNames)

/-- The object after a call, whether it returns or raises.  The methods other than `em` assign to no
attribute (`standard.py:1186-1238`, `1356-1416`, `1535-1591`, `cholesky.py:351-408`, `541-610`,
`741-799`, `bierman.py:514-571`, `710-779`, `910-968`).  Simplification: arrays of floats only (no
conversion on assignment in `udu`). -/
noncomputable def KF.afterCall (cls : KFClass) (qr : QR) (k : KF) : KFCall → Option KF
  | .filter _ => some k
  | .smooth _ => some k
  | .loglikelihood _ => some k
  | .em X nIter arg => (k.emEffect cls qr id X nIter arg).map Prod.fst

/-- The object after a sequence of calls, each of which may raise (and the caller goes on). -/
noncomputable def KF.afterCalls (cls : KFClass) (qr : QR) : KF → List KFCall → Option KF
  | k, [] => some k
  | k, c :: cs => (k.afterCall cls qr c).bind fun k' => k'.afterCalls cls qr cs

end Verif
