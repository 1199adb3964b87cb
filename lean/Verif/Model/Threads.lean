import Verif.Model.Session
import Verif.Model.UpdateShape

/-!
# Model of calls made at the same time in several threads

The methods of an object communicate with each other only through its attributes.  A call is modelled
as a program that reads and assigns attributes one at a time, in the order of the code, and computes
in between; the steps of the calls in different threads may be interleaved in any way (in CPython a
single read of or assignment to an attribute is not interrupted).
-/

open Matrix

namespace Verif

variable {n m : ℕ} {α ι : Type}

/-- The attributes of an object of a linear class, `pykalman/standard.py:1092-1113`. -/
inductive Attr
  | transitionMatrices
  | observationMatrices
  | transitionCovariance
  | observationCovariance
  | transitionOffsets
  | observationOffsets
  | initialStateMean
  | initialStateCovariance
  | randomState
  | emVars
  | nDimState
  | nDimObs
  | emVars'

/-- The values an attribute can have. -/
def Attr.Ty : Attr → Type
  | .randomState => Option Seed
  | .emVars => Option EmNames
  | .nDimState => ℕ
  | .nDimObs => ℕ
  | .emVars' => EmNames
  | _ => Option NDArray

/-- `self.f`. -/
def KF.getAttr (k : KF) : (f : Attr) → f.Ty
  | .transitionMatrices => k.A
  | .observationMatrices => k.C
  | .transitionCovariance => k.Q
  | .observationCovariance => k.R
  | .transitionOffsets => k.b
  | .observationOffsets => k.d
  | .initialStateMean => k.mu0
  | .initialStateCovariance => k.S0
  | .randomState => k.randomState
  | .emVars => k.emVars
  | .nDimState => k.nDimState
  | .nDimObs => k.nDimObs
  | .emVars' => k.emVars'

/-- `self.f = v`. -/
def KF.setAttr (k : KF) : (f : Attr) → f.Ty → KF
  | .transitionMatrices, v => { k with A := v }
  | .observationMatrices, v => { k with C := v }
  | .transitionCovariance, v => { k with Q := v }
  | .observationCovariance, v => { k with R := v }
  | .transitionOffsets, v => { k with b := v }
  | .observationOffsets, v => { k with d := v }
  | .initialStateMean, v => { k with mu0 := v }
  | .initialStateCovariance, v => { k with S0 := v }
  | .randomState, v => { k with randomState := v }
  | .emVars, v => { k with emVars := v }
  | .nDimState, v => { k with nDimState := v }
  | .nDimObs, v => { k with nDimObs := v }
  | .emVars', v => { k with emVars' := v }

/-- The objects the threads share; an object is named by a number. -/
abbrev Objects := ℕ → KF

/-- What is left of a call: it has returned (or raised), or goes on with a read or an assignment. -/
inductive Prog (α : Type)
  | ret (a : α)
  | get (o : ℕ) (f : Attr) (k : f.Ty → Prog α)
  | set (o : ℕ) (f : Attr) (v : f.Ty) (k : Prog α)

/-- Some thread makes one step. -/
inductive TStep [DecidableEq ι] : (ι → Prog α) × Objects → (ι → Prog α) × Objects → Prop
  | get {pool : ι → Prog α} (h : Objects) (i : ι) {o : ℕ} {f : Attr}
      {k : f.Ty → Prog α} (hi : pool i = .get o f k) :
      TStep (pool, h) (Function.update pool i (k ((h o).getAttr f)), h)
  | set {pool : ι → Prog α} (h : Objects) (i : ι) {o : ℕ} {f : Attr} {v : f.Ty}
      {k : Prog α} (hi : pool i = .set o f v k) :
      TStep (pool, h) (Function.update pool i k, Function.update h o ((h o).setAttr f v))

/-! ### Reading the parameters -/

/-- `get_params(self)`, `pykalman/utils/_sklearn.py:101-112`, and the reads before it,
`standard.py:1595`: the attributes in the order of the constructor's arguments.  The result is an
object with the values read (`_em_vars` is not read). -/
def getParams (o : ℕ) (k : KF → Prog α) : Prog α :=
  .get o .nDimState fun (_ : ℕ) =>
  .get o .nDimObs fun (_ : ℕ) =>
  .get o .transitionMatrices fun (A : Option NDArray) =>
  .get o .observationMatrices fun (C : Option NDArray) =>
  .get o .transitionCovariance fun (Q : Option NDArray) =>
  .get o .observationCovariance fun (R : Option NDArray) =>
  .get o .transitionOffsets fun (b : Option NDArray) =>
  .get o .observationOffsets fun (d : Option NDArray) =>
  .get o .initialStateMean fun (mu0 : Option NDArray) =>
  .get o .initialStateCovariance fun (S0 : Option NDArray) =>
  .get o .randomState fun (rs : Option Seed) =>
  .get o .emVars fun (ev : Option EmNames) =>
  .get o .nDimState fun (n : ℕ) =>
  .get o .nDimObs fun (m : ℕ) =>
  k ⟨A, C, Q, R, b, d, mu0, S0, rs, ev, n, m, defaultEmNames⟩

/-- The eight parameters read one after the other as arguments of `_filter`,
`standard.py:1486-1494`, `cholesky.py:681-689`, `bierman.py:850-858`.  `none`: one of them is
`None`. -/
def readParams (o : ℕ) (k : Option Resolved → Prog α) : Prog α :=
  .get o .transitionMatrices fun (A : Option NDArray) =>
  .get o .observationMatrices fun (C : Option NDArray) =>
  .get o .transitionCovariance fun (Q : Option NDArray) =>
  .get o .observationCovariance fun (R : Option NDArray) =>
  .get o .transitionOffsets fun (b : Option NDArray) =>
  .get o .observationOffsets fun (d : Option NDArray) =>
  .get o .initialStateMean fun (mu0 : Option NDArray) =>
  .get o .initialStateCovariance fun (S0 : Option NDArray) =>
  k (do pure ⟨← A, ← b, ← Q, ← C, ← d, ← R, ← mu0, ← S0⟩)

/-- The eight parameters read one after the other for the dictionary `given`,
`standard.py:1457-1466`, `cholesky.py:651-660`, `bierman.py:820-829`.  (With `em_vars="all"` they are
not read; they are not used then.) -/
def readGiven (o : ℕ) (k : Option Resolved → Prog α) : Prog α :=
  .get o .transitionMatrices fun (A : Option NDArray) =>
  .get o .observationMatrices fun (C : Option NDArray) =>
  .get o .transitionOffsets fun (b : Option NDArray) =>
  .get o .observationOffsets fun (d : Option NDArray) =>
  .get o .transitionCovariance fun (Q : Option NDArray) =>
  .get o .observationCovariance fun (R : Option NDArray) =>
  .get o .initialStateMean fun (mu0 : Option NDArray) =>
  .get o .initialStateCovariance fun (S0 : Option NDArray) =>
  k (do pure ⟨← A, ← b, ← Q, ← C, ← d, ← R, ← mu0, ← S0⟩)

/-! ### Assigning the parameters -/

/-- The assignments before the first iteration of `em`, `standard.py:1440-1449`,
`cholesky.py:634-643`, `bierman.py:803-812`. -/
def assignFirst (o : ℕ) (p : Params n m) (k : Prog α) : Prog α :=
  .set o .transitionMatrices (some (ndOfMats p.A)) <|
  .set o .transitionOffsets (some (ndOfVecs p.b)) <|
  .set o .transitionCovariance (some (ndOfMats p.Q)) <|
  .set o .observationMatrices (some (ndOfMats p.C)) <|
  .set o .observationOffsets (some (ndOfVecs p.d)) <|
  .set o .observationCovariance (some (ndOfMats p.R)) <|
  .set o .initialStateMean (some (ndOfVec p.mu0)) <|
  .set o .initialStateCovariance (some (ndOfMat p.S0)) k

/-- The assignments at the end of an iteration of `em`, `standard.py:1513-1523`,
`cholesky.py:719-728`, `bierman.py:888-897`. -/
def assignAfter (o : ℕ) (p : Params n m) (k : Prog α) : Prog α :=
  .set o .transitionMatrices (some (ndOfMats p.A)) <|
  .set o .observationMatrices (some (ndOfMats p.C)) <|
  .set o .transitionOffsets (some (ndOfVecs p.b)) <|
  .set o .observationOffsets (some (ndOfVecs p.d)) <|
  .set o .transitionCovariance (some (ndOfMats p.Q)) <|
  .set o .observationCovariance (some (ndOfMats p.R)) <|
  .set o .initialStateMean (some (ndOfVec p.mu0)) <|
  .set o .initialStateCovariance (some (ndOfMat p.S0)) k

/-! ### The calls -/

/-- A call of a method.  The arguments of `filter_update` have the dimensions `n`, `m`. -/
inductive TCall
  | filter (X : MArray)
  | smooth (X : MArray)
  | loglikelihood (X : MArray)
  | filterUpdate (n m : ℕ) (mean : Vec n) (cov : Mat n n) (observation : Option (Obs m))
      (args : UpdateArgs n m)
  | em (X : MArray) (nIter : ℕ) (arg : Option EmNames)

/-- What a call returns or raises; `outside`: arrays whose shapes do not fit, outside the model. -/
inductive TResult
  | estimates (n : ℕ) (r : Res (List (Vec n × Mat n n)))
  | value (r : Res ℝ)
  | estimate (n : ℕ) (r : Res (Vec n × NDArray))
  | fitted (e : Option Err)
  | outside

/-- `filter_update` of the three classes, `standard.py:1240-1354`, `cholesky.py:410-539`,
`bierman.py:573-708`, once the parameters are resolved. -/
noncomputable def KFClass.update (cls : KFClass) (qr : QR) (p : Params n m) (mean : Vec n)
    (cov : Mat n n) (observation : Option (Obs m)) (args : UpdateArgs n m) : Res (Vec n × NDArray) :=
  match cls with
  | .standard => (Verif.filterUpdate p mean cov observation args).map fun r => (r.1, ndOfMat r.2)
  | .cholesky => cholUpdateArr qr p mean (ndOfMat cov) observation args
  | .bierman => bierUpdateArr id p mean (ndOfMat cov) observation args

/-- The result of a method other than `em`, from the values of the attributes it has read. -/
noncomputable def KF.computed (cls : KFClass) (qr : QR) (k : KF) : TCall → TResult
  | .filter X => match k.filterOf cls qr id X with
    | some r => .estimates k.nDimState r
    | none => .outside
  | .smooth X => match k.smoothOf cls qr id X with
    | some r => .estimates k.nDimState r
    | none => .outside
  | .loglikelihood X => match k.loglikOf cls qr id X with
    | some r => .value r
    | none => .outside
  | .filterUpdate n m mean cov observation args => match k.initialize with
    | .error e => .estimate n (.error e)
    | .ok r => match r.typed n m with
      | some p => .estimate n (cls.update qr p mean cov observation args)
      | none => .outside
  | .em _ _ _ => .outside

/-- `_filter` of the three classes, `standard.py:1479-1495`, `cholesky.py:675-698`,
`bierman.py:844-867`: means and covariances of all time steps. -/
noncomputable def KFClass.steps (cls : KFClass) (qr : QR) (p : Params n m) (os : List (Obs m)) :
    Res (List (Step n m)) :=
  match cls with
  | .standard => filterFull p os
  | .cholesky => do
    let steps ← cholFull qr p os
    pure (steps.map (CStep.step m))
  | .bierman => do
    let steps ← bierFull id p os
    bierRows m steps

/-- `_smooth` and `_smooth_pair`, `standard.py:1496-1509`, `cholesky.py:700-717`,
`bierman.py:869-886`. -/
noncomputable def smoothStats (A : TV (Mat n n)) (steps : List (Step n m)) :
    Res (List (EmStats n)) := do
  let sm ← smoothFull A steps
  pure ((sm.zip (smoothPair sm)).map fun q => ⟨q.1.mean, q.1.cov, q.2⟩)

/-- The iterations of `em`, `standard.py:1478-1532`, `cholesky.py:673-738`, `bierman.py:842-907`.  The
transition matrices are read a second time for `_smooth`, the offsets for `_em`. -/
noncomputable def emIterations (cls : KFClass) (qr : QR) (o : ℕ) (given : Params n m)
    (vars : EmVar → Bool) (os : List (Obs m)) : ℕ → Prog TResult
  | 0 => .ret (.fitted none)
  | j + 1 =>
    readParams o fun r =>
    match r.bind (Resolved.typed · n m) with
    | none => .ret .outside
    | some p =>
      match cls.steps qr p os with
      | .error e => .ret (.fitted (some e))
      | .ok steps =>
        .get o .transitionMatrices fun (A : Option NDArray) =>
        match A.bind (NDArray.toMats n n) with
        | none => .ret .outside
        | some A =>
          match smoothStats A steps with
          | .error e => .ret (.fitted (some e))
          | .ok ss =>
            .get o .transitionOffsets fun (b : Option NDArray) =>
            .get o .observationOffsets fun (d : Option NDArray) =>
            match b.bind (NDArray.toVecs n), d.bind (NDArray.toVecs m) with
            | some b, some d =>
              match emStep given vars { p with b := b, d := d } ss os with
              | .error e => .ret (.fitted (some e))
              | .ok p' => assignAfter o p' (emIterations cls qr o given vars os j)
            | _, _ => .ret .outside

/-- The names of the variables to estimate, `standard.py:1452-1453`, `cholesky.py:646-647`,
`bierman.py:815-816`. -/
def readNames (cls : KFClass) (o : ℕ) (arg : Option EmNames) (k : Option EmNames → Prog α) : Prog α :=
  match arg with
  | some e => k (some e)
  | none =>
    match cls with
    | .standard => .get o .emVars' fun (e : EmNames) => k (some e)
    | _ => .get o .emVars fun (e : Option EmNames) => k e

/-- `em` of the three classes, `standard.py:1418-1533`, `cholesky.py:612-739`, `bierman.py:781-908`.
(The reads for the warning about time-varying parameters are left out: they have no effect.) -/
noncomputable def emProg (cls : KFClass) (qr : QR) (o : ℕ) (X : MArray) (nIter : ℕ)
    (arg : Option EmNames) : Prog TResult :=
  let Z := parseObservations X
  getParams o fun k =>
  match k.initialize with
  | .error e => .ret (.fitted (some e))
  | .ok r =>
    match r.typed k.nDimState k.nDimObs with
    | none => .ret .outside
    | some p =>
      assignFirst o p <|
      if Z.shape.drop 1 = [k.nDimObs] then
        readNames cls o arg fun names =>
        match emSelection names with
        | .error e => .ret (.fitted (some e))
        | .ok vars =>
          readGiven o fun g =>
          match g.bind (Resolved.typed · k.nDimState k.nDimObs) with
          | none => .ret .outside
          | some given => emIterations cls qr o given vars (Z.rows k.nDimObs) nIter
      else .ret .outside

/-- A call on the object `o` as a program.  The methods other than `em` read the parameters
(`standard.py:1213-1224`, `1301-1310`, `1380-1390`, `1549-1559`, and the same in the square-root
classes), then compute. -/
noncomputable def TCall.prog (cls : KFClass) (qr : QR) (o : ℕ) : TCall → Prog TResult
  | .em X nIter arg => emProg cls qr o X nIter arg
  | c => getParams o fun k => .ret (k.computed cls qr c)

end Verif
