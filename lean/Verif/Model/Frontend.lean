import Verif.Model.Standard
import Verif.Model.Cholesky
import Verif.Model.Bierman

/-!
# Model of the front end: arrays, constructor, parameter resolution, observation parsing

Models `pykalman/utils/_sklearn.py` (40-47, 71-87, 101-151), `_determine_dimensionality`,
`KalmanFilter.__init__`, `_initialize_parameters`, `_parse_observations` and the selection of
variables in the three `em` methods.
-/

open Matrix

namespace Verif

/-! ### Arrays -/

/-- A numeric `ndarray`: its shape, and the entry at every multi-index (only multi-indices within
the shape matter).  Scalars have the shape `[]`. -/
structure NDArray where
  shape : List ℕ
  data : List ℕ → ℝ

/-- A numeric masked array. -/
structure MArray where
  shape : List ℕ
  data : List ℕ → ℝ
  mask : List ℕ → Bool

/-- Drop `k` leading indices: how an array with `k` axes of length 1 put in front is read. -/
def dropIdx {α : Type} (k : ℕ) (f : List ℕ → α) (i : List ℕ) : α := f (i.drop k)

/-- `array1d`, `pykalman/utils/_sklearn.py:40-42`: `np.atleast_1d`. -/
def array1d (a : NDArray) : NDArray :=
  match a.shape with
  | [] => ⟨[1], dropIdx 1 a.data⟩
  | _ => a

/-- `array2d`, `pykalman/utils/_sklearn.py:45-47`: `np.atleast_2d`. -/
def array2d (a : NDArray) : NDArray :=
  match a.shape with
  | [] => ⟨[1, 1], dropIdx 2 a.data⟩
  | [k] => ⟨[1, k], dropIdx 1 a.data⟩
  | _ => a

/-- `v.shape[-(i + 1)]`. -/
def NDArray.axisFromEnd (a : NDArray) (i : ℕ) : Res ℕ :=
  match a.shape.reverse[i]? with
  | some k => .ok k
  | none => .error .indexError

/-! ### Dimensions -/

/-- The candidates `_determine_dimensionality` gathers from arrays, `standard.py:68-73`; the index
`-(i + 1)` is represented by `i`. -/
def dimCandidates : List (Option NDArray × (NDArray → NDArray) × ℕ) → Res (List ℕ)
  | [] => pure []
  | (v, conv, i) :: rest =>
    match v with
    | none => dimCandidates rest
    | some a => do
      let k ← (conv a).axisFromEnd i
      let ks ← dimCandidates rest
      pure (k :: ks)

/-- `_determine_dimensionality`, `standard.py:52-89`.  Simplification: an explicit dimension is a
natural number. -/
def determineDim (vars : List (Option NDArray × (NDArray → NDArray) × ℕ)) (default : Option ℕ) :
    Res ℕ := do
  let ks ← dimCandidates vars
  let ks := match default with
    | some k => ks ++ [k]
    | none => ks
  match ks with
  | [] => pure 1
  | k :: rest => if (k :: rest).all (· == k) then pure k else .error .valueError

/-! ### Random generators -/

/-- What a user can pass as seed. -/
inductive Seed
  | none
  | npRandom
  | int (k : ℤ)
  | state (id : ℕ)
  | other

/-- The generators that `check_random_state` can return: NumPy's global one, a new one with a given
seed, or an existing object. -/
inductive RngRef
  | global
  | seeded (k : ℕ)
  | object (id : ℕ)
  deriving DecidableEq

/-- `check_random_state`, `pykalman/utils/_sklearn.py:71-87`.  `RandomState(k)` raises `ValueError`
for `k` outside `0 … 2³² - 1`.  The last line calls `.format` on an exception object. -/
def checkRandomState : Seed → Res RngRef
  | .none => .ok .global
  | .npRandom => .ok .global
  | .int k => if 0 ≤ k ∧ k < 2 ^ 32 then .ok (.seeded k.toNat) else .error .valueError
  | .state id => .ok (.object id)
  | .other => .error .attributeError

/-! ### Dictionaries of arguments -/

/-- The two inner loops of `preprocess_arguments`, `pykalman/utils/_sklearn.py:132-143`, for one
argument set; dictionaries are lists of pairs in iteration order. -/
def addArgs {α β : Type} (conv : List (String × (α → Res β))) :
    List (String × Option α) → List (String × β) → Res (List (String × β))
  | [], r => pure r
  | (k, v) :: rest, r =>
    match conv.lookup k with
    | none => .error .valueError
    | some c =>
      match r.lookup k, v with
      | none, some v => do
        let b ← c v
        addArgs conv rest (r ++ [(k, b)])
      | _, _ => addArgs conv rest r

/-- `preprocess_arguments`, `pykalman/utils/_sklearn.py:115-151`. -/
def preprocessArguments {α β : Type} (argsets : List (List (String × Option α)))
    (conv : List (String × (α → Res β))) : Res (List (String × β)) := do
  let r ← argsets.foldlM (fun r s => addArgs conv s r) []
  if conv.length = r.length then pure r else .error .valueError

/-! ### `KalmanFilter` objects -/

/-- A selection of variables for `em`: the string `"all"`, or an iterable of strings. -/
inductive EmNames
  | all
  | names (l : List String)

/-- Values of constructor arguments, before and after conversion. -/
inductive PyVal
  | arr (a : NDArray)
  | seed (s : Seed)
  | rng (r : RngRef)
  | nat (k : ℕ)
  | names (e : EmNames)

/-- Arguments of `KalmanFilter.__init__`, `standard.py:1055-1069`. -/
structure KFArgs where
  A : Option NDArray := none
  C : Option NDArray := none
  Q : Option NDArray := none
  R : Option NDArray := none
  b : Option NDArray := none
  d : Option NDArray := none
  mu0 : Option NDArray := none
  S0 : Option NDArray := none
  randomState : Option Seed := none
  emVars : Option EmNames := none
  nDimState : Option ℕ := none
  nDimObs : Option ℕ := none

/-- A `KalmanFilter` object, `standard.py:1092-1113`; `emVars'` is the attribute `_em_vars`. -/
structure KF where
  A : Option NDArray
  C : Option NDArray
  Q : Option NDArray
  R : Option NDArray
  b : Option NDArray
  d : Option NDArray
  mu0 : Option NDArray
  S0 : Option NDArray
  randomState : Option Seed
  emVars : Option EmNames
  nDimState : ℕ
  nDimObs : ℕ
  emVars' : EmNames

/-- `standard.py:1106-1111` and `standard.py:1609-1614`. -/
def defaultEmNames : EmNames :=
  .names ["transition_covariance", "observation_covariance", "initial_state_mean",
    "initial_state_covariance"]

/-- `KalmanFilter.__init__`, `standard.py:1055-1113`. -/
def KF.init (a : KFArgs) : Res KF := do
  let n ← determineDim
    [(a.A, array2d, 1), (a.b, array1d, 0), (a.Q, array2d, 1), (a.mu0, array1d, 0),
     (a.S0, array2d, 1), (a.C, array2d, 0)] a.nDimState
  let m ← determineDim [(a.C, array2d, 1), (a.d, array1d, 0), (a.R, array2d, 1)] a.nDimObs
  pure ⟨a.A, a.C, a.Q, a.R, a.b, a.d, a.mu0, a.S0, a.randomState, a.emVars, n, m,
    a.emVars.getD defaultEmNames⟩

/-- `np.eye(n, m)`. -/
def ndEye (n m : ℕ) : NDArray := ⟨[n, m], fun i => if i[0]? = i[1]? then 1 else 0⟩

/-- `np.zeros(n)`. -/
def ndZeros (n : ℕ) : NDArray := ⟨[n], fun _ => 0⟩

/-- `get_params(self)`, `pykalman/utils/_sklearn.py:101-112`, for a `KalmanFilter`. -/
def KF.arguments (k : KF) : List (String × Option PyVal) :=
  [("transition_matrices", k.A.map .arr), ("observation_matrices", k.C.map .arr),
   ("transition_covariance", k.Q.map .arr), ("observation_covariance", k.R.map .arr),
   ("transition_offsets", k.b.map .arr), ("observation_offsets", k.d.map .arr),
   ("initial_state_mean", k.mu0.map .arr), ("initial_state_covariance", k.S0.map .arr),
   ("random_state", k.randomState.map .seed), ("em_vars", k.emVars.map .names),
   ("n_dim_state", some (.nat k.nDimState)), ("n_dim_obs", some (.nat k.nDimObs))]

/-- `defaults`, `standard.py:1598-1615`. -/
def KF.defaults (k : KF) : List (String × Option PyVal) :=
  [("transition_matrices", some (.arr (ndEye k.nDimState k.nDimState))),
   ("transition_offsets", some (.arr (ndZeros k.nDimState))),
   ("transition_covariance", some (.arr (ndEye k.nDimState k.nDimState))),
   ("observation_matrices", some (.arr (ndEye k.nDimObs k.nDimState))),
   ("observation_offsets", some (.arr (ndZeros k.nDimObs))),
   ("observation_covariance", some (.arr (ndEye k.nDimObs k.nDimObs))),
   ("initial_state_mean", some (.arr (ndZeros k.nDimState))),
   ("initial_state_covariance", some (.arr (ndEye k.nDimState k.nDimState))),
   ("random_state", some (.seed (.int 0))),
   ("em_vars", some (.names defaultEmNames))]

/-- A converter for arrays. -/
def convArr (f : NDArray → NDArray) : PyVal → Res PyVal
  | .arr a => .ok (.arr (f a))
  | _ => .error .typeError

/-- The converter of `random_state`. -/
def convSeed : PyVal → Res PyVal
  | .seed s => (checkRandomState s).map .rng
  | _ => .error .attributeError

/-- `converters`, `standard.py:1616-1629`. -/
def kfConverters : List (String × (PyVal → Res PyVal)) :=
  [("transition_matrices", convArr array2d), ("transition_offsets", convArr array1d),
   ("transition_covariance", convArr array2d), ("observation_matrices", convArr array2d),
   ("observation_offsets", convArr array1d), ("observation_covariance", convArr array2d),
   ("initial_state_mean", convArr array1d), ("initial_state_covariance", convArr array2d),
   ("random_state", convSeed), ("n_dim_state", fun v => .ok v), ("n_dim_obs", fun v => .ok v),
   ("em_vars", fun v => .ok v)]

/-- `parameters[name]` for an array (the other cases do not occur). -/
def getArr (r : List (String × PyVal)) (name : String) : Res NDArray :=
  match r.lookup name with
  | some (.arr a) => .ok a
  | _ => .error .typeError

/-- The arrays that `_initialize_parameters` returns. -/
structure Resolved where
  A : NDArray
  b : NDArray
  Q : NDArray
  C : NDArray
  d : NDArray
  R : NDArray
  mu0 : NDArray
  S0 : NDArray

/-- `KalmanFilter._initialize_parameters`, `standard.py:1593-1641`. -/
def KF.initialize (k : KF) : Res Resolved := do
  let r ← preprocessArguments [k.arguments, k.defaults] kfConverters
  let A ← getArr r "transition_matrices"
  let b ← getArr r "transition_offsets"
  let Q ← getArr r "transition_covariance"
  let C ← getArr r "observation_matrices"
  let d ← getArr r "observation_offsets"
  let R ← getArr r "observation_covariance"
  let mu0 ← getArr r "initial_state_mean"
  let S0 ← getArr r "initial_state_covariance"
  pure ⟨A, b, Q, C, d, R, mu0, S0⟩

/-! ### Observations -/

/-- `np.ma.atleast_2d`. -/
def MArray.atleast2d (a : MArray) : MArray :=
  match a.shape with
  | [] => ⟨[1, 1], dropIdx 2 a.data, dropIdx 2 a.mask⟩
  | [k] => ⟨[1, k], dropIdx 1 a.data, dropIdx 1 a.mask⟩
  | _ => a

/-- `a.T`. -/
def MArray.transpose (a : MArray) : MArray :=
  ⟨a.shape.reverse, fun i => a.data i.reverse, fun i => a.mask i.reverse⟩

/-- `_parse_observations`, `standard.py:1643-1648` and `unscented.py:733-738`. -/
def parseObservations (obs : MArray) : MArray :=
  let obs := obs.atleast2d
  match obs.shape with
  | s0 :: s1 :: _ => if s0 = 1 ∧ s1 > 1 then obs.transpose else obs
  | _ => obs

/-- The rows `Z[0], Z[1], …` of a two-dimensional masked array with `m` columns, as the filters
read them. -/
def MArray.rows (m : ℕ) (a : MArray) : List (Obs m) :=
  (List.range (a.shape.headD 0)).map fun t =>
    ⟨fun j => a.data [t, j], fun j => a.mask [t, j]⟩

/-! ### From arrays to typed parameters -/

/-- A matrix parameter with its last two axes of lengths `n` and `m`; the other shapes are outside
the model. -/
def NDArray.toMats (n m : ℕ) (a : NDArray) : Option (TV (Mat n m)) :=
  if a.shape = [n, m] then some (.const (Matrix.of fun i j => a.data [i, j]))
  else match a.shape with
    | [T, n', m'] =>
      if n' = n ∧ m' = m then
        some (.seq ((List.range T).map fun t => Matrix.of fun i j => a.data [t, i, j]))
      else none
    | _ => none

/-- A vector parameter with its last axis of length `n`. -/
def NDArray.toVecs (n : ℕ) (a : NDArray) : Option (TV (Vec n)) :=
  if a.shape = [n] then some (.const fun i => a.data [i])
  else match a.shape with
    | [T, n'] =>
      if n' = n then some (.seq ((List.range T).map fun t i => a.data [t, i])) else none
    | _ => none

/-- A matrix that may not vary with time. -/
def NDArray.toMat (n m : ℕ) (a : NDArray) : Option (Mat n m) :=
  if a.shape = [n, m] then some (Matrix.of fun i j => a.data [i, j]) else none

/-- A vector that may not vary with time. -/
def NDArray.toVec (n : ℕ) (a : NDArray) : Option (Vec n) :=
  if a.shape = [n] then some fun i => a.data [i] else none

/-- The typed parameters, if all shapes fit.  (If they do not fit, NumPy broadcasts or raises
`ValueError` somewhere in the computation; this is outside the model.) -/
def Resolved.typed (r : Resolved) (n m : ℕ) : Option (Params n m) := do
  let A ← r.A.toMats n n
  let b ← r.b.toVecs n
  let Q ← r.Q.toMats n n
  let C ← r.C.toMats m n
  let d ← r.d.toVecs m
  let R ← r.R.toMats m m
  let mu0 ← r.mu0.toVec n
  let S0 ← r.S0.toMat n n
  pure ⟨A, b, Q, C, d, R, mu0, S0⟩

/-! ### `em`: which variables -/

/-- Name of a variable in the dictionary `given`, `standard.py:1458-1467`. -/
def EmVar.name : EmVar → String
  | .transitionMatrices => "transition_matrices"
  | .observationMatrices => "observation_matrices"
  | .transitionOffsets => "transition_offsets"
  | .observationOffsets => "observation_offsets"
  | .transitionCovariance => "transition_covariance"
  | .observationCovariance => "observation_covariance"
  | .initialStateMean => "initial_state_mean"
  | .initialStateCovariance => "initial_state_covariance"

/-- Which variables are not in `given`, `standard.py:1454-1471`; `none` is Python's `None`, on which
`set` raises `TypeError`. -/
def emSelection : Option EmNames → Res (EmVar → Bool)
  | some .all => .ok fun _ => true
  | some (.names l) => .ok fun v => v.name ∈ l
  | none => .error .typeError

/-- `KalmanFilter.em`: an omitted `em_vars` is replaced by `self._em_vars`, `standard.py:1452-1453`. -/
def KF.emSelection (k : KF) (arg : Option EmNames) : Res (EmVar → Bool) :=
  Verif.emSelection (some (arg.getD k.emVars'))

/-- `CholeskyKalmanFilter.em` and `BiermanKalmanFilter.em`: an omitted `em_vars` is replaced by
`self.em_vars`, `pykalman/sqrt/cholesky.py:646-647`,
`pykalman/sqrt/bierman.py:815-816`. -/
def KF.emSelectionSqrt (k : KF) (arg : Option EmNames) : Res (EmVar → Bool) :=
  Verif.emSelection (arg.orElse fun _ => k.emVars)

/-! ### Methods of the object -/

/-- Parsed observations and typed parameters, as every method of the three linear classes obtains
them first (e.g. `standard.py:1213-1224`).  Outer `none`: the shapes do not fit, outside the
model. -/
def KF.prepare (k : KF) (X : MArray) :
    Option (Res (Params k.nDimState k.nDimObs × List (Obs k.nDimObs))) :=
  let Z := parseObservations X
  match k.initialize with
  | .error e => some (.error e)
  | .ok r =>
    match r.typed k.nDimState k.nDimObs with
    | some p =>
      if Z.shape.drop 1 = [k.nDimObs] then some (.ok (p, Z.rows k.nDimObs)) else none
    | none => none

/-- `KalmanFilter.filter`, `standard.py:1186-1238`. -/
noncomputable def KF.filter (k : KF) (X : MArray) :
    Option (Res (List (Vec k.nDimState × Mat k.nDimState k.nDimState))) :=
  (k.prepare X).map fun r => do
    let (p, os) ← r
    kfFilter p os

/-- `KalmanFilter.smooth`, `standard.py:1356-1416`. -/
noncomputable def KF.smooth (k : KF) (X : MArray) :
    Option (Res (List (Vec k.nDimState × Mat k.nDimState k.nDimState))) :=
  (k.prepare X).map fun r => do
    let (p, os) ← r
    kfSmooth p os

/-- `KalmanFilter.loglikelihood`, `standard.py:1535-1591`. -/
noncomputable def KF.loglikelihood (k : KF) (X : MArray) : Option (Res ℝ) :=
  (k.prepare X).map fun r => do
    let (p, os) ← r
    kfLoglik p os

/-- The three linear classes. -/
inductive KFClass
  | standard
  | cholesky
  | bierman

/-- `em` of the three linear classes, `standard.py:1418-1533`, `pykalman/sqrt/cholesky.py:612-739`,
`pykalman/sqrt/bierman.py:781-908`: the parameters of the object afterwards. -/
noncomputable def KF.em (cls : KFClass) (qr : QR) (store : ℝ → ℝ) (k : KF) (X : MArray) (nIter : ℕ)
    (arg : Option EmNames) : Option (Res (Params k.nDimState k.nDimObs)) :=
  (k.prepare X).map fun r => do
    let (p, os) ← r
    match cls with
    | .standard => do
      let vars ← k.emSelection arg
      kfEm p os nIter vars
    | .cholesky => do
      let vars ← k.emSelectionSqrt arg
      cholEm qr p os nIter vars
    | .bierman => do
      let vars ← k.emSelectionSqrt arg
      bierEm store p os nIter vars

end Verif
