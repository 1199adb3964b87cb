import Verif.Model.LinearMethods

/-!
# Model of the arrays in memory

Elsewhere arrays are values.  Here an array is an object that refers to a block of memory; several
arrays may refer to the same block (views: `X[t]`, `X.T`, `np.asarray(X)`, `np.atleast_2d(X)`), and
`X[t] = v` changes the block.  The functions of `standard.py` are modelled with the arrays they
allocate, the views they take and the rows they assign, in the order of the code.  NumPy expressions
(`np.dot(…) + …`) give new arrays; the temporary arrays inside an expression are left out.
Shapes that do not fit are outside the model: entries out of range are read as they happen to be.
-/

open Matrix

namespace Verif

variable {α β : Type} {n m : ℕ}

/-- A block of memory: entries, and (for masked arrays) their masks. -/
structure Block where
  val : List ℕ → ℝ
  mask : List ℕ → Bool

/-- The memory: the blocks `0, …, next - 1` are in use. -/
structure Heap where
  next : ℕ
  block : ℕ → Block

/-- An array object: its block, its shape, and where in the block an entry lies. -/
structure ARef where
  addr : ℕ
  shape : List ℕ
  ix : List ℕ → List ℕ

/-- The array as a value, at present. -/
def ARef.nd (h : Heap) (r : ARef) : NDArray := ⟨r.shape, fun i => (h.block r.addr).val (r.ix i)⟩

/-- The masked array as a value, at present. -/
def ARef.ma (h : Heap) (r : ARef) : MArray :=
  ⟨r.shape, fun i => (h.block r.addr).val (r.ix i), fun i => (h.block r.addr).mask (r.ix i)⟩

/-- The entries as a vector, at present. -/
def ARef.vec (n : ℕ) (h : Heap) (r : ARef) : Vec n := fun i => (r.nd h).data [i]

/-- The entries as a matrix, at present. -/
def ARef.mat (n m : ℕ) (h : Heap) (r : ARef) : Mat n m := Matrix.of fun i j => (r.nd h).data [i, j]

/-- The entries as an observation, at present. -/
def ARef.obs (m : ℕ) (h : Heap) (r : ARef) : Obs m :=
  ⟨fun i => (r.ma h).data [i], fun i => (r.ma h).mask [i]⟩

/-- A computation that may allocate and change blocks.  After an exception the changes remain. -/
def HM (α : Type) := Heap → Res α × Heap

instance : Monad HM where
  pure a := fun h => (.ok a, h)
  bind x f := fun h => match x h with
    | (.ok a, h') => f a h'
    | (.error e, h') => (.error e, h')

/-- Raise the exception of `r`, if it is one. -/
def HM.lift (r : Res α) : HM α := fun h => (r, h)

/-- Look at the memory. -/
def HM.see (f : Heap → α) : HM α := fun h => (.ok (f h), h)

/-- A new array with the entries of `a`. -/
def newArray (a : NDArray) : HM ARef := fun h =>
  (.ok ⟨h.next, a.shape, id⟩,
    ⟨h.next + 1, Function.update h.block h.next ⟨a.data, fun _ => false⟩⟩)

/-- `np.zeros(shape)`. -/
def newZeros (shape : List ℕ) : HM ARef := newArray ⟨shape, fun _ => 0⟩

/-- `X[t]`, a view. -/
def ARef.row (r : ARef) (t : ℕ) : ARef := ⟨r.addr, r.shape.tail, fun i => r.ix (t :: i)⟩

/-- `X[t] = v`, for an array `X` that is not a view. -/
def setRow (X : ARef) (t : ℕ) (v : ARef) : HM Unit := fun h =>
  (.ok (), ⟨h.next, Function.update h.block X.addr
    { h.block X.addr with
      val := fun j => match j with
        | [] => (h.block X.addr).val []
        | s :: i => if s = t then (v.nd h).data i else (h.block X.addr).val (s :: i) }⟩)

/-- `_last_dims(X, t, ndims)`, `standard.py:92-120`: a view, or `X` itself. -/
def ARef.lastDims (X : ARef) (t ndims : ℕ) : Res ARef :=
  if X.shape.length = ndims + 1 then
    if t < X.shape.headD 0 then .ok (X.row t) else .error .indexError
  else if X.shape.length = ndims then .ok X
  else .error .valueError

/-! ### The filter -/

/-- `_filter_predict`, `standard.py:187-230`. -/
def memPredict (n : ℕ) (A Q b mean cov : ARef) : HM (ARef × ARef) := do
  let v ← HM.see fun h => filterPredict (A.mat n n h) (Q.mat n n h) (b.vec n h) (mean.vec n h)
    (cov.mat n n h)
  let mean' ← newArray (ndOfVec v.1)
  let cov' ← newArray (ndOfMat v.2)
  pure (mean', cov')

/-- `_filter_correct`, `standard.py:233-306`.  For a masked observation the arrays of the prediction
themselves are returned. -/
noncomputable def memCorrect (n m : ℕ) (C R d mean cov o : ARef) : HM (ARef × ARef × ARef) := do
  let missing ← HM.see fun h => decide (o.obs m h).missing
  if ¬ missing then
    let v ← HM.see fun h => filterCorrect (C.mat m n h) (R.mat m m h) (d.vec m h) (mean.vec n h)
      (cov.mat n n h) (o.obs m h)
    let gain ← newArray (ndOfMat v.1)
    let mean' ← newArray (ndOfVec v.2.1)
    let cov' ← newArray (ndOfMat v.2.2)
    pure (gain, mean', cov')
  else
    let gain ← newZeros [n, m]
    pure (gain, mean, cov)

/-- The eight arrays that `_initialize_parameters` returns. -/
structure PRefs where
  A : ARef
  b : ARef
  Q : ARef
  C : ARef
  d : ARef
  R : ARef
  mu0 : ARef
  S0 : ARef

/-- The five arrays of `_filter`, `standard.py:371-375`. -/
structure FRefs where
  predMeans : ARef
  predCovs : ARef
  gains : ARef
  filtMeans : ARef
  filtCovs : ARef

/-- First half of the body of the loop of `_filter`, `standard.py:378-394`. -/
def memFilterPred (n : ℕ) (p : PRefs) (f : FRefs) (t : ℕ) : HM Unit := do
  if t = 0 then
    setRow f.predMeans t p.mu0
    setRow f.predCovs t p.S0
  else
    let A ← HM.lift (p.A.lastDims (t - 1) 2)
    let Q ← HM.lift (p.Q.lastDims (t - 1) 2)
    let b ← HM.lift (p.b.lastDims (t - 1) 1)
    let r ← memPredict n A Q b (f.filtMeans.row (t - 1)) (f.filtCovs.row (t - 1))
    setRow f.predMeans t r.1
    setRow f.predCovs t r.2

/-- Second half of the body of the loop of `_filter`, `standard.py:396-410`. -/
noncomputable def memFilterCorr (n m : ℕ) (p : PRefs) (f : FRefs) (Z : ARef) (t : ℕ) : HM Unit := do
  let C ← HM.lift (p.C.lastDims t 2)
  let R ← HM.lift (p.R.lastDims t 2)
  let d ← HM.lift (p.d.lastDims t 1)
  let r ← memCorrect n m C R d (f.predMeans.row t) (f.predCovs.row t) (Z.row t)
  setRow f.gains t r.1
  setRow f.filtMeans t r.2.1
  setRow f.filtCovs t r.2.2

/-- The loop of `_filter`, `standard.py:377-410`: `k` more iterations, from time `t` on. -/
noncomputable def memFilterLoop (n m : ℕ) (p : PRefs) (f : FRefs) (Z : ARef) : ℕ → ℕ → HM Unit
  | _, 0 => pure ()
  | t, k + 1 => do
    memFilterPred n p f t
    memFilterCorr n m p f Z t
    memFilterLoop n m p f Z (t + 1) k

/-- `_filter`, `standard.py:309-418`. -/
noncomputable def memFilter (p : PRefs) (Z : ARef) : HM FRefs := do
  let T := Z.shape.headD 0
  let n := p.mu0.shape.headD 0
  let m := Z.shape.getD 1 0
  let predMeans ← newZeros [T, n]
  let predCovs ← newZeros [T, n, n]
  let gains ← newZeros [T, n, m]
  let filtMeans ← newZeros [T, n]
  let filtCovs ← newZeros [T, n, n]
  let f : FRefs := ⟨predMeans, predCovs, gains, filtMeans, filtCovs⟩
  memFilterLoop n m p f Z 0 T
  pure f

/-! ### The smoother -/

/-- The three arrays of `_smooth`, `standard.py:527-529`. -/
structure SRefs where
  means : ARef
  covs : ARef
  gains : ARef

/-- `_smooth_update`, `standard.py:421-485`. -/
noncomputable def memSmoothUpdate (n : ℕ) (A fm fc pm pc sm sc : ARef) : HM (ARef × ARef × ARef) := do
  let v ← HM.see fun h => smoothUpdate (A.mat n n h) (fm.vec n h) (fc.mat n n h) (pm.vec n h)
    (pc.mat n n h) (sm.vec n h) (sc.mat n n h)
  let gain ← newArray (ndOfMat v.gain)
  let mean ← newArray (ndOfVec v.mean)
  let cov ← newArray (ndOfMat v.cov)
  pure (mean, cov, gain)

/-- The loop of `_smooth`, `standard.py:534-551`: the times `t - 1, …, 0`. -/
noncomputable def memSmoothLoop (n : ℕ) (A : ARef) (f : FRefs) (s : SRefs) : ℕ → HM Unit
  | 0 => pure ()
  | t + 1 => do
    let At ← HM.lift (A.lastDims t 2)
    let r ← memSmoothUpdate n At (f.filtMeans.row t) (f.filtCovs.row t) (f.predMeans.row (t + 1))
      (f.predCovs.row (t + 1)) (s.means.row (t + 1)) (s.covs.row (t + 1))
    setRow s.means t r.1
    setRow s.covs t r.2.1
    setRow s.gains t r.2.2
    memSmoothLoop n A f s t

/-- `_smooth`, `standard.py:488-553`. -/
noncomputable def memSmooth (A : ARef) (f : FRefs) : HM SRefs := do
  let T := f.filtMeans.shape.headD 0
  let n := f.filtMeans.shape.getD 1 0
  let means ← newZeros [T, n]
  let covs ← newZeros [T, n, n]
  if T = 0 then HM.lift (.error .valueError)
  let gains ← newZeros [T - 1, n, n]
  let s : SRefs := ⟨means, covs, gains⟩
  setRow means (T - 1) (f.filtMeans.row (T - 1))
  setRow covs (T - 1) (f.filtCovs.row (T - 1))
  memSmoothLoop n A f s (T - 1)
  pure s

/-- `_smooth_pair`, `standard.py:556-581`: the loop `for t in range(1, n_timesteps)`, from `t` on,
`k` more iterations. -/
def memPairLoop (n : ℕ) (s : SRefs) (pairs : ARef) : ℕ → ℕ → HM Unit
  | _, 0 => pure ()
  | t, k + 1 => do
    let v ← HM.see fun h => (s.covs.row t).mat n n h * ((s.gains.row (t - 1)).mat n n h)ᵀ
    let a ← newArray (ndOfMat v)
    setRow pairs t a
    memPairLoop n s pairs (t + 1) k

/-- `_smooth_pair`, `standard.py:556-581`. -/
def memPair (s : SRefs) : HM ARef := do
  let T := s.covs.shape.headD 0
  let n := s.covs.shape.getD 1 0
  let pairs ← newZeros [T, n, n]
  memPairLoop n s pairs 1 (T - 1)
  pure pairs

/-! ### The log likelihood -/

/-- Body of the loop of `_loglikelihoods`, `standard.py:168-183`. -/
noncomputable def memLoglikStep (n m : ℕ) (p : PRefs) (f : FRefs) (Z ll : ARef) (t : ℕ) : HM Unit := do
  let missing ← HM.see fun h => decide ((Z.row t).obs m h).missing
  if ¬ missing then
    let C ← HM.lift (p.C.lastDims t 2)
    let d ← HM.lift (p.d.lastDims t 1)
    let R ← HM.lift (if p.R.shape.length = 2 then .ok p.R else .error .valueError)
    let v ← HM.see fun h => logMvn ((Z.row t).obs m h).val
      (C.mat m n h *ᵥ (f.predMeans.row t).vec n h + d.vec m h)
      (C.mat m n h * ((f.predCovs.row t).mat n n h * (C.mat m n h)ᵀ) + R.mat m m h)
    let x ← HM.lift v
    let a ← newArray ⟨[], fun _ => x⟩
    setRow ll t a
  else pure ()

/-- The loop of `_loglikelihoods`, `standard.py:168-183`. -/
noncomputable def memLoglikLoop (n m : ℕ) (p : PRefs) (f : FRefs) (Z ll : ARef) : ℕ → ℕ → HM Unit
  | _, 0 => pure ()
  | t, k + 1 => do
    memLoglikStep n m p f Z ll t
    memLoglikLoop n m p f Z ll (t + 1) k

/-- `_loglikelihoods`, `standard.py:123-184`. -/
noncomputable def memLoglik (p : PRefs) (f : FRefs) (Z : ARef) : HM ARef := do
  let T := Z.shape.headD 0
  let ll ← newZeros [T]
  memLoglikLoop (p.mu0.shape.headD 0) (Z.shape.getD 1 0) p f Z ll 0 T
  pure ll

/-! ### The M-step -/

/-- A constant or varying matrix, at present (0 for other shapes, which are outside the model). -/
def ARef.mats (n m : ℕ) (h : Heap) (r : ARef) : TV (Mat n m) :=
  ((r.nd h).toMats n m).getD (.const 0)

/-- A constant or varying vector, at present (0 for other shapes, which are outside the model). -/
def ARef.vecs (n : ℕ) (h : Heap) (r : ARef) : TV (Vec n) := ((r.nd h).toVecs n).getD (.const 0)

/-- The smoothed statistics, as the functions `_em_…` read them. -/
def emStatsAt (n : ℕ) (h : Heap) (s : SRefs) (pairs : ARef) : List (EmStats n) :=
  (List.range (s.means.shape.headD 0)).map fun t =>
    ⟨(s.means.row t).vec n h, (s.covs.row t).mat n n h, (pairs.row t).mat n n h⟩

/-- `if "x" in given: x = given["x"] else: x = _em_x(…)`, `standard.py:645-710`: the same array
object, or a new one.  (The arrays `res`, `res1`, `res2` in which the functions `_em_…` sum up are
left out: they are allocated there and nothing else refers to them.) -/
def memEstimate (sel : Bool) (estimate : Heap → Res NDArray) (given : ARef) : HM ARef :=
  if sel then do
    let r ← HM.see estimate
    let a ← HM.lift r
    newArray a
  else pure given

/-- `_em`, `standard.py:584-722`.  `_em_initial_state_mean` returns a view, `standard.py:889`. -/
noncomputable def memEmStep (n m : ℕ) (sel : EmVar → Bool) (given old : PRefs) (Z : ARef) (s : SRefs)
    (pairs : ARef) : HM PRefs := do
  let C ← memEstimate (sel .observationMatrices) (fun h =>
    (emObsMat (old.d.vecs m h) (emStatsAt n h s pairs) ((Z.ma h).rows m)).map ndOfMat) given.C
  let R ← memEstimate (sel .observationCovariance) (fun h =>
    (emObsCov (C.mats m n h) (old.d.vecs m h) (emStatsAt n h s pairs) ((Z.ma h).rows m)).map ndOfMat)
    given.R
  let A ← memEstimate (sel .transitionMatrices) (fun h =>
    (emTransMat (old.b.vecs n h) (emStatsAt n h s pairs)).map ndOfMat) given.A
  let Q ← memEstimate (sel .transitionCovariance) (fun h =>
    (emTransCov (A.mats n n h) (old.b.vecs n h) (emStatsAt n h s pairs)).map ndOfMat) given.Q
  let mu0 := if sel .initialStateMean then s.means.row 0 else given.mu0
  let S0 ← memEstimate (sel .initialStateCovariance) (fun h =>
    (emInitCov (mu0.vec n h) (emStatsAt n h s pairs)).map ndOfMat) given.S0
  let b ← memEstimate (sel .transitionOffsets) (fun h =>
    (emTransOff (A.mats n n h) (emStatsAt n h s pairs)).map ndOfVec) given.b
  let d ← memEstimate (sel .observationOffsets) (fun h =>
    (emObsOff (C.mats m n h) (emStatsAt n h s pairs) ((Z.ma h).rows m)).map ndOfVec) given.d
  pure ⟨A, b, Q, C, d, R, mu0, S0⟩

/-- The iterations of `KalmanFilter.em`, `standard.py:1478-1532`. -/
noncomputable def memEmLoop (n m : ℕ) (sel : EmVar → Bool) (given : PRefs) (Z : ARef) :
    ℕ → PRefs → HM PRefs
  | 0, p => pure p
  | k + 1, p => do
    let f ← memFilter p Z
    let s ← memSmooth p.A f
    let pairs ← memPair s
    let p' ← memEmStep n m sel given p Z s pairs
    memEmLoop n m sel given Z k p'

/-! ### Objects and methods -/

/-- A `KalmanFilter` object, `standard.py:1092-1113`: the constructor keeps the arrays themselves. -/
structure KFRef where
  A : Option ARef
  C : Option ARef
  Q : Option ARef
  R : Option ARef
  b : Option ARef
  d : Option ARef
  mu0 : Option ARef
  S0 : Option ARef
  randomState : Option Seed
  emVars : Option EmNames
  nDimState : ℕ
  nDimObs : ℕ
  emVars' : EmNames

/-- The object with its arrays as values, at present. -/
def KFRef.value (h : Heap) (k : KFRef) : KF :=
  ⟨k.A.map (ARef.nd h), k.C.map (ARef.nd h), k.Q.map (ARef.nd h), k.R.map (ARef.nd h),
   k.b.map (ARef.nd h), k.d.map (ARef.nd h), k.mu0.map (ARef.nd h), k.S0.map (ARef.nd h),
   k.randomState, k.emVars, k.nDimState, k.nDimObs, k.emVars'⟩

/-- `array1d`, `pykalman/utils/_sklearn.py:40-42`: a view, or the array itself. -/
def ARef.array1d (r : ARef) : ARef :=
  match r.shape with
  | [] => ⟨r.addr, [1], fun i => r.ix (i.drop 1)⟩
  | _ => r

/-- `array2d`, `pykalman/utils/_sklearn.py:45-47`: a view, or the array itself. -/
def ARef.array2d (r : ARef) : ARef :=
  match r.shape with
  | [] => ⟨r.addr, [1, 1], fun i => r.ix (i.drop 2)⟩
  | [k] => ⟨r.addr, [1, k], fun i => r.ix (i.drop 1)⟩
  | _ => r

/-- `_initialize_parameters`, `standard.py:1593-1641`: the object's arrays where there are some, new
arrays with the defaults elsewhere.  (The order of the conversions is that of the exceptions: only
`random_state` can raise.) -/
def memInitialize (k : KFRef) : HM PRefs := do
  let eye ← newArray (ndEye k.nDimState k.nDimState)
  let b0 ← newArray (ndZeros k.nDimState)
  let Q0 ← newArray (ndEye k.nDimState k.nDimState)
  let C0 ← newArray (ndEye k.nDimObs k.nDimState)
  let d0 ← newArray (ndZeros k.nDimObs)
  let R0 ← newArray (ndEye k.nDimObs k.nDimObs)
  let m0 ← newArray (ndZeros k.nDimState)
  let S0 ← newArray (ndEye k.nDimState k.nDimState)
  let _ ← HM.lift (match k.randomState with
    | some s => (checkRandomState s).map fun _ => ()
    | none => .ok ())
  pure ⟨(k.A.map ARef.array2d).getD eye, (k.b.map ARef.array1d).getD b0,
    (k.Q.map ARef.array2d).getD Q0, (k.C.map ARef.array2d).getD C0,
    (k.d.map ARef.array1d).getD d0, (k.R.map ARef.array2d).getD R0,
    (k.mu0.map ARef.array1d).getD m0, (k.S0.map ARef.array2d).getD S0⟩

/-- `a.T`, a view. -/
def ARef.transpose (r : ARef) : ARef := ⟨r.addr, r.shape.reverse, fun i => r.ix i.reverse⟩

/-- `_parse_observations`, `standard.py:1643-1648`: views. -/
def ARef.parse (r : ARef) : ARef :=
  match r.array2d.shape with
  | s0 :: s1 :: _ => if s0 = 1 ∧ s1 > 1 then r.array2d.transpose else r.array2d
  | _ => r.array2d

/-- `KalmanFilter.filter`, `standard.py:1186-1238`. -/
noncomputable def KFRef.filter (k : KFRef) (X : ARef) : HM (ARef × ARef) := do
  let Z := X.parse
  let p ← memInitialize k
  let f ← memFilter p Z
  pure (f.filtMeans, f.filtCovs)

/-- `KalmanFilter.smooth`, `standard.py:1356-1416`. -/
noncomputable def KFRef.smooth (k : KFRef) (X : ARef) : HM (ARef × ARef) := do
  let Z := X.parse
  let p ← memInitialize k
  let f ← memFilter p Z
  let s ← memSmooth p.A f
  pure (s.means, s.covs)

/-- Optional arguments of `filter_update`, `standard.py:1240-1251`. -/
structure UpdateRefs where
  A : Option ARef := none
  b : Option ARef := none
  Q : Option ARef := none
  C : Option ARef := none
  d : Option ARef := none
  R : Option ARef := none

/-- `_arg_or_default`, `standard.py:39-49`. -/
def argOrDefaultRef (arg : Option ARef) (dflt : ARef) (dim : ℕ) : Res ARef :=
  let r := arg.getD dflt
  if r.shape.length > dim then .error .valueError else .ok r

/-- A new masked array, all of whose entries are masked, `standard.py:1331-1333`. -/
def newMasked (m : ℕ) : HM ARef := fun h =>
  (.ok ⟨h.next, [m], id⟩, ⟨h.next + 1, Function.update h.block h.next ⟨fun _ => 0, fun _ => true⟩⟩)

/-- `KalmanFilter.filter_update`, `standard.py:1240-1354`. -/
noncomputable def KFRef.filterUpdate (k : KFRef) (mean cov : ARef) (observation : Option ARef)
    (a : UpdateRefs) : HM (ARef × ARef) := do
  let p ← memInitialize k
  let b ← HM.lift (argOrDefaultRef a.b p.b 1)
  let d ← HM.lift (argOrDefaultRef a.d p.d 1)
  let A ← HM.lift (argOrDefaultRef a.A p.A 2)
  let C ← HM.lift (argOrDefaultRef a.C p.C 2)
  let Q ← HM.lift (argOrDefaultRef a.Q p.Q 2)
  let R ← HM.lift (argOrDefaultRef a.R p.R 2)
  let o ← match observation with
    | none => newMasked (R.shape.headD 0)
    | some o => pure o
  let pred ← memPredict k.nDimState A Q b mean cov
  let c ← memCorrect k.nDimState k.nDimObs C R d pred.1 pred.2 o
  pure (c.2.1, c.2.2)

/-- `KalmanFilter.loglikelihood`, `standard.py:1535-1591`. -/
noncomputable def KFRef.loglikelihood (k : KFRef) (X : ARef) : HM ℝ := do
  let Z := X.parse
  let p ← memInitialize k
  let f ← memFilter p Z
  let ll ← memLoglik p f Z
  HM.see fun h => ((List.range (Z.shape.headD 0)).map fun t => (ll.nd h).data [t]).sum

/-- `KalmanFilter.em`, `standard.py:1418-1533`: the object afterwards, if there is no exception.  The
attributes of the variables that are not estimated are the arrays that were there (or views of
them, or new arrays with the defaults). -/
noncomputable def KFRef.em (k : KFRef) (X : ARef) (nIter : ℕ) (arg : Option EmNames) : HM KFRef := do
  let Z := X.parse
  let p ← memInitialize k
  let sel ← HM.lift (emSelection (some (arg.getD k.emVars')))
  let p' ← memEmLoop k.nDimState k.nDimObs sel p Z nIter p
  pure { k with A := some p'.A, C := some p'.C, Q := some p'.Q, R := some p'.R, b := some p'.b,
                d := some p'.d, mu0 := some p'.mu0, S0 := some p'.S0 }

end Verif
