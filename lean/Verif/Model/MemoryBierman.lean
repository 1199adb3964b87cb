import Verif.Model.MemoryCholesky
import Verif.Model.Bierman

/-!
# Model of `BiermanKalmanFilter` with arrays in memory

As `Model/Memory.lean`, for `pykalman/sqrt/bierman.py`.  Line numbers refer to
`/repo/pykalman/sqrt/bierman.py`.  The arrays of objects that `_filter` fills hold references to
`UDU_decomposition` objects; several entries may be the same object.  Neither these arrays nor the
objects are seen by a caller and nothing is assigned to the attributes of an object once it is made,
so that an object is here the pair of references to its two arrays, and an array of objects the list
of its entries.  `store` describes the element type of the matrix that `udu` is given, see
`uduInner`.
-/

open Matrix

namespace Verif

variable {n m : ℕ}

/-- A `UDU_decomposition` object, 45-50. -/
structure URef where
  U : ARef
  D : ARef

/-- The object as a value, at present. -/
def URef.value (n : ℕ) (h : Heap) (u : URef) : UDU n := ⟨u.U.mat n n h, u.D.vec n h⟩

/-- The object of two new arrays with these entries. -/
def newUdu (v : UDU n) : HM URef := do
  let U ← newArray (ndOfMat v.U)
  let D ← newArray (ndOfVec v.D)
  pure ⟨U, D⟩

/-- `udu`, 57-90.  `np.triu` copies the argument, so that the assignments to `M` do not reach it.
The argument has two axes; `uduArr` in `UpdateShape` is `udu` on an array with a leading axis. -/
noncomputable def memUdu (store : ℝ → ℝ) (n : ℕ) (X : ARef) : HM URef := do
  let r ← HM.see fun h => udu store (X.mat n n h)
  let v ← HM.lift r
  newUdu v

/-! ### Decorrelation -/

/-- Rows `f 0`, `f 1`, … -/
def ndRows (shape : List ℕ) (f : ℕ → NDArray) : NDArray :=
  ⟨shape, fun i => (f (i.headD 0)).data i.tail⟩

/-- `observation_covariance_inv.dot(X.T).T`, 148 and 151. -/
noncomputable def ndDecorrelated (inv : Mat m m) (X : ARef) (h : Heap) : NDArray :=
  if X.shape.length = 2 then ndRows X.shape fun t => ndOfVec (inv *ᵥ (X.row t).vec m h)
  else ⟨X.shape, (ndOfVec (inv *ᵥ X.vec m h)).data⟩

/-- A new masked array with the entries of `a`. -/
def newMaskedOf (a : MArray) : HM ARef := fun h =>
  (.ok ⟨h.next, a.shape, id⟩, ⟨h.next + 1, Function.update h.block h.next ⟨a.data, a.mask⟩⟩)

/-- The loop of `decorrelate_observations`, 140-143: `k` more iterations, from `t` on. -/
noncomputable def memDecorrelateLoop (n : ℕ) (inv : Mat m m) (C C2 : ARef) : ℕ → ℕ → HM Unit
  | _, 0 => pure ()
  | t, k + 1 => do
    let v ← HM.see fun h => inv * (C.row t).mat m n h
    let a ← newArray (ndOfMat v)
    setRow C2 t a
    memDecorrelateLoop n inv C C2 (t + 1) k

/-- Decorrelated `observation_matrices`, 136-145. -/
noncomputable def memDecorrelateMatrices (n : ℕ) (inv : Mat m m) (C : ARef) : HM ARef := do
  let copy ← HM.see fun h => C.nd h
  let C2 ← newArray copy
  if C.shape.length = 3 then
    memDecorrelateLoop n inv C C2 0 (C.shape.headD 0)
    pure C2
  else
    let v ← HM.see fun h => inv * C.mat m n h
    newArray (ndOfMat v)

/-- `decorrelate_observations`, 93-158: matrices, offsets, observations. -/
noncomputable def memDecorrelate (n m : ℕ) (C d R Z : ARef) : HM (ARef × ARef × ARef) := do
  let R2 ← memCholesky m R
  let inv ← HM.see fun h => pinv (R2.mat m m h)
  let C2 ← memDecorrelateMatrices n inv C
  let v ← HM.see fun h => ndDecorrelated inv d h
  let d2 ← newArray v
  let z ← HM.see fun h => (⟨Z.shape, (ndDecorrelated inv Z h).data, (Z.ma h).mask⟩ : MArray)
  let Z2 ← newMaskedOf z
  pure (C2, d2, Z2)

/-! ### The filter -/

/-- `_filter_predict`, 161-213.  With a three-dimensional `transition_covariance`, `udu` is given a
three-dimensional array, modelled as `ValueError`, see `bierStep`. -/
noncomputable def memBierPredict (n : ℕ) (A Q b mean : ARef) (cov : URef) : HM (ARef × URef) := do
  let v ← HM.see fun h => (A.mat n n h *ᵥ mean.vec n h + b.vec n h,
    if Q.shape.length = 2 then
      udu id (A.mat n n h * (cov.value n h).reconstruct * (A.mat n n h)ᵀ + Q.mat n n h)
    else .error .valueError)
  let mean' ← newArray (ndOfVec v.1)
  let u ← HM.lift v.2
  let cov' ← newUdu u
  pure (mean', cov')

/-- The loop of `_filter_correct`, 322-339, over the components left.  `_filter_correct_single`,
216-266, makes new arrays. -/
noncomputable def memBierCorrectLoop (n m : ℕ) (C d o : ARef) :
    List (Fin m) → ARef × URef → HM (ARef × URef)
  | [], s => pure s
  | i :: l, s => do
    let v ← HM.see fun h => bierCorrectOne (C.mat m n h) 1 (d.vec m h) (o.obs m h).val
      (s.1.vec n h, s.2.value n h) i
    let mean ← newArray (ndOfVec v.1)
    let cov ← newUdu v.2
    memBierCorrectLoop n m C d o l (mean, cov)

/-- `_filter_correct`, 269-347.  For a masked observation the array and the object of the prediction
themselves are returned. -/
noncomputable def memBierCorrect (n m : ℕ) (C d mean : ARef) (cov : URef) (o : ARef) :
    HM (ARef × URef) := do
  let missing ← HM.see fun h => decide (o.obs m h).missing
  if ¬ missing then memBierCorrectLoop n m C d o (List.finRange m) (mean, cov)
  else pure (mean, cov)

/-- First half of the body of the loop of `_filter`, 431-443: the predicted object.  `prev` is
`filtered_state_covariances[t - 1]`. -/
noncomputable def memBierPred (n : ℕ) (p : PRefs) (S : URef) (predMeans filtMeans : ARef) (t : ℕ) :
    Option URef → HM URef
  | none => do
    setRow predMeans t p.mu0
    pure S
  | some prev => do
    let A ← HM.lift (p.A.lastDims (t - 1) 2)
    let b ← HM.lift (p.b.lastDims (t - 1) 1)
    let r ← memBierPredict n A p.Q b (filtMeans.row (t - 1)) prev
    setRow predMeans t r.1
    pure r.2

/-- Second half of the body of the loop of `_filter`, 445-454: the filtered object. -/
noncomputable def memBierCorr (n m : ℕ) (C d Z predMeans filtMeans : ARef) (t : ℕ) (pred : URef) :
    HM URef := do
  let C ← HM.lift (C.lastDims t 2)
  let d ← HM.lift (d.lastDims t 1)
  let r ← memBierCorrect n m C d (predMeans.row t) pred (Z.row t)
  setRow filtMeans t r.1
  pure r.2

/-- The loop of `_filter`, 430-454: `k` more iterations, from time `t` on. -/
noncomputable def memBierLoop (n m : ℕ) (p : PRefs) (C d Z : ARef) (S : URef)
    (predMeans filtMeans : ARef) : ℕ → ℕ → Option URef → HM (List (URef × URef))
  | _, 0, _ => pure []
  | t, k + 1, prev => do
    let u ← memBierPred n p S predMeans filtMeans t prev
    let w ← memBierCorr n m C d Z predMeans filtMeans t u
    let rest ← memBierLoop n m p C d Z S predMeans filtMeans (t + 1) k (some w)
    pure ((u, w) :: rest)

/-- What `_filter` returns, 456-461: the arrays of means, and the entries of the two arrays of
objects. -/
structure BRefs where
  predMeans : ARef
  filtMeans : ARef
  covs : List (URef × URef)

/-- `_filter`, 350-461. -/
noncomputable def memBierFilter (store : ℝ → ℝ) (p : PRefs) (Z : ARef) : HM BRefs := do
  let T := Z.shape.headD 0
  let n := p.mu0.shape.headD 0
  let m := Z.shape.getD 1 0
  let predMeans ← newZeros [T, n]
  let filtMeans ← newZeros [T, n]
  let S ← memUdu store n p.S0
  let r ← memDecorrelate n m p.C p.d p.R Z
  let covs ← memBierLoop n m p r.1 r.2.1 r.2.2 S predMeans filtMeans 0 T none
  pure ⟨predMeans, filtMeans, covs⟩

/-- The loop of `_reconstruct_covariances`, 39-40. -/
noncomputable def memBierReconstructLoop (n : ℕ) (result : ARef) : ℕ → List URef → HM Unit
  | _, [] => pure ()
  | t, u :: l => do
    let v ← HM.see fun h => (u.value n h).reconstruct
    let a ← newArray (ndOfMat v)
    setRow result t a
    memBierReconstructLoop n result (t + 1) l

/-- `_reconstruct_covariances`, 30-42: `covariances[0]` raises `IndexError` when there is none. -/
noncomputable def memBierReconstruct : List URef → HM ARef
  | [] => HM.lift (.error .indexError)
  | u :: l => do
    let T := (u :: l).length
    let n := u.U.shape.headD 0
    let result ← newZeros [T, n, n]
    memBierReconstructLoop n result 0 (u :: l)
    pure result

/-- The arrays as `_smooth` and `_loglikelihoods` take them; these do not read the gains, in whose
place stands an array of the size zero. -/
def BRefs.filled (c : BRefs) (predCovs filtCovs none : ARef) : FRefs :=
  ⟨c.predMeans, predCovs, none, c.filtMeans, filtCovs⟩

/-! ### The methods -/

/-- `BiermanKalmanFilter.filter`, 514-571. -/
noncomputable def KFRef.bierFilter (store : ℝ → ℝ) (k : KFRef) (X : ARef) : HM (ARef × ARef) := do
  let Z := X.parse
  let p ← memInitialize k
  let c ← memBierFilter store p Z
  let covs ← memBierReconstruct (c.covs.map Prod.snd)
  pure (c.filtMeans, covs)

/-- `BiermanKalmanFilter.smooth`, 710-779. -/
noncomputable def KFRef.bierSmooth (store : ℝ → ℝ) (k : KFRef) (X : ARef) : HM (ARef × ARef) := do
  let Z := X.parse
  let p ← memInitialize k
  let c ← memBierFilter store p Z
  let predCovs ← memBierReconstruct (c.covs.map Prod.fst)
  let filtCovs ← memBierReconstruct (c.covs.map Prod.snd)
  let none ← newZeros []
  let s ← memSmooth p.A (c.filled predCovs filtCovs none)
  pure (s.means, s.covs)

/-- `BiermanKalmanFilter.loglikelihood`, 910-968. -/
noncomputable def KFRef.bierLoglikelihood (store : ℝ → ℝ) (k : KFRef) (X : ARef) : HM ℝ := do
  let Z := X.parse
  let p ← memInitialize k
  let c ← memBierFilter store p Z
  let predCovs ← memBierReconstruct (c.covs.map Prod.fst)
  let none ← newZeros []
  let none' ← newZeros []
  let ll ← memLoglik p (c.filled predCovs none' none) Z
  HM.see fun h => ((List.range (Z.shape.headD 0)).map fun t => (ll.nd h).data [t]).sum

/-- `BiermanKalmanFilter.filter_update`, 573-708. -/
noncomputable def KFRef.bierFilterUpdate (store : ℝ → ℝ) (k : KFRef) (mean cov : ARef)
    (observation : Option ARef) (a : UpdateRefs) : HM (ARef × ARef) := do
  let p ← memInitialize k
  let b ← HM.lift (argOrDefaultRef a.b p.b 1)
  let d ← HM.lift (argOrDefaultRef a.d p.d 1)
  let A ← HM.lift (argOrDefaultRef a.A p.A 2)
  let C ← HM.lift (argOrDefaultRef a.C p.C 2)
  let Q ← HM.lift (argOrDefaultRef a.Q p.Q 2)
  let R ← HM.lift (argOrDefaultRef a.R p.R 2)
  let o ← match observation with
    | none => newMasked (R.shape.headD 0)
    | some o => pure o
  let S ← memUdu store k.nDimState cov
  let r ← memDecorrelate k.nDimState k.nDimObs C d R o
  let pred ← memBierPredict k.nDimState A Q b mean S
  let c ← memBierCorrect k.nDimState k.nDimObs r.1 r.2.1 pred.1 pred.2 r.2.2
  let covs ← memBierReconstruct [c.2]
  pure (c.1, covs)

/-- The iterations of `BiermanKalmanFilter.em`, 846-907. -/
noncomputable def memBierEmLoop (n m : ℕ) (sel : EmVar → Bool) (given : PRefs) (Z : ARef) :
    (ℝ → ℝ) → ℕ → PRefs → HM PRefs
  | _, 0, p => pure p
  | store, k + 1, p => do
    let c ← memBierFilter store p Z
    let filtCovs ← memBierReconstruct (c.covs.map Prod.snd)
    let predCovs ← memBierReconstruct (c.covs.map Prod.fst)
    let none ← newZeros []
    let s ← memSmooth p.A (c.filled predCovs filtCovs none)
    let pairs ← memPair s
    let p' ← memEmStep n m sel given p Z s pairs
    memBierEmLoop n m sel given Z (if sel .initialStateCovariance then id else store) k p'

/-- `BiermanKalmanFilter.em`, 781-908: the object afterwards, if there is no exception. -/
noncomputable def KFRef.bierEm (store : ℝ → ℝ) (k : KFRef) (X : ARef) (nIter : ℕ)
    (arg : Option EmNames) : HM KFRef := do
  let Z := X.parse
  let p ← memInitialize k
  let sel ← HM.lift (emSelection (arg.orElse fun _ => k.emVars))
  let p' ← memBierEmLoop k.nDimState k.nDimObs sel p Z store nIter p
  pure { k with A := some p'.A, C := some p'.C, Q := some p'.Q, R := some p'.R, b := some p'.b,
                d := some p'.d, mu0 := some p'.mu0, S0 := some p'.S0 }

end Verif
