import Verif.Model.Memory
import Verif.Model.Cholesky

/-!
# Model of `CholeskyKalmanFilter` with arrays in memory

As `Model/Memory.lean`, for `pykalman/sqrt/cholesky.py`: which calls make new arrays, which write
into arrays and which return arrays that were there before.  Line numbers refer to
`/repo/pykalman/sqrt/cholesky.py`.  Arrays that a function allocates, that nothing else refers to and
that are gone when it returns (`T`, `R`, `M`, `S`, `N` and so on) are left out, as there.
-/

open Matrix

namespace Verif

variable {n m : ℕ}

/-- `linalg.cholesky(X, lower=True)`, called at 257-259 and 508-512: a new array (`overwrite_a` is
not given).  `ValueError` for a three-dimensional parameter, see `cholParam`. -/
noncomputable def memCholesky (k : ℕ) (X : ARef) : HM ARef := do
  let r ← HM.see fun h =>
    if X.shape.length = 2 then cholesky (X.mat k k h) else .error .valueError
  let L ← HM.lift r
  newArray (ndOfMat L)

/-- `_filter_predict`, 44-107. -/
noncomputable def memCholPredict (qr : QR) (n : ℕ) (A Q2 b mean cov2 : ARef) : HM (ARef × ARef) := do
  let v ← HM.see fun h => cholPredict qr (A.mat n n h) (Q2.mat n n h) (b.vec n h) (mean.vec n h)
    (cov2.mat n n h)
  let mean' ← newArray (ndOfVec v.1)
  let cov' ← newArray (ndOfMat v.2)
  pure (mean', cov')

/-- `_filter_correct`, 110-192.  For a masked observation the arrays of the prediction themselves are
returned. -/
noncomputable def memCholCorrect (qr : QR) (n m : ℕ) (C R2 d mean cov2 o : ARef) :
    HM (ARef × ARef) := do
  let missing ← HM.see fun h => decide (o.obs m h).missing
  if ¬ missing then
    let v ← HM.see fun h => cholCorrect qr (C.mat m n h) (R2.mat m m h) (d.vec m h) (mean.vec n h)
      (cov2.mat n n h) (o.obs m h)
    let mean' ← newArray (ndOfVec v.1)
    let cov' ← newArray (ndOfMat v.2)
    pure (mean', cov')
  else pure (mean, cov2)

/-- The four arrays of `_filter`, 253-256. -/
structure CRefs where
  predMeans : ARef
  predCov2s : ARef
  filtMeans : ARef
  filtCov2s : ARef

/-- First half of the body of the loop of `_filter`, 262-275. -/
noncomputable def memCholPred (qr : QR) (n : ℕ) (p : PRefs) (Q2 S2 : ARef) (c : CRefs) (t : ℕ) :
    HM Unit := do
  if t = 0 then
    setRow c.predMeans t p.mu0
    setRow c.predCov2s t S2
  else
    let A ← HM.lift (p.A.lastDims (t - 1) 2)
    let b ← HM.lift (p.b.lastDims (t - 1) 1)
    let r ← memCholPredict qr n A Q2 b (c.filtMeans.row (t - 1)) (c.filtCov2s.row (t - 1))
    setRow c.predMeans t r.1
    setRow c.predCov2s t r.2

/-- Second half of the body of the loop of `_filter`, 277-286. -/
noncomputable def memCholCorr (qr : QR) (n m : ℕ) (p : PRefs) (R2 : ARef) (c : CRefs) (Z : ARef)
    (t : ℕ) : HM Unit := do
  let C ← HM.lift (p.C.lastDims t 2)
  let d ← HM.lift (p.d.lastDims t 1)
  let r ← memCholCorrect qr n m C R2 d (c.predMeans.row t) (c.predCov2s.row t) (Z.row t)
  setRow c.filtMeans t r.1
  setRow c.filtCov2s t r.2

/-- The loop of `_filter`, 261-286: `k` more iterations, from time `t` on. -/
noncomputable def memCholLoop (qr : QR) (n m : ℕ) (p : PRefs) (Q2 R2 S2 : ARef) (c : CRefs)
    (Z : ARef) : ℕ → ℕ → HM Unit
  | _, 0 => pure ()
  | t, k + 1 => do
    memCholPred qr n p Q2 S2 c t
    memCholCorr qr n m p R2 c Z t
    memCholLoop qr n m p Q2 R2 S2 c Z (t + 1) k

/-- `_filter`, 195-298. -/
noncomputable def memCholFilter (qr : QR) (p : PRefs) (Z : ARef) : HM CRefs := do
  let T := Z.shape.headD 0
  let n := p.mu0.shape.headD 0
  let m := Z.shape.getD 1 0
  let predMeans ← newZeros [T, n]
  let predCov2s ← newZeros [T, n, n]
  let filtMeans ← newZeros [T, n]
  let filtCov2s ← newZeros [T, n, n]
  let Q2 ← memCholesky n p.Q
  let R2 ← memCholesky m p.R
  let S2 ← memCholesky n p.S0
  let c : CRefs := ⟨predMeans, predCov2s, filtMeans, filtCov2s⟩
  memCholLoop qr n m p Q2 R2 S2 c Z 0 T
  pure c

/-- The loop of `_reconstruct_covariances`, 37-39: `k` more iterations, from `t` on. -/
def memReconstructLoop (n : ℕ) (cov2s covs : ARef) : ℕ → ℕ → HM Unit
  | _, 0 => pure ()
  | t, k + 1 => do
    let v ← HM.see fun h => reconstruct ((cov2s.row t).mat n n h)
    let a ← newArray (ndOfMat v)
    setRow covs t a
    memReconstructLoop n cov2s covs (t + 1) k

/-- `covariance2s[np.newaxis, :, :]`, a view, 32. -/
def ARef.newAxis (r : ARef) : ARef := ⟨r.addr, 1 :: r.shape, fun i => r.ix (i.drop 1)⟩

/-- `_reconstruct_covariances`, 29-41. -/
def memReconstruct (cov2s : ARef) : HM ARef := do
  let c := if cov2s.shape.length = 2 then cov2s.newAxis else cov2s
  let T := c.shape.headD 0
  let n := c.shape.getD 1 0
  let covs ← newZeros c.shape
  memReconstructLoop n c covs 0 T
  pure covs

/-- The arrays as `_smooth` and `_loglikelihoods` take them; these do not read the gains. -/
def CRefs.filled (c : CRefs) (predCovs filtCovs : ARef) : FRefs :=
  ⟨c.predMeans, predCovs, c.predCov2s, c.filtMeans, filtCovs⟩

/-- `CholeskyKalmanFilter.filter`, 351-408. -/
noncomputable def KFRef.cholFilter (qr : QR) (k : KFRef) (X : ARef) : HM (ARef × ARef) := do
  let Z := X.parse
  let p ← memInitialize k
  let c ← memCholFilter qr p Z
  let covs ← memReconstruct c.filtCov2s
  pure (c.filtMeans, covs)

/-- `CholeskyKalmanFilter.smooth`, 541-610. -/
noncomputable def KFRef.cholSmooth (qr : QR) (k : KFRef) (X : ARef) : HM (ARef × ARef) := do
  let Z := X.parse
  let p ← memInitialize k
  let c ← memCholFilter qr p Z
  let predCovs ← memReconstruct c.predCov2s
  let filtCovs ← memReconstruct c.filtCov2s
  let s ← memSmooth p.A (c.filled predCovs filtCovs)
  pure (s.means, s.covs)

/-- `CholeskyKalmanFilter.loglikelihood`, 741-799. -/
noncomputable def KFRef.cholLoglikelihood (qr : QR) (k : KFRef) (X : ARef) : HM ℝ := do
  let Z := X.parse
  let p ← memInitialize k
  let c ← memCholFilter qr p Z
  let predCovs ← memReconstruct c.predCov2s
  let ll ← memLoglik p (c.filled predCovs c.filtCov2s) Z
  HM.see fun h => ((List.range (Z.shape.headD 0)).map fun t => (ll.nd h).data [t]).sum

/-- `CholeskyKalmanFilter.filter_update`, 410-539. -/
noncomputable def KFRef.cholFilterUpdate (qr : QR) (k : KFRef) (mean cov : ARef)
    (observation : Option ARef) (a : UpdateRefs) : HM (ARef × ARef) := do
  let p ← memInitialize k
  let b ← HM.lift (argOrDefaultRef a.b p.b 1)
  let d ← HM.lift (argOrDefaultRef a.d p.d 1)
  let A ← HM.lift (argOrDefaultRef a.A p.A 2)
  let C ← HM.lift (argOrDefaultRef a.C p.C 2)
  let Q ← HM.lift (argOrDefaultRef a.Q p.Q 2)
  let R ← HM.lift (argOrDefaultRef a.R p.R 2)
  let o ← match observation with
    | none => newMasked (R.shape.headD 0)
    | some o => pure o
  let Q2 ← memCholesky k.nDimState Q
  let R2 ← memCholesky k.nDimObs R
  let S2 ← memCholesky k.nDimState cov
  let pred ← memCholPredict qr k.nDimState A Q2 b mean S2
  let c ← memCholCorrect qr k.nDimState k.nDimObs C R2 d pred.1 pred.2 o
  let covs ← memReconstruct c.2
  pure (c.1, covs)

/-- The iterations of `CholeskyKalmanFilter.em`, 673-738. -/
noncomputable def memCholEmLoop (qr : QR) (n m : ℕ) (sel : EmVar → Bool) (given : PRefs) (Z : ARef) :
    ℕ → PRefs → HM PRefs
  | 0, p => pure p
  | k + 1, p => do
    let c ← memCholFilter qr p Z
    let filtCovs ← memReconstruct c.filtCov2s
    let predCovs ← memReconstruct c.predCov2s
    let s ← memSmooth p.A (c.filled predCovs filtCovs)
    let pairs ← memPair s
    let p' ← memEmStep n m sel given p Z s pairs
    memCholEmLoop qr n m sel given Z k p'

/-- `CholeskyKalmanFilter.em`, 612-739: the object afterwards, if there is no exception. -/
noncomputable def KFRef.cholEm (qr : QR) (k : KFRef) (X : ARef) (nIter : ℕ)
    (arg : Option EmNames) : HM KFRef := do
  let Z := X.parse
  let p ← memInitialize k
  let sel ← HM.lift (emSelection (arg.orElse fun _ => k.emVars))
  let p' ← memCholEmLoop qr k.nDimState k.nDimObs sel p Z nIter p
  pure { k with A := some p'.A, C := some p'.C, Q := some p'.Q, R := some p'.R, b := some p'.b,
                d := some p'.d, mu0 := some p'.mu0, S0 := some p'.S0 }

end Verif
