import Verif.Model.MemoryUnscented
import Verif.Model.SqrtUnscented

/-!
# Model of `sqrt/unscented.py` with arrays in memory

As `Model/MemoryUnscented.lean`.  Line numbers refer to `/repo/pykalman/sqrt/unscented.py`.
`cholupdate`, 46-106, copies its arguments (84-85) and changes only the copies; it is taken to give a
new array.
-/

open Matrix

namespace Verif

variable {n m k l N : ℕ}

/-- `moments2points`, 149-203. -/
noncomputable def memSqMoments2points (k : ℕ) (M : MRef) : HM (PtsRef (k + k + 1)) := do
  let s ← HM.see fun h => sqMoments2points (M.value k h)
  newPoints s

/-- `points2moments`, 118-146. -/
noncomputable def memSqPoints2moments (qr : QR) (k : ℕ) (s : PtsRef N) (noise : Option ARef) :
    HM MRef := do
  let r ← HM.see fun h => sqPoints2moments qr (s.value k h) (noise.map (ARef.mat k k h))
  let M ← HM.lift r
  newMoments M

/-- `_unscented_transform`, 206-248; `call i` is the call of the function for point `i`. -/
noncomputable def memSqTransform (qr : QR) (l : ℕ) (s : PtsRef N) (call : ℕ → HM ARef)
    (noise : Option ARef) : HM (PtsRef N × MRef) := do
  let ys ← memCalls call 0 N
  let rows ← HM.see (memStackRows N l ys)
  let a ← newArray (ndOfMat rows)
  let M ← memSqPoints2moments qr l (⟨a, s.wm, s.wc⟩ : PtsRef N) noise
  pure (⟨a, s.wm, s.wc⟩, M)

/-- The end of `unscented_filter_correct`, 393-404, with `_unscented_correct`, 251-302.  For a masked
observation the arrays of the prediction themselves are returned. -/
noncomputable def memSqCorrected (n m : ℕ) (pred : MRef) (pts q : PtsRef N) (obs : MRef)
    (o : ARef) : HM MRef := do
  let missing ← HM.see fun h => decide (o.obs m h).missing
  if ¬ missing then
    let r ← HM.see fun h => sqUnscentedCorrect
      (crossCov (pts.value n h) (pred.mean.vec n h) (q.value m h) (obs.mean.vec m h))
      (pred.value n h) (obs.value m h) (o.obs m h)
    let M ← HM.lift r
    newMoments M
  else pure pred

/-- `unscented_filter_correct`, 350-404. -/
noncomputable def memSqCorrect (qr : QR) (n m : ℕ) (pred : MRef) (pts : PtsRef N) (call : ℕ → HM ARef)
    (R2 : ARef) (o : ARef) : HM MRef := do
  let r ← memSqTransform qr m pts call (some R2)
  memSqCorrected n m pred pts r.1 r.2 o

/-- `linalg.cholesky(A)`: a new array. -/
noncomputable def memCholUpper (k : ℕ) (A : ARef) : HM ARef := do
  let r ← HM.see fun h => cholUpper (A.mat k k h)
  let U ← HM.lift r
  newArray (ndOfMat U)

/-- First half of the body of the loop of `_additive_unscented_filter`, 445-463. -/
noncomputable def memSqPred (qr : QR) (n : ℕ) (p : UPRef MFun₁) (Q2 : ARef) (t : ℕ) (M : MRef) :
    HM (MRef × PtsRef (n + n + 1)) := do
  if t = 0 then
    let S2 ← memCholUpper n M.cov
    let pts ← memSqMoments2points n ⟨M.mean, S2⟩
    let pred ← memSqPoints2moments qr n pts none
    pure (pred, pts)
  else
    let pts ← memSqMoments2points n M
    let f ← HM.lift (p.f.at (t - 1))
    let r ← memSqTransform qr n pts (fun i => f (pts.points.row i)) (some Q2)
    let pts' ← memSqMoments2points n r.2
    pure (r.2, pts')

/-- Body of the loop of `_additive_unscented_filter`, 444-470. -/
noncomputable def memSqStep (qr : QR) (n m : ℕ) (p : UPRef MFun₁) (Q2 R2 : ARef) (t : ℕ) (M : MRef)
    (o : ARef) : HM MRef := do
  let r ← memSqPred qr n p Q2 t M
  let g ← HM.lift (p.g.at t)
  memSqCorrect qr n m r.1 r.2 (fun i => g (r.2.points.row i)) R2 o

/-- `Q2` and `R2`, 441-442, and the body of the loop. -/
noncomputable def memSqInit (qr : QR) (n m : ℕ) (p : UPRef MFun₁) :
    HM (ℕ → MRef → ARef → HM MRef) := do
  let Q2 ← memCholUpper n p.Q
  let R2 ← memCholUpper m p.R
  pure (memSqStep qr n m p Q2 R2)

/-- `_additive_unscented_filter`, 407-472. -/
noncomputable def memSqFull (qr : QR) (n m : ℕ) (p : UPRef MFun₁) (Z : ARef) : HM MRef :=
  memUkf n (memSqInit qr n m p) ⟨p.mu0, p.S0⟩ Z

/-- The loop 644-645, and that at 822-823. -/
def memUnrootLoop (n : ℕ) (roots covs : ARef) : ℕ → ℕ → HM Unit
  | _, 0 => pure ()
  | t, j + 1 => do
    let M ← HM.see fun h => reconstructU ((roots.row t).mat n n h)
    let v ← newArray (ndOfMat M)
    setRow covs t v
    memUnrootLoop n roots covs (t + 1) j

/-- Lines 643-647 and 821-825: the means are the array that the filter made. -/
def memUnroot (n : ℕ) (F : MRef) (T : ℕ) : HM MRef := do
  let covs ← newZeros [T, n, n]
  memUnrootLoop n F.cov covs 0 T
  pure ⟨F.mean, covs⟩

/-- `AdditiveUnscentedKalmanFilter.filter`, 599-647. -/
noncomputable def memSqFilter (qr : QR) (n m : ℕ) (p : UPRef MFun₁) (X : ARef) : HM MRef := do
  let F ← memSqFull qr n m p X.parse
  memUnroot n F (X.parse.shape.headD 0)

/-- The rows of `mu_smooth` and `sigma2_smooth` at `t`, 523-549. -/
noncomputable def sqSmoothRow (s : Moments n) (pts ptsPred : SigmaPoints N n) (pred next : Moments n) :
    Res (Moments n) := do
  let pair := pairCov ptsPred pts pred.mean s.mean
  let gain := (lstsq pred.cov (lstsq pred.covᵀ pairᵀ))ᵀ
  let U ← cholupdate pred.cov next.cov (-1.0)
  let sigma2 ← cholupdate s.cov (gain * Uᵀ)ᵀ (-1.0)
  pure ⟨s.mean + gain *ᵥ (next.mean - pred.mean), sigma2⟩

/-- The last lines of the loop of `_additive_unscented_smoother`, 523-549.  (Row `t` of the means is
assigned before the two calls of `cholupdate`; neither reads it.) -/
noncomputable def memSqSmooth (n : ℕ) (filt : MRef) (pts ptsPred : PtsRef N) (pred next : MRef) :
    HM MRef := do
  let r ← HM.see fun h => sqSmoothRow (filt.value n h) (pts.value n h) (ptsPred.value n h)
    (pred.value n h) (next.value n h)
  let M ← HM.lift r
  newMoments M

/-- Body of the loop of `_additive_unscented_smoother`, 510-549. -/
noncomputable def memSqSmoothStep (qr : QR) (n : ℕ) (p : UPRef MFun₁) (Q2 : ARef) (t : ℕ)
    (filt next : MRef) : HM MRef := do
  let pts ← memSqMoments2points n filt
  let f ← HM.lift (p.f.at t)
  let r ← memSqTransform qr n pts (fun i => f (pts.points.row i)) (some Q2)
  memSqSmooth n filt pts r.1 r.2 next

/-- `Q2`, 508, and the body of the loop. -/
noncomputable def memSqSmoothInit (qr : QR) (n : ℕ) (p : UPRef MFun₁) :
    HM (ℕ → MRef → MRef → HM MRef) := do
  let Q2 ← memCholUpper n p.Q
  pure (memSqSmoothStep qr n p Q2)

/-- `AdditiveUnscentedKalmanFilter.smooth`, 771-825. -/
noncomputable def memSqSmoother (qr : QR) (n m : ℕ) (p : UPRef MFun₁) (X : ARef) : HM MRef := do
  let F ← memSqFull qr n m p X.parse
  let S ← memUks n (memSqSmoothInit qr n p) F
  memUnroot n S (X.parse.shape.headD 0)

/-- `_reconstruct_covariances`, 31-43, of one matrix: a new array with three axes. -/
def memSqReconstruct (n : ℕ) (U : ARef) : HM ARef := do
  let M ← HM.see fun h => reconstructU (U.mat n n h)
  newArray ⟨[1, n, n], fun i => (ndOfMat M).data i.tail⟩

/-- `AdditiveUnscentedKalmanFilter.filter_update`, 649-769. -/
noncomputable def memSqUpdate (qr : QR) (n m : ℕ) (p : UPRef MFun₁) (M : MRef)
    (observation : Option ARef) (a : UUpdateRefs MFun₁) : HM MRef := do
  let f ← HM.lift (defaultFunction a.f p.f)
  let g ← HM.lift (defaultFunction a.g p.g)
  let o ← memObserved (a.R.getD p.R) observation
  let P2 ← memCholUpper n M.cov
  let Q2 ← memCholUpper n (a.Q.getD p.Q)
  let R2 ← memCholUpper m (a.R.getD p.R)
  let pts ← memSqMoments2points n ⟨M.mean, P2⟩
  let r ← memSqTransform qr n pts (fun i => f (pts.points.row i)) (some Q2)
  let pts' ← memSqMoments2points n r.2
  let q ← memSqCorrect qr n m r.2 pts' (fun i => g (pts'.points.row i)) R2 o
  let cov ← memSqReconstruct n q.cov
  pure ⟨q.mean, cov⟩

end Verif
