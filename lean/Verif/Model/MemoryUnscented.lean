import Verif.Model.Memory
import Verif.Model.Unscented

/-!
# Model of `unscented.py` with arrays in memory

As `Model/Memory.lean`, for `AdditiveUnscentedKalmanFilter` and `UnscentedKalmanFilter`.  Line numbers
refer to `/repo/pykalman/unscented.py`.  The functions of the user are programs that get references to
rows of the arrays of sigma points; they may read and change any array, make arrays, raise, and return
any array.  The methods start from the parameters that `_initialize_parameters` returns.  The arrays
of weights are left out: they depend on the dimensions only, the functions are not given them, and
nothing is assigned to them once they are made.
-/

open Matrix

namespace Verif

variable {n m k l N : ℕ}

/-- A function of one array. -/
abbrev MFun₁ := ARef → HM ARef

/-- A function of two arrays. -/
abbrev MFun₂ := ARef → ARef → HM ARef

/-- `SigmaPoints`, 29-31, with the array of the points. -/
structure PtsRef (N : ℕ) where
  points : ARef
  wm : Fin N → ℝ
  wc : Fin N → ℝ

/-- The points as values, at present. -/
def PtsRef.value (k : ℕ) (h : Heap) (s : PtsRef N) : SigmaPoints N k :=
  ⟨fun i => (s.points.row i).vec k h, s.wm, s.wc⟩

/-- `Moments`, 35, with the two arrays. -/
structure MRef where
  mean : ARef
  cov : ARef

/-- The moments as values, at present. -/
def MRef.value (k : ℕ) (h : Heap) (M : MRef) : Moments k := ⟨M.mean.vec k h, M.cov.mat k k h⟩

/-- A new array of points. -/
def newPoints (s : SigmaPoints N k) : HM (PtsRef N) := do
  let a ← newArray (ndOfMat (Matrix.of s.points))
  pure ⟨a, s.wm, s.wc⟩

/-- Two new arrays. -/
def newMoments (M : Moments k) : HM MRef := do
  let mean ← newArray (ndOfVec M.mean)
  let cov ← newArray (ndOfMat M.cov)
  pure ⟨mean, cov⟩

/-- `moments2points`, 62-116: `np.tile` makes a new array, of which `points.T` is a view. -/
noncomputable def memMoments2points (k : ℕ) (M : MRef) : HM (PtsRef (k + k + 1)) := do
  let r ← HM.see fun h => moments2points (M.value k h)
  let s ← HM.lift r
  newPoints s

/-- `points2moments`, 38-59: new arrays. -/
def memPoints2moments (k : ℕ) (s : PtsRef N) (noise : Option ARef) : HM MRef := do
  let M ← HM.see fun h => points2moments (s.value k h) (noise.map (ARef.mat k k h))
  newMoments M

/-- `[f(points[i]) for i in range(n_points)]`, 152 and 155, from `i` on, `j` more calls: the arrays
returned. -/
def memCalls (call : ℕ → HM ARef) : ℕ → ℕ → HM (List ARef)
  | _, 0 => pure []
  | i, j + 1 => do
    let y ← call i
    let ys ← memCalls call (i + 1) j
    pure (y :: ys)

/-- The rows that `np.vstack` copies, 160, after all calls. -/
def memStackRows (N l : ℕ) (ys : List ARef) (h : Heap) : Mat N l :=
  Matrix.of fun i => ((ys[(i : ℕ)]?).map (ARef.vec l h)).getD 0

/-- `unscented_transform`, 119-166; `call i` is the call of the function for point `i`. -/
def memTransform (l : ℕ) (s : PtsRef N) (call : ℕ → HM ARef) (noise : Option ARef) :
    HM (PtsRef N × MRef) := do
  let ys ← memCalls call 0 N
  let rows ← HM.see (memStackRows N l ys)
  let a ← newArray (ndOfMat rows)
  let M ← memPoints2moments l (⟨a, s.wm, s.wc⟩ : PtsRef N) noise
  pure (⟨a, s.wm, s.wc⟩, M)

/-- The end of `unscented_filter_correct`, 382-393, with `unscented_correct`, 169-206.  For a masked
observation the arrays of the prediction themselves are returned. -/
noncomputable def memUfCorrected (n m : ℕ) (pred : MRef) (pts : PtsRef N) (q : PtsRef N) (obs : MRef)
    (o : ARef) : HM MRef := do
  let missing ← HM.see fun h => decide (o.obs m h).missing
  if ¬ missing then
    let M ← HM.see fun h => unscentedCorrect
      (crossCov (pts.value n h) (pred.mean.vec n h) (q.value m h) (obs.mean.vec m h))
      (pred.value n h) (obs.value m h) (o.obs m h)
    newMoments M
  else pure pred

/-- `unscented_filter_correct`, 339-393. -/
noncomputable def memUfCorrect (n m : ℕ) (pred : MRef) (pts : PtsRef N) (call : ℕ → HM ARef)
    (noise : Option ARef) (o : ARef) : HM MRef := do
  let r ← memTransform m pts call noise
  memUfCorrected n m pred pts r.1 r.2 o

/-- The loops of the filters, 434-468 and 581-605, and `sqrt/unscented.py:444-470`: `k` more iterations, from time `t` on. -/
noncomputable def memUkfLoop (step : ℕ → MRef → ARef → HM MRef) (M₀ F : MRef) (Z : ARef) :
    ℕ → ℕ → HM Unit
  | _, 0 => pure ()
  | t, k + 1 => do
    let r ← step t (if t = 0 then M₀ else ⟨F.mean.row (t - 1), F.cov.row (t - 1)⟩) (Z.row t)
    setRow F.mean t r.mean
    setRow F.cov t r.cov
    memUkfLoop step M₀ F Z (t + 1) k

/-- The filters, 396-470 and 544-607, and `sqrt/unscented.py:407-472`; `init` is what is done between
`np.zeros` and the loop, and gives the body of the loop. -/
noncomputable def memUkf (n : ℕ) (init : HM (ℕ → MRef → ARef → HM MRef)) (M₀ : MRef) (Z : ARef) :
    HM MRef := do
  let mean ← newZeros [Z.shape.headD 0, n]
  let cov ← newZeros [Z.shape.headD 0, n, n]
  let step ← init
  memUkfLoop step M₀ ⟨mean, cov⟩ Z 0 (Z.shape.headD 0)
  pure ⟨mean, cov⟩

/-- The last lines of the loops of the two smoothers, 524-539 and 658-673. -/
noncomputable def memUfSmooth (n : ℕ) (filt : MRef) (pts ptsPred : PtsRef N) (pred next : MRef) :
    HM MRef := do
  let M ← HM.see fun h => ufSmooth (filt.value n h) (pts.value n h) (ptsPred.value n h)
    (pred.value n h) (next.value n h)
  newMoments M

/-- The loops of the smoothers, 507-539 and 644-673, and `sqrt/unscented.py:510-549`: the times `t - 1, …, 0`. -/
noncomputable def memUksLoop (step : ℕ → MRef → MRef → HM MRef) (F S : MRef) : ℕ → HM Unit
  | 0 => pure ()
  | t + 1 => do
    let r ← step t ⟨F.mean.row t, F.cov.row t⟩ ⟨S.mean.row (t + 1), S.cov.row (t + 1)⟩
    setRow S.mean t r.mean
    setRow S.cov t r.cov
    memUksLoop step F S t

/-- `X[-1]` of an array with no rows. -/
def memLastRow (F : MRef) : HM Unit :=
  if F.mean.shape.headD 0 = 0 then HM.lift (.error .indexError) else pure ()

/-- The smoothers, 473-541 and 610-675, and `sqrt/unscented.py:475-551`; `init` is what is done between
the assignments to the last rows and the loop, and gives the body of the loop. -/
noncomputable def memUks (n : ℕ) (init : HM (ℕ → MRef → MRef → HM MRef)) (F : MRef) : HM MRef := do
  let mean ← newZeros [F.mean.shape.headD 0, n]
  let cov ← newZeros [F.mean.shape.headD 0, n, n]
  memLastRow F
  setRow mean (F.mean.shape.headD 0 - 1) (F.mean.row (F.mean.shape.headD 0 - 1))
  setRow cov (F.mean.shape.headD 0 - 1) (F.cov.row (F.mean.shape.headD 0 - 1))
  let step ← init
  memUksLoop step F ⟨mean, cov⟩ (F.mean.shape.headD 0 - 1)
  pure ⟨mean, cov⟩

/-- The parameters that `_initialize_parameters` returns, 717-731. -/
structure UPRef (φ : Type) where
  f : Fns φ
  g : Fns φ
  Q : ARef
  R : ARef
  mu0 : ARef
  S0 : ARef

/-- Optional arguments of the two methods `filter_update`, 904-913 and 1220-1229. -/
structure UUpdateRefs (φ : Type) where
  f : Option φ := none
  Q : Option ARef := none
  g : Option φ := none
  R : Option ARef := none

/-- The observation in `filter_update`, 985-991 and 1301-1307. -/
def memObserved (R : ARef) : Option ARef → HM ARef
  | none => newMasked (R.shape.headD 0)
  | some o => pure o

/-! ### Additive noise -/

/-- First half of the body of the loop of `additive_unscented_filter`, 582-599. -/
noncomputable def memAukfPred (n : ℕ) (p : UPRef MFun₁) (t : ℕ) (M : MRef) :
    HM (MRef × PtsRef (n + n + 1)) := do
  let pts ← memMoments2points n M
  if t = 0 then
    let pred ← memPoints2moments n pts none
    pure (pred, pts)
  else
    let f ← HM.lift (p.f.at (t - 1))
    let r ← memTransform n pts (fun i => f (pts.points.row i)) (some p.Q)
    let pts' ← memMoments2points n r.2
    pure (r.2, pts')

/-- Body of the loop of `additive_unscented_filter`, 581-605. -/
noncomputable def memAukfStep (n m : ℕ) (p : UPRef MFun₁) (t : ℕ) (M : MRef) (o : ARef) : HM MRef := do
  let r ← memAukfPred n p t M
  let g ← HM.lift (p.g.at t)
  memUfCorrect n m r.1 r.2 (fun i => g (r.2.points.row i)) (some p.R) o

/-- `AdditiveUnscentedKalmanFilter.filter`, 1178-1218. -/
noncomputable def memAukfFilter (n m : ℕ) (p : UPRef MFun₁) (X : ARef) : HM MRef :=
  memUkf n (pure (memAukfStep n m p)) ⟨p.mu0, p.S0⟩ X.parse

/-- Body of the loop of `additive_unscented_smoother`, 644-673. -/
noncomputable def memAukfSmoothStep (n : ℕ) (p : UPRef MFun₁) (t : ℕ) (filt next : MRef) : HM MRef := do
  let pts ← memMoments2points n filt
  let f ← HM.lift (p.f.at t)
  let r ← memTransform n pts (fun i => f (pts.points.row i)) (some p.Q)
  memUfSmooth n filt pts r.1 r.2 next

/-- `AdditiveUnscentedKalmanFilter.smooth`, 1333-1374. -/
noncomputable def memAukfSmooth (n m : ℕ) (p : UPRef MFun₁) (X : ARef) : HM MRef := do
  let F ← memAukfFilter n m p X
  memUks n (pure (memAukfSmoothStep n p)) F

/-- `AdditiveUnscentedKalmanFilter.filter_update`, 1220-1331. -/
noncomputable def memAukfUpdate (n m : ℕ) (p : UPRef MFun₁) (M : MRef) (observation : Option ARef)
    (a : UUpdateRefs MFun₁) : HM MRef := do
  let f ← HM.lift (defaultFunction a.f p.f)
  let g ← HM.lift (defaultFunction a.g p.g)
  let o ← memObserved (a.R.getD p.R) observation
  let pts ← memMoments2points n M
  let r ← memTransform n pts (fun i => f (pts.points.row i)) (some (a.Q.getD p.Q))
  let pts' ← memMoments2points n r.2
  memUfCorrect n m r.2 pts' (fun i => g (pts'.points.row i)) (some (a.R.getD p.R)) o

/-! ### General noise -/

/-- `points[:, start:]`, a view, of which the first columns are used. -/
def ARef.colsFrom (r : ARef) (start : ℕ) : ARef :=
  ⟨r.addr, r.shape, fun i => r.ix (i.headD 0 :: (start + i.getD 1 0) :: i.drop 2)⟩

/-- `augmented_unscented_filter_points`, 249-291, with `augmented_points`, 209-246: the parts are views
of one new array, for state, transition noise and
observation noise. -/
noncomputable def memAugFilterPoints (n m : ℕ) (M : MRef) (Q R : ARef) :
    HM (PtsRef ((n + n + m) + (n + n + m) + 1) × PtsRef ((n + n + m) + (n + n + m) + 1) ×
      PtsRef ((n + n + m) + (n + n + m) + 1)) := do
  let r ← HM.see fun h => moments2points
    ⟨concat (concat (M.mean.vec n h) (0 : Vec n)) (0 : Vec m),
      blockDiag (blockDiag (M.cov.mat n n h) (Q.mat n n h)) (R.mat m m h)⟩
  let s ← HM.lift r
  let a ← newPoints s
  pure (⟨a.points.colsFrom 0, a.wm, a.wc⟩, ⟨a.points.colsFrom n, a.wm, a.wc⟩,
    ⟨a.points.colsFrom (n + n), a.wm, a.wc⟩)

/-- `augmented_points`, 209-246, for the smoother, 512-516: state, transition noise. -/
noncomputable def memAugPoints (n : ℕ) (M : MRef) (Q : ARef) :
    HM (PtsRef ((n + n) + (n + n) + 1) × PtsRef ((n + n) + (n + n) + 1)) := do
  let r ← HM.see fun h => moments2points
    ⟨concat (M.mean.vec n h) (0 : Vec n), blockDiag (M.cov.mat n n h) (Q.mat n n h)⟩
  let s ← HM.lift r
  let a ← newPoints s
  pure (⟨a.points.colsFrom 0, a.wm, a.wc⟩, ⟨a.points.colsFrom n, a.wm, a.wc⟩)

/-- First half of the body of the loop of `augmented_unscented_filter`, 449-458. -/
noncomputable def memUkfPred (n : ℕ) (p : UPRef MFun₂) (t : ℕ) (pts w : PtsRef N) :
    HM (PtsRef N × MRef) := do
  if t = 0 then
    let pred ← memPoints2moments n pts none
    pure (pts, pred)
  else
    let f ← HM.lift (p.f.at (t - 1))
    memTransform n pts (fun i => f (pts.points.row i) (w.points.row i)) none

/-- Body of the loop of `augmented_unscented_filter`, 434-468. -/
noncomputable def memUkfStep (n m : ℕ) (p : UPRef MFun₂) (t : ℕ) (M : MRef) (o : ARef) : HM MRef := do
  let pts ← memAugFilterPoints n m M p.Q p.R
  let r ← memUkfPred n p t pts.1 pts.2.1
  let g ← HM.lift (p.g.at t)
  memUfCorrect n m r.2 r.1 (fun i => g (r.1.points.row i) (pts.2.2.points.row i)) none o

/-- `UnscentedKalmanFilter.filter`, 862-902. -/
noncomputable def memUkfFilter (n m : ℕ) (p : UPRef MFun₂) (X : ARef) : HM MRef :=
  memUkf n (pure (memUkfStep n m p)) ⟨p.mu0, p.S0⟩ X.parse

/-- Body of the loop of `augmented_unscented_smoother`, 507-539. -/
noncomputable def memUkfSmoothStep (n : ℕ) (p : UPRef MFun₂) (t : ℕ) (filt next : MRef) : HM MRef := do
  let pts ← memAugPoints n filt p.Q
  let f ← HM.lift (p.f.at t)
  let r ← memTransform n pts.1 (fun i => f (pts.1.points.row i) (pts.2.points.row i)) none
  memUfSmooth n filt pts.1 r.1 r.2 next

/-- `UnscentedKalmanFilter.smooth`, 1024-1065: the observations are parsed twice. -/
noncomputable def memUkfSmooth (n m : ℕ) (p : UPRef MFun₂) (X : ARef) : HM MRef := do
  let F ← memUkfFilter n m p X.parse
  memUks n (pure (memUkfSmoothStep n p)) F

/-- `UnscentedKalmanFilter.filter_update`, 904-1022. -/
noncomputable def memUkfUpdate (n m : ℕ) (p : UPRef MFun₂) (M : MRef) (observation : Option ARef)
    (a : UUpdateRefs MFun₂) : HM MRef := do
  let f ← HM.lift (defaultFunction a.f p.f)
  let g ← HM.lift (defaultFunction a.g p.g)
  let o ← memObserved (a.R.getD p.R) observation
  let pts ← memAugFilterPoints n m M (a.Q.getD p.Q) (a.R.getD p.R)
  let r ← memTransform n pts.1 (fun i => f (pts.1.points.row i) (pts.2.1.points.row i)) none
  memUfCorrect n m r.2 r.1 (fun i => g (r.1.points.row i) (pts.2.2.points.row i)) none o

end Verif
