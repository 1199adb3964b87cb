import Verif.Model.SqrtUnscented
import Verif.Model.RoundedCholesky
import Verif.Model.RoundedUnscented

/-!
# Model of the square root unscented filter in arithmetic with rounding errors

The functions are those of `Model/SqrtUnscented` with every operation on numbers replaced by one with
an error, in the order of the code.  The signs that `np.sign` returns are exact.  Line numbers refer
to `/repo/pykalman/sqrt/unscented.py`.
-/

open Matrix

namespace Verif

variable {n m k l N : ℕ}

/-- What `scipy.linalg.lstsq(A, B)[0]` may return for a square matrix `A`: the pseudoinverse is that
of `IsRoundedPinv` (a matrix near `A`, small singular values dropped), and its product with `B` is
computed with errors. -/
def IsRoundedLstsq (c u : ℝ) (A : Mat k k) (B X : Mat k l) : Prop :=
  ∃ P : Mat k k, IsRoundedPinv c u A P ∧
    ∀ i j, |X i j - (P * B) i j| ≤ c * u * (sumAbs P * sumAbs B + 1)

/-- Arithmetic with errors, with the operations of `sqrt/unscented.py`. -/
structure ArithS (c : ℕ → ℝ) (u : ℝ) extends ArithC c u, ArithU c u where
  /-- First component of `scipy.linalg.lstsq` with a square matrix. -/
  lstsq : ∀ k l : ℕ, Mat k k → Mat k l → Mat k l
  lstsq_err : ∀ (k l : ℕ) (A : Mat k k) (B : Mat k l),
    IsRoundedLstsq (c k) u A B (lstsq k l A B)

variable {c : ℕ → ℝ} {u : ℝ}

/-- `r` in `cholupdate`, `sqrt/unscented.py:98-99`. -/
noncomputable def flCholupdateR (ar : ArithS c u) (sign a x : ℝ) : ℝ :=
  let r2 := ar.add (ar.sq a) (ar.mulr sign (ar.sq x))
  if r2 < 0 then 0.0 else ar.sqrt r2

/-- Body of the inner loop of `cholupdate`, `sqrt/unscented.py:98-104` (see `cholupdateStep`). -/
noncomputable def flCholupdateStep (ar : ArithS c u) (sign : ℝ) (st : Mat n n × Vec n) (k : Fin n) :
    Res (Mat n n × Vec n) :=
  let A := st.1
  let x := st.2
  let r := flCholupdateR ar sign (A k k) (x k)
  if (k : ℕ) + 1 < n ∧ (A k k = 0 ∨ r = 0) then .error .nonFinite
  else
    let c := ar.divr r (A k k)
    let s := ar.divr (x k) (A k k)
    let row : Vec n := fun j =>
      if j = k then r
      else if k < j then ar.divr (ar.add (A k j) (ar.mulr (ar.mulr sign s) (x j))) c
      else A k j
    .ok (A.updateRow k row,
      fun j => if k < j then ar.sub (ar.mulr c (x j)) (ar.mulr s (row j)) else x j)

/-- One pass of the outer loop of `cholupdate`, `sqrt/unscented.py:96-104`. -/
noncomputable def flCholupdateVec (ar : ArithS c u) (sign : ℝ) (A : Mat n n) (x : Vec n) :
    Res (Mat n n) := do
  let st ← (List.finRange n).foldlM (flCholupdateStep ar sign) (A, x)
  pure st.1

/-- `cholupdate`, `sqrt/unscented.py:46-106`; the rows of `X` are the vectors. -/
noncomputable def flCholupdate {v : ℕ} (ar : ArithS c u) (A2 : Mat n n) (X : Mat v n) (weight : ℝ) :
    Res (Mat n n) :=
  let sign := Real.sign weight
  let X : Mat v n := fun i j => ar.mulr (ar.sqrt |weight|) (X i j)
  (List.finRange v).foldlM (fun A i => flCholupdateVec ar sign A (X i)) A2

/-- `qr`, `sqrt/unscented.py:109-115`. -/
def flQrSquare (ar : ArithS c u) {L : ℕ} (A : Mat N L) : Res (Mat L L) :=
  if h : N ≥ L then .ok ((ar.qr N L A).submatrix (Fin.castLE h) id) else .error .valueError

/-- The first block of `qr_points` in `points2moments`, `sqrt/unscented.py:137-141`. -/
noncomputable def flQrPoints (ar : ArithS c u) (s : SigmaPoints N k) (mu : Vec k) : Mat k N :=
  Matrix.of fun i j => ar.mulr (ar.mulr (Real.sign (s.wc j)) (ar.sqrt |s.wc j|))
    (ar.sub (s.points j i) (mu i))

/-- `points2moments`, `sqrt/unscented.py:118-146`. -/
noncomputable def flSqPoints2moments (ar : ArithS c u) (s : SigmaPoints N k)
    (noise : Option (Mat k k)) : Res (Moments k) := do
  let mu : Vec k := ar.mulV (Matrix.of s.points)ᵀ s.wm
  let sigma2 ← match noise with
    | some S => flQrSquare ar (hstack (flQrPoints ar s mu) S)ᵀ
    | none => flQrSquare ar (flQrPoints ar s mu)ᵀ
  pure ⟨mu, sigma2⟩

/-- `moments2points`, `sqrt/unscented.py:149-203` (see `sqMoments2points`); the arithmetic of points
and weights is that of `unscented.py:85-116`. -/
noncomputable def flSqMoments2points (ar : ArithS c u) (M : Moments n) :
    SigmaPoints (n + n + 1) n :=
  flSigmaPoints ar.toArithU M.mean M.covᵀ

/-- `_unscented_correct`, `sqrt/unscented.py:251-302`. -/
noncomputable def flSqUnscentedCorrect (ar : ArithS c u) (cross : Mat n m) (pred : Moments n)
    (obs : Moments m) (o : Obs m) : Res (Moments n) :=
  if ¬ o.missing then do
    let K := (ar.lstsq m n obs.covᵀ (ar.lstsq m n obs.cov crossᵀ))ᵀ
    let U := ar.mul K obs.cov
    let sigma2 ← flCholupdate ar pred.cov Uᵀ (-1.0)
    pure ⟨ar.vadd pred.mean (ar.mulV K (ar.vsub o.val obs.mean)), sigma2⟩
  else pure pred

/-- `unscented_filter_correct`, `sqrt/unscented.py:350-404`, with additive noise. -/
noncomputable def flSqCorrect (ar : ArithS c u) (g : Vec n → Vec m) (pred : Moments n)
    (pts : SigmaPoints N n) (o : Obs m) (R2 : Mat m m) : Res (Moments n) := do
  let q := pts.map g
  let obs ← flSqPoints2moments ar q (some R2)
  flSqUnscentedCorrect ar (flCrossCov ar.toArithU pts pred.mean q obs.mean) pred obs o

/-- `linalg.cholesky(A)`: the upper factor, read from the upper triangle (see `cholUpper`). -/
def flCholUpper (ar : ArithS c u) (A : Mat n n) : Res (Mat n n) := do
  let L ← ar.chol n Aᵀ
  pure Lᵀ

/-- Body of the loop of `_additive_unscented_filter`, `sqrt/unscented.py:444-470`. -/
noncomputable def flSqStep (ar : ArithS c u) (p : UParams n m) (Q2 : Mat n n) (R2 : Mat m m) (t : ℕ)
    (prev : Option (Moments n)) (o : Obs m) : Res (Moments n) :=
  match prev with
  | none => do
    let S2 ← flCholUpper ar p.S0
    let pts := flSqMoments2points ar ⟨p.mu0, S2⟩
    let pred ← flSqPoints2moments ar pts none
    let g ← p.g.at t
    flSqCorrect ar g pred pts o R2
  | some M => do
    let pts := flSqMoments2points ar M
    let f ← p.f.at (t - 1)
    let pred ← flSqPoints2moments ar (pts.map f) (some Q2)
    let pts' := flSqMoments2points ar pred
    let g ← p.g.at t
    flSqCorrect ar g pred pts' o R2

/-- `_additive_unscented_filter`, `sqrt/unscented.py:407-472`. -/
noncomputable def flSqFull (ar : ArithS c u) (p : UParams n m) (os : List (Obs m)) :
    Res (List (Moments n)) := do
  let Q2 ← flCholUpper ar p.Q
  let R2 ← flCholUpper ar p.R
  runLoop (flSqStep ar p Q2 R2) 0 none os

/-- `sigma2_filt[t].T.dot(sigma2_filt[t])`, `sqrt/unscented.py:645` and `sqrt/unscented.py:823`; also
`_reconstruct_covariances`, `sqrt/unscented.py:31-43`, on one matrix. -/
def flUnroot (ar : ArithS c u) (M : Moments n) : Moments n := ⟨M.mean, ar.mul M.covᵀ M.cov⟩

/-- `AdditiveUnscentedKalmanFilter.filter`, `sqrt/unscented.py:599-647`. -/
noncomputable def flSqFilter (ar : ArithS c u) (p : UParams n m) (os : List (Obs m)) :
    Res (List (Moments n)) := do
  let l ← flSqFull ar p os
  pure (l.map (flUnroot ar))

/-- `AdditiveUnscentedKalmanFilter.filter_update`, `sqrt/unscented.py:649-769`.  The covariance it
returns has one leading axis of length one more than modelled here, see C44. -/
noncomputable def flSqUpdate (ar : ArithS c u) (p : UParams n m) (M : Moments n)
    (observation : Option (Obs m)) (a : UUpdateArgs n m) : Res (Moments n) := do
  let f ← defaultFunction a.f p.f
  let g ← defaultFunction a.g p.g
  let o : Obs m := match observation with
    | none => ⟨0, fun _ => true⟩
    | some o => o
  let P2 ← flCholUpper ar M.cov
  let Q2 ← flCholUpper ar (a.Q.getD p.Q)
  let R2 ← flCholUpper ar (a.R.getD p.R)
  let pts := flSqMoments2points ar ⟨M.mean, P2⟩
  let pred ← flSqPoints2moments ar (pts.map f) (some Q2)
  let pts' := flSqMoments2points ar pred
  let r ← flSqCorrect ar g pred pts' o R2
  pure (flUnroot ar r)

/-- `sigma_pair` in the smoother, `sqrt/unscented.py:524-530`. -/
def flPairCov (ar : ArithS c u) (ptsPred pts : SigmaPoints N n) (predMean mean : Vec n) : Mat n n :=
  (ar.mul (ar.mul (Matrix.of fun i j => ar.sub (ptsPred.points j i) (predMean i) : Mat n N)
    (diagonal ptsPred.wc)) (Matrix.of fun j i => ar.sub (pts.points j i) (mean i) : Mat N n))ᵀ

/-- Body of the loop of `_additive_unscented_smoother`, `sqrt/unscented.py:508-549`. -/
noncomputable def flSqSmoothStep (ar : ArithS c u) (p : UParams n m) (Q2 : Mat n n) (t : ℕ)
    (s next : Moments n) : Res (Moments n) := do
  let pts := flSqMoments2points ar s
  let f ← p.f.at t
  let ptsPred := pts.map f
  let pred ← flSqPoints2moments ar ptsPred (some Q2)
  let pair := flPairCov ar ptsPred pts pred.mean s.mean
  let gain := (ar.lstsq n n pred.cov (ar.lstsq n n pred.covᵀ pairᵀ))ᵀ
  let U ← flCholupdate ar pred.cov next.cov (-1.0)
  let sigma2 ← flCholupdate ar s.cov (ar.mul gain Uᵀ)ᵀ (-1.0)
  pure ⟨ar.vadd s.mean (ar.mulV gain (ar.vsub next.mean pred.mean)), sigma2⟩

/-- `_additive_unscented_smoother`, `sqrt/unscented.py:475-551` (see `sqSmoothFull`). -/
noncomputable def flSqSmoothFull (ar : ArithS c u) (p : UParams n m) (l : List (Moments n)) :
    Res (List (Moments n)) := do
  let Q2 ← flCholUpper ar p.Q
  backFull (flSqSmoothStep ar p Q2) l

/-- `AdditiveUnscentedKalmanFilter.smooth`, `sqrt/unscented.py:771-825`. -/
noncomputable def flSqSmooth (ar : ArithS c u) (p : UParams n m) (os : List (Obs m)) :
    Res (List (Moments n)) := do
  let l ← flSqFull ar p os
  let l' ← flSqSmoothFull ar p l
  pure (l'.map (flUnroot ar))

end Verif
