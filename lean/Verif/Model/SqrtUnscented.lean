import Verif.Model.Unscented
import Verif.Model.Cholesky
import Mathlib.Data.Real.Sign

/-!
# Model of `pykalman/sqrt/unscented.py`

Line numbers refer to `/repo/pykalman/sqrt/unscented.py` unless another file is named.  Where the
code keeps a `Moments` tuple, its second component is here an upper triangular square root.
-/

open Matrix

namespace Verif

variable {n m k l N : ℕ}

/-- `_reconstruct_covariances`, `sqrt/unscented.py:31-43`, on one matrix; also
`sqrt/unscented.py:644-645` and `sqrt/unscented.py:822-823`. -/
def reconstructU (M : Mat n n) : Mat n n := Mᵀ * M

/-- `r` in `cholupdate`, `sqrt/unscented.py:98-99`. -/
noncomputable def cholupdateR (sign a x : ℝ) : ℝ :=
  let r2 := a ^ 2 + sign * x ^ 2
  if r2 < 0 then 0.0 else Real.sqrt r2

/-- Body of the inner loop of `cholupdate`, `sqrt/unscented.py:98-104`.  The factor `c` and `s` are
used only for the columns right of `k`; if there are any and `A2[k, k]` or `r` is zero, the row is
divided by zero or `nan`. -/
noncomputable def cholupdateStep (sign : ℝ) (st : Mat n n × Vec n) (k : Fin n) :
    Res (Mat n n × Vec n) :=
  let A := st.1
  let x := st.2
  let r := cholupdateR sign (A k k) (x k)
  if (k : ℕ) + 1 < n ∧ (A k k = 0 ∨ r = 0) then .error .nonFinite
  else
    let c := r / A k k
    let s := x k / A k k
    let row : Vec n := fun j =>
      if j = k then r else if k < j then (A k j + sign * s * x j) / c else A k j
    .ok (A.updateRow k row, fun j => if k < j then c * x j - s * row j else x j)

/-- One pass of the outer loop of `cholupdate`, `sqrt/unscented.py:96-104`. -/
noncomputable def cholupdateVec (sign : ℝ) (A : Mat n n) (x : Vec n) : Res (Mat n n) := do
  let st ← (List.finRange n).foldlM (cholupdateStep sign) (A, x)
  pure st.1

/-- `cholupdate`, `sqrt/unscented.py:46-106`; the rows of `X` are the vectors. -/
noncomputable def cholupdate {v : ℕ} (A2 : Mat n n) (X : Mat v n) (weight : ℝ) : Res (Mat n n) :=
  let sign := Real.sign weight
  let X := Real.sqrt |weight| • X
  (List.finRange v).foldlM (fun A i => cholupdateVec sign A (X i)) A2

/-- `qr`, `sqrt/unscented.py:109-115`. -/
noncomputable def qrSquare (qr : QR) {L : ℕ} (A : Mat N L) : Res (Mat L L) :=
  if h : N ≥ L then .ok ((qr.r N L A).submatrix (Fin.castLE h) id) else .error .valueError

/-- The first block of `qr_points` in `points2moments`, `sqrt/unscented.py:137-141`. -/
noncomputable def qrPoints (s : SigmaPoints N k) (mu : Vec k) : Mat k N :=
  Matrix.of fun i j => Real.sign (s.wc j) * Real.sqrt |s.wc j| * (s.points j i - mu i)

/-- `points2moments`, `sqrt/unscented.py:118-146`. -/
noncomputable def sqPoints2moments (qr : QR) (s : SigmaPoints N k) (noise : Option (Mat k k)) :
    Res (Moments k) := do
  let mu : Vec k := (Matrix.of s.points)ᵀ *ᵥ s.wm
  let sigma2 ← match noise with
    | some S => qrSquare qr (hstack (qrPoints s mu) S)ᵀ
    | none => qrSquare qr (qrPoints s mu)ᵀ
  pure ⟨mu, sigma2⟩

/-- `moments2points`, `sqrt/unscented.py:149-203`, with the defaults `alpha = beta = kappa = None`
(no caller passes anything else); the arithmetic of points and weights is that of
`unscented.py:85-116`. -/
noncomputable def sqMoments2points (M : Moments n) : SigmaPoints (n + n + 1) n :=
  sigmaPoints M.mean M.covᵀ none none none

/-- `linalg.lstsq(a, b)[0]`: the least squares solution of minimal norm. -/
noncomputable def lstsq {a b c : ℕ} (A : Mat a b) (B : Mat a c) : Mat b c := pinv A * B

/-- `_unscented_correct`, `sqrt/unscented.py:251-302`. -/
noncomputable def sqUnscentedCorrect (cross : Mat n m) (pred : Moments n) (obs : Moments m)
    (o : Obs m) : Res (Moments n) :=
  if ¬ o.missing then do
    let K := (lstsq obs.covᵀ (lstsq obs.cov crossᵀ))ᵀ
    let U := K * obs.cov
    let sigma2 ← cholupdate pred.cov Uᵀ (-1.0)
    pure ⟨pred.mean + K *ᵥ (o.val - obs.mean), sigma2⟩
  else pure pred

/-- `unscented_filter_correct`, `sqrt/unscented.py:350-404`, with additive noise. -/
noncomputable def sqCorrect (qr : QR) (g : Vec n → Vec m) (pred : Moments n)
    (pts : SigmaPoints N n) (o : Obs m) (R2 : Mat m m) : Res (Moments n) := do
  let q := pts.map g
  let obs ← sqPoints2moments qr q (some R2)
  sqUnscentedCorrect (crossCov pts pred.mean q obs.mean) pred obs o

/-- `linalg.cholesky(A)`: the upper factor, read from the upper triangle. -/
noncomputable def cholUpper (A : Mat n n) : Res (Mat n n) := do
  let L ← cholUpperT A
  pure Lᵀ

/-- Body of the loop of `_additive_unscented_filter`, `sqrt/unscented.py:444-470`, with
`unscented_filter_predict`, `sqrt/unscented.py:305-347`, written out. -/
noncomputable def sqStep (qr : QR) (p : UParams n m) (Q2 : Mat n n) (R2 : Mat m m) (t : ℕ)
    (prev : Option (Moments n)) (o : Obs m) : Res (Moments n) :=
  match prev with
  | none => do
    let S2 ← cholUpper p.S0
    let pts := sqMoments2points ⟨p.mu0, S2⟩
    let pred ← sqPoints2moments qr pts none
    let g ← p.g.at t
    sqCorrect qr g pred pts o R2
  | some M => do
    let pts := sqMoments2points M
    let f ← p.f.at (t - 1)
    let pred ← sqPoints2moments qr (pts.map f) (some Q2)
    let pts' := sqMoments2points pred
    let g ← p.g.at t
    sqCorrect qr g pred pts' o R2

/-- `_additive_unscented_filter`, `sqrt/unscented.py:407-472`. -/
noncomputable def sqFull (qr : QR) (p : UParams n m) (os : List (Obs m)) :
    Res (List (Moments n)) := do
  let Q2 ← cholUpper p.Q
  let R2 ← cholUpper p.R
  runLoop (sqStep qr p Q2 R2) 0 none os

/-- `filtered_state_covariances[t] = sigma2_filt[t].T.dot(sigma2_filt[t])`. -/
def Moments.unroot (M : Moments n) : Moments n := ⟨M.mean, reconstructU M.cov⟩

/-- `AdditiveUnscentedKalmanFilter.filter`, `sqrt/unscented.py:599-647`. -/
noncomputable def sqFilter (qr : QR) (p : UParams n m) (os : List (Obs m)) :
    Res (List (Moments n)) := do
  let l ← sqFull qr p os
  pure (l.map Moments.unroot)

/-- `sigma_pair` in the smoother, `sqrt/unscented.py:524-530`. -/
def pairCov (ptsPred pts : SigmaPoints N n) (predMean mean : Vec n) : Mat n n :=
  ((Matrix.of fun i j => ptsPred.points j i - predMean i : Mat n N)
    * diagonal ptsPred.wc * (Matrix.of fun j i => pts.points j i - mean i : Mat N n))ᵀ

/-- Body of the loop of `_additive_unscented_smoother`, `sqrt/unscented.py:508-549`. -/
noncomputable def sqSmoothStep (qr : QR) (p : UParams n m) (Q2 : Mat n n) (t : ℕ)
    (s next : Moments n) : Res (Moments n) := do
  let pts := sqMoments2points s
  let f ← p.f.at t
  let ptsPred := pts.map f
  let pred ← sqPoints2moments qr ptsPred (some Q2)
  let pair := pairCov ptsPred pts pred.mean s.mean
  let gain := (lstsq pred.cov (lstsq pred.covᵀ pairᵀ))ᵀ
  let U ← cholupdate pred.cov next.cov (-1.0)
  let sigma2 ← cholupdate s.cov (gain * Uᵀ)ᵀ (-1.0)
  pure ⟨s.mean + gain *ᵥ (next.mean - pred.mean), sigma2⟩

/-- `_additive_unscented_smoother`, `sqrt/unscented.py:475-551`.  (With no time steps
`mu_filt[-1]` fails before `linalg.cholesky(Q)` is called; the latter has then succeeded in the
filter already.) -/
noncomputable def sqSmoothFull (qr : QR) (p : UParams n m) (l : List (Moments n)) :
    Res (List (Moments n)) := do
  let Q2 ← cholUpper p.Q
  backFull (sqSmoothStep qr p Q2) l

/-- `AdditiveUnscentedKalmanFilter.smooth`, `sqrt/unscented.py:771-825`. -/
noncomputable def sqSmooth (qr : QR) (p : UParams n m) (os : List (Obs m)) :
    Res (List (Moments n)) := do
  let l ← sqFull qr p os
  let l' ← sqSmoothFull qr p l
  pure (l'.map Moments.unroot)

/-- `AdditiveUnscentedKalmanFilter.filter_update`, `sqrt/unscented.py:649-769`.  The covariance it
returns has one leading axis of length one more than modelled here, see C44. -/
noncomputable def sqUpdate (qr : QR) (p : UParams n m) (M : Moments n)
    (observation : Option (Obs m)) (a : UUpdateArgs n m) : Res (Moments n) := do
  let f ← defaultFunction a.f p.f
  let g ← defaultFunction a.g p.g
  let Q := a.Q.getD p.Q
  let R := a.R.getD p.R
  let o : Obs m := match observation with
    | none => ⟨0, fun _ => true⟩
    | some o => o
  let P2 ← cholUpper M.cov
  let Q2 ← cholUpper Q
  let R2 ← cholUpper R
  let pts := sqMoments2points ⟨M.mean, P2⟩
  let pred ← sqPoints2moments qr (pts.map f) (some Q2)
  let pts' := sqMoments2points pred
  let r ← sqCorrect qr g pred pts' o R2
  pure r.unroot

end Verif
