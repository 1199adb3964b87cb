import Verif.Model.Unscented
import Verif.Model.RoundedEm

/-!
# Model of the unscented filters in arithmetic with rounding errors

The functions are those of `Model/Unscented` with every operation on numbers replaced by one with an
error, as in `Model/Rounded`.  The user's functions are passed as they are computed; how far they are
from the exact ones is a hypothesis of the theorems.  Line numbers refer to
`/repo/pykalman/unscented.py`.
-/

open Matrix

namespace Verif

variable {n m k l N : ℕ}

/-- Arithmetic with errors, with square roots. -/
structure ArithU (c : ℕ → ℝ) (u : ℝ) extends ArithEL c u where
  /-- `np.sqrt`. -/
  sqrt : ℝ → ℝ
  sqrt_err : ∀ x, 0 ≤ x → |sqrt x - Real.sqrt x| ≤ u * (Real.sqrt x + 1)

variable {c : ℕ → ℝ} {u : ℝ}

/-- `points2moments`, `unscented.py:38-59`. -/
def flPoints2moments (ar : ArithU c u) (s : SigmaPoints N k) (noise : Option (Mat k k)) :
    Moments k :=
  let mu : Vec k := ar.mulV (Matrix.of s.points)ᵀ s.wm
  let diff : Mat k N := Matrix.of fun i j => ar.sub (s.points j i) (mu i)
  let sigma := ar.mul (ar.mul diff (diagonal s.wc)) diffᵀ
  match noise with
  | some S => ⟨mu, ar.madd sigma S⟩
  | none => ⟨mu, sigma⟩

/-- Rows of the array `points.T` that `moments2points` builds, `unscented.py:95-108`. -/
def flSigmaRows (ar : ArithU c u) (mu : Vec n) (sigma2 : Mat n n) (s : ℝ) :
    Fin (n + n + 1) → Vec n :=
  Fin.cons mu (Fin.append
    (fun j i => ar.add (mu i) (ar.toArithL.mulr (sigma2 i j) (ar.sqrt s)))
    (fun j i => ar.sub (mu i) (ar.toArithL.mulr (sigma2 i j) (ar.sqrt s))))

/-- Points and weights that `moments2points` builds with the default `alpha`, `beta` and `kappa` (no
caller passes others), `unscented.py:85-116`. -/
noncomputable def flSigmaPoints (ar : ArithU c u) (mu : Vec n) (sigma2 : Mat n n) :
    SigmaPoints (n + n + 1) n :=
  let alpha : ℝ := 1.0
  let beta : ℝ := 0.0
  let kappa := ar.sub 3.0 n
  let lamda := ar.sub (ar.toArithL.mulr (ar.toArithL.mulr alpha alpha) (ar.add n kappa)) n
  let s := ar.add n lamda
  ⟨flSigmaRows ar mu sigma2 s,
   Fin.cons (ar.toArithE.divr lamda s) fun _ => ar.toArithE.divr 0.5 s,
   Fin.cons (ar.add (ar.toArithE.divr lamda s)
     (ar.add (ar.sub 1 (ar.toArithL.mulr alpha alpha)) beta)) fun _ => ar.toArithE.divr 0.5 s⟩

/-- `moments2points`, `unscented.py:62-116`; `linalg.cholesky(sigma).T` reads the upper triangle
(see `cholUpperT`). -/
noncomputable def flMoments2points (ar : ArithU c u) (M : Moments n) :
    Res (SigmaPoints (n + n + 1) n) := do
  let sigma2 ← ar.chol n M.covᵀ
  pure (flSigmaPoints ar M.mean sigma2)

/-- `unscented_correct`, `unscented.py:169-206`. -/
noncomputable def flUnscentedCorrect (ar : ArithU c u) (cross : Mat n m) (pred : Moments n)
    (obs : Moments m) (o : Obs m) : Moments n :=
  if ¬ o.missing then
    let K := ar.mul cross (ar.pinv m obs.cov)
    ⟨ar.vadd pred.mean (ar.mulV K (ar.vsub o.val obs.mean)), ar.msub pred.cov (ar.mul K crossᵀ)⟩
  else pred

/-- `sigma_pair` in `unscented_filter_correct`, `unscented.py:381-386`. -/
def flCrossCov (ar : ArithU c u) (p : SigmaPoints N n) (mu : Vec n) (q : SigmaPoints N m)
    (nu : Vec m) : Mat n m :=
  ar.mul (ar.mul (Matrix.of fun i j => ar.sub (p.points j i) (mu i) : Mat n N) (diagonal p.wm))
    (Matrix.of fun j i => ar.sub (q.points j i) (nu i) : Mat N m)

/-- `unscented_filter_correct`, `unscented.py:339-393`, with additive noise. -/
noncomputable def flUfCorrect (ar : ArithU c u) (g : Vec n → Vec m) (pred : Moments n)
    (pts : SigmaPoints N n) (o : Obs m) (R : Mat m m) : Moments n :=
  let q := pts.map g
  let obs := flPoints2moments ar q (some R)
  flUnscentedCorrect ar (flCrossCov ar pts pred.mean q obs.mean) pred obs o

/-- `unscented_filter_correct`, `unscented.py:339-393`, with noise points. -/
noncomputable def flUfCorrect₂ (ar : ArithU c u) (g : Vec n → Vec m → Vec m) (pred : Moments n)
    (pts : SigmaPoints N n) (o : Obs m) (w : SigmaPoints N m) : Moments n :=
  let q := pts.map₂ w g
  let obs := flPoints2moments ar q none
  flUnscentedCorrect ar (flCrossCov ar pts pred.mean q obs.mean) pred obs o

/-- Body of the loop of `additive_unscented_filter`, `unscented.py:578-605`. -/
noncomputable def flAukfStep (ar : ArithU c u) (p : UParams n m) (t : ℕ)
    (prev : Option (Moments n)) (o : Obs m) : Res (Moments n) := do
  let M : Moments n := prev.getD ⟨p.mu0, p.S0⟩
  let pts ← flMoments2points ar M
  match prev with
  | none => do
    let pred := flPoints2moments ar pts none
    let g ← p.g.at t
    pure (flUfCorrect ar g pred pts o p.R)
  | some _ => do
    let f ← p.f.at (t - 1)
    let pred := flPoints2moments ar (pts.map f) (some p.Q)
    let pts' ← flMoments2points ar pred
    let g ← p.g.at t
    pure (flUfCorrect ar g pred pts' o p.R)

/-- `additive_unscented_filter`, `unscented.py:544-607`, and
`AdditiveUnscentedKalmanFilter.filter`, `unscented.py:1178-1218`. -/
noncomputable def flAukfFilter (ar : ArithU c u) (p : UParams n m) (os : List (Obs m)) :
    Res (List (Moments n)) :=
  runLoop (flAukfStep ar p) 0 none os

/-- The last lines of the loop bodies of the two smoothers, `unscented.py:522-539` and
`unscented.py:656-673`. -/
noncomputable def flUfSmooth (ar : ArithU c u) (filt : Moments n) (pts ptsPred : SigmaPoints N n)
    (pred : Moments n) (next : Moments n) : Moments n :=
  let pair : Mat n n := (ar.mul (ar.mul
    (Matrix.of fun i j => ar.sub (ptsPred.points j i) (pred.mean i) : Mat n N)
    (diagonal ptsPred.wc))
    (Matrix.of fun j i => ar.sub (pts.points j i) (filt.mean i) : Mat N n))ᵀ
  let gain := ar.mul pair (ar.pinv n pred.cov)
  ⟨ar.vadd filt.mean (ar.mulV gain (ar.vsub next.mean pred.mean)),
   ar.madd filt.cov (ar.mul (ar.mul gain (ar.msub next.cov pred.cov)) gainᵀ)⟩

/-- Body of the loop of `additive_unscented_smoother`, `unscented.py:642-673`. -/
noncomputable def flAukfSmoothStep (ar : ArithU c u) (p : UParams n m) (t : ℕ)
    (s next : Moments n) : Res (Moments n) := do
  let pts ← flMoments2points ar s
  let f ← p.f.at t
  let ptsPred := pts.map f
  let pred := flPoints2moments ar ptsPred (some p.Q)
  pure (flUfSmooth ar s pts ptsPred pred next)

/-- `AdditiveUnscentedKalmanFilter.smooth`, `unscented.py:1333-1374`, with
`additive_unscented_smoother`, `unscented.py:610-675`. -/
noncomputable def flAukfSmooth (ar : ArithU c u) (p : UParams n m) (os : List (Obs m)) :
    Res (List (Moments n)) := do
  let l ← flAukfFilter ar p os
  backFull (flAukfSmoothStep ar p) l

/-- `augmented_points`, `unscented.py:209-246`, of two moments. -/
noncomputable def flAugPoints {a b : ℕ} (ar : ArithU c u) (M : Moments a) (M' : Moments b) :
    Res (SigmaPoints ((a + b) + (a + b) + 1) a × SigmaPoints ((a + b) + (a + b) + 1) b) := do
  let s ← flMoments2points ar ⟨concat M.mean M'.mean, blockDiag M.cov M'.cov⟩
  pure (s.left, s.right)

/-- `augmented_unscented_filter_points`, `unscented.py:249-291`, with `augmented_points`,
`unscented.py:209-246`, of three moments. -/
noncomputable def flAugFilterPoints (ar : ArithU c u) (M : Moments n) (Q : Mat n n) (R : Mat m m) :
    Res (SigmaPoints ((n + n + m) + (n + n + m) + 1) n
      × SigmaPoints ((n + n + m) + (n + n + m) + 1) n
      × SigmaPoints ((n + n + m) + (n + n + m) + 1) m) := do
  let s ← flMoments2points ar
    ⟨concat (concat M.mean (0 : Vec n)) (0 : Vec m), blockDiag (blockDiag M.cov Q) R⟩
  pure (s.left.left, s.left.right, s.right)

/-- Body of the loop of `augmented_unscented_filter`, `unscented.py:430-468`. -/
noncomputable def flUkfStep (ar : ArithU c u) (p : GParams n m) (t : ℕ)
    (prev : Option (Moments n)) (o : Obs m) : Res (Moments n) := do
  let M : Moments n := prev.getD ⟨p.mu0, p.S0⟩
  let pts ← flAugFilterPoints ar M p.Q p.R
  match prev with
  | none => do
    let pred := flPoints2moments ar pts.1 none
    let g ← p.g.at t
    pure (flUfCorrect₂ ar g pred pts.1 o pts.2.2)
  | some _ => do
    let f ← p.f.at (t - 1)
    let ptsPred := pts.1.map₂ pts.2.1 f
    let pred := flPoints2moments ar ptsPred none
    let g ← p.g.at t
    pure (flUfCorrect₂ ar g pred ptsPred o pts.2.2)

/-- `augmented_unscented_filter`, `unscented.py:396-470`, and `UnscentedKalmanFilter.filter`,
`unscented.py:862-902`. -/
noncomputable def flUkfFilter (ar : ArithU c u) (p : GParams n m) (os : List (Obs m)) :
    Res (List (Moments n)) :=
  runLoop (flUkfStep ar p) 0 none os

/-- Body of the loop of `augmented_unscented_smoother`, `unscented.py:504-539`. -/
noncomputable def flUkfSmoothStep (ar : ArithU c u) (p : GParams n m) (t : ℕ)
    (s next : Moments n) : Res (Moments n) := do
  let pts ← flAugPoints ar s (⟨0, p.Q⟩ : Moments n)
  let f ← p.f.at t
  let ptsPred := pts.1.map₂ pts.2 f
  let pred := flPoints2moments ar ptsPred none
  pure (flUfSmooth ar s pts.1 ptsPred pred next)

/-- `UnscentedKalmanFilter.smooth`, `unscented.py:1024-1065`, with
`augmented_unscented_smoother`, `unscented.py:473-541`. -/
noncomputable def flUkfSmooth (ar : ArithU c u) (p : GParams n m) (os : List (Obs m)) :
    Res (List (Moments n)) := do
  let l ← flUkfFilter ar p os
  backFull (flUkfSmoothStep ar p) l

end Verif
