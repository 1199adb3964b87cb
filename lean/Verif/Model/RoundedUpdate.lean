import Verif.Model.RoundedCholesky
import Verif.Model.RoundedBierman
import Verif.Model.RoundedUnscented

/-!
# Model of `filter_update` in arithmetic with rounding errors

The functions are those of `Model/Standard`, `Model/Cholesky`, `Model/Bierman` and `Model/Unscented`
with every operation on numbers replaced by one with an error, in the order of the code.
-/

open Matrix

namespace Verif

variable {n m : ℕ} {c : ℕ → ℝ} {u : ℝ}

/-- The observation of a call of `filter_update`: without one, `np.ma.array(np.zeros(...))` with
everything masked (`standard.py:1331-1336`, `cholesky.py:501-506`, `bierman.py:664-669`,
`unscented.py:986-991`, `unscented.py:1302-1307`). -/
def updateObs : Option (Obs m) → Obs m
  | none => ⟨0, fun _ => true⟩
  | some o => o

/-- `KalmanFilter.filter_update`, `standard.py:1240-1354`. -/
noncomputable def flUpdate (ar : Arith c u) (p : Params n m) (mean : Vec n) (cov : Mat n n)
    (observation : Option (Obs m)) (a : UpdateArgs n m) : Res (Vec n × Mat n n) := do
  let b ← argOrDefault a.b p.b
  let d ← argOrDefault a.d p.d
  let A ← argOrDefault a.A p.A
  let C ← argOrDefault a.C p.C
  let Q ← argOrDefault a.Q p.Q
  let R ← argOrDefault a.R p.R
  let pred := flPredict ar A Q b mean cov
  let c := flCorrect ar C R d pred.1 pred.2 (updateObs observation)
  pure (c.2.1, c.2.2)

/-- `CholeskyKalmanFilter.filter_update`, `cholesky.py:410-539`.  The returned covariance has shape
`(1, n, n)`. -/
noncomputable def flCholUpdate (ar : ArithC c u) (p : Params n m) (mean : Vec n) (cov : Mat n n)
    (observation : Option (Obs m)) (a : UpdateArgs n m) : Res (Vec n × (Fin 1 → Mat n n)) := do
  let b ← argOrDefault a.b p.b
  let d ← argOrDefault a.d p.d
  let A ← argOrDefault a.A p.A
  let C ← argOrDefault a.C p.C
  let Q ← argOrDefault a.Q p.Q
  let R ← argOrDefault a.R p.R
  let Q2 ← ar.chol n Q
  let R2 ← ar.chol m R
  let S2 ← ar.chol n cov
  let pred := flCholPredict ar A Q2 b mean S2
  let c := flCholCorrect ar C R2 d pred.1 pred.2 (updateObs observation)
  pure (c.1, fun _ => flReconstruct ar c.2)

/-- `BiermanKalmanFilter.filter_update`, `bierman.py:573-708`, for arrays of floats.  The returned
covariance has shape `(1, n, n)`. -/
noncomputable def flBierUpdate (ar : ArithEL c u) (p : Params n m) (mean : Vec n) (cov : Mat n n)
    (observation : Option (Obs m)) (a : UpdateArgs n m) : Res (Vec n × (Fin 1 → Mat n n)) := do
  let b ← argOrDefault a.b p.b
  let d ← argOrDefault a.d p.d
  let A ← argOrDefault a.A p.A
  let C ← argOrDefault a.C p.C
  let Q ← argOrDefault a.Q p.Q
  let R ← argOrDefault a.R p.R
  let o := updateObs observation
  let S ← flUdu ar cov
  let R2 ← ar.chol m R
  let inv := ar.pinv m R2
  let pred ← flBierPredict ar A Q b mean S
  let c := flBierCorrect ar (ar.mul inv C) 1 (ar.mulV inv d) pred.1 pred.2
    ⟨ar.mulV inv o.val, o.mask⟩
  pure (c.1, fun _ => c.2.flReconstruct ar)

/-- `AdditiveUnscentedKalmanFilter.filter_update`, `unscented.py:1220-1331`. -/
noncomputable def flAukfUpdate (ar : ArithU c u) (p : UParams n m) (M : Moments n)
    (observation : Option (Obs m)) (a : UUpdateArgs n m) : Res (Moments n) := do
  let f ← defaultFunction a.f p.f
  let g ← defaultFunction a.g p.g
  let pts ← flMoments2points ar M
  let pred := flPoints2moments ar (pts.map f) (some (a.Q.getD p.Q))
  let pts' ← flMoments2points ar pred
  pure (flUfCorrect ar g pred pts' (updateObs observation) (a.R.getD p.R))

/-- `UnscentedKalmanFilter.filter_update`, `unscented.py:904-1022`. -/
noncomputable def flUkfUpdate (ar : ArithU c u) (p : GParams n m) (M : Moments n)
    (observation : Option (Obs m)) (a : GUpdateArgs n m) : Res (Moments n) := do
  let f ← defaultFunction a.f p.f
  let g ← defaultFunction a.g p.g
  let pts ← flAugFilterPoints ar M (a.Q.getD p.Q) (a.R.getD p.R)
  let ptsPred := pts.1.map₂ pts.2.1 f
  let pred := flPoints2moments ar ptsPred none
  pure (flUfCorrect₂ ar g pred ptsPred (updateObs observation) pts.2.2)

end Verif
