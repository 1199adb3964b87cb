import Verif.Model.Bierman

/-!
# `BiermanKalmanFilter` with arrays of integers

`array1d`, `array2d` (`utils/_sklearn.py:40-47`) keep the element type of what the user gives, so
parameters given as integers stay arrays of integers.  Two places of `sqrt/bierman.py` assign
computed numbers to entries of such an array, which converts them: `udu` (`bierman.py:85`, `store` in
`Model/Bierman`) and `decorrelate_observations` (`bierman.py:137-143`, `storeC` here).  Everything
else is as in `Model/Bierman`.
-/

open Matrix

namespace Verif

variable {n m : ℕ}

/-- `decorrelate_observations`, `bierman.py:93-158`: `observation_matrices2` is a copy of
`observation_matrices` with the same element type; when it has three dimensions its entries are
assigned to (`bierman.py:137-143`), otherwise it is replaced by a new array (`bierman.py:145`). -/
noncomputable def decorrelateStored (storeC : ℝ → ℝ) (C : TV (Mat m n)) (d : TV (Vec m))
    (R : TV (Mat m m)) (os : List (Obs m)) : Res (TV (Mat m n) × TV (Vec m) × List (Obs m)) := do
  let R2 ← cholParam R
  let inv := pinv R2
  let C2 : TV (Mat m n) := match C with
    | .seq l => .seq (l.map fun X => (inv * X).map storeC)
    | .const X => .const (inv * X)
  pure (C2, d.map fun v => inv *ᵥ v, os.map fun o => ⟨inv *ᵥ o.val, o.mask⟩)

/-- `_filter`, `bierman.py:350-461`; `store` describes the element type of
`initial_state_covariance`, `storeC` that of `observation_matrices`. -/
noncomputable def bierFullStored (store storeC : ℝ → ℝ) (p : Params n m) (os : List (Obs m)) :
    Res (List (BStep n)) := do
  let S0 ← udu store p.S0
  let r ← decorrelateStored storeC p.C p.d p.R os
  bierLoop p r.1 r.2.1 S0 0 none r.2.2

/-- `BiermanKalmanFilter.filter`, `bierman.py:514-571`. -/
noncomputable def bierFilterStored (store storeC : ℝ → ℝ) (p : Params n m) (os : List (Obs m)) :
    Res (List (Vec n × Mat n n)) := do
  let steps ← bierFullStored store storeC p os
  let rows ← bierRows m steps
  pure (rows.map fun s => (s.filtMean, s.filtCov))

/-- `BiermanKalmanFilter.smooth`, `bierman.py:710-779`. -/
noncomputable def bierSmoothStored (store storeC : ℝ → ℝ) (p : Params n m) (os : List (Obs m)) :
    Res (List (Vec n × Mat n n)) := do
  let steps ← bierFullStored store storeC p os
  let rows ← bierRows m steps
  let sm ← smoothFull p.A rows
  pure (sm.map fun s => (s.mean, s.cov))

/-- `BiermanKalmanFilter.loglikelihood`, `bierman.py:910-968`: the rows of the filter, then the
densities with the original observations and parameters. -/
noncomputable def bierLoglikStored (store storeC : ℝ → ℝ) (p : Params n m) (os : List (Obs m)) :
    Res ℝ := do
  let steps ← bierFullStored store storeC p os
  let rows ← bierRows m steps
  let ls ← loglikLoop p 0 rows os
  pure ls.sum

/-- Smoothed statistics in `BiermanKalmanFilter.em`, `bierman.py:843-886`. -/
noncomputable def bierStatsStored (store storeC : ℝ → ℝ) (p : Params n m) (os : List (Obs m)) :
    Res (List (EmStats n)) := do
  let steps ← bierFullStored store storeC p os
  let rows ← bierRows m steps
  let sm ← smoothFull p.A rows
  pure ((sm.zip (smoothPair sm)).map fun q => ⟨q.1.mean, q.1.cov, q.2⟩)

/-- The iterations of `BiermanKalmanFilter.em`, `bierman.py:842-907`: what is estimated is an array
of floats, what is not estimated keeps its element type. -/
noncomputable def bierEmLoopStored (store storeC : ℝ → ℝ) (given : Params n m) (vars : EmVar → Bool)
    (os : List (Obs m)) : ℕ → Params n m → Res (Params n m)
  | 0, p => pure p
  | k + 1, p => do
    let ss ← bierStatsStored store storeC p os
    let p' ← emStep given vars p ss os
    bierEmLoopStored (if vars .initialStateCovariance then id else store)
      (if vars .observationMatrices then id else storeC) given vars os k p'

/-- `BiermanKalmanFilter.em`, `bierman.py:781-908`, with an explicit selection `em_vars`. -/
noncomputable def bierEmStored (store storeC : ℝ → ℝ) (p : Params n m) (os : List (Obs m))
    (nIter : ℕ) (vars : EmVar → Bool) : Res (Params n m) :=
  bierEmLoopStored store storeC p vars os nIter p

end Verif
