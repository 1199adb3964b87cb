import Verif.Model.SqrtUnscented
import Verif.Model.Sample

/-!
# The user's functions as Python has them

`unscented.py`, `sqrt/unscented.py`.  The other models of these files take transition and observation
functions for functions in the sense of mathematics.  Python functions can do more: they get a row of
the array of sigma points (not a copy) and may overwrite it, they may keep numbers from one call to the
next, and what they return need not be a new array.  Here this is part of the model.  Line numbers
refer to `/repo/pykalman/unscented.py` unless another file is named.
-/

open Matrix

namespace Verif

variable {σ α β : Type} {n m k l N : ℕ}

/-- A Python function.  From the numbers it keeps (`σ`) and the contents of the arrays it gets (`α`):
the numbers it keeps afterwards, what it leaves in these arrays, and what it returns, as a way of
reading it off later.  A new array ignores the two arguments of the reading; `return x` reads the array
it got; an output array that the function uses in every call is read off the kept numbers. -/
def PyFun (σ α β : Type) : Type := σ → α → σ × α × (σ → α → β)

/-- What the function has kept before call `i` of `[f(points[i]) for i in range(n_points)]`,
`unscented.py:152-155`, `sqrt/unscented.py:235-237`. -/
def callState (f : PyFun σ α β) (s : σ) (x : Fin N → α) : ℕ → σ
  | 0 => s
  | i + 1 =>
    if h : i < N then (f (callState f s x i) (x ⟨i, h⟩)).1 else callState f s x i

/-- What the calls for all points leave behind, `unscented.py:150-161`, `sqrt/unscented.py:233-243`: the
arrays with the points, the rows of the array that `np.vstack` makes of the results once all calls are
over, and what the function has kept. -/
structure Called (σ : Type) (N : ℕ) (α β : Type) where
  args : Fin N → α
  res : Fin N → β
  state : σ

/-- `np.vstack([f(points[i]) for i in range(n_points)])`, `unscented.py:150-161`,
`sqrt/unscented.py:233-243`. -/
def callAll (f : PyFun σ α β) (s : σ) (x : Fin N → α) : Called σ N α β where
  args i := (f (callState f s x i) (x i)).2.1
  res i := (f (callState f s x i) (x i)).2.2 (callState f s x N) (f (callState f s x i) (x i)).2.1
  state := callState f s x N

/-- `SigmaPoints(points_pred, weights_mean, weights_covariance)`, `unscented.py:161`,
`sqrt/unscented.py:243`. -/
def SigmaPoints.withRows (s : SigmaPoints N k) (x : Fin N → Vec l) : SigmaPoints N l :=
  ⟨x, s.wm, s.wc⟩

/-! ### Additive noise -/

/-- Resolved parameters of `AdditiveUnscentedKalmanFilter` (`unscented.py:718-731`). -/
structure PyUParams (σ : Type) (n m : ℕ) where
  f : Fns (PyFun σ (Vec n) (Vec n))
  g : Fns (PyFun σ (Vec n) (Vec m))
  Q : Mat n n
  R : Mat m m
  mu0 : Vec n
  S0 : Mat n n

/-- `unscented_filter_correct`, `unscented.py:339-393`, with additive noise: `points_pred.points` is
read after the calls of the observation function. -/
noncomputable def pyCorrect (g : PyFun σ (Vec n) (Vec m)) (s : σ) (pred : Moments n)
    (pts : SigmaPoints N n) (o : Obs m) (R : Mat m m) : Moments n × σ :=
  let r := callAll g s pts.points
  let q := pts.withRows r.res
  let obs := points2moments q (some R)
  (unscentedCorrect (crossCov (pts.withRows r.args) pred.mean q obs.mean) pred obs o, r.state)

/-- Body of the loop of `additive_unscented_filter`, `unscented.py:578-605`; with each row what the
functions have kept by then. -/
noncomputable def pyAukfStep (p : PyUParams σ n m) (s₀ : σ) (t : ℕ)
    (prev : Option (Moments n × σ)) (o : Obs m) : Res (Moments n × σ) := do
  let M : Moments n × σ := prev.getD (⟨p.mu0, p.S0⟩, s₀)
  let pts ← moments2points M.1
  match prev with
  | none => do
    let pred := points2moments pts none
    let g ← p.g.at t
    pure (pyCorrect g M.2 pred pts o p.R)
  | some _ => do
    let f ← p.f.at (t - 1)
    let r := callAll f M.2 pts.points
    let pred := points2moments (pts.withRows r.res) (some p.Q)
    let pts' ← moments2points pred
    let g ← p.g.at t
    pure (pyCorrect g r.state pred pts' o p.R)

/-- `AdditiveUnscentedKalmanFilter.filter`, `unscented.py:1178-1218`, with
`additive_unscented_filter`, `unscented.py:544-607`; `s` is what the functions have kept before. -/
noncomputable def pyAukfFilter (p : PyUParams σ n m) (s : σ) (os : List (Obs m)) :
    Res (List (Moments n × σ)) :=
  runLoop (pyAukfStep p s) 0 none os

/-- Body of the loop of `additive_unscented_smoother`, `unscented.py:642-673`: `points_state.points` is
read after the calls of the transition function. -/
noncomputable def pyAukfSmoothStep (p : PyUParams σ n m) (t : ℕ) (s next : Moments n × σ) :
    Res (Moments n × σ) := do
  let pts ← moments2points s.1
  let f ← p.f.at t
  let r := callAll f next.2 pts.points
  let ptsPred := pts.withRows r.res
  let pred := points2moments ptsPred (some p.Q)
  pure (ufSmooth s.1 (pts.withRows r.args) ptsPred pred next.1, r.state)

/-- `AdditiveUnscentedKalmanFilter.smooth`, `unscented.py:1333-1374`. -/
noncomputable def pyAukfSmooth (p : PyUParams σ n m) (s : σ) (os : List (Obs m)) :
    Res (List (Moments n × σ)) := do
  let l ← pyAukfFilter p s os
  backFull (pyAukfSmoothStep p) l

/-- Optional arguments of `AdditiveUnscentedKalmanFilter.filter_update`,
`unscented.py:1220-1229`. -/
structure PyUUpdateArgs (σ : Type) (n m : ℕ) where
  f : Option (PyFun σ (Vec n) (Vec n)) := none
  Q : Option (Mat n n) := none
  g : Option (PyFun σ (Vec n) (Vec m)) := none
  R : Option (Mat m m) := none

/-- `AdditiveUnscentedKalmanFilter.filter_update`, `unscented.py:1220-1331`. -/
noncomputable def pyAukfUpdate (p : PyUParams σ n m) (s : σ) (M : Moments n)
    (observation : Option (Obs m)) (a : PyUUpdateArgs σ n m) : Res (Moments n × σ) := do
  let f ← defaultFunction a.f p.f
  let g ← defaultFunction a.g p.g
  let Q := a.Q.getD p.Q
  let R := a.R.getD p.R
  let o : Obs m := match observation with
    | none => ⟨0, fun _ => true⟩
    | some o => o
  let pts ← moments2points M
  let r := callAll f s pts.points
  let pred := points2moments (pts.withRows r.res) (some Q)
  let pts' ← moments2points pred
  pure (pyCorrect g r.state pred pts' o R)

/-! ### General noise -/

/-- Resolved parameters of `UnscentedKalmanFilter` (`unscented.py:718-731`).  The functions get two
arrays. -/
structure PyGParams (σ : Type) (n m : ℕ) where
  f : Fns (PyFun σ (Vec n × Vec n) (Vec n))
  g : Fns (PyFun σ (Vec n × Vec m) (Vec m))
  Q : Mat n n
  R : Mat m m
  mu0 : Vec n
  S0 : Mat n n

/-- `f(points[i], points_noise[i])` for all points, `unscented.py:153-155`. -/
def callAll₂ {q : ℕ} (f : PyFun σ (Vec k × Vec q) β) (s : σ) (pts : SigmaPoints N k)
    (w : SigmaPoints N q) : Called σ N (Vec k × Vec q) β :=
  callAll f s fun i => (pts.points i, w.points i)

/-- `unscented_filter_correct`, `unscented.py:339-393`, with noise points. -/
noncomputable def pyCorrect₂ (g : PyFun σ (Vec n × Vec m) (Vec m)) (s : σ) (pred : Moments n)
    (pts : SigmaPoints N n) (o : Obs m) (w : SigmaPoints N m) : Moments n × σ :=
  let r := callAll₂ g s pts w
  let q := pts.withRows r.res
  let obs := points2moments q none
  (unscentedCorrect (crossCov (pts.withRows fun i => (r.args i).1) pred.mean q obs.mean) pred obs o,
    r.state)

/-- Body of the loop of `augmented_unscented_filter`, `unscented.py:430-468`. -/
noncomputable def pyUkfStep (p : PyGParams σ n m) (s₀ : σ) (t : ℕ)
    (prev : Option (Moments n × σ)) (o : Obs m) : Res (Moments n × σ) := do
  let M : Moments n × σ := prev.getD (⟨p.mu0, p.S0⟩, s₀)
  let pts ← augFilterPoints M.1 p.Q p.R
  match prev with
  | none => do
    let pred := points2moments pts.1 none
    let g ← p.g.at t
    pure (pyCorrect₂ g M.2 pred pts.1 o pts.2.2)
  | some _ => do
    let f ← p.f.at (t - 1)
    let r := callAll₂ f M.2 pts.1 pts.2.1
    let ptsPred := pts.1.withRows r.res
    let pred := points2moments ptsPred none
    let g ← p.g.at t
    pure (pyCorrect₂ g r.state pred ptsPred o pts.2.2)

/-- `UnscentedKalmanFilter.filter`, `unscented.py:862-902`, with `augmented_unscented_filter`,
`unscented.py:396-470`. -/
noncomputable def pyUkfFilter (p : PyGParams σ n m) (s : σ) (os : List (Obs m)) :
    Res (List (Moments n × σ)) :=
  runLoop (pyUkfStep p s) 0 none os

/-- Body of the loop of `augmented_unscented_smoother`, `unscented.py:504-539`. -/
noncomputable def pyUkfSmoothStep (p : PyGParams σ n m) (t : ℕ) (s next : Moments n × σ) :
    Res (Moments n × σ) := do
  let pts ← augPoints s.1 (⟨0, p.Q⟩ : Moments n)
  let f ← p.f.at t
  let r := callAll₂ f next.2 pts.1 pts.2
  let ptsPred := pts.1.withRows r.res
  let pred := points2moments ptsPred none
  pure (ufSmooth s.1 (pts.1.withRows fun i => (r.args i).1) ptsPred pred next.1, r.state)

/-- `UnscentedKalmanFilter.smooth`, `unscented.py:1024-1065`. -/
noncomputable def pyUkfSmooth (p : PyGParams σ n m) (s : σ) (os : List (Obs m)) :
    Res (List (Moments n × σ)) := do
  let l ← pyUkfFilter p s os
  backFull (pyUkfSmoothStep p) l

/-- Optional arguments of `UnscentedKalmanFilter.filter_update`, `unscented.py:904-913`. -/
structure PyGUpdateArgs (σ : Type) (n m : ℕ) where
  f : Option (PyFun σ (Vec n × Vec n) (Vec n)) := none
  Q : Option (Mat n n) := none
  g : Option (PyFun σ (Vec n × Vec m) (Vec m)) := none
  R : Option (Mat m m) := none

/-- `UnscentedKalmanFilter.filter_update`, `unscented.py:904-1022`. -/
noncomputable def pyUkfUpdate (p : PyGParams σ n m) (s : σ) (M : Moments n)
    (observation : Option (Obs m)) (a : PyGUpdateArgs σ n m) : Res (Moments n × σ) := do
  let f ← defaultFunction a.f p.f
  let g ← defaultFunction a.g p.g
  let Q := a.Q.getD p.Q
  let R := a.R.getD p.R
  let o : Obs m := match observation with
    | none => ⟨0, fun _ => true⟩
    | some o => o
  let pts ← augFilterPoints M Q R
  let r := callAll₂ f s pts.1 pts.2.1
  let ptsPred := pts.1.withRows r.res
  let pred := points2moments ptsPred none
  pure (pyCorrect₂ g r.state pred ptsPred o pts.2.2)

/-! ### Square roots -/

/-- `unscented_filter_correct`, `sqrt/unscented.py:350-404`, with additive noise. -/
noncomputable def pySqCorrect (qr : QR) (g : PyFun σ (Vec n) (Vec m)) (s : σ) (pred : Moments n)
    (pts : SigmaPoints N n) (o : Obs m) (R2 : Mat m m) : Res (Moments n × σ) := do
  let r := callAll g s pts.points
  let q := pts.withRows r.res
  let obs ← sqPoints2moments qr q (some R2)
  let M ← sqUnscentedCorrect (crossCov (pts.withRows r.args) pred.mean q obs.mean) pred obs o
  pure (M, r.state)

/-- Body of the loop of `_additive_unscented_filter`, `sqrt/unscented.py:444-470`. -/
noncomputable def pySqStep (qr : QR) (p : PyUParams σ n m) (Q2 : Mat n n) (R2 : Mat m m) (s₀ : σ)
    (t : ℕ) (prev : Option (Moments n × σ)) (o : Obs m) : Res (Moments n × σ) :=
  match prev with
  | none => do
    let S2 ← cholUpper p.S0
    let pts := sqMoments2points ⟨p.mu0, S2⟩
    let pred ← sqPoints2moments qr pts none
    let g ← p.g.at t
    pySqCorrect qr g s₀ pred pts o R2
  | some M => do
    let pts := sqMoments2points M.1
    let f ← p.f.at (t - 1)
    let r := callAll f M.2 pts.points
    let pred ← sqPoints2moments qr (pts.withRows r.res) (some Q2)
    let pts' := sqMoments2points pred
    let g ← p.g.at t
    pySqCorrect qr g r.state pred pts' o R2

/-- `_additive_unscented_filter`, `sqrt/unscented.py:407-472`. -/
noncomputable def pySqFull (qr : QR) (p : PyUParams σ n m) (s : σ) (os : List (Obs m)) :
    Res (List (Moments n × σ)) := do
  let Q2 ← cholUpper p.Q
  let R2 ← cholUpper p.R
  runLoop (pySqStep qr p Q2 R2 s) 0 none os

/-- `AdditiveUnscentedKalmanFilter.filter`, `sqrt/unscented.py:599-647`. -/
noncomputable def pySqFilter (qr : QR) (p : PyUParams σ n m) (s : σ) (os : List (Obs m)) :
    Res (List (Moments n × σ)) := do
  let l ← pySqFull qr p s os
  pure (l.map fun r => (r.1.unroot, r.2))

/-- Body of the loop of `_additive_unscented_smoother`, `sqrt/unscented.py:511-549`:
`points_state.points` is read after the calls of the transition function. -/
noncomputable def pySqSmoothStep (qr : QR) (p : PyUParams σ n m) (Q2 : Mat n n) (t : ℕ)
    (s next : Moments n × σ) : Res (Moments n × σ) := do
  let pts := sqMoments2points s.1
  let f ← p.f.at t
  let r := callAll f next.2 pts.points
  let ptsPred := pts.withRows r.res
  let pred ← sqPoints2moments qr ptsPred (some Q2)
  let pair := pairCov ptsPred (pts.withRows r.args) pred.mean s.1.mean
  let gain := (lstsq pred.cov (lstsq pred.covᵀ pairᵀ))ᵀ
  let U ← cholupdate pred.cov next.1.cov (-1.0)
  let sigma2 ← cholupdate s.1.cov (gain * Uᵀ)ᵀ (-1.0)
  pure (⟨s.1.mean + gain *ᵥ (next.1.mean - pred.mean), sigma2⟩, r.state)

/-- `AdditiveUnscentedKalmanFilter.smooth`, `sqrt/unscented.py:771-825`, with
`_additive_unscented_smoother`, `sqrt/unscented.py:475-551`. -/
noncomputable def pySqSmooth (qr : QR) (p : PyUParams σ n m) (s : σ) (os : List (Obs m)) :
    Res (List (Moments n × σ)) := do
  let l ← pySqFull qr p s os
  let Q2 ← cholUpper p.Q
  let l' ← backFull (pySqSmoothStep qr p Q2) l
  pure (l'.map fun r => (r.1.unroot, r.2))

/-- `AdditiveUnscentedKalmanFilter.filter_update`, `sqrt/unscented.py:649-769`.  The covariance it
returns has one leading axis of length one more than modelled here, see C44. -/
noncomputable def pySqUpdate (qr : QR) (p : PyUParams σ n m) (s : σ) (M : Moments n)
    (observation : Option (Obs m)) (a : PyUUpdateArgs σ n m) : Res (Moments n × σ) := do
  let f ← defaultFunction a.f p.f
  let g ← defaultFunction a.g p.g
  let Q := a.Q.getD p.Q
  let R := a.R.getD p.R
  let o : Obs m := match observation with
    | none => ⟨0, fun _ => true⟩
    | some o => o
  let P2 ← cholUpper M.cov
  let Q2 ← cholUpper Q
  let R2 ← cholUpper R
  let pts := sqMoments2points ⟨M.mean, P2⟩
  let r := callAll f s pts.points
  let pred ← sqPoints2moments qr (pts.withRows r.res) (some Q2)
  let pts' := sqMoments2points pred
  let c ← pySqCorrect qr g r.state pred pts' o R2
  pure (c.1.unroot, c.2)

/-! ### `sample` -/

/-- The loop of `AdditiveUnscentedKalmanFilter.sample`, `unscented.py:1162-1174`, from `t ≥ 1` on.
`prev` is what is in `x[t - 1]`, a row of the array that is returned; the first component of the result
is what is in it at the end. -/
def pyAukfSampleLoop {ρ : Type} (rng : Rng ρ) (p : PyUParams σ n m) :
    ℕ → ℕ → Vec n → σ → ρ → Res (Vec n × List (Vec n × Vec m))
  | 0, _, prev, _, _ => pure (prev, [])
  | k + 1, t, prev, s, r => do
    let f ← p.f.at (t - 1)
    let w := rng.normal n 0 p.Q r
    let c := f s prev
    let x := c.2.2 c.1 c.2.1 + w.1
    let g ← p.g.at t
    let v := rng.normal m 0 p.R w.2
    let c' := g c.1 x
    let z := c'.2.2 c'.1 c'.2.1 + v.1
    let rest ← pyAukfSampleLoop rng p k (t + 1) c'.2.1 c'.1 v.2
    pure (c.2.1, (rest.1, z) :: rest.2)

/-- `AdditiveUnscentedKalmanFilter.sample`, `unscented.py:1124-1176`; `x[0] = initial_state` copies
the argument. -/
def pyAukfSample {ρ : Type} (rng : Rng ρ) (p : PyUParams σ n m) (T : ℕ) (initial : Option (Vec n))
    (s : σ) (r : ρ) : Res (List (Vec n × Vec m)) :=
  let i := match initial with
    | some x => (x, r)
    | none => rng.normal n p.mu0 p.S0 r
  match T with
  | 0 => pure []
  | k + 1 => do
    let g ← p.g.at 0
    let v := rng.normal m 0 p.R i.2
    let c := g s i.1
    let z := c.2.2 c.1 c.2.1 + v.1
    let rest ← pyAukfSampleLoop rng p k 1 c.2.1 c.1 v.2
    pure ((rest.1, z) :: rest.2)

/-- The loop of `UnscentedKalmanFilter.sample`, `unscented.py:846-858`, from `t ≥ 1` on; `prev` and the
first component of the result as in `pyAukfSampleLoop`. -/
def pyUkfSampleLoop {ρ : Type} (rng : Rng ρ) (p : PyGParams σ n m) :
    ℕ → ℕ → Vec n → σ → ρ → Res (Vec n × List (Vec n × Vec m))
  | 0, _, prev, _, _ => pure (prev, [])
  | k + 1, t, prev, s, r => do
    let f ← p.f.at (t - 1)
    let w := rng.normal n 0 p.Q r
    let c := f s (prev, w.1)
    let x := c.2.2 c.1 c.2.1
    let g ← p.g.at t
    let v := rng.normal m 0 p.R w.2
    let c' := g c.1 (x, v.1)
    let z := c'.2.2 c'.1 c'.2.1
    let rest ← pyUkfSampleLoop rng p k (t + 1) c'.2.1.1 c'.1 v.2
    pure (c.2.1.1, (rest.1, z) :: rest.2)

/-- `UnscentedKalmanFilter.sample`, `unscented.py:806-860`; `x[0] = initial_state` and
`x[t] = transition_func(…)` copy. -/
def pyUkfSample {ρ : Type} (rng : Rng ρ) (p : PyGParams σ n m) (T : ℕ) (initial : Option (Vec n))
    (s : σ) (r : ρ) : Res (List (Vec n × Vec m)) :=
  let i := match initial with
    | some x => (x, r)
    | none => rng.normal n p.mu0 p.S0 r
  match T with
  | 0 => pure []
  | k + 1 => do
    let g ← p.g.at 0
    let v := rng.normal m 0 p.R i.2
    let c := g s (i.1, v.1)
    let z := c.2.2 c.1 c.2.1
    let rest ← pyUkfSampleLoop rng p k 1 c.2.1.1 c.1 v.2
    pure ((rest.1, z) :: rest.2)

end Verif
