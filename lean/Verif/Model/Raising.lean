import Verif.Model.SqrtUnscented

/-!
# The user's functions may raise exceptions

`unscented.py`, `sqrt/unscented.py`.  The other models of these files take transition and observation
functions that return a value for every argument.  Here a call may raise an exception instead, of any
type `E` of exceptions (a `ValueError` of the user's function is kept apart from one of the library).
The code has no `try`: an exception ends the method.  Line numbers refer to
`/repo/pykalman/unscented.py` unless another file is named.
-/

open Matrix

namespace Verif

variable {E α β : Type} {n m k l N : ℕ}

/-- What a method raises: an exception of the library, or one of the user's functions. -/
inductive Exn (E : Type) where
  | lib (e : Err)
  | user (e : E)

/-- Result of a method that calls functions of the user. -/
abbrev ResE (E α : Type) := Except (Exn E) α

/-- A step in which no function of the user is called. -/
def libE : Res α → ResE E α
  | .ok a => .ok a
  | .error e => .error (.lib e)

/-- A call of a function of the user. -/
def userE : Except E α → ResE E α
  | .ok a => .ok a
  | .error e => .error (.user e)

/-- `[f(points[i]) for i in range(n_points)]`, `unscented.py:152-155`, `sqrt/unscented.py:235-237`: the
first call that raises ends it. -/
def callEach : {N : ℕ} → (Fin N → Except E β) → Except E (Fin N → β)
  | 0, _ => .ok Fin.elim0
  | _ + 1, r => do
    let y ← r 0
    let rest ← callEach fun i => r i.succ
    pure (Fin.cons y rest)

/-- Points passed through a function, `unscented.py:148-161`, `sqrt/unscented.py:231-243`. -/
def SigmaPoints.mapE (s : SigmaPoints N k) (f : Vec k → Except E (Vec l)) :
    ResE E (SigmaPoints N l) := do
  let x ← userE (callEach fun i => f (s.points i))
  pure ⟨x, s.wm, s.wc⟩

/-- Points passed through a function, with noise points, `unscented.py:148-161`. -/
def SigmaPoints.mapE₂ {q : ℕ} (s : SigmaPoints N k) (w : SigmaPoints N q)
    (f : Vec k → Vec q → Except E (Vec l)) : ResE E (SigmaPoints N l) := do
  let x ← userE (callEach fun i => f (s.points i) (w.points i))
  pure ⟨x, s.wm, s.wc⟩

/-- The loop of a filter, see `runLoop`. -/
def runLoopE {σ : Type} (step : ℕ → Option σ → Obs m → ResE E σ) :
    ℕ → Option σ → List (Obs m) → ResE E (List σ)
  | _, _, [] => pure []
  | t, prev, o :: os => do
    let s ← step t prev o
    let rest ← runLoopE step (t + 1) (some s) os
    pure (s :: rest)

/-- The loop of a smoother, see `backLoop`. -/
def backLoopE {σ : Type} (step : ℕ → σ → σ → ResE E σ) : ℕ → σ → List σ → ResE E (σ × List σ)
  | _, s, [] => pure (s, [])
  | t, s, s' :: rest => do
    let r ← backLoopE step (t + 1) s' rest
    let x ← step t s r.1
    pure (x, r.1 :: r.2)

/-- A smoother's loop on all rows, see `backFull`. -/
def backFullE {σ : Type} (step : ℕ → σ → σ → ResE E σ) : List σ → ResE E (List σ)
  | [] => .error (.lib .indexError)
  | s :: rest => do
    let r ← backLoopE step 0 s rest
    pure (r.1 :: r.2)

/-! ### Additive noise -/

/-- Resolved parameters of `AdditiveUnscentedKalmanFilter` (`unscented.py:718-731`). -/
structure EUParams (E : Type) (n m : ℕ) where
  f : Fns (Vec n → Except E (Vec n))
  g : Fns (Vec n → Except E (Vec m))
  Q : Mat n n
  R : Mat m m
  mu0 : Vec n
  S0 : Mat n n

/-- `unscented_filter_correct`, `unscented.py:339-393`, with additive noise.  The observation function
is called before the mask is looked at (`unscented.py:196`). -/
noncomputable def ufCorrectE (g : Vec n → Except E (Vec m)) (pred : Moments n)
    (pts : SigmaPoints N n) (o : Obs m) (R : Mat m m) : ResE E (Moments n) := do
  let q ← pts.mapE g
  let obs := points2moments q (some R)
  pure (unscentedCorrect (crossCov pts pred.mean q obs.mean) pred obs o)

/-- Body of the loop of `additive_unscented_filter`, `unscented.py:578-605`. -/
noncomputable def aukfStepE (p : EUParams E n m) (t : ℕ) (prev : Option (Moments n)) (o : Obs m) :
    ResE E (Moments n) := do
  let M : Moments n := prev.getD ⟨p.mu0, p.S0⟩
  let pts ← libE (moments2points M)
  match prev with
  | none => do
    let pred := points2moments pts none
    let g ← libE (p.g.at t)
    ufCorrectE g pred pts o p.R
  | some _ => do
    let f ← libE (p.f.at (t - 1))
    let q ← pts.mapE f
    let pred := points2moments q (some p.Q)
    let pts' ← libE (moments2points pred)
    let g ← libE (p.g.at t)
    ufCorrectE g pred pts' o p.R

/-- `AdditiveUnscentedKalmanFilter.filter`, `unscented.py:1178-1218`, with
`additive_unscented_filter`, `unscented.py:544-607`. -/
noncomputable def aukfFilterE (p : EUParams E n m) (os : List (Obs m)) :
    ResE E (List (Moments n)) :=
  runLoopE (aukfStepE p) 0 none os

/-- Body of the loop of `additive_unscented_smoother`, `unscented.py:642-673`. -/
noncomputable def aukfSmoothStepE (p : EUParams E n m) (t : ℕ) (s next : Moments n) :
    ResE E (Moments n) := do
  let pts ← libE (moments2points s)
  let f ← libE (p.f.at t)
  let ptsPred ← pts.mapE f
  let pred := points2moments ptsPred (some p.Q)
  pure (ufSmooth s pts ptsPred pred next)

/-- `AdditiveUnscentedKalmanFilter.smooth`, `unscented.py:1333-1374`. -/
noncomputable def aukfSmoothE (p : EUParams E n m) (os : List (Obs m)) :
    ResE E (List (Moments n)) := do
  let l ← aukfFilterE p os
  backFullE (aukfSmoothStepE p) l

/-- Optional arguments of `AdditiveUnscentedKalmanFilter.filter_update`,
`unscented.py:1220-1229`. -/
structure EUUpdateArgs (E : Type) (n m : ℕ) where
  f : Option (Vec n → Except E (Vec n)) := none
  Q : Option (Mat n n) := none
  g : Option (Vec n → Except E (Vec m)) := none
  R : Option (Mat m m) := none

/-- `AdditiveUnscentedKalmanFilter.filter_update`, `unscented.py:1220-1331`. -/
noncomputable def aukfUpdateE (p : EUParams E n m) (M : Moments n) (observation : Option (Obs m))
    (a : EUUpdateArgs E n m) : ResE E (Moments n) := do
  let f ← libE (defaultFunction a.f p.f)
  let g ← libE (defaultFunction a.g p.g)
  let Q := a.Q.getD p.Q
  let R := a.R.getD p.R
  let o : Obs m := match observation with
    | none => ⟨0, fun _ => true⟩
    | some o => o
  let pts ← libE (moments2points M)
  let q ← pts.mapE f
  let pred := points2moments q (some Q)
  let pts' ← libE (moments2points pred)
  ufCorrectE g pred pts' o R

/-! ### General noise -/

/-- Resolved parameters of `UnscentedKalmanFilter` (`unscented.py:718-731`). -/
structure EGParams (E : Type) (n m : ℕ) where
  f : Fns (Vec n → Vec n → Except E (Vec n))
  g : Fns (Vec n → Vec m → Except E (Vec m))
  Q : Mat n n
  R : Mat m m
  mu0 : Vec n
  S0 : Mat n n

/-- `unscented_filter_correct`, `unscented.py:339-393`, with noise points. -/
noncomputable def ufCorrectE₂ (g : Vec n → Vec m → Except E (Vec m)) (pred : Moments n)
    (pts : SigmaPoints N n) (o : Obs m) (w : SigmaPoints N m) : ResE E (Moments n) := do
  let q ← pts.mapE₂ w g
  let obs := points2moments q none
  pure (unscentedCorrect (crossCov pts pred.mean q obs.mean) pred obs o)

/-- Body of the loop of `augmented_unscented_filter`, `unscented.py:430-468`. -/
noncomputable def ukfStepE (p : EGParams E n m) (t : ℕ) (prev : Option (Moments n)) (o : Obs m) :
    ResE E (Moments n) := do
  let M : Moments n := prev.getD ⟨p.mu0, p.S0⟩
  let pts ← libE (augFilterPoints M p.Q p.R)
  match prev with
  | none => do
    let pred := points2moments pts.1 none
    let g ← libE (p.g.at t)
    ufCorrectE₂ g pred pts.1 o pts.2.2
  | some _ => do
    let f ← libE (p.f.at (t - 1))
    let ptsPred ← pts.1.mapE₂ pts.2.1 f
    let pred := points2moments ptsPred none
    let g ← libE (p.g.at t)
    ufCorrectE₂ g pred ptsPred o pts.2.2

/-- `UnscentedKalmanFilter.filter`, `unscented.py:862-902`, with `augmented_unscented_filter`,
`unscented.py:396-470`. -/
noncomputable def ukfFilterE (p : EGParams E n m) (os : List (Obs m)) : ResE E (List (Moments n)) :=
  runLoopE (ukfStepE p) 0 none os

/-- Body of the loop of `augmented_unscented_smoother`, `unscented.py:504-539`. -/
noncomputable def ukfSmoothStepE (p : EGParams E n m) (t : ℕ) (s next : Moments n) :
    ResE E (Moments n) := do
  let pts ← libE (augPoints s (⟨0, p.Q⟩ : Moments n))
  let f ← libE (p.f.at t)
  let ptsPred ← pts.1.mapE₂ pts.2 f
  let pred := points2moments ptsPred none
  pure (ufSmooth s pts.1 ptsPred pred next)

/-- `UnscentedKalmanFilter.smooth`, `unscented.py:1024-1065`. -/
noncomputable def ukfSmoothE (p : EGParams E n m) (os : List (Obs m)) :
    ResE E (List (Moments n)) := do
  let l ← ukfFilterE p os
  backFullE (ukfSmoothStepE p) l

/-- Optional arguments of `UnscentedKalmanFilter.filter_update`, `unscented.py:904-913`. -/
structure EGUpdateArgs (E : Type) (n m : ℕ) where
  f : Option (Vec n → Vec n → Except E (Vec n)) := none
  Q : Option (Mat n n) := none
  g : Option (Vec n → Vec m → Except E (Vec m)) := none
  R : Option (Mat m m) := none

/-- `UnscentedKalmanFilter.filter_update`, `unscented.py:904-1022`. -/
noncomputable def ukfUpdateE (p : EGParams E n m) (M : Moments n) (observation : Option (Obs m))
    (a : EGUpdateArgs E n m) : ResE E (Moments n) := do
  let f ← libE (defaultFunction a.f p.f)
  let g ← libE (defaultFunction a.g p.g)
  let Q := a.Q.getD p.Q
  let R := a.R.getD p.R
  let o : Obs m := match observation with
    | none => ⟨0, fun _ => true⟩
    | some o => o
  let pts ← libE (augFilterPoints M Q R)
  let ptsPred ← pts.1.mapE₂ pts.2.1 f
  let pred := points2moments ptsPred none
  ufCorrectE₂ g pred ptsPred o pts.2.2

/-! ### Square roots -/

/-- `unscented_filter_correct`, `sqrt/unscented.py:350-404`, with additive noise. -/
noncomputable def sqCorrectE (qr : QR) (g : Vec n → Except E (Vec m)) (pred : Moments n)
    (pts : SigmaPoints N n) (o : Obs m) (R2 : Mat m m) : ResE E (Moments n) := do
  let q ← pts.mapE g
  let obs ← libE (sqPoints2moments qr q (some R2))
  libE (sqUnscentedCorrect (crossCov pts pred.mean q obs.mean) pred obs o)

/-- Body of the loop of `_additive_unscented_filter`, `sqrt/unscented.py:444-470`. -/
noncomputable def sqStepE (qr : QR) (p : EUParams E n m) (Q2 : Mat n n) (R2 : Mat m m) (t : ℕ)
    (prev : Option (Moments n)) (o : Obs m) : ResE E (Moments n) :=
  match prev with
  | none => do
    let S2 ← libE (cholUpper p.S0)
    let pts := sqMoments2points ⟨p.mu0, S2⟩
    let pred ← libE (sqPoints2moments qr pts none)
    let g ← libE (p.g.at t)
    sqCorrectE qr g pred pts o R2
  | some M => do
    let pts := sqMoments2points M
    let f ← libE (p.f.at (t - 1))
    let q ← pts.mapE f
    let pred ← libE (sqPoints2moments qr q (some Q2))
    let pts' := sqMoments2points pred
    let g ← libE (p.g.at t)
    sqCorrectE qr g pred pts' o R2

/-- `_additive_unscented_filter`, `sqrt/unscented.py:407-472`. -/
noncomputable def sqFullE (qr : QR) (p : EUParams E n m) (os : List (Obs m)) :
    ResE E (List (Moments n)) := do
  let Q2 ← libE (cholUpper p.Q)
  let R2 ← libE (cholUpper p.R)
  runLoopE (sqStepE qr p Q2 R2) 0 none os

/-- `AdditiveUnscentedKalmanFilter.filter`, `sqrt/unscented.py:599-647`. -/
noncomputable def sqFilterE (qr : QR) (p : EUParams E n m) (os : List (Obs m)) :
    ResE E (List (Moments n)) := do
  let l ← sqFullE qr p os
  pure (l.map Moments.unroot)

/-- Body of the loop of `_additive_unscented_smoother`, `sqrt/unscented.py:508-549`. -/
noncomputable def sqSmoothStepE (qr : QR) (p : EUParams E n m) (Q2 : Mat n n) (t : ℕ)
    (s next : Moments n) : ResE E (Moments n) := do
  let pts := sqMoments2points s
  let f ← libE (p.f.at t)
  let ptsPred ← pts.mapE f
  let pred ← libE (sqPoints2moments qr ptsPred (some Q2))
  let pair := pairCov ptsPred pts pred.mean s.mean
  let gain := (lstsq pred.cov (lstsq pred.covᵀ pairᵀ))ᵀ
  let U ← libE (cholupdate pred.cov next.cov (-1.0))
  let sigma2 ← libE (cholupdate s.cov (gain * Uᵀ)ᵀ (-1.0))
  pure ⟨s.mean + gain *ᵥ (next.mean - pred.mean), sigma2⟩

/-- `AdditiveUnscentedKalmanFilter.smooth`, `sqrt/unscented.py:771-825`, with
`_additive_unscented_smoother`, `sqrt/unscented.py:475-551`. -/
noncomputable def sqSmoothE (qr : QR) (p : EUParams E n m) (os : List (Obs m)) :
    ResE E (List (Moments n)) := do
  let l ← sqFullE qr p os
  let Q2 ← libE (cholUpper p.Q)
  let l' ← backFullE (sqSmoothStepE qr p Q2) l
  pure (l'.map Moments.unroot)

/-- `AdditiveUnscentedKalmanFilter.filter_update`, `sqrt/unscented.py:649-769`. -/
noncomputable def sqUpdateE (qr : QR) (p : EUParams E n m) (M : Moments n)
    (observation : Option (Obs m)) (a : EUUpdateArgs E n m) : ResE E (Moments n) := do
  let f ← libE (defaultFunction a.f p.f)
  let g ← libE (defaultFunction a.g p.g)
  let Q := a.Q.getD p.Q
  let R := a.R.getD p.R
  let o : Obs m := match observation with
    | none => ⟨0, fun _ => true⟩
    | some o => o
  let P2 ← libE (cholUpper M.cov)
  let Q2 ← libE (cholUpper Q)
  let R2 ← libE (cholUpper R)
  let pts := sqMoments2points ⟨M.mean, P2⟩
  let q ← pts.mapE f
  let pred ← libE (sqPoints2moments qr q (some Q2))
  let pts' := sqMoments2points pred
  let r ← sqCorrectE qr g pred pts' o R2
  pure r.unroot

end Verif
