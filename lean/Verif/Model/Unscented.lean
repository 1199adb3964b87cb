import Verif.Model.Standard
import Mathlib.Data.Fin.Tuple.Basic
import Mathlib.Analysis.SpecialFunctions.Pow.Real

/-!
# Model of `pykalman/unscented.py`

Line numbers refer to `/repo/pykalman/unscented.py` unless another file is named.  Transition and
observation functions are total deterministic functions that return an array of the expected shape.
-/

open Matrix

namespace Verif

variable {n m k l N : ℕ}

/-- `SigmaPoints`, `unscented.py:28-32`: one point per row. -/
structure SigmaPoints (N k : ℕ) where
  points : Fin N → Vec k
  wm : Fin N → ℝ
  wc : Fin N → ℝ

/-- `Moments`, `unscented.py:35`. -/
structure Moments (k : ℕ) where
  mean : Vec k
  cov : Mat k k

/-- `points2moments`, `unscented.py:38-59`. -/
def points2moments (s : SigmaPoints N k) (noise : Option (Mat k k)) : Moments k :=
  let mu : Vec k := (Matrix.of s.points)ᵀ *ᵥ s.wm
  let diff : Mat k N := Matrix.of fun i j => s.points j i - mu i
  let sigma := diff * diagonal s.wc * diffᵀ
  match noise with
  | some S => ⟨mu, sigma + S⟩
  | none => ⟨mu, sigma⟩

/-- The upper triangle of a matrix is what `linalg.cholesky(sigma)` reads; `.T` of its result is the
lower factor, `unscented.py:93`. -/
noncomputable def cholUpperT (A : Mat n n) : Res (Mat n n) := cholesky Aᵀ

/-- Rows of the array `points.T` that `moments2points` builds from a square root `sigma2`,
`unscented.py:95-108`. -/
noncomputable def sigmaRows (mu : Vec n) (sigma2 : Mat n n) (c : ℝ) : Fin (n + n + 1) → Vec n :=
  Fin.cons mu (Fin.append (fun j i => mu i + sigma2 i j * Real.sqrt c)
    (fun j i => mu i - sigma2 i j * Real.sqrt c))

/-- Points and weights that `moments2points` builds from a square root `sigma2`,
`unscented.py:85-116`.  (For `c ≤ 0` the code divides by zero or takes the root of a negative
number; the model then returns meaningless numbers, and no statement covers this case.) -/
noncomputable def sigmaPoints (mu : Vec n) (sigma2 : Mat n n) (alpha beta kappa : Option ℝ) :
    SigmaPoints (n + n + 1) n :=
  let alpha := alpha.getD 1.0
  let beta := beta.getD 0.0
  let kappa := kappa.getD (3.0 - n)
  let lamda := (alpha * alpha) * (n + kappa) - n
  let c := n + lamda
  ⟨sigmaRows mu sigma2 c,
   Fin.cons (lamda / c) fun _ => 0.5 / c,
   Fin.cons (lamda / c + (1 - alpha * alpha + beta)) fun _ => 0.5 / c⟩

/-- `moments2points`, `unscented.py:62-116`. -/
noncomputable def moments2points (M : Moments n) (alpha beta kappa : Option ℝ := none) :
    Res (SigmaPoints (n + n + 1) n) := do
  let sigma2 ← cholUpperT M.cov
  pure (sigmaPoints M.mean sigma2 alpha beta kappa)

/-- Points passed through a function, `unscented.py:148-161`, without noise points. -/
def SigmaPoints.map (s : SigmaPoints N k) (f : Vec k → Vec l) : SigmaPoints N l :=
  ⟨fun i => f (s.points i), s.wm, s.wc⟩

/-- Points passed through a function, `unscented.py:148-161`, with noise points. -/
def SigmaPoints.map₂ {q : ℕ} (s : SigmaPoints N k) (w : SigmaPoints N q)
    (f : Vec k → Vec q → Vec l) : SigmaPoints N l :=
  ⟨fun i => f (s.points i) (w.points i), s.wm, s.wc⟩

/-- `unscented_correct`, `unscented.py:169-206`. -/
noncomputable def unscentedCorrect (cross : Mat n m) (pred : Moments n) (obs : Moments m)
    (o : Obs m) : Moments n :=
  if ¬ o.missing then
    let K := cross * pinv obs.cov
    ⟨pred.mean + K *ᵥ (o.val - obs.mean), pred.cov - K * crossᵀ⟩
  else pred

/-- `sigma_pair` in `unscented_filter_correct`, `unscented.py:381-386`: weighted by
`weights_mean`. -/
def crossCov (p : SigmaPoints N n) (mu : Vec n) (q : SigmaPoints N m) (nu : Vec m) : Mat n m :=
  (Matrix.of fun i j => p.points j i - mu i : Mat n N) * diagonal p.wm
    * (Matrix.of fun j i => q.points j i - nu i : Mat N m)

/-- `unscented_filter_correct`, `unscented.py:339-393`, with additive noise. -/
noncomputable def ufCorrect (g : Vec n → Vec m) (pred : Moments n) (pts : SigmaPoints N n)
    (o : Obs m) (R : Mat m m) : Moments n :=
  let q := pts.map g
  let obs := points2moments q (some R)
  unscentedCorrect (crossCov pts pred.mean q obs.mean) pred obs o

/-- `unscented_filter_correct`, `unscented.py:339-393`, with noise points. -/
noncomputable def ufCorrect₂ (g : Vec n → Vec m → Vec m) (pred : Moments n)
    (pts : SigmaPoints N n) (o : Obs m) (w : SigmaPoints N m) : Moments n :=
  let q := pts.map₂ w g
  let obs := points2moments q none
  unscentedCorrect (crossCov pts pred.mean q obs.mean) pred obs o

/-- What `array1d` makes of `transition_functions` or `observation_functions`
(`unscented.py:742-743`): an array of functions with one axis (also for a single function), or with
two axes. -/
inductive Fns (α : Type) where
  | flat : List α → Fns α
  | nested : List (List α) → Fns α

/-- `a[0]`. -/
def first {α : Type} : List α → Res α
  | [] => .error .indexError
  | a :: _ => .ok a

/-- `_last_dims(f, t, ndims=1)[0]`, `unscented.py:455`, `461`, `519`, `595`, `602`, `653` with
`standard.py:92-120`. -/
def Fns.at {α : Type} : Fns α → ℕ → Res α
  | .flat l, _ => first l
  | .nested l, t =>
    match l[t]? with
    | some r => first r
    | none => .error .indexError

/-- The loop `for t in range(T)` of a filter, from time `t` on: row `t` is computed from row
`t - 1` (none at time 0) and observation `t`. -/
def runLoop {σ : Type} (step : ℕ → Option σ → Obs m → Res σ) :
    ℕ → Option σ → List (Obs m) → Res (List σ)
  | _, _, [] => pure []
  | t, prev, o :: os => do
    let s ← step t prev o
    let rest ← runLoop step (t + 1) (some s) os
    pure (s :: rest)

/-- The loop `for t in reversed(range(T - 1))` of a smoother, from time `t` on: the last row is
copied, the others are computed from the filter's row and the smoothed row after it. -/
def backLoop {σ : Type} (step : ℕ → σ → σ → Res σ) : ℕ → σ → List σ → Res (σ × List σ)
  | _, s, [] => pure (s, [])
  | t, s, s' :: rest => do
    let r ← backLoop step (t + 1) s' rest
    let x ← step t s r.1
    pure (x, r.1 :: r.2)

/-- A smoother's loop on all rows.  With no time steps `mu_filt[-1]` raises `IndexError`. -/
def backFull {σ : Type} (step : ℕ → σ → σ → Res σ) : List σ → Res (List σ)
  | [] => .error .indexError
  | s :: rest => do
    let r ← backLoop step 0 s rest
    pure (r.1 :: r.2)

/-- Resolved parameters of `AdditiveUnscentedKalmanFilter` (`unscented.py:718-731`). -/
structure UParams (n m : ℕ) where
  f : Fns (Vec n → Vec n)
  g : Fns (Vec n → Vec m)
  Q : Mat n n
  R : Mat m m
  mu0 : Vec n
  S0 : Mat n n

/-- Body of the loop of `additive_unscented_filter`, `unscented.py:578-605`, with
`unscented_filter_predict`, `unscented.py:294-336`, written out. -/
noncomputable def aukfStep (p : UParams n m) (t : ℕ) (prev : Option (Moments n)) (o : Obs m) :
    Res (Moments n) := do
  let M : Moments n := prev.getD ⟨p.mu0, p.S0⟩
  let pts ← moments2points M
  match prev with
  | none => do
    let pred := points2moments pts none
    let g ← p.g.at t
    pure (ufCorrect g pred pts o p.R)
  | some _ => do
    let f ← p.f.at (t - 1)
    let pred := points2moments (pts.map f) (some p.Q)
    let pts' ← moments2points pred
    let g ← p.g.at t
    pure (ufCorrect g pred pts' o p.R)

/-- `additive_unscented_filter`, `unscented.py:544-607` (loop 578-605), and
`AdditiveUnscentedKalmanFilter.filter`, `unscented.py:1178-1218`. -/
noncomputable def aukfFilter (p : UParams n m) (os : List (Obs m)) : Res (List (Moments n)) :=
  runLoop (aukfStep p) 0 none os

/-- The last lines of the loop bodies of the two smoothers, `unscented.py:522-539` and
`unscented.py:656-673`; `ptsPred` are the points passed through the transition function. -/
noncomputable def ufSmooth (filt : Moments n) (pts ptsPred : SigmaPoints N n) (pred : Moments n)
    (next : Moments n) : Moments n :=
  let pair : Mat n n := ((Matrix.of fun i j => ptsPred.points j i - pred.mean i : Mat n N)
    * diagonal ptsPred.wc * (Matrix.of fun j i => pts.points j i - filt.mean i : Mat N n))ᵀ
  let gain := pair * pinv pred.cov
  ⟨filt.mean + gain *ᵥ (next.mean - pred.mean),
   filt.cov + gain * (next.cov - pred.cov) * gainᵀ⟩

/-- Body of the loop of `additive_unscented_smoother`, `unscented.py:642-673`. -/
noncomputable def aukfSmoothStep (p : UParams n m) (t : ℕ) (s next : Moments n) :
    Res (Moments n) := do
  let pts ← moments2points s
  let f ← p.f.at t
  let ptsPred := pts.map f
  let pred := points2moments ptsPred (some p.Q)
  pure (ufSmooth s pts ptsPred pred next)

/-- `AdditiveUnscentedKalmanFilter.smooth`, `unscented.py:1333-1374`, with
`additive_unscented_smoother`, `unscented.py:610-675`. -/
noncomputable def aukfSmooth (p : UParams n m) (os : List (Obs m)) : Res (List (Moments n)) := do
  let l ← aukfFilter p os
  backFull (aukfSmoothStep p) l

/-- `default_function`, `unscented.py:966-970` and `unscented.py:1282-1286`.  If the only entry is
itself an array, calling it raises `TypeError` (a little later than in this model). -/
def defaultFunction {α : Type} (f : Option α) : Fns α → Res α
  | .flat l =>
    match f with
    | some f => .ok f
    | none =>
      match l with
      | [a] => .ok a
      | _ => .error .assertionError
  | .nested l =>
    match f with
    | some f => .ok f
    | none => if l.length = 1 then .error .typeError else .error .assertionError

/-- Optional arguments of `AdditiveUnscentedKalmanFilter.filter_update`,
`unscented.py:1220-1229`. -/
structure UUpdateArgs (n m : ℕ) where
  f : Option (Vec n → Vec n) := none
  Q : Option (Mat n n) := none
  g : Option (Vec n → Vec m) := none
  R : Option (Mat m m) := none

/-- `AdditiveUnscentedKalmanFilter.filter_update`, `unscented.py:1220-1331`. -/
noncomputable def aukfUpdate (p : UParams n m) (M : Moments n) (observation : Option (Obs m))
    (a : UUpdateArgs n m) : Res (Moments n) := do
  let f ← defaultFunction a.f p.f
  let g ← defaultFunction a.g p.g
  let Q := a.Q.getD p.Q
  let R := a.R.getD p.R
  let o : Obs m := match observation with
    | none => ⟨0, fun _ => true⟩
    | some o => o
  let pts ← moments2points M
  let pred := points2moments (pts.map f) (some Q)
  let pts' ← moments2points pred
  pure (ufCorrect g pred pts' o R)

/-! ### General noise -/

/-- `linalg.block_diag` of two matrices. -/
def blockDiag {a b : ℕ} (S : Mat a a) (T : Mat b b) : Mat (a + b) (a + b) :=
  (fromBlocks S 0 0 T).submatrix finSumFinEquiv.symm finSumFinEquiv.symm

/-- `np.concatenate` of two vectors. -/
def concat {a b : ℕ} (u : Vec a) (v : Vec b) : Vec (a + b) := Fin.append u v

/-- Columns `:a` of an array of sigma points. -/
def SigmaPoints.left {a b : ℕ} (s : SigmaPoints N (a + b)) : SigmaPoints N a :=
  ⟨fun i j => s.points i (Fin.castAdd b j), s.wm, s.wc⟩

/-- Columns `a:` of an array of sigma points. -/
def SigmaPoints.right {a b : ℕ} (s : SigmaPoints N (a + b)) : SigmaPoints N b :=
  ⟨fun i j => s.points i (Fin.natAdd a j), s.wm, s.wc⟩

/-- `augmented_points`, `unscented.py:209-246`, of two moments. -/
noncomputable def augPoints {a b : ℕ} (M : Moments a) (M' : Moments b) :
    Res (SigmaPoints ((a + b) + (a + b) + 1) a × SigmaPoints ((a + b) + (a + b) + 1) b) := do
  let s ← moments2points ⟨concat M.mean M'.mean, blockDiag M.cov M'.cov⟩
  pure (s.left, s.right)

/-- `augmented_unscented_filter_points`, `unscented.py:249-291`, with `augmented_points`,
`unscented.py:209-246`, of three moments: points for state, transition noise, observation noise. -/
noncomputable def augFilterPoints (M : Moments n) (Q : Mat n n) (R : Mat m m) :
    Res (SigmaPoints ((n + n + m) + (n + n + m) + 1) n
      × SigmaPoints ((n + n + m) + (n + n + m) + 1) n
      × SigmaPoints ((n + n + m) + (n + n + m) + 1) m) := do
  let s ← moments2points
    ⟨concat (concat M.mean (0 : Vec n)) (0 : Vec m), blockDiag (blockDiag M.cov Q) R⟩
  pure (s.left.left, s.left.right, s.right)

/-- Resolved parameters of `UnscentedKalmanFilter` (`unscented.py:718-731`). -/
structure GParams (n m : ℕ) where
  f : Fns (Vec n → Vec n → Vec n)
  g : Fns (Vec n → Vec m → Vec m)
  Q : Mat n n
  R : Mat m m
  mu0 : Vec n
  S0 : Mat n n

/-- Body of the loop of `augmented_unscented_filter`, `unscented.py:430-468`, with
`unscented_filter_predict`, `unscented.py:294-336`, written out. -/
noncomputable def ukfStep (p : GParams n m) (t : ℕ) (prev : Option (Moments n)) (o : Obs m) :
    Res (Moments n) := do
  let M : Moments n := prev.getD ⟨p.mu0, p.S0⟩
  let pts ← augFilterPoints M p.Q p.R
  match prev with
  | none => do
    let pred := points2moments pts.1 none
    let g ← p.g.at t
    pure (ufCorrect₂ g pred pts.1 o pts.2.2)
  | some _ => do
    let f ← p.f.at (t - 1)
    let ptsPred := pts.1.map₂ pts.2.1 f
    let pred := points2moments ptsPred none
    let g ← p.g.at t
    pure (ufCorrect₂ g pred ptsPred o pts.2.2)

/-- `augmented_unscented_filter`, `unscented.py:396-470` (loop 430-468), and `UnscentedKalmanFilter.filter`,
`unscented.py:862-902`. -/
noncomputable def ukfFilter (p : GParams n m) (os : List (Obs m)) : Res (List (Moments n)) :=
  runLoop (ukfStep p) 0 none os

/-- Body of the loop of `augmented_unscented_smoother`, `unscented.py:504-539`. -/
noncomputable def ukfSmoothStep (p : GParams n m) (t : ℕ) (s next : Moments n) :
    Res (Moments n) := do
  let pts ← augPoints s (⟨0, p.Q⟩ : Moments n)
  let f ← p.f.at t
  let ptsPred := pts.1.map₂ pts.2 f
  let pred := points2moments ptsPred none
  pure (ufSmooth s pts.1 ptsPred pred next)

/-- `UnscentedKalmanFilter.smooth`, `unscented.py:1024-1065`, with
`augmented_unscented_smoother`, `unscented.py:473-541`. -/
noncomputable def ukfSmooth (p : GParams n m) (os : List (Obs m)) : Res (List (Moments n)) := do
  let l ← ukfFilter p os
  backFull (ukfSmoothStep p) l

/-- Optional arguments of `UnscentedKalmanFilter.filter_update`, `unscented.py:904-913`. -/
structure GUpdateArgs (n m : ℕ) where
  f : Option (Vec n → Vec n → Vec n) := none
  Q : Option (Mat n n) := none
  g : Option (Vec n → Vec m → Vec m) := none
  R : Option (Mat m m) := none

/-- `UnscentedKalmanFilter.filter_update`, `unscented.py:904-1022`. -/
noncomputable def ukfUpdate (p : GParams n m) (M : Moments n) (observation : Option (Obs m))
    (a : GUpdateArgs n m) : Res (Moments n) := do
  let f ← defaultFunction a.f p.f
  let g ← defaultFunction a.g p.g
  let Q := a.Q.getD p.Q
  let R := a.R.getD p.R
  let o : Obs m := match observation with
    | none => ⟨0, fun _ => true⟩
    | some o => o
  let pts ← augFilterPoints M Q R
  let ptsPred := pts.1.map₂ pts.2.1 f
  let pred := points2moments ptsPred none
  pure (ufCorrect₂ g pred ptsPred o pts.2.2)

end Verif
