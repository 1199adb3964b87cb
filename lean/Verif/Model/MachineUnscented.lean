import Verif.Model.Machine
import Verif.Model.Unscented

/-!
# Model of the unscented filters on the numbers of a machine

As `Model/Machine`: any numbers, any operations, and the linear algebra routines may raise.  The
user's transition and observation functions may raise as well; what is assumed of them is that they
return an array of the expected shape if they return, and do the same thing when called twice with
the same numbers.  The functions are those of `Model/Unscented`, with the operations in the order of
the code.  Line numbers refer to `/repo/pykalman/unscented.py`.
-/

namespace Verif

variable {n m k l N : ℕ}

/-- The numbers and the operations of a machine, with those of `moments2points`. -/
structure UMachine extends Machine where
  /-- `3.0`. -/
  three : F
  /-- `0.5`. -/
  half : F
  /-- `np.sqrt`. -/
  sqrt : F → F
  /-- `linalg.cholesky`; it raises `LinAlgError` or, when an entry is not finite, `ValueError`. -/
  chol : ∀ k : ℕ, (Fin k → Fin k → F) → Res (Fin k → Fin k → F)

namespace UMachine

variable (M : UMachine)

/-- Arrays with one dimension. -/
abbrev V (k : ℕ) := M.toMachine.V k

/-- Arrays with two dimensions. -/
abbrev A (k l : ℕ) := M.toMachine.A k l

/-- A row of a masked array of observations. -/
abbrev Row (m : ℕ) := M.toMachine.Row m

/-- `SigmaPoints`, `unscented.py:28-32`: one point per row. -/
structure Pts (N k : ℕ) where
  points : Fin N → M.V k
  wm : M.V N
  wc : M.V N

/-- `Moments`, `unscented.py:35`. -/
structure Mom (k : ℕ) where
  mean : M.V k
  cov : M.A k k

variable {M}

/-- `np.diag` of a vector. -/
def diag (M : UMachine) (w : M.V N) : M.A N N := fun i j => if i = j then w i else M.zero

/-- `points.T - mu[:, np.newaxis]` -/
def centred (s : M.Pts N k) (mu : M.V k) : M.A k N := fun i j => M.sub (s.points j i) (mu i)

/-- `points2moments`, `unscented.py:38-59`. -/
def points2moments (s : M.Pts N k) (noise : Option (M.A k k)) : M.Mom k :=
  let mu : M.V k := M.dotV k N (fun i j => s.points j i) s.wm
  let diff := centred s mu
  let sigma := M.dotM k N k (M.dotM k N N diff (M.diag s.wc)) (M.tr diff)
  match noise with
  | some S => ⟨mu, M.madd sigma S⟩
  | none => ⟨mu, sigma⟩

/-- `moments2points`, `unscented.py:62-116`, with the default `alpha`, `beta` and `kappa` (no caller
passes others). -/
def moments2points (x : M.Mom n) : Res (M.Pts (n + n + 1) n) := do
  let upper ← M.chol n x.cov
  let sigma2 := M.tr upper
  let kappa := M.sub M.three (M.count n)
  let lamda := M.sub (M.mul (M.mul M.one M.one) (M.add (M.count n) kappa)) (M.count n)
  let c := M.add (M.count n) lamda
  pure
    ⟨Fin.cons x.mean (Fin.append
        (fun j i => M.add (x.mean i) (M.mul (sigma2 i j) (M.sqrt c)))
        (fun j i => M.sub (x.mean i) (M.mul (sigma2 i j) (M.sqrt c)))),
     Fin.cons (M.div lamda c) fun _ => M.div M.half c,
     Fin.cons (M.add (M.div lamda c) (M.add (M.sub M.one (M.mul M.one M.one)) M.zero))
       fun _ => M.div M.half c⟩

/-- The list comprehension `[f(points[i]) for i in range(n_points)]`, `unscented.py:153-156`: the
calls are made in order, and the first exception ends it. -/
def comprehension {α : Type} : ∀ {N : ℕ}, (Fin N → Res α) → Res (Fin N → α)
  | 0, _ => pure Fin.elim0
  | _ + 1, f => do
    let a ← f 0
    let rest ← comprehension fun i => f i.succ
    pure (Fin.cons a rest)

/-- Points passed through a function, `unscented.py:148-161`, without noise points. -/
def Pts.through (s : M.Pts N k) (f : M.V k → Res (M.V l)) : Res (M.Pts N l) := do
  let q ← comprehension fun i => f (s.points i)
  pure ⟨q, s.wm, s.wc⟩

/-- Points passed through a function, `unscented.py:148-161`, with noise points. -/
def Pts.through₂ {q : ℕ} (s : M.Pts N k) (w : M.Pts N q) (f : M.V k → M.V q → Res (M.V l)) :
    Res (M.Pts N l) := do
  let q ← comprehension fun i => f (s.points i) (w.points i)
  pure ⟨q, s.wm, s.wc⟩

/-- `unscented_correct`, `unscented.py:169-206`. -/
def unscentedCorrect (cross : M.A n m) (pred : M.Mom n) (obs : M.Mom m) (o : M.Row m) :
    Res (M.Mom n) :=
  if ¬ o.missing then do
    let inv ← M.pinv m obs.cov
    let K := M.dotM n m m cross inv
    pure ⟨M.vadd pred.mean (M.dotV n m K (M.vsub o.val obs.mean)),
      M.msub pred.cov (M.dotM n m n K (M.tr cross))⟩
  else pure pred

/-- `sigma_pair` in `unscented_filter_correct`, `unscented.py:381-386`. -/
def crossCov (p : M.Pts N n) (mu : M.V n) (q : M.Pts N m) (nu : M.V m) : M.A n m :=
  M.dotM n N m (M.dotM n N N (centred p mu) (M.diag p.wm)) (M.tr (centred q nu))

/-- The last lines of `unscented_filter_correct`, `unscented.py:380-392`. -/
def finish (pred : M.Mom n) (pts : M.Pts N n) (q : M.Pts N m) (noise : Option (M.A m m))
    (o : M.Row m) : Res (M.Mom n) :=
  let obs := points2moments q noise
  unscentedCorrect (crossCov pts pred.mean q obs.mean) pred obs o

/-- `unscented_filter_correct`, `unscented.py:339-393`, with additive noise. -/
def ufCorrect (g : M.V n → Res (M.V m)) (pred : M.Mom n) (pts : M.Pts N n) (o : M.Row m)
    (R : M.A m m) : Res (M.Mom n) := do
  let q ← pts.through g
  finish pred pts q (some R) o

/-- `unscented_filter_correct`, `unscented.py:339-393`, with noise points. -/
def ufCorrect₂ (g : M.V n → M.V m → Res (M.V m)) (pred : M.Mom n) (pts : M.Pts N n) (o : M.Row m)
    (w : M.Pts N m) : Res (M.Mom n) := do
  let q ← pts.through₂ w g
  finish pred pts q none o

/-- The loop `for t in range(T)` of a filter, from time `t` on (see `runLoop`). -/
def run {σ ο : Type} (step : ℕ → Option σ → ο → Res σ) : ℕ → Option σ → List ο → Res (List σ)
  | _, _, [] => pure []
  | t, prev, o :: os => do
    let s ← step t prev o
    let rest ← run step (t + 1) (some s) os
    pure (s :: rest)

variable (M)

/-- Resolved parameters of `AdditiveUnscentedKalmanFilter` (`unscented.py:718-731`). -/
structure UPar (n m : ℕ) where
  f : Fns (M.V n → Res (M.V n))
  g : Fns (M.V n → Res (M.V m))
  Q : M.A n n
  R : M.A m m
  mu0 : M.V n
  S0 : M.A n n

variable {M}

/-- Body of the loop of `additive_unscented_filter`, `unscented.py:578-605`. -/
def aukfStep (p : M.UPar n m) (t : ℕ) (prev : Option (M.Mom n)) (o : M.Row m) :
    Res (M.Mom n) := do
  let pts ← moments2points (prev.getD ⟨p.mu0, p.S0⟩)
  match prev with
  | none => do
    let pred := points2moments pts none
    let g ← p.g.at t
    ufCorrect g pred pts o p.R
  | some _ => do
    let f ← p.f.at (t - 1)
    let q ← pts.through f
    let pred := points2moments q (some p.Q)
    let pts' ← moments2points pred
    let g ← p.g.at t
    ufCorrect g pred pts' o p.R

/-- `additive_unscented_filter`, `unscented.py:544-607` (loop 578-605), and
`AdditiveUnscentedKalmanFilter.filter`, `unscented.py:1178-1218`. -/
def aukfFilter (p : M.UPar n m) (os : List (M.Row m)) : Res (List (M.Mom n)) :=
  run (aukfStep p) 0 none os

/-- The last lines of the loop bodies of the two smoothers, `unscented.py:522-539` and
`unscented.py:656-673`. -/
def ufSmooth (filt : M.Mom n) (pts ptsPred : M.Pts N n) (pred next : M.Mom n) : Res (M.Mom n) := do
  let pair : M.A n n := M.tr (M.dotM n N n
    (M.dotM n N N (centred ptsPred pred.mean) (M.diag ptsPred.wc)) (M.tr (centred pts filt.mean)))
  let inv ← M.pinv n pred.cov
  let gain := M.dotM n n n pair inv
  pure ⟨M.vadd filt.mean (M.dotV n n gain (M.vsub next.mean pred.mean)),
    M.madd filt.cov (M.dotM n n n (M.dotM n n n gain (M.msub next.cov pred.cov)) (M.tr gain))⟩

/-- Body of the loop of `additive_unscented_smoother`, `unscented.py:642-673`. -/
def aukfSmoothStep (p : M.UPar n m) (t : ℕ) (s next : M.Mom n) : Res (M.Mom n) := do
  let pts ← moments2points s
  let f ← p.f.at t
  let ptsPred ← pts.through f
  ufSmooth s pts ptsPred (points2moments ptsPred (some p.Q)) next

/-- `AdditiveUnscentedKalmanFilter.smooth`, `unscented.py:1333-1374`, with
`additive_unscented_smoother`, `unscented.py:610-675`. -/
def aukfSmooth (p : M.UPar n m) (os : List (M.Row m)) : Res (List (M.Mom n)) := do
  let l ← aukfFilter p os
  backFull (aukfSmoothStep p) l

variable (M)

/-- Optional arguments of `AdditiveUnscentedKalmanFilter.filter_update`,
`unscented.py:1220-1229`. -/
structure UArgs (n m : ℕ) where
  f : Option (M.V n → Res (M.V n)) := none
  Q : Option (M.A n n) := none
  g : Option (M.V n → Res (M.V m)) := none
  R : Option (M.A m m) := none

variable {M}

/-- The observation of `filter_update`, `unscented.py:985-991` and `unscented.py:1301-1307`:
without one, zeros with every component masked. -/
def observed : Option (M.Row m) → M.Row m
  | none => ⟨fun _ => M.zero, fun _ => true⟩
  | some o => o

/-- `AdditiveUnscentedKalmanFilter.filter_update`, `unscented.py:1220-1331`. -/
def aukfUpdate (p : M.UPar n m) (x : M.Mom n) (observation : Option (M.Row m))
    (a : M.UArgs n m) : Res (M.Mom n) := do
  let f ← defaultFunction a.f p.f
  let g ← defaultFunction a.g p.g
  let pts ← moments2points x
  let q ← pts.through f
  let pred := points2moments q (some (a.Q.getD p.Q))
  let pts' ← moments2points pred
  ufCorrect g pred pts' (observed observation) (a.R.getD p.R)

/-! ### General noise -/

/-- `linalg.block_diag` of two matrices. -/
def blockDiag {a b : ℕ} (S : M.A a a) (T : M.A b b) : M.A (a + b) (a + b) :=
  Fin.append (fun i => Fin.append (S i) (fun _ => M.zero))
    (fun i => Fin.append (fun _ => M.zero) (T i))

/-- Columns `:a` of an array of sigma points. -/
def Pts.left {a b : ℕ} (s : M.Pts N (a + b)) : M.Pts N a :=
  ⟨fun i j => s.points i (Fin.castAdd b j), s.wm, s.wc⟩

/-- Columns `a:` of an array of sigma points. -/
def Pts.right {a b : ℕ} (s : M.Pts N (a + b)) : M.Pts N b :=
  ⟨fun i j => s.points i (Fin.natAdd a j), s.wm, s.wc⟩

/-- `augmented_points`, `unscented.py:209-246`, of two moments. -/
def augPoints {a b : ℕ} (x : M.Mom a) (y : M.Mom b) :
    Res (M.Pts ((a + b) + (a + b) + 1) a × M.Pts ((a + b) + (a + b) + 1) b) := do
  let s ← moments2points ⟨Fin.append x.mean y.mean, blockDiag x.cov y.cov⟩
  pure (s.left, s.right)

/-- `augmented_unscented_filter_points`, `unscented.py:249-291`, with `augmented_points`,
`unscented.py:209-246`, of three moments. -/
def augFilterPoints (x : M.Mom n) (Q : M.A n n) (R : M.A m m) :
    Res (M.Pts ((n + n + m) + (n + n + m) + 1) n × M.Pts ((n + n + m) + (n + n + m) + 1) n
      × M.Pts ((n + n + m) + (n + n + m) + 1) m) := do
  let s ← moments2points
    ⟨Fin.append (Fin.append x.mean (fun _ => M.zero)) (fun _ => M.zero),
      blockDiag (blockDiag x.cov Q) R⟩
  pure (s.left.left, s.left.right, s.right)

variable (M)

/-- Resolved parameters of `UnscentedKalmanFilter` (`unscented.py:718-731`). -/
structure GPar (n m : ℕ) where
  f : Fns (M.V n → M.V n → Res (M.V n))
  g : Fns (M.V n → M.V m → Res (M.V m))
  Q : M.A n n
  R : M.A m m
  mu0 : M.V n
  S0 : M.A n n

variable {M}

/-- Body of the loop of `augmented_unscented_filter`, `unscented.py:430-468`. -/
def ukfStep (p : M.GPar n m) (t : ℕ) (prev : Option (M.Mom n)) (o : M.Row m) :
    Res (M.Mom n) := do
  let pts ← augFilterPoints (prev.getD ⟨p.mu0, p.S0⟩) p.Q p.R
  match prev with
  | none => do
    let pred := points2moments pts.1 none
    let g ← p.g.at t
    ufCorrect₂ g pred pts.1 o pts.2.2
  | some _ => do
    let f ← p.f.at (t - 1)
    let ptsPred ← pts.1.through₂ pts.2.1 f
    let pred := points2moments ptsPred none
    let g ← p.g.at t
    ufCorrect₂ g pred ptsPred o pts.2.2

/-- `augmented_unscented_filter`, `unscented.py:396-470` (loop 430-468), and
`UnscentedKalmanFilter.filter`, `unscented.py:862-902`. -/
def ukfFilter (p : M.GPar n m) (os : List (M.Row m)) : Res (List (M.Mom n)) :=
  run (ukfStep p) 0 none os

/-- Body of the loop of `augmented_unscented_smoother`, `unscented.py:504-539`. -/
def ukfSmoothStep (p : M.GPar n m) (t : ℕ) (s next : M.Mom n) : Res (M.Mom n) := do
  let pts ← augPoints s (⟨fun _ => M.zero, p.Q⟩ : M.Mom n)
  let f ← p.f.at t
  let ptsPred ← pts.1.through₂ pts.2 f
  ufSmooth s pts.1 ptsPred (points2moments ptsPred none) next

/-- `UnscentedKalmanFilter.smooth`, `unscented.py:1024-1065`, with
`augmented_unscented_smoother`, `unscented.py:473-541`. -/
def ukfSmooth (p : M.GPar n m) (os : List (M.Row m)) : Res (List (M.Mom n)) := do
  let l ← ukfFilter p os
  backFull (ukfSmoothStep p) l

variable (M)

/-- Optional arguments of `UnscentedKalmanFilter.filter_update`, `unscented.py:904-913`. -/
structure GArgs (n m : ℕ) where
  f : Option (M.V n → M.V n → Res (M.V n)) := none
  Q : Option (M.A n n) := none
  g : Option (M.V n → M.V m → Res (M.V m)) := none
  R : Option (M.A m m) := none

variable {M}

/-- `UnscentedKalmanFilter.filter_update`, `unscented.py:904-1022`. -/
def ukfUpdate (p : M.GPar n m) (x : M.Mom n) (observation : Option (M.Row m))
    (a : M.GArgs n m) : Res (M.Mom n) := do
  let f ← defaultFunction a.f p.f
  let g ← defaultFunction a.g p.g
  let pts ← augFilterPoints x (a.Q.getD p.Q) (a.R.getD p.R)
  let ptsPred ← pts.1.through₂ pts.2.1 f
  let pred := points2moments ptsPred none
  ufCorrect₂ g pred ptsPred (observed observation) pts.2.2

end UMachine

end Verif
