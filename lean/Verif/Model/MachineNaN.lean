import Verif.Model.MachineSqrt

/-!
# The parameters an object has when `em` ends, on the numbers of a machine

`em` assigns the eight parameters at the end of every iteration (`standard.py:1514-1532`,
`sqrt/cholesky.py:719-738`, `sqrt/bierman.py:888-907`), so when an iteration raises, the object keeps
those of the iterations before.
-/

namespace Verif

variable {n m : ℕ}

/-- The loop `for _ in range(n_iter)` of `em`, `standard.py:1478-1532`: the parameters stored in the
object when it ends, with or without an exception. -/
def storedBy {α : Type} (iter : α → Res α) : ℕ → α → α
  | 0, p => p
  | k + 1, p =>
    match iter p with
    | .ok p' => storedBy iter k p'
    | .error _ => p

/-- The parameters of the object after `KalmanFilter.em`, `standard.py:1418-1533`. -/
def Machine.emStored (M : Machine) (p : M.Par n m) (os : List (M.Row m)) (nIter : ℕ)
    (vars : EmVar → Bool) : M.Par n m :=
  storedBy (fun q => M.stats q os >>= fun ss => M.emStep p vars q ss os) nIter p

/-- The parameters of the object after `CholeskyKalmanFilter.em`, `sqrt/cholesky.py:612-739`. -/
def SMachine.cholEmStored (M : SMachine) (p : M.Par n m) (os : List (M.Row m)) (nIter : ℕ)
    (vars : EmVar → Bool) : M.Par n m :=
  storedBy (fun q => SMachine.cholRows q os >>= SMachine.statsOf q >>=
    fun ss => M.emStep p vars q ss os) nIter p

/-- The parameters of the object after `BiermanKalmanFilter.em`, `sqrt/bierman.py:781-908`; `store`
changes as in `bierEmLoop`. -/
def SMachine.bierEmStored (M : SMachine) (store : M.F → M.F) (p : M.Par n m) (os : List (M.Row m))
    (nIter : ℕ) (vars : EmVar → Bool) : M.Par n m :=
  (storedBy (fun q : (M.F → M.F) × M.Par n m =>
    SMachine.bierRows q.1 q.2 os >>= SMachine.statsOf q.2 >>=
      fun ss => M.emStep p vars q.2 ss os >>=
        fun p' => pure (if vars .initialStateCovariance then id else q.1, p')) nIter (store, p)).2

end Verif
