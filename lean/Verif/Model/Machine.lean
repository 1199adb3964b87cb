import Verif.Model.Standard

/-!
# Model of `KalmanFilter` on the numbers of a machine

Nothing is assumed about the arithmetic: the numbers are of any type (for example the 64-bit floats
with their signed zeros, infinities and `nan`s), the operations on them are any functions, and
`scipy.linalg.pinv` and `log_multivariate_normal_density` may raise.  What is assumed is that an
operation called twice with the same numbers does the same thing (so neither the place of an array
in memory nor the number of threads of the linear algebra library matters).  The functions are those
of `Model/Standard`, with the operations in the order of the code.  Line numbers refer to
`/repo/pykalman/standard.py`.
-/

namespace Verif

variable {n m k l : ℕ}

/-- The numbers and the operations of a machine. -/
structure Machine where
  /-- The numbers. -/
  F : Type
  /-- The entries of `np.zeros`. -/
  zero : F
  /-- `1.0`. -/
  one : F
  /-- A count, as a number. -/
  count : ℕ → F
  /-- `x + y`. -/
  add : F → F → F
  /-- `x - y`. -/
  sub : F → F → F
  /-- `x * y`. -/
  mul : F → F → F
  /-- `x / y`. -/
  div : F → F → F
  /-- `np.dot` of a matrix and a vector. -/
  dotV : ∀ k l : ℕ, (Fin k → Fin l → F) → (Fin l → F) → Fin k → F
  /-- `np.dot` of two matrices. -/
  dotM : ∀ k l r : ℕ, (Fin k → Fin l → F) → (Fin l → Fin r → F) → Fin k → Fin r → F
  /-- `scipy.linalg.pinv`; it raises for example when an entry is not finite. -/
  pinv : ∀ k : ℕ, (Fin k → Fin k → F) → Res (Fin k → Fin k → F)
  /-- `log_multivariate_normal_density` for one sample and one component,
  `utils/_sklearn.py:50-68`: any function of sample, mean and covariance. -/
  logpdf : ∀ k : ℕ, (Fin k → F) → (Fin k → F) → (Fin k → Fin k → F) → Res F
  /-- `np.sum` of an array with one dimension. -/
  sum : List F → F

namespace Machine

variable (M : Machine)

/-- Arrays with one dimension. -/
abbrev V (k : ℕ) := Fin k → M.F

/-- Arrays with two dimensions. -/
abbrev A (k l : ℕ) := Fin k → Fin l → M.F

/-- `.T` -/
def tr (X : M.A k l) : M.A l k := fun i j => X j i

/-- `+` on vectors. -/
def vadd (x y : M.V k) : M.V k := fun i => M.add (x i) (y i)

/-- `-` on vectors. -/
def vsub (x y : M.V k) : M.V k := fun i => M.sub (x i) (y i)

/-- `+` on matrices. -/
def madd (X Y : M.A k l) : M.A k l := fun i j => M.add (X i j) (Y i j)

/-- `-` on matrices. -/
def msub (X Y : M.A k l) : M.A k l := fun i j => M.sub (X i j) (Y i j)

/-- `np.outer`. -/
def outer (x : M.V k) (y : M.V l) : M.A k l := fun i j => M.mul (x i) (y j)

/-- A number times a matrix. -/
def mscale (a : M.F) (X : M.A k l) : M.A k l := fun i j => M.mul a (X i j)

/-- A number times a vector. -/
def vscale (a : M.F) (x : M.V k) : M.V k := fun i => M.mul a (x i)

/-- `np.zeros`. -/
def zeros : M.A k l := fun _ _ => M.zero

/-- `np.zeros`. -/
def zerosV : M.V k := fun _ => M.zero

/-- The parameters that `_initialize_parameters` returns, `standard.py:1632-1641` (see `Params`). -/
structure Par (n m : ℕ) where
  A : TV (M.A n n)
  b : TV (M.V n)
  Q : TV (M.A n n)
  C : TV (M.A m n)
  d : TV (M.V m)
  R : TV (M.A m m)
  mu0 : M.V n
  S0 : M.A n n

/-- A row of a masked array of observations. -/
structure Row (m : ℕ) where
  val : M.V m
  mask : Fin m → Bool

variable {M}

/-- `np.any(np.ma.getmask(observation))`, `standard.py:170,271`. -/
def Row.missing (o : M.Row m) : Prop := ∃ i, o.mask i = true

instance (o : M.Row m) : Decidable o.missing := inferInstanceAs (Decidable (∃ i, o.mask i = true))

variable (M)

/-- `_filter_predict`, `standard.py:187-230`. -/
def predict (A Q : M.A n n) (b : M.V n) (mean : M.V n) (cov : M.A n n) : M.V n × M.A n n :=
  (M.vadd (M.dotV n n A mean) b, M.madd (M.dotM n n n A (M.dotM n n n cov (M.tr A))) Q)

/-- `_filter_correct`, `standard.py:233-306`: gain, corrected mean, corrected covariance. -/
def correct (C : M.A m n) (R : M.A m m) (d : M.V m) (mean : M.V n) (cov : M.A n n)
    (o : M.Row m) : Res (M.A n m × M.V n × M.A n n) :=
  if ¬ o.missing then do
    let predObsMean := M.vadd (M.dotV m n C mean) d
    let predObsCov := M.madd (M.dotM m n m C (M.dotM n n m cov (M.tr C))) R
    let inv ← M.pinv m predObsCov
    let gain := M.dotM n n m cov (M.dotM n m m (M.tr C) inv)
    pure (gain, M.vadd mean (M.dotV n m gain (M.vsub o.val predObsMean)),
      M.msub cov (M.dotM n m n gain (M.dotM m n n C cov)))
  else pure (M.zeros, mean, cov)

/-- Row `t` of the five arrays that `_filter` returns, `standard.py:371-375`. -/
structure St (n m : ℕ) where
  predMean : M.V n
  predCov : M.A n n
  gain : M.A n m
  filtMean : M.V n
  filtCov : M.A n n

/-- Body of the loop of `_filter`, `standard.py:377-410`. -/
def step (p : M.Par n m) (t : ℕ) (prev : Option (M.St n m)) (o : M.Row m) : Res (M.St n m) := do
  let pred ← match prev with
    | none => pure (p.mu0, p.S0)
    | some s => do
      let A ← lastDims p.A (t - 1)
      let Q ← lastDims p.Q (t - 1)
      let b ← lastDims p.b (t - 1)
      pure (M.predict A Q b s.filtMean s.filtCov)
  let C ← lastDims p.C t
  let R ← lastDims p.R t
  let d ← lastDims p.d t
  let c ← M.correct C R d pred.1 pred.2 o
  pure ⟨pred.1, pred.2, c.1, c.2.1, c.2.2⟩

/-- The loop of `_filter`, `standard.py:377-410`, from time `t` on. -/
def loop (p : M.Par n m) : ℕ → Option (M.St n m) → List (M.Row m) → Res (List (M.St n m))
  | _, _, [] => pure []
  | t, prev, o :: os => do
    let s ← M.step p t prev o
    let rest ← loop p (t + 1) (some s) os
    pure (s :: rest)

/-- `_filter`, `standard.py:309-418`. -/
def full (p : M.Par n m) (obs : List (M.Row m)) : Res (List (M.St n m)) := M.loop p 0 none obs

/-- `KalmanFilter.filter`, `standard.py:1186-1238`, on parsed observations and resolved
parameters. -/
def filter (p : M.Par n m) (obs : List (M.Row m)) : Res (List (M.V n × M.A n n)) := do
  let steps ← M.full p obs
  pure (steps.map fun s => (s.filtMean, s.filtCov))

/-- A row of the arrays that `_smooth` returns (see `SStep`). -/
structure SSt (n : ℕ) where
  mean : M.V n
  cov : M.A n n
  gain : M.A n n

/-- `_smooth_update`, `standard.py:421-485`. -/
def smoothUpdate (A : M.A n n) (filtMean : M.V n) (filtCov : M.A n n) (predMean : M.V n)
    (predCov : M.A n n) (nextMean : M.V n) (nextCov : M.A n n) : Res (M.SSt n) := do
  let inv ← M.pinv n predCov
  let gain := M.dotM n n n filtCov (M.dotM n n n (M.tr A) inv)
  pure ⟨M.vadd filtMean (M.dotV n n gain (M.vsub nextMean predMean)),
    M.madd filtCov (M.dotM n n n gain (M.dotM n n n (M.msub nextCov predCov) (M.tr gain))),
    gain⟩

/-- The loop of `_smooth`, `standard.py:531-552`, from time `t` on (see `smoothLoop`). -/
def smoothLoop (A : TV (M.A n n)) : ℕ → M.St n m → List (M.St n m) →
    Res (M.SSt n × List (M.SSt n))
  | _, s, [] => pure (⟨s.filtMean, s.filtCov, M.zeros⟩, [])
  | t, s, s' :: rest => do
    let r ← smoothLoop A (t + 1) s' rest
    let At ← lastDims A t
    let u ← M.smoothUpdate At s.filtMean s.filtCov s'.predMean s'.predCov r.1.mean r.1.cov
    pure (u, r.1 :: r.2)

/-- `_smooth`, `standard.py:488-553`. -/
def smoothFull (A : TV (M.A n n)) : List (M.St n m) → Res (List (M.SSt n))
  | [] => .error .valueError
  | s :: rest => do
    let r ← M.smoothLoop A 0 s rest
    pure (r.1 :: r.2)

/-- `KalmanFilter.smooth`, `standard.py:1356-1416`, on parsed observations and resolved
parameters. -/
def smooth (p : M.Par n m) (obs : List (M.Row m)) : Res (List (M.V n × M.A n n)) := do
  let steps ← M.full p obs
  let sm ← M.smoothFull p.A steps
  pure (sm.map fun s => (s.mean, s.cov))

/-- Body of the loop of `_loglikelihoods`, `standard.py:168-183` (see `loglikStep`). -/
def loglikStep (p : M.Par n m) (t : ℕ) (s : M.St n m) (o : M.Row m) : Res M.F :=
  if ¬ o.missing then do
    let C ← lastDims p.C t
    let d ← lastDims p.d t
    let R ← match p.R with
      | .const R => pure R
      | .seq _ => .error .valueError
    M.logpdf m o.val (M.vadd (M.dotV m n C s.predMean) d)
      (M.madd (M.dotM m n m C (M.dotM n n m s.predCov (M.tr C))) R)
  else pure M.zero

/-- `_loglikelihoods`, `standard.py:123-184`, from time `t` on. -/
def loglikLoop (p : M.Par n m) : ℕ → List (M.St n m) → List (M.Row m) → Res (List M.F)
  | t, s :: ss, o :: os => do
    let l ← M.loglikStep p t s o
    let rest ← loglikLoop p (t + 1) ss os
    pure (l :: rest)
  | _, _, _ => pure []

/-- `KalmanFilter.loglikelihood`, `standard.py:1535-1591`, on parsed observations and resolved
parameters. -/
def loglik (p : M.Par n m) (obs : List (M.Row m)) : Res M.F := do
  let steps ← M.full p obs
  let ls ← M.loglikLoop p 0 steps obs
  pure (M.sum ls)

/-- The optional arguments of `filter_update`, `standard.py:1240-1251`. -/
structure Args (n m : ℕ) where
  A : Option (M.A n n) := none
  b : Option (M.V n) := none
  Q : Option (M.A n n) := none
  C : Option (M.A m n) := none
  d : Option (M.V m) := none
  R : Option (M.A m m) := none

/-- `KalmanFilter.filter_update`, `standard.py:1240-1354`. -/
def update (p : M.Par n m) (mean : M.V n) (cov : M.A n n) (observation : Option (M.Row m))
    (a : M.Args n m) : Res (M.V n × M.A n n) := do
  let b ← argOrDefault a.b p.b
  let d ← argOrDefault a.d p.d
  let A ← argOrDefault a.A p.A
  let C ← argOrDefault a.C p.C
  let Q ← argOrDefault a.Q p.Q
  let R ← argOrDefault a.R p.R
  let o := match observation with
    | none => ⟨M.zerosV, fun _ => true⟩
    | some o => o
  let pred := M.predict A Q b mean cov
  let c ← M.correct C R d pred.1 pred.2 o
  pure (c.2.1, c.2.2)

/-! ### EM -/

/-- The smoothed statistics `_em` uses (see `EmStats`). -/
structure Stats (n : ℕ) where
  mean : M.V n
  cov : M.A n n
  pair : M.A n n

/-- `_smooth_pair`, `standard.py:556-581`. -/
def pairAux : M.SSt n → List (M.SSt n) → List (M.A n n)
  | _, [] => []
  | prev, s :: rest => M.dotM n n n s.cov (M.tr prev.gain) :: pairAux s rest

/-- `_smooth_pair`, `standard.py:556-581`. -/
def pair : List (M.SSt n) → List (M.A n n)
  | [] => []
  | s :: rest => M.zeros :: M.pairAux s rest

/-- Smoothed statistics of the current parameters, `standard.py:1479-1512`. -/
def stats (p : M.Par n m) (os : List (M.Row m)) : Res (List (M.Stats n)) := do
  let steps ← M.full p os
  let sm ← M.smoothFull p.A steps
  pure ((sm.zip (M.pair sm)).map fun q => ⟨q.1.mean, q.1.cov, q.2⟩)

/-- Loop of `_em_observation_matrix`, `standard.py:739-751`. -/
def obsMatLoop (d : TV (M.V m)) : ℕ → List (M.Stats n) → List (M.Row m) →
    M.A m n → M.A n n → Res (M.A m n × M.A n n)
  | t, s :: ss, o :: os, r1, r2 =>
    if ¬ o.missing then do
      let dt ← lastDims d t
      obsMatLoop d (t + 1) ss os (M.madd r1 (M.outer (M.vsub o.val dt) s.mean))
        (M.madd r2 (M.madd s.cov (M.outer s.mean s.mean)))
    else obsMatLoop d (t + 1) ss os r1 r2
  | _, _, _, r1, r2 => pure (r1, r2)

/-- `_em_observation_matrix`, `standard.py:725-752`. -/
def obsMat (d : TV (M.V m)) (ss : List (M.Stats n)) (os : List (M.Row m)) : Res (M.A m n) := do
  let r ← M.obsMatLoop d 0 ss os M.zeros M.zeros
  let inv ← M.pinv n r.2
  pure (M.dotM m n n r.1 inv)

/-- Loop of `_em_observation_covariance`, `standard.py:776-791`. -/
def obsCovLoop (C : TV (M.A m n)) (d : TV (M.V m)) : ℕ → List (M.Stats n) → List (M.Row m) →
    M.A m m → ℕ → Res (M.A m m × ℕ)
  | t, s :: ss, o :: os, r, k =>
    if ¬ o.missing then do
      let Ct ← lastDims C t
      let dt ← lastDims d t
      let err := M.vsub (M.vsub o.val (M.dotV m n Ct s.mean)) dt
      obsCovLoop C d (t + 1) ss os
        (M.madd r (M.madd (M.outer err err)
          (M.dotM m n m Ct (M.dotM n n m s.cov (M.tr Ct))))) (k + 1)
    else obsCovLoop C d (t + 1) ss os r k
  | _, _, _, r, k => pure (r, k)

/-- `_em_observation_covariance`, `standard.py:755-795`. -/
def obsCov (C : TV (M.A m n)) (d : TV (M.V m)) (ss : List (M.Stats n)) (os : List (M.Row m)) :
    Res (M.A m m) := do
  let r ← M.obsCovLoop C d 0 ss os M.zeros 0
  if r.2 > 0 then pure (M.mscale (M.div M.one (M.count r.2)) r.1) else pure r.1

/-- Loop of `_em_transition_matrix`, `standard.py:814-827`; `prev` is the row before. -/
def transMatLoop (b : TV (M.V n)) : ℕ → M.Stats n → List (M.Stats n) →
    M.A n n → M.A n n → Res (M.A n n × M.A n n)
  | t, prev, s :: ss, r1, r2 => do
    let bt ← lastDims b (t - 1)
    transMatLoop b (t + 1) s ss
      (M.madd r1 (M.msub (M.madd s.pair (M.outer s.mean prev.mean)) (M.outer bt prev.mean)))
      (M.madd r2 (M.madd prev.cov (M.outer prev.mean prev.mean)))
  | _, _, [], r1, r2 => pure (r1, r2)

/-- `_em_transition_matrix`, `standard.py:798-828`. -/
def transMat (b : TV (M.V n)) : List (M.Stats n) → Res (M.A n n)
  | [] => do
    let inv ← M.pinv n M.zeros
    pure (M.dotM n n n M.zeros inv)
  | s :: ss => do
    let r ← M.transMatLoop b 1 s ss M.zeros M.zeros
    let inv ← M.pinv n r.2
    pure (M.dotM n n n r.1 inv)

/-- Loop of `_em_transition_covariance`, `standard.py:852-871`, `t` is the time of `prev`. -/
def transCovLoop (A : TV (M.A n n)) (b : TV (M.V n)) : ℕ → M.Stats n → List (M.Stats n) →
    M.A n n → Res (M.A n n)
  | t, prev, s :: ss, r => do
    let At ← lastDims A t
    let bt ← lastDims b t
    let err := M.vsub (M.vsub s.mean (M.dotV n n At prev.mean)) bt
    let vA := M.dotM n n n s.pair (M.tr At)
    transCovLoop A b (t + 1) s ss
      (M.madd r (M.msub (M.msub (M.madd (M.madd (M.outer err err)
        (M.dotM n n n At (M.dotM n n n prev.cov (M.tr At)))) s.cov) vA) (M.tr vA)))
  | _, _, [], r => pure r

/-- `_em_transition_covariance`, `standard.py:831-876`. -/
def transCov (A : TV (M.A n n)) (b : TV (M.V n)) : List (M.Stats n) → Res (M.A n n)
  | [] => pure M.zeros
  | s :: ss => do
    let r ← M.transCovLoop A b 0 s ss M.zeros
    if (s :: ss).length > 1 then
      pure (M.mscale (M.div M.one (M.count ((s :: ss).length - 1))) r) else pure r

/-- `_em_initial_state_mean`, `standard.py:879-889`. -/
def initMean : List (M.Stats n) → Res (M.V n)
  | [] => .error .indexError
  | s :: _ => pure s.mean

/-- `_em_initial_state_covariance`, `standard.py:892-912`. -/
def initCov (mu : M.V n) : List (M.Stats n) → Res (M.A n n)
  | [] => .error .indexError
  | s :: _ => pure (M.madd (M.msub (M.msub (M.madd s.cov (M.outer s.mean s.mean))
      (M.outer mu s.mean)) (M.outer s.mean mu)) (M.outer mu mu))

/-- Loop of `_em_transition_offset`, `standard.py:928-932`. -/
def transOffLoop (A : TV (M.A n n)) : ℕ → M.Stats n → List (M.Stats n) → M.V n → Res (M.V n)
  | t, prev, s :: ss, r => do
    let At ← lastDims A (t - 1)
    transOffLoop A (t + 1) s ss (M.vadd r (M.vsub s.mean (M.dotV n n At prev.mean)))
  | _, _, [], r => pure r

/-- `_em_transition_offset`, `standard.py:915-936`. -/
def transOff (A : TV (M.A n n)) : List (M.Stats n) → Res (M.V n)
  | [] => pure M.zerosV
  | s :: ss => do
    let r ← M.transOffLoop A 1 s ss M.zerosV
    if (s :: ss).length > 1 then
      pure (M.vscale (M.div M.one (M.count ((s :: ss).length - 1))) r) else pure M.zerosV

/-- Loop of `_em_observation_offset`, `standard.py:951-958`. -/
def obsOffLoop (C : TV (M.A m n)) : ℕ → List (M.Stats n) → List (M.Row m) → M.V m → ℕ →
    Res (M.V m × ℕ)
  | t, s :: ss, o :: os, r, k =>
    if ¬ o.missing then do
      let Ct ← lastDims C t
      obsOffLoop C (t + 1) ss os (M.vadd r (M.vsub o.val (M.dotV m n Ct s.mean))) (k + 1)
    else obsOffLoop C (t + 1) ss os r k
  | _, _, _, r, k => pure (r, k)

/-- `_em_observation_offset`, `standard.py:939-962`. -/
def obsOff (C : TV (M.A m n)) (ss : List (M.Stats n)) (os : List (M.Row m)) : Res (M.V m) := do
  let r ← M.obsOffLoop C 0 ss os M.zerosV 0
  if r.2 > 0 then pure (M.vscale (M.div M.one (M.count r.2)) r.1) else pure r.1

/-- `_em`, `standard.py:584-722` (see `emStep`). -/
def emStep (given : M.Par n m) (vars : EmVar → Bool) (old : M.Par n m)
    (ss : List (M.Stats n)) (os : List (M.Row m)) : Res (M.Par n m) := do
  let C ← emPick (vars .observationMatrices) (emConst (M.obsMat old.d ss os)) given.C
  let R ← emPick (vars .observationCovariance) (emConst (M.obsCov C old.d ss os)) given.R
  let A ← emPick (vars .transitionMatrices) (emConst (M.transMat old.b ss)) given.A
  let Q ← emPick (vars .transitionCovariance) (emConst (M.transCov A old.b ss)) given.Q
  let mu0 ← emPick (vars .initialStateMean) (M.initMean ss) given.mu0
  let S0 ← emPick (vars .initialStateCovariance) (M.initCov mu0 ss) given.S0
  let b ← emPick (vars .transitionOffsets) (emConst (M.transOff A ss)) given.b
  let d ← emPick (vars .observationOffsets) (emConst (M.obsOff C ss os)) given.d
  pure ⟨A, b, Q, C, d, R, mu0, S0⟩

/-- The iterations of `KalmanFilter.em`, `standard.py:1478-1532`. -/
def emLoop (given : M.Par n m) (vars : EmVar → Bool) (os : List (M.Row m)) :
    ℕ → M.Par n m → Res (M.Par n m)
  | 0, p => pure p
  | k + 1, p => do
    let ss ← M.stats p os
    let p' ← M.emStep given vars p ss os
    emLoop given vars os k p'

/-- `KalmanFilter.em`, `standard.py:1418-1533`, on parsed observations and resolved
parameters. -/
def em (p : M.Par n m) (os : List (M.Row m)) (nIter : ℕ) (vars : EmVar → Bool) :
    Res (M.Par n m) :=
  M.emLoop p vars os nIter p

end Machine

end Verif
