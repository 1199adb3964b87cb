import Verif.Model.MachineUnscented
import Verif.Model.Bierman

/-!
# Model of the square root filters on the numbers of a machine

As `Model/Machine` and `Model/MachineUnscented`: any numbers, any operations, and the linear algebra
routines may raise.  The functions are those of `Model/Cholesky`, `Model/Bierman` and
`Model/SqrtUnscented`, with the operations in the order of the code.  Line numbers refer to the files
in `/repo/pykalman/sqrt`.
-/

namespace Verif

variable {n m k l N : ℕ}

/-- The numbers and the operations of a machine, with those of the square root filters. -/
structure SMachine extends UMachine where
  /-- `linalg.cholesky(X, lower=True)`. -/
  cholL : ∀ k : ℕ, (Fin k → Fin k → F) → Res (Fin k → Fin k → F)
  /-- The second component of `linalg.qr(X)`; it raises for example when an entry is not finite. -/
  qr : ∀ k l : ℕ, (Fin k → Fin l → F) → Res (Fin k → Fin l → F)
  /-- `linalg.lstsq(X, Y)[0]`. -/
  lstsq : ∀ a b c : ℕ, (Fin a → Fin b → F) → (Fin a → Fin c → F) → Res (Fin b → Fin c → F)
  /-- `dot` of a vector and a matrix. -/
  dotVM : ∀ k l : ℕ, (Fin k → F) → (Fin k → Fin l → F) → Fin l → F
  /-- `dot` of two vectors. -/
  dot : ∀ k : ℕ, (Fin k → F) → (Fin k → F) → F
  /-- `np.allclose(X, X.T)`. -/
  allClose : ∀ k : ℕ, (Fin k → Fin k → F) → Bool
  /-- `x > 0` (false for `nan`). -/
  positive : F → Bool
  /-- `x < 0` (false for `nan`). -/
  negative : F → Bool
  /-- `x ** 2`. -/
  square : F → F
  /-- `np.abs`. -/
  abs : F → F
  /-- `np.sign`. -/
  sign : F → F
  /-- `-1.0`. -/
  minusOne : F

namespace SMachine

variable (M : SMachine)

/-- Arrays with one dimension. -/
abbrev V (k : ℕ) := M.toMachine.V k

/-- Arrays with two dimensions. -/
abbrev A (k l : ℕ) := M.toMachine.A k l

/-- A row of a masked array of observations. -/
abbrev Row (m : ℕ) := M.toMachine.Row m

/-- Resolved parameters of the linear classes. -/
abbrev Par (n m : ℕ) := M.toMachine.Par n m

/-- A row of `_filter`, as `_smooth` and `_loglikelihoods` of `standard.py` read it. -/
abbrev St (n m : ℕ) := M.toMachine.St n m

variable {M}

/-- `np.hstack([X, Y])`. -/
def hstack {a b c : ℕ} (X : M.A a b) (Y : M.A a c) : M.A a (b + c) := fun i => Fin.append (X i) (Y i)

/-! ### `cholesky.py` -/

/-- `linalg.cholesky(X, lower=True)` of a covariance parameter, `cholesky.py:257-259` (see
`cholParam`). -/
def cholParam : TV (M.A k k) → Res (M.A k k)
  | .const X => M.cholL k X
  | .seq _ => .error .valueError

/-- `_filter_predict`, `cholesky.py:44-107`. -/
def cholPredict (A Q2 : M.A n n) (b : M.V n) (mean : M.V n) (cov2 : M.A n n) :
    Res (M.V n × M.A n n) := do
  let mean' := M.vadd (M.dotV n n A mean) b
  let T ← M.qr (n + n) n (M.tr (hstack (M.dotM n n n A cov2) Q2))
  pure (mean', M.tr fun i j => T (Fin.castAdd n i) j)

/-- The matrix `M` of `_filter_correct`, `cholesky.py:161-166`. -/
def cholCorrectM (C : M.A m n) (R2 : M.A m m) (cov2 : M.A n n) : M.A (m + n) (m + n) :=
  Fin.append (fun i => Fin.append (M.tr R2 i) fun _ => M.zero)
    (fun i => Fin.append (M.tr (M.dotM m n n C cov2) i) (M.tr cov2 i))

/-- `_filter_correct`, `cholesky.py:110-192`. -/
def cholCorrect (C : M.A m n) (R2 : M.A m m) (d : M.V m) (mean : M.V n) (cov2 : M.A n n)
    (o : M.Row m) : Res (M.V n × M.A n n) :=
  if ¬ o.missing then do
    let S ← M.qr (m + n) (m + n) (cholCorrectM C R2 cov2)
    let gain : M.A n m := M.tr fun i j => S (Fin.castAdd n i) (Fin.natAdd m j)
    let N : M.A m m := M.tr fun i j => S (Fin.castAdd n i) (Fin.castAdd n j)
    let predObsMean := M.vadd (M.dotV m n C mean) d
    let inv ← M.pinv m N
    pure (M.vadd mean (M.dotV n m gain (M.dotV m m inv (M.vsub o.val predObsMean))),
      M.tr fun i j => S (Fin.natAdd m i) (Fin.natAdd m j))
  else pure (mean, cov2)

variable (M)

/-- Row `t` of the four arrays that `_filter` returns, `cholesky.py:293-298`. -/
structure CSt (n : ℕ) where
  predMean : M.V n
  predCov2 : M.A n n
  filtMean : M.V n
  filtCov2 : M.A n n

variable {M}

/-- Body of the loop of `_filter`, `cholesky.py:261-291`. -/
def cholStep (p : M.Par n m) (Q2 : M.A n n) (R2 : M.A m m) (S2 : M.A n n) (t : ℕ)
    (prev : Option (M.CSt n)) (o : M.Row m) : Res (M.CSt n) := do
  let pred ← match prev with
    | none => pure (p.mu0, S2)
    | some s => do
      let A ← lastDims p.A (t - 1)
      let b ← lastDims p.b (t - 1)
      cholPredict A Q2 b s.filtMean s.filtCov2
  let C ← lastDims p.C t
  let d ← lastDims p.d t
  let c ← cholCorrect C R2 d pred.1 pred.2 o
  pure ⟨pred.1, pred.2, c.1, c.2⟩

/-- `_filter`, `cholesky.py:195-298`. -/
def cholFull (p : M.Par n m) (os : List (M.Row m)) : Res (List (M.CSt n)) := do
  let Q2 ← cholParam p.Q
  let R2 ← cholParam p.R
  let S2 ← M.cholL n p.S0
  UMachine.run (cholStep p Q2 R2 S2) 0 none os

/-- `_reconstruct_covariances`, `cholesky.py:29-41`, on one matrix. -/
def reconstruct (X : M.A n n) : M.A n n := M.dotM n n n X (M.tr X)

/-- The row with reconstructed covariances (see `CStep.step`). -/
def CSt.st (m : ℕ) (s : M.CSt n) : M.St n m :=
  ⟨s.predMean, reconstruct s.predCov2, M.zeros, s.filtMean, reconstruct s.filtCov2⟩

/-- The filtered rows, with reconstructed covariances, of `CholeskyKalmanFilter`. -/
def cholRows (p : M.Par n m) (os : List (M.Row m)) : Res (List (M.St n m)) := do
  let steps ← cholFull p os
  pure (steps.map (CSt.st m))

/-- Smoothed statistics from the filtered rows, `cholesky.py:674-717` and `bierman.py:843-886`. -/
def statsOf (p : M.Par n m) (rows : List (M.St n m)) : Res (List (M.toMachine.Stats n)) := do
  let sm ← M.smoothFull p.A rows
  pure ((sm.zip (M.pair sm)).map fun q => ⟨q.1.mean, q.1.cov, q.2⟩)

/-- `CholeskyKalmanFilter.filter`, `cholesky.py:351-408`. -/
def cholFilter (p : M.Par n m) (os : List (M.Row m)) : Res (List (M.V n × M.A n n)) := do
  let rows ← cholRows p os
  pure (rows.map fun s => (s.filtMean, s.filtCov))

/-- `CholeskyKalmanFilter.smooth`, `cholesky.py:541-610`. -/
def cholSmooth (p : M.Par n m) (os : List (M.Row m)) : Res (List (M.V n × M.A n n)) := do
  let rows ← cholRows p os
  let sm ← M.smoothFull p.A rows
  pure (sm.map fun s => (s.mean, s.cov))

/-- `CholeskyKalmanFilter.loglikelihood`, `cholesky.py:741-799`. -/
def cholLoglik (p : M.Par n m) (os : List (M.Row m)) : Res M.F := do
  let rows ← cholRows p os
  let ls ← M.loglikLoop p 0 rows os
  pure (M.sum ls)

/-- `CholeskyKalmanFilter.filter_update`, `cholesky.py:410-539`.  The covariance it returns has a
leading axis of length one, left out here (see C44). -/
def cholUpdate (p : M.Par n m) (mean : M.V n) (cov : M.A n n) (observation : Option (M.Row m))
    (a : M.toMachine.Args n m) : Res (M.V n × M.A n n) := do
  let b ← argOrDefault a.b p.b
  let d ← argOrDefault a.d p.d
  let A ← argOrDefault a.A p.A
  let C ← argOrDefault a.C p.C
  let Q ← argOrDefault a.Q p.Q
  let R ← argOrDefault a.R p.R
  let o := UMachine.observed observation
  let Q2 ← M.cholL n Q
  let R2 ← M.cholL m R
  let S2 ← M.cholL n cov
  let pred ← cholPredict A Q2 b mean S2
  let c ← cholCorrect C R2 d pred.1 pred.2 o
  pure (c.1, reconstruct c.2)

/-- The iterations of `CholeskyKalmanFilter.em`, `cholesky.py:673-738`. -/
def cholEmLoop (given : M.Par n m) (vars : EmVar → Bool) (os : List (M.Row m)) :
    ℕ → M.Par n m → Res (M.Par n m)
  | 0, p => pure p
  | k + 1, p => do
    let rows ← cholRows p os
    let ss ← statsOf p rows
    let p' ← M.emStep given vars p ss os
    cholEmLoop given vars os k p'

/-- `CholeskyKalmanFilter.em`, `cholesky.py:612-739`. -/
def cholEm (p : M.Par n m) (os : List (M.Row m)) (nIter : ℕ) (vars : EmVar → Bool) :
    Res (M.Par n m) :=
  cholEmLoop p vars os nIter p

/-! ### `bierman.py` -/

variable (M)

/-- `UDU_decomposition`, `bierman.py:45-54`. -/
structure UD (n : ℕ) where
  U : M.A n n
  D : M.V n

/-- A two-dimensional array, as a function of its indices. -/
abbrev Arr2 := ℕ → ℕ → M.F

/-- A one-dimensional array, as a function of its index. -/
abbrev Arr1 := ℕ → M.F

variable {M}

/-- `np.diag` of a vector. -/
abbrev diag (w : M.V N) : M.A N N := UMachine.diag M.toUMachine w

/-- `UDU_decomposition.reconstruct`, `bierman.py:52-54`. -/
def UD.reconstruct (c : M.UD n) : M.A n n :=
  M.dotM n n n (M.dotM n n n c.U (diag c.D)) (M.tr c.U)

/-- `a[i, j] = v` -/
def set2 (a : M.Arr2) (i j : ℕ) (v : M.F) : M.Arr2 :=
  fun r c => if r = i ∧ c = j then v else a r c

/-- `a[i] = v` -/
def set1 (a : M.Arr1) (i : ℕ) (v : M.F) : M.Arr1 := fun r => if r = i then v else a r

/-- Entries of a matrix. -/
def arr2 (X : M.A n n) : M.Arr2 :=
  fun i j => if h : i < n ∧ j < n then X ⟨i, h.1⟩ ⟨j, h.2⟩ else M.zero

/-- Entries of a vector. -/
def arr1 (v : M.V n) : M.Arr1 := fun i => if h : i < n then v ⟨i, h⟩ else M.zero

variable (M)

/-- The arrays `M`, `U`, `d` of `udu`, `bierman.py:73-75`. -/
structure UduSt where
  X : M.Arr2
  U : M.Arr2
  d : M.Arr1

variable {M}

/-- Body of the inner loop of `udu`, `bierman.py:83-85`, for `k = i + 1` (see `uduInner`). -/
def uduInner (store : M.F → M.F) (j : ℕ) (alpha : M.F) (s : M.UduSt) (i : ℕ) : M.UduSt :=
  let k := i + 1
  let beta := s.X (k - 1) (j - 1)
  let U := set2 s.U (k - 1) (j - 1) (M.mul alpha beta)
  let X : M.Arr2 := fun r c =>
    if r < k ∧ c = k - 1 then store (M.sub (s.X r (k - 1)) (M.mul beta (U r (j - 1)))) else s.X r c
  ⟨X, U, s.d⟩

/-- Body of the outer loop of `udu`, `bierman.py:77-85`. -/
def uduCol (store : M.F → M.F) (j : ℕ) (s : M.UduSt) : M.UduSt :=
  let d := set1 s.d (j - 1) (s.X (j - 1) (j - 1))
  let alpha := if M.positive (d (j - 1)) then M.div M.one (d (j - 1)) else M.zero
  (List.range (j - 1)).foldl (uduInner store j alpha) ⟨s.X, s.U, d⟩

/-- Outer loop of `udu`, `bierman.py:76`: `j = c + 1, c, …, 2`. -/
def uduLoop (store : M.F → M.F) : ℕ → M.UduSt → M.UduSt
  | 0, s => s
  | c + 1, s => uduLoop store c (uduCol store (c + 2) s)

/-- `udu`, `bierman.py:57-90`. -/
def udu (store : M.F → M.F) (X : M.A n n) : Res (M.UD n) :=
  if M.allClose n X then
    if n = 0 then .error .indexError
    else
      let triu : M.Arr2 := fun i j => if i ≤ j then arr2 X i j else M.zero
      let eye : M.Arr2 := fun i j => if i = j then M.one else M.zero
      let s := uduLoop store (n - 1) ⟨triu, eye, fun _ => M.zero⟩
      let d := set1 s.d 0 (s.X 0 0)
      .ok ⟨fun i j => s.U i j, fun i => d i⟩
  else .error .assertionError

/-- `inv.dot(X.T).T` for an array `X` with the given rows, `bierman.py:144,147`: one product of
matrices. -/
def dotRows (inv : M.A m m) (rows : List (M.V m)) : List (M.V m) :=
  List.ofFn fun j : Fin rows.length => fun i =>
    M.dotM m m rows.length inv (fun i j => rows.get j i) i j

/-- `inv.dot(offsets.T).T`, `bierman.py:144`, for an array with one or two dimensions. -/
def dotOffsets (inv : M.A m m) : TV (M.V m) → TV (M.V m)
  | .const d => .const (M.dotV m m inv d)
  | .seq ds => .seq (dotRows inv ds)

/-- `inv.dot(observations.T).T`, `bierman.py:147`; the mask stays. -/
def dotRowsMasked (inv : M.A m m) (os : List (M.Row m)) : List (M.Row m) :=
  List.zipWith (fun v (o : M.Row m) => ⟨v, o.mask⟩) (dotRows inv (os.map (·.val))) os

/-- `decorrelate_observations`, `bierman.py:93-158` (see `decorrelate`). -/
def decorrelate (C : TV (M.A m n)) (d : TV (M.V m)) (R : TV (M.A m m)) (os : List (M.Row m)) :
    Res (TV (M.A m n) × TV (M.V m) × List (M.Row m)) := do
  let R2 ← cholParam R
  let inv ← M.pinv m R2
  pure (C.map fun X => M.dotM m m n inv X, dotOffsets inv d, dotRowsMasked inv os)

/-- `_filter_predict`, `bierman.py:161-213`. -/
def bierPredict (A Q : M.A n n) (b : M.V n) (mean : M.V n) (cov : M.UD n) :
    Res (M.V n × M.UD n) := do
  let mean' := M.vadd (M.dotV n n A mean) b
  let c ← udu id (M.madd (M.dotM n n n (M.dotM n n n A cov.reconstruct) (M.tr A)) Q)
  pure (mean', c)

variable (M)

/-- The arrays `gamma`, `U_bar`, `D_bar`, `k` of `_filter_correct_single`,
`bierman.py:247-250`. -/
structure SingleSt where
  gamma : M.Arr1
  U : M.Arr2
  D : M.Arr1
  k : M.Arr1

variable {M}

/-- Body of the loop of `_filter_correct_single`, `bierman.py:258-262`, for `j = i + 1`. -/
def singleBody (U : M.Arr2) (D f g : M.Arr1) (s : M.SingleSt) (i : ℕ) : M.SingleSt :=
  let j := i + 1
  let gamma := set1 s.gamma j (M.add (s.gamma (j - 1)) (M.mul (g j) (f j)))
  let Dbar := set1 s.D j (M.div (M.mul (D j) (gamma (j - 1))) (gamma j))
  let Ubar : M.Arr2 := fun r c =>
    if c = j then M.sub (U r j) (M.mul (M.div (f j) (gamma (j - 1))) (s.k r)) else s.U r c
  let k : M.Arr1 := fun r => M.add (s.k r) (M.mul (g j) (U r j))
  ⟨gamma, Ubar, Dbar, k⟩

/-- `_filter_correct_single`, `bierman.py:216-266`: corrected factors and gain. -/
def correctSingle (c : M.UD n) (h : M.V n) (R : M.F) : M.UD n × M.V n :=
  let f := M.dotVM n n h c.U
  let g := M.dotV n n (diag c.D) f
  let alpha := M.add (M.dot n f g) R
  let fa := arr1 f
  let ga := arr1 g
  let gamma : M.Arr1 := set1 (fun _ => M.zero) 0 (M.add R (M.mul (ga 0) (fa 0)))
  let Dbar : M.Arr1 := set1 (fun _ => M.zero) 0 (M.div (M.mul (arr1 c.D 0) R) (gamma 0))
  let k : M.Arr1 := set1 (fun _ => M.zero) 0 (ga 0)
  let Ubar : M.Arr2 := set2 (fun _ _ => M.zero) 0 0 M.one
  let s := (List.range (n - 1)).foldl (singleBody (arr2 c.U) (arr1 c.D) fa ga) ⟨gamma, Ubar, Dbar, k⟩
  (⟨fun i j => s.U i j, fun i => s.D i⟩, fun i => M.div (s.k i) alpha)

/-- Body of the loop of `_filter_correct`, `bierman.py:320-339`, for component `i`. -/
def bierCorrectOne (C : M.A m n) (R : M.A m m) (d : M.V m) (z : M.V m) (s : M.V n × M.UD n)
    (i : Fin m) : M.V n × M.UD n :=
  let r := correctSingle s.2 (C i) (R i i)
  let predObsMean := M.add (M.dot n (C i) s.1) (d i)
  (M.vadd s.1 (fun q => M.mul (r.2 q) (M.sub (z i) predObsMean)), r.1)

/-- `_filter_correct`, `bierman.py:269-347`. -/
def bierCorrect (C : M.A m n) (R : M.A m m) (d : M.V m) (mean : M.V n) (cov : M.UD n)
    (o : M.Row m) : M.V n × M.UD n :=
  if ¬ o.missing then (List.finRange m).foldl (bierCorrectOne C R d o.val) (mean, cov)
  else (mean, cov)

/-- `np.eye`. -/
def eye : M.A k k := fun i j => if i = j then M.one else M.zero

variable (M)

/-- Row `t` of the arrays that `_filter` returns, `bierman.py:456-461`. -/
structure BSt (n : ℕ) where
  predMean : M.V n
  predCov : M.UD n
  filtMean : M.V n
  filtCov : M.UD n

variable {M}

/-- Body of the loop of `_filter`, `bierman.py:428-454`; `C`, `d`, `o` are decorrelated (see
`bierStep`). -/
def bierStep (p : M.Par n m) (C : TV (M.A m n)) (d : TV (M.V m)) (S0 : M.UD n) (t : ℕ)
    (prev : Option (M.BSt n)) (o : M.Row m) : Res (M.BSt n) := do
  let pred ← match prev with
    | none => pure (p.mu0, S0)
    | some s => do
      let A ← lastDims p.A (t - 1)
      let b ← lastDims p.b (t - 1)
      let Q ← match p.Q with
        | .const Q => pure Q
        | .seq _ => .error .valueError
      bierPredict A Q b s.filtMean s.filtCov
  let C ← lastDims C t
  let d ← lastDims d t
  let c := bierCorrect C eye d pred.1 pred.2 o
  pure ⟨pred.1, pred.2, c.1, c.2⟩

/-- `_filter`, `bierman.py:350-461` (see `bierFull`). -/
def bierFull (store : M.F → M.F) (p : M.Par n m) (os : List (M.Row m)) :
    Res (List (M.BSt n)) := do
  let S0 ← udu store p.S0
  let r ← decorrelate p.C p.d p.R os
  UMachine.run (bierStep p r.1 r.2.1 S0) 0 none r.2.2

/-- A row with reconstructed covariances (`_reconstruct_covariances`, `bierman.py:30-42`). -/
def BSt.st (m : ℕ) (s : M.BSt n) : M.St n m :=
  ⟨s.predMean, s.predCov.reconstruct, M.zeros, s.filtMean, s.filtCov.reconstruct⟩

/-- The filtered rows, with reconstructed covariances, of `BiermanKalmanFilter`: `covariances[0]`
raises `IndexError` when there is none. -/
def bierRows (store : M.F → M.F) (p : M.Par n m) (os : List (M.Row m)) :
    Res (List (M.St n m)) := do
  let steps ← bierFull store p os
  match steps with
  | [] => .error .indexError
  | s :: l => pure ((s :: l).map (BSt.st m))

/-- `BiermanKalmanFilter.filter`, `bierman.py:514-571`. -/
def bierFilter (store : M.F → M.F) (p : M.Par n m) (os : List (M.Row m)) :
    Res (List (M.V n × M.A n n)) := do
  let rows ← bierRows store p os
  pure (rows.map fun s => (s.filtMean, s.filtCov))

/-- `BiermanKalmanFilter.smooth`, `bierman.py:710-779`. -/
def bierSmooth (store : M.F → M.F) (p : M.Par n m) (os : List (M.Row m)) :
    Res (List (M.V n × M.A n n)) := do
  let rows ← bierRows store p os
  let sm ← M.smoothFull p.A rows
  pure (sm.map fun s => (s.mean, s.cov))

/-- `BiermanKalmanFilter.loglikelihood`, `bierman.py:910-968`. -/
def bierLoglik (store : M.F → M.F) (p : M.Par n m) (os : List (M.Row m)) : Res M.F := do
  let rows ← bierRows store p os
  let ls ← M.loglikLoop p 0 rows os
  pure (M.sum ls)

/-- `BiermanKalmanFilter.filter_update`, `bierman.py:573-708`; the leading axis of the covariance is
left out (see C44).  One observation is decorrelated with a product of a matrix and a vector. -/
def bierUpdate (store : M.F → M.F) (p : M.Par n m) (mean : M.V n) (cov : M.A n n)
    (observation : Option (M.Row m)) (a : M.toMachine.Args n m) : Res (M.V n × M.A n n) := do
  let b ← argOrDefault a.b p.b
  let d ← argOrDefault a.d p.d
  let A ← argOrDefault a.A p.A
  let C ← argOrDefault a.C p.C
  let Q ← argOrDefault a.Q p.Q
  let R ← argOrDefault a.R p.R
  let o : M.Row m := UMachine.observed observation
  let S ← udu store cov
  let R2 ← M.cholL m R
  let inv ← M.pinv m R2
  let pred ← bierPredict A Q b mean S
  let c := bierCorrect (M.dotM m m n inv C) eye (M.dotV m m inv d) pred.1 pred.2
    ⟨M.dotV m m inv o.val, o.mask⟩
  pure (c.1, c.2.reconstruct)

/-- The iterations of `BiermanKalmanFilter.em`, `bierman.py:842-907` (see `bierEmLoop`). -/
def bierEmLoop (store : M.F → M.F) (given : M.Par n m) (vars : EmVar → Bool)
    (os : List (M.Row m)) : ℕ → M.Par n m → Res (M.Par n m)
  | 0, p => pure p
  | k + 1, p => do
    let rows ← bierRows store p os
    let ss ← statsOf p rows
    let p' ← M.emStep given vars p ss os
    bierEmLoop (if vars .initialStateCovariance then id else store) given vars os k p'

/-- `BiermanKalmanFilter.em`, `bierman.py:781-908`. -/
def bierEm (store : M.F → M.F) (p : M.Par n m) (os : List (M.Row m)) (nIter : ℕ)
    (vars : EmVar → Bool) : Res (M.Par n m) :=
  bierEmLoop store p vars os nIter p

/-! ### `unscented.py` -/

/-- Body of the inner loop of `cholupdate`, `sqrt/unscented.py:98-104`. -/
def cholupdateStep (sign : M.F) (st : M.A n n × M.V n) (k : Fin n) : M.A n n × M.V n :=
  let X := st.1
  let x := st.2
  let r2 := M.add (M.square (X k k)) (M.mul sign (M.square (x k)))
  let r := if M.negative r2 then M.zero else M.sqrt r2
  let c := M.div r (X k k)
  let s := M.div (x k) (X k k)
  let row : M.V n := fun j =>
    if j = k then r
    else if k < j then M.div (M.add (X k j) (M.mul (M.mul sign s) (x j))) c else X k j
  (fun i => if i = k then row else X i,
    fun j => if k < j then M.sub (M.mul c (x j)) (M.mul s (row j)) else x j)

/-- `cholupdate`, `sqrt/unscented.py:46-106`; the rows of `X` are the vectors. -/
def cholupdate {v : ℕ} (A2 : M.A n n) (X : M.A v n) (weight : M.F) : M.A n n :=
  let sign := M.sign weight
  let w := M.sqrt (M.abs weight)
  (List.finRange v).foldl (fun B i =>
    ((List.finRange n).foldl (cholupdateStep sign) (B, fun j => M.mul w (X i j))).1) A2

/-- `qr`, `sqrt/unscented.py:109-115`. -/
def qrSquare {L : ℕ} (X : M.A N L) : Res (M.A L L) :=
  if h : N ≥ L then do
    let R ← M.qr N L X
    pure fun i j => R (Fin.castLE h i) j
  else .error .valueError

/-- The first block of `qr_points` in `points2moments`, `sqrt/unscented.py:137-141`. -/
def qrPoints (s : M.Pts N k) (mu : M.V k) : M.A k N := fun i j =>
  M.mul (M.mul (M.sign (s.wc j)) (M.sqrt (M.abs (s.wc j)))) (M.sub (s.points j i) (mu i))

/-- `points2moments`, `sqrt/unscented.py:118-146`; the second component is a square root. -/
def sqPoints2moments (s : M.Pts N k) (noise : Option (M.A k k)) : Res (M.Mom k) := do
  let mu : M.V k := M.dotV k N (fun i j => s.points j i) s.wm
  let sigma2 ← match noise with
    | some S => qrSquare (M.tr (hstack (qrPoints s mu) S))
    | none => qrSquare (M.tr (qrPoints s mu))
  pure ⟨mu, sigma2⟩

/-- `moments2points`, `sqrt/unscented.py:149-203`, with the default `alpha`, `beta` and `kappa`. -/
def sqMoments2points (x : M.Mom n) : M.Pts (n + n + 1) n :=
  let sigma2 := M.tr x.cov
  let kappa := M.sub M.three (M.count n)
  let lamda := M.sub (M.mul (M.mul M.one M.one) (M.add (M.count n) kappa)) (M.count n)
  let c := M.add (M.count n) lamda
  ⟨Fin.cons x.mean (Fin.append
      (fun j i => M.add (x.mean i) (M.mul (sigma2 i j) (M.sqrt c)))
      (fun j i => M.sub (x.mean i) (M.mul (sigma2 i j) (M.sqrt c)))),
   Fin.cons (M.div lamda c) fun _ => M.div M.half c,
   Fin.cons (M.add (M.div lamda c) (M.add (M.sub M.one (M.mul M.one M.one)) M.zero))
     fun _ => M.div M.half c⟩

/-- `_unscented_correct`, `sqrt/unscented.py:251-302`. -/
def sqUnscentedCorrect (cross : M.A n m) (pred : M.Mom n) (obs : M.Mom m) (o : M.Row m) :
    Res (M.Mom n) :=
  if ¬ o.missing then do
    let K1 ← M.lstsq m m n obs.cov (M.tr cross)
    let K2 ← M.lstsq m m n (M.tr obs.cov) K1
    let K : M.A n m := M.tr K2
    let mean := M.vadd pred.mean (M.dotV n m K (M.vsub o.val obs.mean))
    let U := M.dotM n m m K obs.cov
    pure ⟨mean, cholupdate pred.cov (M.tr U) M.minusOne⟩
  else pure pred

/-- `unscented_filter_correct`, `sqrt/unscented.py:350-404`. -/
def sqCorrect (g : M.V n → Res (M.V m)) (pred : M.Mom n) (pts : M.Pts N n) (o : M.Row m)
    (R2 : M.A m m) : Res (M.Mom n) := do
  let q ← pts.through g
  let obs ← sqPoints2moments q (some R2)
  sqUnscentedCorrect (UMachine.crossCov pts pred.mean q obs.mean) pred obs o

/-- Body of the loop of `_additive_unscented_filter`, `sqrt/unscented.py:444-470`. -/
def sqStep (p : M.UPar n m) (Q2 : M.A n n) (R2 : M.A m m) (t : ℕ) (prev : Option (M.Mom n))
    (o : M.Row m) : Res (M.Mom n) :=
  match prev with
  | none => do
    let S2 ← M.chol n p.S0
    let pts := sqMoments2points ⟨p.mu0, S2⟩
    let pred ← sqPoints2moments pts none
    let g ← p.g.at t
    sqCorrect g pred pts o R2
  | some x => do
    let pts := sqMoments2points x
    let f ← p.f.at (t - 1)
    let q ← pts.through f
    let pred ← sqPoints2moments q (some Q2)
    let pts' := sqMoments2points pred
    let g ← p.g.at t
    sqCorrect g pred pts' o R2

/-- `_additive_unscented_filter`, `sqrt/unscented.py:407-472`. -/
def sqFull (p : M.UPar n m) (os : List (M.Row m)) : Res (List (M.Mom n)) := do
  let Q2 ← M.chol n p.Q
  let R2 ← M.chol m p.R
  UMachine.run (sqStep p Q2 R2) 0 none os

/-- `sigma2[t].T.dot(sigma2[t])`, `sqrt/unscented.py:31-43,644-645,822-823`. -/
def unroot (x : M.Mom n) : M.Mom n := ⟨x.mean, M.dotM n n n (M.tr x.cov) x.cov⟩

/-- `AdditiveUnscentedKalmanFilter.filter`, `sqrt/unscented.py:599-647`. -/
def sqFilter (p : M.UPar n m) (os : List (M.Row m)) : Res (List (M.Mom n)) := do
  let l ← sqFull p os
  pure (l.map unroot)

/-- Body of the loop of `_additive_unscented_smoother`, `sqrt/unscented.py:508-549`. -/
def sqSmoothStep (p : M.UPar n m) (Q2 : M.A n n) (t : ℕ) (s next : M.Mom n) : Res (M.Mom n) := do
  let pts := sqMoments2points s
  let f ← p.f.at t
  let ptsPred ← pts.through f
  let pred ← sqPoints2moments ptsPred (some Q2)
  let pair : M.A n n := M.tr (M.dotM n (n + n + 1) n
    (M.dotM n (n + n + 1) (n + n + 1) (UMachine.centred ptsPred pred.mean) (diag ptsPred.wc))
    (M.tr (UMachine.centred pts s.mean)))
  let g1 ← M.lstsq n n n (M.tr pred.cov) (M.tr pair)
  let g2 ← M.lstsq n n n pred.cov g1
  let gain := M.tr g2
  let U := cholupdate pred.cov next.cov M.minusOne
  pure ⟨M.vadd s.mean (M.dotV n n gain (M.vsub next.mean pred.mean)),
    cholupdate s.cov (M.tr (M.dotM n n n gain (M.tr U))) M.minusOne⟩

/-- `AdditiveUnscentedKalmanFilter.smooth`, `sqrt/unscented.py:771-825`, with
`_additive_unscented_smoother`, `sqrt/unscented.py:475-551`. -/
def sqSmooth (p : M.UPar n m) (os : List (M.Row m)) : Res (List (M.Mom n)) := do
  let l ← sqFull p os
  let Q2 ← M.chol n p.Q
  let l' ← backFull (sqSmoothStep p Q2) l
  pure (l'.map unroot)

/-- `AdditiveUnscentedKalmanFilter.filter_update`, `sqrt/unscented.py:649-769`; the leading axis of
the covariance is left out (see C44). -/
def sqUpdate (p : M.UPar n m) (x : M.Mom n) (observation : Option (M.Row m))
    (a : M.UArgs n m) : Res (M.Mom n) := do
  let f ← defaultFunction a.f p.f
  let g ← defaultFunction a.g p.g
  let P2 ← M.chol n x.cov
  let Q2 ← M.chol n (a.Q.getD p.Q)
  let R2 ← M.chol m (a.R.getD p.R)
  let pts := sqMoments2points ⟨x.mean, P2⟩
  let q ← pts.through f
  let pred ← sqPoints2moments q (some Q2)
  let pts' := sqMoments2points pred
  let r ← sqCorrect g pred pts' (UMachine.observed observation) R2
  pure (unroot r)

end SMachine

end Verif
