import Verif.Model.RoundedEm
import Verif.Model.Bierman

/-!
# Model of `BiermanKalmanFilter` in arithmetic with rounding errors

The functions are those of `Model/Bierman` for arrays of floats, with every operation on numbers
replaced by one with an error, as in `Model/Rounded`, `Model/RoundedLoglik` and `Model/RoundedEm`, in
the order of the code.  Line numbers refer to `/repo/pykalman/sqrt/bierman.py`.
-/

open Matrix

namespace Verif

variable {n m : ℕ} {c : ℕ → ℝ} {u : ℝ}

/-- `UDU_decomposition.reconstruct`, `bierman.py:52-54`. -/
def UDU.flReconstruct (ar : ArithEL c u) (d : UDU n) : Mat n n :=
  ar.mul (ar.mul d.U (diagonal d.D)) d.Uᵀ

/-- Body of the inner loop of `udu`, `bierman.py:83-85`, for `k = i + 1` (see `uduInner`). -/
def flUduInner (ar : ArithEL c u) (j : ℕ) (alpha : ℝ) (s : UduState) (i : ℕ) : UduState :=
  let k := i + 1
  let beta := s.M (k - 1) (j - 1)
  let U := s.U.set (k - 1) (j - 1) (ar.mulr alpha beta)
  let M : Arr2 := fun r c =>
    if r < k ∧ c = k - 1 then ar.sub (s.M r (k - 1)) (ar.mulr beta (U r (j - 1)))
    else s.M r c
  ⟨M, U, s.d⟩

/-- Body of the outer loop of `udu`, `bierman.py:77-85`. -/
noncomputable def flUduCol (ar : ArithEL c u) (j : ℕ) (s : UduState) : UduState :=
  let d := s.d.set (j - 1) (s.M (j - 1) (j - 1))
  let alpha := if d (j - 1) > 0 then ar.divr 1 (d (j - 1)) else 0
  (List.range (j - 1)).foldl (flUduInner ar j alpha) ⟨s.M, s.U, d⟩

/-- Outer loop of `udu`, `bierman.py:76`: `j = c + 1, c, …, 2`. -/
noncomputable def flUduLoop (ar : ArithEL c u) : ℕ → UduState → UduState
  | 0, s => s
  | c + 1, s => flUduLoop ar c (flUduCol ar (c + 2) s)

/-- `np.allclose(M, M.T)`, `bierman.py:70`. -/
def FlAllCloseT (ar : ArithEL c u) (M : Mat n n) : Prop :=
  ∀ i j, |ar.sub (M i j) (Mᵀ i j)| ≤ ar.add 1e-8 (ar.mulr 1e-5 |Mᵀ i j|)

open Classical in
/-- `udu`, `bierman.py:57-90`. -/
noncomputable def flUdu (ar : ArithEL c u) (M : Mat n n) : Res (UDU n) :=
  if FlAllCloseT ar M then
    if n = 0 then .error .indexError
    else
      let triu : Arr2 := fun i j => if i ≤ j then arr2 M i j else 0
      let eye : Arr2 := fun i j => if i = j then 1 else 0
      let s := flUduLoop ar (n - 1) ⟨triu, eye, fun _ => 0⟩
      let d := s.d.set 0 (s.M 0 0)
      .ok ⟨mat2 n s.U, vec1 n d⟩
  else .error .assertionError

/-- `decorrelate_observations`, `bierman.py:93-158` (see `decorrelate`). -/
noncomputable def flDecorrelate (ar : ArithEL c u) (C : TV (Mat m n)) (d : TV (Vec m))
    (R : TV (Mat m m)) (os : List (Obs m)) : Res (TV (Mat m n) × TV (Vec m) × List (Obs m)) := do
  let R2 ← match R with
    | .const R => ar.chol m R
    | .seq _ => .error .valueError
  let inv := ar.pinv m R2
  pure (C.map fun X => ar.mul inv X, d.map fun v => ar.mulV inv v,
    os.map fun o => ⟨ar.mulV inv o.val, o.mask⟩)

/-- `_filter_predict`, `bierman.py:161-213`. -/
noncomputable def flBierPredict (ar : ArithEL c u) (A Q : Mat n n) (b : Vec n) (mean : Vec n)
    (cov : UDU n) : Res (Vec n × UDU n) := do
  let c ← flUdu ar (ar.madd (ar.mul (ar.mul A (cov.flReconstruct ar)) Aᵀ) Q)
  pure (ar.vadd (ar.mulV A mean) b, c)

/-- Body of the loop of `_filter_correct_single`, `bierman.py:258-262`, for `j = i + 1`. -/
noncomputable def flSingleBody (ar : ArithEL c u) (U : Arr2) (D f g : Arr1) (s : SingleState)
    (i : ℕ) : SingleState :=
  let j := i + 1
  let gamma := s.gamma.set j (ar.add (s.gamma (j - 1)) (ar.mulr (g j) (f j)))
  let Dbar := s.D.set j (ar.divr (ar.mulr (D j) (gamma (j - 1))) (gamma j))
  let Ubar : Arr2 := fun r c =>
    if c = j then ar.sub (U r j) (ar.mulr (ar.divr (f j) (gamma (j - 1))) (s.k r))
    else s.U r c
  let k : Arr1 := fun r => ar.add (s.k r) (ar.mulr (g j) (U r j))
  ⟨gamma, Ubar, Dbar, k⟩

/-- `_filter_correct_single`, `bierman.py:216-266`: corrected factors and gain. -/
noncomputable def flCorrectSingle (ar : ArithEL c u) (c : UDU n) (h : Vec n) (R : ℝ) :
    UDU n × Vec n :=
  let f : Vec n := fun j => ar.dot n h fun i => c.U i j
  let g := ar.mulV (diagonal c.D) f
  let alpha := ar.add (ar.dot n f g) R
  let fa := arr1 f
  let ga := arr1 g
  let gamma := Arr1.set (fun _ => 0) 0 (ar.add R (ar.mulr (ga 0) (fa 0)))
  let Dbar := Arr1.set (fun _ => 0) 0 (ar.divr (ar.mulr (arr1 c.D 0) R) (gamma 0))
  let k := Arr1.set (fun _ => 0) 0 (ga 0)
  let Ubar := Arr2.set (fun _ _ => 0) 0 0 1
  let s := (List.range (n - 1)).foldl (flSingleBody ar (arr2 c.U) (arr1 c.D) fa ga)
    ⟨gamma, Ubar, Dbar, k⟩
  (⟨mat2 n s.U, vec1 n s.D⟩, fun r => ar.divr (vec1 n s.k r) alpha)

/-- Body of the loop of `_filter_correct`, `bierman.py:320-339`, for component `i`. -/
noncomputable def flBierCorrectOne (ar : ArithEL c u) (C : Mat m n) (R : Mat m m) (d : Vec m)
    (z : Vec m) (s : Vec n × UDU n) (i : Fin m) : Vec n × UDU n :=
  let r := flCorrectSingle ar s.2 (C i) (R i i)
  let predObsMean := ar.add (ar.dot n (C i) s.1) (d i)
  (ar.vadd s.1 (fun q => ar.mulr (r.2 q) (ar.sub (z i) predObsMean)), r.1)

/-- `_filter_correct`, `bierman.py:269-347`. -/
noncomputable def flBierCorrect (ar : ArithEL c u) (C : Mat m n) (R : Mat m m) (d : Vec m)
    (mean : Vec n) (cov : UDU n) (o : Obs m) : Vec n × UDU n :=
  if ¬ o.missing then (List.finRange m).foldl (flBierCorrectOne ar C R d o.val) (mean, cov)
  else (mean, cov)

/-- Body of the loop of `_filter`, `bierman.py:428-454` (see `bierStep`). -/
noncomputable def flBierStep (ar : ArithEL c u) (p : Params n m) (C : TV (Mat m n)) (d : TV (Vec m))
    (S0 : UDU n) (t : ℕ) (prev : Option (BStep n)) (o : Obs m) : Res (BStep n) := do
  let pred ← match prev with
    | none => pure (p.mu0, S0)
    | some s => do
      let A ← lastDims p.A (t - 1)
      let b ← lastDims p.b (t - 1)
      let Q ← match p.Q with
        | .const Q => pure Q
        | .seq _ => .error .valueError
      flBierPredict ar A Q b s.filtMean s.filtCov
  let C ← lastDims C t
  let d ← lastDims d t
  let c := flBierCorrect ar C 1 d pred.1 pred.2 o
  pure ⟨pred.1, pred.2, c.1, c.2⟩

/-- Loop of `_filter`, `bierman.py:428-454`. -/
noncomputable def flBierLoop (ar : ArithEL c u) (p : Params n m) (C : TV (Mat m n))
    (d : TV (Vec m)) (S0 : UDU n) :
    ℕ → Option (BStep n) → List (Obs m) → Res (List (BStep n))
  | _, _, [] => pure []
  | t, prev, o :: os => do
    let s ← flBierStep ar p C d S0 t prev o
    let rest ← flBierLoop ar p C d S0 (t + 1) (some s) os
    pure (s :: rest)

/-- `_filter`, `bierman.py:350-461`. -/
noncomputable def flBierFull (ar : ArithEL c u) (p : Params n m) (os : List (Obs m)) :
    Res (List (BStep n)) := do
  let S0 ← flUdu ar p.S0
  let r ← flDecorrelate ar p.C p.d p.R os
  flBierLoop ar p r.1 r.2.1 S0 0 none r.2.2

/-- The row with reconstructed covariances (`_reconstruct_covariances`, `bierman.py:30-42`). -/
def BStep.flStep (ar : ArithEL c u) (m : ℕ) (s : BStep n) : Step n m :=
  ⟨s.predMean, s.predCov.flReconstruct ar, 0, s.filtMean, s.filtCov.flReconstruct ar⟩

/-- `_reconstruct_covariances`, `bierman.py:30-42`, on the rows of a run (see `bierRows`). -/
def flBierRows (ar : ArithEL c u) (m : ℕ) : List (BStep n) → Res (List (Step n m))
  | [] => .error .indexError
  | s :: l => .ok ((s :: l).map (BStep.flStep ar m))

/-- `BiermanKalmanFilter.filter`, `bierman.py:514-571`. -/
noncomputable def flBierFilter (ar : ArithEL c u) (p : Params n m) (os : List (Obs m)) :
    Res (List (Vec n × Mat n n)) := do
  let steps ← flBierFull ar p os
  let rows ← flBierRows ar m steps
  pure (rows.map fun s => (s.filtMean, s.filtCov))

/-- `BiermanKalmanFilter.smooth`, `bierman.py:710-779`. -/
noncomputable def flBierSmooth (ar : ArithEL c u) (p : Params n m) (os : List (Obs m)) :
    Res (List (Vec n × Mat n n)) := do
  let steps ← flBierFull ar p os
  let rows ← flBierRows ar m steps
  let sm ← flSmoothFull ar.toArith p.A rows
  pure (sm.map fun s => (s.mean, s.cov))

/-- `BiermanKalmanFilter.loglikelihood`, `bierman.py:910-968`. -/
noncomputable def flBierLoglik (ar : ArithEL c u) (p : Params n m) (os : List (Obs m)) : Res ℝ := do
  let steps ← flBierFull ar p os
  let rows ← flBierRows ar m steps
  let ls ← flLoglikLoop ar.toArithL p 0 rows os
  pure (ar.sum ls.length fun i => ls[i])

/-- Smoothed statistics in `BiermanKalmanFilter.em`, `bierman.py:843-886`. -/
noncomputable def flBierStats (ar : ArithEL c u) (p : Params n m) (os : List (Obs m)) :
    Res (List (EmStats n)) := do
  let steps ← flBierFull ar p os
  let rows ← flBierRows ar m steps
  let sm ← flSmoothFull ar.toArith p.A rows
  pure ((sm.zip (flSmoothPair ar.toArith sm)).map fun q => ⟨q.1.mean, q.1.cov, q.2⟩)

/-- The iterations of `BiermanKalmanFilter.em`, `bierman.py:842-907`. -/
noncomputable def flBierEmLoop (ar : ArithEL c u) (given : Params n m) (vars : EmVar → Bool)
    (os : List (Obs m)) : ℕ → Params n m → Res (Params n m)
  | 0, p => pure p
  | k + 1, p => do
    let ss ← flBierStats ar p os
    let p' ← flEmStep ar.toArithE given vars p ss os
    flBierEmLoop ar given vars os k p'

/-- `BiermanKalmanFilter.em`, `bierman.py:781-908`, with an explicit selection `em_vars`. -/
noncomputable def flBierEm (ar : ArithEL c u) (p : Params n m) (os : List (Obs m)) (nIter : ℕ)
    (vars : EmVar → Bool) : Res (Params n m) :=
  flBierEmLoop ar p vars os nIter p

end Verif
