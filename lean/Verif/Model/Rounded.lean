import Verif.Model.CutOff

/-!
# Model of `filter` and `smooth` of `KalmanFilter` in arithmetic with rounding errors

The functions are those of `Model/Standard` with every operation on numbers replaced by one with an
error, as usual in numerical analysis: `+` and `-` are exact up to a relative error `u` (or, near
underflow, an absolute error `u`), inner products up to the bound that holds for every order of
summation, and the singular value decomposition in `scipy.linalg.pinv` is that of a matrix near the
given one.  Overflow is not modelled.  Line numbers refer to `/repo/pykalman/standard.py`.
-/

open Matrix

namespace Verif

variable {n m k l : ℕ}

/-- Sum of the absolute values of the entries. -/
def sumAbs (M : Mat k l) : ℝ := ∑ i, ∑ j, |M i j|

/-- What `scipy.linalg.pinv(M)` may return: the singular value decomposition is that of a matrix
near `M`, singular values up to `r` times the largest are dropped (`r` is of the size of `u`), and
the product of the factors is computed with errors. -/
def IsRoundedPinv (c u : ℝ) (M B : Mat k k) : Prop :=
  ∃ (E : Mat k k) (r : ℝ) (U : Mat k k) (s : Vec k) (V : Mat k k),
    (∀ i j, |E i j| ≤ c * u * (sumAbs M + 1)) ∧ 0 ≤ r ∧ r ≤ c * u ∧ IsSVD (M + E) U s V ∧
    ∀ i j, |B i j - svdPinv r U s V i j| ≤ c * u * (sumAbs (svdPinv r U s V) + 1)

/-- Arithmetic with errors of the size of `u`; `c k` is the constant for vectors of length `k` and
matrices with `k` rows. -/
structure Arith (c : ℕ → ℝ) (u : ℝ) where
  /-- `x + y` on floats. -/
  add : ℝ → ℝ → ℝ
  /-- `x - y` on floats. -/
  sub : ℝ → ℝ → ℝ
  /-- The inner product, as computed by `np.dot`. -/
  dot : ∀ k : ℕ, Vec k → Vec k → ℝ
  /-- `scipy.linalg.pinv`. -/
  pinv : ∀ k : ℕ, Mat k k → Mat k k
  add_err : ∀ x y, |add x y - (x + y)| ≤ u * (|x + y| + 1)
  sub_err : ∀ x y, |sub x y - (x - y)| ≤ u * (|x - y| + 1)
  dot_err : ∀ k (x y : Vec k), |dot k x y - x ⬝ᵥ y| ≤ c k * u * (∑ i, |x i| * |y i| + 1)
  pinv_err : ∀ k (M : Mat k k), IsRoundedPinv (c k) u M (pinv k M)

variable {c : ℕ → ℝ} {u : ℝ}

/-- `+` on vectors. -/
def Arith.vadd (ar : Arith c u) (x y : Vec k) : Vec k := fun i => ar.add (x i) (y i)

/-- `-` on vectors. -/
def Arith.vsub (ar : Arith c u) (x y : Vec k) : Vec k := fun i => ar.sub (x i) (y i)

/-- `+` on matrices. -/
def Arith.madd (ar : Arith c u) (M N : Mat k l) : Mat k l := fun i j => ar.add (M i j) (N i j)

/-- `-` on matrices. -/
def Arith.msub (ar : Arith c u) (M N : Mat k l) : Mat k l := fun i j => ar.sub (M i j) (N i j)

/-- `np.dot` of a matrix and a vector. -/
def Arith.mulV (ar : Arith c u) (M : Mat k l) (x : Vec l) : Vec k := fun i => ar.dot l (M i) x

/-- `np.dot` of two matrices. -/
def Arith.mul {r : ℕ} (ar : Arith c u) (M : Mat k l) (N : Mat l r) : Mat k r :=
  fun i j => ar.dot l (M i) (fun q => N q j)

/-- `_filter_predict`, `standard.py:187-230`. -/
def flPredict (ar : Arith c u) (A Q : Mat n n) (b : Vec n) (mean : Vec n) (cov : Mat n n) :
    Vec n × Mat n n :=
  (ar.vadd (ar.mulV A mean) b, ar.madd (ar.mul A (ar.mul cov Aᵀ)) Q)

/-- `_filter_correct`, `standard.py:233-306`. -/
noncomputable def flCorrect (ar : Arith c u) (C : Mat m n) (R : Mat m m) (d : Vec m)
    (mean : Vec n) (cov : Mat n n) (o : Obs m) : Mat n m × Vec n × Mat n n :=
  if ¬ o.missing then
    let predObsMean := ar.vadd (ar.mulV C mean) d
    let predObsCov := ar.madd (ar.mul C (ar.mul cov Cᵀ)) R
    let gain := ar.mul cov (ar.mul Cᵀ (ar.pinv m predObsCov))
    (gain, ar.vadd mean (ar.mulV gain (ar.vsub o.val predObsMean)),
      ar.msub cov (ar.mul gain (ar.mul C cov)))
  else (0, mean, cov)

/-- Body of the loop of `_filter`, `standard.py:377-410`. -/
noncomputable def flStep (ar : Arith c u) (p : Params n m) (t : ℕ) (prev : Option (Step n m))
    (o : Obs m) : Res (Step n m) := do
  let pred ← match prev with
    | none => pure (p.mu0, p.S0)
    | some s => do
      let A ← lastDims p.A (t - 1)
      let Q ← lastDims p.Q (t - 1)
      let b ← lastDims p.b (t - 1)
      pure (flPredict ar A Q b s.filtMean s.filtCov)
  let C ← lastDims p.C t
  let R ← lastDims p.R t
  let d ← lastDims p.d t
  let q := flCorrect ar C R d pred.1 pred.2 o
  pure ⟨pred.1, pred.2, q.1, q.2.1, q.2.2⟩

/-- The loop of `_filter`, `standard.py:377-410`, from time `t` on. -/
noncomputable def flLoop (ar : Arith c u) (p : Params n m) :
    ℕ → Option (Step n m) → List (Obs m) → Res (List (Step n m))
  | _, _, [] => pure []
  | t, prev, o :: os => do
    let s ← flStep ar p t prev o
    let rest ← flLoop ar p (t + 1) (some s) os
    pure (s :: rest)

/-- `_filter`, `standard.py:309-418`. -/
noncomputable def flFull (ar : Arith c u) (p : Params n m) (obs : List (Obs m)) :
    Res (List (Step n m)) :=
  flLoop ar p 0 none obs

/-- `KalmanFilter.filter`, `standard.py:1186-1238`, on parsed observations and resolved
parameters. -/
noncomputable def flFilter (ar : Arith c u) (p : Params n m) (obs : List (Obs m)) :
    Res (List (Vec n × Mat n n)) := do
  let steps ← flFull ar p obs
  pure (steps.map fun s => (s.filtMean, s.filtCov))

/-- `_smooth_update`, `standard.py:421-485`. -/
noncomputable def flSmoothUpdate (ar : Arith c u) (A : Mat n n) (filtMean : Vec n)
    (filtCov : Mat n n) (predMean : Vec n) (predCov : Mat n n) (nextMean : Vec n)
    (nextCov : Mat n n) : SStep n :=
  let gain := ar.mul filtCov (ar.mul Aᵀ (ar.pinv n predCov))
  ⟨ar.vadd filtMean (ar.mulV gain (ar.vsub nextMean predMean)),
   ar.madd filtCov (ar.mul gain (ar.mul (ar.msub nextCov predCov) gainᵀ)),
   gain⟩

/-- The loop of `_smooth`, `standard.py:531-552`, from time `t` on (see `smoothLoop`). -/
noncomputable def flSmoothLoop (ar : Arith c u) (A : TV (Mat n n)) :
    ℕ → Step n m → List (Step n m) → Res (SStep n × List (SStep n))
  | _, s, [] => pure (⟨s.filtMean, s.filtCov, 0⟩, [])
  | t, s, s' :: rest => do
    let r ← flSmoothLoop ar A (t + 1) s' rest
    let At ← lastDims A t
    pure (flSmoothUpdate ar At s.filtMean s.filtCov s'.predMean s'.predCov r.1.mean r.1.cov,
      r.1 :: r.2)

/-- `_smooth`, `standard.py:488-553`. -/
noncomputable def flSmoothFull (ar : Arith c u) (A : TV (Mat n n)) :
    List (Step n m) → Res (List (SStep n))
  | [] => .error .valueError
  | s :: rest => do
    let r ← flSmoothLoop ar A 0 s rest
    pure (r.1 :: r.2)

/-- `KalmanFilter.smooth`, `standard.py:1356-1416`, on parsed observations and resolved
parameters. -/
noncomputable def flSmooth (ar : Arith c u) (p : Params n m) (obs : List (Obs m)) :
    Res (List (Vec n × Mat n n)) := do
  let steps ← flFull ar p obs
  let sm ← flSmoothFull ar p.A steps
  pure (sm.map fun s => (s.mean, s.cov))

end Verif
