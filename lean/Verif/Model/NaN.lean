import Verif.Model.Standard

/-!
# Model of `filter` and `smooth` of `KalmanFilter` on data with `nan`

Numbers of the data and of the means are real or `nan`; `nan` is `none`, and every operation with a
`nan` operand gives `nan` (IEEE 754; also `0 * nan`).  Covariances and gains are computed from the
parameters only and stay real.  Line numbers refer to `/repo/pykalman/standard.py`.
-/

open Matrix

namespace Verif

variable {n m : ℕ}

/-- A vector with entries that can be `nan`. -/
abbrev NVec (k : ℕ) := Fin k → Option ℝ

/-- Sum of two numbers. -/
def nadd (x y : Option ℝ) : Option ℝ := x.bind fun a => y.map fun b => a + b

/-- Difference of two numbers. -/
def nsub (x y : Option ℝ) : Option ℝ := x.bind fun a => y.map fun b => a - b

/-- `np.dot` of a matrix without `nan` and a vector. -/
def ndot {k l : ℕ} (M : Mat k l) (v : NVec l) : NVec k :=
  fun i => (List.ofFn fun j => (v j).map (M i j * ·)).foldr nadd (some 0)

/-- A vector without `nan`. -/
def reals {k : ℕ} (v : Vec k) : NVec k := fun i => some (v i)

/-- A row of a masked array. -/
structure NObs (m : ℕ) where
  val : NVec m
  mask : Fin m → Bool

/-- `np.any(np.ma.getmask(observation))`. -/
def NObs.missing (o : NObs m) : Prop := ∃ i, o.mask i = true

instance (o : NObs m) : Decidable o.missing := by unfold NObs.missing; infer_instance

/-- `_filter_predict`, `standard.py:187-230`. -/
def nanPredict (A Q : Mat n n) (b : Vec n) (mean : NVec n) (cov : Mat n n) : NVec n × Mat n n :=
  (fun i => nadd (ndot A mean i) (some (b i)), A * (cov * Aᵀ) + Q)

/-- `_filter_correct`, `standard.py:233-306`. -/
noncomputable def nanCorrect (C : Mat m n) (R : Mat m m) (d : Vec m)
    (mean : NVec n) (cov : Mat n n) (o : NObs m) : Mat n m × NVec n × Mat n n :=
  if ¬ o.missing then
    let predObsMean : NVec m := fun i => nadd (ndot C mean i) (some (d i))
    let predObsCov := C * (cov * Cᵀ) + R
    let gain := cov * (Cᵀ * pinv predObsCov)
    (gain, fun i => nadd (mean i) (ndot gain (fun j => nsub (o.val j) (predObsMean j)) i),
      cov - gain * (C * cov))
  else (0, mean, cov)

/-- Row `t` of the arrays that `_filter` returns, `standard.py:371-375`. -/
structure NStep (n m : ℕ) where
  predMean : NVec n
  predCov : Mat n n
  gain : Mat n m
  filtMean : NVec n
  filtCov : Mat n n

/-- Body of the loop of `_filter`, `standard.py:377-410`. -/
noncomputable def nanStep (p : Params n m) (t : ℕ) (prev : Option (NStep n m)) (o : NObs m) :
    Res (NStep n m) := do
  let pred ← match prev with
    | none => pure (reals p.mu0, p.S0)
    | some s => do
      let A ← lastDims p.A (t - 1)
      let Q ← lastDims p.Q (t - 1)
      let b ← lastDims p.b (t - 1)
      pure (nanPredict A Q b s.filtMean s.filtCov)
  let C ← lastDims p.C t
  let R ← lastDims p.R t
  let d ← lastDims p.d t
  let c := nanCorrect C R d pred.1 pred.2 o
  pure ⟨pred.1, pred.2, c.1, c.2.1, c.2.2⟩

/-- The loop of `_filter`, `standard.py:377-410`, from time `t` on. -/
noncomputable def nanLoop (p : Params n m) : ℕ → Option (NStep n m) → List (NObs m) →
    Res (List (NStep n m))
  | _, _, [] => pure []
  | t, prev, o :: os => do
    let s ← nanStep p t prev o
    let rest ← nanLoop p (t + 1) (some s) os
    pure (s :: rest)

/-- `KalmanFilter.filter`, `standard.py:1186-1238`, on parsed observations and resolved
parameters. -/
noncomputable def nanFilter (p : Params n m) (obs : List (NObs m)) :
    Res (List (NVec n × Mat n n)) := do
  let steps ← nanLoop p 0 none obs
  pure (steps.map fun s => (s.filtMean, s.filtCov))

/-- `_smooth_update`, `standard.py:421-485`. -/
noncomputable def nanSmoothUpdate (A : Mat n n) (filtMean : NVec n) (filtCov : Mat n n)
    (predMean : NVec n) (predCov : Mat n n) (nextMean : NVec n) (nextCov : Mat n n) :
    NVec n × Mat n n :=
  let gain := filtCov * (Aᵀ * pinv predCov)
  (fun i => nadd (filtMean i) (ndot gain (fun j => nsub (nextMean j) (predMean j)) i),
   filtCov + gain * ((nextCov - predCov) * gainᵀ))

/-- The loop of `_smooth`, `standard.py:531-552`, from time `t` on (see `smoothLoop`). -/
noncomputable def nanSmoothLoop (A : TV (Mat n n)) : ℕ → NStep n m → List (NStep n m) →
    Res ((NVec n × Mat n n) × List (NVec n × Mat n n))
  | _, s, [] => pure ((s.filtMean, s.filtCov), [])
  | t, s, s' :: rest => do
    let r ← nanSmoothLoop A (t + 1) s' rest
    let At ← lastDims A t
    pure (nanSmoothUpdate At s.filtMean s.filtCov s'.predMean s'.predCov r.1.1 r.1.2,
      r.1 :: r.2)

/-- `KalmanFilter.smooth`, `standard.py:1356-1416` and `488-553`. -/
noncomputable def nanSmooth (p : Params n m) (obs : List (NObs m)) :
    Res (List (NVec n × Mat n n)) := do
  let steps ← nanLoop p 0 none obs
  match steps with
  | [] => .error .valueError
  | s :: rest => do
    let r ← nanSmoothLoop p.A 0 s rest
    pure (r.1 :: r.2)

end Verif
