import Verif.Model.Standard

/-!
# Model of `filter` and `smooth` with the cut-off of `scipy.linalg.pinv`

`scipy.linalg.pinv(a)` computes a singular value decomposition and treats the singular values that
are at most `max(a.shape) * eps` times the largest one as zero.  (In `Model/Standard` no cut-off is
made.)  The functions below are those of `Model/Standard` with the routine for pseudo-inverses
as a parameter.  Line numbers refer to `/repo/pykalman/standard.py`.
-/

open Matrix

namespace Verif

variable {n m k : ℕ}

/-- A singular value decomposition `M = U diag(s) Vᵀ`. -/
structure IsSVD (M U : Mat k k) (s : Vec k) (V : Mat k k) : Prop where
  left : Uᵀ * U = 1
  right : Vᵀ * V = 1
  nonneg : ∀ i, 0 ≤ s i
  eq : M = U * diagonal s * Vᵀ

/-- A routine like `scipy.linalg.svd`: it returns some singular value decomposition. -/
structure SvdRoutine where
  run : ∀ k : ℕ, Mat k k → Mat k k × Vec k × Mat k k
  correct : ∀ (k : ℕ) (M : Mat k k), IsSVD M (run k M).1 (run k M).2.1 (run k M).2.2

/-- `maxS = np.max(s, initial=0.0)` in `scipy.linalg.pinv`. -/
noncomputable def maxSingular (s : Vec k) : ℝ := Finset.univ.fold max 0 s

/-- The end of `scipy.linalg.pinv`: singular values up to `rtol * maxS` are dropped, the others are
inverted. -/
noncomputable def svdPinv (rtol : ℝ) (U : Mat k k) (s : Vec k) (V : Mat k k) : Mat k k :=
  V * diagonal (fun i => if rtol * maxSingular s < s i then (s i)⁻¹ else 0) * Uᵀ

/-- `scipy.linalg.pinv(M)` for a square matrix, called at `standard.py:289,471`: `rtol` is the
number of rows times `eps`. -/
noncomputable def SvdRoutine.pinv (svd : SvdRoutine) (eps : ℝ) (k : ℕ) (M : Mat k k) : Mat k k :=
  let r := svd.run k M
  svdPinv (k * eps) r.1 r.2.1 r.2.2

/-- `_filter_correct`, `standard.py:233-306`. -/
noncomputable def filterCorrectWith (pi : ∀ k, Mat k k → Mat k k) (C : Mat m n) (R : Mat m m)
    (d : Vec m) (mean : Vec n) (cov : Mat n n) (o : Obs m) : Mat n m × Vec n × Mat n n :=
  if ¬ o.missing then
    let predObsMean := C *ᵥ mean + d
    let predObsCov := C * (cov * Cᵀ) + R
    let gain := cov * (Cᵀ * pi m predObsCov)
    (gain, mean + gain *ᵥ (o.val - predObsMean), cov - gain * (C * cov))
  else (0, mean, cov)

/-- Body of the loop of `_filter`, `standard.py:377-410`. -/
noncomputable def filterStepWith (pi : ∀ k, Mat k k → Mat k k) (p : Params n m) (t : ℕ)
    (prev : Option (Step n m)) (o : Obs m) : Res (Step n m) := do
  let pred ← match prev with
    | none => pure (p.mu0, p.S0)
    | some s => do
      let A ← lastDims p.A (t - 1)
      let Q ← lastDims p.Q (t - 1)
      let b ← lastDims p.b (t - 1)
      pure (filterPredict A Q b s.filtMean s.filtCov)
  let C ← lastDims p.C t
  let R ← lastDims p.R t
  let d ← lastDims p.d t
  let c := filterCorrectWith pi C R d pred.1 pred.2 o
  pure ⟨pred.1, pred.2, c.1, c.2.1, c.2.2⟩

/-- The loop of `_filter`, `standard.py:377-410`, from time `t` on. -/
noncomputable def filterLoopWith (pi : ∀ k, Mat k k → Mat k k) (p : Params n m) :
    ℕ → Option (Step n m) → List (Obs m) → Res (List (Step n m))
  | _, _, [] => pure []
  | t, prev, o :: os => do
    let s ← filterStepWith pi p t prev o
    let rest ← filterLoopWith pi p (t + 1) (some s) os
    pure (s :: rest)

/-- `_filter`, `standard.py:309-418`. -/
noncomputable def filterFullWith (pi : ∀ k, Mat k k → Mat k k) (p : Params n m)
    (obs : List (Obs m)) : Res (List (Step n m)) :=
  filterLoopWith pi p 0 none obs

/-- `KalmanFilter.filter`, `standard.py:1186-1238`, on parsed observations and resolved
parameters. -/
noncomputable def kfFilterWith (pi : ∀ k, Mat k k → Mat k k) (p : Params n m)
    (obs : List (Obs m)) : Res (List (Vec n × Mat n n)) := do
  let steps ← filterFullWith pi p obs
  pure (steps.map fun s => (s.filtMean, s.filtCov))

/-- `_smooth_update`, `standard.py:421-485`. -/
noncomputable def smoothUpdateWith (pi : ∀ k, Mat k k → Mat k k) (A : Mat n n) (filtMean : Vec n)
    (filtCov : Mat n n) (predMean : Vec n) (predCov : Mat n n) (nextMean : Vec n)
    (nextCov : Mat n n) : SStep n :=
  let gain := filtCov * (Aᵀ * pi n predCov)
  ⟨filtMean + gain *ᵥ (nextMean - predMean),
   filtCov + gain * ((nextCov - predCov) * gainᵀ),
   gain⟩

/-- The loop of `_smooth`, `standard.py:531-552`, from time `t` on. -/
noncomputable def smoothLoopWith (pi : ∀ k, Mat k k → Mat k k) (A : TV (Mat n n)) :
    ℕ → Step n m → List (Step n m) → Res (SStep n × List (SStep n))
  | _, s, [] => pure (⟨s.filtMean, s.filtCov, 0⟩, [])
  | t, s, s' :: rest => do
    let r ← smoothLoopWith pi A (t + 1) s' rest
    let At ← lastDims A t
    pure (smoothUpdateWith pi At s.filtMean s.filtCov s'.predMean s'.predCov r.1.mean r.1.cov,
      r.1 :: r.2)

/-- `_smooth`, `standard.py:488-553`. -/
noncomputable def smoothFullWith (pi : ∀ k, Mat k k → Mat k k) (A : TV (Mat n n)) :
    List (Step n m) → Res (List (SStep n))
  | [] => .error .valueError
  | s :: rest => do
    let r ← smoothLoopWith pi A 0 s rest
    pure (r.1 :: r.2)

/-- `KalmanFilter.smooth`, `standard.py:1356-1416`, on parsed observations and resolved
parameters. -/
noncomputable def kfSmoothWith (pi : ∀ k, Mat k k → Mat k k) (p : Params n m)
    (obs : List (Obs m)) : Res (List (Vec n × Mat n n)) := do
  let steps ← filterFullWith pi p obs
  let sm ← smoothFullWith pi p.A steps
  pure (sm.map fun s => (s.mean, s.cov))

end Verif
