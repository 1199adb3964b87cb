import Verif.Model.Cholesky

/-!
# Model of `pykalman/sqrt/bierman.py`

Line numbers refer to `/repo/pykalman/sqrt/bierman.py` unless another file is named.  Arrays that
the code fills entry by entry are functions of the (zero-based) indices.
-/

open Matrix

namespace Verif

variable {n m : ℕ}

/-- `UDU_decomposition`, `bierman.py:45-54`. -/
structure UDU (n : ℕ) where
  U : Mat n n
  D : Vec n

/-- `UDU_decomposition.reconstruct`, `bierman.py:52-54`. -/
def UDU.reconstruct (d : UDU n) : Mat n n := d.U * diagonal d.D * d.Uᵀ

/-- A two-dimensional array. -/
abbrev Arr2 := ℕ → ℕ → ℝ

/-- A one-dimensional array. -/
abbrev Arr1 := ℕ → ℝ

/-- `a[i, j] = v` -/
def Arr2.set (a : Arr2) (i j : ℕ) (v : ℝ) : Arr2 :=
  fun r c => if r = i ∧ c = j then v else a r c

/-- `a[i] = v` -/
def Arr1.set (a : Arr1) (i : ℕ) (v : ℝ) : Arr1 := fun r => if r = i then v else a r

/-- Entries of a matrix as an array. -/
def arr2 (M : Mat n n) : Arr2 := fun i j => if h : i < n ∧ j < n then M ⟨i, h.1⟩ ⟨j, h.2⟩ else 0

/-- Entries of a vector as an array. -/
def arr1 (v : Vec n) : Arr1 := fun i => if h : i < n then v ⟨i, h⟩ else 0

/-- Matrix of an array. -/
def mat2 (n : ℕ) (a : Arr2) : Mat n n := Matrix.of fun i j => a i j

/-- Vector of an array. -/
def vec1 (n : ℕ) (a : Arr1) : Vec n := fun i => a i

/-- The arrays `M`, `U`, `d` of `udu`, `bierman.py:73-75`. -/
structure UduState where
  M : Arr2
  U : Arr2
  d : Arr1

/-- Body of the inner loop of `udu`, `bierman.py:83-85`, for `k = i + 1`.  `store` is the
conversion that assigning to an entry of `M` performs: `M` keeps the type of the argument, so the
identity for an array of floats and truncation for an array of integers. -/
def uduInner (store : ℝ → ℝ) (j : ℕ) (alpha : ℝ) (s : UduState) (i : ℕ) : UduState :=
  let k := i + 1
  let beta := s.M (k - 1) (j - 1)
  let U := s.U.set (k - 1) (j - 1) (alpha * beta)
  let M : Arr2 := fun r c =>
    if r < k ∧ c = k - 1 then store (s.M r (k - 1) - beta * U r (j - 1)) else s.M r c
  ⟨M, U, s.d⟩

/-- Body of the outer loop of `udu`, `bierman.py:77-85`. -/
noncomputable def uduCol (store : ℝ → ℝ) (j : ℕ) (s : UduState) : UduState :=
  let d := s.d.set (j - 1) (s.M (j - 1) (j - 1))
  let alpha := if d (j - 1) > 0 then 1.0 / d (j - 1) else 0.0
  (List.range (j - 1)).foldl (uduInner store j alpha) ⟨s.M, s.U, d⟩

/-- Outer loop of `udu`, `bierman.py:76`: `j = c + 1, c, …, 2`. -/
noncomputable def uduLoop (store : ℝ → ℝ) : ℕ → UduState → UduState
  | 0, s => s
  | c + 1, s => uduLoop store c (uduCol store (c + 2) s)

/-- `np.allclose(M, M.T)` with the default tolerances, `bierman.py:70`. -/
def AllCloseT (M : Mat n n) : Prop :=
  ∀ i j, |M i j - Mᵀ i j| ≤ 1e-8 + 1e-5 * |Mᵀ i j|

open Classical in
/-- `udu`, `bierman.py:57-90`.  A matrix without rows fails at `M[0, 0]`. -/
noncomputable def udu (store : ℝ → ℝ) (M : Mat n n) : Res (UDU n) :=
  if AllCloseT M then
    if n = 0 then .error .indexError
    else
      let triu : Arr2 := fun i j => if i ≤ j then arr2 M i j else 0
      let eye : Arr2 := fun i j => if i = j then 1 else 0
      let s := uduLoop store (n - 1) ⟨triu, eye, fun _ => 0⟩
      let d := s.d.set 0 (s.M 0 0)
      .ok ⟨mat2 n s.U, vec1 n d⟩
  else .error .assertionError

/-- Constant or time-varying parameter, entry by entry. -/
def TV.map {α β : Type} (f : α → β) : TV α → TV β
  | .const a => .const (f a)
  | .seq l => .seq (l.map f)

/-- What `decorrelate_observations`, `bierman.py:93-158`, returns (without the identity matrix):
matrices, offsets, observations.  `observation_covariance_inv.dot(observations.T).T` keeps the mask
of `observations`.  For a three-dimensional `observation_matrices` the code assigns into a copy,
exactly for an array of floats; arrays of integers: `decorrelateStored` in
`Model/BiermanDtype`. -/
noncomputable def decorrelate (C : TV (Mat m n)) (d : TV (Vec m)) (R : TV (Mat m m))
    (os : List (Obs m)) : Res (TV (Mat m n) × TV (Vec m) × List (Obs m)) := do
  let R2 ← cholParam R
  let inv := pinv R2
  pure (C.map fun X => inv * X, d.map fun v => inv *ᵥ v,
    os.map fun o => ⟨inv *ᵥ o.val, o.mask⟩)

/-- `_filter_predict`, `bierman.py:161-213`. -/
noncomputable def bierPredict (A Q : Mat n n) (b : Vec n) (mean : Vec n) (cov : UDU n) :
    Res (Vec n × UDU n) := do
  let c ← udu id (A * cov.reconstruct * Aᵀ + Q)
  pure (A *ᵥ mean + b, c)

/-- The arrays `gamma`, `U_bar`, `D_bar`, `k` of `_filter_correct_single`,
`bierman.py:247-250`. -/
structure SingleState where
  gamma : Arr1
  U : Arr2
  D : Arr1
  k : Arr1

/-- Body of the loop of `_filter_correct_single`, `bierman.py:258-262`, for `j = i + 1`. -/
noncomputable def singleBody (U : Arr2) (D f g : Arr1) (s : SingleState) (i : ℕ) : SingleState :=
  let j := i + 1
  let gamma := s.gamma.set j (s.gamma (j - 1) + g j * f j)
  let Dbar := s.D.set j (D j * gamma (j - 1) / gamma j)
  let Ubar : Arr2 := fun r c =>
    if c = j then U r j - f j / gamma (j - 1) * s.k r else s.U r c
  let k : Arr1 := fun r => s.k r + g j * U r j
  ⟨gamma, Ubar, Dbar, k⟩

/-- `_filter_correct_single`, `bierman.py:216-266`: corrected factors and gain. -/
noncomputable def correctSingle (c : UDU n) (h : Vec n) (R : ℝ) : UDU n × Vec n :=
  let f := h ᵥ* c.U
  let g := diagonal c.D *ᵥ f
  let alpha := f ⬝ᵥ g + R
  let fa := arr1 f
  let ga := arr1 g
  let gamma := Arr1.set (fun _ => 0) 0 (R + ga 0 * fa 0)
  let Dbar := Arr1.set (fun _ => 0) 0 (arr1 c.D 0 * R / gamma 0)
  let k := Arr1.set (fun _ => 0) 0 (ga 0)
  let Ubar := Arr2.set (fun _ _ => 0) 0 0 1
  let s := (List.range (n - 1)).foldl (singleBody (arr2 c.U) (arr1 c.D) fa ga) ⟨gamma, Ubar, Dbar, k⟩
  (⟨mat2 n s.U, vec1 n s.D⟩, (1 / alpha) • vec1 n s.k)

/-- Body of the loop of `_filter_correct`, `bierman.py:320-339`, for component `i`. -/
noncomputable def bierCorrectOne (C : Mat m n) (R : Mat m m) (d : Vec m) (z : Vec m)
    (s : Vec n × UDU n) (i : Fin m) : Vec n × UDU n :=
  let r := correctSingle s.2 (C i) (R i i)
  let predObsMean := C i ⬝ᵥ s.1 + d i
  (s.1 + (z i - predObsMean) • r.2, r.1)

/-- `_filter_correct`, `bierman.py:269-347`. -/
noncomputable def bierCorrect (C : Mat m n) (R : Mat m m) (d : Vec m) (mean : Vec n) (cov : UDU n)
    (o : Obs m) : Vec n × UDU n :=
  if ¬ o.missing then (List.finRange m).foldl (bierCorrectOne C R d o.val) (mean, cov)
  else (mean, cov)

/-- Row `t` of the arrays that `_filter` returns, `bierman.py:456-461`. -/
structure BStep (n : ℕ) where
  predMean : Vec n
  predCov : UDU n
  filtMean : Vec n
  filtCov : UDU n

/-- Body of the loop of `_filter`, `bierman.py:428-454`; `C`, `d`, `o` are decorrelated.  The
transition covariance is not indexed by time; with a three-dimensional one `udu` is applied to a
three-dimensional array, modelled as `ValueError`. -/
noncomputable def bierStep (p : Params n m) (C : TV (Mat m n)) (d : TV (Vec m)) (S0 : UDU n)
    (t : ℕ) (prev : Option (BStep n)) (o : Obs m) : Res (BStep n) := do
  let pred ← match prev with
    | none => pure (p.mu0, S0)
    | some s => do
      let A ← lastDims p.A (t - 1)
      let b ← lastDims p.b (t - 1)
      let Q ← match p.Q with
        | .const Q => pure Q
        | .seq _ => .error .valueError
      bierPredict A Q b s.filtMean s.filtCov
  let C ← lastDims C t
  let d ← lastDims d t
  let c := bierCorrect C 1 d pred.1 pred.2 o
  pure ⟨pred.1, pred.2, c.1, c.2⟩

/-- Loop of `_filter`, `bierman.py:428-454`. -/
noncomputable def bierLoop (p : Params n m) (C : TV (Mat m n)) (d : TV (Vec m)) (S0 : UDU n) :
    ℕ → Option (BStep n) → List (Obs m) → Res (List (BStep n))
  | _, _, [] => pure []
  | t, prev, o :: os => do
    let s ← bierStep p C d S0 t prev o
    let rest ← bierLoop p C d S0 (t + 1) (some s) os
    pure (s :: rest)

/-- `_filter`, `bierman.py:350-461`.  `store` describes the element type of
`initial_state_covariance` (see `uduInner`). -/
noncomputable def bierFull (store : ℝ → ℝ) (p : Params n m) (os : List (Obs m)) :
    Res (List (BStep n)) := do
  let S0 ← udu store p.S0
  let r ← decorrelate p.C p.d p.R os
  bierLoop p r.1 r.2.1 S0 0 none r.2.2

/-- A row with reconstructed covariances (`_reconstruct_covariances`, `bierman.py:30-42`). -/
def BStep.step (m : ℕ) (s : BStep n) : Step n m :=
  ⟨s.predMean, s.predCov.reconstruct, 0, s.filtMean, s.filtCov.reconstruct⟩

/-- `_reconstruct_covariances`, `bierman.py:30-42`, on the rows of a run: `covariances[0]` raises
`IndexError` when there is none. -/
def bierRows (m : ℕ) : List (BStep n) → Res (List (Step n m))
  | [] => .error .indexError
  | s :: l => .ok ((s :: l).map (BStep.step m))

/-- `BiermanKalmanFilter.filter`, `bierman.py:514-571`. -/
noncomputable def bierFilter (store : ℝ → ℝ) (p : Params n m) (os : List (Obs m)) :
    Res (List (Vec n × Mat n n)) := do
  let steps ← bierFull store p os
  let rows ← bierRows m steps
  pure (rows.map fun s => (s.filtMean, s.filtCov))

/-- `BiermanKalmanFilter.smooth`, `bierman.py:710-779`. -/
noncomputable def bierSmooth (store : ℝ → ℝ) (p : Params n m) (os : List (Obs m)) :
    Res (List (Vec n × Mat n n)) := do
  let steps ← bierFull store p os
  let rows ← bierRows m steps
  let sm ← smoothFull p.A rows
  pure (sm.map fun s => (s.mean, s.cov))

/-- `BiermanKalmanFilter.loglikelihood`, `bierman.py:910-968`: on the original observations and
parameters. -/
noncomputable def bierLoglik (store : ℝ → ℝ) (p : Params n m) (os : List (Obs m)) : Res ℝ := do
  let steps ← bierFull store p os
  let rows ← bierRows m steps
  let ls ← loglikLoop p 0 rows os
  pure ls.sum

/-- `BiermanKalmanFilter.filter_update`, `bierman.py:573-708`.  The returned covariance has shape
`(1, n, n)`. -/
noncomputable def bierUpdate (store : ℝ → ℝ) (p : Params n m) (mean : Vec n) (cov : Mat n n)
    (observation : Option (Obs m)) (a : UpdateArgs n m) : Res (Vec n × (Fin 1 → Mat n n)) := do
  let b ← argOrDefault a.b p.b
  let d ← argOrDefault a.d p.d
  let A ← argOrDefault a.A p.A
  let C ← argOrDefault a.C p.C
  let Q ← argOrDefault a.Q p.Q
  let R ← argOrDefault a.R p.R
  let o : Obs m := match observation with
    | none => ⟨0, fun _ => true⟩
    | some o => o
  let S ← udu store cov
  let R2 ← cholesky R
  let inv := pinv R2
  let pred ← bierPredict A Q b mean S
  let c := bierCorrect (inv * C) 1 (inv *ᵥ d) pred.1 pred.2 ⟨inv *ᵥ o.val, o.mask⟩
  pure (c.1, fun _ => c.2.reconstruct)

/-- Smoothed statistics in `BiermanKalmanFilter.em`, `bierman.py:843-886`. -/
noncomputable def bierStats (store : ℝ → ℝ) (p : Params n m) (os : List (Obs m)) :
    Res (List (EmStats n)) := do
  let steps ← bierFull store p os
  let rows ← bierRows m steps
  let sm ← smoothFull p.A rows
  pure ((sm.zip (smoothPair sm)).map fun q => ⟨q.1.mean, q.1.cov, q.2⟩)

/-- The iterations of `BiermanKalmanFilter.em`, `bierman.py:842-907`.  An
`initial_state_covariance` that is not estimated keeps its element type, an estimated one is an array
of floats. -/
noncomputable def bierEmLoop (store : ℝ → ℝ) (given : Params n m) (vars : EmVar → Bool)
    (os : List (Obs m)) : ℕ → Params n m → Res (Params n m)
  | 0, p => pure p
  | k + 1, p => do
    let ss ← bierStats store p os
    let p' ← emStep given vars p ss os
    bierEmLoop (if vars .initialStateCovariance then id else store) given vars os k p'

/-- `BiermanKalmanFilter.em`, `bierman.py:781-908`, with an explicit selection `em_vars`. -/
noncomputable def bierEm (store : ℝ → ℝ) (p : Params n m) (os : List (Obs m)) (nIter : ℕ)
    (vars : EmVar → Bool) : Res (Params n m) :=
  bierEmLoop store p vars os nIter p

end Verif
