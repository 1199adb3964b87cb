import Verif.Model.Cholesky
import Verif.Model.Bierman
import Verif.Model.SqrtUnscented
import Verif.Model.Frontend

/-!
# Model of `filter_update` of the square-root classes, with the shapes of the covariance arrays

The models in `Model/Cholesky`, `Model/Bierman` and `Model/SqrtUnscented` take and return covariances
as matrices.  Here the covariance goes in and comes out as an array, and what the code does with its
axes is followed.  `linalg.cholesky` is that of SciPy versions that work on one matrix: it raises
`ValueError` for arrays that do not have two axes.  Arrays with two axes whose lengths do not match
the state dimension raise somewhere in NumPy; the model raises `ValueError` at once.
-/

open Matrix

namespace Verif

variable {n m : ℕ}

/-- The array of a matrix. -/
def NDArray.ofMat (M : Mat n n) : NDArray :=
  ⟨[n, n], fun i => arr2 M (i.getD 0 0) (i.getD 1 0)⟩

/-- The matrix of an array with two axes. -/
def NDArray.asMat (n : ℕ) (a : NDArray) : Mat n n := Matrix.of fun i j => a.data [i, j]

/-- `a[np.newaxis, :, :]`. -/
def NDArray.newaxis (a : NDArray) : NDArray := ⟨1 :: a.shape, fun i => a.data i.tail⟩

/-- `_reconstruct_covariances`, `sqrt/cholesky.py:29-41`. -/
def reconstructArr (a : NDArray) : NDArray :=
  let a := if a.shape.length = 2 then a.newaxis else a
  ⟨a.shape, fun i => ∑ l ∈ Finset.range (a.shape.getD 2 0),
    a.data [i.getD 0 0, i.getD 1 0, l] * a.data [i.getD 0 0, i.getD 2 0, l]⟩

/-- `_reconstruct_covariances`, `sqrt/unscented.py:31-43`. -/
def reconstructArrU (a : NDArray) : NDArray :=
  let a := if a.shape.length = 2 then a.newaxis else a
  ⟨a.shape, fun i => ∑ l ∈ Finset.range (a.shape.getD 1 0),
    a.data [i.getD 0 0, l, i.getD 1 0] * a.data [i.getD 0 0, l, i.getD 2 0]⟩

/-- `_reconstruct_covariances`, `sqrt/bierman.py:30-42`, on one factorisation. -/
def reconstructArrB (c : UDU n) : NDArray :=
  ⟨[1, n, n], fun i => arr2 c.reconstruct (i.getD 1 0) (i.getD 2 0)⟩

/-- `linalg.cholesky` on an array, see the head of the file. -/
noncomputable def choleskyArr (n : ℕ) (lower : Bool) (a : NDArray) : Res (Mat n n) :=
  if a.shape = [n, n] then (if lower then cholesky (a.asMat n) else cholUpper (a.asMat n))
  else .error .valueError

/-- `udu`, `sqrt/bierman.py:57-89`, on an array with two axes or with a leading axis of length
one.  In the second case `np.allclose(M, M.T)` (line 70) compares, by broadcasting, `M[0, j, k]` with
`M[0, j, i]` for all `i, j, k`; if that holds, `n` (line 71) is the length of the leading axis. The
result is then of size one, which fits only a state of dimension one; otherwise the multiplication
with the transition matrix (line 208) raises `ValueError`. -/
noncomputable def uduArr (store : ℝ → ℝ) (n : ℕ) (a : NDArray) : Res (UDU n) :=
  if a.shape = [n, n] then udu store (a.asMat n)
  else if a.shape = [1, n, n] then
    open Classical in
    if ∀ i j k : Fin n, a.data [0, j, k] = a.data [0, j, i] then
      if n = 1 then .ok ⟨1, fun _ => a.data [0, 0, 0]⟩ else .error .valueError
    else .error .assertionError
  else .error .valueError

/-- `CholeskyKalmanFilter.filter_update`, `sqrt/cholesky.py:410-539`. -/
noncomputable def cholUpdateArr (qr : QR) (p : Params n m) (mean : Vec n) (cov : NDArray)
    (observation : Option (Obs m)) (a : UpdateArgs n m) : Res (Vec n × NDArray) := do
  let b ← argOrDefault a.b p.b
  let d ← argOrDefault a.d p.d
  let A ← argOrDefault a.A p.A
  let C ← argOrDefault a.C p.C
  let Q ← argOrDefault a.Q p.Q
  let R ← argOrDefault a.R p.R
  let o := match observation with
    | none => ⟨0, fun _ => true⟩
    | some o => o
  let Q2 ← cholesky Q
  let R2 ← cholesky R
  let S2 ← choleskyArr n true cov
  let pred := cholPredict qr A Q2 b mean S2
  let c := cholCorrect qr C R2 d pred.1 pred.2 o
  pure (c.1, reconstructArr (.ofMat c.2))

/-- `BiermanKalmanFilter.filter_update`, `sqrt/bierman.py:573-708`. -/
noncomputable def bierUpdateArr (store : ℝ → ℝ) (p : Params n m) (mean : Vec n) (cov : NDArray)
    (observation : Option (Obs m)) (a : UpdateArgs n m) : Res (Vec n × NDArray) := do
  let b ← argOrDefault a.b p.b
  let d ← argOrDefault a.d p.d
  let A ← argOrDefault a.A p.A
  let C ← argOrDefault a.C p.C
  let Q ← argOrDefault a.Q p.Q
  let R ← argOrDefault a.R p.R
  let o : Obs m := match observation with
    | none => ⟨0, fun _ => true⟩
    | some o => o
  let S ← uduArr store n cov
  let R2 ← cholesky R
  let inv := pinv R2
  let pred ← bierPredict A Q b mean S
  let c := bierCorrect (inv * C) 1 (inv *ᵥ d) pred.1 pred.2 ⟨inv *ᵥ o.val, o.mask⟩
  pure (c.1, reconstructArrB c.2)

/-- `AdditiveUnscentedKalmanFilter.filter_update`, `sqrt/unscented.py:649-769`. -/
noncomputable def sqUpdateArr (qr : QR) (p : UParams n m) (mean : Vec n) (cov : NDArray)
    (observation : Option (Obs m)) (a : UUpdateArgs n m) : Res (Vec n × NDArray) := do
  let f ← defaultFunction a.f p.f
  let g ← defaultFunction a.g p.g
  let Q := a.Q.getD p.Q
  let R := a.R.getD p.R
  let o : Obs m := match observation with
    | none => ⟨0, fun _ => true⟩
    | some o => o
  let P2 ← choleskyArr n false cov
  let Q2 ← cholUpper Q
  let R2 ← cholUpper R
  let pts := sqMoments2points ⟨mean, P2⟩
  let pred ← sqPoints2moments qr (pts.map f) (some Q2)
  let pts' := sqMoments2points pred
  let r ← sqCorrect qr g pred pts' o R2
  pure (r.mean, reconstructArrU (.ofMat r.cov))

/-- What is in the slot `V[t]` of an array of covariances after `V[t] = a`, for `a` with a leading
axis of length one (NumPy broadcasting drops it); `tests/test_standard.py:67-68` do this. -/
def NDArray.stored (a : NDArray) : NDArray := ⟨a.shape.tail, fun i => a.data (0 :: i)⟩

end Verif
