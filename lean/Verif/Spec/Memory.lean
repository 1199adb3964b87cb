import Verif.Model.MemorySample
import Verif.Model.MemoryCholesky
import Verif.Model.MemoryBierman

/-! # What a caller sees of the memory -/

open Matrix

namespace Verif

variable {n m : ℕ}

/-- Nothing that existed has changed. -/
def Heap.Keeps (h h' : Heap) : Prop :=
  h.next ≤ h'.next ∧ ∀ a, a < h.next → h'.block a = h.block a

/-- The arrays the object refers to. -/
def KFRef.arrays (k : KFRef) : List ARef :=
  [k.A, k.C, k.Q, k.R, k.b, k.d, k.mu0, k.S0].filterMap id

/-- Every array the object refers to exists. -/
def KFRef.Valid (h : Heap) (k : KFRef) : Prop := ∀ r ∈ k.arrays, r.addr < h.next

/-- Every optional argument of `filter_update` exists and has the shape of one matrix or vector. -/
structure UpdateRefs.Fits (a : UpdateRefs) (n m : ℕ) (h : Heap) : Prop where
  A : ∀ r, a.A = some r → r.addr < h.next ∧ r.shape = [n, n]
  b : ∀ r, a.b = some r → r.addr < h.next ∧ r.shape = [n]
  Q : ∀ r, a.Q = some r → r.addr < h.next ∧ r.shape = [n, n]
  C : ∀ r, a.C = some r → r.addr < h.next ∧ r.shape = [m, n]
  d : ∀ r, a.d = some r → r.addr < h.next ∧ r.shape = [m]
  R : ∀ r, a.R = some r → r.addr < h.next ∧ r.shape = [m, m]

/-- The optional arguments as values, at present. -/
def UpdateRefs.value (n m : ℕ) (h : Heap) (a : UpdateRefs) : UpdateArgs n m :=
  ⟨a.A.map (ARef.mat n n h), a.b.map (ARef.vec n h), a.Q.map (ARef.mat n n h),
   a.C.map (ARef.mat m n h), a.d.map (ARef.vec m h), a.R.map (ARef.mat m m h)⟩

/-- Two arrays hold the means and the covariances `l`, row by row. -/
structure HoldsRows (h : Heap) (a b : ARef) (l : List (Vec n × Mat n n)) : Prop where
  shape_means : a.shape = [l.length, n]
  shape_covs : b.shape = [l.length, n, n]
  means : ∀ t (ht : t < l.length) (i : Fin n), (a.nd h).data [t, i] = l[t].1 i
  covs : ∀ t (ht : t < l.length) (i j : Fin n), (b.nd h).data [t, i, j] = l[t].2 i j

/-- Two arrays hold the states and the observations `l`, row by row. -/
structure HoldsSample (h : Heap) (a b : ARef) (l : List (Vec n × Vec m)) : Prop where
  shape_states : a.shape = [l.length, n]
  shape_obs : b.shape = [l.length, m]
  states : ∀ t (ht : t < l.length) (i : Fin n), (a.nd h).data [t, i] = l[t].1 i
  obs : ∀ t (ht : t < l.length) (i : Fin m), (b.nd h).data [t, i] = l[t].2 i

/-- The attribute that holds a variable of `em`. -/
def KFRef.attr (k : KFRef) : EmVar → Option ARef
  | .transitionMatrices => k.A
  | .observationMatrices => k.C
  | .transitionOffsets => k.b
  | .observationOffsets => k.d
  | .transitionCovariance => k.Q
  | .observationCovariance => k.R
  | .initialStateMean => k.mu0
  | .initialStateCovariance => k.S0

/-- The same array with at least one axis (offsets, mean) or two (matrices, covariances). -/
def EmVar.view : EmVar → ARef → ARef
  | .transitionOffsets => ARef.array1d
  | .observationOffsets => ARef.array1d
  | .initialStateMean => ARef.array1d
  | _ => ARef.array2d

/-- The attribute of `v` after `em`: an estimated variable is in a new array; for every other one the
attribute is the array that was there, not a copy, or a new one if there was none. -/
def KFRef.Kept (k k' : KFRef) (h : Heap) (v : EmVar) (estimated : Prop) : Prop :=
  ∃ a, k'.attr v = some a ∧ (estimated → h.next ≤ a.addr) ∧
    (¬ estimated → ∀ r, k.attr v = some r → a = v.view r) ∧
    (¬ estimated → k.attr v = none → h.next ≤ a.addr)

/-- Everything in the object but the arrays is the same. -/
structure KFRef.SameSettings (k' k : KFRef) : Prop where
  randomState : k'.randomState = k.randomState
  emVars : k'.emVars = k.emVars
  nDimState : k'.nDimState = k.nDimState
  nDimObs : k'.nDimObs = k.nDimObs
  emVars' : k'.emVars' = k.emVars'

/-- What a program can do that uses `KalmanFilter`, `CholeskyKalmanFilter` and `BiermanKalmanFilter`
objects: call a method of an object with any arrays, make an array, change an array in place. -/
inductive Act : Type 1
  | filter (k : KFRef) (X : ARef)
  | smooth (k : KFRef) (X : ARef)
  | filterUpdate (k : KFRef) (mean cov : ARef) (o : Option ARef) (a : UpdateRefs)
  | loglikelihood (k : KFRef) (X : ARef)
  | em (k : KFRef) (X : ARef) (nIter : ℕ) (arg : Option EmNames)
  | sample (σ : Type) (rng : Rng σ) (k : KFRef) (T : ℕ) (initial : Option ARef) (gen : Res σ)
  | cholFilter (qr : QR) (k : KFRef) (X : ARef)
  | cholSmooth (qr : QR) (k : KFRef) (X : ARef)
  | cholFilterUpdate (qr : QR) (k : KFRef) (mean cov : ARef) (o : Option ARef) (a : UpdateRefs)
  | cholLoglikelihood (qr : QR) (k : KFRef) (X : ARef)
  | cholEm (qr : QR) (k : KFRef) (X : ARef) (nIter : ℕ) (arg : Option EmNames)
  | bierFilter (store : ℝ → ℝ) (k : KFRef) (X : ARef)
  | bierSmooth (store : ℝ → ℝ) (k : KFRef) (X : ARef)
  | bierFilterUpdate (store : ℝ → ℝ) (k : KFRef) (mean cov : ARef) (o : Option ARef) (a : UpdateRefs)
  | bierLoglikelihood (store : ℝ → ℝ) (k : KFRef) (X : ARef)
  | bierEm (store : ℝ → ℝ) (k : KFRef) (X : ARef) (nIter : ℕ) (arg : Option EmNames)
  | create (a : NDArray)
  | write (addr : ℕ) (f : Block → Block)

/-- The memory afterwards, whether there was an exception or not. -/
noncomputable def Act.exec (h : Heap) : Act → Heap
  | .filter k X => (k.filter X h).2
  | .smooth k X => (k.smooth X h).2
  | .filterUpdate k mean cov o a => (k.filterUpdate mean cov o a h).2
  | .loglikelihood k X => (k.loglikelihood X h).2
  | .em k X nIter arg => (k.em X nIter arg h).2
  | .sample _ rng k T initial gen => (k.sample rng T initial gen h).2
  | .cholFilter qr k X => (k.cholFilter qr X h).2
  | .cholSmooth qr k X => (k.cholSmooth qr X h).2
  | .cholFilterUpdate qr k mean cov o a => (k.cholFilterUpdate qr mean cov o a h).2
  | .cholLoglikelihood qr k X => (k.cholLoglikelihood qr X h).2
  | .cholEm qr k X nIter arg => (k.cholEm qr X nIter arg h).2
  | .bierFilter store k X => (k.bierFilter store X h).2
  | .bierSmooth store k X => (k.bierSmooth store X h).2
  | .bierFilterUpdate store k mean cov o a => (k.bierFilterUpdate store mean cov o a h).2
  | .bierLoglikelihood store k X => (k.bierLoglikelihood store X h).2
  | .bierEm store k X nIter arg => (k.bierEm store X nIter arg h).2
  | .create a => (newArray a h).2
  | .write addr f => ⟨h.next, Function.update h.block addr (f (h.block addr))⟩

/-- The caller changes the block `a` in place. -/
def Act.Writes (a : ℕ) : Act → Prop
  | .write addr _ => addr = a
  | _ => False

end Verif
