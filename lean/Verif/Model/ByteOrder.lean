import Mathlib.Data.Fin.Rev
import Verif.Model.Sample

/-!
# Model of `newbyteorder` and of the `sample` methods on stored arrays

`pykalman/utils/_numpy.py:8-26`; `pykalman/standard.py:1159-1182`; `pykalman/unscented.py:846-858`
and `1162-1174`.  Elsewhere in the model an array is a matrix of real numbers; here an array of
doubles is the bytes NumPy stores, together with the byte order of its `dtype`.
-/

open Matrix

namespace Verif

variable {n m k l : ℕ}

/-- Byte order of a `dtype`. -/
inductive ByteOrder where
  | little
  | big
  deriving DecidableEq

/-- The unsigned 64 bit number stored in eight bytes. -/
def wordOf : ByteOrder → (Fin 8 → Fin 256) → ℕ
  | .little, b => ∑ i : Fin 8, (b i : ℕ) * 256 ^ (i : ℕ)
  | .big, b => ∑ i : Fin 8, (b i.rev : ℕ) * 256 ^ (i : ℕ)

/-- The number an IEEE 754 binary64 word stands for (words with exponent field 2047, which stand for
infinities and `nan`, are given an irrelevant value). -/
noncomputable def double (w : ℕ) : ℝ :=
  let e : ℕ := w / 2 ^ 52 % 2048
  let f : ℕ := w % 2 ^ 52
  (if w / 2 ^ 63 = 0 then 1 else -1) *
    if e = 0 then (f : ℝ) / 2 ^ 1074 else (2 ^ 52 + f : ℝ) * 2 ^ e / 2 ^ 1075

/-- A two-dimensional array of doubles: byte order of its `dtype`, and its bytes. -/
structure DArray (k l : ℕ) where
  order : ByteOrder
  bytes : Fin k → Fin l → Fin 8 → Fin 256

/-- The numbers in an array. -/
noncomputable def DArray.val (a : DArray k l) : Mat k l :=
  Matrix.of fun i j => double (wordOf a.order (a.bytes i j))

/-- `newbyteorder(arr, "=")` on a machine with byte order `host`, `utils/_numpy.py:8-26`: both
branches are `arr.view(arr.dtype.newbyteorder("="))`, which keeps the bytes and changes the
`dtype` to the native order. -/
def newbyteorder (host : ByteOrder) (a : DArray k l) : DArray k l := ⟨host, a.bytes⟩

/-- The loop of `KalmanFilter.sample` from `t ≥ 1` on, `standard.py:1159-1182`, as `sampleLoop`, with
the two covariances as stored arrays.  `rng.multivariate_normal` works with the numbers in the array
it is given.  (`p.Q` and `p.R` are not used.) -/
noncomputable def sampleLoopStored {σ : Type} (host : ByteOrder) (rng : Rng σ) (p : Params n m) :
    ℕ → ℕ → TV (DArray n n) → TV (DArray m m) → Vec n → σ → Res (List (Vec n × Vec m))
  | 0, _, _, _, _, _ => pure []
  | k + 1, t, Q, R, prev, s => do
    let A ← lastDims p.A (t - 1)
    let b ← lastDims p.b (t - 1)
    let Qt ← lastDims Q (t - 1)
    let cov := newbyteorder host Qt
    let w := rng.normal n 0 cov.val s
    let x := A *ᵥ prev + b + w.1
    let C ← lastDims p.C t
    let d ← lastDims p.d t
    let Rt ← lastDims R t
    let v := rng.normal m 0 (newbyteorder host Rt).val w.2
    let z := C *ᵥ x + d + v.1
    let rest ← sampleLoopStored host rng p k (t + 1) (rebind Qt) (rebind Rt) x v.2
    pure ((x, z) :: rest)

/-- `KalmanFilter.sample`, `standard.py:1115-1184`, with stored covariances. -/
noncomputable def kfSampleStored {σ : Type} (host : ByteOrder) (rng : Rng σ) (p : Params n m)
    (Q : TV (DArray n n)) (R : TV (DArray m m)) (T : ℕ) (initial : Option (Vec n)) (s : σ) :
    Res (List (Vec n × Vec m)) :=
  let i := match initial with
    | some x => (x, s)
    | none => rng.normal n p.mu0 p.S0 s
  match T with
  | 0 => pure []
  | k + 1 => do
    let C ← lastDims p.C 0
    let d ← lastDims p.d 0
    let Rt ← lastDims R 0
    let v := rng.normal m 0 (newbyteorder host Rt).val i.2
    let z := C *ᵥ i.1 + d + v.1
    let rest ← sampleLoopStored host rng p k 1 Q (rebind Rt) i.1 v.2
    pure ((i.1, z) :: rest)

/-- The loop of `UnscentedKalmanFilter.sample`, `unscented.py:846-858`, from `t ≥ 1` on, with stored
covariances (`p.Q` and `p.R` are not used). -/
noncomputable def ukfSampleLoopStored {σ : Type} (host : ByteOrder) (rng : Rng σ) (p : GParams n m)
    (Q : DArray n n) (R : DArray m m) : ℕ → ℕ → Vec n → σ → Res (List (Vec n × Vec m))
  | 0, _, _, _ => pure []
  | k + 1, t, prev, s => do
    let f ← p.f.at (t - 1)
    let cov := newbyteorder host Q
    let w := rng.normal n 0 cov.val s
    let x := f prev w.1
    let g ← p.g.at t
    let cov := newbyteorder host R
    let v := rng.normal m 0 cov.val w.2
    let z := g x v.1
    let rest ← ukfSampleLoopStored host rng p Q R k (t + 1) x v.2
    pure ((x, z) :: rest)

/-- `UnscentedKalmanFilter.sample`, `unscented.py:806-860`, with stored covariances. -/
noncomputable def ukfSampleStored {σ : Type} (host : ByteOrder) (rng : Rng σ) (p : GParams n m)
    (Q : DArray n n) (R : DArray m m) (T : ℕ) (initial : Option (Vec n)) (s : σ) :
    Res (List (Vec n × Vec m)) :=
  let i := match initial with
    | some x => (x, s)
    | none => rng.normal n p.mu0 p.S0 s
  match T with
  | 0 => pure []
  | k + 1 => do
    let g ← p.g.at 0
    let cov := newbyteorder host R
    let v := rng.normal m 0 cov.val i.2
    let z := g i.1 v.1
    let rest ← ukfSampleLoopStored host rng p Q R k 1 i.1 v.2
    pure ((i.1, z) :: rest)

/-- The loop of `AdditiveUnscentedKalmanFilter.sample`, `unscented.py:1162-1174`, from `t ≥ 1` on,
with stored covariances (`p.Q` and `p.R` are not used). -/
noncomputable def aukfSampleLoopStored {σ : Type} (host : ByteOrder) (rng : Rng σ) (p : UParams n m)
    (Q : DArray n n) (R : DArray m m) : ℕ → ℕ → Vec n → σ → Res (List (Vec n × Vec m))
  | 0, _, _, _ => pure []
  | k + 1, t, prev, s => do
    let f ← p.f.at (t - 1)
    let cov := newbyteorder host Q
    let w := rng.normal n 0 cov.val s
    let x := f prev + w.1
    let g ← p.g.at t
    let cov := newbyteorder host R
    let v := rng.normal m 0 cov.val w.2
    let z := g x + v.1
    let rest ← aukfSampleLoopStored host rng p Q R k (t + 1) x v.2
    pure ((x, z) :: rest)

/-- `AdditiveUnscentedKalmanFilter.sample`, `unscented.py:1124-1176`, with stored covariances. -/
noncomputable def aukfSampleStored {σ : Type} (host : ByteOrder) (rng : Rng σ) (p : UParams n m)
    (Q : DArray n n) (R : DArray m m) (T : ℕ) (initial : Option (Vec n)) (s : σ) :
    Res (List (Vec n × Vec m)) :=
  let i := match initial with
    | some x => (x, s)
    | none => rng.normal n p.mu0 p.S0 s
  match T with
  | 0 => pure []
  | k + 1 => do
    let g ← p.g.at 0
    let cov := newbyteorder host R
    let v := rng.normal m 0 cov.val i.2
    let z := g i.1 + v.1
    let rest ← aukfSampleLoopStored host rng p Q R k 1 i.1 v.2
    pure ((i.1, z) :: rest)

end Verif
