import Verif.Model.Unscented

/-!
# Model of the `sample` methods and of the data set loader

`pykalman/standard.py:1115-1184`, `pykalman/unscented.py:806-860` and `1124-1176`,
`pykalman/datasets/base.py:35-41`.
-/

open Matrix

namespace Verif

variable {n m : ℕ}

/-- A random generator with states `σ`: what `rng.multivariate_normal(mean, cov)` returns, and the
state it leaves.  Nothing is assumed about the numbers. -/
structure Rng (σ : Type) where
  normal : (k : ℕ) → Vec k → Mat k k → σ → Vec k × σ

/-- The value of a variable after `x = _last_dims(x, t)`: a two-dimensional array from then on. -/
def rebind {α : Type} (a : α) : TV α := .const a

/-- The loop of `KalmanFilter.sample` from `t ≥ 1` on, `standard.py:1159-1182`, for `k` more steps.
`Q` and `R` are the local variables `transition_covariance` and `observation_covariance`, which the
loop overwrites (lines 1165 and 1175). -/
def sampleLoop {σ : Type} (rng : Rng σ) (p : Params n m) :
    ℕ → ℕ → TV (Mat n n) → TV (Mat m m) → Vec n → σ → Res (List (Vec n × Vec m))
  | 0, _, _, _, _, _ => pure []
  | k + 1, t, Q, R, prev, s => do
    let A ← lastDims p.A (t - 1)
    let b ← lastDims p.b (t - 1)
    let Qt ← lastDims Q (t - 1)
    let w := rng.normal n 0 Qt s
    let x := A *ᵥ prev + b + w.1
    let C ← lastDims p.C t
    let d ← lastDims p.d t
    let Rt ← lastDims R t
    let v := rng.normal m 0 Rt w.2
    let z := C *ᵥ x + d + v.1
    let rest ← sampleLoop rng p k (t + 1) (rebind Qt) (rebind Rt) x v.2
    pure ((x, z) :: rest)

/-- `KalmanFilter.sample`, `standard.py:1115-1184`, from a given state of the generator. -/
def kfSample {σ : Type} (rng : Rng σ) (p : Params n m) (T : ℕ) (initial : Option (Vec n)) (s : σ) :
    Res (List (Vec n × Vec m)) :=
  let i := match initial with
    | some x => (x, s)
    | none => rng.normal n p.mu0 p.S0 s
  match T with
  | 0 => pure []
  | k + 1 => do
    let C ← lastDims p.C 0
    let d ← lastDims p.d 0
    let Rt ← lastDims p.R 0
    let v := rng.normal m 0 Rt i.2
    let z := C *ᵥ i.1 + d + v.1
    let rest ← sampleLoop rng p k 1 p.Q (rebind Rt) i.1 v.2
    pure ((i.1, z) :: rest)

/-- The loop of `UnscentedKalmanFilter.sample`, `unscented.py:846-858`, from `t ≥ 1` on. -/
def ukfSampleLoop {σ : Type} (rng : Rng σ) (p : GParams n m) :
    ℕ → ℕ → Vec n → σ → Res (List (Vec n × Vec m))
  | 0, _, _, _ => pure []
  | k + 1, t, prev, s => do
    let f ← p.f.at (t - 1)
    let w := rng.normal n 0 p.Q s
    let x := f prev w.1
    let g ← p.g.at t
    let v := rng.normal m 0 p.R w.2
    let z := g x v.1
    let rest ← ukfSampleLoop rng p k (t + 1) x v.2
    pure ((x, z) :: rest)

/-- `UnscentedKalmanFilter.sample`, `unscented.py:806-860`. -/
def ukfSample {σ : Type} (rng : Rng σ) (p : GParams n m) (T : ℕ) (initial : Option (Vec n)) (s : σ) :
    Res (List (Vec n × Vec m)) :=
  let i := match initial with
    | some x => (x, s)
    | none => rng.normal n p.mu0 p.S0 s
  match T with
  | 0 => pure []
  | k + 1 => do
    let g ← p.g.at 0
    let v := rng.normal m 0 p.R i.2
    let z := g i.1 v.1
    let rest ← ukfSampleLoop rng p k 1 i.1 v.2
    pure ((i.1, z) :: rest)

/-- The loop of `AdditiveUnscentedKalmanFilter.sample`, `unscented.py:1162-1174`, from `t ≥ 1` on. -/
def aukfSampleLoop {σ : Type} (rng : Rng σ) (p : UParams n m) :
    ℕ → ℕ → Vec n → σ → Res (List (Vec n × Vec m))
  | 0, _, _, _ => pure []
  | k + 1, t, prev, s => do
    let f ← p.f.at (t - 1)
    let w := rng.normal n 0 p.Q s
    let x := f prev + w.1
    let g ← p.g.at t
    let v := rng.normal m 0 p.R w.2
    let z := g x + v.1
    let rest ← aukfSampleLoop rng p k (t + 1) x v.2
    pure ((x, z) :: rest)

/-- `AdditiveUnscentedKalmanFilter.sample`, `unscented.py:1124-1176`. -/
def aukfSample {σ : Type} (rng : Rng σ) (p : UParams n m) (T : ℕ) (initial : Option (Vec n))
    (s : σ) : Res (List (Vec n × Vec m)) :=
  let i := match initial with
    | some x => (x, s)
    | none => rng.normal n p.mu0 p.S0 s
  match T with
  | 0 => pure []
  | k + 1 => do
    let g ← p.g.at 0
    let v := rng.normal m 0 p.R i.2
    let z := g i.1 + v.1
    let rest ← aukfSampleLoop rng p k 1 i.1 v.2
    pure ((i.1, z) :: rest)

/-- `pad_and_mask`, `pykalman/datasets/base.py:35-41`, on the rows of a two-dimensional array. -/
def padAndMask (X : List (Vec m)) : List (Obs m) :=
  let X := (0 : Vec m) :: X
  let mask : List (Fin m → Bool) := X.map fun _ _ => false
  let mask := mask.set 0 fun _ => true
  (X.zip mask).map fun r => ⟨r.1, r.2⟩

end Verif
