import Verif.Model.Memory
import Verif.Model.Sample

/-!
# `KalmanFilter.sample` with arrays in memory

`standard.py:1115-1184`; see `Verif.Model.Memory`.  `CholeskyKalmanFilter` and `BiermanKalmanFilter`
inherit the method.
-/

open Matrix

namespace Verif

variable {σ : Type}

/-- First half of the body of the loop, `standard.py:1160-1171`: the array that the local variable
`transition_covariance` refers to afterwards, and the state of the generator. -/
def memSampleState (rng : Rng σ) (n : ℕ) (p : PRefs) (X initial Q : ARef) (t : ℕ) (s : σ) :
    HM (ARef × σ) := do
  if t = 0 then
    setRow X t initial
    pure (Q, s)
  else
    let A ← HM.lift (p.A.lastDims (t - 1) 2)
    let b ← HM.lift (p.b.lastDims (t - 1) 1)
    let Q ← HM.lift (Q.lastDims (t - 1) 2)
    let w ← HM.see fun h => rng.normal n 0 (Q.mat n n h) s
    let v ← HM.see fun h => A.mat n n h *ᵥ (X.row (t - 1)).vec n h + b.vec n h + w.1
    let a ← newArray (ndOfVec v)
    setRow X t a
    pure (Q, w.2)

/-- Second half of the body of the loop, `standard.py:1173-1182`. -/
def memSampleObs (rng : Rng σ) (n m : ℕ) (p : PRefs) (X Y R : ARef) (t : ℕ) (s : σ) :
    HM (ARef × σ) := do
  let C ← HM.lift (p.C.lastDims t 2)
  let d ← HM.lift (p.d.lastDims t 1)
  let R ← HM.lift (R.lastDims t 2)
  let w ← HM.see fun h => rng.normal m 0 (R.mat m m h) s
  let v ← HM.see fun h => C.mat m n h *ᵥ (X.row t).vec n h + d.vec m h + w.1
  let a ← newArray (ndOfVec v)
  setRow Y t a
  pure (R, w.2)

/-- The loop, `standard.py:1159-1182`: `k` more iterations, from time `t` on. -/
def memSampleLoop (rng : Rng σ) (n m : ℕ) (p : PRefs) (X Y initial : ARef) :
    ℕ → ℕ → ARef → ARef → σ → HM Unit
  | 0, _, _, _, _ => pure ()
  | k + 1, t, Q, R, s => do
    let x ← memSampleState rng n p X initial Q t s
    let y ← memSampleObs rng n m p X Y R t x.2
    memSampleLoop rng n m p X Y initial k (t + 1) x.1 y.1 y.2

/-- `KalmanFilter.sample`, `standard.py:1115-1184`; `gen` is the state of the generator that lines
1146-1150 choose, or the exception raised there.  The masked array returned for the observations is a
view. -/
def KFRef.sample (rng : Rng σ) (k : KFRef) (T : ℕ) (initial : Option ARef) (gen : Res σ) :
    HM (ARef × ARef) := do
  let p ← memInitialize k
  let n := p.A.shape.reverse.getD 1 0
  let m := p.C.shape.reverse.getD 1 0
  let X ← newZeros [T, n]
  let Y ← newZeros [T, m]
  let s ← HM.lift gen
  let i ← match initial with
    | some r => pure (r, s)
    | none => do
      let w ← HM.see fun h => rng.normal n (p.mu0.vec n h) (p.S0.mat n n h) s
      let a ← newArray (ndOfVec w.1)
      pure (a, w.2)
  memSampleLoop rng n m p X Y i.1 T 0 p.Q p.R i.2
  pure (X, Y)

end Verif
