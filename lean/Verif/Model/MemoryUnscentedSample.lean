import Verif.Model.MemoryUnscented
import Verif.Model.Sample

/-!
# `sample` of the unscented classes with arrays in memory

`/repo/pykalman/unscented.py:806-860` and `1124-1176`; `AdditiveUnscentedKalmanFilter` of
`sqrt/unscented.py` inherits the second.  The functions of the user get rows of the array of states that
`sample` is going to return.
-/

open Matrix

namespace Verif

variable {σ : Type}

/-- Lines 1165-1169: a state after the state `x`, and the state of the generator. -/
def memAukfNext (rng : Rng σ) (n : ℕ) (p : UPRef MFun₁) (t : ℕ) (x : ARef) (s : σ) :
    HM (ARef × σ) := do
  let f ← HM.lift (p.f.at (t - 1))
  let w ← HM.see fun h => rng.normal n 0 (p.Q.mat n n h) s
  let y ← f x
  let v ← HM.see fun h => y.vec n h + w.1
  let a ← newArray (ndOfVec v)
  pure (a, w.2)

/-- Lines 1171-1174: an observation of the state `x`. -/
def memAukfObserve (rng : Rng σ) (m : ℕ) (p : UPRef MFun₁) (t : ℕ) (x : ARef) (s : σ) :
    HM (ARef × σ) := do
  let g ← HM.lift (p.g.at t)
  let w ← HM.see fun h => rng.normal m 0 (p.R.mat m m h) s
  let y ← g x
  let v ← HM.see fun h => y.vec m h + w.1
  let a ← newArray (ndOfVec v)
  pure (a, w.2)

/-- Lines 849-853: a state after the state `x`; the function is given the array of the noise. -/
def memUkfNext (rng : Rng σ) (n : ℕ) (p : UPRef MFun₂) (t : ℕ) (x : ARef) (s : σ) :
    HM (ARef × σ) := do
  let f ← HM.lift (p.f.at (t - 1))
  let w ← HM.see fun h => rng.normal n 0 (p.Q.mat n n h) s
  let e ← newArray (ndOfVec w.1)
  let y ← f x e
  pure (y, w.2)

/-- Lines 855-858: an observation of the state `x`. -/
def memUkfObserve (rng : Rng σ) (m : ℕ) (p : UPRef MFun₂) (t : ℕ) (x : ARef) (s : σ) :
    HM (ARef × σ) := do
  let g ← HM.lift (p.g.at t)
  let w ← HM.see fun h => rng.normal m 0 (p.R.mat m m h) s
  let e ← newArray (ndOfVec w.1)
  let y ← g x e
  pure (y, w.2)

/-- First half of the loops, 847-853 and 1163-1169. -/
def memUSampleState (next : ℕ → ARef → σ → HM (ARef × σ)) (X initial : ARef) (t : ℕ) (s : σ) :
    HM σ := do
  if t = 0 then
    setRow X t initial
    pure s
  else
    let r ← next t (X.row (t - 1)) s
    setRow X t r.1
    pure r.2

/-- Second half of the loops, 855-858 and 1171-1174. -/
def memUSampleObs (observe : ℕ → ARef → σ → HM (ARef × σ)) (X Z : ARef) (t : ℕ) (s : σ) : HM σ := do
  let r ← observe t (X.row t) s
  setRow Z t r.1
  pure r.2

/-- The loops, 846-858 and 1162-1174: `k` more iterations, from time `t` on. -/
def memUSampleLoop (next observe : ℕ → ARef → σ → HM (ARef × σ)) (X Z initial : ARef) :
    ℕ → ℕ → σ → HM Unit
  | 0, _, _ => pure ()
  | k + 1, t, s => do
    let s ← memUSampleState next X initial t s
    let s ← memUSampleObs observe X Z t s
    memUSampleLoop next observe X Z initial k (t + 1) s

/-- The initial state, 838-841 and 1154-1157: the array given, or a new one. -/
def memUSampleInitial (rng : Rng σ) (n : ℕ) (mu0 S0 : ARef) (s : σ) : Option ARef → HM (ARef × σ)
  | some r => pure (r, s)
  | none => do
    let w ← HM.see fun h => rng.normal n (mu0.vec n h) (S0.mat n n h) s
    let a ← newArray (ndOfVec w.1)
    pure (a, w.2)

/-- Both methods; `gen` is the state of the generator that lines 832-835 and 1148-1151 choose, or the
exception raised there.  The masked array returned for the observations is a view. -/
def memUSample (rng : Rng σ) (n m : ℕ) (mu0 S0 : ARef)
    (next observe : ℕ → ARef → σ → HM (ARef × σ)) (T : ℕ) (initial : Option ARef) (gen : Res σ) :
    HM (ARef × ARef) := do
  let s ← HM.lift gen
  let i ← memUSampleInitial rng n mu0 S0 s initial
  let X ← newZeros [T, n]
  let Z ← newZeros [T, m]
  memUSampleLoop next observe X Z i.1 T 0 i.2
  pure (X, Z)

/-- `AdditiveUnscentedKalmanFilter.sample`, 1124-1176. -/
def memAukfSample (rng : Rng σ) (n m : ℕ) (p : UPRef MFun₁) (T : ℕ) (initial : Option ARef)
    (gen : Res σ) : HM (ARef × ARef) :=
  memUSample rng n m p.mu0 p.S0 (memAukfNext rng n p) (memAukfObserve rng m p) T initial gen

/-- `UnscentedKalmanFilter.sample`, 806-860. -/
def memUkfSample (rng : Rng σ) (n m : ℕ) (p : UPRef MFun₂) (T : ℕ) (initial : Option ARef)
    (gen : Res σ) : HM (ARef × ARef) :=
  memUSample rng n m p.mu0 p.S0 (memUkfNext rng n p) (memUkfObserve rng m p) T initial gen

end Verif
