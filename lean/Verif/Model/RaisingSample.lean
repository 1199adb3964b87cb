import Verif.Model.Raising
import Verif.Model.Sample

/-!
# `sample` when the user's functions may raise exceptions

`unscented.py`; see `Verif.Model.Raising`.
-/

open Matrix

namespace Verif

variable {E σ : Type} {n m : ℕ}

/-- The loop of `AdditiveUnscentedKalmanFilter.sample`, `unscented.py:1162-1174`, from `t ≥ 1` on. -/
def aukfSampleLoopE (rng : Rng σ) (p : EUParams E n m) :
    ℕ → ℕ → Vec n → σ → ResE E (List (Vec n × Vec m))
  | 0, _, _, _ => pure []
  | k + 1, t, prev, s => do
    let f ← libE (p.f.at (t - 1))
    let w := rng.normal n 0 p.Q s
    let y ← userE (f prev)
    let x := y + w.1
    let g ← libE (p.g.at t)
    let v := rng.normal m 0 p.R w.2
    let u ← userE (g x)
    let rest ← aukfSampleLoopE rng p k (t + 1) x v.2
    pure ((x, u + v.1) :: rest)

/-- `AdditiveUnscentedKalmanFilter.sample`, `unscented.py:1124-1176`. -/
def aukfSampleE (rng : Rng σ) (p : EUParams E n m) (T : ℕ) (initial : Option (Vec n)) (s : σ) :
    ResE E (List (Vec n × Vec m)) :=
  let i := match initial with
    | some x => (x, s)
    | none => rng.normal n p.mu0 p.S0 s
  match T with
  | 0 => pure []
  | k + 1 => do
    let g ← libE (p.g.at 0)
    let v := rng.normal m 0 p.R i.2
    let u ← userE (g i.1)
    let rest ← aukfSampleLoopE rng p k 1 i.1 v.2
    pure ((i.1, u + v.1) :: rest)

/-- The loop of `UnscentedKalmanFilter.sample`, `unscented.py:846-858`, from `t ≥ 1` on. -/
def ukfSampleLoopE (rng : Rng σ) (p : EGParams E n m) :
    ℕ → ℕ → Vec n → σ → ResE E (List (Vec n × Vec m))
  | 0, _, _, _ => pure []
  | k + 1, t, prev, s => do
    let f ← libE (p.f.at (t - 1))
    let w := rng.normal n 0 p.Q s
    let x ← userE (f prev w.1)
    let g ← libE (p.g.at t)
    let v := rng.normal m 0 p.R w.2
    let z ← userE (g x v.1)
    let rest ← ukfSampleLoopE rng p k (t + 1) x v.2
    pure ((x, z) :: rest)

/-- `UnscentedKalmanFilter.sample`, `unscented.py:806-860`. -/
def ukfSampleE (rng : Rng σ) (p : EGParams E n m) (T : ℕ) (initial : Option (Vec n)) (s : σ) :
    ResE E (List (Vec n × Vec m)) :=
  let i := match initial with
    | some x => (x, s)
    | none => rng.normal n p.mu0 p.S0 s
  match T with
  | 0 => pure []
  | k + 1 => do
    let g ← libE (p.g.at 0)
    let v := rng.normal m 0 p.R i.2
    let z ← userE (g i.1 v.1)
    let rest ← ukfSampleLoopE rng p k 1 i.1 v.2
    pure ((i.1, z) :: rest)

end Verif
