import Verif.Model.Sample
import Verif.Model.LinearMethods
import Verif.Model.UnscentedFrontend

/-!
# Model of the `sample` methods as called on objects, with the generators they use

`pykalman/standard.py:1115-1184`, `pykalman/unscented.py:806-860` and `1124-1176`.  `Model/Sample`
has the loops from a given state of the generator; here also the state in which a call leaves the
generator (whether it returns or raises), the choice of the generator, and sequences of calls.
-/

open Matrix

namespace Verif

variable {n m : ℕ} {σ : Type}

/-! ### The loops, with the state they leave -/

/-- `standard.py:1159-1182`, from `t ≥ 1` on (see `sampleLoop`), with the state of the generator at
the end or at the exception. -/
def sampleLoopRun (rng : Rng σ) (p : Params n m) :
    ℕ → ℕ → TV (Mat n n) → TV (Mat m m) → Vec n → σ → Res (List (Vec n × Vec m)) × σ
  | 0, _, _, _, _, s => (.ok [], s)
  | k + 1, t, Q, R, prev, s =>
    match lastDims p.A (t - 1), lastDims p.b (t - 1), lastDims Q (t - 1) with
    | .ok A, .ok b, .ok Qt =>
      let w := rng.normal n 0 Qt s
      let x := A *ᵥ prev + b + w.1
      match lastDims p.C t, lastDims p.d t, lastDims R t with
      | .ok C, .ok d, .ok Rt =>
        let v := rng.normal m 0 Rt w.2
        let z := C *ᵥ x + d + v.1
        let rest := sampleLoopRun rng p k (t + 1) (rebind Qt) (rebind Rt) x v.2
        (rest.1.map ((x, z) :: ·), rest.2)
      | .error e, _, _ => (.error e, w.2)
      | _, .error e, _ => (.error e, w.2)
      | _, _, .error e => (.error e, w.2)
    | .error e, _, _ => (.error e, s)
    | _, .error e, _ => (.error e, s)
    | _, _, .error e => (.error e, s)

/-- The initial state: given, or drawn (`standard.py:1152-1156`, `unscented.py:837-841` and
`1153-1157`). -/
def initialDraw (rng : Rng σ) (mu0 : Vec n) (S0 : Mat n n) : Option (Vec n) → σ → Vec n × σ
  | some x, s => (x, s)
  | none, s => rng.normal n mu0 S0 s

/-- `KalmanFilter.sample` after the parameters and the generator are known, `standard.py:1152-1184`. -/
def kfSampleRun (rng : Rng σ) (p : Params n m) (T : ℕ) (initial : Option (Vec n)) (s : σ) :
    Res (List (Vec n × Vec m)) × σ :=
  let i := initialDraw rng p.mu0 p.S0 initial s
  match T with
  | 0 => (.ok [], i.2)
  | k + 1 =>
    match lastDims p.C 0, lastDims p.d 0, lastDims p.R 0 with
    | .ok C, .ok d, .ok Rt =>
      let v := rng.normal m 0 Rt i.2
      let z := C *ᵥ i.1 + d + v.1
      let rest := sampleLoopRun rng p k 1 p.Q (rebind Rt) i.1 v.2
      (rest.1.map ((i.1, z) :: ·), rest.2)
    | .error e, _, _ => (.error e, i.2)
    | _, .error e, _ => (.error e, i.2)
    | _, _, .error e => (.error e, i.2)

/-- `unscented.py:846-858`, from `t ≥ 1` on. -/
def ukfSampleLoopRun (rng : Rng σ) (p : GParams n m) :
    ℕ → ℕ → Vec n → σ → Res (List (Vec n × Vec m)) × σ
  | 0, _, _, s => (.ok [], s)
  | k + 1, t, prev, s =>
    match p.f.at (t - 1) with
    | .error e => (.error e, s)
    | .ok f =>
      let w := rng.normal n 0 p.Q s
      let x := f prev w.1
      match p.g.at t with
      | .error e => (.error e, w.2)
      | .ok g =>
        let v := rng.normal m 0 p.R w.2
        let z := g x v.1
        let rest := ukfSampleLoopRun rng p k (t + 1) x v.2
        (rest.1.map ((x, z) :: ·), rest.2)

/-- `UnscentedKalmanFilter.sample` after the parameters and the generator are known,
`unscented.py:837-860`. -/
def ukfSampleRun (rng : Rng σ) (p : GParams n m) (T : ℕ) (initial : Option (Vec n)) (s : σ) :
    Res (List (Vec n × Vec m)) × σ :=
  let i := initialDraw rng p.mu0 p.S0 initial s
  match T with
  | 0 => (.ok [], i.2)
  | k + 1 =>
    match p.g.at 0 with
    | .error e => (.error e, i.2)
    | .ok g =>
      let v := rng.normal m 0 p.R i.2
      let z := g i.1 v.1
      let rest := ukfSampleLoopRun rng p k 1 i.1 v.2
      (rest.1.map ((i.1, z) :: ·), rest.2)

/-- `unscented.py:1162-1174`, from `t ≥ 1` on. -/
def aukfSampleLoopRun (rng : Rng σ) (p : UParams n m) :
    ℕ → ℕ → Vec n → σ → Res (List (Vec n × Vec m)) × σ
  | 0, _, _, s => (.ok [], s)
  | k + 1, t, prev, s =>
    match p.f.at (t - 1) with
    | .error e => (.error e, s)
    | .ok f =>
      let w := rng.normal n 0 p.Q s
      let x := f prev + w.1
      match p.g.at t with
      | .error e => (.error e, w.2)
      | .ok g =>
        let v := rng.normal m 0 p.R w.2
        let z := g x + v.1
        let rest := aukfSampleLoopRun rng p k (t + 1) x v.2
        (rest.1.map ((x, z) :: ·), rest.2)

/-- `AdditiveUnscentedKalmanFilter.sample` after the parameters and the generator are known,
`unscented.py:1153-1176`; inherited by the class of `pykalman/sqrt/unscented.py`. -/
def aukfSampleRun (rng : Rng σ) (p : UParams n m) (T : ℕ) (initial : Option (Vec n)) (s : σ) :
    Res (List (Vec n × Vec m)) × σ :=
  let i := initialDraw rng p.mu0 p.S0 initial s
  match T with
  | 0 => (.ok [], i.2)
  | k + 1 =>
    match p.g.at 0 with
    | .error e => (.error e, i.2)
    | .ok g =>
      let v := rng.normal m 0 p.R i.2
      let z := g i.1 + v.1
      let rest := aukfSampleLoopRun rng p k 1 i.1 v.2
      (rest.1.map ((i.1, z) :: ·), rest.2)

/-! ### Generators -/

/-- The states of NumPy's global generator and of the `RandomState` objects of the user. -/
structure World (σ : Type) where
  glob : σ
  obj : ℕ → σ

/-- The state of the generator that `check_random_state` has returned; `fresh k` is the state of
`np.random.RandomState(k)`. -/
def World.get (fresh : ℕ → σ) (w : World σ) : RngRef → σ
  | .global => w.glob
  | .seeded k => fresh k
  | .object i => w.obj i

/-- The generators after the use of one of them; a new one made from a seed is dropped. -/
def World.put (w : World σ) : RngRef → σ → World σ
  | .global, s => { w with glob := s }
  | .seeded _, _ => w
  | .object i, s => { w with obj := fun j => if j = i then s else w.obj j }

/-- The generator of a call, `standard.py:1146-1150`, `unscented.py:831-835` and `1147-1151`: the
argument `random_state`, or the attribute if that is `None`. -/
def chooseRng (arg attr : Option Seed) : Res RngRef :=
  match arg with
  | none => checkRandomState (attr.getD .none)
  | some .none => checkRandomState (attr.getD .none)
  | some s => checkRandomState s

/-! ### Calls -/

/-- A call `obj.sample(T, initial_state=…, random_state=…)` on an object of one of the classes. -/
inductive SampleCall
  | kf (k : KF) (T : ℕ) (initial : Option (Vec k.nDimState)) (arg : Option Seed)
  | ukf (k : UObj PyFun₂) (T : ℕ) (initial : Option (Vec k.nDimState)) (arg : Option Seed)
  | aukf (k : UObj PyFun₁) (T : ℕ) (initial : Option (Vec k.nDimState)) (arg : Option Seed)

/-- What a call returns or raises, with the dimensions. -/
abbrev SampleResult := (d : ℕ × ℕ) × Res (List (Vec d.1 × Vec d.2))

/-- The generator is chosen and used. -/
def withRng {d : ℕ × ℕ} (fresh : ℕ → σ) (w : World σ) (r : Res RngRef)
    (run : σ → Res (List (Vec d.1 × Vec d.2)) × σ) : SampleResult × World σ :=
  match r with
  | .error e => (⟨d, .error e⟩, w)
  | .ok g =>
    let out := run (w.get fresh g)
    (⟨d, out.1⟩, w.put g out.2)

/-- A call of `sample`: `standard.py:1115-1184`, `unscented.py:806-860`, `1124-1176`.  `none`: shapes
that do not fit the dimensions, outside the model. -/
noncomputable def SampleCall.run (rng : Rng σ) (fresh : ℕ → σ) (w : World σ) :
    SampleCall → Option (SampleResult × World σ)
  | .kf k T initial arg =>
    match k.initialize with
    | .error e => some (⟨(k.nDimState, k.nDimObs), .error e⟩, w)
    | .ok r => (r.typed k.nDimState k.nDimObs).map fun p =>
        withRng (d := (k.nDimState, k.nDimObs)) fresh w (chooseRng arg k.randomState)
          (kfSampleRun rng p T initial)
  | .ukf k T initial arg =>
    match k.initialize pyAdd with
    | .error e => some (⟨(k.nDimState, k.nDimObs), .error e⟩, w)
    | .ok r => (r.typedGen k.nDimState k.nDimObs).map fun p =>
        withRng (d := (k.nDimState, k.nDimObs)) fresh w (chooseRng arg k.randomState)
          (ukfSampleRun rng p T initial)
  | .aukf k T initial arg =>
    match k.initialize pyId with
    | .error e => some (⟨(k.nDimState, k.nDimObs), .error e⟩, w)
    | .ok r => (r.typedAdd k.nDimState k.nDimObs).map fun p =>
        withRng (d := (k.nDimState, k.nDimObs)) fresh w (chooseRng arg k.randomState)
          (aukfSampleRun rng p T initial)

/-- A sequence of calls (one that raises does not end it): the results, and the generators at the
end. -/
noncomputable def sampleSession (rng : Rng σ) (fresh : ℕ → σ) :
    List SampleCall → World σ → Option (List SampleResult × World σ)
  | [], w => some ([], w)
  | c :: cs, w =>
    (c.run rng fresh w).bind fun r =>
      (sampleSession rng fresh cs r.2).map fun q => (r.1 :: q.1, q.2)

end Verif
