import Verif.Model.SampleCalls
import Verif.Spec.LinearMethods

/-!
# Vocabulary for statements about the generators that `sample` uses
-/

namespace Verif

variable {n m : ℕ} {σ : Type}

/-- The generator a seed stands for: NumPy's global one for `None` and `np.random`, a new one for an
integer that is a legal seed, the object itself for a `RandomState`; nothing otherwise. -/
def seedMeaning : Option Seed → Option RngRef
  | none => some .global
  | some .none => some .global
  | some .npRandom => some .global
  | some (.int k) => if 0 ≤ k ∧ k < 2 ^ 32 then some (.seeded k.toNat) else none
  | some (.state i) => some (.object i)
  | some .other => none

/-- The seed of a call: its argument, unless `None`, else that of the constructor. -/
def callSeed (arg attr : Option Seed) : Option Seed :=
  match arg with
  | none => attr
  | some .none => attr
  | some s => some s

/-- The generator a call is entitled to use. -/
def SampleCall.generator : SampleCall → Option RngRef
  | .kf k _ _ arg => seedMeaning (callSeed arg k.randomState)
  | .ukf k _ _ arg => seedMeaning (callSeed arg k.randomState)
  | .aukf k _ _ arg => seedMeaning (callSeed arg k.randomState)

/-- The same call with another number of time steps. -/
def SampleCall.steps (T : ℕ) : SampleCall → SampleCall
  | .kf k _ i arg => .kf k T i arg
  | .ukf k _ i arg => .ukf k T i arg
  | .aukf k _ i arg => .aukf k T i arg

/-- The number of time steps of a call. -/
def SampleCall.length : SampleCall → ℕ
  | .kf _ T _ _ => T
  | .ukf _ T _ _ => T
  | .aukf _ T _ _ => T

/-- The results of the calls that are entitled to the generator `g`. -/
def resultsOf (g : RngRef) (calls : List SampleCall) (out : List SampleResult) :
    List SampleResult :=
  ((calls.zip out).filter fun c => decide (c.1.generator = some g)).map Prod.snd

/-- The generator goes from one state to another by `k` draws. -/
inductive Draws (rng : Rng σ) : ℕ → σ → σ → Prop
  | zero (s : σ) : Draws rng 0 s s
  | succ {k : ℕ} {s s' : σ} (d : ℕ) (mean : Vec d) (cov : Mat d d)
      (h : Draws rng k (rng.normal d mean cov s).2 s') : Draws rng (k + 1) s s'

/-- Whether an initial state is given in the call. -/
def SampleCall.initialGiven : SampleCall → Bool
  | .kf _ _ i _ => i.isSome
  | .ukf _ _ i _ => i.isSome
  | .aukf _ _ i _ => i.isSome

/-- The transition matrix and offset for the step from time `t` exist. -/
def Params.TransCovers (p : Params n m) (t : ℕ) : Prop :=
  (∃ A, lastDims p.A t = .ok A) ∧ ∃ b, lastDims p.b t = .ok b

/-- The observation matrix and offset for time `t` exist. -/
def Params.ObsCovers (p : Params n m) (t : ℕ) : Prop :=
  (∃ C, lastDims p.C t = .ok C) ∧ ∃ d, lastDims p.d t = .ok d

/-- Reading the transition matrix and then the offset for the step from time `t` raises `e`. -/
def Params.TransRaises (p : Params n m) (t : ℕ) (e : Err) : Prop :=
  lastDims p.A t = .error e ∨ (∃ A, lastDims p.A t = .ok A) ∧ lastDims p.b t = .error e

/-- Reading the observation matrix and then the offset for time `t` raises `e`. -/
def Params.ObsRaises (p : Params n m) (t : ℕ) (e : Err) : Prop :=
  lastDims p.C t = .error e ∨ (∃ C, lastDims p.C t = .ok C) ∧ lastDims p.d t = .error e

end Verif
