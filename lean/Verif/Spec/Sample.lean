import Verif.Model.Sample

/-!
# Vocabulary for statements about `sample`: which numbers are drawn from the generator
-/

open Matrix

namespace Verif

variable {n m : ℕ} {σ : Type}

/-- First state and state of the generator after choosing it: the given state, or a draw from
`N(mu0, S0)`. -/
def firstDraw (rng : Rng σ) (mu0 : Vec n) (S0 : Mat n n) (initial : Option (Vec n)) (s : σ) :
    Vec n × σ :=
  match initial with
  | some x => (x, s)
  | none => rng.normal n mu0 S0 s

/-- State of the generator before the observation noise of time `t` is drawn, if from the state `s`
on one draws observation noise with covariance `R 0`, transition noise with covariance `Q 0`,
observation noise with covariance `R 1`, and so on. -/
def drawState (rng : Rng σ) (Q : ℕ → Mat n n) (R : ℕ → Mat m m) (s : σ) : ℕ → σ
  | 0 => s
  | t + 1 => (rng.normal n 0 (Q t) (rng.normal m 0 (R t) (drawState rng Q R s t)).2).2

/-- The observation noise of time `t` in this sequence of draws. -/
def obsDraw (rng : Rng σ) (Q : ℕ → Mat n n) (R : ℕ → Mat m m) (s : σ) (t : ℕ) : Vec m :=
  (rng.normal m 0 (R t) (drawState rng Q R s t)).1

/-- The transition noise from time `t` to `t + 1` in this sequence of draws. -/
def transDraw (rng : Rng σ) (Q : ℕ → Mat n n) (R : ℕ → Mat m m) (s : σ) (t : ℕ) : Vec n :=
  (rng.normal n 0 (Q t) (rng.normal m 0 (R t) (drawState rng Q R s t)).2).1

end Verif
