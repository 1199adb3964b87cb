import Verif.Model.Standard
import Mathlib.Logic.Equiv.Fin.Basic

/-!
# Vocabulary for models that keep past states (C113)
-/

open Matrix

namespace Verif

variable {n m L : ℕ}

/-- Part `i` of a vector made of `L + 1` parts of length `n`: components `i n … i n + n - 1`. -/
def lagPart (i : Fin (L + 1)) (x : Vec ((L + 1) * n)) : Vec n := fun a => x (finProdFinEquiv (i, a))

/-- Diagonal block `i` of a matrix made of `(L + 1) × (L + 1)` blocks. -/
def lagBlock (i : Fin (L + 1)) (M : Mat ((L + 1) * n) ((L + 1) * n)) : Mat n n :=
  Matrix.of fun a b => M (finProdFinEquiv (i, a)) (finProdFinEquiv (i, b))

/-- The model `p'` is the model `p` with the last `L` states kept in the state vector: its state at
time `t` is `(x_t, x_{t-1}, …, x_{t-L})`.  A transition moves every part one place down and puts the
next state of `p` in front; the noise enters the first part only; the first part is observed.  The
parts for times before 0 are arbitrary. -/
structure KeepsPast (p : Params n m) (p' : Params ((L + 1) * n) m) (T : ℕ) : Prop where
  trans : ∀ t, t + 1 < T → ∀ A b, lastDims p.A t = .ok A → lastDims p.b t = .ok b →
    ∃ A' b', lastDims p'.A t = .ok A' ∧ lastDims p'.b t = .ok b' ∧
      ∀ x, lagPart 0 (A' *ᵥ x + b') = A *ᵥ lagPart 0 x + b ∧
        ∀ i : Fin L, lagPart i.succ (A' *ᵥ x + b') = lagPart i.castSucc x
  noise : ∀ t, t + 1 < T → ∀ Q, lastDims p.Q t = .ok Q → ∃ Q', lastDims p'.Q t = .ok Q' ∧
    ∀ i j a b, Q' (finProdFinEquiv (i, a)) (finProdFinEquiv (j, b))
      = if i = 0 ∧ j = 0 then Q a b else 0
  emit : ∀ t, t < T → ∀ C d, lastDims p.C t = .ok C → lastDims p.d t = .ok d →
    ∃ C' d', lastDims p'.C t = .ok C' ∧ lastDims p'.d t = .ok d' ∧
      ∀ x, C' *ᵥ x + d' = C *ᵥ lagPart 0 x + d
  obsNoise : p'.R = p.R
  init : lagPart 0 p'.mu0 = p.mu0 ∧ lagBlock 0 p'.S0 = p.S0

end Verif
