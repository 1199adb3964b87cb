import Verif.Model.Frontend

/-!
# Vocabulary for statements about constructor arguments, dictionaries and observations
-/

namespace Verif

/-- Length of the `k`-th axis from the end of an array; an axis that is not there has length 1. -/
def axisLen (a : NDArray) (k : ℕ) : ℕ := a.shape.reverse.getD k 1

/-- `n` is what all arguments that determine the dimension of the states say: the last axis but one
of `transition_matrices`, `transition_covariance` and `initial_state_covariance`, the last axis of
the offsets, the initial mean and `observation_matrices`, and `n_dim_state`. -/
structure KFArgs.StateDim (a : KFArgs) (n : ℕ) : Prop where
  A : ∀ x, a.A = some x → axisLen x 1 = n
  b : ∀ x, a.b = some x → axisLen x 0 = n
  Q : ∀ x, a.Q = some x → axisLen x 1 = n
  mu0 : ∀ x, a.mu0 = some x → axisLen x 0 = n
  S0 : ∀ x, a.S0 = some x → axisLen x 1 = n
  C : ∀ x, a.C = some x → axisLen x 0 = n
  explicit : ∀ k, a.nDimState = some k → k = n

/-- `m` is what all arguments that determine the dimension of the observations say. -/
structure KFArgs.ObsDim (a : KFArgs) (m : ℕ) : Prop where
  C : ∀ x, a.C = some x → axisLen x 1 = m
  d : ∀ x, a.d = some x → axisLen x 0 = m
  R : ∀ x, a.R = some x → axisLen x 1 = m
  explicit : ∀ k, a.nDimObs = some k → k = m

/-- In a list of dictionaries, `v` is the value of `name` in the first dictionary that has a value
other than `None` for it. -/
def FirstValue {α : Type} (dicts : List (List (String × Option α))) (name : String) (v : α) : Prop :=
  ∃ pre s post, dicts = pre ++ s :: post ∧ (name, some v) ∈ s ∧
    ∀ s' ∈ pre, ∀ w, (name, some w) ∉ s'

/-- The keys of a dictionary are different. -/
def KeysNodup {α : Type} (l : List (String × α)) : Prop := (l.map Prod.fst).Nodup

/-- The variables whose documented names are in a list, or all. -/
def Selects : EmNames → (EmVar → Bool) → Prop
  | .all, vars => ∀ v, vars v = true
  | .names l, vars =>
    (vars .transitionMatrices = true ↔ "transition_matrices" ∈ l) ∧
    (vars .observationMatrices = true ↔ "observation_matrices" ∈ l) ∧
    (vars .transitionOffsets = true ↔ "transition_offsets" ∈ l) ∧
    (vars .observationOffsets = true ↔ "observation_offsets" ∈ l) ∧
    (vars .transitionCovariance = true ↔ "transition_covariance" ∈ l) ∧
    (vars .observationCovariance = true ↔ "observation_covariance" ∈ l) ∧
    (vars .initialStateMean = true ↔ "initial_state_mean" ∈ l) ∧
    (vars .initialStateCovariance = true ↔ "initial_state_covariance" ∈ l)

end Verif
