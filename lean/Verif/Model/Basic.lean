import Verif.Linalg.Cholesky
import Mathlib.Analysis.SpecialFunctions.Log.Basic
import Mathlib.Analysis.Real.Pi.Bounds

/-!
# Common vocabulary of the model

Numbers are exact reals.  Exceptions are values.
-/

open Matrix

namespace Verif

/-- A float vector of length `n`. Simplification: exact real arithmetic. -/
abbrev Vec (n : ℕ) := Fin n → ℝ

/-- A float matrix with `n` rows and `m` columns. Simplification: exact real arithmetic. -/
abbrev Mat (n m : ℕ) := Matrix (Fin n) (Fin m) ℝ

/-- The Python exceptions the modelled code can raise.  `nonFinite` is not an exception: it marks a
division by zero, after which the code goes on with `inf` or `nan` entries while the model stops
(only used for `cholupdate` in `Verif.Model.SqrtUnscented`). -/
inductive Err
  | valueError
  | indexError
  | typeError
  | attributeError
  | linAlgError
  | assertionError
  | nonFinite
  deriving DecidableEq, Repr

/-- Result of a Python call: a value or an exception. -/
abbrev Res (α : Type) := Except Err α

/-- A parameter that is either constant (array of dimension `ndims`) or time varying (array of
dimension `ndims + 1`, indexed by time), as `_last_dims` distinguishes them
(`pykalman/standard.py:110-120`).  Arrays with other numbers of dimensions are treated at the
level of `Verif.Model.NDArray`. -/
inductive TV (α : Type) where
  | const (a : α)
  | seq (l : List α)

/-- `_last_dims(X, t)`, `pykalman/standard.py:92-120`: the constant, or entry `t` of the
time-varying parameter, `IndexError` past its end.  (`t` is never negative in the callers.) -/
def lastDims {α : Type} : TV α → ℕ → Res α
  | .const a, _ => .ok a
  | .seq l, t =>
    match l[t]? with
    | some a => .ok a
    | none => .error .indexError

/-- One row of a masked array of observations: data and mask per component.  A row of an
unmasked array has `mask = fun _ => false`. -/
structure Obs (m : ℕ) where
  val : Vec m
  mask : Fin m → Bool

/-- `np.any(np.ma.getmask(observation))`, `pykalman/standard.py:170,271`. -/
def Obs.missing {m : ℕ} (o : Obs m) : Prop := ∃ i, o.mask i = true

instance {m : ℕ} (o : Obs m) : Decidable o.missing :=
  inferInstanceAs (Decidable (∃ i, o.mask i = true))

open Classical in
/-- `scipy.linalg.cholesky(A, lower=True)` (called e.g. at `pykalman/utils/_sklearn.py:57`):
the lower triangular factor with positive diagonal of the matrix whose lower triangle is that
of `A`, `LinAlgError` if that matrix is not positive definite. -/
noncomputable def cholesky {n : ℕ} (A : Mat n n) : Res (Mat n n) :=
  if h : ∃ L, IsCholesky (mirrorLower A) L then .ok h.choose else .error .linAlgError

theorem cholesky_of_posDef {n : ℕ} {A : Mat n n} (hA : A.PosDef) :
    ∃ L, cholesky A = .ok L ∧ IsCholesky A L := by
  have hm : mirrorLower A = A := mirrorLower_of_symm (symm_of_posSemidef hA.posSemidef)
  have h : ∃ L, IsCholesky (mirrorLower A) L := by rw [hm]; exact exists_isCholesky A hA
  refine ⟨h.choose, by simp [cholesky, h], ?_⟩
  have := h.choose_spec
  generalize h.choose = L at this ⊢
  rwa [hm] at this

theorem cholesky_eq_ok {n : ℕ} {A L : Mat n n} (h : IsCholesky A L) : cholesky A = .ok L := by
  obtain ⟨L', h1, h2⟩ := cholesky_of_posDef h.posDef
  rw [h1, h.unique h2]

theorem cholesky_of_not_posDef {n : ℕ} {A : Mat n n} (hs : Aᵀ = A) (hA : ¬ A.PosDef) :
    cholesky A = .error .linAlgError := by
  have h : ¬ ∃ L, IsCholesky (mirrorLower A) L := by
    rw [mirrorLower_of_symm hs]
    rintro ⟨L, hL⟩
    exact hA hL.posDef
  simp [cholesky, h]

end Verif
