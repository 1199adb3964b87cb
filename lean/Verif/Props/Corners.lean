import Verif.Props.Bierman
import Verif.Props.Frontend

/-!
# Corner cases of the front end and of `udu`
-/

open Matrix

namespace Verif

variable {n m : ℕ}

/-! ### C28: nothing observed -/

/-- **C28.** An empty one-dimensional sequence is not read as a sequence of length zero: it becomes one
observation of dimension zero. -/
theorem C28_empty_sequence {X : MArray} (hX : X.shape = [0]) :
    (parseObservations X).shape = [1, 0] := by
  obtain ⟨shape, data, mask⟩ := X
  simp only at hX
  subst hX
  simp [parseObservations, MArray.atleast2d]

/-- **C28.** A single number is read as one observation of one number. -/
theorem C28_scalar {X : MArray} (hX : X.shape = []) :
    (parseObservations X).shape = [1, 1] ∧ (parseObservations X).data [0, 0] = X.data [] ∧
      (parseObservations X).mask [0, 0] = X.mask [] := by
  obtain ⟨shape, data, mask⟩ := X
  simp only at hX
  subst hX
  simp [parseObservations, MArray.atleast2d, dropIdx]

/-- **C28.** `C28_idempotent` needs at most two dimensions: an array of shape `(1, k, 1)`, `k > 1`, is
turned round by one parse and again by the next. -/
theorem C28_three_dimensions {X : MArray} {k : ℕ} (hX : X.shape = [1, k, 1]) (hk : 1 < k) :
    (parseObservations X).shape = [1, k, 1] ∧
    (∀ i j, (parseObservations X).data [0, i, j] = X.data [j, i, 0]) ∧
    parseObservations (parseObservations X) = X := by
  obtain ⟨shape, data, mask⟩ := X
  simp only at hX
  subst hX
  simp [parseObservations, MArray.atleast2d, MArray.transpose, hk]

example : ∃ X : MArray, X.shape = [1, 3, 1] ∧ ∃ Y : MArray, Y.shape = [0] :=
  ⟨⟨[1, 3, 1], fun _ => 2, fun _ => false⟩, rfl, ⟨[0], fun _ => 2, fun _ => false⟩, rfl⟩

/-! ### C31: matrices that are not positive semidefinite -/

/-- **C31.** The assertion "M must be symmetric, positive semidefinite" of `udu` tests symmetry only:
for every symmetric matrix that is not positive semidefinite `udu` raises nothing, and what it returns
has a negative entry in `D` or is not a factorisation of the matrix. -/
theorem C31_indefinite_not_caught {M : Mat n n} (hs : Mᵀ = M) (hM : ¬ M.PosSemidef) :
    ∃ c, udu id M = .ok c ∧ ((∃ i, c.D i < 0) ∨ c.U * diagonal c.D * c.Uᵀ ≠ M) := by
  have hn : n ≠ 0 := by
    rintro rfl
    exact hM (by rw [Subsingleton.elim M 0]; exact PosSemidef.zero)
  have hc : AllCloseT M := fun i j => by
    rw [hs, sub_self, abs_zero]
    positivity
  refine ⟨_, by rw [udu, if_pos hc, if_neg hn], ?_⟩
  by_contra h
  push Not at h
  obtain ⟨h1, h2⟩ := h
  apply hM
  rw [← h2]
  exact posSemidef_conj' (PosSemidef.diagonal h1) _

/-- A symmetric matrix that is not positive semidefinite. -/
example : ∃ M : Mat 2 2, Mᵀ = M ∧ ¬ M.PosSemidef := by
  refine ⟨!![0, 1; 1, 0], by ext i j; fin_cases i <;> fin_cases j <;> rfl, fun h => ?_⟩
  have := h.dotProduct_mulVec_nonneg ![1, -1]
  simp [Matrix.mulVec, dotProduct, Fin.sum_univ_two] at this
  linarith

end Verif
