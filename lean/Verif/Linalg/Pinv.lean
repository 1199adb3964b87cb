import Mathlib.Analysis.Matrix.Spectrum
import Mathlib.Analysis.Matrix.PosDef
import Mathlib.Algebra.Order.Star.Real
import Mathlib.Tactic.NoncommRing

/-!
# The Moore–Penrose inverse of a real matrix

`scipy.linalg.pinv` is documented to return the Moore–Penrose inverse.  Mathlib has no such
notion, so it is defined here by its four Penrose equations, and existence and uniqueness are
proved.  (scipy drops singular values below a relative cut-off; here none is
dropped.  `Verif.Model.CutOff` models the cut-off and C75 says when it makes no difference.)
-/

open Matrix

namespace Verif

variable {m n k : Type*} [Fintype m] [Fintype n] [Fintype k]

/-- The four Penrose equations. -/
structure Penrose (A : Matrix m n ℝ) (X : Matrix n m ℝ) : Prop where
  mul_mul : A * X * A = A
  mul_mul' : X * A * X = X
  symm_left : (A * X)ᵀ = A * X
  symm_right : (X * A)ᵀ = X * A

theorem Penrose.unique {A : Matrix m n ℝ} {X Y : Matrix n m ℝ}
    (hX : Penrose A X) (hY : Penrose A Y) : X = Y := by
  have h1 : A * X = A * Y := by
    have h := hX.symm_left
    rw [← hY.mul_mul, Matrix.mul_assoc (A * Y), Matrix.transpose_mul, hY.symm_left,
      hX.symm_left, ← Matrix.mul_assoc, hX.mul_mul] at h
    rw [h, ← Matrix.mul_assoc, hY.mul_mul]
  have h2 : X * A = Y * A := by
    have h := hX.symm_right
    conv_lhs at h => rw [← hY.mul_mul, Matrix.mul_assoc A Y A, ← Matrix.mul_assoc X,
      Matrix.transpose_mul, hY.symm_right, hX.symm_right, Matrix.mul_assoc Y A,
      ← Matrix.mul_assoc A X A, hX.mul_mul]
    exact h.symm
  calc X = X * A * X := hX.mul_mul'.symm
    _ = Y * A * X := by rw [h2]
    _ = Y * (A * X) := Matrix.mul_assoc ..
    _ = Y * (A * Y) := by rw [h1]
    _ = Y * A * Y := (Matrix.mul_assoc ..).symm
    _ = Y := hY.mul_mul'

section existence

variable [DecidableEq n]

/-- Pseudo-inverse of a symmetric matrix exists, is symmetric and commutes. -/
theorem exists_symm_pinv (H : Matrix n n ℝ) (hH : H.IsHermitian) :
    ∃ X : Matrix n n ℝ, H * X * H = H ∧ X * H * X = X ∧ Xᵀ = X ∧ X * H = H * X := by
  let U : Matrix n n ℝ := (hH.eigenvectorUnitary : Matrix n n ℝ)
  have hU1 : Uᵀ * U = 1 := by
    have := Unitary.coe_star_mul_self hH.eigenvectorUnitary
    simpa [U, Matrix.star_eq_conjTranspose, conjTranspose_eq_transpose_of_trivial] using this
  let D : Matrix n n ℝ := diagonal hH.eigenvalues
  let E : Matrix n n ℝ := diagonal (fun i => (hH.eigenvalues i)⁻¹)
  have hHU : H = U * D * Uᵀ := by
    have := hH.spectral_theorem
    rw [Unitary.conjStarAlgAut_apply] at this
    simpa [U, D, Matrix.star_eq_conjTranspose, conjTranspose_eq_transpose_of_trivial,
      Function.comp_def] using this
  have hDED : D * E * D = D := by
    simp only [D, E, diagonal_mul_diagonal]
    congr 1; funext i
    by_cases h : hH.eigenvalues i = 0 <;> simp [h]
  have hEDE : E * D * E = E := by
    simp only [D, E, diagonal_mul_diagonal]
    congr 1; funext i
    by_cases h : hH.eigenvalues i = 0 <;> simp [h]
  have hcomm : E * D = D * E := by
    simp only [D, E, diagonal_mul_diagonal]
    congr 1; funext i
    exact mul_comm _ _
  have key : ∀ X Y : Matrix n n ℝ, (U * X * Uᵀ) * (U * Y * Uᵀ) = U * (X * Y) * Uᵀ := by
    intro X Y
    calc (U * X * Uᵀ) * (U * Y * Uᵀ) = U * X * (Uᵀ * U) * Y * Uᵀ := by noncomm_ring
      _ = _ := by rw [hU1]; noncomm_ring
  refine ⟨U * E * Uᵀ, ?_, ?_, ?_, ?_⟩
  · rw [hHU, key, key, hDED]
  · rw [hHU, key, key, hEDE]
  · rw [transpose_mul, transpose_mul, transpose_transpose, Matrix.mul_assoc]
    simp [E]
  · rw [hHU, key, key, hcomm]

theorem exists_penrose (A : Matrix m n ℝ) : ∃ X, Penrose A X := by
  obtain ⟨X, h1, h2, h3, h4⟩ := exists_symm_pinv (Aᵀ * A) (by
    rw [Matrix.IsHermitian, conjTranspose_eq_transpose_of_trivial]; simp)
  have hA : A * X * (Aᵀ * A) = A := by
    have : (A * (X * (Aᵀ * A) - 1))ᵀ * (A * (X * (Aᵀ * A) - 1)) = 0 := by
      have e : Aᵀ * A * (X * (Aᵀ * A) - 1) = 0 := by
        rw [Matrix.mul_sub, Matrix.mul_one, ← Matrix.mul_assoc, h1, sub_self]
      rw [transpose_mul, Matrix.mul_assoc, ← Matrix.mul_assoc Aᵀ, e, Matrix.mul_zero]
    rw [← conjTranspose_eq_transpose_of_trivial, conjTranspose_mul_self_eq_zero,
      Matrix.mul_sub, Matrix.mul_one, sub_eq_zero, ← Matrix.mul_assoc] at this
    exact this
  refine ⟨X * Aᵀ, ⟨?_, ?_, ?_, ?_⟩⟩
  · calc A * (X * Aᵀ) * A = A * X * (Aᵀ * A) := by simp only [Matrix.mul_assoc]
      _ = A := hA
  · calc X * Aᵀ * A * (X * Aᵀ) = X * (Aᵀ * A) * X * Aᵀ := by simp only [Matrix.mul_assoc]
      _ = X * Aᵀ := by rw [h2]
  · simp only [transpose_mul, transpose_transpose, h3, Matrix.mul_assoc]
  · rw [Matrix.mul_assoc, transpose_mul, h3, transpose_mul, transpose_transpose, h4]

end existence

open Classical in
/-- `linalg.pinv`: the Moore–Penrose inverse (called at `pykalman/standard.py:289,471,752,828`,
`pykalman/unscented.py:197,533,667`, `pykalman/sqrt/cholesky.py:180`, `pykalman/sqrt/bierman.py:134`).
Defined as the matrix that satisfies the four Penrose equations, which exists and is unique. -/
noncomputable def pinv (A : Matrix m n ℝ) : Matrix n m ℝ := (exists_penrose A).choose

theorem pinv_penrose (A : Matrix m n ℝ) : Penrose A (pinv A) := by
  classical
  exact (exists_penrose A).choose_spec

theorem pinv_eq_of_penrose {A : Matrix m n ℝ} {X : Matrix n m ℝ} (h : Penrose A X) :
    pinv A = X := (pinv_penrose A).unique h

theorem pinv_transpose (A : Matrix m n ℝ) : pinv Aᵀ = (pinv A)ᵀ := by
  apply pinv_eq_of_penrose
  have h := pinv_penrose A
  refine ⟨?_, ?_, ?_, ?_⟩
  · rw [← transpose_mul, ← transpose_mul, ← Matrix.mul_assoc, h.mul_mul]
  · rw [← transpose_mul, ← transpose_mul, ← Matrix.mul_assoc, h.mul_mul']
  · rw [← transpose_mul, h.symm_right, h.symm_right]
  · rw [← transpose_mul, h.symm_left, h.symm_left]

/-- The pseudo-inverse of a symmetric matrix is symmetric. -/
theorem pinv_symm {A : Matrix n n ℝ} (hA : Aᵀ = A) : (pinv A)ᵀ = pinv A := by
  rw [← pinv_transpose, hA]

/-- For an invertible matrix the pseudo-inverse is the inverse. -/
theorem pinv_eq_inv [DecidableEq n] {A : Matrix n n ℝ} (hA : IsUnit A.det) : pinv A = A⁻¹ := by
  apply pinv_eq_of_penrose
  refine ⟨?_, ?_, ?_, ?_⟩ <;> simp [Matrix.mul_nonsing_inv _ hA, Matrix.nonsing_inv_mul _ hA]

theorem pinv_eq_of_mul_eq_one [DecidableEq n] {A B : Matrix n n ℝ} (h : A * B = 1) :
    pinv A = B := by
  have h' : B * A = 1 := mul_eq_one_comm.mp h
  apply pinv_eq_of_penrose
  refine ⟨?_, ?_, ?_, ?_⟩ <;> simp [h, h']

theorem pinv_posSemidef {A : Matrix n n ℝ} (hA : A.PosSemidef) : (pinv A).PosSemidef := by
  have hs : Aᵀ = A := by
    have := hA.isHermitian
    rwa [Matrix.IsHermitian, conjTranspose_eq_transpose_of_trivial] at this
  have h := hA.mul_mul_conjTranspose_same (pinv A)
  rwa [conjTranspose_eq_transpose_of_trivial, pinv_symm hs, (pinv_penrose A).mul_mul'] at h

theorem pinv_zero : pinv (0 : Matrix m n ℝ) = 0 := by
  apply pinv_eq_of_penrose
  refine ⟨?_, ?_, ?_, ?_⟩ <;> simp

end Verif
