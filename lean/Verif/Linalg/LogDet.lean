import Verif.Linalg.Gain
import Verif.Linalg.Cholesky
import Mathlib.Analysis.Matrix.Spectrum
import Mathlib.Analysis.Matrix.PosDef
import Mathlib.Analysis.SpecialFunctions.Log.Basic

/-!
# Trace and log-determinant inequalities, information form of the update
-/

open Matrix

namespace Verif

variable {k n m : ℕ}

/-- The trace of a product of positive semidefinite matrices is nonnegative. -/
theorem trace_mul_nonneg {W M : Matrix (Fin k) (Fin k) ℝ} (hW : W.PosSemidef) (hM : M.PosSemidef) :
    0 ≤ (W * M).trace := by
  obtain ⟨L, -, hL⟩ := exists_lower_factor W hW
  rw [← hL, Matrix.mul_assoc, Matrix.trace_mul_comm]
  have := posSemidef_conj' hM Lᵀ
  rw [transpose_transpose] at this
  exact this.trace_nonneg

/-- `log det M ≤ tr M - k`. -/
theorem logDet_le_trace {M : Matrix (Fin k) (Fin k) ℝ} (hM : M.PosDef) :
    Real.log M.det ≤ M.trace - k := by
  rw [hM.1.det_eq_prod_eigenvalues, hM.1.trace_eq_sum_eigenvalues]
  simp only [RCLike.ofReal_real_eq_id, id]
  rw [Real.log_prod fun i _ => (hM.eigenvalues_pos i).ne']
  calc ∑ i, Real.log (hM.1.eigenvalues i)
      ≤ ∑ i, (hM.1.eigenvalues i - 1) := Finset.sum_le_sum fun i _ =>
        Real.log_le_sub_one_of_pos (hM.eigenvalues_pos i)
    _ = _ := by simp

/-- Gibbs' inequality for Gaussians: `log det S - log det R ≤ tr (R⁻¹ S) - k`. -/
theorem logDet_sub_le {R S : Matrix (Fin k) (Fin k) ℝ} (hR : R.PosDef) (hS : S.PosDef) :
    Real.log S.det - Real.log R.det ≤ (R⁻¹ * S).trace - k := by
  obtain ⟨L, hL⟩ := exists_isCholesky R hR
  have hd := hL.det_ne_zero
  have hu : IsUnit L.det := hd.isUnit
  have hinv : R⁻¹ = L⁻¹ᵀ * L⁻¹ := by
    rw [← hL.mul_transpose, Matrix.mul_inv_rev, transpose_nonsing_inv]
  have hM : (L⁻¹ * S * L⁻¹ᵀ).PosDef := by
    have : Function.Injective (L⁻¹).vecMul := by
      rw [Matrix.vecMul_injective_iff_isUnit]
      exact (Matrix.isUnit_iff_isUnit_det _).mpr (by simpa using hu)
    have := hS.mul_mul_conjTranspose_same this
    rwa [conjTranspose_eq_transpose_of_trivial] at this
  have h1 := logDet_le_trace hM
  have e1 : (L⁻¹ * S * L⁻¹ᵀ).trace = (R⁻¹ * S).trace := by
    rw [Matrix.trace_mul_comm, ← Matrix.mul_assoc, hinv]
  have e2 : (L⁻¹ * S * L⁻¹ᵀ).det = S.det / R.det := by
    rw [det_mul, det_mul, det_transpose, det_nonsing_inv, ← hL.mul_transpose, det_mul,
      det_transpose, Ring.inverse_eq_inv']
    field_simp
  rw [e1, e2, Real.log_div hS.det_pos.ne' hR.det_pos.ne'] at h1
  exact h1

/-- A matrix that vanishes on the kernel of `M` is a multiple of `M`. -/
theorem mul_pinv_mul_of_ker {B : Matrix (Fin m) (Fin n) ℝ} {M : Matrix (Fin n) (Fin n) ℝ}
    (h : ∀ x, M *ᵥ x = 0 → B *ᵥ x = 0) : B * pinv M * M = B := by
  have hN : M * (1 - pinv M * M) = 0 := by
    rw [Matrix.mul_sub, Matrix.mul_one, ← Matrix.mul_assoc, (pinv_penrose M).mul_mul, sub_self]
  have hB : B * (1 - pinv M * M) = 0 := by
    apply Matrix.ext_of_mulVec_single
    intro i
    rw [← mulVec_mulVec, h _ (by rw [mulVec_mulVec, hN, zero_mulVec]), zero_mulVec]
  rw [Matrix.mul_sub, Matrix.mul_one, ← Matrix.mul_assoc, sub_eq_zero] at hB
  exact hB.symm

/-- Completing the square. -/
theorem regression_sub {B C C' : Matrix (Fin m) (Fin n) ℝ} {M : Matrix (Fin n) (Fin n) ℝ}
    (hM : Mᵀ = M) (hC : C * M = B) :
    (C' * M * C'ᵀ - C' * Bᵀ - B * C'ᵀ) - (C * M * Cᵀ - C * Bᵀ - B * Cᵀ)
      = (C' - C) * M * (C' - C)ᵀ := by
  subst hC
  simp only [transpose_mul, transpose_sub, hM, Matrix.mul_sub, Matrix.sub_mul, Matrix.mul_assoc]
  abel

/-! ### Information form -/

/-- Inverse of the updated covariance. -/
theorem updated_inv {P : Matrix (Fin n) (Fin n) ℝ} {R : Matrix (Fin m) (Fin m) ℝ}
    (hP : P.PosDef) (hR : R.PosDef) (C : Matrix (Fin m) (Fin n) ℝ) :
    (P⁻¹ + Cᵀ * R⁻¹ * C) * (P - gain P R C * C * P) = 1 ∧
    (P⁻¹ + Cᵀ * R⁻¹ * C) * gain P R C = Cᵀ * R⁻¹ ∧
    (C * P * Cᵀ + R)⁻¹ + (gain P R C)ᵀ * Cᵀ * R⁻¹ = R⁻¹ := by
  have hPu : IsUnit P.det := hP.det_pos.ne'.isUnit
  have hRu : IsUnit R.det := hR.det_pos.ne'.isUnit
  set S := C * P * Cᵀ + R with hS
  have hSp : S.PosDef := Matrix.PosDef.posSemidef_add (posSemidef_conj' hP.posSemidef C) hR
  have hSu : IsUnit S.det := hSp.det_pos.ne'.isUnit
  have hK : gain P R C = P * Cᵀ * S⁻¹ := by
    rw [gain, pinv_eq_inv hSu]
  have hPt := symm_of_posSemidef hP.posSemidef
  have hSt := symm_of_posSemidef hSp.posSemidef
  have h2 : (P⁻¹ + Cᵀ * R⁻¹ * C) * gain P R C = Cᵀ * R⁻¹ := by
    have e : (P⁻¹ + Cᵀ * R⁻¹ * C) * (P * Cᵀ) = Cᵀ * R⁻¹ * S := by
      rw [hS, Matrix.add_mul, Matrix.mul_add, ← Matrix.mul_assoc P⁻¹, nonsing_inv_mul _ hPu,
        Matrix.one_mul, Matrix.mul_assoc Cᵀ R⁻¹ R, nonsing_inv_mul _ hRu, Matrix.mul_one, add_comm]
      simp only [Matrix.mul_assoc]
    rw [hK, ← Matrix.mul_assoc, e, Matrix.mul_assoc, mul_nonsing_inv _ hSu, Matrix.mul_one]
  refine ⟨?_, h2, ?_⟩
  · rw [Matrix.mul_sub, Matrix.mul_assoc (gain P R C), ← Matrix.mul_assoc _ (gain P R C), h2,
      Matrix.add_mul, nonsing_inv_mul _ hPu]
    simp only [Matrix.mul_assoc]
    abel
  · have e : (gain P R C)ᵀ = S⁻¹ * (C * P) := by
      rw [hK, transpose_mul, transpose_mul, transpose_transpose, hPt, transpose_nonsing_inv, hSt]
    have e2 : S⁻¹ = S⁻¹ * (R * R⁻¹) := by rw [mul_nonsing_inv _ hRu, Matrix.mul_one]
    rw [e]
    nth_rewrite 1 [e2]
    have : S⁻¹ * (R * R⁻¹) + S⁻¹ * (C * P) * Cᵀ * R⁻¹ = S⁻¹ * S * R⁻¹ := by
      rw [hS]
      simp only [Matrix.mul_add, Matrix.add_mul, Matrix.mul_assoc]
      abel
    rw [this, nonsing_inv_mul _ hSu, Matrix.one_mul]

/-- Determinants of the four covariances in Bayes' rule. -/
theorem updated_det {P : Matrix (Fin n) (Fin n) ℝ} {R : Matrix (Fin m) (Fin m) ℝ}
    (hP : P.PosDef) (hR : R.PosDef) (C : Matrix (Fin m) (Fin n) ℝ) :
    P.det * R.det = (C * P * Cᵀ + R).det * (P - gain P R C * C * P).det := by
  have hRu : IsUnit R.det := hR.det_pos.ne'.isUnit
  have hPu : IsUnit P.det := hP.det_pos.ne'.isUnit
  have h1 := congrArg Matrix.det (updated_inv hP hR C).1
  rw [det_mul, det_one] at h1
  have e1 : P * (P⁻¹ + Cᵀ * R⁻¹ * C) = 1 + (P * Cᵀ) * (R⁻¹ * C) := by
    rw [Matrix.mul_add, mul_nonsing_inv _ hPu]
    simp only [Matrix.mul_assoc]
  have e2 : (C * P * Cᵀ + R) = R * (1 + (R⁻¹ * C) * (P * Cᵀ)) := by
    rw [Matrix.mul_add, Matrix.mul_one, ← Matrix.mul_assoc, ← Matrix.mul_assoc R,
      mul_nonsing_inv _ hRu, Matrix.one_mul, add_comm]
    simp only [Matrix.mul_assoc]
  have e3 : P.det * (P⁻¹ + Cᵀ * R⁻¹ * C).det * R.det = (C * P * Cᵀ + R).det := by
    rw [← det_mul, e1, e2, det_mul, det_one_add_mul_comm, mul_comm]
  rw [← e3]
  linear_combination (-(P.det * R.det)) * h1

end Verif
