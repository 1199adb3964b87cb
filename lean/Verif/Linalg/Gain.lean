import Verif.Linalg.Cholesky
import Mathlib.Analysis.Matrix.Order

/-!
# Linear algebra of the Kalman gain with a pseudo-inverse
-/

open Matrix

namespace Verif

variable {n m : Type*} [Fintype n] [Fintype m] [DecidableEq n] [DecidableEq m]

theorem posSemidef_conj' {P : Matrix n n ℝ} (hP : P.PosSemidef) (A : Matrix m n ℝ) :
    (A * P * Aᵀ).PosSemidef := by
  have := hP.mul_mul_conjTranspose_same A
  rwa [conjTranspose_eq_transpose_of_trivial] at this

/-- A positive semidefinite matrix whose quadratic form vanishes on the columns of `X` kills `X`. -/
theorem posSemidef_mul_eq_zero {P : Matrix n n ℝ} (hP : P.PosSemidef) {X : Matrix n m ℝ}
    (h : Xᵀ * P * X = 0) : P * X = 0 := by
  have key : ∀ v : m → ℝ, (P * X) *ᵥ v = 0 := by
    intro v
    rw [← mulVec_mulVec]
    apply (hP.dotProduct_mulVec_zero_iff (X *ᵥ v)).mp
    have : (X *ᵥ v) ⬝ᵥ (P *ᵥ (X *ᵥ v)) = v ⬝ᵥ ((Xᵀ * P * X) *ᵥ v) := by
      rw [← mulVec_mulVec, ← mulVec_mulVec, dotProduct_mulVec v Xᵀ, vecMul_transpose]
    simpa [h] using this
  ext i j
  have := congrFun (key (Pi.single j 1)) i
  simpa using this

/-- If two positive semidefinite matrices add up to zero both vanish. -/
theorem posSemidef_add_eq_zero {A B : Matrix n n ℝ} (hA : A.PosSemidef) (hB : B.PosSemidef)
    (h : A + B = 0) : A = 0 := by
  have key : ∀ v : n → ℝ, A *ᵥ v = 0 := by
    intro v
    apply (hA.dotProduct_mulVec_zero_iff v).mp
    have a := (posSemidef_iff_real.mp hA).2 v
    have b := (posSemidef_iff_real.mp hB).2 v
    have c : v ⬝ᵥ (A *ᵥ v) + v ⬝ᵥ (B *ᵥ v) = 0 := by
      rw [← dotProduct_add, ← add_mulVec, h]; simp
    have : v ⬝ᵥ (A *ᵥ v) = 0 := by linarith
    simpa using this
  ext i j
  have := congrFun (key (Pi.single j 1)) i
  simpa using this

/-- With `S = C P Cᵀ + R`, the rows of `P Cᵀ` lie in the range of `S`: `P Cᵀ S⁺ S = P Cᵀ`. -/
theorem gain_range {P : Matrix n n ℝ} {R : Matrix m m ℝ} (hP : P.PosSemidef) (hR : R.PosSemidef)
    (C : Matrix m n ℝ) :
    P * Cᵀ * pinv (C * P * Cᵀ + R) * (C * P * Cᵀ + R) = P * Cᵀ := by
  set S := C * P * Cᵀ + R with hS
  have hpen := pinv_penrose S
  set N : Matrix m m ℝ := 1 - pinv S * S with hN
  have hSN : S * N = 0 := by
    rw [hN, Matrix.mul_sub, Matrix.mul_one, ← Matrix.mul_assoc, hpen.mul_mul, sub_self]
  have h0 : Nᵀ * (C * P * Cᵀ) * N + Nᵀ * R * N = 0 := by
    rw [← Matrix.add_mul, ← Matrix.mul_add, ← hS, Matrix.mul_assoc, hSN, Matrix.mul_zero]
  have hA : (Nᵀ * (C * P * Cᵀ) * N).PosSemidef := by
    simpa using posSemidef_conj' (posSemidef_conj' hP C) Nᵀ
  have hB : (Nᵀ * R * N).PosSemidef := by simpa using posSemidef_conj' hR Nᵀ
  have h1 := posSemidef_add_eq_zero hA hB h0
  have h2 : P * (Cᵀ * N) = 0 := by
    apply posSemidef_mul_eq_zero hP
    rw [transpose_mul, transpose_transpose]
    rw [← h1]
    simp only [Matrix.mul_assoc]
  rw [hN, Matrix.mul_sub, Matrix.mul_one, Matrix.mul_sub, sub_eq_zero] at h2
  simpa only [Matrix.mul_assoc] using h2.symm

variable (P : Matrix n n ℝ) (R : Matrix m m ℝ) (C : Matrix m n ℝ)

/-- The Kalman gain. -/
noncomputable def gain : Matrix n m ℝ := P * Cᵀ * pinv (C * P * Cᵀ + R)

variable {P R}

theorem innov_posSemidef (hP : P.PosSemidef) (hR : R.PosSemidef) :
    (C * P * Cᵀ + R).PosSemidef := (posSemidef_conj' hP C).add hR

theorem gain_mul (hP : P.PosSemidef) (hR : R.PosSemidef) :
    gain P R C * (C * P * Cᵀ + R) = P * Cᵀ := gain_range hP hR C

theorem gain_mul_transpose (hP : P.PosSemidef) (hR : R.PosSemidef) :
    gain P R C * (C * P * Cᵀ + R) * (gain P R C)ᵀ = gain P R C * C * P := by
  have hs := symm_of_posSemidef (innov_posSemidef C hP hR)
  have h : ((gain P R C) * ((C * P * Cᵀ + R) * (gain P R C)ᵀ))
      = gain P R C * (C * P) := by
    have := congrArg Matrix.transpose (gain_mul C hP hR)
    rw [transpose_mul, hs, transpose_mul, transpose_transpose, symm_of_posSemidef hP] at this
    rw [this]
  rw [Matrix.mul_assoc, h, Matrix.mul_assoc]

/-- Joseph form: error covariance of an arbitrary gain, completed to a square around the Kalman
gain. -/
theorem joseph (hP : P.PosSemidef) (hR : R.PosSemidef) (K : Matrix n m ℝ) :
    (1 - K * C) * P * (1 - K * C)ᵀ + K * R * Kᵀ
      = (P - gain P R C * C * P)
        + (K - gain P R C) * (C * P * Cᵀ + R) * (K - gain P R C)ᵀ := by
  have h1 := gain_mul C hP hR
  have h2 := gain_mul_transpose C hP hR
  have hs := symm_of_posSemidef (innov_posSemidef C hP hR)
  have h3 : (C * P * Cᵀ + R) * (gain P R C)ᵀ = C * P := by
    have := congrArg Matrix.transpose h1
    rwa [transpose_mul, hs, transpose_mul, transpose_transpose, symm_of_posSemidef hP] at this
  set G := gain P R C
  have e : (K - G) * (C * P * Cᵀ + R) * (K - G)ᵀ
      = K * (C * P * Cᵀ + R) * Kᵀ - K * ((C * P * Cᵀ + R) * Gᵀ)
        - G * (C * P * Cᵀ + R) * Kᵀ + G * (C * P * Cᵀ + R) * Gᵀ := by
    rw [transpose_sub]
    simp only [Matrix.mul_sub, Matrix.sub_mul, Matrix.mul_assoc]
    abel
  rw [e, h2, h3, h1]
  rw [transpose_sub, transpose_one, transpose_mul]
  simp only [Matrix.mul_sub, Matrix.sub_mul, Matrix.mul_add, Matrix.add_mul, Matrix.mul_assoc,
    Matrix.one_mul, Matrix.mul_one]
  abel

theorem updated_eq (hP : P.PosSemidef) (hR : R.PosSemidef) :
    P - gain P R C * C * P
      = (1 - gain P R C * C) * P * (1 - gain P R C * C)ᵀ + gain P R C * R * (gain P R C)ᵀ := by
  rw [joseph C hP hR]; simp

theorem updated_posSemidef (hP : P.PosSemidef) (hR : R.PosSemidef) :
    (P - gain P R C * C * P).PosSemidef := by
  rw [updated_eq C hP hR]
  exact (posSemidef_conj' hP _).add (posSemidef_conj' hR _)

end Verif
