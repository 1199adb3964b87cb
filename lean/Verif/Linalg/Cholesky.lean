import Verif.Linalg.Pinv
import Mathlib.Algebra.Order.Star.Real
import Mathlib.Analysis.SpecialFunctions.Sqrt

/-!
# Cholesky and QR factorisations

Existence of a lower triangular factor of a positive semidefinite matrix, existence and
uniqueness of the Cholesky factor of a positive definite one, and the specification of a QR
routine.
-/

open Matrix

namespace Verif

/-- `M i j = 0` above the diagonal. -/
def LowerTri {n : ℕ} (L : Matrix (Fin n) (Fin n) ℝ) : Prop := ∀ i j, i < j → L i j = 0

theorem symm_of_posSemidef {n : Type*} [Fintype n] {A : Matrix n n ℝ} (hA : A.PosSemidef) :
    Aᵀ = A := by
  have := hA.isHermitian
  rwa [Matrix.IsHermitian, conjTranspose_eq_transpose_of_trivial] at this

theorem posSemidef_iff_real {n : Type*} [Fintype n] {A : Matrix n n ℝ} :
    A.PosSemidef ↔ Aᵀ = A ∧ ∀ x, 0 ≤ x ⬝ᵥ (A *ᵥ x) := by
  rw [posSemidef_iff_dotProduct_mulVec, Matrix.IsHermitian, conjTranspose_eq_transpose_of_trivial]
  simp

theorem posDef_iff_real {n : Type*} [Fintype n] {A : Matrix n n ℝ} :
    A.PosDef ↔ Aᵀ = A ∧ ∀ x, x ≠ 0 → 0 < x ⬝ᵥ (A *ᵥ x) := by
  rw [posDef_iff_dotProduct_mulVec, Matrix.IsHermitian, conjTranspose_eq_transpose_of_trivial]
  simp

/-- A quadratic form on `Fin (n+1)` split at the first coordinate. -/
theorem quad_cons {n : ℕ} (A : Matrix (Fin (n + 1)) (Fin (n + 1)) ℝ) (hA : Aᵀ = A) (y : ℝ)
    (x : Fin n → ℝ) :
    (Fin.cons y x : Fin (n + 1) → ℝ) ⬝ᵥ (A *ᵥ (Fin.cons y x : Fin (n + 1) → ℝ)) =
      A 0 0 * y ^ 2 + 2 * y * ((fun i => A i.succ 0) ⬝ᵥ x)
        + x ⬝ᵥ ((A.submatrix Fin.succ Fin.succ) *ᵥ x) := by
  have hs : ∀ i j, A i j = A j i := fun i j => by
    conv_lhs => rw [← hA]
    rfl
  simp only [dotProduct, mulVec, Fin.sum_univ_succ, Fin.cons_zero, Fin.cons_succ, submatrix_apply]
  simp only [mul_add, Finset.sum_add_distrib, Finset.mul_sum]
  have e1 : ∀ i : Fin n, A 0 i.succ = A i.succ 0 := fun i => hs _ _
  simp only [e1]
  have e2 : ∑ i : Fin n, x i * (A i.succ 0 * y) = ∑ i : Fin n, y * (A i.succ 0 * x i) :=
    Finset.sum_congr rfl fun i _ => by ring
  have e3 : ∑ i : Fin n, 2 * y * (A i.succ 0 * x i) = 2 * ∑ i : Fin n, y * (A i.succ 0 * x i) := by
    rw [Finset.mul_sum]; exact Finset.sum_congr rfl fun i _ => by ring
  rw [e2, e3]
  ring

/-- The Schur complement step of the Cholesky factorisation. -/
noncomputable def schur {n : ℕ} (A : Matrix (Fin (n + 1)) (Fin (n + 1)) ℝ) :
    Matrix (Fin n) (Fin n) ℝ :=
  A.submatrix Fin.succ Fin.succ -
    (A 0 0)⁻¹ • vecMulVec (fun i => A i.succ 0) (fun i => A i.succ 0)

theorem schur_symm {n : ℕ} {A : Matrix (Fin (n + 1)) (Fin (n + 1)) ℝ} (hA : Aᵀ = A) :
    (schur A)ᵀ = schur A := by
  ext i j
  have : A j.succ i.succ = A i.succ j.succ := congrFun (congrFun hA i.succ) j.succ
  simp [schur, vecMulVec_apply, this, mul_comm (A i.succ 0)]

theorem quad_schur {n : ℕ} (A : Matrix (Fin (n + 1)) (Fin (n + 1)) ℝ) (x : Fin n → ℝ) :
    x ⬝ᵥ (schur A *ᵥ x) = x ⬝ᵥ ((A.submatrix Fin.succ Fin.succ) *ᵥ x)
      - (A 0 0)⁻¹ * ((fun i => A i.succ 0) ⬝ᵥ x) ^ 2 := by
  simp only [schur, sub_mulVec, dotProduct_sub, smul_mulVec, dotProduct_smul, vecMulVec_mulVec,
    smul_eq_mul]
  congr 2
  simp [dotProduct_comm x]
  ring

theorem posSemidef_corner {n : ℕ} {A : Matrix (Fin (n + 1)) (Fin (n + 1)) ℝ}
    (hA : A.PosSemidef) (h0 : A 0 0 = 0) (i : Fin n) : A i.succ 0 = 0 := by
  obtain ⟨hs, hp⟩ := posSemidef_iff_real.mp hA
  by_contra hne
  -- test vector: large multiple in coordinate 0, one in coordinate i
  have h := fun y : ℝ => hp (Fin.cons y (Pi.single i 1))
  simp only [quad_cons A hs, h0, zero_mul, zero_add] at h
  simp only [dotProduct_single, mul_one, mulVec_single_one, single_dotProduct, one_mul, col_apply,
    submatrix_apply] at h
  have := h (-(A i.succ i.succ + 1) / (2 * A i.succ 0))
  have e : 2 * (-(A i.succ i.succ + 1) / (2 * A i.succ 0)) * A i.succ 0
      = -(A i.succ i.succ + 1) := by field_simp
  rw [e] at this
  linarith

theorem schur_posSemidef {n : ℕ} {A : Matrix (Fin (n + 1)) (Fin (n + 1)) ℝ}
    (hA : A.PosSemidef) : (schur A).PosSemidef := by
  obtain ⟨hs, hp⟩ := posSemidef_iff_real.mp hA
  refine posSemidef_iff_real.mpr ⟨schur_symm hs, fun x => ?_⟩
  rw [quad_schur]
  have h := hp (Fin.cons (-(A 0 0)⁻¹ * ((fun i => A i.succ 0) ⬝ᵥ x)) x)
  rw [quad_cons A hs] at h
  by_cases h0 : A 0 0 = 0
  · simpa [h0] using h
  · have e : A 0 0 * (-(A 0 0)⁻¹ * ((fun i => A i.succ 0) ⬝ᵥ x)) ^ 2
        = (A 0 0)⁻¹ * ((fun i => A i.succ 0) ⬝ᵥ x) ^ 2 := by field_simp
    rw [e] at h
    linarith

theorem schur_posDef {n : ℕ} {A : Matrix (Fin (n + 1)) (Fin (n + 1)) ℝ}
    (hA : A.PosDef) : (schur A).PosDef := by
  obtain ⟨hs, hp⟩ := posDef_iff_real.mp hA
  refine posDef_iff_real.mpr ⟨schur_symm hs, fun x hx => ?_⟩
  rw [quad_schur]
  have h := hp (Fin.cons (-(A 0 0)⁻¹ * ((fun i => A i.succ 0) ⬝ᵥ x)) x) (by
    intro hc
    apply hx
    funext i
    have := congrFun hc i.succ
    simpa using this)
  rw [quad_cons A hs] at h
  have h0 : A 0 0 ≠ 0 := hA.diag_pos.ne'
  have e : A 0 0 * (-(A 0 0)⁻¹ * ((fun i => A i.succ 0) ⬝ᵥ x)) ^ 2
      = (A 0 0)⁻¹ * ((fun i => A i.succ 0) ⬝ᵥ x) ^ 2 := by field_simp
  rw [e] at h
  linarith

/-- One step of the Cholesky algorithm: border the factor of the Schur complement. -/
noncomputable def cholBorder {n : ℕ} (A : Matrix (Fin (n + 1)) (Fin (n + 1)) ℝ)
    (L' : Matrix (Fin n) (Fin n) ℝ) : Matrix (Fin (n + 1)) (Fin (n + 1)) ℝ :=
  Matrix.of (Fin.cons (Fin.cons (√(A 0 0)) (fun _ => 0))
    (fun i => Fin.cons (A i.succ 0 / √(A 0 0)) (fun j => L' i j)))

theorem cholBorder_mul {n : ℕ} {A : Matrix (Fin (n + 1)) (Fin (n + 1)) ℝ}
    {L' : Matrix (Fin n) (Fin n) ℝ} (hA : A.PosSemidef) (hL : L' * L'ᵀ = schur A) :
    cholBorder A L' * (cholBorder A L')ᵀ = A := by
  have hs := symm_of_posSemidef hA
  have h00 : 0 ≤ A 0 0 := hA.diag_nonneg
  have hsq : √(A 0 0) * √(A 0 0) = A 0 0 := Real.mul_self_sqrt h00
  have hcol : ∀ i : Fin n, √(A 0 0) * (A i.succ 0 / √(A 0 0)) = A i.succ 0 := by
    intro i
    by_cases h0 : A 0 0 = 0
    · rw [posSemidef_corner hA h0 i]; simp
    · have : √(A 0 0) ≠ 0 := by
        rw [Real.sqrt_ne_zero h00]; exact h0
      field_simp
  have hsym : ∀ i : Fin n, A 0 i.succ = A i.succ 0 := fun i => by
    conv_lhs => rw [← hs]
    rfl
  ext i j
  refine Fin.cases ?_ (fun i => ?_) i <;> refine Fin.cases ?_ (fun j => ?_) j
  · simp [mul_apply, cholBorder, Fin.sum_univ_succ, hsq]
  · simp [mul_apply, cholBorder, Fin.sum_univ_succ, hcol, hsym]
  · simp only [mul_apply, cholBorder, transpose_apply, of_apply, Fin.sum_univ_succ, Fin.cons_zero,
      Fin.cons_succ, mul_zero, Finset.sum_const_zero, add_zero]
    rw [mul_comm, hcol]
  · have h := congrFun (congrFun hL i) j
    simp only [mul_apply, transpose_apply, schur, Matrix.sub_apply, submatrix_apply, Matrix.smul_apply,
      vecMulVec_apply, smul_eq_mul] at h
    simp only [mul_apply, cholBorder, transpose_apply, of_apply, Fin.sum_univ_succ, Fin.cons_zero,
      Fin.cons_succ, h]
    have : A i.succ 0 / √(A 0 0) * (A j.succ 0 / √(A 0 0))
        = (A 0 0)⁻¹ * (A i.succ 0 * A j.succ 0) := by
      rw [div_mul_div_comm, hsq]; ring
    rw [this]; ring

/-- Every positive semidefinite matrix has a lower triangular factor. -/
theorem exists_lower_factor : ∀ {n : ℕ} (A : Matrix (Fin n) (Fin n) ℝ), A.PosSemidef →
    ∃ L, LowerTri L ∧ L * Lᵀ = A
  | 0, A, _ => ⟨0, fun i => i.elim0, by ext i; exact i.elim0⟩
  | n + 1, A, hA => by
    obtain ⟨L', h1, h2⟩ := exists_lower_factor (schur A) (schur_posSemidef hA)
    refine ⟨cholBorder A L', fun i j hij => ?_, cholBorder_mul hA h2⟩
    revert hij
    refine Fin.cases ?_ (fun i => ?_) i <;> refine Fin.cases ?_ (fun j => ?_) j
    · intro h; exact absurd h (lt_irrefl _)
    · intro _; simp [cholBorder]
    · intro h; exact absurd h (by simp)
    · intro h; simpa [cholBorder] using h1 i j (by simpa using h)

/-- Lower triangular, positive diagonal, `L Lᵀ = A`: the Cholesky factor of `A`. -/
structure IsCholesky {n : ℕ} (A L : Matrix (Fin n) (Fin n) ℝ) : Prop where
  lower : LowerTri L
  diag_pos : ∀ i, 0 < L i i
  mul_transpose : L * Lᵀ = A

theorem exists_isCholesky : ∀ {n : ℕ} (A : Matrix (Fin n) (Fin n) ℝ), A.PosDef →
    ∃ L, IsCholesky A L
  | 0, A, _ => ⟨0, fun i => i.elim0, fun i => i.elim0, by ext i; exact i.elim0⟩
  | n + 1, A, hA => by
    obtain ⟨L', h1, h2, h3⟩ := exists_isCholesky (schur A) (schur_posDef hA)
    refine ⟨cholBorder A L', fun i j hij => ?_, fun i => ?_, cholBorder_mul hA.posSemidef h3⟩
    · revert hij
      refine Fin.cases ?_ (fun i => ?_) i <;> refine Fin.cases ?_ (fun j => ?_) j
      · intro h; exact absurd h (lt_irrefl _)
      · intro _; simp [cholBorder]
      · intro h; exact absurd h (by simp)
      · intro h; simpa [cholBorder] using h1 i j (by simpa using h)
    · refine Fin.cases ?_ (fun i => ?_) i
      · have : 0 < A 0 0 := hA.diag_pos
        simpa [cholBorder] using this
      · simpa [cholBorder] using h2 i

theorem IsCholesky.det_ne_zero {n : ℕ} {A L : Matrix (Fin n) (Fin n) ℝ} (h : IsCholesky A L) :
    L.det ≠ 0 := by
  rw [det_of_lowerTriangular L (fun i j hij => h.lower i j hij)]
  exact Finset.prod_ne_zero_iff.mpr fun i _ => (h.diag_pos i).ne'

theorem IsCholesky.posDef {n : ℕ} {A L : Matrix (Fin n) (Fin n) ℝ} (h : IsCholesky A L) :
    A.PosDef := by
  rw [← h.mul_transpose, ← conjTranspose_eq_transpose_of_trivial]
  apply PosDef.mul_conjTranspose_self
  exact Matrix.vecMul_injective_of_isUnit ((Matrix.isUnit_iff_isUnit_det _).mpr
    (isUnit_iff_ne_zero.mpr h.det_ne_zero))

/-- The Cholesky factor is unique. -/
theorem IsCholesky.unique : ∀ {n : ℕ} {A L M : Matrix (Fin n) (Fin n) ℝ},
    IsCholesky A L → IsCholesky A M → L = M
  | 0, A, L, M, _, _ => by ext i; exact i.elim0
  | n + 1, A, L, M, hL, hM => by
    have row0 : ∀ {N : Matrix (Fin (n+1)) (Fin (n+1)) ℝ}, IsCholesky A N → ∀ i,
        A i 0 = N i 0 * N 0 0 := by
      intro N hN i
      rw [← hN.mul_transpose, mul_apply, Fin.sum_univ_succ]
      simp [hN.lower 0 _ (Fin.succ_pos _)]
    have h00 : L 0 0 = M 0 0 := by
      have := (row0 hL 0).symm.trans (row0 hM 0)
      have a := hL.diag_pos 0
      have b := hM.diag_pos 0
      nlinarith
    have hcol : ∀ i, L i 0 = M i 0 := by
      intro i
      have := (row0 hL i).symm.trans (row0 hM i)
      rw [h00] at this
      exact mul_right_cancel₀ (hM.diag_pos 0).ne' this
    have sub : ∀ {N : Matrix (Fin (n+1)) (Fin (n+1)) ℝ}, IsCholesky A N →
        IsCholesky (A.submatrix Fin.succ Fin.succ
          - vecMulVec (fun i => N i.succ 0) (fun i => N i.succ 0))
          (N.submatrix Fin.succ Fin.succ) := by
      intro N hN
      refine ⟨fun i j hij => hN.lower _ _ (by simpa using hij), fun i => hN.diag_pos _, ?_⟩
      ext i j
      have := congrFun (congrFun hN.mul_transpose i.succ) j.succ
      rw [mul_apply, Fin.sum_univ_succ] at this
      simp only [transpose_apply] at this
      have e : (A.submatrix Fin.succ Fin.succ
          - vecMulVec (fun i : Fin n => N i.succ 0) (fun i : Fin n => N i.succ 0)) i j
          = A i.succ j.succ - N i.succ 0 * N j.succ 0 := rfl
      rw [e, ← this]
      simp only [mul_apply, submatrix_apply, transpose_apply]
      ring
    have s1 := sub hL
    have s2 := sub hM
    simp only [hcol] at s1
    have hsub := s1.unique s2
    ext i j
    refine Fin.cases ?_ (fun j => ?_) j
    · exact hcol i
    · refine Fin.cases ?_ (fun i => ?_) i
      · rw [hL.lower 0 _ (Fin.succ_pos _), hM.lower 0 _ (Fin.succ_pos _)]
      · exact congrFun (congrFun hsub i) j

/-- The lower triangle of `A` mirrored to the upper one: `cholesky(A, lower=True)` reads only
the lower triangle. -/
def mirrorLower {n : ℕ} (A : Matrix (Fin n) (Fin n) ℝ) : Matrix (Fin n) (Fin n) ℝ :=
  Matrix.of fun i j => if j ≤ i then A i j else A j i

theorem mirrorLower_of_symm {n : ℕ} {A : Matrix (Fin n) (Fin n) ℝ} (h : Aᵀ = A) :
    mirrorLower A = A := by
  ext i j
  have : A j i = A i j := congrFun (congrFun h i) j
  simp [mirrorLower, this]

/-- What a QR routine guarantees about the factor `R` of an `N × L` matrix with `L ≤ N`
(`A = Q R` with `QᵀQ = 1`): upper trapezoidal and `RᵀR = AᵀA`. -/
structure QRSpec (qr : ∀ {N L : ℕ}, Matrix (Fin N) (Fin L) ℝ → Matrix (Fin N) (Fin L) ℝ) :
    Prop where
  upper : ∀ {N L : ℕ} (A : Matrix (Fin N) (Fin L) ℝ) (i : Fin N) (j : Fin L),
    (j : ℕ) < (i : ℕ) → qr A i j = 0
  gram : ∀ {N L : ℕ} (A : Matrix (Fin N) (Fin L) ℝ), L ≤ N → (qr A)ᵀ * qr A = Aᵀ * A

/-- A QR routine exists: the specification is not vacuous. -/
theorem exists_qrSpec :
    ∃ qr : ∀ {N L : ℕ}, Matrix (Fin N) (Fin L) ℝ → Matrix (Fin N) (Fin L) ℝ, QRSpec qr := by
  have key : ∀ (N L : ℕ) (A : Matrix (Fin N) (Fin L) ℝ), ∃ R : Matrix (Fin N) (Fin L) ℝ,
      (∀ (i : Fin N) (j : Fin L), (j : ℕ) < (i : ℕ) → R i j = 0) ∧ (L ≤ N → Rᵀ * R = Aᵀ * A) := by
    intro N L A
    by_cases h : L ≤ N
    · obtain ⟨F, h1, h2⟩ := exists_lower_factor (Aᵀ * A) (by
        have := posSemidef_conjTranspose_mul_self A
        rwa [conjTranspose_eq_transpose_of_trivial] at this)
      refine ⟨Matrix.of fun i j => if hi : (i : ℕ) < L then F j ⟨i, hi⟩ else 0, ?_, fun _ => ?_⟩
      · intro i j hij
        by_cases hi : (i : ℕ) < L
        · simp only [of_apply, hi, dite_true]
          exact h1 _ _ hij
        · simp [hi]
      · rw [← h2]
        ext i j
        simp only [mul_apply, transpose_apply, of_apply]
        obtain ⟨k, rfl⟩ := Nat.exists_eq_add_of_le h
        rw [Fin.sum_univ_add]
        simp
    · exact ⟨0, by simp, fun h' => absurd h' h⟩
  choose R hR using key
  exact ⟨fun {N L} A => R N L A, ⟨fun A i j h => (hR _ _ A).1 i j h, fun A h => (hR _ _ A).2 h⟩⟩

end Verif
