import Verif.Spec.Sensors
import Verif.Proofs.Rows

/-!
# Lemmas for C67 and C68
-/

open Matrix

namespace Verif

variable {n m m₁ m₂ : ℕ}

theorem form_conj (M : Mat n m) (R : Mat m m) (a : Vec n) :
    a ⬝ᵥ ((M * R * Mᵀ) *ᵥ a) = (Mᵀ *ᵥ a) ⬝ᵥ (R *ᵥ (Mᵀ *ᵥ a)) := by
  rw [← mulVec_mulVec, ← mulVec_mulVec, dotProduct_mulVec, ← mulVec_transpose]

theorem form_nonneg {S : Mat n n} (h : S.PosSemidef) (a : Vec n) : 0 ≤ a ⬝ᵥ (S *ᵥ a) := by
  simpa using h.dotProduct_mulVec_nonneg a

/-- The variance of a measured quantity after the correction is at most that of the measurement. -/
theorem corrected_form_le {P : Mat n n} {R : Mat m m} (hP : P.PosSemidef) (hR : R.PosSemidef)
    (C : Mat m n) {a : Vec n} {w : Vec m} (hw : Cᵀ *ᵥ w = a) :
    a ⬝ᵥ ((P - gain P R C * C * P) *ᵥ a) ≤ w ⬝ᵥ (R *ᵥ w) := by
  by_cases h0 : a ⬝ᵥ a = 0
  · have : a = 0 := dotProduct_self_eq_zero.mp h0
    rw [this, zero_dotProduct]
    exact form_nonneg hR w
  · set K : Mat n m := (a ⬝ᵥ a)⁻¹ • vecMulVec a w with hK
    have e1 : Kᵀ *ᵥ a = w := by
      rw [hK, transpose_smul, transpose_vecMulVec, smul_mulVec, vecMulVec_mulVec]
      ext i
      simp only [Pi.smul_apply, smul_eq_mul]
      rw [show MulOpposite.op (a ⬝ᵥ a) • w i = w i * (a ⬝ᵥ a) from rfl]
      field_simp
    have e2 : (1 - K * C)ᵀ *ᵥ a = 0 := by
      rw [transpose_sub, transpose_one, transpose_mul, sub_mulVec, one_mulVec, ← mulVec_mulVec, e1, hw,
        sub_self]
    have hj := congrArg (fun M => a ⬝ᵥ (M *ᵥ a)) (joseph C hP hR K)
    rw [add_mulVec, dotProduct_add, form_conj, form_conj, e1, e2, mulVec_zero, dotProduct_zero,
      zero_add, add_mulVec, dotProduct_add, form_conj] at hj
    have := form_nonneg (innov_posSemidef C hP hR) ((K - gain P R C)ᵀ *ᵥ a)
    linarith

/-! ### Two sensors -/

theorem mul_stack (K : Mat n (m₁ + m₂)) {k : ℕ} (C₁ : Mat m₁ k) (C₂ : Mat m₂ k) :
    K * stackRows C₁ C₂ = K.submatrix id (Fin.castAdd m₂) * C₁ + K.submatrix id (Fin.natAdd m₁) * C₂ := by
  ext i j
  simp only [Matrix.mul_apply, Matrix.add_apply, Fin.sum_univ_add, stackRows, Matrix.of_apply,
    Fin.append_left, Fin.append_right, submatrix_apply, id]

theorem stack_mul {k : ℕ} (C₁ : Mat m₁ n) (C₂ : Mat m₂ n) (P : Mat n k) :
    stackRows C₁ C₂ * P = stackRows (C₁ * P) (C₂ * P) := by
  ext i j
  refine Fin.addCases (fun i => ?_) (fun i => ?_) i <;>
    simp [Matrix.mul_apply, stackRows]

theorem mulVec_stack (K : Mat n (m₁ + m₂)) (v₁ : Vec m₁) (v₂ : Vec m₂) :
    K *ᵥ stackVec v₁ v₂ = K.submatrix id (Fin.castAdd m₂) *ᵥ v₁ + K.submatrix id (Fin.natAdd m₁) *ᵥ v₂ := by
  ext i
  simp only [Matrix.mulVec, dotProduct, Pi.add_apply, Fin.sum_univ_add, stackVec,
    Fin.append_left, Fin.append_right, submatrix_apply, id]

theorem stack_mulVec (C₁ : Mat m₁ n) (C₂ : Mat m₂ n) (x : Vec n) :
    stackRows C₁ C₂ *ᵥ x = stackVec (C₁ *ᵥ x) (C₂ *ᵥ x) := by
  ext i
  refine Fin.addCases (fun i => ?_) (fun i => ?_) i <;>
    simp [Matrix.mulVec, dotProduct, stackRows, stackVec]

theorem stackVec_add (a a' : Vec m₁) (b b' : Vec m₂) :
    stackVec a b + stackVec a' b' = stackVec (a + a') (b + b') := by
  ext i
  refine Fin.addCases (fun i => ?_) (fun i => ?_) i <;> simp [stackVec]

theorem stackVec_sub (a a' : Vec m₁) (b b' : Vec m₂) :
    stackVec a b - stackVec a' b' = stackVec (a - a') (b - b') := by
  ext i
  refine Fin.addCases (fun i => ?_) (fun i => ?_) i <;> simp [stackVec]

theorem stack_missing {o₁ : Obs m₁} {o₂ : Obs m₂} (h₁ : ¬ o₁.missing) (h₂ : ¬ o₂.missing) :
    ¬ (stackObs o₁ o₂).missing := by
  rintro ⟨i, hi⟩
  revert hi
  refine Fin.addCases (fun i hi => h₁ ⟨i, ?_⟩) (fun i hi => h₂ ⟨i, ?_⟩) i
  · simpa [stackObs, stackVec] using hi
  · simpa [stackObs, stackVec] using hi

/-- Left part of the product with the innovation covariance. -/
theorem stack_innov (P : Mat n n) (C₁ : Mat m₁ n) (C₂ : Mat m₂ n) (R₁ : Mat m₁ m₁) (R₂ : Mat m₂ m₂)
    (K : Mat n (m₁ + m₂)) :
    K * (stackRows C₁ C₂ * P * (stackRows C₁ C₂)ᵀ + stackCov R₁ R₂)
      = (stackRows (((K.submatrix id (Fin.castAdd m₂) * C₁ + K.submatrix id (Fin.natAdd m₁) * C₂) * P
            * C₁ᵀ + K.submatrix id (Fin.castAdd m₂) * R₁)ᵀ)
          (((K.submatrix id (Fin.castAdd m₂) * C₁ + K.submatrix id (Fin.natAdd m₁) * C₂) * P
            * C₂ᵀ + K.submatrix id (Fin.natAdd m₁) * R₂)ᵀ))ᵀ := by
  rw [Matrix.mul_add, ← Matrix.mul_assoc, ← Matrix.mul_assoc, mul_stack]
  set D := (K.submatrix id (Fin.castAdd m₂) * C₁ + K.submatrix id (Fin.natAdd m₁) * C₂) * P
  have e : K * stackCov R₁ R₂ = (stackRows (K.submatrix id (Fin.castAdd m₂) * R₁)ᵀ
      (K.submatrix id (Fin.natAdd m₁) * R₂)ᵀ)ᵀ := by
    ext i j
    refine Fin.addCases (fun j => ?_) (fun j => ?_) j <;>
      simp [Matrix.mul_apply, Fin.sum_univ_add, stackRows, stackCov]
  have e' : D * (stackRows C₁ C₂)ᵀ = (stackRows (D * C₁ᵀ)ᵀ (D * C₂ᵀ)ᵀ)ᵀ := by
    rw [← transpose_transpose (D * (stackRows C₁ C₂)ᵀ), transpose_mul, transpose_transpose, stack_mul]
    simp only [transpose_mul, transpose_transpose]
  rw [e, e']
  ext i j
  refine Fin.addCases (fun j => ?_) (fun j => ?_) j <;> simp [stackRows]

theorem stackVec_split (x : Vec (m₁ + m₂)) :
    x = stackVec (fun i => x (Fin.castAdd m₂ i)) (fun i => x (Fin.natAdd m₁ i)) := by
  ext i
  refine Fin.addCases (fun i => ?_) (fun i => ?_) i <;> simp [stackVec]

theorem stackCov_mulVec (R₁ : Mat m₁ m₁) (R₂ : Mat m₂ m₂) (v₁ : Vec m₁) (v₂ : Vec m₂) :
    stackCov R₁ R₂ *ᵥ stackVec v₁ v₂ = stackVec (R₁ *ᵥ v₁) (R₂ *ᵥ v₂) := by
  ext i
  refine Fin.addCases (fun i => ?_) (fun i => ?_) i <;>
    simp [Matrix.mulVec, dotProduct, stackCov, stackVec, Fin.sum_univ_add]

theorem stackVec_dot (v₁ w₁ : Vec m₁) (v₂ w₂ : Vec m₂) :
    stackVec v₁ v₂ ⬝ᵥ stackVec w₁ w₂ = v₁ ⬝ᵥ w₁ + v₂ ⬝ᵥ w₂ := by
  simp [dotProduct, stackVec, Fin.sum_univ_add]

theorem stackCov_posDef {R₁ : Mat m₁ m₁} {R₂ : Mat m₂ m₂} (h₁ : R₁.PosDef) (h₂ : R₂.PosDef) :
    (stackCov R₁ R₂).PosDef := by
  refine PosDef.of_dotProduct_mulVec_pos ?_ fun x hx => ?_
  · ext i j
    have s₁ : ∀ a b, R₁ a b = R₁ b a := fun a b => by
      have := h₁.isHermitian.apply b a
      simpa using this
    have s₂ : ∀ a b, R₂ a b = R₂ b a := fun a b => by
      have := h₂.isHermitian.apply b a
      simpa using this
    refine Fin.addCases (fun i => ?_) (fun i => ?_) i <;>
      refine Fin.addCases (fun j => ?_) (fun j => ?_) j <;>
      simp only [stackCov, conjTranspose_apply, Matrix.of_apply, Fin.append_left, Fin.append_right,
        star_trivial]
    · exact s₁ _ _
    · exact s₂ _ _
  · have f₁ := form_nonneg h₁.posSemidef (fun i => x (Fin.castAdd m₂ i))
    have f₂ := form_nonneg h₂.posSemidef (fun i => x (Fin.natAdd m₁ i))
    have e : star x ⬝ᵥ (stackCov R₁ R₂ *ᵥ x)
        = (fun i => x (Fin.castAdd m₂ i)) ⬝ᵥ (R₁ *ᵥ fun i => x (Fin.castAdd m₂ i))
          + (fun i => x (Fin.natAdd m₁ i)) ⬝ᵥ (R₂ *ᵥ fun i => x (Fin.natAdd m₁ i)) := by
      rw [star_trivial]
      conv_lhs => rw [stackVec_split x]
      rw [stackCov_mulVec, stackVec_dot]
    rw [e]
    by_cases hz : (fun i => x (Fin.castAdd m₂ i)) = 0
    · have hz₂ : (fun i => x (Fin.natAdd m₁ i)) ≠ 0 := by
        intro h
        apply hx
        rw [stackVec_split x, hz, h]
        ext i
        refine Fin.addCases (fun i => ?_) (fun i => ?_) i <;> simp [stackVec]
      have := h₂.dotProduct_mulVec_pos hz₂
      rw [star_trivial] at this
      linarith
    · have := h₁.dotProduct_mulVec_pos hz
      rw [star_trivial] at this
      linarith

/-- A gain is determined by the normal equations. -/
theorem gain_unique {P : Mat n n} {R : Mat m m} (hP : P.PosSemidef) (hR : R.PosDef) {C : Mat m n}
    {K : Mat n m} (h : K * (C * P * Cᵀ + R) = P * Cᵀ) : K = gain P R C := by
  have hS : (C * P * Cᵀ + R).PosDef := PosDef.posSemidef_add (posSemidef_conj' hP C) hR
  have h2 := gain_mul C hP hR.posSemidef
  have hu : IsUnit (C * P * Cᵀ + R) := hS.isUnit
  have hd : IsUnit (C * P * Cᵀ + R).det := (Matrix.isUnit_iff_isUnit_det _).mp hu
  rw [← Matrix.mul_nonsing_inv_cancel_right _ K hd, h, ← h2, Matrix.mul_nonsing_inv_cancel_right _ _ hd]

/-- The two gains of stacked sensors. -/
theorem stack_gain {P : Mat n n} {R₁ : Mat m₁ m₁} {R₂ : Mat m₂ m₂} (hP : P.PosSemidef)
    (h₁ : R₁.PosDef) (h₂ : R₂.PosDef) {C₁ : Mat m₁ n} {C₂ : Mat m₂ n} {K₁ : Mat n m₁} {K₂ : Mat n m₂}
    (e₁ : (K₁ * C₁ + K₂ * C₂) * P * C₁ᵀ + K₁ * R₁ = P * C₁ᵀ)
    (e₂ : (K₁ * C₁ + K₂ * C₂) * P * C₂ᵀ + K₂ * R₂ = P * C₂ᵀ) :
    gain P (stackCov R₁ R₂) (stackRows C₁ C₂) = (stackRows K₁ᵀ K₂ᵀ)ᵀ := by
  symm
  apply gain_unique hP (stackCov_posDef h₁ h₂)
  have s₁ : ((stackRows K₁ᵀ K₂ᵀ)ᵀ).submatrix id (Fin.castAdd m₂) = K₁ := by
    ext i j; simp [stackRows]
  have s₂ : ((stackRows K₁ᵀ K₂ᵀ)ᵀ).submatrix id (Fin.natAdd m₁) = K₂ := by
    ext i j; simp [stackRows]
  rw [stack_innov, s₁, s₂, e₁, e₂]
  ext i j
  refine Fin.addCases (fun j => ?_) (fun j => ?_) j <;> simp [stackRows, Matrix.mul_apply]

/-- Gains of a correction by the first sensor followed by one by the second. -/
theorem seq_gain {P : Mat n n} {R₁ : Mat m₁ m₁} {R₂ : Mat m₂ m₂} (hP : P.PosSemidef)
    (h₁ : R₁.PosSemidef) (h₂ : R₂.PosSemidef) (C₁ : Mat m₁ n) (C₂ : Mat m₂ n) :
    let P₁ := P - gain P R₁ C₁ * C₁ * P
    let K₂ := gain P₁ R₂ C₂
    let K₁ := gain P R₁ C₁ - K₂ * C₂ * gain P R₁ C₁
    (K₁ * C₁ + K₂ * C₂) * P * C₁ᵀ + K₁ * R₁ = P * C₁ᵀ ∧
    (K₁ * C₁ + K₂ * C₂) * P * C₂ᵀ + K₂ * R₂ = P * C₂ᵀ := by
  intro P₁ K₂ K₁
  have hP₁ : P₁.PosSemidef := updated_posSemidef C₁ hP h₁
  have g₁ := gain_mul C₁ hP h₁
  have g₂ : K₂ * (C₂ * P₁ * C₂ᵀ + R₂) = P₁ * C₂ᵀ := gain_mul C₂ hP₁ h₂
  set G := gain P R₁ C₁ with hG
  have eP : P₁ = P - G * C₁ * P := rfl
  have eK : K₁ = G - K₂ * C₂ * G := rfl
  constructor
  · have : (K₁ * C₁ + K₂ * C₂) * P * C₁ᵀ + K₁ * R₁
        = G * (C₁ * P * C₁ᵀ + R₁) - K₂ * (C₂ * (G * (C₁ * P * C₁ᵀ + R₁))) + K₂ * (C₂ * (P * C₁ᵀ)) := by
      rw [eK]
      simp only [Matrix.mul_add, Matrix.add_mul, Matrix.mul_sub, Matrix.sub_mul, Matrix.mul_assoc]
      abel
    rw [this, g₁]
    abel
  · have : (K₁ * C₁ + K₂ * C₂) * P * C₂ᵀ + K₂ * R₂
        = G * C₁ * P * C₂ᵀ + K₂ * (C₂ * P₁ * C₂ᵀ + R₂) := by
      rw [eK, eP]
      simp only [Matrix.mul_add, Matrix.add_mul, Matrix.mul_sub, Matrix.sub_mul, Matrix.mul_assoc]
      abel
    rw [this, g₂, eP]
    simp only [Matrix.sub_mul, Matrix.mul_assoc]
    abel

/-- Correction by two sensors at once and one after the other. -/
theorem correct_stack {P : Mat n n} {R₁ : Mat m₁ m₁} {R₂ : Mat m₂ m₂} (hP : P.PosSemidef)
    (h₁ : R₁.PosDef) (h₂ : R₂.PosDef) (C₁ : Mat m₁ n) (C₂ : Mat m₂ n) (d₁ : Vec m₁) (d₂ : Vec m₂)
    {o₁ : Obs m₁} {o₂ : Obs m₂} (q₁ : ¬ o₁.missing) (q₂ : ¬ o₂.missing) (mean : Vec n) :
    (filterCorrect (stackRows C₁ C₂) (stackCov R₁ R₂) (stackVec d₁ d₂) mean P (stackObs o₁ o₂)).2
      = (filterCorrect C₂ R₂ d₂ (filterCorrect C₁ R₁ d₁ mean P o₁).2.1
          (filterCorrect C₁ R₁ d₁ mean P o₁).2.2 o₂).2 := by
  obtain ⟨e₁, e₂⟩ := seq_gain hP h₁.posSemidef h₂.posSemidef C₁ C₂
  simp only [filterCorrect_gain (stack_missing q₁ q₂), filterCorrect_gain q₁, filterCorrect_gain q₂]
  rw [stack_gain hP h₁ h₂ e₁ e₂]
  set G := gain P R₁ C₁ with hG
  set P₁ := P - G * C₁ * P with hP₁
  set K₂ := gain P₁ R₂ C₂ with hK₂
  have s₁ : ((stackRows (G - K₂ * C₂ * G)ᵀ K₂ᵀ)ᵀ).submatrix id (Fin.castAdd m₂)
      = G - K₂ * C₂ * G := by
    ext i j; simp [stackRows]
  have s₂ : ((stackRows (G - K₂ * C₂ * G)ᵀ K₂ᵀ)ᵀ).submatrix id (Fin.natAdd m₁) = K₂ := by
    ext i j; simp [stackRows]
  refine Prod.ext ?_ ?_
  · simp only [stackObs, stack_mulVec, stackVec_add, stackVec_sub, mulVec_stack, s₁, s₂]
    simp only [sub_mulVec, mulVec_add, mulVec_sub, ← mulVec_mulVec]
    abel
  · simp only [mul_stack, s₁, s₂]
    rw [hP₁]
    simp only [Matrix.mul_add, Matrix.add_mul, Matrix.mul_sub, Matrix.sub_mul, Matrix.mul_assoc]
    abel

theorem seq_correct {P : Mat n n} {R₁ : Mat m₁ m₁} {R₂ : Mat m₂ m₂} (C₁ : Mat m₁ n) (C₂ : Mat m₂ n)
    (d₁ : Vec m₁) (d₂ : Vec m₂) {o₁ : Obs m₁} {o₂ : Obs m₂} (q₁ : ¬ o₁.missing) (q₂ : ¬ o₂.missing)
    (mean : Vec n) {K₁ : Mat n m₁} {K₂ : Mat n m₂}
    (hK₂ : gain (P - gain P R₁ C₁ * C₁ * P) R₂ C₂ = K₂)
    (hK₁ : gain P R₁ C₁ - K₂ * C₂ * gain P R₁ C₁ = K₁) :
    (filterCorrect C₂ R₂ d₂ (filterCorrect C₁ R₁ d₁ mean P o₁).2.1
          (filterCorrect C₁ R₁ d₁ mean P o₁).2.2 o₂).2
      = (mean + (K₁ *ᵥ (o₁.val - (C₁ *ᵥ mean + d₁)) + K₂ *ᵥ (o₂.val - (C₂ *ᵥ mean + d₂))),
          P - (K₁ * C₁ + K₂ * C₂) * P) := by
  simp only [filterCorrect_gain q₁, filterCorrect_gain q₂, hK₂]
  rw [← hK₁]
  refine Prod.ext ?_ ?_
  · simp only [sub_mulVec, mulVec_add, mulVec_sub, ← mulVec_mulVec]
    abel
  · simp only [Matrix.mul_add, Matrix.add_mul, Matrix.mul_sub, Matrix.sub_mul, Matrix.mul_assoc]
    abel

/-- Correction by two sensors in either order. -/
theorem correct_order {P : Mat n n} {R₁ : Mat m₁ m₁} {R₂ : Mat m₂ m₂} (hP : P.PosSemidef)
    (h₁ : R₁.PosDef) (h₂ : R₂.PosDef) (C₁ : Mat m₁ n) (C₂ : Mat m₂ n) (d₁ : Vec m₁) (d₂ : Vec m₂)
    {o₁ : Obs m₁} {o₂ : Obs m₂} (q₁ : ¬ o₁.missing) (q₂ : ¬ o₂.missing) (mean : Vec n) :
    (filterCorrect C₂ R₂ d₂ (filterCorrect C₁ R₁ d₁ mean P o₁).2.1
          (filterCorrect C₁ R₁ d₁ mean P o₁).2.2 o₂).2
      = (filterCorrect C₁ R₁ d₁ (filterCorrect C₂ R₂ d₂ mean P o₂).2.1
          (filterCorrect C₂ R₂ d₂ mean P o₂).2.2 o₁).2 := by
  obtain ⟨e₁, e₂⟩ := seq_gain hP h₁.posSemidef h₂.posSemidef C₁ C₂
  obtain ⟨f₂, f₁⟩ := seq_gain hP h₂.posSemidef h₁.posSemidef C₂ C₁
  rw [seq_correct C₁ C₂ d₁ d₂ q₁ q₂ mean rfl rfl, seq_correct C₂ C₁ d₂ d₁ q₂ q₁ mean rfl rfl]
  rw [add_comm (_ * C₂)] at f₁ f₂
  have g := (stack_gain hP h₁ h₂ e₁ e₂).symm.trans (stack_gain hP h₁ h₂ f₁ f₂)
  have k₁ := congrArg (fun M => M.submatrix id (Fin.castAdd m₂)) g
  have k₂ := congrArg (fun M => M.submatrix id (Fin.natAdd m₁)) g
  have s₁ : ∀ (K₁ : Mat n m₁) (K₂ : Mat n m₂),
      ((stackRows K₁ᵀ K₂ᵀ)ᵀ).submatrix id (Fin.castAdd m₂) = K₁ := by
    intro K₁ K₂; ext i j; simp [stackRows]
  have s₂ : ∀ (K₁ : Mat n m₁) (K₂ : Mat n m₂),
      ((stackRows K₁ᵀ K₂ᵀ)ᵀ).submatrix id (Fin.natAdd m₁) = K₂ := by
    intro K₁ K₂; ext i j; simp [stackRows]
  simp only [s₁] at k₁
  simp only [s₂] at k₂
  rw [k₁, k₂]
  congr 2
  · rw [add_comm]
  · rw [add_comm (_ * C₁)]

end Verif
