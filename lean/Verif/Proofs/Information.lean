import Verif.Spec.Information
import Verif.Proofs.Beside
import Verif.Proofs.Likelihood
import Mathlib.LinearAlgebra.Matrix.SchurComplement

/-!
# Lemmas for C114: only the information of a row matters
-/

open Matrix

namespace Verif

variable {n m m' : ℕ}

section correct
variable {P : Mat n n} {R : Mat m m} (C : Mat m n)

theorem info_gain (hP : P.PosSemidef) (hR : R.PosDef) :
    (1 + P * (Cᵀ * R⁻¹ * C)) * Verif.gain P R C = P * (Cᵀ * R⁻¹) := by
  have hS : (C * P * Cᵀ + R).PosDef := posDef_conj_add hP hR C
  have uS : IsUnit (C * P * Cᵀ + R).det := hS.det_pos.ne'.isUnit
  have uR : IsUnit R.det := hR.det_pos.ne'.isUnit
  rw [Verif.gain, pinv_eq_inv uS]
  have e : (1 + P * (Cᵀ * R⁻¹ * C)) * (P * Cᵀ) = P * (Cᵀ * R⁻¹) * (C * P * Cᵀ + R) := by
    have : P * (Cᵀ * R⁻¹) * R = P * Cᵀ := by
      rw [Matrix.mul_assoc, Matrix.mul_assoc, nonsing_inv_mul _ uR, Matrix.mul_one]
    rw [Matrix.mul_add, this, Matrix.add_mul, Matrix.one_mul, add_comm]
    simp only [Matrix.mul_assoc]
  rw [← Matrix.mul_assoc, e, Matrix.mul_assoc, mul_nonsing_inv _ uS, Matrix.mul_one]

theorem info_cov (hP : P.PosSemidef) (hR : R.PosDef) :
    (1 + P * (Cᵀ * R⁻¹ * C)) * (P - Verif.gain P R C * C * P) = P := by
  have e : (1 + P * (Cᵀ * R⁻¹ * C)) * (Verif.gain P R C * C * P) = P * (Cᵀ * R⁻¹) * (C * P) := by
    rw [← info_gain C hP hR]
    simp only [Matrix.mul_assoc]
  rw [Matrix.mul_sub, e, Matrix.add_mul, Matrix.one_mul]
  simp only [Matrix.mul_assoc]
  abel

theorem info_mean (hP : P.PosSemidef) (hR : R.PosDef) (mu : Vec n) (z d : Vec m) :
    (1 + P * (Cᵀ * R⁻¹ * C)) *ᵥ (mu + Verif.gain P R C *ᵥ (z - (C *ᵥ mu + d)))
      = mu + P *ᵥ ((Cᵀ * R⁻¹) *ᵥ (z - d)) := by
  rw [mulVec_add, mulVec_mulVec, info_gain C hP hR, add_mulVec, one_mulVec,
    show z - (C *ᵥ mu + d) = z - d - C *ᵥ mu by abel, mulVec_sub, mulVec_mulVec, mulVec_mulVec]
  simp only [Matrix.mul_assoc]
  abel

theorem info_unit (hP : P.PosSemidef) (hR : R.PosDef) :
    IsUnit (1 + P * (Cᵀ * R⁻¹ * C)).det := by
  have hS : (C * P * Cᵀ + R).PosDef := posDef_conj_add hP hR C
  have uR : IsUnit R.det := hR.det_pos.ne'.isUnit
  have e : (1 + P * (Cᵀ * R⁻¹ * C)).det = (1 + R⁻¹ * (C * P * Cᵀ)).det := by
    rw [show P * (Cᵀ * R⁻¹ * C) = (P * Cᵀ) * (R⁻¹ * C) by simp only [Matrix.mul_assoc],
      det_one_add_mul_comm]
    simp only [Matrix.mul_assoc]
  have e2 : R * (1 + R⁻¹ * (C * P * Cᵀ)) = C * P * Cᵀ + R := by
    rw [Matrix.mul_add, Matrix.mul_one, ← Matrix.mul_assoc, mul_nonsing_inv _ uR, Matrix.one_mul,
      add_comm]
  rw [e]
  have := congrArg Matrix.det e2
  rw [det_mul] at this
  have h0 := hS.det_pos.ne'
  rw [← this] at h0
  exact (right_ne_zero_of_mul h0).isUnit

end correct

theorem eq_of_unit_mul {k l : ℕ} {U : Mat k k} (hU : IsUnit U.det) {X Y : Mat k l}
    (h : U * X = U * Y) : X = Y := by
  rw [← nonsing_inv_mul_cancel_left _ X hU, h, nonsing_inv_mul_cancel_left _ Y hU]

theorem eq_of_unit_mulVec {k : ℕ} {U : Mat k k} (hU : IsUnit U.det) {x y : Vec k}
    (h : U *ᵥ x = U *ᵥ y) : x = y := by
  have := congrArg (fun v => U⁻¹ *ᵥ v) h
  simpa only [mulVec_mulVec, nonsing_inv_mul _ hU, one_mulVec] using this

/-- The corrected moments through the information of the row. -/
theorem PFun.kf_info (P : PFun n m) (z : ℕ → Obs m) {t : ℕ}
    (hP : (P.kf z t).predCov.PosSemidef) (hR : (P.R t).PosDef) :
    IsUnit (1 + (P.kf z t).predCov * rowPrecision (P.C t) (P.R t) (z t)).det ∧
    (1 + (P.kf z t).predCov * rowPrecision (P.C t) (P.R t) (z t)) * (P.kf z t).filtCov
      = (P.kf z t).predCov ∧
    (1 + (P.kf z t).predCov * rowPrecision (P.C t) (P.R t) (z t)) *ᵥ (P.kf z t).filtMean
      = (P.kf z t).predMean
        + (P.kf z t).predCov *ᵥ rowEvidence (P.C t) (P.R t) (P.d t) (z t) := by
  by_cases hm : (z t).missing
  · have hm' : ∃ i, (z t).mask i = true := hm
    rw [(P.kf_missing z hm).2.1, (P.kf_missing z hm).2.2]
    simp only [rowPrecision, rowEvidence, if_pos hm', Matrix.mul_zero, add_zero, det_one, isUnit_one,
      Matrix.one_mul, one_mulVec, mulVec_zero, and_self]
  · have hm' : ¬ ∃ i, (z t).mask i = true := hm
    obtain ⟨-, f, g⟩ := P.kf_observed z hm
    rw [f, g]
    simp only [rowPrecision, rowEvidence, if_neg hm']
    exact ⟨info_unit _ hP hR, info_cov _ hP hR, info_mean _ hP hR _ _ _⟩

/-- What the prior of the state adds to the log density of a row, through the information of the
row. -/
noncomputable def infoTerm (mu : Vec n) (P W : Mat n n) (e : Vec n) : ℝ :=
  -(1 / 2) * (Real.log (1 + P * W).det + (mu ⬝ᵥ (W *ᵥ mu) - 2 * (mu ⬝ᵥ e)
    - (e - W *ᵥ mu) ⬝ᵥ ((1 + P * W)⁻¹ *ᵥ (P *ᵥ (e - W *ᵥ mu)))))

theorem infoTerm_zero (mu : Vec n) (P : Mat n n) : infoTerm mu P 0 0 = 0 := by
  simp [infoTerm]

theorem logN_info {P : Mat n n} {R : Mat m m} (C : Mat m n) (hP : P.PosSemidef) (hR : R.PosDef)
    (mu : Vec n) (z d : Vec m) :
    logN z (C *ᵥ mu + d) (C * P * Cᵀ + R)
      = logN z d R + infoTerm mu P (Cᵀ * R⁻¹ * C) ((Cᵀ * R⁻¹) *ᵥ (z - d)) := by
  have hS : (C * P * Cᵀ + R).PosDef := posDef_conj_add hP hR C
  have uS : IsUnit (C * P * Cᵀ + R).det := hS.det_pos.ne'.isUnit
  have uR : IsUnit R.det := hR.det_pos.ne'.isUnit
  have uU := info_unit C hP hR
  have sR : (R⁻¹)ᵀ = R⁻¹ := by
    have := hR.inv.isHermitian.eq
    rwa [conjTranspose_eq_transpose_of_trivial] at this
  have hdet : (C * P * Cᵀ + R).det = R.det * (1 + P * (Cᵀ * R⁻¹ * C)).det := by
    have e : (1 + P * (Cᵀ * R⁻¹ * C)).det = (1 + R⁻¹ * (C * P * Cᵀ)).det := by
      rw [show P * (Cᵀ * R⁻¹ * C) = (P * Cᵀ) * (R⁻¹ * C) by simp only [Matrix.mul_assoc],
        det_one_add_mul_comm]
      simp only [Matrix.mul_assoc]
    rw [e, ← det_mul, Matrix.mul_add, Matrix.mul_one, ← Matrix.mul_assoc, mul_nonsing_inv _ uR,
      Matrix.one_mul, add_comm]
  have hK : Verif.gain P R C = (1 + P * (Cᵀ * R⁻¹ * C))⁻¹ * (P * (Cᵀ * R⁻¹)) := by
    rw [← info_gain C hP hR, nonsing_inv_mul_cancel_left _ _ uU]
  have hinv : (C * P * Cᵀ + R)⁻¹ = R⁻¹ - R⁻¹ * C * Verif.gain P R C := by
    have e1 : Verif.gain P R C * (C * P * Cᵀ + R) = P * Cᵀ := by
      rw [Verif.gain, pinv_eq_inv uS, Matrix.mul_assoc, nonsing_inv_mul _ uS, Matrix.mul_one]
    refine inv_eq_left_inv ?_
    rw [Matrix.sub_mul, Matrix.mul_assoc (R⁻¹ * C), e1, Matrix.mul_add, nonsing_inv_mul _ uR]
    simp only [Matrix.mul_assoc]
    abel
  have hquad : (z - (C *ᵥ mu + d)) ⬝ᵥ ((C * P * Cᵀ + R)⁻¹ *ᵥ (z - (C *ᵥ mu + d)))
      = (z - d) ⬝ᵥ (R⁻¹ *ᵥ (z - d)) + (mu ⬝ᵥ ((Cᵀ * R⁻¹ * C) *ᵥ mu)
        - 2 * (mu ⬝ᵥ ((Cᵀ * R⁻¹) *ᵥ (z - d)))
        - ((Cᵀ * R⁻¹) *ᵥ (z - d) - (Cᵀ * R⁻¹ * C) *ᵥ mu) ⬝ᵥ ((1 + P * (Cᵀ * R⁻¹ * C))⁻¹ *ᵥ
          (P *ᵥ ((Cᵀ * R⁻¹) *ᵥ (z - d) - (Cᵀ * R⁻¹ * C) *ᵥ mu)))) := by
    rw [show z - (C *ᵥ mu + d) = z - d - C *ᵥ mu by abel]
    generalize z - d = y
    have e1 : (Cᵀ * R⁻¹) *ᵥ y - (Cᵀ * R⁻¹ * C) *ᵥ mu = (Cᵀ * R⁻¹) *ᵥ (y - C *ᵥ mu) := by
      rw [mulVec_sub, mulVec_mulVec]
    have e2 : (1 + P * (Cᵀ * R⁻¹ * C))⁻¹ *ᵥ (P *ᵥ ((Cᵀ * R⁻¹) *ᵥ (y - C *ᵥ mu)))
        = Verif.gain P R C *ᵥ (y - C *ᵥ mu) := by
      rw [hK, mulVec_mulVec, mulVec_mulVec, Matrix.mul_assoc]
    have e3 : ∀ (x : Vec m) (v : Vec n), ((Cᵀ * R⁻¹) *ᵥ x) ⬝ᵥ v = x ⬝ᵥ ((R⁻¹ * C) *ᵥ v) := by
      intro x v
      rw [dotProduct_mulVec, ← mulVec_transpose, transpose_mul, sR]
    have e4 : (C *ᵥ mu) ⬝ᵥ (R⁻¹ *ᵥ y) = mu ⬝ᵥ ((Cᵀ * R⁻¹) *ᵥ y) := by
      rw [← mulVec_mulVec, dotProduct_mulVec mu, ← mulVec_transpose, transpose_transpose]
    have e5 : y ⬝ᵥ (R⁻¹ *ᵥ (C *ᵥ mu)) = mu ⬝ᵥ ((Cᵀ * R⁻¹) *ᵥ y) := by
      rw [mulVec_mulVec, ← e3, dotProduct_comm]
    have e6 : (C *ᵥ mu) ⬝ᵥ (R⁻¹ *ᵥ (C *ᵥ mu)) = mu ⬝ᵥ ((Cᵀ * R⁻¹ * C) *ᵥ mu) := by
      rw [← mulVec_mulVec mu (Cᵀ * R⁻¹), ← mulVec_mulVec _ Cᵀ, dotProduct_mulVec mu, ← mulVec_transpose,
        transpose_transpose]
    rw [e1, e2, e3, hinv, sub_mulVec, dotProduct_sub, ← mulVec_mulVec _ (R⁻¹ * C)]
    have e7 : (y - C *ᵥ mu) ⬝ᵥ (R⁻¹ *ᵥ (y - C *ᵥ mu)) = y ⬝ᵥ (R⁻¹ *ᵥ y)
        + (mu ⬝ᵥ ((Cᵀ * R⁻¹ * C) *ᵥ mu) - 2 * (mu ⬝ᵥ ((Cᵀ * R⁻¹) *ᵥ y))) := by
      rw [mulVec_sub, sub_dotProduct, dotProduct_sub, dotProduct_sub, e4, e5, e6]
      ring
    rw [e7]
    ring
  have hU0 : (1 + P * (Cᵀ * R⁻¹ * C)).det ≠ 0 := uU.ne_zero
  rw [logN, logN, infoTerm, hdet, Real.log_mul uR.ne_zero hU0, hquad]
  ring

section stacked
variable {k₁ k₂ l : ℕ}

theorem blocks_mul_stack (M₁ : Mat k₁ k₁) (M₂ : Mat k₂ k₂) (C₁ : Mat k₁ n) (C₂ : Mat k₂ n) :
    blocks M₁ M₂ * stackRows C₁ C₂ = stackRows (M₁ * C₁) (M₂ * C₂) := by
  ext i j
  refine Fin.addCases (fun i => ?_) (fun i => ?_) i <;>
    simp [Matrix.mul_apply, blocks, stackRows, Fin.sum_univ_add]

theorem stack_transpose_mul (X₁ : Mat k₁ n) (X₂ : Mat k₂ n) (Y₁ : Mat k₁ l) (Y₂ : Mat k₂ l) :
    (stackRows X₁ X₂)ᵀ * stackRows Y₁ Y₂ = X₁ᵀ * Y₁ + X₂ᵀ * Y₂ := by
  ext i j
  simp only [Matrix.mul_apply, Matrix.add_apply, Matrix.transpose_apply, stackRows, Fin.sum_univ_add,
    Matrix.of_apply, Fin.append_left, Fin.append_right]

theorem stack_transpose_mulVec (X₁ : Mat k₁ n) (X₂ : Mat k₂ n) (y₁ : Vec k₁) (y₂ : Vec k₂) :
    (stackRows X₁ X₂)ᵀ *ᵥ stackVec y₁ y₂ = X₁ᵀ *ᵥ y₁ + X₂ᵀ *ᵥ y₂ := by
  ext i
  simp only [mulVec, dotProduct, Pi.add_apply, Matrix.transpose_apply, stackRows, stackVec,
    Fin.sum_univ_add, Matrix.of_apply, Fin.append_left, Fin.append_right]

end stacked

/-- Same process, rows of equal information, as functions of time. -/
structure PFun.SameInfo (P : PFun n m) (P' : PFun n m') (z : ℕ → Obs m) (z' : ℕ → Obs m') (T : ℕ) :
    Prop where
  A : P'.A = P.A
  b : P'.b = P.b
  Q : P'.Q = P.Q
  mu0 : P'.mu0 = P.mu0
  S0 : P'.S0 = P.S0
  R : ∀ t, t < T → (P.R t).PosDef
  R' : ∀ t, t < T → (P'.R t).PosDef
  prec : ∀ t, t < T → rowPrecision (P.C t) (P.R t) (z t) = rowPrecision (P'.C t) (P'.R t) (z' t)
  evid : ∀ t, t < T → rowEvidence (P.C t) (P.R t) (P.d t) (z t)
    = rowEvidence (P'.C t) (P'.R t) (P'.d t) (z' t)

section runs
variable {P : PFun n m} {P' : PFun n m'} {z : ℕ → Obs m} {z' : ℕ → Obs m'} {T : ℕ}

theorem PFun.SameInfo.filt_of_pred (h : P.SameInfo P' z z' T) {t : ℕ} (ht : t < T)
    (hp : (P.kf z t).predCov.PosSemidef)
    (e1 : (P'.kf z' t).predMean = (P.kf z t).predMean)
    (e2 : (P'.kf z' t).predCov = (P.kf z t).predCov) :
    (P'.kf z' t).filtMean = (P.kf z t).filtMean ∧ (P'.kf z' t).filtCov = (P.kf z t).filtCov := by
  obtain ⟨u, a, b⟩ := P.kf_info z hp (h.R t ht)
  obtain ⟨-, a', b'⟩ := P'.kf_info z' (by rw [e2]; exact hp) (h.R' t ht)
  rw [← h.prec t ht, e2] at a' b'
  rw [e1, ← h.evid t ht] at b'
  exact ⟨eq_of_unit_mulVec u (b'.trans b.symm), eq_of_unit_mul u (a'.trans a.symm)⟩

theorem PFun.SameInfo.filt (h : P.SameInfo P' z z' T) (hP : P.PSD T) {t : ℕ} (ht : t < T) :
    (P'.kf z' t).filtMean = (P.kf z t).filtMean ∧ (P'.kf z' t).filtCov = (P.kf z t).filtCov := by
  induction t with
  | zero => exact h.filt_of_pred ht (hP.pred ht z) h.mu0 h.S0
  | succ t ih =>
    obtain ⟨i1, i2⟩ := ih (by omega)
    refine h.filt_of_pred ht (hP.pred ht z) ?_ ?_
    · rw [(P.kf_pred_succ z t).1, (P'.kf_pred_succ z' t).1, i1, h.A, h.b]
    · rw [(P.kf_pred_succ z t).2, (P'.kf_pred_succ z' t).2, i2, h.A, h.Q]

theorem PFun.SameInfo.smooth (h : P.SameInfo P' z z' T) (hP : P.PSD T) (j : ℕ) :
    ∀ {t : ℕ}, t < T → t + j = T - 1 →
    (P'.ks z' (T - 1) t).mean = (P.ks z (T - 1) t).mean ∧
      (P'.ks z' (T - 1) t).cov = (P.ks z (T - 1) t).cov := by
  induction j with
  | zero =>
    intro t ht hj
    obtain rfl : t = T - 1 := by omega
    rw [P.ks_last, P'.ks_last]
    exact h.filt hP ht
  | succ j ih =>
    intro t ht hj
    obtain ⟨i1, i2⟩ := ih (t := t + 1) (by omega) (by omega)
    obtain ⟨f1, f2⟩ := h.filt hP ht
    rw [P.ks_lt' z (by omega), P'.ks_lt' z' (by omega)]
    simp only [i1, i2, f1, f2, h.A, h.b, h.Q, and_self]

/-- The term of a row in the log likelihood, apart from the log density of its noise. -/
theorem PFun.lterm_info (P : PFun n m) (z : ℕ → Obs m) {t : ℕ}
    (hP : (P.kf z t).predCov.PosSemidef) (hR : (P.R t).PosDef) :
    P.lterm (fun t x c => logN x c (P.C t * (P.kf z t).predCov * (P.C t)ᵀ + P.R t)) z t
      = noiseLogDensity (P.R t) (P.d t) (z t)
        + infoTerm (P.kf z t).predMean (P.kf z t).predCov (rowPrecision (P.C t) (P.R t) (z t))
          (rowEvidence (P.C t) (P.R t) (P.d t) (z t)) := by
  rw [PFun.lterm]
  by_cases hm : (z t).missing
  · have hm' : ∃ i, (z t).mask i = true := hm
    rw [if_pos hm, noiseLogDensity, if_pos hm', rowPrecision, if_pos hm', rowEvidence, if_pos hm',
      infoTerm_zero, add_zero]
  · have hm' : ¬ ∃ i, (z t).mask i = true := hm
    rw [if_neg hm, noiseLogDensity, if_neg hm', rowPrecision, if_neg hm', rowEvidence, if_neg hm']
    exact logN_info _ hP hR _ _ _

theorem PFun.SameInfo.pred (h : P.SameInfo P' z z' T) (hP : P.PSD T) {t : ℕ} (ht : t < T) :
    (P'.kf z' t).predMean = (P.kf z t).predMean ∧ (P'.kf z' t).predCov = (P.kf z t).predCov := by
  cases t with
  | zero => exact ⟨h.mu0, h.S0⟩
  | succ t =>
    obtain ⟨i1, i2⟩ := h.filt hP (t := t) (by omega)
    refine ⟨?_, ?_⟩
    · rw [(P.kf_pred_succ z t).1, (P'.kf_pred_succ z' t).1, i1, h.A, h.b]
    · rw [(P.kf_pred_succ z t).2, (P'.kf_pred_succ z' t).2, i2, h.A, h.Q]

end runs

end Verif
