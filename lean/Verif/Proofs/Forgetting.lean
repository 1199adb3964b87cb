import Verif.Proofs.SecondOrder
import Verif.Proofs.Symmetry

/-!
# How the Riccati recursion forgets its initial value
-/

open Matrix
open scoped MatrixOrder

namespace Verif

variable {n m : ℕ}

/-! ### Order -/

theorem form_le {A B : Mat n n} (h : A ≤ B) (v : Vec n) : v ⬝ᵥ (A *ᵥ v) ≤ v ⬝ᵥ (B *ᵥ v) := by
  have := (posSemidef_iff_real.mp (Matrix.le_iff.mp h)).2 v
  rw [sub_mulVec, dotProduct_sub] at this
  linarith

theorem conj_le {k : ℕ} {A B : Mat n n} (h : A ≤ B) (M : Mat k n) : M * A * Mᵀ ≤ M * B * Mᵀ := by
  rw [Matrix.le_iff, ← Matrix.sub_mul, ← Matrix.mul_sub]
  exact posSemidef_conj' (Matrix.le_iff.mp h) M

theorem smul_le' {A B : Mat n n} (h : A ≤ B) {c : ℝ} (hc : 0 ≤ c) : c • A ≤ c • B := by
  rw [Matrix.le_iff, ← smul_sub]
  exact (Matrix.le_iff.mp h).smul hc

theorem smul_le_smul' {A : Mat n n} (hA : 0 ≤ A) {c d : ℝ} (h : c ≤ d) : c • A ≤ d • A := by
  rw [Matrix.le_iff, ← sub_smul]
  exact (Matrix.nonneg_iff_posSemidef.mp hA).smul (sub_nonneg.mpr h)

theorem conj_smul {k : ℕ} (c : ℝ) (A : Mat n n) (M : Mat k n) :
    M * (c • A) * Mᵀ = c • (M * A * Mᵀ) := by
  rw [Matrix.mul_smul, Matrix.smul_mul]

/-! ### The correction -/

/-- Covariance after the correction. -/
noncomputable def corr (R : Mat m m) (C : Mat m n) (P : Mat n n) : Mat n n :=
  P - gain P R C * C * P

theorem corr_le {P : Mat n n} {R : Mat m m} (hP : 0 ≤ P) (hR : 0 ≤ R) (C : Mat m n) (K : Mat n m) :
    corr R C P ≤ (1 - K * C) * P * (1 - K * C)ᵀ + K * R * Kᵀ := by
  have hP' := Matrix.nonneg_iff_posSemidef.mp hP
  have hR' := Matrix.nonneg_iff_posSemidef.mp hR
  rw [joseph C hP' hR' K, Matrix.le_iff, corr, add_sub_cancel_left]
  exact posSemidef_conj' (innov_posSemidef C hP' hR') _

theorem corr_eq {P : Mat n n} {R : Mat m m} (hP : 0 ≤ P) (hR : 0 ≤ R) (C : Mat m n) :
    corr R C P = (1 - gain P R C * C) * P * (1 - gain P R C * C)ᵀ
      + gain P R C * R * (gain P R C)ᵀ :=
  updated_eq C (Matrix.nonneg_iff_posSemidef.mp hP) (Matrix.nonneg_iff_posSemidef.mp hR)

theorem corr_nonneg {P : Mat n n} {R : Mat m m} (hP : 0 ≤ P) (hR : 0 ≤ R) (C : Mat m n) :
    0 ≤ corr R C P :=
  Matrix.nonneg_iff_posSemidef.mpr (updated_posSemidef C (Matrix.nonneg_iff_posSemidef.mp hP)
    (Matrix.nonneg_iff_posSemidef.mp hR))

theorem corr_scale {P P' : Mat n n} {R : Mat m m} (hP : 0 ≤ P) (hP' : 0 ≤ P') (hR : 0 ≤ R)
    (C : Mat m n) {c : ℝ} (hc : 1 ≤ c) (h : P ≤ c • P') : corr R C P ≤ c • corr R C P' := by
  refine (corr_le hP hR C (gain P' R C)).trans ?_
  rw [corr_eq hP' hR, smul_add, ← conj_smul]
  refine add_le_add (conj_le h _) ?_
  have hk : 0 ≤ gain P' R C * R * (gain P' R C)ᵀ :=
    Matrix.nonneg_iff_posSemidef.mpr (posSemidef_conj' (Matrix.nonneg_iff_posSemidef.mp hR) _)
  simpa using smul_le_smul' hk hc

/-- Error of any predictor of the form `A - K C`. -/
theorem joseph_pred {P : Mat n n} {R : Mat m m} (hP : 0 ≤ P) (hR : 0 ≤ R) (C : Mat m n)
    (A : Mat n n) (K : Mat n m) :
    A * corr R C P * Aᵀ ≤ (A - K * C) * P * (A - K * C)ᵀ + K * R * Kᵀ := by
  have hP' := Matrix.nonneg_iff_posSemidef.mp hP
  have hR' := Matrix.nonneg_iff_posSemidef.mp hR
  have h1 := gain_mul C hP' hR'
  have h2 := gain_mul_transpose C hP' hR'
  have hs := symm_of_posSemidef (innov_posSemidef C hP' hR')
  have h3 : (C * P * Cᵀ + R) * (gain P R C)ᵀ = C * P := by
    have := congrArg Matrix.transpose h1
    rwa [transpose_mul, hs, transpose_mul, transpose_transpose, symm_of_posSemidef hP'] at this
  rw [corr, Matrix.le_iff]
  set G := gain P R C
  have e : (A - K * C) * P * (A - K * C)ᵀ + K * R * Kᵀ - A * (P - G * C * P) * Aᵀ
      = (K - A * G) * (C * P * Cᵀ + R) * (K - A * G)ᵀ := by
    have e' : (K - A * G) * (C * P * Cᵀ + R) * (K - A * G)ᵀ
        = K * (C * P * Cᵀ + R) * Kᵀ - K * ((C * P * Cᵀ + R) * Gᵀ) * Aᵀ
          - A * (G * (C * P * Cᵀ + R)) * Kᵀ + A * (G * (C * P * Cᵀ + R) * Gᵀ) * Aᵀ := by
      rw [transpose_sub, transpose_mul]
      simp only [Matrix.mul_sub, Matrix.sub_mul, Matrix.mul_assoc]
      abel
    rw [e', h2, h3, h1]
    rw [transpose_sub, transpose_mul]
    simp only [Matrix.mul_sub, Matrix.sub_mul, Matrix.mul_add, Matrix.add_mul, Matrix.mul_assoc]
    abel
  rw [e]
  exact posSemidef_conj' (innov_posSemidef C hP' hR') _

/-! ### One step -/

/-- The influence of a ratio of the covariances shrinks where process noise enters. -/
theorem step_ratio {F F' A Q : Mat n n} {δ ρ : ℝ} (hδ : 0 ≤ δ) (h : F ≤ (1 + δ) • F')
    (hQ : (1 - ρ) • (A * F' * Aᵀ + Q) ≤ Q) :
    A * F * Aᵀ + Q ≤ (1 + δ * ρ) • (A * F' * Aᵀ + Q) := by
  have h1 := conj_le h A
  rw [conj_smul] at h1
  have h2 := smul_le' hQ hδ
  have e : (1 + δ * ρ) • (A * F' * Aᵀ + Q)
      = (1 + δ) • (A * F' * Aᵀ) + Q + (δ • Q - δ • (1 - ρ) • (A * F' * Aᵀ + Q)) := by
    module
  rw [e]
  calc A * F * Aᵀ + Q ≤ (1 + δ) • (A * F' * Aᵀ) + Q := by gcongr
    _ ≤ _ := le_add_of_nonneg_right (sub_nonneg.mpr h2)

/-- What is dominated by the covariance of a state is dominated by that of its image. -/
theorem dom_map {k : ℕ} {S : Mat n n} {d : Vec n} {c : ℝ}
    (h : ∀ v, (v ⬝ᵥ d) ^ 2 ≤ c * (v ⬝ᵥ (S *ᵥ v))) (M : Mat k n) (v : Vec k) :
    (v ⬝ᵥ (M *ᵥ d)) ^ 2 ≤ c * (v ⬝ᵥ ((M * S * Mᵀ) *ᵥ v)) := by
  have h1 := h (Mᵀ *ᵥ v)
  have e1 : v ⬝ᵥ (M *ᵥ d) = (Mᵀ *ᵥ v) ⬝ᵥ d := by
    rw [dotProduct_mulVec, ← mulVec_transpose]
  have e2 : v ⬝ᵥ ((M * S * Mᵀ) *ᵥ v) = (Mᵀ *ᵥ v) ⬝ᵥ (S *ᵥ (Mᵀ *ᵥ v)) := by
    rw [← mulVec_mulVec, ← mulVec_mulVec, dotProduct_mulVec, ← mulVec_transpose]
  rwa [e1, e2]

theorem dom_mono {S S' : Mat n n} {d : Vec n} {c : ℝ} (hc : 0 ≤ c)
    (h : ∀ v, (v ⬝ᵥ d) ^ 2 ≤ c * (v ⬝ᵥ (S *ᵥ v))) (hS : S ≤ S') (v : Vec n) :
    (v ⬝ᵥ d) ^ 2 ≤ c * (v ⬝ᵥ (S' *ᵥ v)) :=
  (h v).trans (mul_le_mul_of_nonneg_left (form_le hS v) hc)

theorem dom_corr {P : Mat n n} {R : Mat m m} (hP : 0 ≤ P) (hR : 0 ≤ R) (C : Mat m n) {d : Vec n}
    {c : ℝ} (hc : 0 ≤ c) (h : ∀ v, (v ⬝ᵥ d) ^ 2 ≤ c * (v ⬝ᵥ (P *ᵥ v))) (v : Vec n) :
    (v ⬝ᵥ ((1 - gain P R C * C) *ᵥ d)) ^ 2 ≤ c * (v ⬝ᵥ (corr R C P *ᵥ v)) := by
  refine dom_mono hc (dom_map h (1 - gain P R C * C)) ?_ v
  rw [corr_eq hP hR]
  exact le_add_of_nonneg_right
    (Matrix.nonneg_iff_posSemidef.mpr (posSemidef_conj' (Matrix.nonneg_iff_posSemidef.mp hR) _))

theorem dom_pred {F A Q : Mat n n} {ρ c : ℝ} {d : Vec n} (hc : 0 ≤ c)
    (h : ∀ v, (v ⬝ᵥ d) ^ 2 ≤ c * (v ⬝ᵥ (F *ᵥ v)))
    (hQ : (1 - ρ) • (A * F * Aᵀ + Q) ≤ Q) (v : Vec n) :
    (v ⬝ᵥ (A *ᵥ d)) ^ 2 ≤ (c * ρ) * (v ⬝ᵥ ((A * F * Aᵀ + Q) *ᵥ v)) := by
  have h1 := dom_map h A v
  have h2 := form_le hQ v
  rw [smul_mulVec, dotProduct_smul, smul_eq_mul] at h2
  simp only [add_mulVec, dotProduct_add] at h2 ⊢
  have : c * (v ⬝ᵥ ((A * F * Aᵀ) *ᵥ v))
      ≤ c * (ρ * (v ⬝ᵥ ((A * F * Aᵀ) *ᵥ v) + v ⬝ᵥ (Q *ᵥ v))) :=
    mul_le_mul_of_nonneg_left (by nlinarith) hc
  calc _ ≤ _ := h1
    _ ≤ _ := this
    _ = _ := by ring

/-! ### The filter, with time-varying parameters and masks -/

section kf
variable {P P' : PFun n m} {z : ℕ → Obs m} {T : ℕ}

theorem PFun.PSD.filt_nonneg (hP : P.PSD T) (z : ℕ → Obs m) {t : ℕ} (ht : t < T) :
    0 ≤ (P.kf z t).predCov ∧ 0 ≤ (P.kf z t).filtCov :=
  ⟨Matrix.nonneg_iff_posSemidef.mpr (hP.pred ht z),
    Matrix.nonneg_iff_posSemidef.mpr (hP.filt_of_pred ht z (hP.pred ht z))⟩

theorem PFun.kf_ratio (hP : P.PSD T) (hP' : P'.PSD T) (hA : P'.A = P.A) (hQ : P'.Q = P.Q)
    (hC : P'.C = P.C) (hR : P'.R = P.R) {δ ρ : ℝ} (hδ : 0 ≤ δ) (hρ : 0 ≤ ρ)
    (h0 : P.S0 ≤ (1 + δ) • P'.S0)
    (hQρ : ∀ t, t + 1 < T → (1 - ρ) • (P'.kf z (t + 1)).predCov ≤ P.Q t) {t : ℕ} (ht : t < T) :
    (P.kf z t).predCov ≤ (1 + δ * ρ ^ t) • (P'.kf z t).predCov ∧
    (P.kf z t).filtCov ≤ (1 + δ * ρ ^ t) • (P'.kf z t).filtCov := by
  have hnn : ∀ t, 0 ≤ δ * ρ ^ t := fun t => mul_nonneg hδ (pow_nonneg hρ t)
  have step : ∀ t, t < T → (P.kf z t).predCov ≤ (1 + δ * ρ ^ t) • (P'.kf z t).predCov →
      (P.kf z t).filtCov ≤ (1 + δ * ρ ^ t) • (P'.kf z t).filtCov := by
    intro t ht h
    by_cases hm : (z t).missing
    · rw [(P.kf_missing z hm).2.2, (P'.kf_missing z hm).2.2]; exact h
    · rw [(P.kf_observed z hm).2.2, (P'.kf_observed z hm).2.2, hC, hR]
      exact corr_scale (hP.filt_nonneg z ht).1 (hP'.filt_nonneg z ht).1
        (Matrix.nonneg_iff_posSemidef.mpr (hP.R t ht)) (P.C t) (by linarith [hnn t]) h
  induction t with
  | zero =>
    have : (P.kf z 0).predCov ≤ (1 + δ * ρ ^ 0) • (P'.kf z 0).predCov := by
      rw [pow_zero, mul_one]; exact h0
    exact ⟨this, step 0 ht this⟩
  | succ t ih =>
    have h1 := (ih (by omega)).2
    have h2 := hQρ t ht
    rw [(P'.kf_pred_succ z t).2, hA, hQ] at h2
    have : (P.kf z (t + 1)).predCov ≤ (1 + δ * ρ ^ (t + 1)) • (P'.kf z (t + 1)).predCov := by
      rw [(P.kf_pred_succ z t).2, (P'.kf_pred_succ z t).2, hA, hQ, pow_succ, ← mul_assoc]
      exact step_ratio (hnn t) h1 h2
    exact ⟨this, step _ ht this⟩

theorem PFun.kf_forget_mean (hP : P.PSD T) (a : Vec n) {c ρ : ℝ} (hc : 0 ≤ c) (hρ : 0 ≤ ρ)
    {s : ℕ} (h0 : ∀ v, (v ⬝ᵥ ((P.kf z s).predMean - ((P.withMu a).kf z s).predMean)) ^ 2
      ≤ c * (v ⬝ᵥ ((P.kf z s).predCov *ᵥ v)))
    (hQρ : ∀ t, s ≤ t → t + 1 < T → (1 - ρ) • (P.kf z (t + 1)).predCov ≤ P.Q t) {t : ℕ}
    (ht : s + t < T) :
    (∀ v, (v ⬝ᵥ ((P.kf z (s + t)).predMean - ((P.withMu a).kf z (s + t)).predMean)) ^ 2
      ≤ c * ρ ^ t * (v ⬝ᵥ ((P.kf z (s + t)).predCov *ᵥ v))) ∧
    ∀ v, (v ⬝ᵥ ((P.kf z (s + t)).filtMean - ((P.withMu a).kf z (s + t)).filtMean)) ^ 2
      ≤ c * ρ ^ t * (v ⬝ᵥ ((P.kf z (s + t)).filtCov *ᵥ v)) := by
  have step : ∀ (c : ℝ) (t : ℕ), 0 ≤ c → t < T →
      (∀ v, (v ⬝ᵥ ((P.kf z t).predMean - ((P.withMu a).kf z t).predMean)) ^ 2
        ≤ c * (v ⬝ᵥ ((P.kf z t).predCov *ᵥ v))) →
      ∀ v, (v ⬝ᵥ ((P.kf z t).filtMean - ((P.withMu a).kf z t).filtMean)) ^ 2
        ≤ c * (v ⬝ᵥ ((P.kf z t).filtCov *ᵥ v)) := by
    intro c t hc ht h
    by_cases hm : (z t).missing
    · rw [(P.kf_missing z hm).2.2, (P.kf_missing z hm).2.1, ((P.withMu a).kf_missing z hm).2.1]
      exact h
    · rw [(P.kf_observed z hm).2.2, (P.kf_observed z hm).2.1, ((P.withMu a).kf_observed z hm).2.1,
        (P.withMu_cov a z t).1]
      have h' := dom_corr (hP.filt_nonneg z ht).1 (Matrix.nonneg_iff_posSemidef.mpr (hP.R t ht))
        (P.C t) hc h
      intro v
      refine le_of_eq_of_le ?_ (h' v)
      congr 2
      show _ = (1 - gain (P.kf z t).predCov (P.R t) (P.C t) * P.C t) *ᵥ _
      simp only [PFun.withMu, sub_mulVec, one_mulVec, mulVec_sub, mulVec_add, mulVec_mulVec]
      abel
  have hnn : ∀ t, 0 ≤ c * ρ ^ t := fun t => mul_nonneg hc (pow_nonneg hρ t)
  induction t with
  | zero =>
    have : ∀ v, (v ⬝ᵥ ((P.kf z (s + 0)).predMean - ((P.withMu a).kf z (s + 0)).predMean)) ^ 2
        ≤ c * ρ ^ 0 * (v ⬝ᵥ ((P.kf z (s + 0)).predCov *ᵥ v)) := by
      rw [pow_zero, mul_one]; exact h0
    exact ⟨this, step _ _ (hnn 0) ht this⟩
  | succ t ih =>
    have h1 := (ih (by omega)).2
    have h2 := hQρ (s + t) (by omega) (by omega)
    rw [(P.kf_pred_succ z (s + t)).2] at h2
    have : ∀ v, (v ⬝ᵥ ((P.kf z (s + t + 1)).predMean
          - ((P.withMu a).kf z (s + t + 1)).predMean)) ^ 2
        ≤ c * ρ ^ (t + 1) * (v ⬝ᵥ ((P.kf z (s + t + 1)).predCov *ᵥ v)) := by
      intro v
      rw [(P.kf_pred_succ z (s + t)).2, (P.kf_pred_succ z (s + t)).1,
        ((P.withMu a).kf_pred_succ z (s + t)).1, pow_succ ρ t, ← mul_assoc]
      refine le_of_eq_of_le ?_ (dom_pred (hnn t) h1 h2 v)
      congr 2
      simp only [PFun.withMu, mulVec_sub]
      abel
    exact ⟨this, step _ _ (hnn _) ht this⟩

end kf

end Verif
