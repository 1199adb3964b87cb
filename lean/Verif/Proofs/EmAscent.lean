import Verif.Proofs.EmJoint
import Verif.Proofs.Unscented
import Verif.Proofs.Likelihood

/-!
# `em` does not decrease the likelihood

The complete-data log-likelihood is the log-likelihood plus the log density of the posterior of the
trajectory, and the expected log density of any other posterior is at most that of the true one.
-/

open MeasureTheory ProbabilityTheory Matrix

namespace Verif

variable {n m : ℕ}

/-- Bayes' rule for Gaussian log densities. -/
theorem bayes_logN {P : Mat n n} {R : Mat m m} (hP : P.PosDef) (hR : R.PosDef) (C : Mat m n)
    (d : Vec m) (mu x : Vec n) (z : Vec m) :
    logN x mu P + logN z (C *ᵥ x + d) R
      = logN z (C *ᵥ mu + d) (C * P * Cᵀ + R)
        + logN x (mu + gain P R C *ᵥ (z - (C *ᵥ mu + d))) (P - gain P R C * C * P) := by
  obtain ⟨h1, h2, h3⟩ := updated_inv hP hR C
  have hdet := updated_det hP hR C
  have hS := posDef_conj_add hP.posSemidef hR C
  have hU := updated_posDef hP hR C
  have hlog := congrArg Real.log hdet
  rw [Real.log_mul hP.det_pos.ne' hR.det_pos.ne', Real.log_mul hS.det_pos.ne' hU.det_pos.ne']
    at hlog
  have hinv : (P - gain P R C * C * P)⁻¹ = P⁻¹ + Cᵀ * R⁻¹ * C :=
    Matrix.inv_eq_left_inv h1
  have hPt : P⁻¹ᵀ = P⁻¹ := symm_of_posSemidef hP.inv.posSemidef
  have hRt : R⁻¹ᵀ = R⁻¹ := symm_of_posSemidef hR.inv.posSemidef
  set K := gain P R C with hK
  set W := P⁻¹ + Cᵀ * R⁻¹ * C with hW
  have hWt : Wᵀ = W := by
    rw [hW]
    simp only [transpose_add, transpose_mul, transpose_transpose, hPt, hRt, Matrix.mul_assoc]
  -- errors
  set e := x - mu with he
  set v := z - (C *ᵥ mu + d) with hv
  have e1 : z - (C *ᵥ x + d) = v - C *ᵥ e := by
    rw [hv, he, mulVec_sub]; abel
  have e2 : x - (mu + K *ᵥ v) = e - K *ᵥ v := by rw [he]; abel
  have hquad : e ⬝ᵥ (P⁻¹ *ᵥ e) + (v - C *ᵥ e) ⬝ᵥ (R⁻¹ *ᵥ (v - C *ᵥ e))
      = v ⬝ᵥ ((C * P * Cᵀ + R)⁻¹ *ᵥ v) + (e - K *ᵥ v) ⬝ᵥ (W *ᵥ (e - K *ᵥ v)) := by
    have hWe : e ⬝ᵥ (W *ᵥ e) = e ⬝ᵥ (P⁻¹ *ᵥ e) + (C *ᵥ e) ⬝ᵥ (R⁻¹ *ᵥ (C *ᵥ e)) := by
      rw [hW, add_mulVec, dotProduct_add, ← mulVec_mulVec, ← mulVec_mulVec,
        dotProduct_mulVec e Cᵀ, vecMul_transpose]
    have hWK : W *ᵥ (K *ᵥ v) = Cᵀ *ᵥ (R⁻¹ *ᵥ v) := by
      rw [mulVec_mulVec, h2, ← mulVec_mulVec]
    have c1 : e ⬝ᵥ (W *ᵥ (K *ᵥ v)) = (C *ᵥ e) ⬝ᵥ (R⁻¹ *ᵥ v) := by
      rw [hWK, dotProduct_mulVec e Cᵀ, vecMul_transpose]
    have c2 : (K *ᵥ v) ⬝ᵥ (W *ᵥ e) = (C *ᵥ e) ⬝ᵥ (R⁻¹ *ᵥ v) := by
      rw [← c1, dotProduct_mulVec (K *ᵥ v) W, ← mulVec_transpose, hWt, dotProduct_comm]
    have c3 : (K *ᵥ v) ⬝ᵥ (W *ᵥ (K *ᵥ v)) = v ⬝ᵥ ((Kᵀ * Cᵀ * R⁻¹) *ᵥ v) := by
      rw [hWK, ← mulVec_mulVec, ← mulVec_mulVec, dotProduct_mulVec v Kᵀ, vecMul_transpose]
    have c4 : v ⬝ᵥ (R⁻¹ *ᵥ (C *ᵥ e)) = (C *ᵥ e) ⬝ᵥ (R⁻¹ *ᵥ v) := by
      rw [dotProduct_mulVec v R⁻¹, ← mulVec_transpose, hRt, dotProduct_comm]
    have c5 : v ⬝ᵥ (R⁻¹ *ᵥ v)
        = v ⬝ᵥ ((C * P * Cᵀ + R)⁻¹ *ᵥ v) + v ⬝ᵥ ((Kᵀ * Cᵀ * R⁻¹) *ᵥ v) := by
      rw [← dotProduct_add, ← add_mulVec, h3]
    simp only [mulVec_sub, sub_dotProduct, dotProduct_sub]
    rw [c1, c2, c3, c4, c5, hWe]
    ring
  simp only [logN]
  rw [e1, e2, hinv, ← he, ← hv]
  linear_combination (-1 / 2) * hlog + (-1 / 2) * hquad

variable (P : PFun n m) (z : ℕ → Obs m)

/-- Predicted observation log densities up to row `t`. -/
noncomputable def PFun.predLL (t : ℕ) : ℝ :=
  ∑ s ∈ Finset.range (t + 1), (z s).w * logN (z s).val (P.C s *ᵥ (P.kf z s).predMean + P.d s)
    (P.C s * (P.kf z s).predCov * (P.C s)ᵀ + P.R s)

/-- Covariance of the state at `s` given the state at `s + 1` and the rows up to `s`. -/
noncomputable def PFun.backCov (s : ℕ) : Mat n n :=
  (P.kf z s).filtCov - Verif.gain (P.kf z s).filtCov (P.Q s) (P.A s) * P.A s * (P.kf z s).filtCov

/-- Log density of the state at `s` given the state at `s + 1` and the rows up to `s`. -/
noncomputable def PFun.backTerm (s : ℕ) (x' x : Vec n) : ℝ :=
  logN x ((P.kf z s).filtMean + Verif.gain (P.kf z s).filtCov (P.Q s) (P.A s)
    *ᵥ (x' - (P.A s *ᵥ (P.kf z s).filtMean + P.b s))) (P.backCov z s)

/-- Positive definite covariances. -/
structure PFun.PD (P : PFun n m) (T : ℕ) : Prop where
  Q : ∀ t, t + 1 < T → (P.Q t).PosDef
  R : ∀ t, t < T → (P.R t).PosDef
  S0 : P.S0.PosDef

theorem PFun.PD.filt {P : PFun n m} {T : ℕ} (h : P.PD T) (z : ℕ → Obs m) {t : ℕ} (ht : t < T) :
    (P.kf z t).predCov.PosDef ∧ (P.kf z t).filtCov.PosDef := by
  have := P.runPosDef z T h.S0 h.Q h.R
  refine ⟨this.pred t ht, ?_⟩
  by_cases ho : (z t).missing
  · rw [(P.kf_missing z ho).2.2]; exact this.pred t ht
  · rw [(P.kf_observed z ho).2.2]; exact updated_posDef (this.pred t ht) (h.R t ht) _

theorem PFun.PD.psd {P : PFun n m} {T : ℕ} (h : P.PD T) : P.PSD T :=
  ⟨fun t ht => (h.Q t ht).posSemidef, fun t ht => (h.R t ht).posSemidef, h.S0.posSemidef⟩

theorem PFun.PD.back {P : PFun n m} {T : ℕ} (h : P.PD T) (z : ℕ → Obs m) {t : ℕ}
    (ht : t + 1 < T) : (P.backCov z t).PosDef :=
  updated_posDef (h.filt z (by omega)).2 (h.Q t ht) _

/-- Correction step. -/
theorem PFun.PD.correct {P : PFun n m} {T : ℕ} (h : P.PD T) (z : ℕ → Obs m) {t : ℕ} (ht : t < T)
    (x : Vec n) :
    logN x (P.kf z t).predMean (P.kf z t).predCov
        + (z t).w * logN (z t).val (P.C t *ᵥ x + P.d t) (P.R t)
      = (z t).w * logN (z t).val (P.C t *ᵥ (P.kf z t).predMean + P.d t)
          (P.C t * (P.kf z t).predCov * (P.C t)ᵀ + P.R t)
        + logN x (P.kf z t).filtMean (P.kf z t).filtCov := by
  by_cases ho : (z t).missing
  · obtain ⟨-, h1, h2⟩ := P.kf_missing z ho
    rw [h1, h2, Obs.w_missing ho]
    ring
  · obtain ⟨-, h1, h2⟩ := P.kf_observed z ho
    rw [h1, h2, Obs.w_observed ho, one_mul, one_mul]
    exact bayes_logN (h.filt z ht).1 (h.R t ht) _ _ _ _ _

/-- The complete-data log density as predicted observations and posterior. -/
theorem PFun.PD.factor {P : PFun n m} {T : ℕ} (h : P.PD T) (z : ℕ → Obs m) (x : ℕ → Vec n)
    {t : ℕ} (ht : t < T) :
    logN (x 0) P.mu0 P.S0
        + ∑ s ∈ Finset.range t, logN (x (s + 1)) (P.A s *ᵥ x s + P.b s) (P.Q s)
        + ∑ s ∈ Finset.range (t + 1),
          (z s).w * logN (z s).val (P.C s *ᵥ x s + P.d s) (P.R s)
      = P.predLL z t + (logN (x t) (P.kf z t).filtMean (P.kf z t).filtCov
        + ∑ s ∈ Finset.range t, P.backTerm z s (x (s + 1)) (x s)) := by
  induction t with
  | zero =>
    have := h.correct z ht (x 0)
    simp only [Finset.range_zero, Finset.sum_empty, add_zero, zero_add, Finset.range_one,
      Finset.sum_singleton, PFun.predLL]
    exact this
  | succ t ih =>
    have h1 := ih (by omega)
    have h2 := bayes_logN (h.filt z (show t < T by omega)).2 (h.Q t ht) (P.A t) (P.b t)
      (P.kf z t).filtMean (x t) (x (t + 1))
    have h3 := h.correct z ht (x (t + 1))
    rw [(P.kf_pred_succ z t).1, (P.kf_pred_succ z t).2] at h3
    rw [Finset.sum_range_succ (fun s => logN (x (s + 1)) (P.A s *ᵥ x s + P.b s) (P.Q s)) t,
      Finset.sum_range_succ _ (t + 1), Finset.sum_range_succ (fun s => P.backTerm z s _ _) t]
    have h4 : P.predLL z (t + 1) = P.predLL z t
        + (z (t + 1)).w * logN (z (t + 1)).val (P.C (t + 1) *ᵥ (P.A t *ᵥ (P.kf z t).filtMean + P.b t)
            + P.d (t + 1))
          (P.C (t + 1) * (P.A t * (P.kf z t).filtCov * (P.A t)ᵀ + P.Q t) * (P.C (t + 1))ᵀ
            + P.R (t + 1)) := by
      rw [← (P.kf_pred_succ z t).1, ← (P.kf_pred_succ z t).2]
      exact Finset.sum_range_succ _ _
    have h5 : P.backTerm z t (x (t + 1)) (x t) = logN (x t) ((P.kf z t).filtMean
        + Verif.gain (P.kf z t).filtCov (P.Q t) (P.A t)
          *ᵥ (x (t + 1) - (P.A t *ᵥ (P.kf z t).filtMean + P.b t)))
        ((P.kf z t).filtCov - Verif.gain (P.kf z t).filtCov (P.Q t) (P.A t) * P.A t
          * (P.kf z t).filtCov) := rfl
    rw [h4, h5]
    linarith

/-! ### Gibbs' inequality -/

theorem expLogN_le {k : ℕ} {U U' : Mat k k} (hU : U.PosDef) (hU' : U'.PosDef) {D : Mat k k}
    (hD : D.PosSemidef) : expLogN U' (U + D) ≤ expLogN U U := by
  have h1 := gsum_mono 1 hU' (M' := U + D) (M := U) (by simpa using hD)
  have h2 := gsum_max one_pos hU hU' (M := U) (by simp)
  rw [gsum_one, gsum_one] at h1 h2
  exact h1.trans h2

section
variable {Ω : Type*} [MeasurableSpace Ω] {ν : Measure Ω} [IsProbabilityMeasure ν]

/-- A backward term has an expectation in closed form. -/
theorem HasMoments.logN_back {X X' : Ω → Vec n} {mean mean' : Vec n} {V V' J : Mat n n}
    (h : HasMoments ν (fun ω => Sum.elim (X' ω) (X ω)) (Sum.elim mean' mean)
      (fromBlocks V' J Jᵀ V)) (G : Mat n n) (a q : Vec n) (U : Mat n n) :
    Integrable (fun ω => Verif.logN (X ω) (a + G *ᵥ (X' ω - q)) U) ν ∧
    ∫ ω, Verif.logN (X ω) (a + G *ᵥ (X' ω - q)) U ∂ν
      = expLogN U (V + G * V' * Gᵀ - G * J - (G * J)ᵀ
        + vecMulVec (mean - (a + G *ᵥ (mean' - q))) (mean - (a + G *ᵥ (mean' - q)))) := by
  have h1 := (h.mulVec (fromCols (-G) (1 : Mat n n))).logN (a - G *ᵥ q) U
  have e0 : ∀ (x' x : Vec n), fromCols (-G) (1 : Mat n n) *ᵥ Sum.elim x' x = x - G *ᵥ x' := by
    intro x' x
    rw [fromCols_mulVec_sumElim, one_mulVec, neg_mulVec]
    abel
  have e1 : ∀ x x' : Vec n, x - (a + G *ᵥ (x' - q)) = x - G *ᵥ x' - (a - G *ᵥ q) := by
    intro x x'
    rw [mulVec_sub]; abel
  have e2 : ∀ ω, Verif.logN (X ω) (a + G *ᵥ (X' ω - q)) U
      = Verif.logN (X ω - G *ᵥ X' ω) (a - G *ᵥ q) U := by
    intro ω
    simp only [Verif.logN, e1]
  simp only [e0] at h1
  simp only [e2]
  refine ⟨h1.1, ?_⟩
  rw [h1.2, e1]
  congr 2
  rw [fromCols_mul_fromBlocks, transpose_fromCols, fromCols_mul_fromRows]
  simp only [transpose_one, transpose_neg, transpose_mul, transpose_transpose, Matrix.one_mul,
    Matrix.mul_one, Matrix.add_mul, Matrix.neg_mul, Matrix.mul_neg, Matrix.mul_assoc]
  abel

/-- Expected complete-data log-likelihood, likelihood and posterior. -/
theorem StatsMoments.split {X : ℕ → Ω → Vec n} {f : ℕ → EmStats n} {T : ℕ}
    (h : StatsMoments ν X f T) {P : PFun n m} (hP : P.PD (T + 1)) (z : ℕ → Obs m) :
    eJoint f z T P = P.predLL z T
      + (expLogN (P.kf z T).filtCov ((f T).cov + vecMulVec ((f T).mean - (P.kf z T).filtMean)
          ((f T).mean - (P.kf z T).filtMean))
        + ∑ s ∈ Finset.range T, expLogN (P.backCov z s)
          ((f s).cov + Verif.gain (P.kf z s).filtCov (P.Q s) (P.A s) * (f (s + 1)).cov
              * (Verif.gain (P.kf z s).filtCov (P.Q s) (P.A s))ᵀ
            - Verif.gain (P.kf z s).filtCov (P.Q s) (P.A s) * (f (s + 1)).pair
            - (Verif.gain (P.kf z s).filtCov (P.Q s) (P.A s) * (f (s + 1)).pair)ᵀ
            + vecMulVec ((f s).mean - ((P.kf z s).filtMean
                + Verif.gain (P.kf z s).filtCov (P.Q s) (P.A s)
                  *ᵥ ((f (s + 1)).mean - (P.A s *ᵥ (P.kf z s).filtMean + P.b s))))
              ((f s).mean - ((P.kf z s).filtMean
                + Verif.gain (P.kf z s).filtCov (P.Q s) (P.A s)
                  *ᵥ ((f (s + 1)).mean - (P.A s *ᵥ (P.kf z s).filtMean + P.b s)))))) := by
  have hfac := fun ω => hP.factor z (fun t => X t ω) (show T < T + 1 by omega)
  have h0 := (h.single 0 (by omega)).logN P.mu0 P.S0
  have h1 : ∀ t ∈ Finset.range T, _ := fun t ht =>
    (h.pair t (Finset.mem_range.mp ht)).logN_trans (P.A t) (P.b t) (P.Q t)
  have h2 : ∀ t ∈ Finset.range (T + 1), _ := fun t ht =>
    (h.single t (Nat.lt_succ_iff.mp (Finset.mem_range.mp ht))).logN_obs (P.C t) (P.d t)
      (z t).val (P.R t)
  have i1 := integrable_finsetSum _ fun t ht => (h1 t ht).1
  have i2 := integrable_finsetSum _ fun t ht => ((h2 t ht).1.const_mul (z t).w)
  have i01 : Integrable (fun ω => logN (X 0 ω) P.mu0 P.S0 + ∑ t ∈ Finset.range T,
      logN (X (t + 1) ω) (P.A t *ᵥ X t ω + P.b t) (P.Q t)) ν := h0.1.add i1
  have j0 := (h.single T le_rfl).logN (P.kf z T).filtMean (P.kf z T).filtCov
  have j1 : ∀ t ∈ Finset.range T, _ := fun t ht =>
    (h.pair t (Finset.mem_range.mp ht)).logN_back
      (Verif.gain (P.kf z t).filtCov (P.Q t) (P.A t)) (P.kf z t).filtMean
      (P.A t *ᵥ (P.kf z t).filtMean + P.b t) (P.backCov z t)
  have k1 := integrable_finsetSum _ fun t ht => (j1 t ht).1
  have hint := integral_congr_ae (μ := ν) (Filter.Eventually.of_forall hfac)
  simp only [PFun.backTerm] at hint
  have kk : Integrable (fun ω => logN (X T ω) (P.kf z T).filtMean (P.kf z T).filtCov
      + ∑ s ∈ Finset.range T, logN (X s ω) ((P.kf z s).filtMean
          + Verif.gain (P.kf z s).filtCov (P.Q s) (P.A s)
        *ᵥ (X (s + 1) ω - (P.A s *ᵥ (P.kf z s).filtMean + P.b s))) (P.backCov z s)) ν :=
    j0.1.add k1
  rw [integral_add i01 i2, integral_add h0.1 i1, integral_finsetSum _ fun t ht =>
    (h1 t ht).1, integral_finsetSum _ fun t ht => ((h2 t ht).1.const_mul (z t).w), h0.2,
    integral_add (integrable_const _) kk, integral_add j0.1 k1, j0.2,
    integral_finsetSum _ fun t ht => (j1 t ht).1] at hint
  refine Eq.trans ?_ (hint.trans ?_)
  · simp only [eJoint, initTerm, eTrans, eObs]
    congr 1
    · congr 1
      exact Finset.sum_congr rfl fun t ht => ((h1 t ht).2).symm
    · refine Finset.sum_congr rfl fun t ht => ?_
      rw [integral_const_mul, (h2 t ht).2]
      rfl
  · simp only [integral_const, probReal_univ, one_smul]
    congr 2
    exact Finset.sum_congr rfl fun t ht => (j1 t ht).2

end

theorem conj_diff_posSemidef {V' : Mat n n} (h : V'.PosSemidef) (G G' U : Mat n n) :
    ∃ D : Mat n n, D.PosSemidef ∧ G * V' * Gᵀ + U + G' * V' * G'ᵀ - G' * (V' * Gᵀ)
      - (G' * (V' * Gᵀ))ᵀ = U + D := by
  refine ⟨(G - G') * V' * (G - G')ᵀ, posSemidef_conj' h _, ?_⟩
  simp only [transpose_mul, transpose_sub, transpose_transpose, symm_of_posSemidef h,
    Matrix.mul_sub, Matrix.sub_mul, Matrix.mul_assoc]
  abel

/-- The likelihood increases at least as much as the expected complete-data log-likelihood. -/
theorem predLL_ge {Ω : Type*} [MeasurableSpace Ω] {ν : Measure Ω} [IsProbabilityMeasure ν]
    {X : ℕ → Ω → Vec n} {P P' : PFun n m} {T : ℕ} {z : ℕ → Obs m}
    (h : StatsMoments ν X (P.stats z T) T) (hP : P.PD (T + 1)) (hP' : P'.PD (T + 1)) :
    eJoint (P.stats z T) z T P' - eJoint (P.stats z T) z T P ≤ P'.predLL z T - P.predLL z T := by
  have hs : ∀ t ≤ T, (P.stats z T t).cov.PosSemidef := fun t ht => hP.psd.smooth ht z
  have hlast : (P.stats z T T).cov = (P.kf z T).filtCov ∧
      (P.stats z T T).mean = (P.kf z T).filtMean := by
    simp [PFun.stats, P.ks_last]
  have hm : ∀ s < T, (P.stats z T s).mean = (P.kf z s).filtMean
      + Verif.gain (P.kf z s).filtCov (P.Q s) (P.A s)
        *ᵥ ((P.stats z T (s + 1)).mean - (P.A s *ᵥ (P.kf z s).filtMean + P.b s)) := by
    intro s hs
    simp only [PFun.stats]
    rw [P.ks_lt' z hs]
  have hcov : ∀ s < T, (P.stats z T s).cov = Verif.gain (P.kf z s).filtCov (P.Q s) (P.A s)
      * (P.stats z T (s + 1)).cov * (Verif.gain (P.kf z s).filtCov (P.Q s) (P.A s))ᵀ
      + P.backCov z s := by
    intro s hs
    have := hP.psd.ks_cov_eq hs z
    rw [show (P.ks z T s).gain = Verif.gain (P.kf z s).filtCov (P.Q s) (P.A s) by
      rw [P.ks_lt' z hs]] at this
    exact this
  have hpair : ∀ s < T, (P.stats z T (s + 1)).pair = (P.stats z T (s + 1)).cov
      * (Verif.gain (P.kf z s).filtCov (P.Q s) (P.A s))ᵀ := by
    intro s hs
    simp only [PFun.stats, Nat.add_sub_cancel, Nat.succ_ne_zero, if_false, Nat.add_one_ne_zero]
    rw [P.ks_lt' z hs]
  rw [h.split hP z, h.split hP' z]
  have hA : expLogN (P'.kf z T).filtCov ((P.stats z T T).cov
        + vecMulVec ((P.stats z T T).mean - (P'.kf z T).filtMean)
          ((P.stats z T T).mean - (P'.kf z T).filtMean))
      ≤ expLogN (P.kf z T).filtCov ((P.stats z T T).cov
        + vecMulVec ((P.stats z T T).mean - (P.kf z T).filtMean)
          ((P.stats z T T).mean - (P.kf z T).filtMean)) := by
    rw [hlast.1, hlast.2]
    simp only [sub_self, vecMulVec_zero, add_zero]
    exact expLogN_le (hP.filt z (by omega)).2 (hP'.filt z (by omega)).2 (vecMulVec_posSemidef _)
  have hB := Finset.sum_le_sum (s := Finset.range T) fun s hs' => (show
      expLogN (P'.backCov z s)
          ((P.stats z T s).cov + Verif.gain (P'.kf z s).filtCov (P'.Q s) (P'.A s)
              * (P.stats z T (s + 1)).cov
              * (Verif.gain (P'.kf z s).filtCov (P'.Q s) (P'.A s))ᵀ
            - Verif.gain (P'.kf z s).filtCov (P'.Q s) (P'.A s) * (P.stats z T (s + 1)).pair
            - (Verif.gain (P'.kf z s).filtCov (P'.Q s) (P'.A s) * (P.stats z T (s + 1)).pair)ᵀ
            + vecMulVec ((P.stats z T s).mean - ((P'.kf z s).filtMean
                + Verif.gain (P'.kf z s).filtCov (P'.Q s) (P'.A s)
                  *ᵥ ((P.stats z T (s + 1)).mean - (P'.A s *ᵥ (P'.kf z s).filtMean + P'.b s))))
              ((P.stats z T s).mean - ((P'.kf z s).filtMean
                + Verif.gain (P'.kf z s).filtCov (P'.Q s) (P'.A s)
                  *ᵥ ((P.stats z T (s + 1)).mean - (P'.A s *ᵥ (P'.kf z s).filtMean + P'.b s)))))
      ≤ expLogN (P.backCov z s)
          ((P.stats z T s).cov + Verif.gain (P.kf z s).filtCov (P.Q s) (P.A s)
              * (P.stats z T (s + 1)).cov
              * (Verif.gain (P.kf z s).filtCov (P.Q s) (P.A s))ᵀ
            - Verif.gain (P.kf z s).filtCov (P.Q s) (P.A s) * (P.stats z T (s + 1)).pair
            - (Verif.gain (P.kf z s).filtCov (P.Q s) (P.A s) * (P.stats z T (s + 1)).pair)ᵀ
            + vecMulVec ((P.stats z T s).mean - ((P.kf z s).filtMean
                + Verif.gain (P.kf z s).filtCov (P.Q s) (P.A s)
                  *ᵥ ((P.stats z T (s + 1)).mean - (P.A s *ᵥ (P.kf z s).filtMean + P.b s))))
              ((P.stats z T s).mean - ((P.kf z s).filtMean
                + Verif.gain (P.kf z s).filtCov (P.Q s) (P.A s)
                  *ᵥ ((P.stats z T (s + 1)).mean - (P.A s *ᵥ (P.kf z s).filtMean + P.b s))))) by
    have hs1 : s < T := Finset.mem_range.mp hs'
    rw [hpair s hs1, hcov s hs1]
    have e2 : (P.stats z T s).mean - ((P.kf z s).filtMean
                + Verif.gain (P.kf z s).filtCov (P.Q s) (P.A s)
                  *ᵥ ((P.stats z T (s + 1)).mean - (P.A s *ᵥ (P.kf z s).filtMean + P.b s))) = 0 := by
      rw [hm s hs1, sub_self]
    rw [e2]
    have hV := hs (s + 1) (by omega)
    have hVt := symm_of_posSemidef hV
    generalize (P.stats z T s).mean - _ = w
    generalize Verif.gain (P.kf z s).filtCov (P.Q s) (P.A s) = G
    generalize Verif.gain (P'.kf z s).filtCov (P'.Q s) (P'.A s) = G'
    generalize (P.stats z T (s + 1)).cov = V at hV hVt
    have e1 : G * V * Gᵀ + P.backCov z s + G * V * Gᵀ - G * (V * Gᵀ) - (G * (V * Gᵀ))ᵀ
        + vecMulVec (0 : Vec n) 0 = P.backCov z s := by
      simp only [transpose_mul, transpose_transpose, hVt, vecMulVec_zero, Matrix.mul_assoc]
      abel
    obtain ⟨D, hD, e3⟩ := conj_diff_posSemidef hV G G' (P.backCov z s)
    rw [e1, e3, add_assoc]
    exact expLogN_le (hP.back z (by omega)) (hP'.back z (by omega))
      (hD.add (vecMulVec_posSemidef _)))
  linarith

end Verif
