import Verif.Proofs.CutOff
import Verif.Proofs.SecondOrder

/-!
# Mean square errors of the filter with a cut-off in the pseudo-inverse
-/

open MeasureTheory Matrix

namespace Verif

variable {n m k : ℕ} {pi : ∀ k, Mat k k → Mat k k}

/-- What the filter needs of a pseudo-inverse to report its errors correctly. -/
structure GoodPinv (pi : ∀ k, Mat k k → Mat k k) : Prop where
  symm : ∀ (k : ℕ) (S : Mat k k), Sᵀ = S → (pi k S)ᵀ = pi k S
  mul : ∀ (k : ℕ) (S : Mat k k), pi k S * S * pi k S = pi k S

theorem SvdRoutine.good (svd : SvdRoutine) (eps : ℝ) : GoodPinv (svd.pinv eps) :=
  ⟨fun k S hS => (svd.correct k S).svdPinv_symm hS _, fun k S => (svd.correct k S).svdPinv_mul _⟩

theorem gainWith_joseph (h : GoodPinv pi) {P : Mat n n} {R : Mat m m} {C : Mat m n} (hP : Pᵀ = P)
    (hR : Rᵀ = R) :
    P - gainWith pi P R C * C * P
      = (1 - gainWith pi P R C * C) * P * (1 - gainWith pi P R C * C)ᵀ
        + gainWith pi P R C * R * (gainWith pi P R C)ᵀ := by
  set S := C * P * Cᵀ + R with hS
  have hSs : Sᵀ = S := by
    rw [hS]
    simp [transpose_mul, hP, hR, Matrix.mul_assoc]
  have hX := h.symm m S hSs
  have hXX := h.mul m S
  have hK : gainWith pi P R C = P * Cᵀ * pi m S := rfl
  rw [hK]
  set X := pi m S
  have e1 : (P * Cᵀ * X)ᵀ = X * C * P := by
    simp [transpose_mul, hP, hX, Matrix.mul_assoc]
  have e2 : P * Cᵀ * X * S * (X * C * P) = P * Cᵀ * X * C * P := by
    calc P * Cᵀ * X * S * (X * C * P) = P * Cᵀ * (X * S * X) * C * P := by
          simp only [Matrix.mul_assoc]
      _ = _ := by rw [hXX]
  rw [transpose_sub, transpose_one, transpose_mul, e1]
  have e3 : P * Cᵀ * X * R * (X * C * P)
      = P * Cᵀ * X * C * P - P * Cᵀ * X * (C * P * Cᵀ) * (X * C * P) := by
    rw [← e2, hS, Matrix.mul_add, Matrix.add_mul]
    abel
  rw [e3]
  simp only [Matrix.sub_mul, Matrix.mul_sub, Matrix.one_mul, Matrix.mul_one, Matrix.mul_assoc]
  abel

/-! ### Coefficients of the errors -/

/-- No disturbance from later than given. -/
def Coef.Supp (L : Coef k n m) (a b : ℕ) : Prop :=
  (∀ s, a ≤ s → L.trans s = 0) ∧ ∀ s, b ≤ s → L.obs s = 0

/-- Prediction. -/
def Coef.predict (L : Coef n n m) (A : Mat n n) (t : ℕ) : Coef n n m :=
  ⟨A * L.init, fun s => if s = t then 1 else A * L.trans s, fun s => A * L.obs s⟩

/-- Correction. -/
def Coef.correct (L : Coef n n m) (F : Mat n n) (K : Mat n m) (t : ℕ) : Coef n n m :=
  ⟨F * L.init, fun s => F * L.trans s, fun s => if s = t then -K else F * L.obs s⟩

variable {L : Coef n n m} {T t : ℕ}

theorem Coef.predict_ev (A : Mat n n) (ht : t + 1 < T) (hL : L.trans t = 0)
    (u : (i : Noise) → Vec (i.dim n m)) :
    (L.predict A t).ev T u = A *ᵥ L.ev T u + u (.trans t) := by
  have e : ∀ s, (if s = t then 1 else A * L.trans s : Mat n n) *ᵥ u (.trans s)
      = A *ᵥ (L.trans s *ᵥ u (.trans s)) + if s = t then u (.trans s) else (0 : Vec n) := by
    intro s
    split_ifs with hs
    · subst hs
      rw [hL]
      simp
    · rw [mulVec_mulVec, add_zero]
  have e2 : ∑ s ∈ Finset.range (T - 1), (if s = t then u (.trans s) else (0 : Vec n))
      = u (.trans t) := by
    rw [Finset.sum_eq_single_of_mem t (Finset.mem_range.mpr (by omega))
      (fun s _ hs => by rw [if_neg hs]), if_pos rfl]
  simp only [Coef.ev, Coef.predict, e, Finset.sum_add_distrib, mulVec_add, Matrix.mulVec_sum,
    mulVec_mulVec, e2]
  abel

theorem Coef.predict_cov (A : Mat n n) (ht : t + 1 < T) (hL : L.trans t = 0) (S0 : Mat n n)
    (Q : ℕ → Mat n n) (R : ℕ → Mat m m) :
    (L.predict A t).cov T S0 Q R = A * L.cov T S0 Q R * Aᵀ + Q t := by
  have e : ∀ s, (if s = t then 1 else A * L.trans s : Mat n n) * Q s
        * (if s = t then 1 else A * L.trans s : Mat n n)ᵀ
      = A * (L.trans s * Q s * (L.trans s)ᵀ) * Aᵀ + if s = t then Q s else 0 := by
    intro s
    split_ifs with hs
    · subst hs
      rw [hL]
      simp
    · simp only [transpose_mul, Matrix.mul_assoc, add_zero]
  have e2 : ∑ s ∈ Finset.range (T - 1), (if s = t then Q s else (0 : Mat n n)) = Q t := by
    rw [Finset.sum_eq_single_of_mem t (Finset.mem_range.mpr (by omega))
      (fun s _ hs => by rw [if_neg hs]), if_pos rfl]
  have e3 : ∀ s, A * L.obs s * R s * (A * L.obs s)ᵀ = A * (L.obs s * R s * (L.obs s)ᵀ) * Aᵀ := by
    intro s
    simp only [transpose_mul, Matrix.mul_assoc]
  simp only [Coef.cov, Coef.predict, e, e3, Finset.sum_add_distrib, e2, Matrix.mul_add,
    Matrix.add_mul, Matrix.mul_sum, Matrix.sum_mul, transpose_mul, Matrix.mul_assoc]
  abel

theorem Coef.correct_ev (F : Mat n n) (K : Mat n m) (ht : t < T) (hL : L.obs t = 0)
    (u : (i : Noise) → Vec (i.dim n m)) :
    (L.correct F K t).ev T u = F *ᵥ L.ev T u - K *ᵥ u (.obs t) := by
  have e : ∀ s, (if s = t then -K else F * L.obs s : Mat n m) *ᵥ u (.obs s)
      = F *ᵥ (L.obs s *ᵥ u (.obs s)) + if s = t then -(K *ᵥ u (.obs s)) else (0 : Vec n) := by
    intro s
    split_ifs with hs
    · subst hs
      rw [hL]
      simp [neg_mulVec]
    · rw [mulVec_mulVec, add_zero]
  have e2 : ∑ s ∈ Finset.range T, (if s = t then -(K *ᵥ u (.obs s)) else (0 : Vec n))
      = -(K *ᵥ u (.obs t)) := by
    rw [Finset.sum_eq_single_of_mem t (Finset.mem_range.mpr ht)
      (fun s _ hs => by rw [if_neg hs]), if_pos rfl]
  simp only [Coef.ev, Coef.correct, e, Finset.sum_add_distrib, mulVec_add, Matrix.mulVec_sum,
    mulVec_mulVec, e2]
  abel

theorem Coef.correct_cov (F : Mat n n) (K : Mat n m) (ht : t < T) (hL : L.obs t = 0)
    (S0 : Mat n n) (Q : ℕ → Mat n n) (R : ℕ → Mat m m) :
    (L.correct F K t).cov T S0 Q R = F * L.cov T S0 Q R * Fᵀ + K * R t * Kᵀ := by
  have e : ∀ s, (if s = t then -K else F * L.obs s : Mat n m) * R s
        * (if s = t then -K else F * L.obs s : Mat n m)ᵀ
      = F * (L.obs s * R s * (L.obs s)ᵀ) * Fᵀ + if s = t then K * (R s * Kᵀ) else 0 := by
    intro s
    split_ifs with hs
    · subst hs
      rw [hL]
      simp [Matrix.mul_assoc]
    · simp only [transpose_mul, Matrix.mul_assoc, add_zero]
  have e2 : ∑ s ∈ Finset.range T, (if s = t then K * (R s * Kᵀ) else (0 : Mat n n))
      = K * (R t * Kᵀ) := by
    rw [Finset.sum_eq_single_of_mem t (Finset.mem_range.mpr ht)
      (fun s _ hs => by rw [if_neg hs]), if_pos rfl]
  have e3 : ∀ s, F * L.trans s * Q s * (F * L.trans s)ᵀ
      = F * (L.trans s * Q s * (L.trans s)ᵀ) * Fᵀ := by
    intro s
    simp only [transpose_mul, Matrix.mul_assoc]
  simp only [Coef.cov, Coef.correct, e, e3, Finset.sum_add_distrib, e2, Matrix.mul_add,
    Matrix.add_mul, Matrix.mul_sum, Matrix.sum_mul, transpose_mul, Matrix.mul_assoc]
  abel

variable {P : PFun n m}

/-- The errors of the filter as combinations of the disturbances, with the reported covariance. -/
theorem PFun.kfWith_coef (hpi : GoodPinv pi) (hP : P.PSD T) (mask : MaskPat m) {t : ℕ}
    (ht : t < T) :
    (∃ L : Coef n n m, L.Supp t t ∧
      L.cov T P.S0 P.Q P.R = (P.kfWith pi (zNil mask) t).predCov ∧
      ∀ τ : Outcome n m, τ.Of P T → τ.mu0 = P.mu0 →
        τ.x t - (P.kfWith pi (τ.rows mask) t).predMean = L.ev T τ.u) ∧
    ∃ L : Coef n n m, L.Supp t (t + 1) ∧
      L.cov T P.S0 P.Q P.R = (P.kfWith pi (zNil mask) t).filtCov ∧
      ∀ τ : Outcome n m, τ.Of P T → τ.mu0 = P.mu0 →
        τ.x t - (P.kfWith pi (τ.rows mask) t).filtMean = L.ev T τ.u := by
  have step : ∀ t, t < T → (∃ L : Coef n n m, L.Supp t t ∧
      L.cov T P.S0 P.Q P.R = (P.kfWith pi (zNil mask) t).predCov ∧
      ∀ τ : Outcome n m, τ.Of P T → τ.mu0 = P.mu0 →
        τ.x t - (P.kfWith pi (τ.rows mask) t).predMean = L.ev T τ.u) →
    ∃ L : Coef n n m, L.Supp t (t + 1) ∧
      L.cov T P.S0 P.Q P.R = (P.kfWith pi (zNil mask) t).filtCov ∧
      ∀ τ : Outcome n m, τ.Of P T → τ.mu0 = P.mu0 →
        τ.x t - (P.kfWith pi (τ.rows mask) t).filtMean = L.ev T τ.u := by
    rintro t ht ⟨L, hs, hc, he⟩
    by_cases hm : mask.rowMissing t
    · refine ⟨L, ⟨hs.1, fun s h => hs.2 s (by omega)⟩, ?_, fun τ hτ h0 => ?_⟩
      · rw [hc, (P.kfWith_missing (zNil mask) (t := t) hm).2]
      · rw [(P.kfWith_missing (τ.rows mask) (t := t) hm).1, he τ hτ h0]
    · set K := gainWith pi (P.kfWith pi (zNil mask) t).predCov (P.R t) (P.C t) with hK
      have hsym : ((P.kfWith pi (zNil mask) t).predCov)ᵀ = (P.kfWith pi (zNil mask) t).predCov := by
        rw [← hc]
        have h0 := hP.S0.isHermitian
        rw [Matrix.IsHermitian, conjTranspose_eq_transpose_of_trivial] at h0
        have hQ : ∀ s ∈ Finset.range (T - 1), (P.Q s)ᵀ = P.Q s := fun s hs => by
          have := (hP.Q s (by have := Finset.mem_range.mp hs; omega)).isHermitian
          rwa [Matrix.IsHermitian, conjTranspose_eq_transpose_of_trivial] at this
        have hR : ∀ s ∈ Finset.range T, (P.R s)ᵀ = P.R s := fun s hs => by
          have := (hP.R s (Finset.mem_range.mp hs)).isHermitian
          rwa [Matrix.IsHermitian, conjTranspose_eq_transpose_of_trivial] at this
        rw [Coef.cov, transpose_add, transpose_add, transpose_sum, transpose_sum]
        congr 1
        · congr 1
          · simp [transpose_mul, h0, Matrix.mul_assoc]
          · exact Finset.sum_congr rfl fun s hs => by
              simp [transpose_mul, hQ s hs, Matrix.mul_assoc]
        · exact Finset.sum_congr rfl fun s hs => by
            simp [transpose_mul, hR s hs, Matrix.mul_assoc]
      have hRs : (P.R t)ᵀ = P.R t := by
        have := (hP.R t ht).isHermitian
        rwa [Matrix.IsHermitian, conjTranspose_eq_transpose_of_trivial] at this
      refine ⟨L.correct (1 - K * P.C t) K t, ⟨fun s h => ?_, fun s h => ?_⟩, ?_, fun τ hτ h0 => ?_⟩
      · simp [Coef.correct, hs.1 s h]
      · simp only [Coef.correct]
        rw [if_neg (by omega), hs.2 s (by omega), Matrix.mul_zero]
      · rw [Coef.correct_cov _ _ ht (hs.2 t le_rfl), hc,
          (P.kfWith_observed (zNil mask) (t := t) hm).2, gainWith_joseph hpi hsym hRs]
      · rw [(P.kfWith_observed (τ.rows mask) (t := t) hm).1,
          (P.kfWith_cov_congr (z := τ.rows mask) (z' := zNil mask) (t := t) fun _ _ => Iff.rfl).1,
          ← hK, Coef.correct_ev _ _ ht (hs.2 t le_rfl), ← he τ hτ h0]
        simp only [Outcome.rows, hτ.obs t ht]
        simp only [Matrix.sub_mulVec, Matrix.one_mulVec, mulVec_sub, mulVec_add, ← mulVec_mulVec]
        abel
  have hpred : ∃ L : Coef n n m, L.Supp t t ∧
      L.cov T P.S0 P.Q P.R = (P.kfWith pi (zNil mask) t).predCov ∧
      ∀ τ : Outcome n m, τ.Of P T → τ.mu0 = P.mu0 →
        τ.x t - (P.kfWith pi (τ.rows mask) t).predMean = L.ev T τ.u := by
    induction t with
    | zero =>
      refine ⟨⟨1, fun _ => 0, fun _ => 0⟩, ⟨fun _ _ => rfl, fun _ _ => rfl⟩, ?_, fun τ hτ h0 => ?_⟩
      · simp only [Coef.cov, Matrix.one_mul, transpose_one, Matrix.mul_one, Matrix.zero_mul,
          Finset.sum_const_zero, add_zero]
        rfl
      · rw [hτ.init, h0]
        simp only [Coef.ev, one_mulVec, zero_mulVec, Finset.sum_const_zero, add_zero]
        exact add_sub_cancel_left _ _
    | succ t ih =>
      obtain ⟨L, hs, hc, he⟩ := step t (by omega) (ih (by omega))
      refine ⟨L.predict (P.A t) t, ⟨fun s h => ?_, fun s h => ?_⟩, ?_, fun τ hτ h0 => ?_⟩
      · simp only [Coef.predict]
        rw [if_neg (by omega), hs.1 s (by omega), Matrix.mul_zero]
      · simp [Coef.predict, hs.2 s h]
      · rw [Coef.predict_cov _ ht (hs.1 t le_rfl), hc, (P.kfWith_pred_succ (zNil mask) t).2]
      · rw [(P.kfWith_pred_succ (τ.rows mask) t).1, Coef.predict_ev _ ht (hs.1 t le_rfl),
          ← he τ hτ h0, hτ.trans t ht, mulVec_sub]
        abel
  exact ⟨hpred, step t ht hpred⟩

end Verif
