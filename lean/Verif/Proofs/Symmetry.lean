import Verif.Proofs.Loglik

/-!
# Change of state coordinates, of observation coordinates, affine dependence, monotonicity
-/

open Matrix

namespace Verif

variable {n n' m : ℕ}

/-- `x' = L x + c` carries the process of `P` to that of `P'` (functions of time). -/
structure PFun.StateMap (P : PFun n m) (P' : PFun n' m) (L : Mat n' n) (c : Vec n') (T : ℕ) :
    Prop where
  A : ∀ t, t + 1 < T → P'.A t * L = L * P.A t
  b : ∀ t, t + 1 < T → P'.A t *ᵥ c + P'.b t = L *ᵥ P.b t + c
  Q : ∀ t, t + 1 < T → P'.Q t = L * P.Q t * Lᵀ
  C : ∀ t, t < T → P'.C t * L = P.C t
  d : ∀ t, t < T → P'.C t *ᵥ c + P'.d t = P.d t
  R : ∀ t, t < T → P'.R t = P.R t
  mu0 : P'.mu0 = L *ᵥ P.mu0 + c
  S0 : P'.S0 = L * P.S0 * Lᵀ

section statemap
variable {P : PFun n m} {P' : PFun n' m} {L : Mat n' n} {c : Vec n'} {T : ℕ}

theorem gain_map {L : Mat n' n} {C : Mat m n} {C' : Mat m n'} (h : C' * L = C) (S : Mat n n)
    (R : Mat m m) : Verif.gain (L * S * Lᵀ) R C' = L * Verif.gain S R C := by
  have e : C' * (L * S * Lᵀ) * C'ᵀ = C * S * Cᵀ := by
    rw [← h, transpose_mul]; simp only [Matrix.mul_assoc]
  have e2 : L * S * Lᵀ * C'ᵀ = L * (S * Cᵀ) := by
    rw [← h, transpose_mul]; simp only [Matrix.mul_assoc]
  rw [Verif.gain, Verif.gain, e, e2]
  simp only [Matrix.mul_assoc]

theorem PFun.StateMap.filt_of_pred (h : P.StateMap P' L c T) (z : ℕ → Obs m) {t : ℕ} (ht : t < T)
    (h1 : (P'.kf z t).predMean = L *ᵥ (P.kf z t).predMean + c)
    (h2 : (P'.kf z t).predCov = L * (P.kf z t).predCov * Lᵀ) :
    (P'.kf z t).filtMean = L *ᵥ (P.kf z t).filtMean + c ∧
      (P'.kf z t).filtCov = L * (P.kf z t).filtCov * Lᵀ := by
  by_cases hm : (z t).missing
  · rw [(P.kf_missing z hm).2.1, (P.kf_missing z hm).2.2, (P'.kf_missing z hm).2.1,
      (P'.kf_missing z hm).2.2]
    exact ⟨h1, h2⟩
  · obtain ⟨-, a, b⟩ := P.kf_observed z hm
    obtain ⟨-, a', b'⟩ := P'.kf_observed z hm
    have hC := h.C t ht
    have hG : Verif.gain (P'.kf z t).predCov (P'.R t) (P'.C t)
        = L * Verif.gain (P.kf z t).predCov (P.R t) (P.C t) := by
      rw [h2, h.R t ht, gain_map hC]
    have hin : P'.C t *ᵥ (P'.kf z t).predMean + P'.d t
        = P.C t *ᵥ (P.kf z t).predMean + P.d t := by
      rw [h1, mulVec_add, mulVec_mulVec, hC, add_assoc, h.d t ht]
    constructor
    · rw [a, a', hG, hin, h1, mulVec_add, mulVec_mulVec]
      abel
    · rw [b, b', hG, h2]
      have : L * Verif.gain (P.kf z t).predCov (P.R t) (P.C t) * P'.C t
          * (L * (P.kf z t).predCov * Lᵀ)
        = L * (Verif.gain (P.kf z t).predCov (P.R t) (P.C t) * P.C t * (P.kf z t).predCov) * Lᵀ := by
        rw [← hC]; simp only [Matrix.mul_assoc]
      rw [this, Matrix.mul_sub, Matrix.sub_mul]

theorem PFun.StateMap.pred (h : P.StateMap P' L c T) (z : ℕ → Obs m) {t : ℕ} (ht : t < T) :
    (P'.kf z t).predMean = L *ᵥ (P.kf z t).predMean + c ∧
      (P'.kf z t).predCov = L * (P.kf z t).predCov * Lᵀ := by
  induction t with
  | zero => exact ⟨h.mu0, h.S0⟩
  | succ t ih =>
    obtain ⟨i1, i2⟩ := ih (by omega)
    obtain ⟨f1, f2⟩ := h.filt_of_pred z (by omega) i1 i2
    rw [(P.kf_pred_succ z t).1, (P.kf_pred_succ z t).2, (P'.kf_pred_succ z t).1,
      (P'.kf_pred_succ z t).2, f1, f2]
    constructor
    · rw [mulVec_add, mulVec_mulVec, h.A t ht, add_assoc, h.b t ht, mulVec_add, mulVec_mulVec]
      abel
    · have e : P'.A t * (L * (P.kf z t).filtCov * Lᵀ) * (P'.A t)ᵀ
          = L * (P.A t * (P.kf z t).filtCov * (P.A t)ᵀ) * Lᵀ := by
        have h' := congrArg Matrix.transpose (h.A t ht)
        rw [transpose_mul, transpose_mul] at h'
        calc _ = (P'.A t * L) * (P.kf z t).filtCov * (Lᵀ * (P'.A t)ᵀ) := by
              simp only [Matrix.mul_assoc]
          _ = _ := by rw [h.A t ht, h']; simp only [Matrix.mul_assoc]
      rw [e, h.Q t ht, Matrix.mul_add, Matrix.add_mul]

theorem PFun.StateMap.filt (h : P.StateMap P' L c T) (z : ℕ → Obs m) {t : ℕ} (ht : t < T) :
    (P'.kf z t).filtMean = L *ᵥ (P.kf z t).filtMean + c ∧
      (P'.kf z t).filtCov = L * (P.kf z t).filtCov * Lᵀ :=
  h.filt_of_pred z ht (h.pred z ht).1 (h.pred z ht).2

theorem PFun.StateMap.psd (h : P.StateMap P' L c T) (hP : P.PSD T) : P'.PSD T :=
  ⟨fun t ht => by rw [h.Q t ht]; exact posSemidef_conj' (hP.Q t ht) _,
   fun t ht => by rw [h.R t ht]; exact hP.R t ht,
   by rw [h.S0]; exact posSemidef_conj' hP.S0 _⟩

/-- The filtered covariance as the predicted one minus a correction seen through `C`. -/
theorem PFun.filtCov_form (P : PFun n m) (z : ℕ → Obs m) (t : ℕ) :
    ∃ W : Mat m m, (P.kf z t).filtCov
      = (P.kf z t).predCov - (P.kf z t).predCov * (P.C t)ᵀ * W * P.C t * (P.kf z t).predCov := by
  by_cases hm : (z t).missing
  · exact ⟨0, by rw [(P.kf_missing z hm).2.2]; simp⟩
  · exact ⟨_, by rw [(P.kf_observed z hm).2.2, Verif.gain]⟩

/-- The smoother in adjoint form: the smoothed moments differ from the predicted ones by terms
in the range of the predicted covariance, the same terms for both systems. -/
theorem PFun.StateMap.adjoint (h : P.StateMap P' L c (T + 1)) (hP : P.PSD (T + 1))
    (z : ℕ → Obs m) {t : ℕ} (ht : t ≤ T) :
    (∃ l : Vec n', (P.ks z T t).mean = (P.kf z t).predMean + (P.kf z t).predCov *ᵥ (Lᵀ *ᵥ l) ∧
      (P'.ks z T t).mean = (P'.kf z t).predMean + (P'.kf z t).predCov *ᵥ l) ∧
    (∃ N : Mat n' n', (P.ks z T t).cov
        = (P.kf z t).predCov - (P.kf z t).predCov * Lᵀ * N * L * (P.kf z t).predCov ∧
      (P'.ks z T t).cov
        = (P'.kf z t).predCov - (P'.kf z t).predCov * N * (P'.kf z t).predCov) := by
  have hP' := h.psd hP
  -- a correction at time t extends the adjoint terms
  have corr : ∀ t, t ≤ T → ∀ (l : Vec n') (N : Mat n' n'), ∃ (l₁ : Vec n') (N₁ : Mat n' n'),
      (P.kf z t).filtMean + (P.kf z t).filtCov *ᵥ (Lᵀ *ᵥ l)
        = (P.kf z t).predMean + (P.kf z t).predCov *ᵥ (Lᵀ *ᵥ l₁) ∧
      (P'.kf z t).filtMean + (P'.kf z t).filtCov *ᵥ l
        = (P'.kf z t).predMean + (P'.kf z t).predCov *ᵥ l₁ ∧
      (P.kf z t).filtCov - (P.kf z t).filtCov * Lᵀ * N * L * (P.kf z t).filtCov
        = (P.kf z t).predCov - (P.kf z t).predCov * Lᵀ * N₁ * L * (P.kf z t).predCov ∧
      (P'.kf z t).filtCov - (P'.kf z t).filtCov * N * (P'.kf z t).filtCov
        = (P'.kf z t).predCov - (P'.kf z t).predCov * N₁ * (P'.kf z t).predCov := by
    intro t ht l N
    by_cases hm : (z t).missing
    · refine ⟨l, N, ?_⟩
      rw [(P.kf_missing z hm).2.1, (P.kf_missing z hm).2.2, (P'.kf_missing z hm).2.1,
        (P'.kf_missing z hm).2.2]
      exact ⟨rfl, rfl, rfl, rfl⟩
    · obtain ⟨-, a, b⟩ := P.kf_observed z hm
      obtain ⟨-, a', b'⟩ := P'.kf_observed z hm
      obtain ⟨h1, h2⟩ := h.pred z (t := t) (by omega)
      have hC := h.C t (by omega)
      have hpc := hP.pred (t := t) (by omega) z
      have hR := hP.R t (by omega)
      set S := (P.kf z t).predCov with hS
      set S' := (P'.kf z t).predCov with hS'
      set W := pinv (P.C t * S * (P.C t)ᵀ + P.R t) with hW
      have hWs : Wᵀ = W := pinv_symm (symm_of_posSemidef (innov_posSemidef (P.C t) hpc hR))
      have hCt : (P.C t)ᵀ = Lᵀ * (P'.C t)ᵀ := by rw [← hC, transpose_mul]
      have hW' : pinv (P'.C t * S' * (P'.C t)ᵀ + P'.R t) = W := by
        rw [hW, h2, h.R t (by omega)]
        congr 2
        rw [hCt, ← hC]; simp only [Matrix.mul_assoc]
      have hin : P'.C t *ᵥ (P'.kf z t).predMean + P'.d t
          = P.C t *ᵥ (P.kf z t).predMean + P.d t := by
        rw [h1, mulVec_add, mulVec_mulVec, hC, add_assoc, h.d t (by omega)]
      set i := (z t).val - (P.C t *ᵥ (P.kf z t).predMean + P.d t) with hi
      have fm : (P.kf z t).filtMean = (P.kf z t).predMean + S *ᵥ (Lᵀ *ᵥ ((P'.C t)ᵀ *ᵥ (W *ᵥ i))) := by
        rw [a, Verif.gain, ← hW, hCt]
        simp only [← mulVec_mulVec]
      have fm' : (P'.kf z t).filtMean = (P'.kf z t).predMean + S' *ᵥ ((P'.C t)ᵀ *ᵥ (W *ᵥ i)) := by
        rw [a', Verif.gain, hW', hin]
        simp only [← mulVec_mulVec, hi]
      have fc : (P.kf z t).filtCov = S - S * (Lᵀ * ((P'.C t)ᵀ * (W * (P'.C t * (L * S))))) := by
        rw [b, Verif.gain, ← hW, hCt]
        conv_lhs => rw [← hC]
        simp only [Matrix.mul_assoc]
      have fc' : (P'.kf z t).filtCov = S' - S' * ((P'.C t)ᵀ * (W * (P'.C t * S'))) := by
        rw [b', Verif.gain, hW']
        simp only [Matrix.mul_assoc]
      set K := (P'.C t)ᵀ * (W * P'.C t) with hK
      have fcK : (P.kf z t).filtCov = S - S * (Lᵀ * (K * (L * S))) := by
        rw [fc, hK]; simp only [Matrix.mul_assoc]
      have fcK' : (P'.kf z t).filtCov = S' - S' * (K * S') := by
        rw [fc', hK]; simp only [Matrix.mul_assoc]
      refine ⟨(P'.C t)ᵀ *ᵥ (W *ᵥ i) + l - K *ᵥ (S' *ᵥ l),
        K + N - N * (S' * K) - K * (S' * N) + K * (S' * (N * (S' * K))), ?_, ?_, ?_, ?_⟩
      · rw [fm, fcK, h2]
        simp only [mulVec_add, mulVec_sub, sub_mulVec, ← mulVec_mulVec]
        abel
      · rw [fm', fcK']
        simp only [mulVec_add, mulVec_sub, sub_mulVec, ← mulVec_mulVec]
        abel
      · rw [fcK, h2]
        simp only [Matrix.mul_add, Matrix.add_mul, Matrix.mul_sub, Matrix.sub_mul,
          Matrix.mul_assoc]
        abel
      · rw [fcK']
        simp only [Matrix.mul_add, Matrix.add_mul, Matrix.mul_sub, Matrix.sub_mul,
          Matrix.mul_assoc]
        abel
  have key : ∀ j t, t + j = T →
    (∃ l : Vec n', (P.ks z T t).mean = (P.kf z t).predMean + (P.kf z t).predCov *ᵥ (Lᵀ *ᵥ l) ∧
      (P'.ks z T t).mean = (P'.kf z t).predMean + (P'.kf z t).predCov *ᵥ l) ∧
    (∃ N : Mat n' n', (P.ks z T t).cov
        = (P.kf z t).predCov - (P.kf z t).predCov * Lᵀ * N * L * (P.kf z t).predCov ∧
      (P'.ks z T t).cov
        = (P'.kf z t).predCov - (P'.kf z t).predCov * N * (P'.kf z t).predCov) := by
    intro j
    induction j with
    | zero =>
      intro t htT
      obtain rfl : t = T := by omega
      obtain ⟨l, N, e1, e2, e3, e4⟩ := corr t le_rfl 0 0
      rw [P.ks_last, P'.ks_last]
      simp only [mulVec_zero, add_zero, Matrix.mul_zero, Matrix.zero_mul, sub_zero] at e1 e2 e3 e4
      exact ⟨⟨l, e1, e2⟩, ⟨N, e3, e4⟩⟩
    | succ j ih =>
      intro t htT
      obtain ⟨⟨l, hl, hl'⟩, ⟨N, hN, hN'⟩⟩ := ih (t + 1) (by omega)
      have hA := h.A t (by omega)
      have hAt : Lᵀ * (P'.A t)ᵀ = (P.A t)ᵀ * Lᵀ := by rw [← transpose_mul, hA, transpose_mul]
      obtain ⟨l₁, N₁, e1, e2, e3, e4⟩ :=
        corr t (by omega) ((P'.A t)ᵀ *ᵥ l) ((P'.A t)ᵀ * N * P'.A t)
      have hfc := hP.filt (t := t) (by omega) z
      have hfc' := hP'.filt (t := t) (by omega) z
      have hQ := hP.Q t (by omega)
      have hQ' := hP'.Q t (by omega)
      have hJ := gain_mul (P.A t) hfc hQ
      have hJ' := gain_mul (P'.A t) hfc' hQ'
      have hJt : (P.A t * (P.kf z t).filtCov * (P.A t)ᵀ + P.Q t)
          * (Verif.gain (P.kf z t).filtCov (P.Q t) (P.A t))ᵀ = P.A t * (P.kf z t).filtCov := by
        have := congrArg Matrix.transpose hJ
        rwa [transpose_mul, symm_of_posSemidef (innov_posSemidef (P.A t) hfc hQ), transpose_mul,
          transpose_transpose, symm_of_posSemidef hfc] at this
      have hJt' : (P'.A t * (P'.kf z t).filtCov * (P'.A t)ᵀ + P'.Q t)
          * (Verif.gain (P'.kf z t).filtCov (P'.Q t) (P'.A t))ᵀ = P'.A t * (P'.kf z t).filtCov := by
        have := congrArg Matrix.transpose hJ'
        rwa [transpose_mul, symm_of_posSemidef (innov_posSemidef (P'.A t) hfc' hQ'),
          transpose_mul, transpose_transpose, symm_of_posSemidef hfc'] at this
      rw [(P.kf_pred_succ z t).1, (P.kf_pred_succ z t).2] at hl
      rw [(P'.kf_pred_succ z t).1, (P'.kf_pred_succ z t).2] at hl'
      rw [(P.kf_pred_succ z t).2] at hN
      rw [(P'.kf_pred_succ z t).2] at hN'
      rw [P.ks_lt' z (by omega), P'.ks_lt' z (by omega)]
      refine ⟨⟨l₁, ?_, ?_⟩, ⟨N₁, ?_, ?_⟩⟩
      · simp only
        rw [hl, add_sub_cancel_left, mulVec_mulVec, hJ, ← e1, mulVec_mulVec,
          mulVec_mulVec, mulVec_mulVec, Matrix.mul_assoc, ← hAt, ← Matrix.mul_assoc]
      · simp only
        rw [hl', add_sub_cancel_left, mulVec_mulVec, hJ', ← e2, mulVec_mulVec]
      · simp only
        rw [hN, sub_sub_cancel_left, ← e3, Matrix.mul_neg, Matrix.neg_mul, ← sub_eq_add_neg]
        congr 1
        calc Verif.gain (P.kf z t).filtCov (P.Q t) (P.A t)
              * ((P.A t * (P.kf z t).filtCov * (P.A t)ᵀ + P.Q t) * Lᵀ * N * L
                * (P.A t * (P.kf z t).filtCov * (P.A t)ᵀ + P.Q t))
              * (Verif.gain (P.kf z t).filtCov (P.Q t) (P.A t))ᵀ
            = (Verif.gain (P.kf z t).filtCov (P.Q t) (P.A t)
              * (P.A t * (P.kf z t).filtCov * (P.A t)ᵀ + P.Q t)) * Lᵀ * N * L
                * ((P.A t * (P.kf z t).filtCov * (P.A t)ᵀ + P.Q t)
              * (Verif.gain (P.kf z t).filtCov (P.Q t) (P.A t))ᵀ) := by
              simp only [Matrix.mul_assoc]
          _ = (P.kf z t).filtCov * ((P.A t)ᵀ * Lᵀ) * N * (L * P.A t) * (P.kf z t).filtCov := by
              rw [hJ, hJt]; simp only [Matrix.mul_assoc]
          _ = _ := by rw [← hAt, ← hA]; simp only [Matrix.mul_assoc]
      · simp only
        rw [hN', sub_sub_cancel_left, ← e4, Matrix.mul_neg, Matrix.neg_mul, ← sub_eq_add_neg]
        congr 1
        calc Verif.gain (P'.kf z t).filtCov (P'.Q t) (P'.A t)
              * ((P'.A t * (P'.kf z t).filtCov * (P'.A t)ᵀ + P'.Q t) * N
                * (P'.A t * (P'.kf z t).filtCov * (P'.A t)ᵀ + P'.Q t))
              * (Verif.gain (P'.kf z t).filtCov (P'.Q t) (P'.A t))ᵀ
            = (Verif.gain (P'.kf z t).filtCov (P'.Q t) (P'.A t)
              * (P'.A t * (P'.kf z t).filtCov * (P'.A t)ᵀ + P'.Q t)) * N
                * ((P'.A t * (P'.kf z t).filtCov * (P'.A t)ᵀ + P'.Q t)
              * (Verif.gain (P'.kf z t).filtCov (P'.Q t) (P'.A t))ᵀ) := by
              simp only [Matrix.mul_assoc]
          _ = _ := by rw [hJ', hJt']; simp only [Matrix.mul_assoc]
  exact key (T - t) t (by omega)

theorem PFun.StateMap.smooth (h : P.StateMap P' L c (T + 1)) (hP : P.PSD (T + 1))
    (z : ℕ → Obs m) {t : ℕ} (ht : t ≤ T) :
    (P'.ks z T t).mean = L *ᵥ (P.ks z T t).mean + c ∧
      (P'.ks z T t).cov = L * (P.ks z T t).cov * Lᵀ := by
  obtain ⟨⟨l, hl, hl'⟩, ⟨N, hN, hN'⟩⟩ := h.adjoint hP z ht
  obtain ⟨h1, h2⟩ := h.pred z (t := t) (by omega)
  constructor
  · rw [hl, hl', h1, h2, mulVec_add, ← mulVec_mulVec, ← mulVec_mulVec]
    abel
  · rw [hN, hN', h2]
    simp only [Matrix.mul_sub, Matrix.sub_mul, Matrix.mul_assoc]

end statemap

/-! ### Affine combinations of data -/

section affine
variable {P : PFun n m} {z z₁ z₂ : ℕ → Obs m} {a b : ℝ}

/-- Rows of `z` are missing together with those of `z₁` and `z₂` and otherwise combine them. -/
def Combines (a b : ℝ) (z z₁ z₂ : ℕ → Obs m) : Prop :=
  ∀ t, ((z t).missing ↔ (z₁ t).missing) ∧ ((z t).missing ↔ (z₂ t).missing) ∧
    (¬ (z t).missing → (z t).val = a • (z₁ t).val + b • (z₂ t).val)

theorem PFun.kf_combine (hab : a + b = 1) (h : Combines a b z z₁ z₂) (t : ℕ) :
    (P.kf z t).predMean = a • (P.kf z₁ t).predMean + b • (P.kf z₂ t).predMean ∧
    (P.kf z t).filtMean = a • (P.kf z₁ t).filtMean + b • (P.kf z₂ t).filtMean := by
  have step : ∀ t, (P.kf z t).predMean = a • (P.kf z₁ t).predMean + b • (P.kf z₂ t).predMean →
      (P.kf z t).filtMean = a • (P.kf z₁ t).filtMean + b • (P.kf z₂ t).filtMean := by
    intro t hp
    obtain ⟨m1, m2, hv⟩ := h t
    by_cases hm : (z t).missing
    · rw [(P.kf_missing z hm).2.1, (P.kf_missing z₁ (m1.mp hm)).2.1,
        (P.kf_missing z₂ (m2.mp hm)).2.1, hp]
    · rw [(P.kf_observed z hm).2.1, (P.kf_observed z₁ (mt m1.mpr hm)).2.1,
        (P.kf_observed z₂ (mt m2.mpr hm)).2.1, hv hm, hp,
        (P.kf_cov_congr (z := z₁) (z' := z) (t := t) fun i _ => (h i).1.symm).1,
        (P.kf_cov_congr (z := z₂) (z' := z) (t := t) fun i _ => (h i).2.1.symm).1]
      have hd : P.d t = a • P.d t + b • P.d t := by rw [← add_smul, hab, one_smul]
      conv_lhs => rw [hd]
      simp only [mulVec_add, mulVec_sub, mulVec_smul, smul_add, smul_sub]
      abel
  induction t with
  | zero =>
    have h0 : (P.kf z 0).predMean = a • (P.kf z₁ 0).predMean + b • (P.kf z₂ 0).predMean := by
      show P.mu0 = a • P.mu0 + b • P.mu0
      rw [← add_smul, hab, one_smul]
    exact ⟨h0, step 0 h0⟩
  | succ t ih =>
    have hp : (P.kf z (t + 1)).predMean
        = a • (P.kf z₁ (t + 1)).predMean + b • (P.kf z₂ (t + 1)).predMean := by
      rw [(P.kf_pred_succ z t).1, (P.kf_pred_succ z₁ t).1, (P.kf_pred_succ z₂ t).1, ih.2]
      have hd : P.b t = a • P.b t + b • P.b t := by rw [← add_smul, hab, one_smul]
      conv_lhs => rw [hd]
      simp only [mulVec_add, mulVec_smul, smul_add]
      abel
    exact ⟨hp, step _ hp⟩

theorem PFun.ks_combine (hab : a + b = 1) (h : Combines a b z z₁ z₂) {T t : ℕ} (ht : t ≤ T) :
    (P.ks z T t).mean = a • (P.ks z₁ T t).mean + b • (P.ks z₂ T t).mean := by
  obtain ⟨j, rfl⟩ : ∃ j, T = t + j := ⟨T - t, by omega⟩
  induction j generalizing t with
  | zero =>
    rw [Nat.add_zero, P.ks_last, P.ks_last, P.ks_last]
    exact (P.kf_combine hab h t).2
  | succ j ih =>
    rw [show t + (j + 1) = t + 1 + j by omega]
    rw [P.ks_lt' z (by omega), P.ks_lt' z₁ (by omega), P.ks_lt' z₂ (by omega)]
    simp only
    rw [ih (t := t + 1) (by omega), (P.kf_combine hab h t).2,
      (P.kf_cov_congr (z := z₁) (z' := z) (t := t) fun i _ => (h i).1.symm).2.2,
      (P.kf_cov_congr (z := z₂) (z' := z) (t := t) fun i _ => (h i).2.1.symm).2.2]
    have hd : P.b t = a • P.b t + b • P.b t := by rw [← add_smul, hab, one_smul]
    conv_lhs => rw [hd]
    simp only [mulVec_add, mulVec_sub, mulVec_smul, smul_add, smul_sub]
    abel

end affine

/-! ### Zero innovations -/

/-- The unconditional mean path. -/
def PFun.path (P : PFun n m) : ℕ → Vec n
  | 0 => P.mu0
  | t + 1 => P.A t *ᵥ P.path t + P.b t

theorem PFun.kf_path (P : PFun n m) {z : ℕ → Obs m} {T : ℕ}
    (h : ∀ t, t < T → ¬ (z t).missing → (z t).val = P.C t *ᵥ P.path t + P.d t) {t : ℕ}
    (ht : t < T) : (P.kf z t).predMean = P.path t ∧ (P.kf z t).filtMean = P.path t := by
  have step : ∀ t, t < T → (P.kf z t).predMean = P.path t → (P.kf z t).filtMean = P.path t := by
    intro t ht hp
    by_cases hm : (z t).missing
    · rw [(P.kf_missing z hm).2.1, hp]
    · rw [(P.kf_observed z hm).2.1, h t ht hm, hp, sub_self, mulVec_zero, add_zero]
  induction t with
  | zero => exact ⟨rfl, step 0 ht rfl⟩
  | succ t ih =>
    have hp : (P.kf z (t + 1)).predMean = P.path (t + 1) := by
      rw [(P.kf_pred_succ z t).1, (ih (by omega)).2]; rfl
    exact ⟨hp, step _ ht hp⟩

theorem PFun.ks_path (P : PFun n m) {z : ℕ → Obs m} {T : ℕ}
    (h : ∀ t, t < T + 1 → ¬ (z t).missing → (z t).val = P.C t *ᵥ P.path t + P.d t) {t : ℕ}
    (ht : t ≤ T) : (P.ks z T t).mean = P.path t := by
  obtain ⟨j, rfl⟩ : ∃ j, T = t + j := ⟨T - t, by omega⟩
  induction j generalizing t with
  | zero =>
    rw [Nat.add_zero] at h ⊢
    rw [P.ks_last]; exact (P.kf_path h (by omega)).2
  | succ j ih =>
    rw [show t + (j + 1) = t + 1 + j by omega] at h ⊢
    rw [P.ks_lt' z (by omega)]
    simp only
    rw [ih h (by omega), (P.kf_path h (by omega)).2]
    simp [PFun.path]

/-! ### Monotonicity of the covariances -/

/-- The updated covariance is monotone in the predicted covariance and the noise. -/
theorem updated_mono {n m : Type*} [Fintype n] [DecidableEq n] [Fintype m] [DecidableEq m]
    {P P' : Matrix n n ℝ} {R R' : Matrix m m ℝ} (C : Matrix m n ℝ)
    (hP : P.PosSemidef) (hR : R.PosSemidef) (hPP : (P' - P).PosSemidef) (hRR : (R' - R).PosSemidef) :
    ((P' - Verif.gain P' R' C * C * P') - (P - Verif.gain P R C * C * P)).PosSemidef := by
  have hP' : P'.PosSemidef := by have := hP.add hPP; rwa [add_sub_cancel] at this
  have hR' : R'.PosSemidef := by have := hR.add hRR; rwa [add_sub_cancel] at this
  have e1 := updated_eq C hP' hR'
  have e2 := joseph C hP hR (Verif.gain P' R' C)
  set K := Verif.gain P' R' C
  have : (P' - K * C * P') - (P - Verif.gain P R C * C * P)
      = ((1 - K * C) * (P' - P) * (1 - K * C)ᵀ + K * (R' - R) * Kᵀ)
        + (K - Verif.gain P R C) * (C * P * Cᵀ + R) * (K - Verif.gain P R C)ᵀ := by
    rw [e1, sub_eq_iff_eq_add, add_assoc, add_comm ((K - _) * _ * _), ← e2]
    generalize 1 - K * C = D
    simp only [Matrix.mul_sub, Matrix.sub_mul]
    abel
  rw [this]
  exact ((posSemidef_conj' hPP _).add (posSemidef_conj' hRR _)).add
    (posSemidef_conj' (innov_posSemidef C hP hR) _)

theorem updated_le {n m : Type*} [Fintype n] [DecidableEq n] [Fintype m] [DecidableEq m]
    {P : Matrix n n ℝ} {R : Matrix m m ℝ} (C : Matrix m n ℝ)
    (hP : P.PosSemidef) (hR : R.PosSemidef) :
    (P - (P - Verif.gain P R C * C * P)).PosSemidef := by
  rw [sub_sub_cancel, ← gain_mul_transpose _ hP hR]
  exact posSemidef_conj' (innov_posSemidef _ hP hR) _

/-- More noise, a wider prior and more missing rows give larger covariances. -/
theorem PFun.kf_mono {P P' : PFun n m} {z z' : ℕ → Obs m} {T : ℕ} (hP : P.PSD T)
    (hA : ∀ t, t + 1 < T → P'.A t = P.A t) (hC : ∀ t, t < T → P'.C t = P.C t)
    (hQ : ∀ t, t + 1 < T → (P'.Q t - P.Q t).PosSemidef)
    (hR : ∀ t, t < T → (P'.R t - P.R t).PosSemidef) (hS : (P'.S0 - P.S0).PosSemidef)
    (hz : ∀ t, t < T → (z t).missing → (z' t).missing) {t : ℕ} (ht : t < T) :
    ((P'.kf z' t).predCov - (P.kf z t).predCov).PosSemidef ∧
      ((P'.kf z' t).filtCov - (P.kf z t).filtCov).PosSemidef := by
  have step : ∀ t, t < T → ((P'.kf z' t).predCov - (P.kf z t).predCov).PosSemidef →
      ((P'.kf z' t).filtCov - (P.kf z t).filtCov).PosSemidef := by
    intro t ht hp
    have hpc := hP.pred ht z
    by_cases hm : (z t).missing
    · rw [(P.kf_missing z hm).2.2, (P'.kf_missing z' (hz t ht hm)).2.2]
      exact hp
    · rw [(P.kf_observed z hm).2.2]
      by_cases hm' : (z' t).missing
      · rw [(P'.kf_missing z' hm').2.2]
        have := hp.add (updated_le (P.C t) hpc (hP.R t ht))
        rwa [sub_add_sub_cancel] at this
      · rw [(P'.kf_observed z' hm').2.2, hC t ht]
        exact updated_mono (P.C t) hpc (hP.R t ht) hp (hR t ht)
  induction t with
  | zero => exact ⟨hS, step 0 ht hS⟩
  | succ t ih =>
    have hp : ((P'.kf z' (t + 1)).predCov - (P.kf z (t + 1)).predCov).PosSemidef := by
      rw [(P.kf_pred_succ z t).2, (P'.kf_pred_succ z' t).2, hA t ht]
      have := (posSemidef_conj' (ih (by omega)).2 (P.A t)).add (hQ t ht)
      rw [Matrix.mul_sub, Matrix.sub_mul] at this
      convert this using 1
      abel
    exact ⟨hp, step _ ht hp⟩

/-! ### Change of observation coordinates -/

/-- Observations `z' = L z + c` (functions of time; `L` invertible). -/
structure PFun.ObsMap (P P' : PFun n m) (L : ℕ → Mat m m) (c : ℕ → Vec m) (T : ℕ) : Prop where
  A : ∀ t, t + 1 < T → P'.A t = P.A t
  b : ∀ t, t + 1 < T → P'.b t = P.b t
  Q : ∀ t, t + 1 < T → P'.Q t = P.Q t
  C : ∀ t, t < T → P'.C t = L t * P.C t
  d : ∀ t, t < T → P'.d t = L t *ᵥ P.d t + c t
  R : ∀ t, t < T → P'.R t = L t * P.R t * (L t)ᵀ
  mu0 : P'.mu0 = P.mu0
  S0 : P'.S0 = P.S0

theorem gain_obsMap {n m : Type*} [Fintype n] [DecidableEq n] [Fintype m] [DecidableEq m]
    {P : Matrix n n ℝ} {R : Matrix m m ℝ} (C : Matrix m n ℝ)
    (hP : P.PosSemidef) (hR : R.PosSemidef) {L : Matrix m m ℝ} (hL : IsUnit L.det) :
    Verif.gain P (L * R * Lᵀ) (L * C) * L * (C * P * Cᵀ + R) = P * Cᵀ ∧
    Verif.gain P (L * R * Lᵀ) (L * C) * (L * C) * P = Verif.gain P R C * C * P := by
  have hR' : (L * R * Lᵀ).PosSemidef := posSemidef_conj' hR L
  have h1 := gain_mul (L * C) hP hR'
  have hLt : IsUnit Lᵀ.det := by rwa [det_transpose]
  have e : L * C * P * (L * C)ᵀ + L * R * Lᵀ = L * (C * P * Cᵀ + R) * Lᵀ := by
    rw [transpose_mul, Matrix.mul_add, Matrix.add_mul]
    simp only [Matrix.mul_assoc]
  have h2 : Verif.gain P (L * R * Lᵀ) (L * C) * L * (C * P * Cᵀ + R) = P * Cᵀ := by
    rw [e, transpose_mul] at h1
    have := congrArg (fun M => M * (Lᵀ)⁻¹) h1
    simp only [Matrix.mul_assoc, mul_nonsing_inv _ hLt, Matrix.mul_one] at this ⊢
    exact this
  refine ⟨h2, ?_⟩
  have hs := symm_of_posSemidef (innov_posSemidef C hP hR)
  have h3 : (C * P * Cᵀ + R) * (Verif.gain P R C)ᵀ = C * P := by
    have := congrArg Matrix.transpose (gain_mul C hP hR)
    rwa [transpose_mul, hs, transpose_mul, transpose_transpose, symm_of_posSemidef hP] at this
  calc _ = Verif.gain P (L * R * Lᵀ) (L * C) * L * (C * P) := by simp only [Matrix.mul_assoc]
    _ = Verif.gain P (L * R * Lᵀ) (L * C) * L * (C * P * Cᵀ + R) * (Verif.gain P R C)ᵀ := by
        rw [Matrix.mul_assoc _ _ (Verif.gain P R C)ᵀ, h3]
    _ = Verif.gain P R C * (C * P * Cᵀ + R) * (Verif.gain P R C)ᵀ := by
        rw [h2, gain_mul C hP hR]
    _ = _ := gain_mul_transpose C hP hR

/-- With an invertible innovation covariance the gain itself transforms. -/
theorem gain_obsMap_inv {n m : Type*} [Fintype n] [DecidableEq n] [Fintype m] [DecidableEq m]
    {P : Matrix n n ℝ} {R : Matrix m m ℝ} (C : Matrix m n ℝ)
    (hP : P.PosSemidef) (hR : R.PosSemidef) (hS : IsUnit (C * P * Cᵀ + R).det)
    {L : Matrix m m ℝ} (hL : IsUnit L.det) :
    Verif.gain P (L * R * Lᵀ) (L * C) * L = Verif.gain P R C := by
  have h := (gain_obsMap C hP hR hL).1.trans (gain_mul C hP hR).symm
  generalize C * P * Cᵀ + R = S at h hS
  have := congrArg (fun M => M * S⁻¹) h
  simpa only [mul_nonsing_inv_cancel_right _ _ hS] using this

theorem PFun.ObsMap.kf {P P' : PFun n m} {L : ℕ → Mat m m} {c : ℕ → Vec m} {T : ℕ}
    (h : P.ObsMap P' L c T) (hP : P.PSD T) (hL : ∀ t, t < T → IsUnit (L t).det)
    {z z' : ℕ → Obs m} (hz : ∀ t, ((z t).missing ↔ (z' t).missing)) {t : ℕ} (ht : t < T) :
    ((P'.kf z' t).predCov = (P.kf z t).predCov ∧ (P'.kf z' t).filtCov = (P.kf z t).filtCov) ∧
    ((∀ i, i ≤ t → ¬ (z i).missing →
      (P.C i * (P.kf z i).predCov * (P.C i)ᵀ + P.R i).PosDef ∧ (z' i).val = L i *ᵥ (z i).val + c i) →
      (P'.kf z' t).predMean = (P.kf z t).predMean ∧
      (P'.kf z' t).filtMean = (P.kf z t).filtMean) := by
  have stepC : ∀ t, t < T → (P'.kf z' t).predCov = (P.kf z t).predCov →
      (P'.kf z' t).filtCov = (P.kf z t).filtCov := by
    intro t ht hp
    by_cases hm : (z t).missing
    · rw [(P.kf_missing z hm).2.2, (P'.kf_missing z' ((hz t).mp hm)).2.2, hp]
    · rw [(P.kf_observed z hm).2.2, (P'.kf_observed z' (mt (hz t).mpr hm)).2.2, hp, h.C t ht,
        h.R t ht, (gain_obsMap (P.C t) (hP.pred ht z) (hP.R t ht) (hL t ht)).2]
  have stepM : ∀ t, t < T → (P'.kf z' t).predCov = (P.kf z t).predCov →
      (¬ (z t).missing → (P.C t * (P.kf z t).predCov * (P.C t)ᵀ + P.R t).PosDef ∧
        (z' t).val = L t *ᵥ (z t).val + c t) →
      (P'.kf z' t).predMean = (P.kf z t).predMean →
      (P'.kf z' t).filtMean = (P.kf z t).filtMean := by
    intro t ht hc hR hp
    by_cases hm : (z t).missing
    · rw [(P.kf_missing z hm).2.1, (P'.kf_missing z' ((hz t).mp hm)).2.1, hp]
    · obtain ⟨hpos, hv⟩ := hR hm
      have hg := gain_obsMap_inv (P.C t) (hP.pred ht z) (hP.R t ht) hpos.det_pos.ne'.isUnit
        (hL t ht)
      rw [(P.kf_observed z hm).2.1, (P'.kf_observed z' (mt (hz t).mpr hm)).2.1, hp, hc, hv,
        h.C t ht, h.R t ht, h.d t ht]
      have e : L t *ᵥ (z t).val + c t
          - ((L t * P.C t) *ᵥ (P.kf z t).predMean + (L t *ᵥ P.d t + c t))
          = L t *ᵥ ((z t).val - (P.C t *ᵥ (P.kf z t).predMean + P.d t)) := by
        simp only [mulVec_sub, mulVec_add, ← mulVec_mulVec]
        abel
      rw [e, mulVec_mulVec, hg]
  induction t with
  | zero =>
    have hc : (P'.kf z' 0).predCov = (P.kf z 0).predCov := h.S0
    exact ⟨⟨hc, stepC 0 ht hc⟩, fun hi => ⟨h.mu0, stepM 0 ht hc (hi 0 le_rfl) h.mu0⟩⟩
  | succ t ih =>
    obtain ⟨⟨-, i1⟩, i2⟩ := ih (by omega)
    have hc : (P'.kf z' (t + 1)).predCov = (P.kf z (t + 1)).predCov := by
      rw [(P.kf_pred_succ z t).2, (P'.kf_pred_succ z' t).2, h.A t ht, h.Q t ht, i1]
    refine ⟨⟨hc, stepC _ ht hc⟩, fun hi => ?_⟩
    have hm : (P'.kf z' (t + 1)).predMean = (P.kf z (t + 1)).predMean := by
      rw [(P.kf_pred_succ z t).1, (P'.kf_pred_succ z' t).1, h.A t ht, h.b t ht,
        (i2 fun i hi' => hi i (by omega)).2]
    exact ⟨hm, stepM _ ht hc (hi _ le_rfl) hm⟩

theorem PFun.ObsMap.ks {P P' : PFun n m} {L : ℕ → Mat m m} {c : ℕ → Vec m} {T : ℕ}
    (h : P.ObsMap P' L c (T + 1)) (hP : P.PSD (T + 1)) (hL : ∀ t, t < T + 1 → IsUnit (L t).det)
    {z z' : ℕ → Obs m} (hz : ∀ t, ((z t).missing ↔ (z' t).missing)) {t : ℕ} (ht : t ≤ T) :
    (P'.ks z' T t).cov = (P.ks z T t).cov ∧
    ((∀ i, i ≤ T → ¬ (z i).missing →
      (P.C i * (P.kf z i).predCov * (P.C i)ᵀ + P.R i).PosDef ∧ (z' i).val = L i *ᵥ (z i).val + c i) →
      (P'.ks z' T t).mean = (P.ks z T t).mean) := by
  have key : ∀ j t, t + j = T → (P'.ks z' T t).cov = (P.ks z T t).cov ∧
    ((∀ i, i ≤ T → ¬ (z i).missing →
      (P.C i * (P.kf z i).predCov * (P.C i)ᵀ + P.R i).PosDef ∧ (z' i).val = L i *ᵥ (z i).val + c i) →
      (P'.ks z' T t).mean = (P.ks z T t).mean) := by
    intro j
    induction j with
    | zero =>
      intro t htT
      obtain rfl : t = T := by omega
      rw [P.ks_last, P'.ks_last]
      have := h.kf hP hL hz (t := t) (by omega)
      exact ⟨this.1.2, fun hi => (this.2 hi).2⟩
    | succ j ih =>
      intro t htT
      obtain ⟨i1, i2⟩ := ih (t + 1) (by omega)
      have := h.kf hP hL hz (t := t) (by omega)
      rw [P.ks_lt' z (by omega), P'.ks_lt' z' (by omega), i1, this.1.2, h.A t (by omega),
        h.Q t (by omega), h.b t (by omega)]
      refine ⟨rfl, fun hi => ?_⟩
      simp only
      rw [i2 hi, (this.2 fun i hi' => hi i (by omega)).2]
  exact key (T - t) t (by omega)

end Verif
