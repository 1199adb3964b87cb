import Verif.Proofs.LeaveOneOut
import Verif.Proofs.Information

/-!
# Lemmas for C115: the log likelihood without one row
-/

open Matrix

namespace Verif

variable {n m N L m₁ m₂ : ℕ}

/-- The information of two rows adds up: what the prior and the first row add, and what the state
corrected by the first row and the second row add. -/
theorem infoTerm_add {P P₁ W₁ W₂ : Mat n n} {mu mu₁ e₁ e₂ : Vec n} (sP : P₁ᵀ = P₁)
    (sW : W₂ᵀ = W₂) (u₁ : IsUnit (1 + P * W₁).det) (u₂ : IsUnit (1 + P₁ * W₂).det)
    (hP : (1 + P * W₁) * P₁ = P) (hm : (1 + P * W₁) *ᵥ mu₁ = mu + P *ᵥ e₁)
    (p₁ : 0 < (1 + P * W₁).det) (p₂ : 0 < (1 + P₁ * W₂).det) :
    infoTerm mu P W₁ e₁ + infoTerm mu₁ P₁ W₂ e₂ = infoTerm mu P (W₁ + W₂) (e₁ + e₂) := by
  have eU : 1 + P * (W₁ + W₂) = (1 + P * W₁) * (1 + P₁ * W₂) := by
    rw [Matrix.mul_add (1 + P * W₁), Matrix.mul_one, ← Matrix.mul_assoc, hP, Matrix.mul_add]
    abel
  have i1 : (1 + P * W₁)⁻¹ * P = P₁ := by
    have := nonsing_inv_mul_cancel_left (1 + P * W₁) P₁ u₁
    rwa [hP] at this
  set f := e₁ - W₁ *ᵥ mu with hf
  set g := e₂ - W₂ *ᵥ mu with hg
  have hmu : mu₁ = mu + P₁ *ᵥ f := by
    refine eq_of_unit_mulVec u₁ ?_
    rw [hm, mulVec_add, mulVec_mulVec, hP, hf, mulVec_sub, mulVec_mulVec, add_mulVec, one_mulVec]
    abel
  obtain ⟨X, hX⟩ : ∃ X, X = (1 + P₁ * W₂)⁻¹ * P₁ := ⟨_, rfl⟩
  have x1 : X + P₁ * (W₂ * X) = P₁ := by
    have : (1 + P₁ * W₂) * X = P₁ := by rw [hX, mul_nonsing_inv_cancel_left _ _ u₂]
    rwa [Matrix.add_mul, Matrix.one_mul, Matrix.mul_assoc] at this
  have sX : Xᵀ = X := by
    have t : Xᵀ + Xᵀ * W₂ * P₁ = P₁ := by
      have := congrArg transpose x1
      rwa [transpose_add, transpose_mul, transpose_mul, sP, sW] at this
    have a : Xᵀ * (1 + W₂ * P₁) = P₁ := by
      rw [Matrix.mul_add, Matrix.mul_one, ← Matrix.mul_assoc, t]
    refine eq_of_unit_mul u₂ ?_
    have b : (1 + P₁ * W₂) * X = P₁ := by rw [Matrix.add_mul, Matrix.one_mul, Matrix.mul_assoc, x1]
    have uT : IsUnit (1 + W₂ * P₁).det := by
      have := det_transpose (1 + P₁ * W₂)
      rw [transpose_add, transpose_one, transpose_mul, sP, sW] at this
      rwa [this]
    have c : X * (1 + W₂ * P₁) = P₁ := by
      refine eq_of_unit_mul u₂ ?_
      rw [← Matrix.mul_assoc, b]
      rw [Matrix.mul_add, Matrix.add_mul, Matrix.one_mul, Matrix.mul_one, Matrix.mul_assoc]
    have d : Xᵀ = X := by
      have h1 := mul_nonsing_inv_cancel_right (1 + W₂ * P₁) Xᵀ uT
      have h2 := mul_nonsing_inv_cancel_right (1 + W₂ * P₁) X uT
      rw [a] at h1
      rw [c] at h2
      exact h1.symm.trans h2
    rw [d]
  have x2 : X + X * (W₂ * P₁) = P₁ := by
    have := congrArg transpose x1
    rwa [transpose_add, transpose_mul, transpose_mul, sP, sW, sX, Matrix.mul_assoc] at this
  have i2 : (1 + P * (W₁ + W₂))⁻¹ * P = X := by
    rw [eU, Matrix.mul_inv_rev, Matrix.mul_assoc, i1, hX]
  have hlog : Real.log (1 + P * (W₁ + W₂)).det
      = Real.log (1 + P * W₁).det + Real.log (1 + P₁ * W₂).det := by
    rw [eU, det_mul, Real.log_mul p₁.ne' p₂.ne']
  have hf2 : e₂ - W₂ *ᵥ mu₁ = g - W₂ *ᵥ (P₁ *ᵥ f) := by
    rw [hmu, mulVec_add, hg]
    abel
  have hsum : e₁ + e₂ - (W₁ + W₂) *ᵥ mu = f + g := by
    rw [add_mulVec, hf, hg]
    abel
  simp only [infoTerm, hlog, mulVec_mulVec, i1, i2, ← hX, hf2, hsum, ← hf]
  have sym : ∀ {S : Mat n n}, Sᵀ = S → ∀ a b : Vec n, a ⬝ᵥ (S *ᵥ b) = b ⬝ᵥ (S *ᵥ a) := by
    intro S hS a b
    rw [dotProduct_mulVec, ← mulVec_transpose, hS, dotProduct_comm]
  -- the products in which the two rows meet
  obtain ⟨v, hv⟩ : ∃ v, v = P₁ *ᵥ f := ⟨_, rfl⟩
  have kX : X *ᵥ (W₂ *ᵥ v) = v - X *ᵥ f := by
    have := congrArg (fun M => M *ᵥ f) x2
    simp only [add_mulVec, ← mulVec_mulVec, ← hv] at this
    exact eq_sub_of_add_eq' this
  have k1 : g ⬝ᵥ (X *ᵥ (W₂ *ᵥ v)) = g ⬝ᵥ v - g ⬝ᵥ (X *ᵥ f) := by rw [kX, dotProduct_sub]
  have k2 : (W₂ *ᵥ v) ⬝ᵥ (X *ᵥ (W₂ *ᵥ v)) = v ⬝ᵥ (W₂ *ᵥ v) - (f ⬝ᵥ v - f ⬝ᵥ (X *ᵥ f)) := by
    rw [kX, dotProduct_sub, dotProduct_comm _ v, sym sX (W₂ *ᵥ v) f, kX, dotProduct_sub]
  have k3 : (W₂ *ᵥ v) ⬝ᵥ (X *ᵥ g) = g ⬝ᵥ (X *ᵥ (W₂ *ᵥ v)) := sym sX _ _
  have k4 : g ⬝ᵥ (X *ᵥ f) = f ⬝ᵥ (X *ᵥ g) := sym sX _ _
  have k5 : g ⬝ᵥ v = v ⬝ᵥ e₂ - v ⬝ᵥ (W₂ *ᵥ mu) := by rw [hg, dotProduct_comm, dotProduct_sub]
  have k6 : mu ⬝ᵥ (W₂ *ᵥ v) = v ⬝ᵥ (W₂ *ᵥ mu) := sym sW _ _
  simp only [← mulVec_mulVec, ← hv, hmu]
  simp only [mulVec_add, mulVec_sub, add_mulVec, dotProduct_add, dotProduct_sub, add_dotProduct,
    sub_dotProduct, k2, k3, k1, k6, k5, k4]
  ring

theorem info_det_pos {P : Mat n n} {R : Mat m m} (C : Mat m n) (hP : P.PosSemidef) (hR : R.PosDef) :
    0 < (1 + P * (Cᵀ * R⁻¹ * C)).det := by
  have hS : (C * P * Cᵀ + R).PosDef := posDef_conj_add hP hR C
  have uR : IsUnit R.det := hR.det_pos.ne'.isUnit
  have hdet : (C * P * Cᵀ + R).det = R.det * (1 + P * (Cᵀ * R⁻¹ * C)).det := by
    have e : (1 + P * (Cᵀ * R⁻¹ * C)).det = (1 + R⁻¹ * (C * P * Cᵀ)).det := by
      rw [show P * (Cᵀ * R⁻¹ * C) = (P * Cᵀ) * (R⁻¹ * C) by simp only [Matrix.mul_assoc],
        det_one_add_mul_comm]
      simp only [Matrix.mul_assoc]
    rw [e, ← det_mul, Matrix.mul_add, Matrix.mul_one, ← Matrix.mul_assoc, mul_nonsing_inv _ uR,
      Matrix.one_mul, add_comm]
  have := hS.det_pos
  rw [hdet] at this
  exact (pos_iff_pos_of_mul_pos this).mp hR.det_pos

/-- Log density of a row given the prior moments of the state. -/
noncomputable def priorLL (C : Mat m n) (R : Mat m m) (d : Vec m) (mean : Vec n) (cov : Mat n n)
    (x : Vec m) : ℝ := logN x (C *ᵥ mean + d) (C * cov * Cᵀ + R)

/-- The log density of two rows is that of the one plus that of the other given the one. -/
theorem priorLL_add {P : Mat n n} {R₁ : Mat m₁ m₁} {R₂ : Mat m₂ m₂} (hP : P.PosSemidef)
    (h₁ : R₁.PosDef) (h₂ : R₂.PosDef) (C₁ : Mat m₁ n) (C₂ : Mat m₂ n) (d₁ : Vec m₁) (d₂ : Vec m₂)
    {o₁ : Obs m₁} (q₁ : ¬ o₁.missing) (x₂ : Vec m₂) (mean : Vec n) :
    priorLL C₁ R₁ d₁ mean P o₁.val + priorLL C₂ R₂ d₂ (filterCorrect C₁ R₁ d₁ mean P o₁).2.1
        (filterCorrect C₁ R₁ d₁ mean P o₁).2.2 x₂
      = logN o₁.val d₁ R₁ + logN x₂ d₂ R₂ + infoTerm mean P (C₁ᵀ * R₁⁻¹ * C₁ + C₂ᵀ * R₂⁻¹ * C₂)
          ((C₁ᵀ * R₁⁻¹) *ᵥ (o₁.val - d₁) + (C₂ᵀ * R₂⁻¹) *ᵥ (x₂ - d₂)) := by
  have hP₁ : (P - gain P R₁ C₁ * C₁ * P).PosSemidef := updated_posSemidef C₁ hP h₁.posSemidef
  simp only [filterCorrect_gain q₁, priorLL]
  rw [logN_info C₁ hP h₁, logN_info C₂ hP₁ h₂, ← infoTerm_add (P₁ := P - gain P R₁ C₁ * C₁ * P)
    (mu₁ := mean + gain P R₁ C₁ *ᵥ (o₁.val - (C₁ *ᵥ mean + d₁))) ?_ ?_ (info_unit C₁ hP h₁)
    (info_unit C₂ hP₁ h₂) (info_cov C₁ hP h₁) (info_mean C₁ hP h₁ _ _ _) (info_det_pos C₁ hP h₁)
    (info_det_pos C₂ hP₁ h₂)]
  · ring
  · have := hP₁.isHermitian.eq
    rwa [conjTranspose_eq_transpose_of_trivial] at this
  · have : (R₂⁻¹)ᵀ = R₂⁻¹ := by
      have := h₂.inv.isHermitian.eq
      rwa [conjTranspose_eq_transpose_of_trivial] at this
    rw [transpose_mul, transpose_mul, transpose_transpose, this, Matrix.mul_assoc]

theorem priorLL_order {P : Mat n n} {R₁ : Mat m₁ m₁} {R₂ : Mat m₂ m₂} (hP : P.PosSemidef)
    (h₁ : R₁.PosDef) (h₂ : R₂.PosDef) (C₁ : Mat m₁ n) (C₂ : Mat m₂ n) (d₁ : Vec m₁) (d₂ : Vec m₂)
    {o₁ : Obs m₁} {o₂ : Obs m₂} (q₁ : ¬ o₁.missing) (q₂ : ¬ o₂.missing) (mean : Vec n) :
    priorLL C₁ R₁ d₁ mean P o₁.val + priorLL C₂ R₂ d₂ (filterCorrect C₁ R₁ d₁ mean P o₁).2.1
        (filterCorrect C₁ R₁ d₁ mean P o₁).2.2 o₂.val
      = priorLL C₂ R₂ d₂ mean P o₂.val + priorLL C₁ R₁ d₁ (filterCorrect C₂ R₂ d₂ mean P o₂).2.1
        (filterCorrect C₂ R₂ d₂ mean P o₂).2.2 o₁.val := by
  rw [priorLL_add hP h₁ h₂ C₁ C₂ d₁ d₂ q₁, priorLL_add hP h₂ h₁ C₂ C₁ d₂ d₁ q₂,
    add_comm (C₂ᵀ * R₂⁻¹ * C₂), add_comm ((C₂ᵀ * R₂⁻¹) *ᵥ _)]
  ring

/-- Log density of row `t` given the rows before it, 0 if it is masked. -/
noncomputable def PFun.rowLL (P : PFun n m) (z : ℕ → Obs m) (t : ℕ) : ℝ :=
  if (z t).missing then 0
  else priorLL (P.C t) (P.R t) (P.d t) (P.kf z t).predMean (P.kf z t).predCov (z t).val

section
variable {P : PFun n m} {P' : PFun N m} {W : ℕ → Mat n N} {T k : ℕ} {z z' : ℕ → Obs m}

theorem PFun.Keeps.rowLL (h : P.Keeps P' W L T) {t : ℕ} (ht : t < T) :
    P'.rowLL z t = P.rowLL z t := by
  have e := h.newest (z := z) ht
  rw [PFun.rowLL, PFun.rowLL, priorLL, priorLL, h.C t ht, h.R t ht, h.d t ht, ← e.1, ← e.2,
    transpose_mul, mulVec_mulVec]
  simp only [Matrix.mul_assoc]

/-- The sum of the log densities with row `k` is the sum without it plus the log density of row `k`
given all other rows. -/
theorem PFun.Keeps.leave_loglik (h : P.Keeps P' W L T) (hP : P'.PSD T)
    (hR : ∀ t, t < T → (P.R t).PosDef) (hz : ∀ t, t ≠ k → z' t = z t) (hk : ¬ (z k).missing)
    (hk' : (z' k).missing) : ∀ j, j ≤ L → k + j < T →
      ∑ t ∈ Finset.range (k + j + 1), P'.rowLL z t
        = ∑ t ∈ Finset.range (k + j + 1), P'.rowLL z' t
          + priorLL (P.C k * W j) (P.R k) (P.d k) (P'.kf z' (k + j)).filtMean
            (P'.kf z' (k + j)).filtCov (z k).val := by
  intro j
  induction j with
  | zero =>
    intro _ hT
    simp only [Nat.add_zero] at hT ⊢
    obtain ⟨-, a, b⟩ := P'.kf_missing z' hk'
    have pc : ∀ t, t ≤ k → (P'.kf z' t).predMean = (P'.kf z t).predMean ∧
        (P'.kf z' t).predCov = (P'.kf z t).predCov := fun t ht =>
      P'.kf_pred_congr (z := z') (z' := z) (t := t) fun i hi => by
        rw [hz i (by omega)]; exact ⟨Iff.rfl, fun _ => rfl⟩
    have e : ∑ t ∈ Finset.range k, P'.rowLL z' t = ∑ t ∈ Finset.range k, P'.rowLL z t := by
      refine Finset.sum_congr rfl fun t ht => ?_
      have ht := Finset.mem_range.mp ht
      rw [PFun.rowLL, PFun.rowLL, hz t (by omega), (pc t (by omega)).1, (pc t (by omega)).2]
    rw [Finset.sum_range_succ, Finset.sum_range_succ, e, a, b, (pc k le_rfl).1, (pc k le_rfl).2]
    simp only [PFun.rowLL, if_neg hk, if_pos hk', h.C k hT, h.R k hT, h.d k hT, add_zero]
  | succ j ih =>
    intro hj hT
    have ih := ih (by omega) (by omega)
    have t1 : k + j + 1 < T := by omega
    have pr' := h.leave_pred hk t1 hj (h.leave hP hR hz hk hk' j (by omega) (by omega))
    have p1 := congrArg Prod.fst pr'
    have p2 := congrArg Prod.snd pr'
    simp only at p1 p2
    have hzt := hz (k + j + 1) (by omega)
    -- the density of row `k` does not change with the prediction
    have ep : priorLL (P.C k * W j) (P.R k) (P.d k) (P'.kf z' (k + j)).filtMean
          (P'.kf z' (k + j)).filtCov (z k).val
        = priorLL (P.C k * W (j + 1)) (P.R k) (P.d k) (P'.kf z' (k + j + 1)).predMean
          (P'.kf z' (k + j + 1)).predCov (z k).val := by
      obtain ⟨a, b, -⟩ := (h.pred (z := z') t1).2.2 j hj
      rw [priorLL, priorLL, ← mulVec_mulVec, ← mulVec_mulVec, a, transpose_mul, transpose_mul]
      have c : ∀ i (M : Mat N N), P.C k * W i * M * ((W i)ᵀ * (P.C k)ᵀ)
          = P.C k * (W i * M * (W i)ᵀ) * (P.C k)ᵀ := by
        intro i M
        simp only [Matrix.mul_assoc]
      rw [c, c, b]
    rw [show k + (j + 1) = k + j + 1 by omega, Finset.sum_range_succ, ih,
      Finset.sum_range_succ _ (k + j + 1), ep]
    by_cases hm : (z (k + j + 1)).missing
    · have hm' : (z' (k + j + 1)).missing := by rw [hzt]; exact hm
      obtain ⟨-, a, b⟩ := P'.kf_missing z' hm'
      rw [a, b, PFun.rowLL, PFun.rowLL, if_pos hm, if_pos hm']
      ring
    · have hm' : ¬ (z' (k + j + 1)).missing := by rw [hzt]; exact hm
      have o := priorLL_order (hP.pred t1 z') (hR k (by omega)) (hR (k + j + 1) t1)
        (P.C k * W (j + 1)) (P'.C (k + j + 1)) (P.d k) (P'.d (k + j + 1)) hk hm
        (P'.kf z' (k + j + 1)).predMean
      rw [← p1, ← p2] at o
      have f1 : (P'.kf z' (k + j + 1)).filtMean = (filterCorrect (P'.C (k + j + 1))
          (P.R (k + j + 1)) (P'.d (k + j + 1)) (P'.kf z' (k + j + 1)).predMean
          (P'.kf z' (k + j + 1)).predCov (z (k + j + 1))).2.1 := by
        rw [← hzt, ← h.R _ t1]
        conv_lhs => rw [P'.kf_correct z' (k + j + 1)]
        rfl
      have f2 : (P'.kf z' (k + j + 1)).filtCov = (filterCorrect (P'.C (k + j + 1))
          (P.R (k + j + 1)) (P'.d (k + j + 1)) (P'.kf z' (k + j + 1)).predMean
          (P'.kf z' (k + j + 1)).predCov (z (k + j + 1))).2.2 := by
        rw [← hzt, ← h.R _ t1]
        conv_lhs => rw [P'.kf_correct z' (k + j + 1)]
        rfl
      rw [← f1, ← f2] at o
      have r1 : P'.rowLL z (k + j + 1) = _ := if_neg hm
      have r2 : P'.rowLL z' (k + j + 1) = _ := if_neg hm'
      rw [h.R _ t1] at r1
      rw [h.R _ t1, hzt] at r2
      rw [← r1, ← r2] at o
      linarith [o]

end

/-- The log likelihood is that without row `k` plus the log density of row `k` under the smoothed
moments without it. -/
theorem PFun.PSD.leave_one_out_loglik {P : PFun n m} {T k : ℕ} {z z' : ℕ → Obs m} (hP : P.PSD T)
    (hR : ∀ t, t < T → (P.R t).PosDef) (hz : ∀ t, t ≠ k → z' t = z t) (hk : ¬ (z k).missing)
    (hk' : (z' k).missing) (hT : k < T) :
    ∑ t ∈ Finset.range T, P.rowLL z t = ∑ t ∈ Finset.range T, P.rowLL z' t
      + priorLL (P.C k) (P.R k) (P.d k) (P.ks z' (T - 1) k).mean (P.ks z' (T - 1) k).cov (z k).val
    := by
  obtain ⟨L, rfl⟩ : ∃ L, T = k + L + 1 := ⟨T - k - 1, by omega⟩
  have h := P.keep_keeps L (k + L + 1)
  simp only [Nat.add_sub_cancel]
  obtain ⟨a', b', -⟩ := h.lag (z := z') hP (k + L) k L rfl (by omega) le_rfl
  have e := h.leave_loglik (hP.keep L) hR hz hk hk' L le_rfl (by omega)
  rw [Finset.sum_congr rfl fun t ht => h.rowLL (z := z) (Finset.mem_range.mp ht),
    Finset.sum_congr rfl fun t ht => h.rowLL (z := z') (Finset.mem_range.mp ht)] at e
  rw [e, ← a', ← b', priorLL, priorLL, transpose_mul, mulVec_mulVec]
  simp only [Matrix.mul_assoc]

end Verif
