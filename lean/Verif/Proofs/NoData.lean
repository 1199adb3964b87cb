import Verif.Proofs.EmLoop
import Verif.Linalg.LogDet

/-!
# The M-step on rows that say nothing
-/

open Matrix

namespace Verif

variable {n m : ℕ}

/-- The parameters after at least one iteration solve the equations of the M-step for some earlier
parameters. -/
theorem kfEm_succ_ok {p p' : Params n m} {os : List (Obs m)} {k : ℕ} {vars : EmVar → Bool}
    (h : kfEm p os (k + 1) vars = .ok p') :
    os ≠ [] ∧ p.Covers os.length ∧ ∃ old : Params n m,
      EmEqs p vars old (old.fn.stats (obsFn os) (os.length - 1)) (obsFn os) (os.length - 1) p' := by
  rw [kfEm, emLoop_succ] at h
  cases hss : emStats p os with
  | error e => rw [hss] at h; cases h
  | ok ss =>
    obtain ⟨hne, hc⟩ := emStats_covers hss
    obtain ⟨p1, e1, -, q1⟩ := emIter_ok (vars := vars) hne hc hc
    rw [e1] at h
    exact ⟨hne, hc, emLoop_ok h hc (fun p' => ∃ old : Params n m,
      EmEqs p vars old (old.fn.stats (obsFn os) (os.length - 1)) (obsFn os) (os.length - 1) p')
      ⟨p, q1⟩ fun q q' _ _ _ _ _ hq => ⟨q, hq⟩⟩

section AllMissing

variable {f : ℕ → EmStats n} {g : ℕ → Obs m} {N : ℕ} (hg : ∀ t < N, (g t).missing)

include hg

theorem sum_w_smul_missing {α : Type*} [AddCommMonoid α] [Module ℝ α] (x : ℕ → α) :
    ∑ t ∈ Finset.range N, (g t).w • x t = 0 :=
  Finset.sum_eq_zero fun t ht => by
    rw [Obs.w_missing (hg t (Finset.mem_range.mp ht)), zero_smul]

theorem newC_missing (d : ℕ → Vec m) : newC f g d N = 0 := by
  rw [newC, sum_w_smul_missing hg, Matrix.zero_mul]

theorem newR_missing (C : ℕ → Mat m n) (d : ℕ → Vec m) : newR f g C d N = 0 := by
  have : obsScatter f g C d N = 0 := sum_w_smul_missing hg _
  rw [newR, this]
  split <;> simp

theorem newd_missing (C : ℕ → Mat m n) : newd f g C N = 0 := by
  rw [newd, sum_w_smul_missing hg]
  split <;> simp

end AllMissing

theorem newA_zero (f : ℕ → EmStats n) (b : ℕ → Vec n) : newA f b 0 = 0 := by simp [newA]

theorem newQ_zero (f : ℕ → EmStats n) (A : ℕ → Mat n n) (b : ℕ → Vec n) : newQ f A b 0 = 0 := by
  simp [newQ, transScatter]

theorem newb_zero (f : ℕ → EmStats n) (A : ℕ → Mat n n) : newb f A 0 = 0 := by simp [newb]

/-- With every row masked the smoother returns the predictions. -/
theorem PFun.ks_missing (P : PFun n m) {z : ℕ → Obs m} {T : ℕ} (hz : ∀ t ≤ T, (z t).missing) :
    ∀ t ≤ T, (P.ks z T t).mean = (P.kf z t).filtMean ∧ (P.ks z T t).cov = (P.kf z t).filtCov := by
  have key : ∀ j t, t + j = T → (P.ks z T t).mean = (P.kf z t).filtMean ∧
      (P.ks z T t).cov = (P.kf z t).filtCov := by
    intro j
    induction j with
    | zero =>
      intro t ht
      obtain rfl : t = T := by omega
      rw [P.ks_last]; exact ⟨rfl, rfl⟩
    | succ j ih =>
      intro t ht
      obtain ⟨e1, e2⟩ := ih (t + 1) (by omega)
      obtain ⟨-, e3, e4⟩ := P.kf_missing z (hz (t + 1) (by omega))
      rw [P.ks_lt' _ (by omega), e1, e2, e3, e4, (P.kf_pred_succ _ t).1, (P.kf_pred_succ _ t).2]
      simp
  exact fun t ht => key (T - t) t (by omega)

/-- `M pinv(M) B P = B P` for `M = B P Bᵀ + Q`. -/
theorem mul_pinv_predict {P Q : Mat n n} (B : Mat n n) (hP : P.PosSemidef) (hQ : Q.PosSemidef) :
    (B * P * Bᵀ + Q) * pinv (B * P * Bᵀ + Q) * (B * P) = B * P := by
  have hM : (B * P * Bᵀ + Q).PosSemidef := (posSemidef_conj' hP B).add hQ
  have hs := symm_of_posSemidef hM
  have hPs := symm_of_posSemidef hP
  have hk : P * Bᵀ * pinv (B * P * Bᵀ + Q) * (B * P * Bᵀ + Q) = P * Bᵀ := by
    refine mul_pinv_mul_of_ker fun x hx => ?_
    have h0 : x ⬝ᵥ ((B * P * Bᵀ + Q) *ᵥ x) = 0 := by rw [hx, dotProduct_zero]
    rw [add_mulVec, dotProduct_add] at h0
    have h1 : 0 ≤ x ⬝ᵥ ((B * P * Bᵀ) *ᵥ x) := by
      simpa using (posSemidef_conj' hP B).dotProduct_mulVec_nonneg x
    have h2 : 0 ≤ x ⬝ᵥ (Q *ᵥ x) := by simpa using hQ.dotProduct_mulVec_nonneg x
    have h3 : (Bᵀ *ᵥ x) ⬝ᵥ (P *ᵥ (Bᵀ *ᵥ x)) = 0 := by
      have : x ⬝ᵥ ((B * P * Bᵀ) *ᵥ x) = (Bᵀ *ᵥ x) ⬝ᵥ (P *ᵥ (Bᵀ *ᵥ x)) := by
        rw [← mulVec_mulVec, ← mulVec_mulVec, dotProduct_mulVec, ← mulVec_transpose]
      rw [← this]; linarith
    rw [← mulVec_mulVec]
    have := (hP.dotProduct_mulVec_zero_iff (Bᵀ *ᵥ x)).mp (by simpa using h3)
    exact this
  have := congrArg Matrix.transpose hk
  simp only [transpose_mul, transpose_transpose, pinv_symm hs, hs, hPs] at this
  simp only [Matrix.mul_assoc] at this ⊢
  exact this

/-- With every row masked the lag-one covariance is that of the process. -/
theorem PFun.stats_missing {P : PFun n m} {z : ℕ → Obs m} {T : ℕ} (h : P.PSD (T + 1))
    (hz : ∀ t ≤ T, (z t).missing) {t : ℕ} (ht : t < T) :
    (P.stats z T (t + 1)).mean = P.A t *ᵥ (P.stats z T t).mean + P.b t ∧
    (P.stats z T (t + 1)).cov = P.A t * (P.stats z T t).cov * (P.A t)ᵀ + P.Q t ∧
    (P.stats z T (t + 1)).pair = P.A t * (P.stats z T t).cov := by
  obtain ⟨m0, c0⟩ := P.ks_missing hz t ht.le
  obtain ⟨m1, c1⟩ := P.ks_missing hz (t + 1) ht
  obtain ⟨-, e3, e4⟩ := P.kf_missing z (hz (t + 1) ht)
  have hf := h.filt (t := t) (by omega) z
  refine ⟨?_, ?_, ?_⟩
  · simp only [PFun.stats]
    rw [m1, e3, (P.kf_pred_succ z t).1, m0]
  · simp only [PFun.stats]
    rw [c1, e4, (P.kf_pred_succ z t).2, c0]
  · simp only [PFun.stats, Nat.add_sub_cancel, Nat.add_one_ne_zero, if_false]
    rw [c1, e4, (P.kf_pred_succ z t).2, c0, P.ks_lt' z ht]
    have hM := symm_of_posSemidef ((posSemidef_conj' hf (P.A t)).add (h.Q t (by omega)))
    have hp := symm_of_posSemidef hf
    show _ * (Verif.gain (P.kf z t).filtCov (P.Q t) (P.A t))ᵀ = _
    rw [Verif.gain]
    simp only [transpose_mul, transpose_transpose, pinv_symm hM, hp]
    rw [← Matrix.mul_assoc]
    exact mul_pinv_predict (P.A t) hf (h.Q t (by omega))

end Verif
