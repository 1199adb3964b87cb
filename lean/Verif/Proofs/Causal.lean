import Verif.Proofs.Pure
import Verif.Linalg.Gain
import Verif.Spec.Runs

/-!
# What the runs of the filter depend on, and semidefiniteness of the covariances
-/

open Matrix

namespace Verif

variable {n m : ℕ}

theorem Obs.Sim.refl (o : Obs m) : o.Sim o := ⟨Iff.rfl, fun _ => rfl⟩

theorem filterCorrect_missing {C : Mat m n} {R : Mat m m} {d : Vec m} {mean : Vec n}
    {cov : Mat n n} {o : Obs m} (h : o.missing) :
    filterCorrect C R d mean cov o = (0, mean, cov) := by
  simp [filterCorrect, h]

theorem filterCorrect_gain {C : Mat m n} {R : Mat m m} {d : Vec m} {mean : Vec n}
    {cov : Mat n n} {o : Obs m} (h : ¬ o.missing) :
    filterCorrect C R d mean cov o = (gain cov R C,
      mean + gain cov R C *ᵥ (o.val - (C *ᵥ mean + d)), cov - gain cov R C * C * cov) := by
  have e : cov * (Cᵀ * pinv (C * (cov * Cᵀ) + R)) = gain cov R C := by
    rw [gain, Matrix.mul_assoc, Matrix.mul_assoc C]
  simp only [filterCorrect, h, not_false_eq_true, if_true, e, Matrix.mul_assoc]

theorem filterCorrect_sim {C : Mat m n} {R : Mat m m} {d : Vec m} {mean : Vec n}
    {cov : Mat n n} {o o' : Obs m} (h : o.Sim o') :
    filterCorrect C R d mean cov o = filterCorrect C R d mean cov o' := by
  by_cases ho : o.missing
  · rw [filterCorrect_missing ho, filterCorrect_missing (h.1.mp ho)]
  · rw [filterCorrect_gain ho, filterCorrect_gain (mt h.1.mpr ho), h.2 ho]

theorem PFun.kf_pred_succ (P : PFun n m) (z : ℕ → Obs m) (t : ℕ) :
    (P.kf z (t + 1)).predMean = P.A t *ᵥ (P.kf z t).filtMean + P.b t ∧
    (P.kf z (t + 1)).predCov = P.A t * (P.kf z t).filtCov * (P.A t)ᵀ + P.Q t :=
  ⟨rfl, by
    show P.A t * ((P.kf z t).filtCov * (P.A t)ᵀ) + P.Q t = _
    rw [Matrix.mul_assoc]⟩

theorem PFun.kf_zero_pred (P : PFun n m) (z : ℕ → Obs m) :
    (P.kf z 0).predMean = P.mu0 ∧ (P.kf z 0).predCov = P.S0 := ⟨rfl, rfl⟩

theorem PFun.kf_correct (P : PFun n m) (z : ℕ → Obs m) (t : ℕ) :
    P.kf z t = P.correct t (P.kf z t).predMean (P.kf z t).predCov (z t) := by
  cases t <;> rfl

theorem PFun.kf_missing (P : PFun n m) (z : ℕ → Obs m) {t : ℕ} (h : (z t).missing) :
    (P.kf z t).gain = 0 ∧ (P.kf z t).filtMean = (P.kf z t).predMean ∧
      (P.kf z t).filtCov = (P.kf z t).predCov := by
  rw [P.kf_correct z t]
  simp only [PFun.correct, filterCorrect_missing h, and_self]

theorem PFun.kf_observed (P : PFun n m) (z : ℕ → Obs m) {t : ℕ} (h : ¬ (z t).missing) :
    (P.kf z t).gain = Verif.gain (P.kf z t).predCov (P.R t) (P.C t) ∧
    (P.kf z t).filtMean = (P.kf z t).predMean
      + Verif.gain (P.kf z t).predCov (P.R t) (P.C t)
        *ᵥ ((z t).val - (P.C t *ᵥ (P.kf z t).predMean + P.d t)) ∧
    (P.kf z t).filtCov = (P.kf z t).predCov
      - Verif.gain (P.kf z t).predCov (P.R t) (P.C t) * P.C t * (P.kf z t).predCov := by
  have e := P.kf_correct z t
  simp only [PFun.correct, filterCorrect_gain h] at e
  exact ⟨congrArg Step.gain e, congrArg Step.filtMean e, congrArg Step.filtCov e⟩

/-- The filter at `t` depends on the rows up to `t` only. -/
theorem PFun.kf_congr (P : PFun n m) {z z' : ℕ → Obs m} {t : ℕ}
    (h : ∀ i ≤ t, (z i).Sim (z' i)) : P.kf z t = P.kf z' t := by
  induction t with
  | zero =>
    simp only [PFun.kf, PFun.correct, filterCorrect_sim (h 0 le_rfl)]
  | succ t ih =>
    have := ih fun i hi => h i (by omega)
    simp only [PFun.kf, PFun.next, PFun.correct, this, filterCorrect_sim (h (t + 1) le_rfl)]

theorem PFun.kf_pred_congr (P : PFun n m) {z z' : ℕ → Obs m} {t : ℕ}
    (h : ∀ i < t, (z i).Sim (z' i)) :
    (P.kf z t).predMean = (P.kf z' t).predMean ∧ (P.kf z t).predCov = (P.kf z' t).predCov := by
  cases t with
  | zero => exact ⟨rfl, rfl⟩
  | succ t =>
    have := P.kf_congr (z := z) (z' := z') (t := t) fun i hi => h i (by omega)
    rw [(P.kf_pred_succ z t).1, (P.kf_pred_succ z t).2, (P.kf_pred_succ z' t).1,
      (P.kf_pred_succ z' t).2, this]
    exact ⟨rfl, rfl⟩

/-- Covariances and gains depend on the pattern of missing rows only. -/
theorem PFun.kf_cov_congr (P : PFun n m) {z z' : ℕ → Obs m} {t : ℕ}
    (h : ∀ i ≤ t, ((z i).missing ↔ (z' i).missing)) :
    (P.kf z t).predCov = (P.kf z' t).predCov ∧ (P.kf z t).gain = (P.kf z' t).gain ∧
      (P.kf z t).filtCov = (P.kf z' t).filtCov := by
  have step : ∀ t, ((z t).missing ↔ (z' t).missing) →
      (P.kf z t).predCov = (P.kf z' t).predCov →
      (P.kf z t).gain = (P.kf z' t).gain ∧ (P.kf z t).filtCov = (P.kf z' t).filtCov := by
    intro t ht hp
    by_cases hm : (z t).missing
    · obtain ⟨a, -, b⟩ := P.kf_missing z hm
      obtain ⟨a', -, b'⟩ := P.kf_missing z' (ht.mp hm)
      exact ⟨by rw [a, a'], by rw [b, b', hp]⟩
    · obtain ⟨a, -, b⟩ := P.kf_observed z hm
      obtain ⟨a', -, b'⟩ := P.kf_observed z' (mt ht.mpr hm)
      exact ⟨by rw [a, a', hp], by rw [b, b', hp]⟩
  induction t with
  | zero =>
    have := step 0 (h 0 le_rfl) rfl
    exact ⟨rfl, this⟩
  | succ t ih =>
    have hp : (P.kf z (t + 1)).predCov = (P.kf z' (t + 1)).predCov := by
      rw [(P.kf_pred_succ z t).2, (P.kf_pred_succ z' t).2, (ih fun i hi => h i (by omega)).2.2]
    exact ⟨hp, step (t + 1) (h _ le_rfl) hp⟩

/-- Positive semidefinite parameters up to time `T - 1`. -/
structure PFun.PSD (P : PFun n m) (T : ℕ) : Prop where
  Q : ∀ t, t + 1 < T → (P.Q t).PosSemidef
  R : ∀ t, t < T → (P.R t).PosSemidef
  S0 : P.S0.PosSemidef

theorem PFun.PSD.filt_of_pred {P : PFun n m} {T t : ℕ} (h : P.PSD T) (ht : t < T)
    (z : ℕ → Obs m) (hp : (P.kf z t).predCov.PosSemidef) : (P.kf z t).filtCov.PosSemidef := by
  by_cases hm : (z t).missing
  · rw [(P.kf_missing z hm).2.2]; exact hp
  · rw [(P.kf_observed z hm).2.2]; exact updated_posSemidef _ hp (h.R t ht)

theorem PFun.PSD.pred {P : PFun n m} {T t : ℕ} (h : P.PSD T) (ht : t < T) (z : ℕ → Obs m) :
    (P.kf z t).predCov.PosSemidef := by
  induction t with
  | zero => exact h.S0
  | succ t ih =>
    rw [(P.kf_pred_succ z t).2]
    exact (posSemidef_conj' (h.filt_of_pred (by omega) z (ih (by omega))) _).add (h.Q t ht)

theorem PFun.PSD.filt {P : PFun n m} {T t : ℕ} (h : P.PSD T) (ht : t < T) (z : ℕ → Obs m) :
    (P.kf z t).filtCov.PosSemidef := h.filt_of_pred ht z (h.pred ht z)

/-! ### Smoother -/

theorem smoothUpdate_eq (A Q : Mat n n) (b : Vec n) (fm : Vec n) (fc : Mat n n)
    (nm : Vec n) (nc : Mat n n) :
    smoothUpdate A fm fc (A *ᵥ fm + b) (A * fc * Aᵀ + Q) nm nc
      = ⟨fm + gain fc Q A *ᵥ (nm - (A *ᵥ fm + b)),
         fc + gain fc Q A * (nc - (A * fc * Aᵀ + Q)) * (gain fc Q A)ᵀ, gain fc Q A⟩ := by
  have e : fc * (Aᵀ * pinv (A * fc * Aᵀ + Q)) = gain fc Q A := by
    rw [gain]; simp only [Matrix.mul_assoc]
  simp only [smoothUpdate, e]
  rw [Matrix.mul_assoc (gain fc Q A)]

theorem PFun.ks_lt' (P : PFun n m) (z : ℕ → Obs m) {T t : ℕ} (h : t < T) :
    P.ks z T t =
      ⟨(P.kf z t).filtMean + Verif.gain (P.kf z t).filtCov (P.Q t) (P.A t)
          *ᵥ ((P.ks z T (t + 1)).mean - (P.A t *ᵥ (P.kf z t).filtMean + P.b t)),
       (P.kf z t).filtCov + Verif.gain (P.kf z t).filtCov (P.Q t) (P.A t)
          * ((P.ks z T (t + 1)).cov - (P.A t * (P.kf z t).filtCov * (P.A t)ᵀ + P.Q t))
          * (Verif.gain (P.kf z t).filtCov (P.Q t) (P.A t))ᵀ,
       Verif.gain (P.kf z t).filtCov (P.Q t) (P.A t)⟩ := by
  rw [P.ks_lt z h, (P.kf_pred_succ z t).1, (P.kf_pred_succ z t).2, smoothUpdate_eq]

/-- The smoother depends on the rows up to the last one only. -/
theorem PFun.ks_congr (P : PFun n m) {z z' : ℕ → Obs m} {T t : ℕ}
    (h : ∀ i ≤ T, (z i).Sim (z' i)) (ht : t ≤ T) : P.ks z T t = P.ks z' T t := by
  obtain ⟨j, rfl⟩ : ∃ j, T = t + j := ⟨T - t, by omega⟩
  induction j generalizing t with
  | zero => rw [Nat.add_zero] at h ⊢; rw [P.ks_last, P.ks_last, P.kf_congr h]
  | succ j ih =>
    rw [show t + (j + 1) = t + 1 + j by omega] at h ⊢
    rw [P.ks_lt z (by omega), P.ks_lt z' (by omega), ih h (by omega),
      P.kf_congr (t := t) fun i hi => h i (by omega),
      P.kf_congr (t := t + 1) fun i hi => h i (by omega)]

/-- Smoothed covariances and gains depend on the pattern of missing rows only. -/
theorem PFun.ks_cov_congr (P : PFun n m) {z z' : ℕ → Obs m} {T t : ℕ}
    (h : ∀ i ≤ T, ((z i).missing ↔ (z' i).missing)) (ht : t ≤ T) :
    (P.ks z T t).cov = (P.ks z' T t).cov ∧ (P.ks z T t).gain = (P.ks z' T t).gain := by
  obtain ⟨j, rfl⟩ : ∃ j, T = t + j := ⟨T - t, by omega⟩
  induction j generalizing t with
  | zero =>
    rw [Nat.add_zero, P.ks_last, P.ks_last]
    exact ⟨(P.kf_cov_congr h).2.2, rfl⟩
  | succ j ih =>
    rw [show t + (j + 1) = t + 1 + j by omega] at h ⊢
    have h1 := ih h (by omega)
    have h2 := P.kf_cov_congr (t := t) fun i hi => h i (by omega)
    rw [P.ks_lt' z (by omega), P.ks_lt' z' (by omega)]
    simp only [h1.1, h2.2.2, and_self]

/-- The smoothed covariance as filtered part plus propagated part. -/
theorem PFun.PSD.ks_cov_eq {P : PFun n m} {T t : ℕ} (h : P.PSD (T + 1)) (ht : t < T)
    (z : ℕ → Obs m) :
    (P.ks z T t).cov = (P.ks z T t).gain * (P.ks z T (t + 1)).cov * (P.ks z T t).gainᵀ
      + ((P.kf z t).filtCov - (P.ks z T t).gain * P.A t * (P.kf z t).filtCov) := by
  rw [P.ks_lt' z ht]
  have hf := h.filt (t := t) (by omega) z
  have hQ := h.Q t (by omega)
  simp only [Matrix.mul_sub, Matrix.sub_mul]
  rw [gain_mul_transpose _ hf hQ]
  abel

theorem PFun.PSD.smooth {P : PFun n m} {T t : ℕ} (h : P.PSD (T + 1)) (ht : t ≤ T)
    (z : ℕ → Obs m) : (P.ks z T t).cov.PosSemidef := by
  obtain ⟨j, rfl⟩ : ∃ j, T = t + j := ⟨T - t, by omega⟩
  induction j generalizing t with
  | zero => rw [Nat.add_zero, P.ks_last]; exact h.filt (by omega) z
  | succ j ih =>
    have := ih (t := t + 1) (by rw [show t + 1 + j = t + (j + 1) by omega]; exact h) (by omega)
    rw [show t + 1 + j = t + (j + 1) by omega] at this
    rw [h.ks_cov_eq (by omega) z]
    refine (posSemidef_conj' this _).add ?_
    rw [P.ks_lt' z (by omega)]
    exact updated_posSemidef _ (h.filt (by omega) z) (h.Q t (by omega))

/-- Smoothing does not increase the covariance. -/
theorem PFun.PSD.smooth_le_filt {P : PFun n m} {T t : ℕ} (h : P.PSD (T + 1)) (ht : t ≤ T)
    (z : ℕ → Obs m) : ((P.kf z t).filtCov - (P.ks z T t).cov).PosSemidef := by
  have key : ∀ j t, T = t + j → ((P.kf z t).filtCov - (P.ks z T t).cov).PosSemidef := by
    intro j
    induction j with
    | zero =>
      rintro t rfl
      rw [P.ks_last, sub_self]
      exact PosSemidef.zero
    | succ j ih =>
      intro t hT
      have h1 := ih (t + 1) (by omega)
      have hpf : ((P.kf z (t + 1)).predCov - (P.kf z (t + 1)).filtCov).PosSemidef := by
        by_cases hm : (z (t + 1)).missing
        · rw [(P.kf_missing z hm).2.2, sub_self]; exact PosSemidef.zero
        · have hp := h.pred (t := t + 1) (by omega) z
          have hR := h.R (t + 1) (by omega)
          rw [(P.kf_observed z hm).2.2, sub_sub_cancel, ← gain_mul_transpose _ hp hR]
          exact posSemidef_conj' (innov_posSemidef _ hp hR) _
      have h2 := hpf.add h1
      rw [sub_add_sub_cancel, (P.kf_pred_succ z t).2] at h2
      have h3 := posSemidef_conj' h2 (Verif.gain (P.kf z t).filtCov (P.Q t) (P.A t))
      rw [P.ks_lt' z (by omega)]
      have e : ∀ (F G M N : Mat n n), F - (F + G * (N - M) * Gᵀ) = G * (M - N) * Gᵀ := by
        intro F G M N
        rw [Matrix.mul_sub, Matrix.mul_sub, Matrix.sub_mul, Matrix.sub_mul]
        abel
      rw [e]
      exact h3
  exact key (T - t) t (by omega)

end Verif
