import Verif.Spec.NoisyRow
import Verif.Proofs.Gaps
import Verif.Props.Invariance
import Verif.Proofs.EmAscent
import Mathlib.Topology.Instances.Matrix
import Mathlib.Topology.Algebra.Field
import Mathlib.Topology.Algebra.Order.Field

/-!
# Limits of gains and runs
-/

open Matrix Topology

namespace Verif

variable {n m k : ℕ} {ι : Type*} {l : Filter ι}

theorem tends_mul {f : ι → Mat n m} {g : ι → Mat m k} {a : Mat n m} {b : Mat m k}
    (hf : Filter.Tendsto f l (𝓝 a)) (hg : Filter.Tendsto g l (𝓝 b)) :
    Filter.Tendsto (fun i => f i * g i) l (𝓝 (a * b)) := by
  have hc : Continuous fun x : Mat n m × Mat m k => x.1 * x.2 :=
    continuous_fst.matrix_mul continuous_snd
  exact (hc.tendsto (a, b)).comp (hf.prodMk_nhds hg)

theorem tends_mulVec {f : ι → Mat n m} {g : ι → Vec m} {a : Mat n m} {b : Vec m}
    (hf : Filter.Tendsto f l (𝓝 a)) (hg : Filter.Tendsto g l (𝓝 b)) :
    Filter.Tendsto (fun i => f i *ᵥ g i) l (𝓝 (a *ᵥ b)) := by
  have hc : Continuous fun x : Mat n m × Vec m => x.1 *ᵥ x.2 :=
    continuous_fst.matrix_mulVec continuous_snd
  exact (hc.tendsto (a, b)).comp (hf.prodMk_nhds hg)

theorem tends_transpose {f : ι → Mat n m} {a : Mat n m} (hf : Filter.Tendsto f l (𝓝 a)) :
    Filter.Tendsto (fun i => (f i)ᵀ) l (𝓝 aᵀ) := by
  have hc : Continuous fun x : Mat n m => xᵀ := continuous_id.matrix_transpose
  exact (hc.tendsto a).comp hf

theorem tends_pinv {f : ι → Mat n n} {a : Mat n n} (hf : Filter.Tendsto f l (𝓝 a))
    (ha : IsUnit a.det) : Filter.Tendsto (fun i => pinv (f i)) l (𝓝 (pinv a)) := by
  have hc : Continuous fun x : Mat n n => x.det := continuous_id.matrix_det
  have hd : Filter.Tendsto (fun i => (f i).det) l (𝓝 a.det) := (hc.tendsto a).comp hf
  have hev : ∀ᶠ i in l, IsUnit (f i).det :=
    (hd.eventually_ne ha.ne_zero).mono fun i hi => hi.isUnit
  rw [pinv_eq_inv ha]
  refine Filter.Tendsto.congr' (hev.mono fun i hi => (pinv_eq_inv hi).symm) ?_
  refine Filter.Tendsto.comp (continuousAt_matrix_inv a ?_) hf
  obtain ⟨u, hu⟩ := ha
  rw [← hu]
  exact NormedRing.inverse_continuousAt u

theorem tends_gain {f : ι → Mat n n} {a : Mat n n} {R : Mat m m} (C : Mat m n)
    (hf : Filter.Tendsto f l (𝓝 a)) (hu : IsUnit (C * a * Cᵀ + R).det) :
    Filter.Tendsto (fun i => gain (f i) R C) l (𝓝 (gain a R C)) := by
  have hP := tends_mul hf (tendsto_const_nhds (x := Cᵀ))
  have hS : Filter.Tendsto (fun i => C * f i * Cᵀ + R) l (𝓝 (C * a * Cᵀ + R)) :=
    (tends_mul (tends_mul tendsto_const_nhds hf) tendsto_const_nhds).add tendsto_const_nhds
  exact tends_mul hP (tends_pinv hS hu)

/-- The gain of an ever noisier observation vanishes. -/
theorem tends_gain_noisy {P : Mat n n} {R : Mat m m} (C : Mat m n) (hR : R.PosDef) :
    Filter.Tendsto (fun s : ℝ => gain P (s • R) C) Filter.atTop (𝓝 0) := by
  have h1 : Filter.Tendsto (fun s : ℝ => s⁻¹ • P) Filter.atTop (𝓝 ((0 : ℝ) • P)) :=
    tendsto_inv_atTop_zero.smul tendsto_const_nhds
  rw [zero_smul] at h1
  have h2 := tends_gain (R := R) C h1 (by
    rw [Matrix.mul_zero, Matrix.zero_mul, zero_add]
    exact hR.det_pos.ne'.isUnit)
  have h0 : gain (0 : Mat n n) R C = 0 := by rw [gain, Matrix.zero_mul, Matrix.zero_mul]
  rw [h0] at h2
  refine h2.congr' ?_
  filter_upwards [Filter.eventually_gt_atTop 0] with s hs
  rw [← gain_smul hs.ne', smul_smul, mul_inv_cancel₀ hs.ne', one_smul]

variable {P : PFun n m} {P' : ℝ → PFun n m} {T : ℕ} {z z₀ : ℕ → Obs m}

/-- The family `P' s` is `P` with the observation covariance of row `k` multiplied by `s`. -/
structure PFun.Noisy (P : PFun n m) (P' : ℝ → PFun n m) (k T : ℕ) : Prop where
  A : ∀ s t, (P' s).A t = P.A t
  b : ∀ s t, (P' s).b t = P.b t
  Q : ∀ s t, (P' s).Q t = P.Q t
  C : ∀ s t, (P' s).C t = P.C t
  d : ∀ s t, (P' s).d t = P.d t
  mu0 : ∀ s, (P' s).mu0 = P.mu0
  S0 : ∀ s, (P' s).S0 = P.S0
  R : ∀ s t, t < T → t ≠ k → (P' s).R t = P.R t
  noisy : ∀ s, k < T → (P' s).R k = s • P.R k

/-- Convergence of all quantities of one step. -/
structure StepTends (f : ℝ → Step n m) (a : Step n m) : Prop where
  predMean : Filter.Tendsto (fun s => (f s).predMean) Filter.atTop (𝓝 a.predMean)
  predCov : Filter.Tendsto (fun s => (f s).predCov) Filter.atTop (𝓝 a.predCov)
  filtMean : Filter.Tendsto (fun s => (f s).filtMean) Filter.atTop (𝓝 a.filtMean)
  filtCov : Filter.Tendsto (fun s => (f s).filtCov) Filter.atTop (𝓝 a.filtCov)

theorem PFun.Noisy.before (h : P.Noisy P' k T) (s : ℝ) {t : ℕ} (ht : t < k) (hT : t < T) :
    (P' s).kf z t = P.kf z t := by
  have step : ∀ t, t < k → t < T → ((P' s).kf z t).predMean = (P.kf z t).predMean →
      ((P' s).kf z t).predCov = (P.kf z t).predCov → (P' s).kf z t = P.kf z t := by
    intro t ht hT e1 e2
    rw [(P' s).kf_correct z t, P.kf_correct z t, e1, e2]
    simp only [PFun.correct, h.C s t, h.d s t, h.R s t hT ht.ne]
  induction t with
  | zero => exact step 0 ht hT (h.mu0 s) (h.S0 s)
  | succ t ih =>
    have i := ih (by omega) (by omega)
    apply step _ ht hT
    · rw [((P' s).kf_pred_succ z t).1, (P.kf_pred_succ z t).1, i, h.A, h.b]
    · rw [((P' s).kf_pred_succ z t).2, (P.kf_pred_succ z t).2, i, h.A, h.Q]

theorem PFun.Noisy.kf (h : P.Noisy P' k T) (hP : P.PSD T)
    (hR : ∀ t, t < T → ¬ (z t).missing → (P.R t).PosDef) (hk : (z₀ k).missing)
    (hz : ∀ t, t ≠ k → z₀ t = z t) {t : ℕ} (ht : t < T) :
    StepTends (fun s => (P' s).kf z t) (P.kf z₀ t) := by
  have step : ∀ t, t < T →
      Filter.Tendsto (fun s => ((P' s).kf z t).predMean) Filter.atTop (𝓝 (P.kf z₀ t).predMean) →
      Filter.Tendsto (fun s => ((P' s).kf z t).predCov) Filter.atTop (𝓝 (P.kf z₀ t).predCov) →
      StepTends (fun s => (P' s).kf z t) (P.kf z₀ t) := by
    intro t ht h1 h2
    suffices hfc : Filter.Tendsto (fun s => ((P' s).kf z t).filtMean) Filter.atTop
        (𝓝 (P.kf z₀ t).filtMean) ∧ Filter.Tendsto (fun s => ((P' s).kf z t).filtCov) Filter.atTop
        (𝓝 (P.kf z₀ t).filtCov) from ⟨h1, h2, hfc.1, hfc.2⟩
    by_cases hm : (z t).missing
    · have hm0 : (z₀ t).missing := by
        by_cases htk : t = k
        · rwa [htk]
        · rwa [hz t htk]
      simp only [((P' _).kf_missing z hm).2.1, ((P' _).kf_missing z hm).2.2,
        (P.kf_missing z₀ hm0).2.1, (P.kf_missing z₀ hm0).2.2]
      exact ⟨h1, h2⟩
    · simp only [((P' _).kf_observed z hm).2.1, ((P' _).kf_observed z hm).2.2, h.C, h.d]
      have hinn : Filter.Tendsto (fun s => (z t).val - (P.C t *ᵥ ((P' s).kf z t).predMean + P.d t))
          Filter.atTop (𝓝 ((z t).val - (P.C t *ᵥ (P.kf z₀ t).predMean + P.d t))) :=
        tendsto_const_nhds.sub ((tends_mulVec tendsto_const_nhds h1).add tendsto_const_nhds)
      by_cases htk : t = k
      · subst htk
        have hpc : ∀ s, ((P' s).kf z t).predCov = (P.kf z t).predCov := by
          intro s
          cases t with
          | zero => exact h.S0 s
          | succ t =>
            rw [((P' s).kf_pred_succ z t).2, (P.kf_pred_succ z t).2,
              h.before s (show t < t + 1 by omega) (by omega), h.A, h.Q]
        have hg : Filter.Tendsto (fun s => gain ((P' s).kf z t).predCov ((P' s).R t) (P.C t))
            Filter.atTop (𝓝 0) := by
          simp only [hpc, h.noisy _ ht]
          exact tends_gain_noisy (P.C t) (hR t ht hm)
        rw [(P.kf_missing z₀ hk).2.1, (P.kf_missing z₀ hk).2.2]
        constructor
        · have := h1.add (tends_mulVec hg hinn)
          rwa [zero_mulVec, add_zero] at this
        · have := h2.sub (tends_mul (tends_mul hg (tendsto_const_nhds (x := P.C t))) h2)
          rwa [Matrix.zero_mul, Matrix.zero_mul, sub_zero] at this
      · have hm0 : ¬ (z₀ t).missing := by rwa [hz t htk]
        rw [(P.kf_observed z₀ hm0).2.1, (P.kf_observed z₀ hm0).2.2, hz t htk]
        have hg : Filter.Tendsto (fun s => gain ((P' s).kf z t).predCov ((P' s).R t) (P.C t))
            Filter.atTop (𝓝 (gain (P.kf z₀ t).predCov (P.R t) (P.C t))) := by
          simp only [h.R _ t ht htk]
          exact tends_gain _ h2
            (posDef_conj_add (hP.pred ht z₀) (hR t ht hm) _).det_pos.ne'.isUnit
        exact ⟨h1.add (tends_mulVec hg hinn),
          h2.sub (tends_mul (tends_mul hg (tendsto_const_nhds (x := P.C t))) h2)⟩
  induction t with
  | zero =>
    apply step 0 ht
    · simp only [((P' _).kf_zero_pred z).1, (P.kf_zero_pred z₀).1, h.mu0]
      exact tendsto_const_nhds
    · simp only [((P' _).kf_zero_pred z).2, (P.kf_zero_pred z₀).2, h.S0]
      exact tendsto_const_nhds
  | succ t ih =>
    have i := ih (by omega)
    apply step _ ht
    · simp only [((P' _).kf_pred_succ z t).1, (P.kf_pred_succ z₀ t).1, h.A, h.b]
      exact (tends_mulVec tendsto_const_nhds i.filtMean).add tendsto_const_nhds
    · simp only [((P' _).kf_pred_succ z t).2, (P.kf_pred_succ z₀ t).2, h.A, h.Q]
      exact (tends_mul (tends_mul tendsto_const_nhds i.filtCov) tendsto_const_nhds).add
        tendsto_const_nhds

theorem PFun.Noisy.ks (h : P.Noisy P' k (T + 1)) (hP : P.PD (T + 1)) (hk : (z₀ k).missing)
    (hz : ∀ t, t ≠ k → z₀ t = z t) {t : ℕ} (ht : t ≤ T) :
    Filter.Tendsto (fun s => ((P' s).ks z T t).mean) Filter.atTop (𝓝 (P.ks z₀ T t).mean) ∧
    Filter.Tendsto (fun s => ((P' s).ks z T t).cov) Filter.atTop (𝓝 (P.ks z₀ T t).cov) := by
  have hkf : ∀ t, t ≤ T → StepTends (fun s => (P' s).kf z t) (P.kf z₀ t) := fun t ht =>
    h.kf hP.psd (fun t ht _ => hP.R t ht) hk hz (by omega)
  obtain ⟨j, hj⟩ : ∃ j, T = t + j := ⟨T - t, by omega⟩
  induction j generalizing t with
  | zero =>
    obtain rfl : t = T := by omega
    simp only [PFun.ks_last]
    exact ⟨(hkf t le_rfl).filtMean, (hkf t le_rfl).filtCov⟩
  | succ j ih =>
    obtain ⟨i1, i2⟩ := ih (t := t + 1) (by omega) (by omega)
    have i := hkf t ht
    have hg := tends_gain (R := P.Q t) (P.A t) i.filtCov (by
      rw [← (P.kf_pred_succ z₀ t).2]
      exact (hP.filt z₀ (show t + 1 < T + 1 by omega)).1.det_pos.ne'.isUnit)
    simp only [(P' _).ks_lt' z (show t < T by omega), P.ks_lt' z₀ (show t < T by omega), h.A, h.b,
      h.Q]
    constructor
    · exact i.filtMean.add (tends_mulVec hg (i1.sub
        ((tends_mulVec tendsto_const_nhds i.filtMean).add tendsto_const_nhds)))
    · exact i.filtCov.add (tends_mul (tends_mul hg (i2.sub
        ((tends_mul (tends_mul tendsto_const_nhds i.filtCov) tendsto_const_nhds).add
          tendsto_const_nhds))) (tends_transpose hg))

end Verif
