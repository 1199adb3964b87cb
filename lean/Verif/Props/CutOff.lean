import Verif.Spec.CutOff
import Verif.Proofs.CutOffMoments
import Verif.Props.SecondOrder

/-!
# C75: the cut-off of small singular values in `scipy.linalg.pinv`
-/

open MeasureTheory Matrix

namespace Verif

variable {n m k : ℕ} {p : Params n m} {T : ℕ}

/-- **C75**, the routine: whatever singular value decomposition is used, the result is the same. -/
theorem C75_any_decomposition (svd : SvdRoutine) (eps : ℝ) {M U V : Mat k k} {s : Vec k}
    (h : IsSVD M U s V) : svd.pinv eps k M = svdPinv (k * eps) U s V :=
  (svd.correct k M).svdPinv_eq h _

/-- A matrix whose extreme values are less than a factor `1 / (k eps)` apart is inverted. -/
theorem Between.pinv_eq (svd : SvdRoutine) {eps a c : ℝ} (heps : 0 ≤ eps) (ha : 0 ≤ a)
    {M : Mat k k} (h : Between a c M) (hac : k * eps * c ≤ a) : svd.pinv eps k M = pinv M := by
  have hher : M.IsHermitian := by
    rw [Matrix.IsHermitian, conjTranspose_eq_transpose_of_trivial]; exact h.symm
  have hps : M.PosSemidef := by
    refine PosSemidef.of_dotProduct_mulVec_nonneg hher fun v => ?_
    by_cases hv : v = 0
    · simp [hv]
    · have h1 := h.lower v hv
      have h2 : 0 ≤ v ⬝ᵥ v := by
        simp only [dotProduct]
        exact Finset.sum_nonneg fun i _ => mul_self_nonneg _
      simp only [star_trivial]
      nlinarith [mul_nonneg ha h2]
  obtain ⟨W, e, hW, he⟩ := exists_diagonalisation M hher
  have hsvd := IsSVD.of_posSemidef hps hW he
  rw [C75_any_decomposition svd eps hsvd]
  refine hsvd.svdPinv_eq_pinv (by positivity) fun i _ => ?_
  have hval : ∀ i, a < e i ∧ e i ≤ c := by
    intro i
    have h1 := diag_entry hW he i
    have h2 := diag_unit hW i
    have hne : Wᵀ i ≠ 0 := by
      intro h0
      rw [h0] at h2
      simp at h2
    have h3 := h.lower _ hne
    have h4 := h.upper (Wᵀ i)
    rw [h1, h2, mul_one] at h3 h4
    exact ⟨h3, h4⟩
  have hc : 0 ≤ c := ha.trans ((hval i).1.le.trans (hval i).2)
  have hmax : maxSingular e ≤ c := maxSingular_le hc fun j => (hval j).2
  calc (k : ℝ) * eps * maxSingular e ≤ k * eps * c :=
        mul_le_mul_of_nonneg_left hmax (by positivity)
    _ ≤ a := hac
    _ < e i := (hval i).1

theorem form_sub {M N : Mat k k} (h : (N - M).PosSemidef) (v : Vec k) :
    v ⬝ᵥ (M *ᵥ v) ≤ v ⬝ᵥ (N *ᵥ v) := by
  have := h.dotProduct_mulVec_nonneg v
  rw [star_trivial, Matrix.sub_mulVec, dotProduct_sub] at this
  linarith

/-- The predicted covariances of the filter are at most those without observations. -/
theorem PFun.PSD.pred_le_prior {P : PFun n m} {T : ℕ} (h : P.PSD T) {Sig : ℕ → Mat n n}
    (h0 : Sig 0 = P.S0) (hs : ∀ t, t + 1 < T → Sig (t + 1) = P.A t * Sig t * (P.A t)ᵀ + P.Q t)
    (z : ℕ → Obs m) {t : ℕ} (ht : t < T) : (Sig t - (P.kf z t).predCov).PosSemidef := by
  induction t with
  | zero =>
    rw [h0, (P.kf_zero_pred z).2, sub_self]
    exact PosSemidef.zero
  | succ t ih =>
    have ih := ih (by omega)
    have hpf : ((P.kf z t).predCov - (P.kf z t).filtCov).PosSemidef := by
      by_cases hm : (z t).missing
      · rw [(P.kf_missing z hm).2.2, sub_self]
        exact PosSemidef.zero
      · have hp := h.pred (t := t) (by omega) z
        have hR := h.R t (by omega)
        rw [(P.kf_observed z hm).2.2, sub_sub_cancel, ← gain_mul_transpose _ hp hR]
        exact posSemidef_conj' (innov_posSemidef _ hp hR) _
    have e : Sig (t + 1) - (P.kf z (t + 1)).predCov
        = P.A t * (Sig t - (P.kf z t).filtCov) * (P.A t)ᵀ := by
      rw [hs t ht, (P.kf_pred_succ z t).2]
      simp only [Matrix.mul_sub, Matrix.sub_mul]
      abel
    rw [e]
    refine posSemidef_conj' ?_ _
    have := ih.add hpf
    rwa [sub_add_sub_cancel] at this

theorem symm_of_psd {M : Mat k k} (h : M.PosSemidef) : Mᵀ = M := by
  have := h.isHermitian
  rwa [Matrix.IsHermitian, conjTranspose_eq_transpose_of_trivial] at this

theorem Params.ObsConditioned.pinv_eq (svd : SvdRoutine) {eps : ℝ} (heps : 0 ≤ eps)
    (hc : p.Covers T) (hpsd : p.PSD T) {Sig : ℕ → Mat n n} (hsig : IsPriorCov p T Sig)
    {a c : ℕ → ℝ} (h : p.ObsConditioned T eps Sig a c) (z : ℕ → Obs m) {t : ℕ} (ht : t < T) :
    svd.pinv eps m (p.fn.C t * (p.fn.kf z t).predCov * (p.fn.C t)ᵀ + p.fn.R t)
      = Verif.pinv (p.fn.C t * (p.fn.kf z t).predCov * (p.fn.C t)ᵀ + p.fn.R t) := by
  have hP := hpsd.fn hc
  have hC : lastDims p.C t = .ok (p.fn.C t) := lastDims_eq_ok (hc.C.mono ht)
  have hR : lastDims p.R t = .ok (p.fn.R t) := lastDims_eq_ok (hc.R.mono ht)
  have hpr := hP.pred ht z
  have hle : (Sig t - (p.fn.kf z t).predCov).PosSemidef :=
    hP.pred_le_prior hsig.zero (fun t ht => hsig.succ t ht _ _
      (lastDims_eq_ok (hc.A.mono (by omega))) (lastDims_eq_ok (hc.Q.mono (by omega)))) z ht
  refine Between.pinv_eq svd heps (h.ratio t ht).1 (c := c t) ⟨?_, fun v hv => ?_, fun v => ?_⟩
    (h.ratio t ht).2
  · exact symm_of_psd ((posSemidef_conj' hpr _).add (hP.R t ht))
  · refine lt_of_lt_of_le (h.noise t ht _ hR v hv) (form_sub ?_ v)
    rw [add_sub_cancel_right]
    exact posSemidef_conj' hpr _
  · refine (form_sub ?_ v).trans (h.total t ht _ _ hC hR v)
    have e : p.fn.C t * Sig t * (p.fn.C t)ᵀ + p.fn.R t
        - (p.fn.C t * (p.fn.kf z t).predCov * (p.fn.C t)ᵀ + p.fn.R t)
        = p.fn.C t * (Sig t - (p.fn.kf z t).predCov) * (p.fn.C t)ᵀ := by
      simp only [Matrix.mul_sub, Matrix.sub_mul]
      abel
    rw [e]
    exact posSemidef_conj' hle _

/-- **C75**, the part that holds, for `filter`.  If the observation noise has in every direction at
least the variance `a t`, all uncertainty about the observation at time `t` before the data has at
most the variance `c t`, and `m eps c t ≤ a t`, then the results are those of the exact formulas (to
which the theorems on `filter` apply).  In general this is false: `C75_fails`. -/
theorem C75_filter_partial (svd : SvdRoutine) {eps : ℝ} (heps : 0 ≤ eps) {os : List (Obs m)}
    (hdef : p.DefinedFor os.length) (hpsd : p.PSD os.length) {Sig : ℕ → Mat n n}
    (hsig : IsPriorCov p os.length Sig) {a c : ℕ → ℝ}
    (h : p.ObsConditioned os.length eps Sig a c) :
    kfFilterWith (svd.pinv eps) p os = kfFilter p os := by
  have hc := definedFor_iff_covers.mp hdef
  rw [kfFilterWith_eq hc, kfFilter_eq hc]
  congr 1
  refine List.map_congr_left fun t ht => ?_
  rw [List.mem_range] at ht
  rw [p.fn.kfWith_eq_kf (obsFn os) fun i hi _ =>
    h.pinv_eq svd heps hc hpsd hsig (obsFn os) (show i < os.length by omega)]

/-- **C75**, the part that holds, for `smooth`: in addition the state noise must not be too small
compared to all that is uncertain about the state. -/
theorem C75_smooth_partial (svd : SvdRoutine) {eps : ℝ} (heps : 0 ≤ eps) {os : List (Obs m)}
    (hne : os ≠ [])
    (hdef : p.DefinedFor os.length) (hpsd : p.PSD os.length) {Sig : ℕ → Mat n n}
    (hsig : IsPriorCov p os.length Sig) {a c a' c' : ℕ → ℝ}
    (h : p.ObsConditioned os.length eps Sig a c)
    (h' : p.StateConditioned os.length eps Sig a' c') :
    kfSmoothWith (svd.pinv eps) p os = kfSmooth p os := by
  have hc := definedFor_iff_covers.mp hdef
  have hlen := List.length_pos_iff.mpr hne
  have hP := hpsd.fn hc
  rw [kfSmoothWith_eq hne hc, kfSmooth_eq hne hc]
  congr 1
  refine List.map_congr_left fun t ht => ?_
  rw [List.mem_range] at ht
  rw [p.fn.ksWith_eq_ks (obsFn os) (show t ≤ os.length - 1 by omega) (fun i hi _ =>
    h.pinv_eq svd heps hc hpsd hsig (obsFn os) (show i < os.length by omega)) fun i hi => ?_]
  have hi' : i + 1 < os.length := by omega
  have hpr := hP.pred hi' (obsFn os)
  have hQ : lastDims p.Q i = .ok (p.fn.Q i) := lastDims_eq_ok (hc.Q.mono (by omega))
  have hle : (Sig (i + 1) - (p.fn.kf (obsFn os) (i + 1)).predCov).PosSemidef :=
    hP.pred_le_prior hsig.zero (fun t ht => hsig.succ t ht _ _
      (lastDims_eq_ok (hc.A.mono (by omega))) (lastDims_eq_ok (hc.Q.mono (by omega)))) (obsFn os) hi'
  refine Between.pinv_eq svd heps (h'.ratio i hi').1 (c := c' i)
    ⟨symm_of_psd hpr, fun v hv => ?_, fun v => ?_⟩ (h'.ratio i hi').2
  · refine lt_of_lt_of_le (h'.noise i hi' _ hQ v hv) (form_sub ?_ v)
    rw [(p.fn.kf_pred_succ (obsFn os) i).2, add_sub_cancel_right]
    exact posSemidef_conj' (hP.filt (by omega) _) _
  · exact (form_sub hle v).trans (h'.total i hi' v)

theorem filterCorrectWith_congr {pi : ∀ k, Mat k k → Mat k k} (C : Mat m n) (R : Mat m m)
    (d : Vec m) (mean : Vec n) (cov : Mat n n) {o o' : Obs m} (h : o.Sim o') :
    filterCorrectWith pi C R d mean cov o = filterCorrectWith pi C R d mean cov o' := by
  by_cases hm : o.missing
  · rw [filterCorrectWith_missing _ _ _ _ _ hm, filterCorrectWith_missing _ _ _ _ _ (h.1.mp hm)]
  · rw [filterCorrectWith_observed _ _ _ _ _ hm,
      filterCorrectWith_observed _ _ _ _ _ (fun hm' => hm (h.1.mpr hm')), h.2 hm]

theorem PFun.kfWith_congr {pi : ∀ k, Mat k k → Mat k k} (P : PFun n m) {z z' : ℕ → Obs m} {t : ℕ}
    (h : ∀ i ≤ t, (z i).Sim (z' i)) : P.kfWith pi z t = P.kfWith pi z' t := by
  induction t with
  | zero =>
    show P.correctWith pi 0 _ _ (z 0) = P.correctWith pi 0 _ _ (z' 0)
    rw [PFun.correctWith, PFun.correctWith, filterCorrectWith_congr _ _ _ _ _ (h 0 le_rfl)]
  | succ t ih =>
    show P.nextWith pi t (P.kfWith pi z t) (z (t + 1))
      = P.nextWith pi t (P.kfWith pi z' t) (z' (t + 1))
    rw [ih fun i hi => h i (by omega)]
    simp only [PFun.nextWith, PFun.correctWith]
    rw [filterCorrectWith_congr _ _ _ _ _ (h (t + 1) le_rfl)]

section
variable {Ω : Type*} [MeasurableSpace Ω] {μ : Measure Ω} [IsProbabilityMeasure μ]
  {X : ℕ → Ω → Vec n} {Z : ℕ → Ω → Vec m} {u : (i : Noise) → Ω → Vec (i.dim n m)}

/-- **C75**, what remains true of `filter` whatever is dropped: for every linear system driven by
uncorrelated disturbances the covariance reported is the mean square error of the mean returned
(an upper bound, when the covariances passed are upper bounds), and the mean is unbiased. -/
theorem C75_filter_honest (svd : SvdRoutine) (eps : ℝ) (hsys : IsLinSystem μ p T X Z u)
    (hdef : p.DefinedFor T) (hpsd : p.PSD T) (mask : MaskPat m) :
    ∃ (est : ℕ → Ω → Vec n) (cov : ℕ → Mat n n),
      (∀ ω, ∀ os : List (Obs m), os.length = T → Records mask (fun t => Z t ω) os →
        ∃ out, kfFilterWith (svd.pinv eps) p os = .ok out ∧ out.length = T ∧
          ∀ t, t < T → out[t]? = some (est t ω, cov t)) ∧
      ∀ t, t < T →
        (∀ a, MemLp (fun ω => (X t ω - est t ω) a) 2 μ) ∧
        (p.AtLeast T μ u → (cov t - secondMoment μ (fun ω => X t ω - est t ω)).PosSemidef) ∧
        (p.Exact T μ u → secondMoment μ (fun ω => X t ω - est t ω) = cov t) ∧
        (Centred T μ u → ∀ a, ∫ ω, (X t ω - est t ω) a ∂μ = 0) := by
  have hc := definedFor_iff_covers.mp hdef
  have h := hsys.sys hc
  have hP := hpsd.fn hc
  have hpi := svd.good eps
  refine ⟨fun t ω => (p.fn.kfWith (svd.pinv eps) ((outcome p.fn X Z u ω).rows mask) t).filtMean,
    fun t => (p.fn.kfWith (svd.pinv eps) (zNil mask) t).filtCov, ?_, fun t ht => ?_⟩
  · intro ω os hos hrec
    refine ⟨_, kfFilterWith_eq (by rw [hos]; exact hc), by simp [hos], fun t ht => ?_⟩
    simp only [hos, List.getElem?_map, List.getElem?_range ht, Option.map_some]
    have hsim : ∀ i ≤ t, (obsFn os i).Sim ((outcome p.fn X Z u ω).rows mask i) := by
      intro i hi
      have hi' : i < os.length := by omega
      obtain ⟨h1, h2⟩ := hrec i hi'
      rw [obsFn_eq hi']
      have h3 : os[i].missing ↔ mask.rowMissing i := by
        show (∃ j, os[i].mask j = true) ↔ _
        rw [h1]
        rfl
      exact ⟨h3, fun hm => h2 fun hm' => hm (h3.mpr hm')⟩
    rw [p.fn.kfWith_congr hsim]
    congr 2
    exact (p.fn.kfWith_cov_congr (z := (outcome p.fn X Z u ω).rows mask) (z' := zNil mask)
      fun _ _ => Iff.rfl).2
  · obtain ⟨-, L, -, hcov, hL⟩ := PFun.kfWith_coef hpi hP mask ht
    have herr : (fun ω => X t ω
        - (p.fn.kfWith (svd.pinv eps) ((outcome p.fn X Z u ω).rows mask) t).filtMean)
        = fun ω => L.ev T fun i => u i ω := funext fun ω => hL _ (h.of ω) rfl
    have hQ : ∀ s, s + 1 < T → lastDims p.Q s = .ok (p.fn.Q s) := fun s hs =>
      lastDims_eq_ok (hc.Q.mono (by omega))
    have hR : ∀ s, s < T → lastDims p.R s = .ok (p.fn.R s) := fun s hs =>
      lastDims_eq_ok (hc.R.mono hs)
    refine ⟨fun a => ?_, fun hle => ?_, fun he => ?_, fun hcent a => ?_⟩
    · have := h.uncor.ev_l2 L a
      rw [← herr] at this
      exact this
    · rw [herr, h.uncor.ev_second]
      show ((p.fn.kfWith (svd.pinv eps) (zNil mask) t).filtCov - _).PosSemidef
      rw [← hcov]
      exact L.cov_mono T hle.S0 (fun s hs => hle.Q s hs _ (hQ s hs)) fun s hs =>
        hle.R s hs _ (hR s hs)
    · rw [herr, h.uncor.ev_second]
      refine Eq.trans ?_ hcov
      exact L.cov_congr T he.S0 (fun s hs => he.Q s hs _ (hQ s hs)) fun s hs => he.R s hs _ (hR s hs)
    · have := h.uncor.ev_mean hcent L a
      simp only [congrFun herr]
      exact this

end

/-! ### Where the cut-off changes the results -/

theorem isSVD_diagonal {s : Vec k} (hs : ∀ i, 0 ≤ s i) : IsSVD (diagonal s) 1 s 1 :=
  ⟨by simp, by simp, hs, by simp⟩

theorem pinv_diagonal (svd : SvdRoutine) (eps : ℝ) {s : Vec k} (hs : ∀ i, 0 ≤ s i) :
    svd.pinv eps k (diagonal s)
      = diagonal fun i => if k * eps * maxSingular s < s i then (s i)⁻¹ else 0 := by
  rw [C75_any_decomposition svd eps (isSVD_diagonal hs), svdPinv]
  simp

/-- Two independent sensors for two independent quantities; the second quantity and its sensor have
the variance `e`. -/
noncomputable def twoSensors (e : ℝ) : Params 2 2 where
  A := .const 1
  b := .const 0
  Q := .const 1
  C := .const 1
  d := .const 0
  R := .const (diagonal ![1, e])
  mu0 := 0
  S0 := diagonal ![1, e]

theorem twoSensors_definedFor (e : ℝ) (T : ℕ) : (twoSensors e).DefinedFor T :=
  definedFor_iff_covers.mpr ⟨trivial, trivial, trivial, trivial, trivial, trivial⟩

/-- **C75** is false without a condition on the parameters: for every `eps > 0` there is a model with
positive definite covariances in which `filter` ignores a sensor.  The second component of the
estimate should move half the way to the observation and its variance should be halved, but
both stay at their initial values, whatever is observed. -/
theorem C75_fails (svd : SvdRoutine) {eps : ℝ} (heps : 0 < eps) :
    ∃ p : Params 2 2, p.S0.PosDef ∧ (∃ R : Mat 2 2, p.R = .const R ∧ R.PosDef) ∧
      ∀ z : Vec 2, ∃ r r' : Vec 2 × Mat 2 2,
        kfFilterWith (svd.pinv eps) p [⟨z, fun _ => false⟩] = .ok [r] ∧
        kfFilter p [⟨z, fun _ => false⟩] = .ok [r'] ∧
        r.1 1 = p.mu0 1 ∧ r.2 1 1 = p.S0 1 1 ∧
        r'.1 1 = (p.mu0 1 + z 1) / 2 ∧ r'.2 1 1 = p.S0 1 1 / 2 := by
  have hpd : (diagonal ![1, eps] : Mat 2 2).PosDef := by
    rw [posDef_diagonal_iff]
    intro i
    fin_cases i <;> simp [heps]
  refine ⟨twoSensors eps, hpd, ⟨_, rfl, hpd⟩, fun z => ?_⟩
  have hc := definedFor_iff_covers.mp (twoSensors_definedFor eps 1)
  refine ⟨_, _, kfFilterWith_eq (os := [⟨z, fun _ => false⟩]) hc,
    kfFilter_eq (os := [⟨z, fun _ => false⟩]) hc, ?_⟩
  have hm : ¬ (obsFn [(⟨z, fun _ => false⟩ : Obs 2)] 0).missing := by
    simp [obsFn, Obs.missing]
  have hS : (1 : Mat 2 2) * diagonal ![1, eps] * (1 : Mat 2 2)ᵀ + diagonal ![1, eps]
      = diagonal ![2, 2 * eps] := by
    ext i j
    fin_cases i <;> fin_cases j <;> simp <;> ring
  have hnn : ∀ i, 0 ≤ (![2, 2 * eps] : Vec 2) i := by
    intro i
    fin_cases i <;> simp [heps.le]
  have hdrop : ¬ ((2 : ℕ) * eps * maxSingular ![2, 2 * eps] < 2 * eps) := by
    have h2 : (2 : ℝ) ≤ maxSingular ![2, 2 * eps] := le_maxSingular (![2, 2 * eps] : Vec 2) 0
    push_cast
    nlinarith
  have h1 := (twoSensors eps).fn.kfWith_observed (pi := svd.pinv eps) _ hm
  have h2 := (twoSensors eps).fn.kf_observed _ hm
  have hG : gainWith (svd.pinv eps) (diagonal ![1, eps]) (diagonal ![1, eps]) (1 : Mat 2 2) 1 = 0 := by
    rw [gainWith, hS, pinv_diagonal svd eps hnn]
    funext j
    simp only [transpose_one, Matrix.mul_one, diagonal_mul_diagonal]
    fin_cases j
    · simp
    · simp only [Fin.mk_one, diagonal_apply_eq, cons_val_one, cons_val_fin_one]
      rw [if_neg hdrop]
      simp
  have hK : Verif.gain (diagonal ![1, eps]) (diagonal ![1, eps]) (1 : Mat 2 2)
      = diagonal ![1 / 2, 1 / 2] := by
    rw [Verif.gain, hS, pinv_eq_of_mul_eq_one (B := diagonal ![1 / 2, (2 * eps)⁻¹])]
    · ext i j
      fin_cases i <;> fin_cases j <;> simp
      field_simp
    · ext i j
      fin_cases i <;> fin_cases j <;> simp
      field_simp
  have hz : (obsFn [(⟨z, fun _ => false⟩ : Obs 2)] 0).val = z := rfl
  have e1 : gainWith (svd.pinv eps) ((twoSensors eps).fn.kfWith (svd.pinv eps)
      (obsFn [⟨z, fun _ => false⟩]) 0).predCov ((twoSensors eps).fn.R 0) ((twoSensors eps).fn.C 0)
      = gainWith (svd.pinv eps) (diagonal ![1, eps]) (diagonal ![1, eps]) (1 : Mat 2 2) := rfl
  have e2 : Verif.gain ((twoSensors eps).fn.kf
      (obsFn [⟨z, fun _ => false⟩]) 0).predCov ((twoSensors eps).fn.R 0) ((twoSensors eps).fn.C 0)
      = Verif.gain (diagonal ![1, eps]) (diagonal ![1, eps]) (1 : Mat 2 2) := rfl
  rw [e1] at h1
  rw [e2, hK] at h2
  refine ⟨?_, ?_, ?_, ?_⟩
  · show ((twoSensors eps).fn.kfWith (svd.pinv eps) (obsFn [⟨z, fun _ => false⟩]) 0).filtMean 1 = _
    rw [h1.1, Pi.add_apply]
    simp only [Matrix.mulVec, hG, zero_dotProduct, add_zero]
    rfl
  · show ((twoSensors eps).fn.kfWith (svd.pinv eps) (obsFn [⟨z, fun _ => false⟩]) 0).filtCov 1 1 = _
    rw [h1.2, Matrix.sub_apply, Matrix.mul_assoc, Matrix.mul_apply]
    simp only [hG, Pi.zero_apply, zero_mul, Finset.sum_const_zero, sub_zero]
    rfl
  · show ((twoSensors eps).fn.kf (obsFn [⟨z, fun _ => false⟩]) 0).filtMean 1 = _
    rw [h2.2.1, hz]
    show (0 : ℝ) + (diagonal ![1 / 2, 1 / 2] *ᵥ (z - ((1 : Mat 2 2) *ᵥ (0 : Vec 2) + 0))) 1
      = (0 + z 1) / 2
    rw [mulVec_diagonal]
    simp
    ring
  · show ((twoSensors eps).fn.kf (obsFn [⟨z, fun _ => false⟩]) 0).filtCov 1 1 = _
    rw [h2.2.2]
    show ((diagonal ![1, eps] - diagonal ![1 / 2, 1 / 2] * (1 : Mat 2 2)
      * diagonal ![1, eps] : Mat 2 2)) 1 1 = (diagonal ![1, eps] : Mat 2 2) 1 1 / 2
    simp
    ring

/-- A state that does not change, the second component of variance `e`; the sum of the components is
observed. -/
noncomputable def sumSensor (e : ℝ) : Params 2 1 where
  A := .const 1
  b := .const 0
  Q := .const 0
  C := .const !![1, 1]
  d := .const 0
  R := .const 1
  mu0 := 0
  S0 := diagonal ![1, e]

theorem sumSensor_definedFor (e : ℝ) (T : ℕ) : (sumSensor e).DefinedFor T :=
  definedFor_iff_covers.mpr ⟨trivial, trivial, trivial, trivial, trivial, trivial⟩

/-- Two rows, the first one missing. -/
def gapThen (z0 z1 : Vec 1) : List (Obs 1) := [⟨z0, fun _ => true⟩, ⟨z1, fun _ => false⟩]

theorem sumSensor_psd {e : ℝ} (he : 0 ≤ e) (T : ℕ) : (sumSensor e).PSD T := by
  refine ⟨fun t _ Q h => ?_, fun t _ R h => ?_, ?_⟩
  · cases h; exact PosSemidef.zero
  · cases h; exact PosSemidef.one
  · exact PosSemidef.diagonal fun i => by fin_cases i <;> simp [he]

/-- The smoothed row at time 0. -/
theorem sumSensor_smooth (svd : SvdRoutine) {eps : ℝ} (heps : 0 < eps) (heps2 : eps < 1 / 2)
    (z0 z1 : Vec 1) :
    ∃ out, kfSmoothWith (svd.pinv eps) (sumSensor eps) (gapThen z0 z1) = .ok out ∧
      out[0]? = some ((!![1 / (2 + eps); 0] : Mat 2 1) *ᵥ z1,
        (diagonal ![1 - 1 / (2 + eps), eps] : Mat 2 2)) := by
  have hc := definedFor_iff_covers.mp (sumSensor_definedFor eps 2)
  refine ⟨_, kfSmoothWith_eq (os := gapThen z0 z1) (by simp [gapThen]) hc, ?_⟩
  set z := obsFn (gapThen z0 z1) with hz
  have hm0 : (z 0).missing := ⟨0, rfl⟩
  have hm1 : ¬ (z 1).missing := by simp [hz, obsFn, gapThen, Obs.missing]
  set P := (sumSensor eps).fn with hPdef
  have f0 := P.kfWith_missing (pi := svd.pinv eps) z hm0
  have p1 := P.kfWith_pred_succ (pi := svd.pinv eps) z 0
  have f1 := P.kfWith_observed (pi := svd.pinv eps) z hm1
  have q0 : (P.kfWith (svd.pinv eps) z 0).predMean = 0 := rfl
  have q0' : (P.kfWith (svd.pinv eps) z 0).predCov = diagonal ![1, eps] := rfl
  have hA : P.A 0 = 1 := rfl
  have hb : P.b 0 = 0 := rfl
  have hQ : P.Q 0 = 0 := rfl
  have hC : P.C 1 = !![1, 1] := rfl
  have hd : P.d 1 = 0 := rfl
  have hR : P.R 1 = 1 := rfl
  rw [f0.1, f0.2, q0, q0', hA, hb, hQ] at p1
  simp only [Matrix.mulVec_zero, zero_add, Matrix.one_mul, transpose_one, Matrix.mul_one,
    add_zero] at p1
  rw [p1.1, p1.2, hC, hd, hR] at f1
  have hz1 : (z 1).val = z1 := rfl
  have hpos : (0 : ℝ) < 2 + eps := by linarith
  have hS : (!![1, 1] : Mat 1 2) * diagonal ![1, eps] * (!![1, 1] : Mat 1 2)ᵀ + 1
      = diagonal ![2 + eps] := by
    ext i j
    fin_cases i; fin_cases j
    simp only [Fin.zero_eta, Matrix.add_apply, Matrix.mul_apply, Fin.sum_univ_two, transpose_apply]
    simp
    ring
  have hX : svd.pinv eps 1 (diagonal ![2 + eps]) = diagonal ![(2 + eps)⁻¹] := by
    rw [pinv_diagonal svd eps (by intro i; fin_cases i; simp; linarith)]
    have hmax : maxSingular (![2 + eps] : Vec 1) ≤ 2 + eps :=
      maxSingular_le hpos.le fun i => by fin_cases i; simp
    congr 1
    funext i
    fin_cases i
    simp only [Fin.zero_eta, cons_val_fin_one]
    rw [if_pos]
    push_cast
    nlinarith
  have hY : svd.pinv eps 2 (diagonal ![1, eps]) = diagonal ![1, 0] := by
    rw [pinv_diagonal svd eps (by intro i; fin_cases i <;> simp [heps.le])]
    have hmax : maxSingular (![1, eps] : Vec 2) = 1 := by
      apply le_antisymm
      · exact maxSingular_le zero_le_one fun i => by fin_cases i <;> simp; linarith
      · exact le_maxSingular (![1, eps] : Vec 2) 0
    rw [hmax]
    congr 1
    funext i
    fin_cases i
    · show (if ((2 : ℕ) : ℝ) * eps * 1 < 1 then (1 : ℝ)⁻¹ else 0) = 1
      rw [if_pos (by push_cast; linarith), inv_one]
    · show (if ((2 : ℕ) : ℝ) * eps * 1 < eps then eps⁻¹ else 0) = 0
      rw [if_neg (by push_cast; linarith)]
  have hJ : (diagonal ![1, eps] : Mat 2 2) * diagonal ![1, 0] = !![1, 0; 0, 0] := by
    rw [diagonal_mul_diagonal]
    ext i j
    fin_cases i <;> fin_cases j <;> simp
  have hD : (diagonal ![1, eps] : Mat 2 2) = !![1, 0; 0, eps] := by
    ext i j
    fin_cases i <;> fin_cases j <;> simp
  have hK : gainWith (svd.pinv eps) (diagonal ![1, eps]) (1 : Mat 1 1) (!![1, 1] : Mat 1 2)
      = !![(2 + eps)⁻¹; eps * (2 + eps)⁻¹] := by
    rw [gainWith, hS, hX]
    ext i j
    fin_cases i <;> fin_cases j <;> simp [Matrix.mul_apply, Fin.sum_univ_two]
  rw [hK, hz1] at f1
  have hks := P.ksWith_lt (pi := svd.pinv eps) z (show 0 < 1 by omega)
  rw [P.ksWith_last, f0.1, f0.2, p1.1, p1.2, q0, q0', hA] at hks
  simp only [smoothUpdateWith, hY, transpose_one, Matrix.one_mul] at hks
  show some ((P.ksWith (svd.pinv eps) z 1 0).mean, (P.ksWith (svd.pinv eps) z 1 0).cov) = _
  rw [hks, f1.1, f1.2, hJ, hD]
  congr 2
  · funext i
    fin_cases i <;> simp [Matrix.mulVec, dotProduct, Fin.sum_univ_two]
  · have e : ((!![1, 0; 0, 0] : Mat 2 2))ᵀ = !![1, 0; 0, 0] := by
      ext i j
      fin_cases i <;> fin_cases j <;> simp
    rw [e]
    ext i j
    fin_cases i <;> fin_cases j <;>
      simp [Matrix.mul_apply, Fin.sum_univ_two]
    ring

/-- Under the cut-off the smoother, unlike the filter (`C75_filter_honest`), can claim more than it
knows: there is a model such that, whenever the data really come from a system with the covariances
given to `smooth`, the mean square error of the smoothed state is not bounded by the reported
covariance. -/
theorem C75_smooth_overconfident (svd : SvdRoutine) {eps : ℝ} (heps : 0 < eps)
    (heps2 : eps < 1 / 2) :
    ∃ p : Params 2 1, p.PSD 2 ∧
      ∀ {Ω : Type} [MeasurableSpace Ω] (μ : Measure Ω) (X : ℕ → Ω → Vec 2) (Z : ℕ → Ω → Vec 1)
        (u : (i : Noise) → Ω → Vec (i.dim 2 1)), IsLinSystem μ p 2 X Z u → p.Exact 2 μ u →
        ∃ (est : Ω → Vec 2) (cov : Mat 2 2),
          (∀ ω, ∃ out, kfSmoothWith (svd.pinv eps) p
              [⟨Z 0 ω, fun _ => true⟩, ⟨Z 1 ω, fun _ => false⟩] = .ok out ∧
            out[0]? = some (est ω, cov)) ∧
          ¬ (cov - secondMoment μ fun ω => X 0 ω - est ω).PosSemidef := by
  refine ⟨sumSensor eps, sumSensor_psd heps.le 2, ?_⟩
  intro Ω _ μ X Z u h he
  refine ⟨fun ω => (!![1 / (2 + eps); 0] : Mat 2 1) *ᵥ Z 1 ω,
    diagonal ![1 - 1 / (2 + eps), eps],
    fun ω => sumSensor_smooth svd heps heps2 (Z 0 ω) (Z 1 ω), fun hpsd => ?_⟩
  have hpos : (0 : ℝ) < 2 + eps := by linarith
  have hx0 : ∀ ω, X 0 ω = u .init ω := fun ω => by
    rw [h.init_eq ω]; exact zero_add _
  have hx1 : ∀ ω, X 1 ω = u .init ω + u (.trans 0) ω := fun ω => by
    rw [h.trans_eq 0 (by omega) 1 0 rfl rfl ω, hx0 ω, Matrix.one_mulVec, add_zero]
  have hz1 : ∀ ω, Z 1 ω 0 = u .init ω 0 + u .init ω 1 + (u (.trans 0) ω 0 + u (.trans 0) ω 1)
      + u (.obs 1) ω 0 := fun ω => by
    rw [h.obs_eq 1 (by omega) !![1, 1] 0 rfl rfl ω, hx1 ω]
    simp [Matrix.mulVec, dotProduct, Fin.sum_univ_two]
    ring
  -- the errors of the two components
  have e1 : ∀ ω, (X 0 ω - (!![1 / (2 + eps); 0] : Mat 2 1) *ᵥ Z 1 ω) 1 = u .init ω 1 := fun ω => by
    rw [hx0 ω]
    simp [Matrix.mulVec, dotProduct]
  have e0 : ∀ ω, (X 0 ω - (!![1 / (2 + eps); 0] : Mat 2 1) *ᵥ Z 1 ω) 0
      = u .init ω 0 - (2 + eps)⁻¹ * (u .init ω 0 + u .init ω 1
        + (u (.trans 0) ω 0 + u (.trans 0) ω 1) + u (.obs 1) ω 0) := fun ω => by
    rw [← hz1 ω, hx0 ω]
    simp [Matrix.mulVec, dotProduct]
  have u0 : Noise.Used 2 .init := trivial
  have u1 : Noise.Used 2 (.trans 0) := by show 0 + 1 < 2; omega
  have u2 : Noise.Used 2 (.obs 1) := by show 1 < 2; omega
  have S0 : ∀ a b, ∫ ω, u .init ω a * u .init ω b ∂μ = (diagonal ![1, eps] : Mat 2 2) a b :=
    fun a b => congrFun (congrFun he.S0 a) b
  have i00 : Integrable (fun ω => u .init ω 0 * u .init ω 1) μ :=
    (h.sq _ u0 0).integrable_mul (h.sq _ u0 1)
  have i11 : Integrable (fun ω => u .init ω 1 * u .init ω 1) μ :=
    (h.sq _ u0 1).integrable_mul (h.sq _ u0 1)
  have it0 : Integrable (fun ω => u (.trans 0) ω 0 * u .init ω 1) μ :=
    (h.sq _ u1 0).integrable_mul (h.sq _ u0 1)
  have it1 : Integrable (fun ω => u (.trans 0) ω 1 * u .init ω 1) μ :=
    (h.sq _ u1 1).integrable_mul (h.sq _ u0 1)
  have io : Integrable (fun ω => u (.obs 1) ω 0 * u .init ω 1) μ :=
    (h.sq _ u2 0).integrable_mul (h.sq _ u0 1)
  have m11 : secondMoment μ (fun ω => X 0 ω - (!![1 / (2 + eps); 0] : Mat 2 1) *ᵥ Z 1 ω) 1 1
      = eps := by
    show ∫ ω, _ * _ ∂μ = _
    simp only [e1]
    rw [S0]
    simp
  have m01 : secondMoment μ (fun ω => X 0 ω - (!![1 / (2 + eps); 0] : Mat 2 1) *ᵥ Z 1 ω) 0 1
      = -((2 + eps)⁻¹ * eps) := by
    show ∫ ω, _ * _ ∂μ = _
    simp only [e1, e0]
    have e : ∀ ω, (u .init ω 0 - (2 + eps)⁻¹ * (u .init ω 0 + u .init ω 1
        + (u (.trans 0) ω 0 + u (.trans 0) ω 1) + u (.obs 1) ω 0)) * u .init ω 1
        = u .init ω 0 * u .init ω 1 - (2 + eps)⁻¹ * (u .init ω 0 * u .init ω 1
          + u .init ω 1 * u .init ω 1
          + (u (.trans 0) ω 0 * u .init ω 1 + u (.trans 0) ω 1 * u .init ω 1)
          + u (.obs 1) ω 0 * u .init ω 1) := fun ω => by ring
    simp only [e]
    have hs1 : Integrable (fun ω => u .init ω 0 * u .init ω 1 + u .init ω 1 * u .init ω 1) μ :=
      i00.add i11
    have hs2 : Integrable (fun ω => u (.trans 0) ω 0 * u .init ω 1
        + u (.trans 0) ω 1 * u .init ω 1) μ := it0.add it1
    have hs3 : Integrable (fun ω => u .init ω 0 * u .init ω 1 + u .init ω 1 * u .init ω 1
        + (u (.trans 0) ω 0 * u .init ω 1 + u (.trans 0) ω 1 * u .init ω 1)) μ := hs1.add hs2
    have hs4 : Integrable (fun ω => u .init ω 0 * u .init ω 1 + u .init ω 1 * u .init ω 1
        + (u (.trans 0) ω 0 * u .init ω 1 + u (.trans 0) ω 1 * u .init ω 1)
        + u (.obs 1) ω 0 * u .init ω 1) μ := hs3.add io
    rw [integral_sub i00 (hs4.const_mul _), integral_const_mul, integral_add hs3 io,
      integral_add hs1 hs2, integral_add i00 i11, integral_add it0 it1, S0, S0,
      h.uncor _ _ u1 u0 (by simp), h.uncor _ _ u1 u0 (by simp), h.uncor _ _ u2 u0 (by simp)]
    simp
  set D := (diagonal ![1 - 1 / (2 + eps), eps] : Mat 2 2)
    - secondMoment μ fun ω => X 0 ω - (!![1 / (2 + eps); 0] : Mat 2 1) *ᵥ Z 1 ω with hD
  have d11 : D 1 1 = 0 := by rw [hD, Matrix.sub_apply, m11]; simp
  have d01 : D 0 1 = (2 + eps)⁻¹ * eps := by rw [hD, Matrix.sub_apply, m01]; simp
  have d10 : D 1 0 = (2 + eps)⁻¹ * eps := by
    have := congrFun (congrFun hpsd.1 0) 1
    rw [conjTranspose_apply, star_trivial] at this
    rw [this, d01]
  have hk : 0 < (2 + eps)⁻¹ * eps := by positivity
  set k := (2 + eps)⁻¹ * eps
  have hq := hpsd.dotProduct_mulVec_nonneg ![1, -(D 0 0 + 1) / (2 * k)]
  have hval : star (![1, -(D 0 0 + 1) / (2 * k)] : Vec 2)
      ⬝ᵥ (D *ᵥ ![1, -(D 0 0 + 1) / (2 * k)]) = -1 := by
    simp [Matrix.mulVec, dotProduct, Fin.sum_univ_two, d11, d01, d10]
    field_simp
    ring
  rw [hval] at hq
  linarith

/-! ### Cases that meet the hypotheses -/

/-- There is a routine computing singular value decompositions. -/
example : Nonempty SvdRoutine := exists_svdRoutine

theorem twoSensors_psd {e : ℝ} (he : 0 ≤ e) (T : ℕ) : (twoSensors e).PSD T := by
  refine ⟨fun t _ Q h => ?_, fun t _ R h => ?_, ?_⟩
  · cases h; exact PosSemidef.one
  · cases h; exact PosSemidef.diagonal fun i => by fin_cases i <;> simp [he]
  · exact PosSemidef.diagonal fun i => by fin_cases i <;> simp [he]

/-- A thousand observations of two random walks with unit noise, in double precision: nothing is
dropped, by the filter or by the smoother. -/
example : ∃ Sig a c a' c', IsPriorCov (twoSensors 1) 1000 Sig ∧ (twoSensors 1).PSD 1000 ∧
    (twoSensors 1).DefinedFor 1000 ∧
    (twoSensors 1).ObsConditioned 1000 (2 ^ (-52 : ℤ)) Sig a c ∧
    (twoSensors 1).StateConditioned 1000 (2 ^ (-52 : ℤ)) Sig a' c' := by
  have hone : (diagonal ![1, 1] : Mat 2 2) = 1 := by
    ext i j
    fin_cases i <;> fin_cases j <;> simp
  have hvv : ∀ v : Vec 2, v ≠ 0 → 0 < v ⬝ᵥ v := fun v hv => by
    have h : 0 ≤ v ⬝ᵥ v := Finset.sum_nonneg fun i _ => mul_self_nonneg _
    rcases h.lt_or_eq with h | h
    · exact h
    · exact absurd (dotProduct_self_eq_zero.mp h.symm) hv
  have hsc : ∀ (x : ℝ) (v : Vec 2), v ⬝ᵥ ((x • (1 : Mat 2 2)) *ᵥ v) = x * (v ⬝ᵥ v) := fun x v => by
    rw [Matrix.smul_mulVec, Matrix.one_mulVec, dotProduct_smul, smul_eq_mul]
  refine ⟨fun t => ((t : ℝ) + 1) • 1, fun _ => 1 / 2, fun t => t + 2, fun _ => 1 / 2,
    fun t => t + 2, ⟨?_, ?_⟩, twoSensors_psd zero_le_one _, twoSensors_definedFor _ _,
    ⟨fun t ht => ⟨by norm_num, ?_⟩, ?_, ?_⟩, ⟨fun t ht => ⟨by norm_num, ?_⟩, ?_, ?_⟩⟩
  · show (((0 : ℕ) : ℝ) + 1) • (1 : Mat 2 2) = diagonal ![1, 1]
    simp [hone]
  · intro t ht A Q hA hQ
    cases hA; cases hQ
    simp only [transpose_one, Matrix.one_mul, Matrix.mul_one]
    push_cast
    rw [add_smul ((t : ℝ) + 1) 1, one_smul]
  · have : (t : ℝ) < 1000 := by exact_mod_cast ht
    norm_num
    linarith
  · intro t ht R hR v hv
    cases hR
    rw [hone, Matrix.one_mulVec]
    linarith [hvv v hv]
  · intro t ht C R hC hR v
    cases hC; cases hR
    simp only [transpose_one, Matrix.one_mul, Matrix.mul_one, hone]
    rw [Matrix.add_mulVec, dotProduct_add, hsc, Matrix.one_mulVec]
    apply le_of_eq
    ring
  · have : (t : ℝ) < 1000 := by exact_mod_cast (show t < 1000 by omega)
    norm_num
    linarith
  · intro t ht Q hQ v hv
    cases hQ
    rw [Matrix.one_mulVec]
    linarith [hvv v hv]
  · intro t ht v
    show v ⬝ᵥ ((((t + 1 : ℕ) : ℝ) + 1) • (1 : Mat 2 2)) *ᵥ v ≤ _
    rw [hsc]
    apply le_of_eq
    push_cast
    ring

/-- A system for `C75_filter_honest`, in which nothing has a Gaussian law. -/
example : IsLinSystem signLaw (exSigns 1 1) 1 (fun _ ω _ => sign ω.1)
      (fun _ ω _ => sign ω.1 + sign ω.2) signNoise ∧ (exSigns 1 1).DefinedFor 1 ∧
    (exSigns 1 1).PSD 1 :=
  ⟨signs_system 1 1,
    definedFor_iff_covers.mpr ⟨trivial, trivial, trivial, trivial, trivial, trivial⟩,
    fun t ht => by omega, fun t _ R hR => by cases hR; exact one_eq' ▸ PosSemidef.one,
    show (!![1] : Mat 1 1).PosSemidef from one_eq' ▸ PosSemidef.one⟩

/-- For all parameters with positive semidefinite covariances there is a system with disturbances of
exactly these covariances. -/
theorem exists_linSystem (p : Params n m) (hdef : p.DefinedFor T) (hpsd : p.PSD T) :
    ∃ (Ω : Type) (_ : MeasurableSpace Ω) (μ : Measure Ω) (_ : IsProbabilityMeasure μ)
      (X : ℕ → Ω → Vec n) (Z : ℕ → Ω → Vec m) (u : (i : Noise) → Ω → Vec (i.dim n m)),
      IsLinSystem μ p T X Z u ∧ p.Exact T μ u ∧ Centred T μ u := by
  have hc := definedFor_iff_covers.mp hdef
  obtain ⟨Ω, i1, μ, i2, X, Z, noise, h⟩ := exists_isLinGauss p T
  obtain ⟨hu, hcen, h0, hQ, hR⟩ := (h.lg hc).uncor (hpsd.fn hc)
  refine ⟨Ω, i1, μ, i2, X, Z, deviations p.fn noise, ⟨hu.sq, fun i j hi hj hij a b =>
    congrFun (congrFun (hu.uncor i j hi hj hij) a) b, fun ω => ?_, fun t ht A b hA hb ω => ?_,
    fun t ht C d hC hd ω => ?_⟩, ⟨h0, fun t ht Q hQ' => ?_, fun t ht R hR' => ?_⟩, hcen⟩
  · rw [h.init_eq ω]
    exact (add_sub_cancel p.mu0 _).symm
  · rw [h.trans_eq t ht A b hA hb ω]
    exact congrArg _ (sub_zero _).symm
  · rw [h.obs_eq t ht C d hC hd ω]
    exact congrArg _ (sub_zero _).symm
  · have e : lastDims p.Q t = .ok (p.fn.Q t) := lastDims_eq_ok (hc.Q.mono (by omega))
    rw [hQ t ht]
    exact Except.ok.inj (e.symm.trans hQ')
  · have e : lastDims p.R t = .ok (p.fn.R t) := lastDims_eq_ok (hc.R.mono ht)
    rw [hR t ht]
    exact Except.ok.inj (e.symm.trans hR')

/-- The systems `C75_smooth_overconfident` speaks of exist. -/
example (e : ℝ) (he : 0 ≤ e) : ∃ (Ω : Type) (_ : MeasurableSpace Ω) (μ : Measure Ω)
    (_ : IsProbabilityMeasure μ)
    (X : ℕ → Ω → Vec 2) (Z : ℕ → Ω → Vec 1) (u : (i : Noise) → Ω → Vec (i.dim 2 1)),
    IsLinSystem μ (sumSensor e) 2 X Z u ∧ (sumSensor e).Exact 2 μ u ∧ Centred 2 μ u :=
  exists_linSystem _ (sumSensor_definedFor e 2) (sumSensor_psd he 2)

end Verif
