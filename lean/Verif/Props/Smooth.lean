import Verif.Proofs.EmCritical
import Verif.Props.EmMonotone

/-!
# C64: results depend smoothly on parameters and data
-/

open Matrix Filter Topology

namespace Verif

variable {n m : ℕ} {E : Type*} [NormedAddCommGroup E] [NormedSpace ℝ E] {r : WithTop ℕ∞} {x : E}

theorem table_length (T : ℕ) (mask : MaskPat m) (v : ℕ → Vec m) : (table T mask v).length = T := by
  simp [table]

theorem obsFn_table {T : ℕ} (mask : MaskPat m) (v : ℕ → Vec m) {t : ℕ} (ht : t < T) :
    obsFn (table T mask v) t = ⟨v t, mask t⟩ := by
  rw [obsFn_eq (by rwa [table_length])]
  simp [table]

theorem smoothObs_table {T : ℕ} {mask : MaskPat m} {v : E → ℕ → Vec m}
    (hv : ∀ t, t < T → ¬ mask.rowMissing t → SmoothV r (fun θ => v θ t) x) :
    SmoothObs r (fun θ => obsFn (table T mask (v θ))) x T := by
  intro t ht
  simp only [obsFn_table _ _ ht]
  by_cases hm : mask.rowMissing t
  · exact Or.inl fun _ => hm
  · exact Or.inr ⟨fun _ => hm, hv t ht hm⟩

/-- **C64.** Where the observation covariances of the unmasked rows are positive definite (and the
other covariances positive semidefinite), the means and covariances returned by `filter` depend on
parameters and data as smoothly as these depend on `θ`. -/
theorem C64_filter_smooth {p : E → Params n m} {T : ℕ} {mask : MaskPat m} {v : E → ℕ → Vec m}
    (hp : SmoothParams r p x T)
    (hv : ∀ t, t < T → ¬ mask.rowMissing t → SmoothV r (fun θ => v θ t) x)
    (hpsd : (p x).PSD T)
    (hR : ∀ t, t < T → ¬ mask.rowMissing t → ∀ R, lastDims (p x).R t = .ok R → R.PosDef) :
    ∃ (mean : ℕ → E → Vec n) (cov : ℕ → E → Mat n n),
      (∀ θ, kfFilter (p θ) (table T mask (v θ))
        = .ok ((List.range T).map fun t => (mean t θ, cov t θ))) ∧
      ∀ t, t < T → SmoothV r (mean t) x ∧ SmoothM r (cov t) x := by
  refine ⟨fun t θ => ((p θ).fn.kf (obsFn (table T mask (v θ))) t).filtMean,
    fun t θ => ((p θ).fn.kf (obsFn (table T mask (v θ))) t).filtCov, fun θ => ?_, fun t ht => ?_⟩
  · rw [kfFilter_eq (by rw [table_length]; exact hp.covers θ), table_length]
  · have hP := hpsd.fn (hp.covers x)
    have hr : RegularAt (p x).fn (obsFn (table T mask (v x))) T := by
      intro t ht hm
      rw [obsFn_table _ _ ht] at hm
      exact (posDef_conj_add (hP.pred ht _)
        (hR t ht hm _ (lastDims_eq_ok ((hp.covers x).R.mono ht))) _).det_pos.ne'
    have i := hp.fam.kf (smoothObs_table hv) hr ht
    exact ⟨i.filtMean, i.filtCov⟩

/-- **C64.** Where all covariances are positive definite, the means and covariances returned by
`smooth` depend smoothly on parameters and data. -/
theorem C64_smooth_smooth {p : E → Params n m} {T : ℕ} {mask : MaskPat m} {v : E → ℕ → Vec m}
    (hT : 0 < T) (hp : SmoothParams r p x T)
    (hv : ∀ t, t < T → ¬ mask.rowMissing t → SmoothV r (fun θ => v θ t) x)
    (hpd : (p x).PD T) :
    ∃ (mean : ℕ → E → Vec n) (cov : ℕ → E → Mat n n),
      (∀ θ, kfSmooth (p θ) (table T mask (v θ))
        = .ok ((List.range T).map fun t => (mean t θ, cov t θ))) ∧
      ∀ t, t < T → SmoothV r (mean t) x ∧ SmoothM r (cov t) x := by
  obtain ⟨T, rfl⟩ : ∃ k, T = k + 1 := ⟨T - 1, by omega⟩
  refine ⟨fun t θ => ((p θ).fn.ks (obsFn (table (T + 1) mask (v θ))) T t).mean,
    fun t θ => ((p θ).fn.ks (obsFn (table (T + 1) mask (v θ))) T t).cov, fun θ => ?_,
    fun t ht => ?_⟩
  · have hne : table (T + 1) mask (v θ) ≠ [] := by
      intro h
      have := congrArg List.length h
      simp [table_length] at this
    rw [kfSmooth_eq hne (by rw [table_length]; exact hp.covers θ), table_length]
    rfl
  · have hP := hpd.fn (hp.covers x)
    have i := hp.fam.ks (smoothObs_table hv) (hP.regular _)
      (fun t ht => (hP.filt _ (by omega)).1.det_pos.ne') (show t ≤ T by omega)
    exact ⟨i.mean, i.cov⟩

/-- **C64.** Where all covariances are positive definite, and the observation covariance is
constant in time (`loglikelihood` raises otherwise, C49), `loglikelihood` depends smoothly on
parameters and data. -/
theorem C64_loglik_smooth {p : E → Params n m} {T : ℕ} {mask : MaskPat m} {v : E → ℕ → Vec m}
    (hT : 0 < T) (hp : SmoothParams r p x T)
    (hv : ∀ t, t < T → ¬ mask.rowMissing t → SmoothV r (fun θ => v θ t) x)
    (hpd : ∀ᶠ θ in 𝓝 x, (p θ).PD T) (hR : ∀ θ, (p θ).R.IsConst) :
    ∃ l : E → ℝ, (∀ᶠ θ in 𝓝 x, kfLoglik (p θ) (table T mask (v θ)) = .ok (l θ)) ∧
      ContDiffAt ℝ r l x := by
  obtain ⟨T, rfl⟩ : ∃ k, T = k + 1 := ⟨T - 1, by omega⟩
  refine ⟨fun θ => (p θ).fn.predLL (obsFn (table (T + 1) mask (v θ))) T, ?_, ?_⟩
  · filter_upwards [hpd] with θ hθ
    have hne : table (T + 1) mask (v θ) ≠ [] := by
      intro h
      have := congrArg List.length h
      simp [table_length] at this
    rw [kfLoglik_predLL hne (by rw [table_length]; exact hp.covers θ)
      (by rw [table_length]; exact hθ) (hR θ), table_length]
    rfl
  · exact hp.fam.predLL (smoothObs_table hv) ((hpd.self_of_nhds.fn (hp.covers x)).regular _)

/-! ### The hypothesis on the observation covariance is needed -/

/-- A perfect sensor (`R = 0`); initial covariance `s`. -/
noncomputable def exPerfect (s : ℝ) : Params 1 1 where
  A := .const !![1]
  b := .const ![0]
  Q := .const !![1]
  C := .const !![1]
  d := .const ![0]
  R := .const !![0]
  mu0 := ![0]
  S0 := !![s]

theorem exPerfect_filter (s : ℝ) (hs : 0 ≤ s) :
    ∃ c, kfFilter (exPerfect s) [⟨![1], ![false]⟩] = .ok [(![if s = 0 then 0 else 1], c)] := by
  have hc : (exPerfect s).Covers [(⟨![1], ![false]⟩ : Obs 1)].length :=
    ⟨trivial, trivial, trivial, trivial, trivial, trivial⟩
  refine ⟨((exPerfect s).fn.kf (obsFn [⟨![1], ![false]⟩]) 0).filtCov, ?_⟩
  rw [kfFilter_eq hc]
  simp only [List.length_singleton, List.range_one, List.map_cons, List.map_nil]
  congr 3
  rcases hs.eq_or_lt with rfl | hs
  · rw [if_pos rfl]
    have ho : ¬ (obsFn [(⟨![1], ![false]⟩ : Obs 1)] 0).missing := by simp [obsFn, Obs.missing]
    have e : gain (!![0] : Mat 1 1) !![0] !![1] = 0 := by
      have : (!![0] : Mat 1 1) = 0 := by ext i j; fin_cases i; fin_cases j; rfl
      rw [this, gain, Matrix.zero_mul, Matrix.zero_mul]
    refine ((exPerfect 0).fn.kf_observed _ ho).2.1.trans ?_
    show ![0] + gain (!![0] : Mat 1 1) !![0] !![1] *ᵥ _ = ![0]
    rw [e, zero_mulVec, add_zero]
  · rw [if_neg hs.ne']
    refine (kf_scalar (μ := 0) (π := s) (r := 0) (y := 1) rfl rfl rfl rfl rfl rfl
      (by simpa using hs)).1.trans ?_
    rw [add_zero, div_self hs.ne']
    norm_num

theorem tvSmooth_const {α : Type} {s : (E → α) → Prop} (a : α) (t : ℕ) (h : s (fun _ => a)) :
    TVSmooth s (fun _ : E => TV.const a) t :=
  ⟨fun _ => a, fun _ => rfl, h⟩

/-- **C64.** With a perfect sensor the filtered mean can jump: the covariances of `exPerfect (s²)`
are positive semidefinite and infinitely often differentiable in `s`, but the filtered mean is
discontinuous at `s = 0`.  So the hypothesis on `R` in `C64_filter_smooth` cannot be dropped. -/
theorem C64_filter_singular_discontinuous :
    SmoothParams ⊤ (fun s : ℝ => exPerfect (s ^ 2)) 0 1 ∧ (∀ s : ℝ, (exPerfect (s ^ 2)).PSD 1) ∧
    ∃ (mean : ℝ → Vec 1) (cov : ℝ → Mat 1 1),
      (∀ s, kfFilter (exPerfect (s ^ 2)) [⟨![1], ![false]⟩] = .ok [(mean s, cov s)]) ∧
      ¬ ContinuousAt (fun s => mean s 0) 0 := by
  have psd : ∀ {a : ℝ}, 0 ≤ a → (!![a] : Mat 1 1).PosSemidef := by
    intro a ha
    have e : (!![a] : Mat 1 1) = diagonal ![a] := by
      ext i j; fin_cases i; fin_cases j; rfl
    rw [e]
    exact PosSemidef.diagonal (by intro i; fin_cases i; exact ha)
  refine ⟨⟨fun t _ => tvSmooth_const _ t (SmoothM.const _), fun t _ => tvSmooth_const _ t
      (SmoothV.const _), fun t _ => tvSmooth_const _ t (SmoothM.const _), fun t _ =>
      tvSmooth_const _ t (SmoothM.const _), fun t _ => tvSmooth_const _ t (SmoothV.const _),
      fun t _ => tvSmooth_const _ t (SmoothM.const _), SmoothV.const _, fun i j => ?_⟩,
    fun s => ⟨fun t _ => ?_, fun t _ => ?_, psd (sq_nonneg s)⟩, ?_⟩
  · fin_cases i; fin_cases j
    exact contDiffAt_id.pow 2
  · intro Q hQ; cases hQ; exact psd zero_le_one
  · intro R hR; cases hR; exact psd le_rfl
  · choose cov hcov using fun s : ℝ => exPerfect_filter (s ^ 2) (sq_nonneg s)
    refine ⟨_, cov, hcov, fun hc => ?_⟩
    have h1 : Tendsto (fun s : ℝ => (![if s ^ 2 = 0 then 0 else 1] : Vec 1) 0) (𝓝[≠] 0) (𝓝 0) := by
      have := hc.tendsto.mono_left (nhdsWithin_le_nhds (s := {0}ᶜ))
      simpa using this
    have h2 : Tendsto (fun s : ℝ => (![if s ^ 2 = 0 then 0 else 1] : Vec 1) 0) (𝓝[≠] 0) (𝓝 1) := by
      refine tendsto_const_nhds.congr' ?_
      filter_upwards [self_mem_nhdsWithin] with s hs
      have : s ≠ 0 := hs
      simp [this]
    exact zero_ne_one (tendsto_nhds_unique h1 h2)

/-! ### A case that meets the hypotheses -/

/-- A curve of parameters: transition matrix `θ`, observation variance `1 + θ²`, initial mean `θ`. -/
noncomputable def exCurve (θ : ℝ) : Params 1 1 where
  A := .const !![θ]
  b := .const ![0]
  Q := .const !![1]
  C := .const !![1]
  d := .const ![θ]
  R := .const !![1 + θ ^ 2]
  mu0 := ![θ]
  S0 := !![1]

/-- The hypotheses of the theorems hold for a curve of parameters and data, infinitely often
differentiable, at every point; the second row of the data is masked. -/
example (x : ℝ) : SmoothParams ⊤ exCurve x 3 ∧
    (∀ t < 3, SmoothV ⊤ (fun θ : ℝ => (![θ * t] : Vec 1)) x) ∧ (exCurve x).PSD 3 ∧
    (∀ θ, (exCurve θ).PD 3) ∧ (∀ θ, (exCurve θ).R.IsConst) ∧
    MaskPat.rowMissing (m := 1) (fun t _ => t == 1) 1 ∧
    ¬ MaskPat.rowMissing (m := 1) (fun t _ => t == 1) 2 := by
  have hpd : ∀ θ, (exCurve θ).PD 3 := by
    refine fun θ => ⟨fun t _ Q hQ => ?_, fun t _ R hR => ?_, posDef_scalar one_pos⟩
    · cases hQ; exact posDef_scalar one_pos
    · cases hR; exact posDef_scalar (by positivity)
  refine ⟨⟨fun t _ => ⟨fun θ => !![θ], fun _ => rfl, fun i j => ?_⟩, fun t _ => tvSmooth_const _ t
      (SmoothV.const _), fun t _ => tvSmooth_const _ t (SmoothM.const _), fun t _ =>
      tvSmooth_const _ t (SmoothM.const _), fun t _ => ⟨fun θ => ![θ], fun _ => rfl, fun i => ?_⟩,
      fun t _ => ⟨fun θ => !![1 + θ ^ 2], fun _ => rfl, fun i j => ?_⟩, fun i => ?_,
      SmoothM.const _⟩, fun t _ i => ?_, (hpd x).psd, hpd, fun θ => ⟨_, rfl⟩, ⟨0, rfl⟩, ?_⟩
  · fin_cases i; fin_cases j; exact contDiffAt_id
  · fin_cases i; exact contDiffAt_id
  · fin_cases i; fin_cases j; exact contDiffAt_const.add (contDiffAt_id.pow 2)
  · fin_cases i; exact contDiffAt_id
  · fin_cases i; exact contDiffAt_id.mul contDiffAt_const
  · rintro ⟨j, hj⟩
    simp at hj

end Verif
