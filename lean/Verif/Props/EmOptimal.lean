import Verif.Proofs.EmJoint
import Verif.Proofs.EmMonotone
import Verif.Props.Posterior
import Verif.Props.Em

/-!
# C06: every parameter `em` replaces is a maximiser

The expected complete-data log-likelihood of `Verif.Spec.Em`, under the conditional distribution
of the states given the unmasked observations (Mathlib's `condDistrib`).
-/

open MeasureTheory ProbabilityTheory Matrix

namespace Verif

variable {n m : ℕ} {Ω : Type*} [MeasurableSpace Ω] {μ : Measure Ω} [IsProbabilityMeasure μ]
  {p : Params n m} {T : ℕ} {X : ℕ → Ω → Vec n} {Z : ℕ → Ω → Vec m}
  {noise : (i : Noise) → Ω → Vec (i.dim n m)}

/-- The states of a run of length `T` as one random variable. -/
def trajectory (X : ℕ → Ω → Vec n) (T : ℕ) (ω : Ω) : Fin T → Vec n := fun t => X t ω

/-- A trajectory as a function on all times (`0` past the end). -/
def onNat {T : ℕ} (x : Fin T → Vec n) (t : ℕ) : Vec n := if h : t < T then x ⟨t, h⟩ else 0

/-- The expected complete-data log-likelihood of the parameters `q` for the data `os`, the states
being distributed as in the process `X` given that its unmasked observations take the values
`y`. -/
noncomputable def expectedLogLik (μ : Measure Ω) [IsProbabilityMeasure μ] (X : ℕ → Ω → Vec n)
    (Z : ℕ → Ω → Vec m) (mask : MaskPat m) (T : ℕ) (y : Fin T → Vec m) (os : List (Obs m))
    (q : Params n m) : ℝ :=
  ∫ x, logJoint q os (onNat x) ∂(condDistrib (trajectory X T) (seen mask Z T) μ y)

theorem measurable_onNat {T : ℕ} (t : ℕ) : Measurable fun x : Fin T → Vec n => onNat x t := by
  unfold onNat
  split
  · exact measurable_pi_apply _
  · exact measurable_const

/-- The smoothed statistics are the moments of the conditional distribution of the trajectory. -/
theorem statsMoments_condDistrib (hproc : IsLinGauss μ p T X Z noise) (hdef : p.DefinedFor T)
    (hpsd : p.PSD T) (mask : MaskPat m) (hT : 0 < T) :
    ∀ᵐ ω ∂μ, ∀ os : List (Obs m), os.length = T → Records mask (fun t => Z t ω) os →
      StatsMoments (condDistrib (trajectory X T) (seen mask Z T) μ (seen mask Z T ω))
        (fun t x => onNat x t) (p.fn.stats (obsFn os) (T - 1)) (T - 1) := by
  have hc := definedFor_iff_covers.mp hdef
  have h := hproc.lg hc
  have hP := hpsd.fn hc
  have hmY : Measurable (seen mask Z T) := (h.smooth hP mask hT).measY
  have hmX : ∀ t, t < T → Measurable (X t) := fun t ht => (h.smooth hP mask ht).measX
  have hmT : Measurable (trajectory X T) := by
    rw [measurable_pi_iff]
    exact fun t => hmX t t.2
  have hon : ∀ t, t < T → ∀ ω, onNat (trajectory X T ω) t = X t ω := by
    intro t ht ω
    simp [onNat, ht, trajectory]
  have h1 : ∀ᵐ ω ∂μ, ∀ t : Fin T, condDistrib (X t) (seen mask Z T) μ (seen mask Z T ω)
      = (condDistrib (trajectory X T) (seen mask Z T) μ (seen mask Z T ω)).map
        (fun x => onNat x t) := by
    rw [ae_all_iff]
    intro t
    have := condDistrib_comp (mβ := MeasurableSpace.pi) (μ := μ) (seen mask Z T) hmT.aemeasurable
      (measurable_onNat (n := n) (T := T) t)
    have e : (fun x => onNat x (t : ℕ)) ∘ trajectory X T = X t := funext fun ω => hon t t.2 ω
    rw [e] at this
    have := ae_of_ae_map hmY.aemeasurable this
    filter_upwards [this] with ω hω
    rw [hω, Kernel.map_apply _ (measurable_onNat _)]
  have hmp : ∀ t, Measurable fun x : Fin T → Vec n => Sum.elim (onNat x (t + 1)) (onNat x t) := by
    intro t
    rw [measurable_pi_iff]
    rintro (i | i)
    · exact (measurable_pi_apply i).comp (measurable_onNat (t + 1))
    · exact (measurable_pi_apply i).comp (measurable_onNat t)
  have h2 : ∀ᵐ ω ∂μ, ∀ t : Fin (T - 1),
      condDistrib (fun ω => Sum.elim (X (t + 1) ω) (X t ω)) (seen mask Z T) μ (seen mask Z T ω)
      = (condDistrib (trajectory X T) (seen mask Z T) μ (seen mask Z T ω)).map
        (fun x => Sum.elim (onNat x (t + 1)) (onNat x t)) := by
    rw [ae_all_iff]
    intro t
    have := condDistrib_comp (mβ := MeasurableSpace.pi) (μ := μ) (seen mask Z T) hmT.aemeasurable (hmp t)
    have e : (fun x => Sum.elim (onNat x (t + 1)) (onNat x (t : ℕ))) ∘ trajectory X T
        = fun ω => Sum.elim (X (t + 1) ω) (X t ω) := by
      funext ω
      have := t.2
      simp only [Function.comp, hon t (by omega) ω, hon (t + 1) (by omega) ω]
    rw [e] at this
    have := ae_of_ae_map hmY.aemeasurable this
    filter_upwards [this] with ω hω
    rw [hω, Kernel.map_apply _ (hmp _)]
  filter_upwards [h1, h2, C02_smooth_exact_posterior hproc hdef hpsd mask hT,
    C03_pair_exact_posterior hproc hdef hpsd mask hT] with ω g1 g2 g3 g4 os hos hrec
  have hne : os ≠ [] := by rintro rfl; simp at hos; omega
  obtain ⟨out, k1, -, k2⟩ := g3 os hos hrec
  obtain ⟨ss, k3, -, k4⟩ := g4 os hos hrec
  rw [kfSmooth_eq hne (by rw [hos]; exact hc)] at k1
  rw [emStats_eq hne (by rw [hos]; exact hc)] at k3
  cases k1
  cases k3
  rw [hos] at *
  have hP' : p.fn.PSD (T - 1 + 1) := by rw [Nat.sub_add_cancel hT]; exact hP
  refine ⟨fun t ht => ?_, fun t ht => ?_⟩
  · have ht' : t < T := by omega
    refine HasMoments.of_map (measurable_onNat t) ?_ (hP'.smooth (by omega) _)
    obtain ⟨mean, cov, e1, e2⟩ := k2 t ht'
    rw [← g1 ⟨t, ht'⟩, e2]
    simp only [List.getElem?_map, List.getElem?_range ht', Option.map_some, Option.some.injEq,
      Prod.mk.injEq] at e1
    rw [← e1.1, ← e1.2]
    rfl
  · refine HasMoments.of_map (hmp t) ?_ (stats_pairPSD hP' _ t ht)
    obtain ⟨s, s', e1, e2, e3⟩ := k4 t (by omega)
    simp only [List.getElem?_map, List.getElem?_range (show t < T by omega),
      List.getElem?_range (show t + 1 < T by omega), Option.map_some, Option.some.injEq] at e1 e2
    rw [← g2 ⟨t, ht⟩, e3, ← e1, ← e2]

theorem emStep_of_kfEm {p p' : Params n m} {os : List (Obs m)} {vars : EmVar → Bool}
    (h : kfEm p os 1 vars = .ok p') : os ≠ [] ∧ p.Covers os.length ∧ p'.Covers os.length ∧
      EmEqs p vars p (p.fn.stats (obsFn os) (os.length - 1)) (obsFn os) (os.length - 1) p' := by
  rw [kfEm, emLoop_succ] at h
  cases hss : emStats p os with
  | error e => rw [hss] at h; cases h
  | ok ss =>
    obtain ⟨hne, hc⟩ := emStats_covers hss
    obtain ⟨p1, e1, c1, q1⟩ := emIter_ok (vars := vars) hne hc hc
    rw [e1] at h
    cases h
    exact ⟨hne, hc, c1, q1⟩

theorem Params.PD.psd {p : Params n m} {T : ℕ} (h : p.PD T) : p.PSD T :=
  ⟨fun t ht Q hQ => (h.Q t ht Q hQ).posSemidef, fun t ht R hR => (h.R t ht R hR).posSemidef,
    h.S0.posSemidef⟩

theorem SmoothedMoments.stats {Ω : Type*} [MeasurableSpace Ω] {ν : Measure Ω}
    {X : ℕ → Ω → Vec n} {f : ℕ → EmStats n} {T : ℕ}
    (h : SmoothedMoments ν X ((List.range (T + 1)).map f)) : StatsMoments ν X f T := by
  have e : ∀ t, t < T + 1 → ((List.range (T + 1)).map f)[t]? = some (f t) := by
    intro t ht
    rw [List.getElem?_map, List.getElem?_range ht, Option.map_some]
  exact ⟨fun t ht => h.single t _ (e t (by omega)),
    fun t ht => h.pair t _ _ (e t (by omega)) (e (t + 1) (by omega))⟩

theorem StatsMoments.smoothed {Ω : Type*} [MeasurableSpace Ω] {ν : Measure Ω}
    {X : ℕ → Ω → Vec n} {f : ℕ → EmStats n} {T : ℕ}
    (h : StatsMoments ν X f T) : SmoothedMoments ν X ((List.range (T + 1)).map f) := by
  have e : ∀ t s, ((List.range (T + 1)).map f)[t]? = some s → t ≤ T ∧ s = f t := by
    intro t s hs
    rw [List.getElem?_map] at hs
    by_cases ht : t < T + 1
    · rw [List.getElem?_range ht] at hs
      exact ⟨by omega, by simpa using hs.symm⟩
    · rw [List.getElem?_eq_none (by simpa using ht)] at hs
      cases hs
  refine ⟨fun t s hs => ?_, fun t s s' hs hs' => ?_⟩
  · obtain ⟨h1, rfl⟩ := e t s hs
    exact h.single t h1
  · obtain ⟨h1, rfl⟩ := e t s hs
    obtain ⟨h2, rfl⟩ := e (t + 1) s' hs'
    exact h.pair t (by omega)

/-- **C06, with the weighing covariances constant in time.** For every data set and mask: an
iteration of `em` replaces every selected parameter by a maximiser of the expected complete-data
log-likelihood, the expectation being over random states that have the smoothed means, covariances
and lag-one covariances.  What is missing from the full claim: the matrices and offsets when the
covariance that weighs their errors varies in time (`Weighed`); `C06_fails` shows the claim false
there.  Random states with the smoothed moments exist for every data set (`C06_states_exist`), and
the posterior given the data is an instance (`C06_maximiser_posterior_partial`). -/
theorem C06_maximiser_partial {p p' : Params n m} {os : List (Obs m)} {vars : EmVar → Bool}
    {ss : List (EmStats n)} (hpd : p.PD os.length) (hss : emStats p os = .ok ss)
    (hX : SmoothedMoments μ X ss) (h : kfEm p os 1 vars = .ok p') :
    MStepMax (fun q => ∫ ω, logJoint q os (fun t => X t ω) ∂μ)
      (fun v => vars v = true ∧ Weighed p p' v) p p' := by
  obtain ⟨hne, c0, c1, heq⟩ := emStep_of_kfEm h
  rw [emStats_eq hne c0] at hss
  cases hss
  have hlen : os.length - 1 + 1 = os.length := Nat.sub_add_cancel (List.length_pos_iff.mpr hne)
  have hP : p.fn.PSD (os.length - 1 + 1) := by rw [hlen]; exact hpd.psd.fn c0
  rw [← hlen] at hX
  have hX := hX.stats
  have hm := mstepMax heq (stats_pairPSD hP _) (fun t ht => hP.smooth ht _)
    (fun R e => hpd.R 0 (by omega) R (by rw [e]; rfl))
    (fun Q e h0 => hpd.Q 0 (by omega) Q (by rw [e]; rfl)) hpd.S0
  exact hm.congr (fun q hq => (hX.joint (q := q) (os := os) (by omega) hq).2) c0 c1

/-- **C06** is not vacuous: random states with the smoothed moments exist for every data set. -/
theorem C06_states_exist {p : Params n m} {os : List (Obs m)} {ss : List (EmStats n)}
    (hpsd : p.PSD os.length) (hss : emStats p os = .ok ss) :
    ∃ (Ω : Type) (_ : MeasurableSpace Ω) (ν : Measure Ω) (_ : IsProbabilityMeasure ν)
      (X : ℕ → Ω → Vec n), SmoothedMoments ν X ss := by
  obtain ⟨hne, c0⟩ := emStats_covers hss
  rw [emStats_eq hne c0] at hss
  cases hss
  have hlen : os.length - 1 + 1 = os.length := Nat.sub_add_cancel (List.length_pos_iff.mpr hne)
  have hP := hpsd.fn c0
  rw [← hlen] at c0 hP
  obtain ⟨Ω, i1, ν, i2, X, hX⟩ := exists_statsMoments c0 hP (obsFn os)
  refine ⟨Ω, i1, ν, i2, X, ?_⟩
  have := hX.smoothed
  rwa [hlen] at this

/-- **C06, for the posterior given the data.** For almost every outcome of the process and every
masked array recording it, an iteration of `em` replaces every selected parameter by a maximiser of
the expected complete-data log-likelihood under the posterior of the states given the unmasked
observations.  Missing: as for `C06_maximiser_partial`. -/
theorem C06_maximiser_posterior_partial (hproc : IsLinGauss μ p T X Z noise) (hdef : p.DefinedFor T)
    (hpd : p.PD T) (mask : MaskPat m) (hT : 0 < T) (vars : EmVar → Bool) :
    ∀ᵐ ω ∂μ, ∀ os : List (Obs m), os.length = T → Records mask (fun t => Z t ω) os →
      ∃ p', kfEm p os 1 vars = .ok p' ∧
        MStepMax (expectedLogLik μ X Z mask T (seen mask Z T ω) os)
          (fun v => vars v = true ∧ Weighed p p' v) p p' := by
  have hc := definedFor_iff_covers.mp hdef
  filter_upwards [statsMoments_condDistrib hproc hdef hpd.psd mask hT] with ω hω os hos hrec
  have hne : os ≠ [] := by rintro rfl; simp at hos; omega
  obtain ⟨p', h1, -⟩ := C23_em_succeeds hne (by rw [hos]; exact hdef) 1 vars
  refine ⟨p', h1, ?_⟩
  have hs := (hω os hos hrec).smoothed
  rw [Nat.sub_add_cancel hT] at hs
  refine C06_maximiser_partial (by rw [hos]; exact hpd)
    (by rw [emStats_eq hne (by rw [hos]; exact hc), hos]) hs h1

end Verif
