import Verif.Proofs.Errors
import Verif.Proofs.EmJoint
import Verif.Props.Posterior

/-!
# C54, C55: the reported covariances are honest, the estimates optimal, the innovations white

For an arbitrary linear-Gaussian process (`Verif.Spec.Process`).  `Honest` and `Optimal` are
specified in `Verif.Spec.Errors`.
-/

open MeasureTheory ProbabilityTheory Matrix

namespace Verif

variable {n m : ℕ} {Ω : Type*} [MeasurableSpace Ω] {μ : Measure Ω} [IsProbabilityMeasure μ]
  {p : Params n m} {T : ℕ} {X : ℕ → Ω → Vec n} {Z : ℕ → Ω → Vec m}
  {noise : (i : Noise) → Ω → Vec (i.dim n m)}

/-- **C54** for `filter`.  Row `t` is an honest estimate of the state at `t` from the unmasked
rows `0 … t`, and no estimator computed from these rows has a smaller mean square error in any
direction.  The covariance is the same for all outcomes. -/
theorem C54_filter_error (hproc : IsLinGauss μ p T X Z noise) (hdef : p.DefinedFor T)
    (hpsd : p.PSD T) (mask : MaskPat m) :
    ∃ (est : ℕ → Ω → Vec n) (cov : ℕ → Mat n n),
      (∀ ω, ∀ os : List (Obs m), os.length = T → Records mask (fun t => Z t ω) os →
        ∃ out, kfFilter p os = .ok out ∧ out.length = T ∧
          ∀ t, t < T → out[t]? = some (est t ω, cov t)) ∧
      ∀ t, t < T → Honest μ (X t) (seen mask Z (t + 1)) (est t) (cov t) ∧
        Optimal μ (X t) (seen mask Z (t + 1)) (est t) (cov t) := by
  have hc := definedFor_iff_covers.mp hdef
  have h := hproc.lg hc
  have hP := hpsd.fn hc
  refine ⟨fun t ω => p.fn.filtM mask t (seen mask Z (t + 1) ω), p.fn.filtC mask, ?_,
    fun t ht => ⟨(h.filt hP mask ht).honest, (h.filt hP mask ht).optimal⟩⟩
  intro ω os hos hrec
  refine ⟨_, kfFilter_eq (by rw [hos]; exact hc), by simp [hos], fun t ht => ?_⟩
  have hsim : ∀ i ≤ t, (obsFn os i).Sim (zOf mask (seen mask Z (t + 1) ω) i) := fun i hi =>
    hrec.sim (k := t + 1) (by omega) (by omega)
  simp only [hos, List.getElem?_map, List.getElem?_range ht, Option.map_some]
  rw [p.fn.kf_congr hsim, p.fn.filtCov_zOf]
  rfl

/-- **C54** for `smooth`. -/
theorem C54_smooth_error (hproc : IsLinGauss μ p T X Z noise) (hdef : p.DefinedFor T)
    (hpsd : p.PSD T) (mask : MaskPat m) (hT : 0 < T) :
    ∃ (est : ℕ → Ω → Vec n) (cov : ℕ → Mat n n),
      (∀ ω, ∀ os : List (Obs m), os.length = T → Records mask (fun t => Z t ω) os →
        ∃ out, kfSmooth p os = .ok out ∧ out.length = T ∧
          ∀ t, t < T → out[t]? = some (est t ω, cov t)) ∧
      ∀ t, t < T → Honest μ (X t) (seen mask Z T) (est t) (cov t) ∧
        Optimal μ (X t) (seen mask Z T) (est t) (cov t) := by
  have hc := definedFor_iff_covers.mp hdef
  have h := hproc.lg hc
  have hP := hpsd.fn hc
  refine ⟨fun t ω => p.fn.smoothM mask T t (seen mask Z T ω), p.fn.smoothC mask T, ?_,
    fun t ht => ⟨(h.smooth hP mask ht).honest, (h.smooth hP mask ht).optimal⟩⟩
  intro ω os hos hrec
  have hne : os ≠ [] := by rintro rfl; simp at hos; omega
  refine ⟨_, kfSmooth_eq hne (by rw [hos]; exact hc), by simp [hos], fun t ht => ?_⟩
  have hsim : ∀ i ≤ T - 1, (obsFn os i).Sim (zOf mask (seen mask Z T ω) i) := fun i hi =>
    hrec.sim (k := T) (by omega) (by omega)
  simp only [hos, List.getElem?_map, List.getElem?_range ht, Option.map_some]
  rw [p.fn.ks_congr hsim (by omega)]
  congr 2
  exact (p.fn.ks_cov_congr (z := zOf mask (seen mask Z T ω))
    (z' := zNil mask) (fun _ _ => Iff.rfl) (show t ≤ T - 1 by omega)).1

/-- **C55.** The forecasts of the observations computed from the rows of `filter` are honest and
optimal, and the forecast errors at the unmasked times are independent of each other. -/
theorem C55_innovations (hproc : IsLinGauss μ p T X Z noise) (hdef : p.DefinedFor T)
    (hpsd : p.PSD T) (mask : MaskPat m) :
    ∃ (fc : ℕ → Ω → Vec m) (cov : ℕ → Mat m m),
      (∀ ω, ∀ os : List (Obs m), os.length = T → Records mask (fun t => Z t ω) os →
        ∃ out, kfFilter p os = .ok out ∧ ∀ t, t < T → forecast p out t = (fc t ω, cov t)) ∧
      (∀ t, t < T → Honest μ (Z t) (seen mask Z t) (fc t) (cov t) ∧
        Optimal μ (Z t) (seen mask Z t) (fc t) (cov t)) ∧
      iIndepFun (fun (t : Unmasked mask T) ω => Z t ω - fc t ω) μ := by
  have hc := definedFor_iff_covers.mp hdef
  have h := hproc.lg hc
  have hP := hpsd.fn hc
  refine ⟨fun t ω => p.fn.C t *ᵥ p.fn.predM mask t (seen mask Z t ω) + p.fn.d t,
    fun t => p.fn.C t * p.fn.predC mask t * (p.fn.C t)ᵀ + p.fn.R t, ?_,
    fun t ht => ⟨(h.forecast hP mask ht).honest, (h.forecast hP mask ht).optimal⟩,
    h.innovations hP mask⟩
  intro ω os hos hrec
  refine ⟨_, kfFilter_eq (by rw [hos]; exact hc), fun t ht => ?_⟩
  have hC := TV.at_eq_get (hc.C.mono (show t + 1 ≤ T by omega))
  have hd := TV.at_eq_get (hc.d.mono (show t + 1 ≤ T by omega))
  have hR := TV.at_eq_get (hc.R.mono (show t + 1 ≤ T by omega))
  cases t with
  | zero =>
    simp only [forecast, hC, hd, hR]
    rfl
  | succ t =>
    have hA := TV.at_eq_get (hc.A.mono (show t + 1 ≤ T - 1 by omega))
    have hb := TV.at_eq_get (hc.b.mono (show t + 1 ≤ T - 1 by omega))
    have hQ := TV.at_eq_get (hc.Q.mono (show t + 1 ≤ T - 1 by omega))
    have hsim : ∀ i ≤ t, (obsFn os i).Sim (zOf mask (seen mask Z (t + 1) ω) i) := fun i hi =>
      hrec.sim (k := t + 1) (by omega) (by omega)
    have hrow : ((List.range os.length).map
        (fun t => ((p.fn.kf (obsFn os) t).filtMean, (p.fn.kf (obsFn os) t).filtCov))).getD t 0
        = (p.fn.filtM mask t (seen mask Z (t + 1) ω), p.fn.filtC mask t) := by
      rw [List.getD_eq_getElem?_getD, List.getElem?_map,
        List.getElem?_range (show t < os.length by omega), Option.map_some, Option.getD_some,
        p.fn.kf_congr hsim, p.fn.filtCov_zOf]
      rfl
    simp only [forecast, hrow, hC, hd, hR, hA, hb, hQ, p.fn.predC_succ, p.fn.predM_succ]
    rfl

/-! ### The hypotheses can be met, and the conclusion is not trivial

The parameters and the mask of `Verif.Props.Posterior`: three steps, the middle one masked. -/

example : ∃ (Ω : Type) (_ : MeasurableSpace Ω) (μ : Measure Ω) (_ : IsProbabilityMeasure μ)
    (X : ℕ → Ω → Vec 2) (Z : ℕ → Ω → Vec 1) (noise : (i : Noise) → Ω → Vec (i.dim 2 1)),
    IsLinGauss μ exParams 3 X Z noise ∧ exParams.DefinedFor 3 ∧ exParams.PSD 3 ∧
    (∃ t : Unmasked exMask 3, (t : ℕ) = 2) ∧
    (∀ ω, ∃ os : List (Obs 1), os.length = 3 ∧ Records exMask (fun t => Z t ω) os) := by
  obtain ⟨Ω, i1, μ, i2, X, Z, noise, h⟩ := exists_isLinGauss exParams 3
  refine ⟨Ω, i1, μ, i2, X, Z, noise, h, exParams_definedFor, exParams_psd,
    ⟨⟨2, by simp [MaskPat.rowMissing, exMask]⟩, rfl⟩, fun ω => ?_⟩
  refine ⟨(List.range 3).map fun t => ⟨Z t ω, exMask t⟩, by simp, fun t ht => ?_⟩
  simp

end Verif
