import Verif.Proofs.Likelihood
import Verif.Props.Posterior

/-!
# C04: `loglikelihood` is the log density of the observations
-/

open MeasureTheory ProbabilityTheory Matrix

namespace Verif

variable {n m : ℕ} {Ω : Type*} [MeasurableSpace Ω] {μ : Measure Ω} [IsProbabilityMeasure μ]
  {p : Params n m} {T : ℕ} {X : ℕ → Ω → Vec n} {Z : ℕ → Ω → Vec m}
  {noise : (i : Noise) → Ω → Vec (i.dim n m)}

/-- **C04.** Let the observation covariance be constant in time and all innovation covariances
(`C P Cᵀ + R` at the unmasked rows, `P` the predicted covariance) positive definite.  Then there
is a function `ℓ` of the unmasked rows such that `loglikelihood` returns `ℓ z` on every masked
array recording `z`, and `exp ℓ` is the density, with respect to Lebesgue measure, of the joint
law of the unmasked observations of the process. -/
theorem C04_loglik_is_log_density (hproc : IsLinGauss μ p T X Z noise) (hdef : p.DefinedFor T)
    (hpsd : p.PSD T) (mask : MaskPat m) (hR : p.R.IsConst)
    (hS : ∀ os steps, os.length = T → (∀ t (h : t < os.length), os[t].mask = mask t) →
      filterFull p os = .ok steps → ∀ t s C R, steps[t]? = some s → lastDims p.C t = .ok C →
      lastDims p.R t = .ok R → ¬ mask.rowMissing t → (C * s.predCov * Cᵀ + R).PosDef) :
    ∃ ℓ : (Unmasked mask T → Vec m) → ℝ, Measurable ℓ ∧
      (∀ z os, os.length = T → Records mask z os → kfLoglik p os = .ok (ℓ fun u => z u)) ∧
      μ.map (fun ω (u : Unmasked mask T) => Z u ω)
        = volume.withDensity fun z => ENNReal.ofReal (Real.exp (ℓ z)) := by
  have hc := definedFor_iff_covers.mp hdef
  have h := hproc.lg hc
  have hP := hpsd.fn hc
  obtain ⟨R, hR⟩ := hR
  have hpd : ∀ t, t < T → ¬ mask.rowMissing t →
      (p.fn.C t * p.fn.predC mask t * (p.fn.C t)ᵀ + p.fn.R t).PosDef := by
    intro t ht hm
    let os : List (Obs m) := (List.range T).map (zNil mask)
    have hlen : os.length = T := by simp [os]
    have := hS os _ hlen (by intro t ht; simp [os, zNil]) (filterFull_obsFn (by rw [hlen]; exact hc))
      t (p.fn.kf (obsFn os) t) _ _ (by simp [hlen, ht]) (lastDims_eq_ok (hc.C.mono (by omega)))
      (lastDims_eq_ok (hc.R.mono (by omega))) hm
    have e : (p.fn.kf (obsFn os) t).predCov = p.fn.predC mask t :=
      (p.fn.kf_cov_congr (z := obsFn os) (z' := zNil mask) fun i hi => by
        rw [obsFn_eq (show i < os.length by omega)]; simp [os]).1
    rw [e] at this
    exact this
  have hex : ∀ t, ∃ ℓ : Vec m → Vec m → ℝ, t < T → ¬ mask.rowMissing t →
      (∀ x c, logMvn x c (p.fn.C t * p.fn.predC mask t * (p.fn.C t)ᵀ + p.fn.R t) = .ok (ℓ x c)) ∧
      (∀ c, gauss c (p.fn.C t * p.fn.predC mask t * (p.fn.C t)ᵀ + p.fn.R t)
        = volume.withDensity fun x => ENNReal.ofReal (Real.exp (ℓ x c))) ∧
      Measurable (fun q : Vec m × Vec m => ℓ q.1 q.2) := by
    intro t
    by_cases ht : t < T ∧ ¬ mask.rowMissing t
    · obtain ⟨ℓ, h1, h2, -, h3⟩ := logMvn_posDef (hpd t ht.1 ht.2)
      exact ⟨ℓ, fun _ _ => ⟨h1, h2, h3⟩⟩
    · exact ⟨fun _ _ => 0, fun h1 h2 => absurd ⟨h1, h2⟩ ht⟩
  choose ℓ hℓ using hex
  obtain ⟨hmeas, hlaw⟩ := h.density hP mask (ℓ := ℓ)
    (fun t ht hm => ⟨(hℓ t ht hm).2.1, (hℓ t ht hm).2.2⟩) le_rfl
  have hg : Measurable fun y => ENNReal.ofReal (Real.exp (p.fn.ll ℓ mask T y)) :=
    ENNReal.measurable_ofReal.comp (Real.measurable_exp.comp hmeas)
  have hden := unmasked_density hg (fun t ht => h.measZ ht) hlaw
  refine ⟨fun z => p.fn.ll ℓ mask T (extendZero z), hmeas.comp measurable_extendZero, ?_, hden⟩
  intro z os hos hrec
  have hsim : ∀ i, i < T → (obsFn os i).Sim
      (zOf mask (extendZero fun u : Unmasked mask T => z u) i) := by
    intro i hi
    have := hrec.sim (k := T) (by omega) hi
    have e : extendZero (fun u : Unmasked mask T => z u)
        = seen mask (fun t (_ : Unit) => z t) T () := by
      funext t
      by_cases ht : mask.rowMissing t <;> simp [extendZero, seen, ht]
    rw [e]
    exact this
  rw [kfLoglik_pure (by rw [hos]; exact hc) hR (ℓ := ℓ)]
  · simp only [PFun.ll, hos]
    congr 1
    refine Finset.sum_congr rfl fun t ht => ?_
    rw [Finset.mem_range] at ht
    exact p.fn.lterm_congr ℓ fun i hi => hsim i (by omega)
  · intro t ht hm x c
    rw [hos] at ht
    have e : (p.fn.kf (obsFn os) t).predCov = p.fn.predC mask t :=
      (p.fn.kf_cov_congr (z := obsFn os) (z' := zNil mask) fun i hi =>
        (hsim i (by omega)).1).1
    rw [e]
    exact (hℓ t ht fun hh => hm ((hsim t ht).1.mpr hh)).1 x c

/-- **C04, positive definite observation covariance.** A condition on the parameters alone that
makes all innovation covariances positive definite. -/
theorem C04_loglik_is_log_density_posDef (hproc : IsLinGauss μ p T X Z noise)
    (hdef : p.DefinedFor T) (hpsd : p.PSD T) (mask : MaskPat m) (R : Mat m m)
    (hR : p.R = .const R) (hRpd : R.PosDef) :
    ∃ ℓ : (Unmasked mask T → Vec m) → ℝ, Measurable ℓ ∧
      (∀ z os, os.length = T → Records mask z os → kfLoglik p os = .ok (ℓ fun u => z u)) ∧
      μ.map (fun ω (u : Unmasked mask T) => Z u ω)
        = volume.withDensity fun z => ENNReal.ofReal (Real.exp (ℓ z)) := by
  refine C04_loglik_is_log_density hproc hdef hpsd mask ⟨R, hR⟩ ?_
  intro os steps hos _ hf t s C R' hs hC hR' _
  have hc := definedFor_iff_covers.mp hdef
  have hl := filterFull_ok hf
  subst hl
  have ht : t < T := by
    have := (List.getElem?_eq_some_iff.mp hs).1
    simpa [hos] using this
  simp only [List.getElem?_map, hos, List.getElem?_range ht, Option.map_some,
    Option.some.injEq] at hs
  subst hs
  have e : R' = R := by rw [hR] at hR'; cases hR'; rfl
  rw [e, add_comm]
  exact hRpd.add_posSemidef (posSemidef_conj' ((hpsd.fn hc).pred ht _) _)

/-- The hypotheses are met: position/velocity example with a masked middle row. -/
example : ∃ (Ω : Type) (_ : MeasurableSpace Ω) (μ : Measure Ω) (_ : IsProbabilityMeasure μ)
    (X : ℕ → Ω → Vec 2) (Z : ℕ → Ω → Vec 1) (noise : (i : Noise) → Ω → Vec (i.dim 2 1)),
    IsLinGauss μ exParams 3 X Z noise ∧ exParams.DefinedFor 3 ∧ exParams.PSD 3 ∧
    exParams.R = .const !![2] ∧ (!![2] : Mat 1 1).PosDef ∧
    ∃ z, ∃ os : List (Obs 1), os.length = 3 ∧ Records exMask z os := by
  obtain ⟨Ω, i1, μ, i2, X, Z, noise, h⟩ := exists_isLinGauss exParams 3
  refine ⟨Ω, i1, μ, i2, X, Z, noise, h, exParams_definedFor, exParams_psd, rfl, ?_, fun t => ![(t : ℝ)],
    (List.range 3).map fun t : ℕ => ⟨![(t : ℝ)], exMask t⟩, by simp, fun t ht => ?_⟩
  · have e : (!![2] : Mat 1 1) = diagonal ![2] := by
      ext i j; fin_cases i; fin_cases j; rfl
    rw [e]
    exact PosDef.diagonal (by intro i; fin_cases i; simp)
  · simp

end Verif
