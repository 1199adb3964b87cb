import Verif.Proofs.Process
import Verif.Proofs.EmPure

/-!
# C01, C02, C03: the estimates are exact posteriors

Statements about `kfFilter` (`KalmanFilter.filter`), `kfSmooth` (`KalmanFilter.smooth`) and
`emStats` (the smoothed statistics computed inside `KalmanFilter.em`), for an arbitrary
linear-Gaussian process as specified in `Verif.Spec.Process`.  The conditional distribution is
Mathlib's regular conditional distribution `condDistrib`; it is determined up to a null set of
outcomes, hence "for almost every outcome".
-/

open MeasureTheory ProbabilityTheory Matrix

namespace Verif

variable {n m : ℕ} {Ω : Type*} [MeasurableSpace Ω] {μ : Measure Ω} [IsProbabilityMeasure μ]
  {p : Params n m} {T : ℕ} {X : ℕ → Ω → Vec n} {Z : ℕ → Ω → Vec m}
  {noise : (i : Noise) → Ω → Vec (i.dim n m)}

/-- **C01.** For almost every outcome and every masked array recording it, `filter` succeeds and
its row `t` is the mean and covariance of the state at `t` given the unmasked rows `0 … t`: the
conditional distribution is the Gaussian with these moments. -/
theorem C01_filter_exact_posterior (hproc : IsLinGauss μ p T X Z noise) (hdef : p.DefinedFor T)
    (hpsd : p.PSD T) (mask : MaskPat m) :
    ∀ᵐ ω ∂μ, ∀ os : List (Obs m), os.length = T → Records mask (fun t => Z t ω) os →
      ∃ out, kfFilter p os = .ok out ∧ out.length = T ∧
        ∀ t, t < T → ∃ mean cov, out[t]? = some (mean, cov) ∧
          condDistrib (X t) (seen mask Z (t + 1)) μ (seen mask Z (t + 1) ω) = gauss mean cov := by
  have hc := definedFor_iff_covers.mp hdef
  have h := hproc.lg hc
  have hP := hpsd.fn hc
  have hall : ∀ᵐ ω ∂μ, ∀ t : Fin T,
      condDistrib (X t) (seen mask Z (t + 1)) μ (seen mask Z (t + 1) ω)
        = gauss (p.fn.filtM mask t (seen mask Z (t + 1) ω)) (p.fn.filtC mask t) := by
    rw [ae_all_iff]
    exact fun t => (h.filt hP mask t.2).condDistrib
  filter_upwards [hall] with ω hω os hos hrec
  refine ⟨_, kfFilter_eq (by rw [hos]; exact hc), by simp [hos], fun t ht => ?_⟩
  refine ⟨_, _, by simp [hos, ht]; exact ⟨rfl, rfl⟩, ?_⟩
  rw [hω ⟨t, ht⟩]
  have hsim : ∀ i ≤ t, (obsFn os i).Sim (zOf mask (seen mask Z (t + 1) ω) i) := fun i hi =>
    hrec.sim (k := t + 1) (by omega) (by omega)
  rw [p.fn.kf_congr hsim, p.fn.filtCov_zOf]
  rfl

/-- **C02.** For almost every outcome and every masked array recording it, `smooth` succeeds and
its row `t` is the mean and covariance of the state at `t` given all unmasked rows. -/
theorem C02_smooth_exact_posterior (hproc : IsLinGauss μ p T X Z noise) (hdef : p.DefinedFor T)
    (hpsd : p.PSD T) (mask : MaskPat m) (hT : 0 < T) :
    ∀ᵐ ω ∂μ, ∀ os : List (Obs m), os.length = T → Records mask (fun t => Z t ω) os →
      ∃ out, kfSmooth p os = .ok out ∧ out.length = T ∧
        ∀ t, t < T → ∃ mean cov, out[t]? = some (mean, cov) ∧
          condDistrib (X t) (seen mask Z T) μ (seen mask Z T ω) = gauss mean cov := by
  have hc := definedFor_iff_covers.mp hdef
  have h := hproc.lg hc
  have hP := hpsd.fn hc
  have hall : ∀ᵐ ω ∂μ, ∀ t : Fin T,
      condDistrib (X t) (seen mask Z T) μ (seen mask Z T ω)
        = gauss (p.fn.smoothM mask T t (seen mask Z T ω)) (p.fn.smoothC mask T t) := by
    rw [ae_all_iff]
    exact fun t => (h.smooth hP mask t.2).condDistrib
  filter_upwards [hall] with ω hω os hos hrec
  have hne : os ≠ [] := by rintro rfl; simp at hos; omega
  refine ⟨_, kfSmooth_eq hne (by rw [hos]; exact hc), by simp [hos], fun t ht => ?_⟩
  refine ⟨_, _, by simp [hos, ht]; exact ⟨rfl, rfl⟩, ?_⟩
  rw [hω ⟨t, ht⟩]
  have hsim : ∀ i ≤ T - 1, (obsFn os i).Sim (zOf mask (seen mask Z T ω) i) := fun i hi =>
    hrec.sim (k := T) (by omega) (by omega)
  rw [p.fn.ks_congr hsim (by omega)]
  congr 1
  exact (p.fn.ks_cov_congr (z := zNil mask)
    (z' := zOf mask (seen mask Z T ω)) (fun _ _ => Iff.rfl) (show t ≤ T - 1 by omega)).1

/-- **C03.** For almost every outcome and every masked array recording it, the statistics `em`
computes are exact: given all unmasked rows the pair (state at `t + 1`, state at `t`) is jointly
Gaussian, its means and covariances are those of the entries at `t + 1` and `t`, and the cross
covariance is the pairwise covariance of the entry at `t + 1`. -/
theorem C03_pair_exact_posterior (hproc : IsLinGauss μ p T X Z noise) (hdef : p.DefinedFor T)
    (hpsd : p.PSD T) (mask : MaskPat m) (hT : 0 < T) :
    ∀ᵐ ω ∂μ, ∀ os : List (Obs m), os.length = T → Records mask (fun t => Z t ω) os →
      ∃ ss, emStats p os = .ok ss ∧ ss.length = T ∧
        ∀ t, t + 1 < T → ∃ s s', ss[t]? = some s ∧ ss[t + 1]? = some s' ∧
          condDistrib (fun ω => Sum.elim (X (t + 1) ω) (X t ω)) (seen mask Z T) μ
              (seen mask Z T ω)
            = gauss (Sum.elim s'.mean s.mean) (fromBlocks s'.cov s'.pair s'.pairᵀ s.cov) := by
  have hc := definedFor_iff_covers.mp hdef
  have h := hproc.lg hc
  have hP := hpsd.fn hc
  have hall : ∀ᵐ ω ∂μ, ∀ t : Fin (T - 1),
      condDistrib (fun ω => Sum.elim (X (t + 1) ω) (X t ω)) (seen mask Z T) μ (seen mask Z T ω)
        = gauss (Sum.elim (p.fn.smoothM mask T (t + 1) (seen mask Z T ω))
            (p.fn.smoothM mask T t (seen mask Z T ω)))
          (fromBlocks (p.fn.smoothC mask T (t + 1))
            (p.fn.smoothC mask T (t + 1) * (p.fn.smoothG mask t)ᵀ)
            (p.fn.smoothC mask T (t + 1) * (p.fn.smoothG mask t)ᵀ)ᵀ (p.fn.smoothC mask T t)) := by
    rw [ae_all_iff]
    intro t
    exact (h.smoothPair hP mask (show (t : ℕ) + 1 < T by omega)).condDistrib
  filter_upwards [hall] with ω hω os hos hrec
  have hne : os ≠ [] := by rintro rfl; simp at hos; omega
  refine ⟨_, emStats_eq hne (by rw [hos]; exact hc), by simp [hos], fun t ht => ?_⟩
  refine ⟨_, _, by simp [hos, show t < T by omega]; rfl, by simp [hos, ht]; rfl, ?_⟩
  rw [hω ⟨t, by omega⟩]
  have hsim : ∀ i ≤ T - 1, (obsFn os i).Sim (zOf mask (seen mask Z T ω) i) := fun i hi =>
    hrec.sim (k := T) (by omega) (by omega)
  have hs : ∀ s, s ≤ T - 1 → p.fn.ks (obsFn os) (T - 1) s
      = p.fn.ks (zOf mask (seen mask Z T ω)) (T - 1) s := fun s hs => p.fn.ks_congr hsim hs
  have hcov : ∀ s, s ≤ T - 1 → (p.fn.ks (zOf mask (seen mask Z T ω)) (T - 1) s).cov
      = p.fn.smoothC mask T s ∧ (p.fn.ks (zOf mask (seen mask Z T ω)) (T - 1) s).gain
        = (p.fn.ks (zNil mask) (T - 1) s).gain :=
    fun s hs => p.fn.ks_cov_congr (z' := zNil mask) (fun _ _ => Iff.rfl) hs
  have hg : (p.fn.ks (zNil mask) (T - 1) t).gain = p.fn.smoothG mask t := by
    rw [p.fn.ks_lt' _ (by omega)]; rfl
  simp only [PFun.stats, hs t (by omega), hs (t + 1) (by omega), hcov t (by omega),
    hcov (t + 1) (by omega), Nat.add_sub_cancel, Nat.succ_ne_zero, if_false, hg]
  rfl

/-! ### The hypotheses can be met

A process exists for *all* parameters (`exists_isLinGauss`); here is a set of parameters with a
time-varying transition matrix, a singular transition covariance and three time steps. -/

/-- Example: position and velocity, position observed, noise on the velocity only, the
transition matrix changing between the steps. -/
noncomputable def exParams : Params 2 1 where
  A := .seq [!![1, 1; 0, 1], !![1, 2; 0, 1]]
  b := .const ![0, 1]
  Q := .const !![0, 0; 0, 1]
  C := .const !![1, 0]
  d := .const ![3]
  R := .const !![2]
  mu0 := ![0, 5]
  S0 := 1

theorem exParams_definedFor : exParams.DefinedFor 3 :=
  definedFor_iff_covers.mpr ⟨le_refl 2, trivial, trivial, trivial, trivial, trivial⟩

theorem exParams_psd : exParams.PSD 3 := by
  refine ⟨fun t _ Q hQ => ?_, fun t _ R hR => ?_, ?_⟩
  · cases hQ
    have e : (!![0, 0; 0, 1] : Mat 2 2) = diagonal ![0, 1] := by
      ext i j; fin_cases i <;> fin_cases j <;> rfl
    rw [e]
    exact PosSemidef.diagonal (by intro i; fin_cases i <;> simp)
  · cases hR
    have e : (!![2] : Mat 1 1) = diagonal ![2] := by
      ext i j; fin_cases i; fin_cases j; rfl
    rw [e]
    exact PosSemidef.diagonal (by intro i; fin_cases i; simp)
  · exact PosSemidef.one

/-- The middle row is masked in the example. -/
def exMask : MaskPat 1 := fun t _ => t == 1

example : ∃ (Ω : Type) (_ : MeasurableSpace Ω) (μ : Measure Ω) (_ : IsProbabilityMeasure μ)
    (X : ℕ → Ω → Vec 2) (Z : ℕ → Ω → Vec 1) (noise : (i : Noise) → Ω → Vec (i.dim 2 1)),
    IsLinGauss μ exParams 3 X Z noise ∧ exParams.DefinedFor 3 ∧ exParams.PSD 3 ∧
    (∀ ω, ∃ os : List (Obs 1), os.length = 3 ∧ Records exMask (fun t => Z t ω) os) := by
  obtain ⟨Ω, i1, μ, i2, X, Z, noise, h⟩ := exists_isLinGauss exParams 3
  refine ⟨Ω, i1, μ, i2, X, Z, noise, h, exParams_definedFor, exParams_psd, fun ω => ?_⟩
  refine ⟨(List.range 3).map fun t => ⟨Z t ω, exMask t⟩, by simp, fun t ht => ?_⟩
  simp

end Verif
