import Verif.Proofs.Gauss
import Verif.Model.Standard
import Mathlib.MeasureTheory.Integral.Pi
import Mathlib.MeasureTheory.Measure.Lebesgue.Basic
import Mathlib.MeasureTheory.Measure.WithDensity

/-!
# The density of a nondegenerate Gaussian law, and `log_multivariate_normal_density`
-/

open MeasureTheory ProbabilityTheory Matrix

namespace Verif

theorem map_withDensity_equiv {α β : Type*} [MeasurableSpace α] [MeasurableSpace β]
    (e : α ≃ᵐ β) (μ : Measure α) (f : α → ENNReal) :
    (μ.withDensity f).map e = (μ.map e).withDensity (fun y => f (e.symm y)) := by
  ext s hs
  rw [Measure.map_apply e.measurable hs, withDensity_apply _ (e.measurable hs),
    withDensity_apply _ hs, ← lintegral_indicator (e.measurable hs), ← lintegral_indicator hs,
    lintegral_map_equiv]
  refine lintegral_congr fun x => ?_
  by_cases h : e x ∈ s <;> simp [Set.indicator, h]

/-- The standard normal law on `ι → ℝ` as a product. -/
theorem gauss_zero_one {ι : Type*} [Fintype ι] [DecidableEq ι] :
    gauss (0 : ι → ℝ) 1 = Measure.pi fun _ => gaussianReal 0 1 := by
  rw [gauss]
  have : (WithLp.toLp 2 (0 : ι → ℝ)) = 0 := rfl
  rw [this, multivariateGaussian_zero_one, ← map_pi_eq_stdGaussian,
    Measure.map_map (by fun_prop) (by fun_prop)]
  have : (WithLp.ofLp ∘ WithLp.toLp 2 : (ι → ℝ) → ι → ℝ) = id := rfl
  rw [this, Measure.map_id]

theorem pi_withDensity {ι : Type*} [Fintype ι] (f : ι → ℝ → ℝ) (hf : ∀ i, Integrable (f i))
    (h0 : ∀ i x, 0 ≤ f i x) (hm : ∀ i, Measurable (f i)) :
    Measure.pi (fun i => (volume : Measure ℝ).withDensity fun x => ENNReal.ofReal (f i x))
      = (volume : Measure (ι → ℝ)).withDensity fun x => ENNReal.ofReal (∏ i, f i (x i)) := by
  haveI : ∀ i, IsFiniteMeasure ((volume : Measure ℝ).withDensity fun x => ENNReal.ofReal (f i x)) :=
    fun i => isFiniteMeasure_withDensity_ofReal (hf i).2
  apply Measure.pi_eq
  intro s hs
  rw [withDensity_apply _ (MeasurableSet.univ_pi hs)]
  have hint : Integrable (fun x : ι → ℝ => ∏ i, f i (x i)) := Integrable.fintype_prod hf
  rw [← ofReal_integral_eq_lintegral_ofReal hint.restrict
    (Filter.Eventually.of_forall fun x => Finset.prod_nonneg fun i _ => h0 i _)]
  rw [← integral_indicator (MeasurableSet.univ_pi hs)]
  have e : (Set.univ.pi s).indicator (fun x : ι → ℝ => ∏ i, f i (x i))
      = fun x => ∏ i, (s i).indicator (f i) (x i) := by
    funext x
    by_cases h : x ∈ Set.univ.pi s
    · rw [Set.indicator_of_mem h]
      refine Finset.prod_congr rfl fun i _ => ?_
      rw [Set.indicator_of_mem (h i trivial)]
    · rw [Set.indicator_of_notMem h]
      simp only [Set.mem_pi, Set.mem_univ, forall_true_left, not_forall] at h
      obtain ⟨i, hi⟩ := h
      exact (Finset.prod_eq_zero (Finset.mem_univ i) (Set.indicator_of_notMem hi _)).symm
  rw [e, integral_fintype_prod_volume_eq_prod (fun i => (s i).indicator (f i)),
    ENNReal.ofReal_prod_of_nonneg]
  · refine Finset.prod_congr rfl fun i _ => ?_
    rw [withDensity_apply _ (hs i), integral_indicator (hs i),
      ofReal_integral_eq_lintegral_ofReal (hf i).restrict
        (Filter.Eventually.of_forall fun x => h0 i _)]
  · intro i _
    exact integral_nonneg fun x => Set.indicator_nonneg (fun x _ => h0 i x) x

/-- Density of the standard normal law. -/
theorem gauss_zero_one_density {ι : Type*} [Fintype ι] [DecidableEq ι] :
    gauss (0 : ι → ℝ) 1 = volume.withDensity fun x =>
      ENNReal.ofReal (∏ i, gaussianPDFReal 0 1 (x i)) := by
  rw [gauss_zero_one, gaussianReal_of_var_ne_zero _ one_ne_zero]
  exact pi_withDensity (fun _ => gaussianPDFReal 0 1) (fun _ => integrable_gaussianPDFReal 0 1)
    (fun _ => gaussianPDFReal_nonneg 0 1) (fun _ => measurable_gaussianPDFReal 0 1)

/-- An invertible affine map as a measurable equivalence. -/
noncomputable def affEquiv {m : ℕ} (L : Mat m m) (hL : L.det ≠ 0) (c : Vec m) :
    Vec m ≃ᵐ Vec m where
  toFun x := L *ᵥ x + c
  invFun y := L⁻¹ *ᵥ (y - c)
  left_inv x := by
    simp [mulVec_mulVec, nonsing_inv_mul L (isUnit_iff_ne_zero.mpr hL)]
  right_inv y := by
    simp [mulVec_mulVec, mul_nonsing_inv L (isUnit_iff_ne_zero.mpr hL)]
  measurable_toFun := by
    show Measurable fun x => L *ᵥ x + c
    fun_prop
  measurable_invFun := by
    show Measurable fun y => L⁻¹ *ᵥ (y - c)
    fun_prop

/-- The log density that `logMvn` computes from a Cholesky factor. -/
noncomputable def cholLogDensity {m : ℕ} (L : Mat m m) (c x : Vec m) : ℝ :=
  -0.5 * (∑ i, (L⁻¹ *ᵥ (x - c)) i ^ 2 + m * Real.log (2 * Real.pi)
    + 2 * ∑ i, Real.log (L i i))

theorem exp_cholLogDensity {m : ℕ} {S L : Mat m m} (h : IsCholesky S L) (c x : Vec m) :
    Real.exp (cholLogDensity L c x)
      = |L.det|⁻¹ * ∏ i, gaussianPDFReal 0 1 ((L⁻¹ *ᵥ (x - c)) i) := by
  have hdet : L.det = ∏ i, L i i := det_of_lowerTriangular L fun i j hij => h.lower i j hij
  have hpos : 0 < L.det := by rw [hdet]; exact Finset.prod_pos fun i _ => h.diag_pos i
  have hlog : ∑ i, Real.log (L i i) = Real.log L.det := by
    rw [hdet, Real.log_prod fun i _ => (h.diag_pos i).ne']
  have hpi : (0 : ℝ) < 2 * Real.pi := by positivity
  rw [abs_of_pos hpos]
  simp only [gaussianPDFReal, NNReal.coe_one, mul_one, sub_zero]
  rw [Finset.prod_mul_distrib, Finset.prod_const, Finset.card_univ, Fintype.card_fin,
    ← Real.exp_sum, cholLogDensity, hlog]
  have e1 : (√(2 * Real.pi))⁻¹ = Real.exp (-(1 / 2) * Real.log (2 * Real.pi)) := by
    rw [Real.sqrt_eq_rpow, ← Real.rpow_neg hpi.le, Real.rpow_def_of_pos hpi]
    ring_nf
  have e2 : L.det⁻¹ = Real.exp (-Real.log L.det) := by
    rw [Real.exp_neg, Real.exp_log hpos]
  rw [e1, e2, ← Real.exp_nat_mul, ← Real.exp_add, ← Real.exp_add]
  congr 1
  have e3 : ∑ i, -(L⁻¹ *ᵥ (x - c)) i ^ 2 / 2 = -(1/2) * ∑ i, (L⁻¹ *ᵥ (x - c)) i ^ 2 := by
    rw [Finset.mul_sum]
    exact Finset.sum_congr rfl fun i _ => by ring
  rw [e3]
  ring

theorem gauss_density_chol {m : ℕ} {S L : Mat m m} (h : IsCholesky S L) (c : Vec m) :
    gauss c S = volume.withDensity fun x => ENNReal.ofReal (Real.exp (cholLogDensity L c x)) := by
  have hL := h.det_ne_zero
  have e0 : gauss c S = (gauss 0 1).map (affEquiv L hL c) := by
    have h1 := gauss_map_mulVec (S := (1 : Mat m m)) PosSemidef.one L 0
    rw [Matrix.mul_one, h.mul_transpose, mulVec_zero] at h1
    have h2 := gauss_map_add (S := S) h.posDef.posSemidef c 0
    rw [← h1, Measure.map_map (by fun_prop) (by fun_prop)] at h2
    rw [add_zero] at h2
    rw [← h2]
    congr 1
    funext x
    simp [affEquiv, add_comm]
  have e1 : (volume : Measure (Vec m)).map (affEquiv L hL c)
      = ENNReal.ofReal |L.det|⁻¹ • volume := by
    have a1 := Real.map_matrix_volume_pi_eq_smul_volume_pi hL
    have a2 : (affEquiv L hL c : Vec m → Vec m) = (fun x => x + c) ∘ (toLin' L) := by
      funext x; simp [affEquiv, toLin'_apply]
    rw [a2, ← Measure.map_map (by fun_prop) (by
      exact measurable_mulVec L), a1, Measure.map_smul,
      map_add_right_eq_self, abs_inv]
  rw [e0, gauss_zero_one_density, map_withDensity_equiv, e1, withDensity_smul_measure,
    ← withDensity_smul _ ?_]
  · congr 1
    funext x
    rw [exp_cholLogDensity h, ENNReal.ofReal_mul (by positivity)]
    rfl
  · refine ENNReal.measurable_ofReal.comp ?_
    refine Finset.measurable_fun_prod _ fun i _ => ?_
    refine (measurable_gaussianPDFReal 0 1).comp ?_
    exact (measurable_pi_apply i).comp (affEquiv L hL c).symm.measurable

/-- `log_multivariate_normal_density` on a positive definite matrix is the log density of the
Gaussian law, and is given by the textbook formula. -/
theorem logMvn_posDef {m : ℕ} {S : Mat m m} (hS : S.PosDef) :
    (∃ ℓ : Vec m → Vec m → ℝ, (∀ x c, logMvn x c S = .ok (ℓ x c)) ∧
      (∀ c, gauss c S = volume.withDensity fun x => ENNReal.ofReal (Real.exp (ℓ x c))) ∧
      (∀ x c, ℓ x c = -(1/2) * ((x - c) ⬝ᵥ (S⁻¹ *ᵥ (x - c)) + m * Real.log (2 * Real.pi)
        + Real.log S.det)) ∧ Measurable (fun q : Vec m × Vec m => ℓ q.1 q.2)) := by
  obtain ⟨L, hL, hch⟩ := cholesky_of_posDef hS
  refine ⟨fun x c => cholLogDensity L c x, fun x c => ?_, fun c => gauss_density_chol hch c,
    fun x c => ?_, ?_⟩
  · simp only [logMvn, hL, bind, Except.bind, pure, Except.pure, cholLogDensity]
  · have hdet : L.det = ∏ i, L i i := det_of_lowerTriangular L fun i j hij => hch.lower i j hij
    have hpos : 0 < L.det := by rw [hdet]; exact Finset.prod_pos fun i _ => hch.diag_pos i
    have hlog : ∑ i, Real.log (L i i) = Real.log L.det := by
      rw [hdet, Real.log_prod fun i _ => (hch.diag_pos i).ne']
    have hSd : Real.log S.det = 2 * Real.log L.det := by
      rw [← hch.mul_transpose, det_mul, det_transpose, ← sq, Real.log_pow]
      norm_num
    have hq : ∑ i, (L⁻¹ *ᵥ (x - c)) i ^ 2 = (x - c) ⬝ᵥ (S⁻¹ *ᵥ (x - c)) := by
      rw [← hch.mul_transpose, Matrix.mul_inv_rev, ← mulVec_mulVec, dotProduct_mulVec,
        ← transpose_nonsing_inv, vecMul_transpose]
      simp [dotProduct, sq]
    simp only [cholLogDensity]
    rw [hlog, hq, hSd]
    ring
  · simp only [cholLogDensity]
    have : Measurable fun q : Vec m × Vec m => L⁻¹ *ᵥ (q.1 - q.2) := by fun_prop
    have h2 : ∀ i, Measurable fun q : Vec m × Vec m => (L⁻¹ *ᵥ (q.1 - q.2)) i := fun i =>
      (measurable_pi_apply i).comp this
    fun_prop

end Verif
