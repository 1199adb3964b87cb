import Verif.Spec.Em
import Verif.Proofs.Gauss
import Verif.Proofs.Moments
import Mathlib.Probability.Moments.Covariance
import Mathlib.LinearAlgebra.Matrix.Trace

/-!
# Expected quadratic forms and log densities
-/

open MeasureTheory ProbabilityTheory Matrix

namespace Verif

variable {Ω : Type*} [MeasurableSpace Ω] {ν : Measure Ω} [IsProbabilityMeasure ν]
  {ι κ : Type*} [Fintype ι] [DecidableEq ι] [Fintype κ] [DecidableEq κ]

theorem hasMoments_gauss (mean : ι → ℝ) {S : Matrix ι ι ℝ} (hS : S.PosSemidef) :
    HasMoments (gauss mean S) (fun x => x) mean S := by
  have hmeas : Measurable (WithLp.ofLp : EuclideanSpace ℝ ι → ι → ℝ) := by fun_prop
  have hL : ∀ i, MemLp (fun x : EuclideanSpace ℝ ι => x i) 2
      (multivariateGaussian (WithLp.toLp 2 mean) S) := fun i =>
    (IsGaussian.memLp_two_id (μ := multivariateGaussian (WithLp.toLp 2 mean) S)).eval_piLp i
  have h1 : ∀ i, ∫ x : EuclideanSpace ℝ ι, x i ∂(multivariateGaussian (WithLp.toLp 2 mean) S)
      = mean i := by
    intro i
    have := eval_integral_piLp (f := fun x : EuclideanSpace ℝ ι => x)
      (μ := multivariateGaussian (WithLp.toLp 2 mean) S) (fun i => (hL i).integrable (by norm_num)) i
    rw [← this, integral_id_multivariateGaussian]
  have h2 : ∀ i j, ∫ x : EuclideanSpace ℝ ι, x i * x j
      ∂(multivariateGaussian (WithLp.toLp 2 mean) S) = S i j + mean i * mean j := by
    intro i j
    have := covariance_eval_multivariateGaussian (μ := WithLp.toLp 2 mean) hS i j
    rw [covariance_eq_sub (hL i) (hL j), h1, h1] at this
    simp only [Pi.mul_apply] at this
    linarith
  have hi1 : ∀ i, Integrable (fun x : EuclideanSpace ℝ ι => x i)
      (multivariateGaussian (WithLp.toLp 2 mean) S) := fun i => (hL i).integrable (by norm_num)
  have hi2 : ∀ i j, Integrable (fun x : EuclideanSpace ℝ ι => x i * x j)
      (multivariateGaussian (WithLp.toLp 2 mean) S) := fun i j => (hL i).integrable_mul (hL j)
  refine ⟨fun i => ?_, fun i j => ?_, fun i => ?_, fun i j => ?_⟩
  · rw [gauss, integrable_map_measure (measurable_pi_apply i).aestronglyMeasurable hmeas.aemeasurable]
    exact hi1 i
  · rw [gauss, integrable_map_measure (by fun_prop) hmeas.aemeasurable]
    exact hi2 i j
  · rw [gauss, integral_map hmeas.aemeasurable (measurable_pi_apply i).aestronglyMeasurable]
    exact h1 i
  · rw [gauss, integral_map hmeas.aemeasurable (by fun_prop)]
    exact h2 i j

theorem HasMoments.of_map {Y : Ω → ι → ℝ} (hY : Measurable Y) {mean : ι → ℝ} {S : Matrix ι ι ℝ}
    (h : ν.map Y = gauss mean S) (hS : S.PosSemidef) : HasMoments ν Y mean S := by
  have hg := hasMoments_gauss mean hS
  rw [← h] at hg
  have m1 : ∀ i, Measurable fun x : ι → ℝ => x i := fun i => measurable_pi_apply i
  have m2 : ∀ i j, Measurable fun x : ι → ℝ => x i * x j := fun i j => (m1 i).mul (m1 j)
  refine ⟨fun i => ?_, fun i j => ?_, fun i => ?_, fun i j => ?_⟩
  · have := hg.int1 i
    rwa [integrable_map_measure (m1 i).aestronglyMeasurable hY.aemeasurable] at this
  · have := hg.int2 i j
    rwa [integrable_map_measure (m2 i j).aestronglyMeasurable hY.aemeasurable] at this
  · have := hg.mean_eq i
    rwa [integral_map hY.aemeasurable (m1 i).aestronglyMeasurable] at this
  · have := hg.second i j
    rwa [integral_map hY.aemeasurable (m2 i j).aestronglyMeasurable] at this

theorem HasMoments.symm {Y : Ω → ι → ℝ} {mean : ι → ℝ} {S : Matrix ι ι ℝ}
    (h : HasMoments ν Y mean S) (i j : ι) : S i j = S j i := by
  have h1 := h.second i j
  have h2 := h.second j i
  simp only [mul_comm (Y _ i)] at h1
  linarith [mul_comm (mean i) (mean j)]

theorem HasMoments.add_const {Y : Ω → ι → ℝ} {mean : ι → ℝ} {S : Matrix ι ι ℝ}
    (h : HasMoments ν Y mean S) (c : ι → ℝ) :
    HasMoments ν (fun ω => Y ω + c) (mean + c) S := by
  have e : ∀ i j ω, (Y ω + c) i * (Y ω + c) j
      = Y ω i * Y ω j + (c j * Y ω i + (c i * Y ω j + c i * c j)) := by
    intro i j ω
    simp only [Pi.add_apply]
    ring
  have i1 : ∀ i j, Integrable (fun ω => c i * Y ω j + c i * c j) ν := fun i j =>
    ((h.int1 j).const_mul _).add (integrable_const _)
  have i2 : ∀ i j, Integrable (fun ω => c j * Y ω i + (c i * Y ω j + c i * c j)) ν := fun i j =>
    ((h.int1 i).const_mul _).add (i1 i j)
  refine ⟨fun i => (h.int1 i).add (integrable_const _), fun i j => ?_, fun i => ?_, fun i j => ?_⟩
  · simp only [e]
    exact (h.int2 i j).add (i2 i j)
  · simp only [Pi.add_apply]
    rw [integral_add (h.int1 i) (integrable_const _), h.mean_eq]
    simp
  · simp only [e]
    rw [integral_add (h.int2 i j) (i2 i j), integral_add ((h.int1 i).const_mul _) (i1 i j),
      integral_add ((h.int1 j).const_mul _) (integrable_const _), integral_const_mul,
      integral_const_mul, h.mean_eq, h.mean_eq, h.second]
    simp
    ring

theorem HasMoments.mulVec {Y : Ω → ι → ℝ} {mean : ι → ℝ} {S : Matrix ι ι ℝ}
    (h : HasMoments ν Y mean S) (M : Matrix κ ι ℝ) :
    HasMoments ν (fun ω => M *ᵥ Y ω) (M *ᵥ mean) (M * S * Mᵀ) := by
  have e : ∀ i j ω, (M *ᵥ Y ω) i * (M *ᵥ Y ω) j
      = ∑ b, ∑ a, (M i a * M j b) * (Y ω a * Y ω b) := by
    intro i j ω
    simp only [Matrix.mulVec, dotProduct, Finset.sum_mul_sum]
    rw [Finset.sum_comm]
    refine Finset.sum_congr rfl fun b _ => Finset.sum_congr rfl fun a _ => by ring
  refine ⟨fun i => ?_, fun i j => ?_, fun i => ?_, fun i j => ?_⟩
  · simp only [Matrix.mulVec, dotProduct]
    exact integrable_finsetSum _ fun a _ => (h.int1 a).const_mul _
  · simp only [e]
    exact integrable_finsetSum _ fun b _ => integrable_finsetSum _ fun a _ =>
      (h.int2 a b).const_mul _
  · simp only [Matrix.mulVec, dotProduct]
    rw [integral_finsetSum _ fun a _ => (h.int1 a).const_mul _]
    simp only [integral_const_mul, h.mean_eq]
  · have := moment_mulVec Y M (S + vecMulVec mean mean) h.int2
      (fun a b => by rw [h.second]; rfl) i j
    rw [this, Matrix.mul_add, Matrix.add_mul, mul_vecMulVec, vecMulVec_mul, vecMul_transpose]
    rfl

/-- Integrability of an expected quadratic form, and its value. -/
theorem HasMoments.quad {Y : Ω → ι → ℝ} {mean : ι → ℝ} {S : Matrix ι ι ℝ}
    (h : HasMoments ν Y mean S) (W : Matrix ι ι ℝ) :
    Integrable (fun ω => Y ω ⬝ᵥ (W *ᵥ Y ω)) ν ∧
    ∫ ω, Y ω ⬝ᵥ (W *ᵥ Y ω) ∂ν = (W * (S + vecMulVec mean mean)).trace := by
  have e : ∀ ω, Y ω ⬝ᵥ (W *ᵥ Y ω) = ∑ i, ∑ j, W i j * (Y ω i * Y ω j) := by
    intro ω
    simp only [Matrix.mulVec, dotProduct, Finset.mul_sum]
    exact Finset.sum_congr rfl fun i _ => Finset.sum_congr rfl fun j _ => by ring
  have hi : ∀ i j, Integrable (fun ω => W i j * (Y ω i * Y ω j)) ν := fun i j =>
    (h.int2 i j).const_mul (W i j)
  have hs : ∀ i, Integrable (fun ω => ∑ j, W i j * (Y ω i * Y ω j)) ν := fun i =>
    integrable_finsetSum _ fun j _ => hi i j
  simp only [e]
  refine ⟨integrable_finsetSum _ fun i _ => hs i, ?_⟩
  rw [integral_finsetSum _ fun i _ => hs i]
  simp only [Matrix.trace, Matrix.diag, Matrix.mul_apply]
  refine Finset.sum_congr rfl fun i _ => ?_
  rw [integral_finsetSum _ fun j _ => hi i j]
  refine Finset.sum_congr rfl fun j _ => ?_
  rw [integral_const_mul, h.second, Matrix.add_apply, vecMulVec_apply, h.symm i j]
  ring

/-- Expected log density of a random vector with second moments `M` about the mean. -/
noncomputable def expLogN {k : ℕ} (S M : Mat k k) : ℝ :=
  -(1 / 2) * (k * Real.log (2 * Real.pi) + Real.log S.det + (S⁻¹ * M).trace)

theorem HasMoments.logN {k : ℕ} {Y : Ω → Vec k} {mean : Vec k} {V : Mat k k}
    (h : HasMoments ν Y mean V) (c : Vec k) (S : Mat k k) :
    Integrable (fun ω => logN (Y ω) c S) ν ∧
    ∫ ω, logN (Y ω) c S ∂ν = expLogN S (V + vecMulVec (mean - c) (mean - c)) := by
  have h' := h.add_const (-c)
  obtain ⟨hi, hq⟩ := h'.quad S⁻¹
  simp only [← sub_eq_add_neg] at hi hq
  simp only [Verif.logN]
  refine ⟨((integrable_const _).add hi).const_mul _, ?_⟩
  rw [integral_const_mul, integral_add (integrable_const _) hi, hq]
  simp [expLogN]

theorem logN_comm {k : ℕ} (x c : Vec k) (S : Mat k k) : logN x c S = logN c x S := by
  have e : x - c = -(c - x) := by abel
  simp only [logN, e, mulVec_neg, neg_dotProduct_neg]

/-- Emission term. -/
theorem HasMoments.logN_obs {k n : ℕ} {Y : Ω → Vec n} {mean : Vec n} {V : Mat n n}
    (h : HasMoments ν Y mean V) (C : Mat k n) (d z : Vec k) (R : Mat k k) :
    Integrable (fun ω => Verif.logN z (C *ᵥ Y ω + d) R) ν ∧
    ∫ ω, Verif.logN z (C *ᵥ Y ω + d) R ∂ν
      = expLogN R (vecMulVec (z - C *ᵥ mean - d) (z - C *ᵥ mean - d) + C * (V * Cᵀ)) := by
  have := ((h.mulVec C).add_const d).logN z R
  simp only [logN_comm z]
  refine ⟨this.1, ?_⟩
  have e : C *ᵥ mean + d - z = -(z - C *ᵥ mean - d) := by abel
  rw [this.2, e, neg_vecMulVec, vecMulVec_neg, neg_neg, add_comm, Matrix.mul_assoc]

/-- Transition term. -/
theorem HasMoments.logN_trans {n : ℕ} {X X' : Ω → Vec n} {mean mean' : Vec n}
    {V V' J : Mat n n}
    (h : HasMoments ν (fun ω => Sum.elim (X' ω) (X ω)) (Sum.elim mean' mean)
      (fromBlocks V' J Jᵀ V)) (A : Mat n n) (b : Vec n) (Q : Mat n n) :
    Integrable (fun ω => Verif.logN (X' ω) (A *ᵥ X ω + b) Q) ν ∧
    ∫ ω, Verif.logN (X' ω) (A *ᵥ X ω + b) Q ∂ν
      = expLogN Q (vecMulVec (mean' - A *ᵥ mean - b) (mean' - A *ᵥ mean - b)
        + A * (V * Aᵀ) + V' - J * Aᵀ - (J * Aᵀ)ᵀ) := by
  have h1 := (h.mulVec (fromCols (1 : Mat n n) (-A))).logN b Q
  have e0 : ∀ (x' x : Vec n), fromCols (1 : Mat n n) (-A) *ᵥ Sum.elim x' x = x' - A *ᵥ x := by
    intro x' x
    rw [fromCols_mulVec_sumElim, one_mulVec, neg_mulVec, sub_eq_add_neg]
  have e1 : ∀ ω, Verif.logN (X' ω) (A *ᵥ X ω + b) Q = Verif.logN (X' ω - A *ᵥ X ω) b Q := by
    intro ω
    simp only [Verif.logN, sub_sub]
  simp only [e0] at h1
  simp only [e1]
  refine ⟨h1.1, ?_⟩
  rw [h1.2]
  congr 1
  rw [fromCols_mul_fromBlocks, transpose_fromCols, fromCols_mul_fromRows]
  simp only [transpose_one, transpose_neg, transpose_mul, transpose_transpose, Matrix.one_mul,
    Matrix.mul_one, Matrix.add_mul, Matrix.neg_mul, Matrix.mul_neg, Matrix.mul_assoc]
  abel

end Verif
