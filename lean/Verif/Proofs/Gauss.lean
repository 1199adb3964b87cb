import Verif.Spec.Gauss
import Verif.Linalg.Cholesky
import Mathlib.Probability.Independence.CharacteristicFunction

/-!
# Lemmas on Gaussian laws
-/

open MeasureTheory ProbabilityTheory Matrix Complex
open scoped RealInnerProductSpace

namespace Verif

variable {ι κ τ : Type*} [Fintype ι] [DecidableEq ι] [Fintype κ] [DecidableEq κ]
  [Fintype τ] [DecidableEq τ]

instance (μ : ι → ℝ) (S : Matrix ι ι ℝ) : IsProbabilityMeasure (gauss μ S) :=
  Measure.isProbabilityMeasure_map (by fun_prop)

/-- Coordinates of a linear functional. -/
def coords (L : StrongDual ℝ (ι → ℝ)) : ι → ℝ := fun i => L (Pi.single i 1)

theorem apply_eq_coords (L : StrongDual ℝ (ι → ℝ)) (x : ι → ℝ) : L x = coords L ⬝ᵥ x := by
  conv_lhs => rw [pi_eq_sum_univ' x]
  rw [map_sum]
  simp only [coords, dotProduct]
  refine Finset.sum_congr rfl fun i _ => ?_
  rw [map_smul, smul_eq_mul, mul_comm]

theorem charFunDual_gauss (μ : ι → ℝ) {S : Matrix ι ι ℝ} (hS : S.PosSemidef)
    (L : StrongDual ℝ (ι → ℝ)) :
    charFunDual (gauss μ S) L
      = cexp (((coords L ⬝ᵥ μ : ℝ) : ℂ) * I - ((coords L ⬝ᵥ (S *ᵥ coords L) : ℝ) : ℂ) / 2) := by
  have h := charFun_multivariateGaussian (μ := WithLp.toLp 2 μ) hS (WithLp.toLp 2 (coords L))
  rw [charFunDual_apply, gauss, integral_map (by fun_prop)
    (Measurable.aestronglyMeasurable (by fun_prop))]
  rw [charFun_apply] at h
  convert h using 4 with x
  · rw [apply_eq_coords, EuclideanSpace.inner_eq_star_dotProduct]
    simp
  · rw [EuclideanSpace.inner_eq_star_dotProduct]
    simp [dotProduct_comm]

/-- The continuous linear map of a matrix. -/
noncomputable def mulVecCLM (A : Matrix κ ι ℝ) : (ι → ℝ) →L[ℝ] (κ → ℝ) :=
  LinearMap.toContinuousLinearMap (Matrix.mulVecLin A)

@[simp] theorem mulVecCLM_apply (A : Matrix κ ι ℝ) (x : ι → ℝ) : mulVecCLM A x = A *ᵥ x := rfl

theorem measurable_mulVec (A : Matrix κ ι ℝ) : Measurable fun x : ι → ℝ => A *ᵥ x :=
  (mulVecCLM A).continuous.measurable

@[fun_prop] theorem Measurable.mulVec' {α : Type*} [MeasurableSpace α] (A : Matrix κ ι ℝ)
    {f : α → ι → ℝ} (hf : Measurable f) : Measurable fun a => A *ᵥ f a :=
  (measurable_mulVec A).comp hf

theorem coords_comp (A : Matrix κ ι ℝ) (L : StrongDual ℝ (κ → ℝ)) :
    coords (L.comp (mulVecCLM A)) = Aᵀ *ᵥ coords L := by
  funext i
  simp only [coords, ContinuousLinearMap.comp_apply, mulVecCLM_apply, mulVec_single_one]
  rw [apply_eq_coords, mulVec, dotProduct_comm]
  rfl

theorem posSemidef_conj {S : Matrix ι ι ℝ} (hS : S.PosSemidef) (A : Matrix κ ι ℝ) :
    (A * S * Aᵀ).PosSemidef := by
  have := hS.mul_mul_conjTranspose_same A
  rwa [conjTranspose_eq_transpose_of_trivial] at this

theorem quad_conj (S : Matrix ι ι ℝ) (A : Matrix κ ι ℝ) (x : κ → ℝ) :
    (Aᵀ *ᵥ x) ⬝ᵥ (S *ᵥ (Aᵀ *ᵥ x)) = x ⬝ᵥ ((A * S * Aᵀ) *ᵥ x) := by
  rw [← mulVec_mulVec, ← mulVec_mulVec, dotProduct_mulVec x A, ← mulVec_transpose]

/-- Linear image of a centred Gaussian. -/
theorem gauss_map_mulVec {S : Matrix ι ι ℝ} (hS : S.PosSemidef) (A : Matrix κ ι ℝ) (μ : ι → ℝ) :
    (gauss μ S).map (fun x => A *ᵥ x) = gauss (A *ᵥ μ) (A * S * Aᵀ) := by
  have : (gauss μ S).map (fun x => A *ᵥ x) = (gauss μ S).map (mulVecCLM A) := rfl
  rw [this]
  haveI : IsFiniteMeasure ((gauss μ S).map (mulVecCLM A)) :=
    Measure.isFiniteMeasure_map _ _
  apply Measure.ext_of_charFunDual
  funext L
  rw [charFunDual_map, charFunDual_gauss _ hS, charFunDual_gauss _ (posSemidef_conj hS A),
    coords_comp, quad_conj]
  congr 4
  rw [dotProduct_mulVec, mulVec_transpose]

/-- Translate of a Gaussian. -/
theorem gauss_map_add {S : Matrix ι ι ℝ} (hS : S.PosSemidef) (c μ : ι → ℝ) :
    (gauss μ S).map (fun x => c + x) = gauss (c + μ) S := by
  haveI : IsFiniteMeasure ((gauss μ S).map (fun x => c + x)) :=
    Measure.isFiniteMeasure_map _ _
  apply Measure.ext_of_charFunDual
  funext L
  rw [charFunDual_map_const_add, charFunDual_gauss _ hS, charFunDual_gauss _ hS, ← Complex.exp_add,
    apply_eq_coords, dotProduct_add]
  congr 1
  push_cast
  ring

theorem gauss_eq_map {S : Matrix ι ι ℝ} (hS : S.PosSemidef) (μ : ι → ℝ) :
    gauss μ S = (gauss 0 S).map (fun x => μ + x) := by
  rw [gauss_map_add hS, add_zero]

theorem gauss_zero_zero (μ : ι → ℝ) : gauss μ (0 : Matrix ι ι ℝ) = Measure.dirac μ := by
  apply Measure.ext_of_charFunDual
  funext L
  rw [charFunDual_gauss _ PosSemidef.zero, charFunDual_dirac, apply_eq_coords]
  simp

/-- Sum of independent linear images of centred Gaussians. -/
theorem gauss_prod_map {S : Matrix ι ι ℝ} {Q : Matrix κ κ ℝ} (hS : S.PosSemidef)
    (hQ : Q.PosSemidef) (A : Matrix τ ι ℝ) (B : Matrix τ κ ℝ) :
    ((gauss 0 S).prod (gauss 0 Q)).map (fun p => A *ᵥ p.1 + B *ᵥ p.2)
      = gauss 0 (A * S * Aᵀ + B * Q * Bᵀ) := by
  let T : (ι → ℝ) × (κ → ℝ) →L[ℝ] (τ → ℝ) := (mulVecCLM A).coprod (mulVecCLM B)
  have : (fun p : (ι → ℝ) × (κ → ℝ) => A *ᵥ p.1 + B *ᵥ p.2) = T := by
    funext p; simp [T]
  rw [this]
  haveI : IsFiniteMeasure (((gauss 0 S).prod (gauss 0 Q)).map T) :=
    Measure.isFiniteMeasure_map _ _
  apply Measure.ext_of_charFunDual
  funext L
  have e1 : (L.comp T).comp (ContinuousLinearMap.inl ℝ _ _) = L.comp (mulVecCLM A) := by
    ext x; simp [T]
  have e2 : (L.comp T).comp (ContinuousLinearMap.inr ℝ _ _) = L.comp (mulVecCLM B) := by
    ext x; simp [T]
  rw [charFunDual_map, charFunDual_prod, e1, e2, charFunDual_gauss _ hS, charFunDual_gauss _ hQ,
    charFunDual_gauss _ ((posSemidef_conj hS A).add (posSemidef_conj hQ B)), coords_comp,
    coords_comp, quad_conj, quad_conj, ← Complex.exp_add, add_mulVec, dotProduct_add]
  simp only [dotProduct_zero]
  congr 1
  push_cast
  ring

theorem dot_conj {α β ρ : Type*} [Fintype α] [Fintype β] [Fintype ρ] (M : Matrix ρ ρ ℝ)
    (E : Matrix α ρ ℝ) (F : Matrix β ρ ℝ) (x : α → ℝ) (y : β → ℝ) :
    (Eᵀ *ᵥ x) ⬝ᵥ (M *ᵥ (Fᵀ *ᵥ y)) = x ⬝ᵥ ((E * M * Fᵀ) *ᵥ y) := by
  rw [← mulVec_mulVec, ← mulVec_mulVec, dotProduct_mulVec x E, ← mulVec_transpose]

theorem quad_expand {τ σ ρ : Type*} [Fintype τ] [Fintype σ] [Fintype ρ] (M : Matrix ρ ρ ℝ)
    (hM : Mᵀ = M) (D : Matrix τ ρ ℝ) (D' : Matrix σ ρ ℝ) (a : τ → ℝ) (c : σ → ℝ) :
    (Dᵀ *ᵥ a + D'ᵀ *ᵥ c) ⬝ᵥ (M *ᵥ (Dᵀ *ᵥ a + D'ᵀ *ᵥ c))
      = a ⬝ᵥ ((D * M * Dᵀ) *ᵥ a) + 2 * (c ⬝ᵥ ((D' * M * Dᵀ) *ᵥ a))
        + c ⬝ᵥ ((D' * M * D'ᵀ) *ᵥ c) := by
  rw [mulVec_add, dotProduct_add, add_dotProduct, add_dotProduct, dot_conj, dot_conj, dot_conj,
    dot_conj]
  have s2 : a ⬝ᵥ ((D * M * D'ᵀ) *ᵥ c) = c ⬝ᵥ ((D' * M * Dᵀ) *ᵥ a) := by
    rw [dotProduct_mulVec, ← mulVec_transpose, dotProduct_comm]
    simp only [transpose_mul, transpose_transpose, hM, Matrix.mul_assoc]
  rw [s2]
  ring

/-- Two vectors assembled from independent centred Gaussians. -/
theorem gauss_prod_map_pair {S : Matrix ι ι ℝ} {Q : Matrix κ κ ℝ} (hS : S.PosSemidef)
    (hQ : Q.PosSemidef) {σ : Type*} [Fintype σ] [DecidableEq σ]
    (A : Matrix τ ι ℝ) (B : Matrix τ κ ℝ) (A' : Matrix σ ι ℝ) (B' : Matrix σ κ ℝ) :
    ∀ L : StrongDual ℝ ((τ → ℝ) × (σ → ℝ)),
    charFunDual (((gauss 0 S).prod (gauss 0 Q)).map
      (fun p => (A *ᵥ p.1 + B *ᵥ p.2, A' *ᵥ p.1 + B' *ᵥ p.2))) L
      = cexp (- ((
        coords (L.comp (.inl ℝ _ _)) ⬝ᵥ ((A * S * Aᵀ + B * Q * Bᵀ) *ᵥ coords (L.comp (.inl ℝ _ _)))
        + 2 * (coords (L.comp (.inr ℝ _ _)) ⬝ᵥ
          ((A' * S * Aᵀ + B' * Q * Bᵀ) *ᵥ coords (L.comp (.inl ℝ _ _))))
        + coords (L.comp (.inr ℝ _ _)) ⬝ᵥ
          ((A' * S * A'ᵀ + B' * Q * B'ᵀ) *ᵥ coords (L.comp (.inr ℝ _ _))) : ℝ) : ℂ) / 2) := by
  intro L
  let T : (ι → ℝ) × (κ → ℝ) →L[ℝ] (τ → ℝ) × (σ → ℝ) :=
    ((mulVecCLM A).coprod (mulVecCLM B)).prod ((mulVecCLM A').coprod (mulVecCLM B'))
  have : (fun p : (ι → ℝ) × (κ → ℝ) => (A *ᵥ p.1 + B *ᵥ p.2, A' *ᵥ p.1 + B' *ᵥ p.2)) = T := by
    funext p; simp [T]
  rw [this]
  set a := coords (L.comp (.inl ℝ _ _)) with ha
  set c := coords (L.comp (.inr ℝ _ _)) with hc
  have hL : ∀ x y, L (x, y) = a ⬝ᵥ x + c ⬝ᵥ y := by
    intro x y
    have : L (x, y) = L.comp (.inl ℝ _ _) x + L.comp (.inr ℝ _ _) y := by
      simp [← map_add]
    rw [this, apply_eq_coords, apply_eq_coords]
  have e1 : coords ((L.comp T).comp (ContinuousLinearMap.inl ℝ _ _)) = Aᵀ *ᵥ a + A'ᵀ *ᵥ c := by
    funext i
    simp only [coords, T, ContinuousLinearMap.comp_apply, ContinuousLinearMap.inl_apply,
      ContinuousLinearMap.prod_apply, ContinuousLinearMap.coprod_apply, mulVecCLM_apply, mulVec_zero,
      add_zero, hL, mulVec_single_one, Pi.add_apply, mulVec]
    rw [dotProduct_comm a, dotProduct_comm c]
    rfl
  have e2 : coords ((L.comp T).comp (ContinuousLinearMap.inr ℝ _ _)) = Bᵀ *ᵥ a + B'ᵀ *ᵥ c := by
    funext i
    simp only [coords, T, ContinuousLinearMap.comp_apply, ContinuousLinearMap.inr_apply,
      ContinuousLinearMap.prod_apply, ContinuousLinearMap.coprod_apply, mulVecCLM_apply, mulVec_zero,
      zero_add, hL, mulVec_single_one, Pi.add_apply, mulVec]
    rw [dotProduct_comm a, dotProduct_comm c]
    rfl
  rw [charFunDual_map, charFunDual_prod, charFunDual_gauss _ hS, charFunDual_gauss _ hQ, e1, e2,
    quad_expand S (symm_of_posSemidef hS), quad_expand Q (symm_of_posSemidef hQ), ← Complex.exp_add]
  simp only [dotProduct_zero, add_mulVec, dotProduct_add]
  congr 1
  push_cast
  ring

/-- Two ways to assemble a pair of vectors from independent centred Gaussians have the same law
if the covariances agree. -/
theorem gauss_prod_map_pair_eq {ι' κ' σ : Type*} [Fintype ι'] [DecidableEq ι'] [Fintype κ']
    [DecidableEq κ'] [Fintype σ] [DecidableEq σ]
    {S : Matrix ι ι ℝ} {Q : Matrix κ κ ℝ} {S' : Matrix ι' ι' ℝ} {Q' : Matrix κ' κ' ℝ}
    (hS : S.PosSemidef) (hQ : Q.PosSemidef) (hS' : S'.PosSemidef) (hQ' : Q'.PosSemidef)
    (A : Matrix τ ι ℝ) (B : Matrix τ κ ℝ) (A' : Matrix σ ι ℝ) (B' : Matrix σ κ ℝ)
    (C : Matrix τ ι' ℝ) (D : Matrix τ κ' ℝ) (C' : Matrix σ ι' ℝ) (D' : Matrix σ κ' ℝ)
    (h11 : A * S * Aᵀ + B * Q * Bᵀ = C * S' * Cᵀ + D * Q' * Dᵀ)
    (h21 : A' * S * Aᵀ + B' * Q * Bᵀ = C' * S' * Cᵀ + D' * Q' * Dᵀ)
    (h22 : A' * S * A'ᵀ + B' * Q * B'ᵀ = C' * S' * C'ᵀ + D' * Q' * D'ᵀ) :
    ((gauss 0 S).prod (gauss 0 Q)).map
      (fun p => (A *ᵥ p.1 + B *ᵥ p.2, A' *ᵥ p.1 + B' *ᵥ p.2)) =
    ((gauss 0 S').prod (gauss 0 Q')).map
      (fun p => (C *ᵥ p.1 + D *ᵥ p.2, C' *ᵥ p.1 + D' *ᵥ p.2)) := by
  haveI : IsFiniteMeasure (((gauss 0 S).prod (gauss 0 Q)).map
      (fun p => (A *ᵥ p.1 + B *ᵥ p.2, A' *ᵥ p.1 + B' *ᵥ p.2))) :=
    Measure.isFiniteMeasure_map _ _
  haveI : IsFiniteMeasure (((gauss 0 S').prod (gauss 0 Q')).map
      (fun p => (C *ᵥ p.1 + D *ᵥ p.2, C' *ᵥ p.1 + D' *ᵥ p.2))) :=
    Measure.isFiniteMeasure_map _ _
  apply Measure.ext_of_charFunDual
  funext L
  rw [gauss_prod_map_pair hS hQ, gauss_prod_map_pair hS' hQ', h11, h21, h22]

end Verif
