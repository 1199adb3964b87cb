import Verif.Spec.UnscentedExact
import Verif.Proofs.Expect
import Verif.Proofs.UnscentedTransform
import Mathlib.Algebra.MvPolynomial.Basic
import Mathlib.Algebra.MvPolynomial.Degrees
import Mathlib.MeasureTheory.Function.LpSeminorm.CompareExp
import Mathlib.MeasureTheory.Integral.Prod
import Mathlib.Topology.Algebra.MvPolynomial

/-!
# Unscented expectations of polynomials
-/

open MeasureTheory ProbabilityTheory Matrix
open scoped ENNReal

namespace Verif

variable {ι κ : Type*} [Fintype ι] [DecidableEq ι] [Fintype κ] [DecidableEq κ]

/-! ### Moments of Gaussian vectors -/

theorem memLp_coord (S : Matrix ι ι ℝ) (i : ι) {p : ℝ≥0∞} (hp : p ≠ ∞) (μ : ι → ℝ) :
    MemLp (fun x : ι → ℝ => x i) p (gauss μ S) := by
  have hmeas : Measurable (WithLp.ofLp : EuclideanSpace ℝ ι → ι → ℝ) := by fun_prop
  rw [gauss, memLp_map_measure_iff (measurable_pi_apply i).aestronglyMeasurable hmeas.aemeasurable]
  exact (IsGaussian.memLp_id (multivariateGaussian (WithLp.toLp 2 μ) S) p hp).eval_piLp i

theorem memLp_poly (S : Matrix ι ι ℝ) (μ : ι → ℝ) (q : MvPolynomial ι ℝ) :
    ∀ {p : ℝ≥0∞}, p ≠ ∞ → MemLp (fun x : ι → ℝ => MvPolynomial.eval x q) p (gauss μ S) := by
  induction q using MvPolynomial.induction_on with
  | C a => intro p hp; simpa using memLp_const a
  | add q r hq hr => intro p hp; simp only [map_add]; exact (hq hp).add (hr hp)
  | mul_X q i hq =>
    intro p hp
    have hp2 : 2 * p ≠ ∞ := ENNReal.mul_ne_top (by norm_num) hp
    have : ENNReal.HolderTriple (2 * p) (2 * p) p := by
      constructor
      rw [← two_mul, ENNReal.mul_inv (.inl two_ne_zero) (.inl (by norm_num)), ← mul_assoc,
        ENNReal.mul_inv_cancel two_ne_zero (by norm_num), one_mul]
    simp only [map_mul, MvPolynomial.eval_X]
    exact (memLp_coord S i hp2 μ).mul (hq hp2)

theorem integrable_poly (S : Matrix ι ι ℝ) (μ : ι → ℝ) (q : MvPolynomial ι ℝ) :
    Integrable (fun x : ι → ℝ => MvPolynomial.eval x q) (gauss μ S) :=
  memLp_one_iff_integrable.mp (memLp_poly S μ q (by norm_num))

theorem gauss_neg {S : Matrix ι ι ℝ} (hS : S.PosSemidef) :
    (gauss 0 S).map (fun x => -x) = gauss 0 S := by
  have := gauss_map_mulVec hS (-1 : Matrix ι ι ℝ) 0
  simp only [neg_mulVec, one_mulVec, neg_zero, Matrix.neg_mul, Matrix.one_mul, transpose_neg,
    transpose_one, Matrix.mul_neg, Matrix.mul_one, neg_neg] at this
  exact this

theorem integral_odd {S : Matrix ι ι ℝ} (hS : S.PosSemidef) {φ : (ι → ℝ) → ℝ} (hm : Measurable φ)
    (h : ∀ x, φ (-x) = - φ x) : ∫ x, φ x ∂(gauss 0 S) = 0 := by
  have e : ∫ x, φ x ∂(gauss 0 S) = - ∫ x, φ x ∂(gauss 0 S) := by
    conv_lhs => rw [← gauss_neg hS]
    rw [integral_map (by fun_prop) hm.aestronglyMeasurable, ← integral_neg]
    simp only [h]
  linarith

theorem integral_shift {S : Matrix ι ι ℝ} (hS : S.PosSemidef) (μ : ι → ℝ) {φ : (ι → ℝ) → ℝ}
    (hm : Measurable φ) : ∫ x, φ x ∂(gauss μ S) = ∫ d, φ (μ + d) ∂(gauss 0 S) := by
  rw [gauss_eq_map hS, integral_map (by fun_prop) hm.aestronglyMeasurable]

/-! ### Linear functionals on polynomials -/

/-- Product of centred coordinates. -/
noncomputable def cprod (μ : ι → ℝ) (b : Multiset ι) : MvPolynomial ι ℝ :=
  (b.map fun i => MvPolynomial.X i - MvPolynomial.C (μ i)).prod

theorem eval_cprod (μ : ι → ℝ) (b : Multiset ι) (x : ι → ℝ) :
    MvPolynomial.eval x (cprod μ b) = (b.map fun i => x i - μ i).prod := by
  rw [cprod, map_multiset_prod, Multiset.map_map]
  simp

/-- A linear functional that vanishes on all products of at most `N` centred coordinates vanishes on
polynomials of degree at most `N`. -/
theorem functional_eq_zero {D : MvPolynomial ι ℝ →ₗ[ℝ] ℝ} {μ : ι → ℝ} {N : ℕ}
    (h : ∀ b : Multiset ι, b.card ≤ N → D (cprod μ b) = 0) {q : MvPolynomial ι ℝ}
    (hq : q.totalDegree ≤ N) : D q = 0 := by
  have key : ∀ (a b : Multiset ι), a.card + b.card ≤ N →
      D ((a.map MvPolynomial.X).prod * cprod μ b) = 0 := by
    intro a
    induction a using Multiset.induction_on with
    | empty => intro b hb; simpa using h b (by simpa using hb)
    | cons i a ih =>
      intro b hb
      rw [Multiset.card_cons] at hb
      have e : ((i ::ₘ a).map MvPolynomial.X).prod * cprod μ b
          = (a.map MvPolynomial.X).prod * cprod μ (i ::ₘ b)
            + μ i • ((a.map MvPolynomial.X).prod * cprod μ b) := by
        simp only [cprod, Multiset.map_cons, Multiset.prod_cons, MvPolynomial.smul_eq_C_mul]
        ring
      rw [e, map_add, map_smul, ih (i ::ₘ b) (by rw [Multiset.card_cons]; omega),
        ih b (by omega)]
      simp
  rw [q.as_sum, map_sum]
  refine Finset.sum_eq_zero fun s hs => ?_
  have e : MvPolynomial.monomial s (q.coeff s)
      = q.coeff s • ((Finsupp.toMultiset s).map (MvPolynomial.X (R := ℝ))).prod := by
    rw [MvPolynomial.monomial_eq, MvPolynomial.smul_eq_C_mul]
    congr 1
    rw [Finsupp.toMultiset_map, Finsupp.prod_toMultiset,
      Finsupp.prod_mapDomain_index (fun _ => pow_zero _) (fun _ _ _ => pow_add _ _ _)]
  have hc : (Finsupp.toMultiset s).card ≤ N := by
    refine le_trans ?_ hq
    rw [MvPolynomial.totalDegree_eq]
    exact Finset.le_sup (f := fun m => (Finsupp.toMultiset m).card) hs
  have := key (Finsupp.toMultiset s) 0 (by simpa using hc)
  rw [e, map_smul]
  simp only [cprod, Multiset.map_zero, Multiset.prod_zero, mul_one] at this
  rw [this, smul_zero]

/-- Expectation under a Gaussian law. -/
noncomputable def gaussE (μ : ι → ℝ) (S : Matrix ι ι ℝ) : MvPolynomial ι ℝ →ₗ[ℝ] ℝ where
  toFun q := ∫ x, MvPolynomial.eval x q ∂(gauss μ S)
  map_add' q r := by
    simp only [map_add]
    exact integral_add (integrable_poly S μ q) (integrable_poly S μ r)
  map_smul' c q := by
    simp only [MvPolynomial.smul_eval, RingHom.id_apply, smul_eq_mul]
    exact integral_const_mul c _

/-- Unscented expectation, for any index type. -/
noncomputable def gexp (μ : ι → ℝ) (L : Matrix ι ι ℝ) (φ : (ι → ℝ) → ℝ) : ℝ :=
  (1 - (Fintype.card ι : ℝ) / 3) * φ μ
    + (1 / 6 : ℝ) * ∑ j, (φ (μ + √3 • L.col j) + φ (μ - √3 • L.col j))

/-- Unscented expectation as a functional. -/
noncomputable def unscE (μ : ι → ℝ) (L : Matrix ι ι ℝ) : MvPolynomial ι ℝ →ₗ[ℝ] ℝ where
  toFun q := gexp μ L fun x => MvPolynomial.eval x q
  map_add' q r := by
    simp only [gexp, map_add, Finset.sum_add_distrib]
    ring
  map_smul' c q := by
    simp only [gexp, MvPolynomial.smul_eval, RingHom.id_apply, smul_eq_mul,
      Finset.sum_add_distrib, ← Finset.mul_sum]
    ring

theorem prod_neg_odd {f : ι → ℝ} {b : Multiset ι} (hb : Odd b.card) :
    (b.map fun i => - f i).prod = - (b.map f).prod := by
  have : (b.map fun i => - f i) = (b.map f).map Neg.neg := by simp
  rw [this, Multiset.prod_map_neg, Multiset.card_map, hb.neg_one_pow]
  simp

theorem gaussE_odd {S : Matrix ι ι ℝ} (hS : S.PosSemidef) (μ : ι → ℝ) {b : Multiset ι}
    (hb : Odd b.card) : gaussE μ S (cprod μ b) = 0 := by
  show ∫ x, MvPolynomial.eval x (cprod μ b) ∂(gauss μ S) = 0
  have hm : Measurable fun x : ι → ℝ => MvPolynomial.eval x (cprod μ b) :=
    (MvPolynomial.continuous_eval _).measurable
  rw [integral_shift hS μ hm]
  refine integral_odd hS (hm.comp (measurable_const.add measurable_id)) fun x => ?_
  simp only [eval_cprod, Pi.add_apply, Pi.neg_apply, add_sub_cancel_left]
  exact prod_neg_odd hb

theorem unscE_odd (μ : ι → ℝ) (L : Matrix ι ι ℝ) {b : Multiset ι} (hb : Odd b.card) :
    unscE μ L (cprod μ b) = 0 := by
  show gexp μ L (fun x => MvPolynomial.eval x (cprod μ b)) = 0
  have h0 : (b.map fun i => μ i - μ i).prod = 0 := by
    have : 0 < b.card := hb.pos
    obtain ⟨i, hi⟩ := Multiset.card_pos_iff_exists_mem.mp this
    exact Multiset.prod_eq_zero (Multiset.mem_map.mpr ⟨i, hi, sub_self _⟩)
  simp only [gexp, eval_cprod, h0, mul_zero, zero_add]
  rw [Finset.sum_eq_zero fun j _ => ?_, mul_zero]
  have e1 : (fun i => (μ + √3 • L.col j) i - μ i) = √3 • L.col j := by funext i; simp
  have e2 : (fun i => (μ - √3 • L.col j) i - μ i) = fun i => - (√3 • L.col j) i := by
    funext i; simp
  rw [e1, e2, prod_neg_odd hb, add_neg_cancel]

theorem unscE_one (μ : ι → ℝ) (L : Matrix ι ι ℝ) : unscE μ L (cprod μ 0) = 1 := by
  show gexp μ L (fun x => MvPolynomial.eval x (cprod μ 0)) = 1
  simp [gexp, eval_cprod]
  ring

theorem gaussE_one (μ : ι → ℝ) (S : Matrix ι ι ℝ) : gaussE μ S (cprod μ 0) = 1 := by
  show ∫ x, MvPolynomial.eval x (cprod μ 0) ∂(gauss μ S) = 1
  simp [eval_cprod]

theorem unscE_two (μ : ι → ℝ) (L : Matrix ι ι ℝ) (i j : ι) :
    unscE μ L (cprod μ {i, j}) = (L * Lᵀ) i j := by
  show gexp μ L (fun x => MvPolynomial.eval x (cprod μ {i, j})) = _
  have e : ∀ x, MvPolynomial.eval x (cprod μ {i, j}) = (x i - μ i) * (x j - μ j) := by
    intro x; rw [eval_cprod]; simp
  have h3 : √3 * √3 = (3 : ℝ) := Real.mul_self_sqrt (by norm_num)
  simp only [gexp, e, Pi.add_apply, Pi.sub_apply, Pi.smul_apply, smul_eq_mul, Matrix.col_apply,
    sub_self, mul_zero, zero_add, Matrix.mul_apply, transpose_apply, Finset.mul_sum]
  refine Finset.sum_congr rfl fun k _ => ?_
  linear_combination (L i k * L j k / 3) * h3

theorem gaussE_two {S : Matrix ι ι ℝ} (hS : S.PosSemidef) (μ : ι → ℝ) (i j : ι) :
    gaussE μ S (cprod μ {i, j}) = S i j := by
  show ∫ x, MvPolynomial.eval x (cprod μ {i, j}) ∂(gauss μ S) = _
  rw [integral_shift hS μ (MvPolynomial.continuous_eval _).measurable]
  have e : ∀ x, MvPolynomial.eval (μ + x) (cprod μ {i, j}) = x i * x j := by
    intro x; rw [eval_cprod]; simp
  simp only [e]
  rw [(hasMoments_gauss 0 hS).second]
  simp

/-- **Degree three.** The unscented expectation of a polynomial of degree at most three is its
expectation under the Gaussian law. -/
theorem unscE_eq_gaussE {S L : Matrix ι ι ℝ} (hS : S.PosSemidef) (hL : L * Lᵀ = S) (μ : ι → ℝ)
    {q : MvPolynomial ι ℝ} (hq : q.totalDegree ≤ 3) : unscE μ L q = gaussE μ S q := by
  have : (unscE μ L - gaussE μ S) q = 0 := by
    refine functional_eq_zero (N := 3) (μ := μ) (fun b hb => ?_) hq
    rw [LinearMap.sub_apply, sub_eq_zero]
    rcases Nat.even_or_odd b.card with he | ho
    · have : b.card = 0 ∨ b.card = 2 := by obtain ⟨k, hk⟩ := he; omega
      rcases this with h | h
      · rw [Multiset.card_eq_zero.mp h, unscE_one, gaussE_one]
      · obtain ⟨i, j, rfl⟩ := Multiset.card_eq_two.mp h
        rw [unscE_two, gaussE_two hS, hL]
    · rw [unscE_odd _ _ ho, gaussE_odd hS _ ho]
  rwa [LinearMap.sub_apply, sub_eq_zero] at this

/-! ### Fourth moments -/

theorem integrable_form_pow (S : Matrix ι ι ℝ) (v : ι → ℝ) (k : ℕ) :
    Integrable (fun x : ι → ℝ => (v ⬝ᵥ x) ^ k) (gauss 0 S) := by
  have := integrable_poly S 0 ((∑ i, MvPolynomial.C (v i) * MvPolynomial.X i) ^ k)
  refine this.congr (Filter.Eventually.of_forall fun x => ?_)
  simp [dotProduct]

theorem form_sq {S : Matrix ι ι ℝ} (hS : S.PosSemidef) (v : ι → ℝ) :
    ∫ x, (v ⬝ᵥ x) ^ 2 ∂(gauss 0 S) = v ⬝ᵥ (S *ᵥ v) := by
  have h := (hasMoments_gauss 0 hS).second
  have e : ∀ x : ι → ℝ, (v ⬝ᵥ x) ^ 2 = ∑ i, ∑ j, v i * v j * (x i * x j) := by
    intro x
    rw [sq, dotProduct, Finset.sum_mul_sum]
    exact Finset.sum_congr rfl fun i _ => Finset.sum_congr rfl fun j _ => by ring
  have hi := (hasMoments_gauss (0 : ι → ℝ) hS).int2
  simp only [e]
  rw [integral_finsetSum _ fun i _ => integrable_finsetSum _ fun j _ => (hi i j).const_mul _]
  simp only [dotProduct, mulVec, Finset.mul_sum]
  refine Finset.sum_congr rfl fun i _ => ?_
  rw [integral_finsetSum _ fun j _ => (hi i j).const_mul _]
  refine Finset.sum_congr rfl fun j _ => ?_
  rw [integral_const_mul, h]
  simp only [Pi.zero_apply, mul_zero, add_zero]
  ring

/-- Fourth moment of a linear form: invariance of the product law under rotation. -/
theorem form_four {S : Matrix ι ι ℝ} (hS : S.PosSemidef) (v : ι → ℝ) :
    ∫ x, (v ⬝ᵥ x) ^ 4 ∂(gauss 0 S) = 3 * (v ⬝ᵥ (S *ᵥ v)) ^ 2 := by
  set G := gauss (0 : ι → ℝ) S with hG
  set c : ℝ := (√2)⁻¹ with hc
  have hcc : c * c = 1 / 2 := by
    rw [hc, ← mul_inv, Real.mul_self_sqrt (by norm_num)]
    norm_num
  have hc4 : c ^ 4 = 1 / 4 := by
    calc c ^ 4 = (c * c) * (c * c) := by ring
      _ = 1 / 4 := by rw [hcc]; norm_num
  have hrot : (G.prod G).map (fun p => (c • (1 : Matrix ι ι ℝ)) *ᵥ p.1
      + (c • (1 : Matrix ι ι ℝ)) *ᵥ p.2) = G := by
    rw [hG, gauss_prod_map hS hS]
    congr 1
    simp only [Matrix.smul_mul, Matrix.one_mul, transpose_smul, transpose_one, Matrix.mul_smul,
      Matrix.mul_one, smul_smul, hcc]
    rw [← add_smul]
    norm_num
  have i : ∀ k, Integrable (fun x : ι → ℝ => (v ⬝ᵥ x) ^ k) G := integrable_form_pow S v
  have hm : Measurable fun x : ι → ℝ => (v ⬝ᵥ x) ^ 4 := by
    simp only [dotProduct]; fun_prop
  have e : ∫ x, (v ⬝ᵥ x) ^ 4 ∂G = ∫ p, c ^ 4 * (v ⬝ᵥ p.1 + v ⬝ᵥ p.2) ^ 4 ∂(G.prod G) := by
    conv_lhs => rw [← hrot]
    rw [integral_map (by fun_prop) hm.aestronglyMeasurable]
    refine integral_congr_ae (Filter.Eventually.of_forall fun p => ?_)
    simp only [smul_mulVec, one_mulVec, dotProduct_add, dotProduct_smul, smul_eq_mul]
    ring
  have o1 : ∫ x, (v ⬝ᵥ x) ^ 1 ∂G = 0 := by
    refine integral_odd hS (by simp only [dotProduct]; fun_prop) fun x => ?_
    simp
  have o3 : ∫ x, (v ⬝ᵥ x) ^ 3 ∂G = 0 := by
    refine integral_odd hS (by simp only [dotProduct]; fun_prop) fun x => ?_
    simp only [dotProduct_neg]
    ring
  have ip : ∀ k l, Integrable (fun p : (ι → ℝ) × (ι → ℝ) => (v ⬝ᵥ p.1) ^ k * (v ⬝ᵥ p.2) ^ l)
      (G.prod G) := fun k l => (i k).mul_prod (i l)
  have vp : ∀ k l, ∫ p : (ι → ℝ) × (ι → ℝ), (v ⬝ᵥ p.1) ^ k * (v ⬝ᵥ p.2) ^ l ∂(G.prod G)
      = (∫ x, (v ⬝ᵥ x) ^ k ∂G) * ∫ x, (v ⬝ᵥ x) ^ l ∂G := fun k l =>
    integral_prod_mul (fun x => (v ⬝ᵥ x) ^ k) (fun x => (v ⬝ᵥ x) ^ l)
  have ex : ∀ p : (ι → ℝ) × (ι → ℝ), c ^ 4 * (v ⬝ᵥ p.1 + v ⬝ᵥ p.2) ^ 4
      = (1 / 4) * ((v ⬝ᵥ p.1) ^ 4 * (v ⬝ᵥ p.2) ^ 0) + 1 * ((v ⬝ᵥ p.1) ^ 3 * (v ⬝ᵥ p.2) ^ 1)
        + (3 / 2) * ((v ⬝ᵥ p.1) ^ 2 * (v ⬝ᵥ p.2) ^ 2) + 1 * ((v ⬝ᵥ p.1) ^ 1 * (v ⬝ᵥ p.2) ^ 3)
        + (1 / 4) * ((v ⬝ᵥ p.1) ^ 0 * (v ⬝ᵥ p.2) ^ 4) := by
    intro p
    rw [hc4]
    ring
  simp only [ex] at e
  have j : ∀ (a : ℝ) k l, Integrable (fun p : (ι → ℝ) × (ι → ℝ) =>
      a * ((v ⬝ᵥ p.1) ^ k * (v ⬝ᵥ p.2) ^ l)) (G.prod G) := fun a k l => (ip k l).const_mul a
  rw [integral_add ((((j _ 4 0).fun_add (j _ 3 1)).fun_add (j _ 2 2)).fun_add (j _ 1 3)) (j _ 0 4),
    integral_add (((j _ 4 0).fun_add (j _ 3 1)).fun_add (j _ 2 2)) (j _ 1 3),
    integral_add ((j _ 4 0).fun_add (j _ 3 1)) (j _ 2 2), integral_add (j _ 4 0) (j _ 3 1)] at e
  simp only [integral_const_mul, vp, o1, o3, form_sq hS v] at e
  have u : ∫ x, (v ⬝ᵥ x) ^ 0 ∂G = 1 := by simp [hG]
  rw [u, form_sq hS v] at e
  linarith

/-! ### The three theorems in terms of `PolyFn` -/

/-- Degree three under a Gaussian law. -/
theorem gexp_cubic {S L : Matrix ι ι ℝ} (hS : S.PosSemidef) (hL : L * Lᵀ = S) (μ : ι → ℝ)
    {φ : (ι → ℝ) → ℝ} (hφ : PolyFn 3 φ) : gexp μ L φ = ∫ x, φ x ∂(gauss μ S) := by
  obtain ⟨q, hq, e⟩ := hφ
  have : φ = fun x => MvPolynomial.eval x q := funext e
  rw [this]
  exact unscE_eq_gaussE hS hL μ hq

theorem eval_monomial' (x : ι → ℝ) (s : ι →₀ ℕ) (c : ℝ) :
    MvPolynomial.eval x (MvPolynomial.monomial s c) = c * ((Finsupp.toMultiset s).map x).prod := by
  rw [MvPolynomial.eval_monomial, Finsupp.toMultiset_map, Finsupp.prod_toMultiset,
    Finsupp.prod_mapDomain_index (fun _ => pow_zero _) (fun _ _ _ => pow_add _ _ _)]

/-- Products of at most two coordinates are integrable, and their expectation is determined by mean
and covariance. -/
theorem HasMoments.prod_two {Ω Ω' : Type*} [MeasurableSpace Ω] [MeasurableSpace Ω'] {ν : Measure Ω}
    {ν' : Measure Ω'} [IsProbabilityMeasure ν] [IsProbabilityMeasure ν'] {Y : Ω → ι → ℝ}
    {Y' : Ω' → ι → ℝ} {μ : ι → ℝ} {S : Matrix ι ι ℝ} (h : HasMoments ν Y μ S)
    (h' : HasMoments ν' Y' μ S) {b : Multiset ι} (hb : b.card ≤ 2) :
    Integrable (fun ω => (b.map (Y ω)).prod) ν ∧
    ∫ ω, (b.map (Y ω)).prod ∂ν = ∫ ω, (b.map (Y' ω)).prod ∂ν' := by
  rcases Nat.lt_or_ge b.card 1 with h0 | h1
  · have : b = 0 := Multiset.card_eq_zero.mp (by omega)
    subst this
    simp
  · rcases Nat.lt_or_ge b.card 2 with h1' | h2
    · obtain ⟨i, rfl⟩ := Multiset.card_eq_one.mp (show b.card = 1 by omega)
      simp only [Multiset.map_singleton, Multiset.prod_singleton]
      exact ⟨h.int1 i, by rw [h.mean_eq, h'.mean_eq]⟩
    · obtain ⟨i, j, rfl⟩ := Multiset.card_eq_two.mp (show b.card = 2 by omega)
      have e : ∀ x : ι → ℝ, (({i, j} : Multiset ι).map x).prod = x i * x j := fun x => by simp
      simp only [e]
      exact ⟨h.int2 i j, by rw [h.second, h'.second]⟩

theorem HasMoments.poly_two {Ω Ω' : Type*} [MeasurableSpace Ω] [MeasurableSpace Ω'] {ν : Measure Ω}
    {ν' : Measure Ω'} [IsProbabilityMeasure ν] [IsProbabilityMeasure ν'] {Y : Ω → ι → ℝ}
    {Y' : Ω' → ι → ℝ} {μ : ι → ℝ} {S : Matrix ι ι ℝ} (h : HasMoments ν Y μ S)
    (h' : HasMoments ν' Y' μ S) {q : MvPolynomial ι ℝ} (hq : q.totalDegree ≤ 2) :
    ∫ ω, MvPolynomial.eval (Y ω) q ∂ν = ∫ ω, MvPolynomial.eval (Y' ω) q ∂ν' := by
  have hc : ∀ s ∈ q.support, (Finsupp.toMultiset s).card ≤ 2 := by
    intro s hs
    refine le_trans ?_ hq
    rw [MvPolynomial.totalDegree_eq]
    exact Finset.le_sup (f := fun m => (Finsupp.toMultiset m).card) hs
  have e : ∀ x : ι → ℝ, MvPolynomial.eval x q
      = ∑ s ∈ q.support, q.coeff s * ((Finsupp.toMultiset s).map x).prod := by
    intro x
    conv_lhs => rw [q.as_sum]
    rw [map_sum]
    exact Finset.sum_congr rfl fun s _ => eval_monomial' x s _
  simp only [e]
  rw [integral_finsetSum _ fun s hs => (h.prod_two h' (hc s hs)).1.const_mul _,
    integral_finsetSum _ fun s hs => (h'.prod_two h (hc s hs)).1.const_mul _]
  refine Finset.sum_congr rfl fun s hs => ?_
  rw [integral_const_mul, integral_const_mul, (h.prod_two h' (hc s hs)).2]

/-- Degree two under any law with this mean and covariance. -/
theorem gexp_quadratic {S L : Matrix ι ι ℝ} (hS : S.PosSemidef) (hL : L * Lᵀ = S) {μ : ι → ℝ}
    {Ω : Type*} [MeasurableSpace Ω] {ν : Measure Ω} [IsProbabilityMeasure ν] {Y : Ω → ι → ℝ}
    (h : HasMoments ν Y μ S) {φ : (ι → ℝ) → ℝ} (hφ : PolyFn 2 φ) :
    gexp μ L φ = ∫ ω, φ (Y ω) ∂ν := by
  obtain ⟨q, hq, e⟩ := hφ
  rw [gexp_cubic hS hL μ ⟨q, hq.trans (by norm_num), e⟩]
  simp only [e]
  exact (hasMoments_gauss μ hS).poly_two h hq

/-- Degree five in one dimension. -/
theorem gexp_quintic [Unique ι] {S L : Matrix ι ι ℝ} (hS : S.PosSemidef) (hL : L * Lᵀ = S)
    (μ : ι → ℝ) {φ : (ι → ℝ) → ℝ} (hφ : PolyFn 5 φ) : gexp μ L φ = ∫ x, φ x ∂(gauss μ S) := by
  obtain ⟨q, hq, e⟩ := hφ
  have e : φ = fun x => MvPolynomial.eval x q := funext e
  rw [e]
  have : (unscE μ L - gaussE μ S) q = 0 := by
    refine functional_eq_zero (N := 5) (μ := μ) (fun b hb => ?_) hq
    rw [LinearMap.sub_apply, sub_eq_zero]
    rcases Nat.even_or_odd b.card with he | ho
    · have : b.card = 0 ∨ b.card = 2 ∨ b.card = 4 := by obtain ⟨k, hk⟩ := he; omega
      rcases this with h | h | h
      · rw [Multiset.card_eq_zero.mp h, unscE_one, gaussE_one]
      · obtain ⟨i, j, rfl⟩ := Multiset.card_eq_two.mp h
        rw [unscE_two, gaussE_two hS, hL]
      · have hb : b = Multiset.replicate 4 (default : ι) :=
          Multiset.eq_replicate.mpr ⟨h, fun i _ => Subsingleton.elim _ _⟩
        have ev : ∀ x : ι → ℝ, MvPolynomial.eval x (cprod μ b) = (x default - μ default) ^ 4 := by
          intro x; rw [eval_cprod, hb, Multiset.map_replicate, Multiset.prod_replicate]
        have hS' : S default default = L default default * L default default := by
          rw [← hL, Matrix.mul_apply]; simp
        have h3 : √3 * √3 = (3 : ℝ) := Real.mul_self_sqrt (by norm_num)
        have l : unscE μ L (cprod μ b) = 3 * S default default ^ 2 := by
          show gexp μ L (fun x => MvPolynomial.eval x (cprod μ b)) = _
          simp only [gexp, ev, Fintype.sum_unique, Pi.add_apply, Pi.sub_apply, Pi.smul_apply,
            smul_eq_mul, Matrix.col_apply, hS']
          linear_combination (L default default ^ 4 / 3) * (√3 * √3 + 3) * h3
        have r : gaussE μ S (cprod μ b) = 3 * S default default ^ 2 := by
          show ∫ x, MvPolynomial.eval x (cprod μ b) ∂(gauss μ S) = _
          rw [integral_shift hS μ (MvPolynomial.continuous_eval _).measurable]
          have := form_four hS (fun _ => 1)
          simp only [dotProduct, mulVec, Fintype.sum_unique, one_mul, mul_one] at this
          simp only [ev, Pi.add_apply, add_sub_cancel_left, this]
        rw [l, r]
    · rw [unscE_odd _ _ ho, gaussE_odd hS _ ho]
  rwa [LinearMap.sub_apply, sub_eq_zero] at this

/-! ### Transforms of the filters -/

variable {n m : ℕ}

theorem uexp_apply (μ : Vec n) (L : Mat n n) (f : Vec n → Vec m) (i : Fin m) :
    uexp μ L f i = gexp μ L (fun x => f x i) := by
  simp [uexp, gexp, Finset.sum_apply]

theorem uexp_apply₂ (μ : Vec n) (L : Mat n n) (f : Vec n → Mat m m) (i j : Fin m) :
    uexp μ L f i j = gexp μ L (fun x => f x i j) := by
  simp [uexp, gexp, Matrix.sum_apply]

theorem uexp₂_apply {k : ℕ} (μ : Vec n) (L : Mat n n) (ν : Vec m) (L' : Mat m m)
    (f : Vec n → Vec m → Vec k) (i : Fin k) :
    uexp₂ μ L ν L' f i = gexp (Sum.elim μ ν) (fromBlocks L 0 0 L')
      (fun z => f (fun a => z (.inl a)) (fun a => z (.inr a)) i) := by
  simp only [uexp₂, gexp, Pi.add_apply, Pi.smul_apply, smul_eq_mul, Finset.sum_apply,
    Fintype.card_sum, Fintype.card_fin, Fintype.sum_sum_type, Sum.elim_inl, Sum.elim_inr,
    Pi.sub_apply, Matrix.col_apply, fromBlocks_apply₁₁, fromBlocks_apply₁₂, fromBlocks_apply₂₁,
    fromBlocks_apply₂₂, Matrix.zero_apply, mul_zero, add_zero, sub_zero]
  rfl

theorem uexp₃_forget {E : Type} [AddCommGroup E] [Module ℝ E] {a b c : ℕ} (μ : Vec a) (L : Mat a a)
    (ν : Vec b) (L' : Mat b b) (ξ : Vec c) (L'' : Mat c c) (φ : Vec a → Vec b → E) :
    uexp₃ μ L ν L' ξ L'' (fun x w _ => φ x w) = uexp₂ μ L ν L' φ := by
  simp only [uexp₃, uexp₂, Finset.sum_const, Finset.card_univ, Fintype.card_fin]
  rw [← two_smul ℝ (φ μ ν), ← Nat.cast_smul_eq_nsmul ℝ c]
  push_cast
  module

theorem gauss_blocks {P : Mat n n} {Q : Mat m m} (_ : P.PosSemidef) (_ : Q.PosSemidef) :
    fromRows (1 : Mat n n) (0 : Matrix (Fin m) (Fin n) ℝ) * P
        * (fromRows (1 : Mat n n) (0 : Matrix (Fin m) (Fin n) ℝ))ᵀ
      + fromRows (0 : Matrix (Fin n) (Fin m) ℝ) (1 : Mat m m) * Q
        * (fromRows (0 : Matrix (Fin n) (Fin m) ℝ) (1 : Mat m m))ᵀ = fromBlocks P 0 0 Q := by
  simp only [transpose_fromRows, fromRows_mul, mul_fromCols, transpose_one, transpose_zero,
    Matrix.one_mul, Matrix.mul_one, Matrix.zero_mul, Matrix.mul_zero]
  ext (i | i) (j | j) <;> simp

/-- The law of two independent Gaussian vectors. -/
theorem gauss_prod_sum {P : Mat n n} {Q : Mat m m} (hP : P.PosSemidef) (hQ : Q.PosSemidef)
    (μ : Vec n) (ν : Vec m) :
    ((gauss μ P).prod (gauss ν Q)).map (fun p => Sum.elim p.1 p.2)
      = gauss (Sum.elim μ ν) (fromBlocks P 0 0 Q) := by
  set A := fromRows (1 : Mat n n) (0 : Matrix (Fin m) (Fin n) ℝ) with hA
  set B := fromRows (0 : Matrix (Fin n) (Fin m) ℝ) (1 : Mat m m) with hB
  have hAB : A * P * Aᵀ + B * Q * Bᵀ = fromBlocks P 0 0 Q := by
    exact gauss_blocks hP hQ
  have hPQ : (fromBlocks P 0 0 Q).PosSemidef := by
    rw [← hAB]
    exact (posSemidef_conj hP A).add (posSemidef_conj hQ B)
  have e : ∀ p : Vec n × Vec m, A *ᵥ p.1 + B *ᵥ p.2 = Sum.elim p.1 p.2 := by
    intro p
    rw [hA, hB, fromRows_mulVec, fromRows_mulVec]
    funext i
    cases i <;> simp
  have h := gauss_prod_map hP hQ A B
  rw [hAB] at h
  simp only [e] at h
  have hm : Measurable fun p : Vec n × Vec m => (Sum.elim p.1 p.2 : Fin n ⊕ Fin m → ℝ) := by
    refine measurable_pi_lambda _ fun i => ?_
    cases i
    · exact (measurable_pi_apply _).comp measurable_fst
    · exact (measurable_pi_apply _).comp measurable_snd
  rw [gauss_eq_map hP, gauss_eq_map hQ, gauss_eq_map hPQ, ← h,
    Measure.map_prod_map _ _ (by fun_prop) (by fun_prop), Measure.map_map hm (by fun_prop),
    Measure.map_map (by fun_prop) hm]
  congr 1
  funext p i
  cases i <;> simp

theorem integral_gauss_prod {P : Mat n n} {Q : Mat m m} (hP : P.PosSemidef) (hQ : Q.PosSemidef)
    (μ : Vec n) (ν : Vec m) {φ : (Fin n ⊕ Fin m → ℝ) → ℝ} (hφ : Measurable φ) :
    ∫ z, φ z ∂(gauss (Sum.elim μ ν) (fromBlocks P 0 0 Q))
      = ∫ p, φ (Sum.elim p.1 p.2) ∂((gauss μ P).prod (gauss ν Q)) := by
  have hm : Measurable fun p : Vec n × Vec m => (Sum.elim p.1 p.2 : Fin n ⊕ Fin m → ℝ) := by
    refine measurable_pi_lambda _ fun i => ?_
    cases i
    · exact (measurable_pi_apply _).comp measurable_fst
    · exact (measurable_pi_apply _).comp measurable_snd
  rw [← gauss_prod_sum hP hQ, integral_map hm.aemeasurable hφ.aestronglyMeasurable]

theorem PolyFn.measurable {N : ℕ} {φ : (ι → ℝ) → ℝ} (h : PolyFn N φ) : Measurable φ := by
  obtain ⟨q, -, e⟩ := h
  rw [show φ = fun x => MvPolynomial.eval x q from funext e]
  exact (MvPolynomial.continuous_eval _).measurable

end Verif
