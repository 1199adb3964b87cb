import Verif.Proofs.UnscentedExact
import Verif.Spec.UnscentedAccuracy
import Mathlib.Analysis.Calculus.Taylor
import Mathlib.Analysis.Calculus.ContDiff.Operations

/-!
# Error of the unscented expectation for smooth functions
-/

open MeasureTheory Matrix

namespace Verif

variable {ι : Type*} [Fintype ι] [DecidableEq ι]

/-! ### Polynomial functions -/

theorem PolyFn.mono {N N' : ℕ} (h : N ≤ N') {φ : (ι → ℝ) → ℝ} (hφ : PolyFn N φ) : PolyFn N' φ := by
  obtain ⟨q, hq, e⟩ := hφ
  exact ⟨q, hq.trans h, e⟩

theorem PolyFn.add {N : ℕ} {φ ψ : (ι → ℝ) → ℝ} (h : PolyFn N φ) (h' : PolyFn N ψ) :
    PolyFn N fun x => φ x + ψ x := by
  obtain ⟨q, hq, e⟩ := h
  obtain ⟨q', hq', e'⟩ := h'
  exact ⟨q + q', (MvPolynomial.totalDegree_add _ _).trans (max_le hq hq'), fun x => by simp [e, e']⟩

theorem PolyFn.mul {N M : ℕ} {φ ψ : (ι → ℝ) → ℝ} (h : PolyFn N φ) (h' : PolyFn M ψ) :
    PolyFn (N + M) fun x => φ x * ψ x := by
  obtain ⟨q, hq, e⟩ := h
  obtain ⟨q', hq', e'⟩ := h'
  exact ⟨q * q', (MvPolynomial.totalDegree_mul _ _).trans (add_le_add hq hq'),
    fun x => by simp [e, e']⟩

theorem PolyFn.const_mul {N : ℕ} {φ : (ι → ℝ) → ℝ} (h : PolyFn N φ) (c : ℝ) :
    PolyFn N fun x => c * φ x := by
  obtain ⟨q, hq, e⟩ := h
  refine ⟨MvPolynomial.C c * q, ?_, fun x => by simp [e]⟩
  refine (MvPolynomial.totalDegree_mul _ _).trans ?_
  simpa using hq

theorem PolyFn.sum {N : ℕ} {α : Type*} (s : Finset α) {φ : α → (ι → ℝ) → ℝ}
    (h : ∀ a ∈ s, PolyFn N (φ a)) : PolyFn N fun x => ∑ a ∈ s, φ a x := by
  classical
  induction s using Finset.induction_on with
  | empty => exact ⟨0, by simp, fun x => by simp⟩
  | insert a s ha ih =>
    have := (h a (Finset.mem_insert_self _ _)).add (ih fun b hb => h b (Finset.mem_insert_of_mem hb))
    simpa only [Finset.sum_insert ha] using this

/-- A multilinear form on the diagonal, about a centre, is a polynomial. -/
theorem polyFn_multilinear {k : ℕ} (M : MultilinearMap ℝ (fun _ : Fin k => ι → ℝ) ℝ) (μ : ι → ℝ) :
    PolyFn k fun x => M fun _ => x - μ := by
  have e : ∀ x : ι → ℝ, (M fun _ => x - μ)
      = ∑ r : Fin k → ι, (M fun a => Pi.single (r a) 1) * ∏ a, (x (r a) - μ (r a)) := by
    intro x
    have hx : (fun _ : Fin k => x - μ) = fun _ => ∑ j, (x j - μ j) • (Pi.single j 1 : ι → ℝ) := by
      funext a i
      simp [Finset.sum_apply, Pi.single_apply]
    rw [hx, M.map_sum]
    refine Finset.sum_congr rfl fun r _ => ?_
    rw [M.map_smul_univ, smul_eq_mul, mul_comm]
  simp only [e]
  refine PolyFn.sum _ fun r _ => PolyFn.const_mul ⟨∏ a, (MvPolynomial.X (r a)
    - MvPolynomial.C (μ (r a))), ?_, fun x => by simp⟩ _
  refine (MvPolynomial.totalDegree_finset_prod _ _).trans ?_
  refine (Finset.sum_le_card_nsmul _ _ 1 fun a _ => ?_).trans (by simp)
  refine (MvPolynomial.totalDegree_sub_C_le _ _).trans ?_
  simp

/-! ### Taylor's theorem along lines -/

theorem iteratedDeriv_line {φ : (ι → ℝ) → ℝ} {N k : ℕ} (hφ : ContDiff ℝ N φ) (hk : k ≤ N)
    (μ v : ι → ℝ) (t : ℝ) : iteratedDeriv k (fun t : ℝ => φ (μ + t • v)) t
      = iteratedFDeriv ℝ k φ (μ + t • v) fun _ => v := by
  have h1 : (fun t : ℝ => φ (μ + t • v))
      = (fun x => φ (μ + x)) ∘ (ContinuousLinearMap.toSpanSingleton ℝ v) := by
    funext t
    simp [ContinuousLinearMap.toSpanSingleton_apply]
  have h2 : ContDiff ℝ N fun x : ι → ℝ => φ (μ + x) := hφ.comp (contDiff_const.add contDiff_id)
  rw [iteratedDeriv_eq_iteratedFDeriv, h1, ContinuousLinearMap.iteratedFDeriv_comp_right
    _ h2 _ (by exact_mod_cast hk),
    ContinuousMultilinearMap.compContinuousLinearMap_apply, iteratedFDeriv_comp_add_left]
  simp [ContinuousLinearMap.toSpanSingleton_apply]

/-- The Taylor polynomial of degree `N`. -/
noncomputable def taylorPoly (N : ℕ) (φ : (ι → ℝ) → ℝ) (μ : ι → ℝ) (x : ι → ℝ) : ℝ :=
  ∑ k ∈ Finset.range (N + 1), ((k.factorial : ℝ)⁻¹) * iteratedFDeriv ℝ k φ μ fun _ => x - μ

theorem iteratedFDeriv_poly (k : ℕ) (φ : (ι → ℝ) → ℝ) (μ : ι → ℝ) :
    PolyFn k fun x => iteratedFDeriv ℝ k φ μ fun _ => x - μ :=
  polyFn_multilinear (iteratedFDeriv ℝ k φ μ).toMultilinearMap μ

theorem taylorPoly_poly (N : ℕ) (φ : (ι → ℝ) → ℝ) (μ : ι → ℝ) : PolyFn N (taylorPoly N φ μ) := by
  unfold taylorPoly
  exact PolyFn.sum _ fun k hk => PolyFn.const_mul ((iteratedFDeriv_poly k φ μ).mono
    (by have := Finset.mem_range.mp hk; omega)) _

theorem norm_sq_le_sum (v : ι → ℝ) : ‖v‖ ^ 2 ≤ ∑ i, v i ^ 2 := by
  have h : ‖v‖ ≤ √(∑ i, v i ^ 2) := by
    refine (pi_norm_le_iff_of_nonneg (Real.sqrt_nonneg _)).mpr fun i => ?_
    rw [Real.norm_eq_abs, ← Real.sqrt_sq_eq_abs]
    exact Real.sqrt_le_sqrt (Finset.single_le_sum (f := fun i => v i ^ 2)
      (fun i _ => sq_nonneg (v i)) (Finset.mem_univ i))
  calc ‖v‖ ^ 2 ≤ √(∑ i, v i ^ 2) ^ 2 := by gcongr
    _ = _ := Real.sq_sqrt (Finset.sum_nonneg fun i _ => sq_nonneg _)

theorem norm_four_le_sum (v : ι → ℝ) : ‖v‖ ^ 4 ≤ (∑ i, v i ^ 2) ^ 2 := by
  have h := norm_sq_le_sum v
  calc ‖v‖ ^ 4 = (‖v‖ ^ 2) ^ 2 := by ring
    _ ≤ _ := by gcongr

theorem iteratedFDeriv_diag_le {φ : (ι → ℝ) → ℝ} {k : ℕ} {y : ι → ℝ} {B : ℝ}
    (hB : ‖iteratedFDeriv ℝ k φ y‖ ≤ B) (v : ι → ℝ) :
    |iteratedFDeriv ℝ k φ y fun _ => v| ≤ B * ‖v‖ ^ k := by
  have h := (iteratedFDeriv ℝ k φ y).le_opNorm fun _ => v
  rw [Finset.prod_const, Finset.card_univ, Fintype.card_fin, Real.norm_eq_abs] at h
  refine h.trans ?_
  gcongr

theorem taylorPoly_error {N : ℕ} {φ : (ι → ℝ) → ℝ} (hφ : ContDiff ℝ (N + 1 : ℕ) φ) {B : ℝ}
    (hB : ∀ x, ‖iteratedFDeriv ℝ (N + 1) φ x‖ ≤ B) (μ x : ι → ℝ) :
    |φ x - taylorPoly N φ μ x| ≤ B / (N + 1).factorial * ‖x - μ‖ ^ (N + 1) := by
  obtain ⟨v, hv⟩ : ∃ v, v = x - μ := ⟨_, rfl⟩
  set g := fun t : ℝ => φ (μ + t • v) with hg
  have hg4 : ContDiff ℝ (N + 1 : ℕ) g :=
    hφ.comp (contDiff_const.add (contDiff_id.smul contDiff_const))
  obtain ⟨s, -, e⟩ := taylor_mean_remainder_lagrange_iteratedDeriv (f := g) (x := 1) (x₀ := 0) (n := N)
    (by norm_num) (by exact_mod_cast hg4.contDiffOn)
  have hu : UniqueDiffOn ℝ (Set.uIcc (0 : ℝ) 1) := uniqueDiffOn_uIcc (by norm_num)
  have ht : taylorWithinEval g N (Set.uIcc 0 1) 0 1 = taylorPoly N φ μ x := by
    rw [taylor_within_apply, taylorPoly]
    refine Finset.sum_congr rfl fun k hk => ?_
    have hk' : k ≤ N + 1 := by have := Finset.mem_range.mp hk; omega
    rw [iteratedDerivWithin_eq_iteratedFDerivWithin, iteratedFDerivWithin_eq_iteratedFDeriv hu
      (hg4.contDiffAt.of_le (by exact_mod_cast hk')) (by simp), ← iteratedDeriv_eq_iteratedFDeriv,
      hg, iteratedDeriv_line (N := N + 1) hφ hk', hv]
    simp
  have h1 : g 1 = φ x := by simp [hg, hv]
  have hd : iteratedDeriv (N + 1) g s = iteratedFDeriv ℝ (N + 1) φ (μ + s • v) fun _ => v :=
    iteratedDeriv_line (N := N + 1) hφ le_rfl μ v s
  rw [h1, ht, hd, sub_zero, one_pow, mul_one] at e
  rw [e, ← hv, abs_div, Nat.abs_cast, div_mul_eq_mul_div]
  have := iteratedFDeriv_diag_le (hB (μ + s • v)) v
  gcongr

/-! ### Fourth moments of the distance from the mean -/

theorem sq_entry_le {S : Matrix ι ι ℝ} (hS : S.PosSemidef) (i j : ι) :
    S i j ^ 2 ≤ S i i * S j j := by
  have h := hS.submatrix ![i, j]
  have := h.det_nonneg
  rw [det_fin_two] at this
  have hs : S j i = S i j := by
    have := hS.isHermitian.apply i j
    simpa using this
  simp only [submatrix_apply, cons_val_zero, cons_val_one, hs] at this
  nlinarith

theorem form_sq_sq {S : Matrix ι ι ℝ} (hS : S.PosSemidef) (i j : ι) :
    ∫ x, x i ^ 2 * x j ^ 2 ∂(gauss 0 S) = S i i * S j j + 2 * S i j ^ 2 := by
  have f4 := fun v : ι → ℝ => form_four hS v
  have i4 := fun v : ι → ℝ => integrable_form_pow S v 4
  set a : ι → ℝ := Pi.single i 1
  set b : ι → ℝ := Pi.single j 1
  have ea : ∀ x : ι → ℝ, a ⬝ᵥ x = x i := fun x => by simp [a]
  have eb : ∀ x : ι → ℝ, b ⬝ᵥ x = x j := fun x => by simp [b]
  have e : ∀ x : ι → ℝ, x i ^ 2 * x j ^ 2 = (1 / 12 : ℝ) * ((((a + b) ⬝ᵥ x) ^ 4 + ((a - b) ⬝ᵥ x) ^ 4)
      + (-2) * ((a ⬝ᵥ x) ^ 4 + (b ⬝ᵥ x) ^ 4)) := by
    intro x
    simp only [add_dotProduct, sub_dotProduct, ea, eb]
    ring
  simp only [e]
  have j4 : ∀ u v : ι → ℝ, Integrable (fun x : ι → ℝ => (u ⬝ᵥ x) ^ 4 + (v ⬝ᵥ x) ^ 4) (gauss 0 S) :=
    fun u v => (i4 u).add (i4 v)
  rw [integral_const_mul, integral_add (j4 _ _) ((j4 _ _).const_mul _),
    integral_add (i4 _) (i4 _), integral_const_mul, integral_add (i4 _) (i4 _), f4, f4, f4, f4]
  have hs : S j i = S i j := by
    have := hS.isHermitian.apply i j
    simpa using this
  simp only [mulVec_add, mulVec_sub, add_dotProduct, sub_dotProduct, dotProduct_add, dotProduct_sub, ea,
    eb]
  have m1 : (S *ᵥ a) i = S i i := by simp [a]
  have m2 : (S *ᵥ a) j = S j i := by simp [a]
  have m3 : (S *ᵥ b) i = S i j := by simp [b]
  have m4 : (S *ᵥ b) j = S j j := by simp [b]
  rw [m1, m2, m3, m4, hs]
  ring

theorem integrable_dist (S : Matrix ι ι ℝ) (μ : ι → ℝ) :
    Integrable (fun x : ι → ℝ => (∑ i, (x i - μ i) ^ 2) ^ 2) (gauss μ S) := by
  have := integrable_poly S μ ((∑ i, (MvPolynomial.X i - MvPolynomial.C (μ i)) ^ 2) ^ 2)
  refine this.congr (Filter.Eventually.of_forall fun x => ?_)
  simp

theorem integral_dist {S : Matrix ι ι ℝ} (hS : S.PosSemidef) (μ : ι → ℝ) :
    ∫ x, (∑ i, (x i - μ i) ^ 2) ^ 2 ∂(gauss μ S) ≤ 3 * S.trace ^ 2 := by
  have hm : Measurable fun x : ι → ℝ => (∑ i, (x i - μ i) ^ 2) ^ 2 := by fun_prop
  rw [integral_shift hS μ hm]
  have e : ∀ x : ι → ℝ, (∑ i, ((μ + x) i - μ i) ^ 2) ^ 2 = ∑ i, ∑ j, x i ^ 2 * x j ^ 2 := by
    intro x
    simp only [Pi.add_apply, add_sub_cancel_left]
    rw [sq, Finset.sum_mul_sum]
  simp only [e]
  have hi : ∀ i j, Integrable (fun x : ι → ℝ => x i ^ 2 * x j ^ 2) (gauss 0 S) := by
    intro i j
    have := integrable_poly S 0 (MvPolynomial.X i ^ 2 * MvPolynomial.X j ^ 2)
    simpa using this
  rw [integral_finsetSum _ fun i _ => integrable_finsetSum _ fun j _ => hi i j]
  simp only [integral_finsetSum _ fun j _ => hi _ j, form_sq_sq hS]
  calc _ ≤ ∑ i, ∑ j, 3 * (S i i * S j j) := by
        refine Finset.sum_le_sum fun i _ => Finset.sum_le_sum fun j _ => ?_
        have := sq_entry_le hS i j
        linarith
    _ = 3 * S.trace ^ 2 := by
        rw [trace, sq, Finset.sum_mul_sum, Finset.mul_sum]
        simp only [Finset.mul_sum, diag_apply]

theorem sum_col_sq (L : Matrix ι ι ℝ) : ∑ j, ∑ i, L i j ^ 2 = (L * Lᵀ).trace := by
  rw [trace, Finset.sum_comm]
  simp [mul_apply, sq]

/-! ### Error of the unscented expectation -/

theorem gexp_error_of_poly {S L : Matrix ι ι ℝ} (hS : S.PosSemidef) (hL : L * Lᵀ = S) (μ : ι → ℝ)
    {φ q : (ι → ℝ) → ℝ} (hm : Measurable φ) (hq : PolyFn 3 q) {K : ℝ}
    (h : ∀ x, |φ x - q x| ≤ K * (∑ i, (x i - μ i) ^ 2) ^ 2) :
    Integrable φ (gauss μ S) ∧
      |gexp μ L φ - ∫ x, φ x ∂(gauss μ S)| ≤ 6 * K * S.trace ^ 2 := by
  have hqi : Integrable q (gauss μ S) := by
    obtain ⟨p, -, e⟩ := hq
    exact (integrable_poly S μ p).congr (Filter.Eventually.of_forall fun x => (e x).symm)
  have hdi := (integrable_dist S μ).const_mul K
  have hri : Integrable (fun x => φ x - q x) (gauss μ S) :=
    hdi.mono' (hm.sub hq.measurable).aestronglyMeasurable
      (Filter.Eventually.of_forall fun x => by simpa [Real.norm_eq_abs] using h x)
  have hφi : Integrable φ (gauss μ S) := by
    have := hri.add hqi
    refine this.congr (Filter.Eventually.of_forall fun x => by simp)
  refine ⟨hφi, ?_⟩
  have h0 : φ μ = q μ := by
    have := h μ
    simp only [sub_self, ne_eq, OfNat.ofNat_ne_zero, not_false_eq_true, zero_pow, Finset.sum_const_zero,
      mul_zero] at this
    linarith [abs_nonpos_iff.mp this]
  have hK : ∀ x : ι → ℝ, 0 ≤ K * (∑ i, (x i - μ i) ^ 2) ^ 2 := fun x => (abs_nonneg _).trans (h x)
  have hI : |∫ x, (φ x - q x) ∂(gauss μ S)| ≤ K * ∫ x, (∑ i, (x i - μ i) ^ 2) ^ 2 ∂(gauss μ S) := by
    rw [← integral_const_mul, ← Real.norm_eq_abs]
    exact norm_integral_le_of_norm_le hdi (Filter.Eventually.of_forall fun x => by
      simpa [Real.norm_eq_abs] using h x)
  have hU : |gexp μ L φ - gexp μ L q| ≤ 3 * (K * ∑ j, (∑ i, L i j ^ 2) ^ 2) := by
    have e : gexp μ L φ - gexp μ L q = (1 / 6 : ℝ) * ∑ j,
        ((φ (μ + √3 • L.col j) - q (μ + √3 • L.col j))
          + (φ (μ - √3 • L.col j) - q (μ - √3 • L.col j))) := by
      have : ∀ j, (φ (μ + √3 • L.col j) - q (μ + √3 • L.col j))
          + (φ (μ - √3 • L.col j) - q (μ - √3 • L.col j))
          = (φ (μ + √3 • L.col j) + φ (μ - √3 • L.col j))
            - (q (μ + √3 • L.col j) + q (μ - √3 • L.col j)) := fun j => by ring
      simp only [gexp, h0, this, Finset.sum_sub_distrib]
      ring
    have hs3 : √3 ^ 2 = (3 : ℝ) := Real.sq_sqrt (by norm_num)
    have dp : ∀ j, (∑ i, ((μ + √3 • L.col j) i - μ i) ^ 2) ^ 2 = 9 * (∑ i, L i j ^ 2) ^ 2 := by
      intro j
      simp only [Pi.add_apply, Pi.smul_apply, col_apply, smul_eq_mul, add_sub_cancel_left, mul_pow, hs3,
        ← Finset.mul_sum]
      norm_num
    have dm : ∀ j, (∑ i, ((μ - √3 • L.col j) i - μ i) ^ 2) ^ 2 = 9 * (∑ i, L i j ^ 2) ^ 2 := by
      intro j
      simp only [Pi.sub_apply, Pi.smul_apply, col_apply, smul_eq_mul, sub_sub_cancel_left, neg_sq,
        mul_pow, hs3, ← Finset.mul_sum]
      norm_num
    rw [e, abs_mul, abs_of_pos (by norm_num : (0 : ℝ) < 1 / 6)]
    have : |∑ j, ((φ (μ + √3 • L.col j) - q (μ + √3 • L.col j))
          + (φ (μ - √3 • L.col j) - q (μ - √3 • L.col j)))|
        ≤ ∑ j, 18 * (K * (∑ i, L i j ^ 2) ^ 2) := by
      refine (Finset.abs_sum_le_sum_abs _ _).trans (Finset.sum_le_sum fun j _ => ?_)
      refine (abs_add_le _ _).trans ?_
      have a := h (μ + √3 • L.col j)
      have b := h (μ - √3 • L.col j)
      rw [dp] at a
      rw [dm] at b
      linarith
    rw [← Finset.mul_sum, ← Finset.mul_sum] at this
    linarith
  rw [gexp_cubic hS hL μ hq] at hU
  rw [integral_sub hφi hqi] at hI
  have hD := integral_dist hS μ
  by_cases hK0 : 0 ≤ K
  · have hC : ∑ j, (∑ i, L i j ^ 2) ^ 2 ≤ S.trace ^ 2 := by
      rw [← hL, ← sum_col_sq]
      exact Finset.sum_sq_le_sq_sum_of_nonneg fun j _ => Finset.sum_nonneg fun i _ => sq_nonneg _
    have a1 := mul_le_mul_of_nonneg_left hC hK0
    have a2 := mul_le_mul_of_nonneg_left hD hK0
    rw [abs_le] at hU hI ⊢
    constructor <;> linarith
  · have hz : ∀ x : ι → ℝ, (∑ i, (x i - μ i) ^ 2) ^ 2 = 0 := by
      intro x
      have a := hK x
      have b := sq_nonneg (∑ i, (x i - μ i) ^ 2)
      nlinarith
    have hc : IsEmpty ι := by
      by_contra hne
      rw [not_isEmpty_iff] at hne
      obtain ⟨i⟩ := hne
      have := hz (μ + Pi.single i 1)
      rw [sq_eq_zero_iff, Finset.sum_eq_zero_iff_of_nonneg fun _ _ => sq_nonneg _] at this
      have := this i (Finset.mem_univ i)
      simp at this
    have ht : S.trace = 0 := by simp [trace]
    have e1 : ∑ j, (∑ i, L i j ^ 2) ^ 2 = 0 := by simp
    rw [e1] at hU
    simp only [hz, integral_zero] at hI
    rw [ht]
    rw [abs_le] at hU hI ⊢
    constructor <;> linarith

theorem gexp_error {S L : Matrix ι ι ℝ} (hS : S.PosSemidef) (hL : L * Lᵀ = S) (μ : ι → ℝ)
    {φ : (ι → ℝ) → ℝ} {B : ℝ} (hs : Smooth4 φ B) :
    Integrable φ (gauss μ S) ∧
      |gexp μ L φ - ∫ x, φ x ∂(gauss μ S)| ≤ B / 4 * S.trace ^ 2 := by
  obtain ⟨hφ, hB⟩ := hs
  have h0 : 0 ≤ B := (norm_nonneg _).trans (hB μ)
  obtain ⟨h1, h2⟩ := gexp_error_of_poly (K := B / 24) hS hL μ hφ.continuous.measurable
    (taylorPoly_poly 3 φ μ) fun x => by
      refine (taylorPoly_error (N := 3) hφ hB μ x).trans ?_
      have := norm_four_le_sum (x - μ)
      have e : ((3 + 1).factorial : ℝ) = 24 := by norm_num [Nat.factorial]
      rw [e]
      simp only [Pi.sub_apply] at this
      gcongr
  exact ⟨h1, h2.trans (le_of_eq (by ring))⟩

/-! ### Covariances -/

theorem integral_dist_two {S : Matrix ι ι ℝ} (hS : S.PosSemidef) (μ : ι → ℝ) :
    ∫ x, (∑ i, (x i - μ i) ^ 2) ∂(gauss μ S) = S.trace := by
  have hm : Measurable fun x : ι → ℝ => ∑ i, (x i - μ i) ^ 2 := by fun_prop
  rw [integral_shift hS μ hm]
  simp only [Pi.add_apply, add_sub_cancel_left]
  have hi : ∀ i, Integrable (fun x : ι → ℝ => x i ^ 2) (gauss 0 S) := by
    intro i
    have := integrable_poly S 0 (MvPolynomial.X i ^ 2)
    simpa using this
  rw [integral_finsetSum _ fun i _ => hi i, trace]
  refine Finset.sum_congr rfl fun i _ => ?_
  have := form_sq hS (Pi.single i 1)
  simpa using this

theorem integrable_dist_two (S : Matrix ι ι ℝ) (μ : ι → ℝ) :
    Integrable (fun x : ι → ℝ => ∑ i, (x i - μ i) ^ 2) (gauss μ S) := by
  have := integrable_poly S μ (∑ i, (MvPolynomial.X i - MvPolynomial.C (μ i)) ^ 2)
  refine this.congr (Filter.Eventually.of_forall fun x => ?_)
  simp

/-- Weighted mean of a function that is within `C‖x-μ‖²/2` of an affine one. -/
theorem gexp_near {S L : Matrix ι ι ℝ} (hS : S.PosSemidef) (hL : L * Lᵀ = S) (μ : ι → ℝ)
    {φ q : (ι → ℝ) → ℝ} (hm : Measurable φ) (hq : PolyFn 1 q)
    (hodd : ∀ v, q (μ + v) + q (μ - v) = 2 * q μ) {K : ℝ}
    (h : ∀ x, |φ x - q x| ≤ K * ∑ i, (x i - μ i) ^ 2) :
    Integrable φ (gauss μ S) ∧ |gexp μ L φ - φ μ| ≤ K * S.trace ∧
      |∫ x, φ x ∂(gauss μ S) - φ μ| ≤ K * S.trace := by
  have hqi : Integrable q (gauss μ S) := by
    obtain ⟨p, -, e⟩ := hq
    exact (integrable_poly S μ p).congr (Filter.Eventually.of_forall fun x => (e x).symm)
  have hdi := (integrable_dist_two S μ).const_mul K
  have hri : Integrable (fun x => φ x - q x) (gauss μ S) :=
    hdi.mono' (hm.sub hq.measurable).aestronglyMeasurable
      (Filter.Eventually.of_forall fun x => by simpa [Real.norm_eq_abs] using h x)
  have hφi : Integrable φ (gauss μ S) := by
    have := hri.add hqi
    refine this.congr (Filter.Eventually.of_forall fun x => by simp)
  have h0 : φ μ = q μ := by
    have := h μ
    simp only [sub_self, ne_eq, OfNat.ofNat_ne_zero, not_false_eq_true, zero_pow, Finset.sum_const_zero,
      mul_zero] at this
    linarith [abs_nonpos_iff.mp this]
  have hgq : gexp μ L q = q μ := by
    simp only [gexp, hodd, Finset.sum_const, Finset.card_univ, nsmul_eq_mul]
    ring
  have hqμ : ∫ x, q x ∂(gauss μ S) = q μ := by
    rw [← gexp_cubic hS hL μ (hq.mono (by norm_num)), hgq]
  refine ⟨hφi, ?_, ?_⟩
  · have e : gexp μ L φ - φ μ = (1 / 6 : ℝ) * ∑ j,
        ((φ (μ + √3 • L.col j) - q (μ + √3 • L.col j))
          + (φ (μ - √3 • L.col j) - q (μ - √3 • L.col j))) := by
      have : ∀ j, (φ (μ + √3 • L.col j) - q (μ + √3 • L.col j))
          + (φ (μ - √3 • L.col j) - q (μ - √3 • L.col j))
          = (φ (μ + √3 • L.col j) + φ (μ - √3 • L.col j))
            - (q (μ + √3 • L.col j) + q (μ - √3 • L.col j)) := fun j => by ring
      rw [h0, ← hgq]
      simp only [gexp, h0, this, Finset.sum_sub_distrib]
      ring
    have hs3 : √3 ^ 2 = (3 : ℝ) := Real.sq_sqrt (by norm_num)
    have dp : ∀ j, (∑ i, ((μ + √3 • L.col j) i - μ i) ^ 2) = 3 * (∑ i, L i j ^ 2) := by
      intro j
      simp only [Pi.add_apply, Pi.smul_apply, col_apply, smul_eq_mul, add_sub_cancel_left, mul_pow, hs3,
        ← Finset.mul_sum]
    have dm : ∀ j, (∑ i, ((μ - √3 • L.col j) i - μ i) ^ 2) = 3 * (∑ i, L i j ^ 2) := by
      intro j
      simp only [Pi.sub_apply, Pi.smul_apply, col_apply, smul_eq_mul, sub_sub_cancel_left, neg_sq,
        mul_pow, hs3, ← Finset.mul_sum]
    rw [e, abs_mul, abs_of_pos (by norm_num : (0 : ℝ) < 1 / 6)]
    have : |∑ j, ((φ (μ + √3 • L.col j) - q (μ + √3 • L.col j))
          + (φ (μ - √3 • L.col j) - q (μ - √3 • L.col j)))|
        ≤ ∑ j, 6 * (K * (∑ i, L i j ^ 2)) := by
      refine (Finset.abs_sum_le_sum_abs _ _).trans (Finset.sum_le_sum fun j _ => ?_)
      refine (abs_add_le _ _).trans ?_
      have a := h (μ + √3 • L.col j)
      have b := h (μ - √3 • L.col j)
      rw [dp] at a
      rw [dm] at b
      linarith
    rw [← Finset.mul_sum, ← Finset.mul_sum, sum_col_sq, hL] at this
    linarith
  · rw [h0, ← hqμ, ← integral_sub hφi hqi, ← integral_dist_two hS μ, ← integral_const_mul,
      ← Real.norm_eq_abs]
    exact norm_integral_le_of_norm_le hdi (Filter.Eventually.of_forall fun x => by
      simpa [Real.norm_eq_abs] using h x)

theorem gexp_cov (μ : ι → ℝ) (L : Matrix ι ι ℝ) (φ ψ : (ι → ℝ) → ℝ) (a b : ℝ) :
    gexp μ L (fun x => (φ x - gexp μ L φ) * (ψ x - gexp μ L ψ))
      = gexp μ L (fun x => (φ x - a) * (ψ x - b)) - (gexp μ L φ - a) * (gexp μ L ψ - b) := by
  obtain ⟨A, hA⟩ : ∃ A, A = gexp μ L φ := ⟨_, rfl⟩
  obtain ⟨D, hD⟩ : ∃ D, D = gexp μ L ψ := ⟨_, rfl⟩
  rw [← hA, ← hD]
  have lin : ∀ c d e f : ℝ, gexp μ L (fun x => c * (φ x * ψ x) + d * φ x + e * ψ x + f)
      = c * gexp μ L (fun x => φ x * ψ x) + d * gexp μ L φ + e * gexp μ L ψ + f := by
    intro c d e f
    have : ∀ j, c * (φ (μ + √3 • L.col j) * ψ (μ + √3 • L.col j)) + d * φ (μ + √3 • L.col j)
          + e * ψ (μ + √3 • L.col j) + f
        + (c * (φ (μ - √3 • L.col j) * ψ (μ - √3 • L.col j)) + d * φ (μ - √3 • L.col j)
          + e * ψ (μ - √3 • L.col j) + f)
        = c * (φ (μ + √3 • L.col j) * ψ (μ + √3 • L.col j) + φ (μ - √3 • L.col j)
            * ψ (μ - √3 • L.col j))
          + d * (φ (μ + √3 • L.col j) + φ (μ - √3 • L.col j))
          + e * (ψ (μ + √3 • L.col j) + ψ (μ - √3 • L.col j)) + 2 * f := fun j => by ring
    simp only [gexp, this, Finset.sum_add_distrib, ← Finset.mul_sum, Finset.sum_const,
      Finset.card_univ, nsmul_eq_mul]
    ring
  have e1 := lin 1 (-D) (-A) (A * D)
  have e2 := lin 1 (-b) (-a) (a * b)
  rw [show (fun x => (φ x - A) * (ψ x - D))
      = fun x => 1 * (φ x * ψ x) + -D * φ x + -A * ψ x + A * D by funext x; ring, e1,
    show (fun x => (φ x - a) * (ψ x - b))
      = fun x => 1 * (φ x * ψ x) + -b * φ x + -a * ψ x + a * b by funext x; ring, e2, ← hA, ← hD]
  ring

theorem integral_cov {Ω : Type*} [MeasurableSpace Ω] {ν : Measure Ω} [IsProbabilityMeasure ν]
    {φ ψ : Ω → ℝ} (hφ : Integrable φ ν) (hψ : Integrable ψ ν) (a b : ℝ)
    (h : Integrable (fun x => (φ x - a) * (ψ x - b)) ν) :
    ∫ x, (φ x - ∫ y, φ y ∂ν) * (ψ x - ∫ y, ψ y ∂ν) ∂ν
      = ∫ x, (φ x - a) * (ψ x - b) ∂ν - (∫ x, φ x ∂ν - a) * (∫ x, ψ x ∂ν - b) := by
  obtain ⟨A, hA⟩ : ∃ A, A = ∫ y, φ y ∂ν := ⟨_, rfl⟩
  obtain ⟨D, hD⟩ : ∃ D, D = ∫ y, ψ y ∂ν := ⟨_, rfl⟩
  rw [← hA, ← hD]
  have e : ∀ x, (φ x - A) * (ψ x - D) = (φ x - a) * (ψ x - b)
      + ((b - D) * φ x + ((a - A) * ψ x + (A * D - a * b))) := fun x => by ring
  simp only [e]
  have i1 := hφ.const_mul (b - D)
  have i2 := hψ.const_mul (a - A)
  have i3 : Integrable (fun _ : Ω => A * D - a * b) ν := integrable_const _
  have i4 : Integrable (fun x => (a - A) * ψ x + (A * D - a * b)) ν := i2.add i3
  have i5 : Integrable (fun x => (b - D) * φ x + ((a - A) * ψ x + (A * D - a * b))) ν := i1.add i4
  rw [integral_add h i5, integral_add i1 i4, integral_add i2 i3, integral_const_mul,
    integral_const_mul, ← hA, ← hD]
  simp
  ring

theorem taylorPoly_one (φ : (ι → ℝ) → ℝ) (μ x : ι → ℝ) :
    taylorPoly 1 φ μ x = φ μ + fderiv ℝ φ μ (x - μ) := by
  simp [taylorPoly, Finset.sum_range_succ]

theorem taylorPoly_two (φ : (ι → ℝ) → ℝ) (μ x : ι → ℝ) :
    taylorPoly 2 φ μ x = φ μ + fderiv ℝ φ μ (x - μ)
      + (1 / 2) * iteratedFDeriv ℝ 2 φ μ (fun _ => x - μ) := by
  rw [← taylorPoly_one]
  simp only [taylorPoly, Finset.sum_range_succ _ (1 + 1)]
  norm_num

theorem Smooth23.near {φ : (ι → ℝ) → ℝ} {C D : ℝ} (h : Smooth23 φ C D) {S L : Matrix ι ι ℝ}
    (hS : S.PosSemidef) (hL : L * Lᵀ = S) (μ : ι → ℝ) :
    Integrable φ (gauss μ S) ∧ |gexp μ L φ - φ μ| ≤ C / 2 * S.trace ∧
      |∫ x, φ x ∂(gauss μ S) - φ μ| ≤ C / 2 * S.trace := by
  have hC : 0 ≤ C := (norm_nonneg _).trans (h.second μ)
  refine gexp_near hS hL μ h.contDiff.continuous.measurable (taylorPoly_poly 1 φ μ) (fun v => ?_)
    fun x => ?_
  · simp only [taylorPoly_one, add_sub_cancel_left, sub_sub_cancel_left, map_neg, sub_self, map_zero]
    ring
  · refine (taylorPoly_error (N := 1) (h.contDiff.of_le (by norm_num)) h.second μ x).trans ?_
    have := norm_sq_le_sum (x - μ)
    simp only [Pi.sub_apply] at this
    have e : ((1 + 1).factorial : ℝ) = 2 := by norm_num [Nat.factorial]
    rw [e]
    gcongr

theorem abs_mul_le_mul {a b c d : ℝ} (h : |a| ≤ c) (h' : |b| ≤ d) : |a * b| ≤ c * d := by
  rw [abs_mul]
  exact mul_le_mul h h' (abs_nonneg _) ((abs_nonneg _).trans h)

/-- Error of the unscented covariance. -/
theorem gexp_cov_error {S L : Matrix ι ι ℝ} (hS : S.PosSemidef) (hL : L * Lᵀ = S) (μ : ι → ℝ)
    {φ ψ : (ι → ℝ) → ℝ} {C D C' D' : ℝ} (hφ : Smooth23 φ C D) (hψ : Smooth23 ψ C' D') :
    |gexp μ L (fun x => (φ x - gexp μ L φ) * (ψ x - gexp μ L ψ))
      - covOf (gauss μ S) φ ψ|
      ≤ (‖fderiv ℝ φ μ‖ * D' + ‖fderiv ℝ ψ μ‖ * D + 2 * (C * C')) * S.trace ^ 2 := by
  obtain ⟨i1, u1, n1⟩ := hφ.near hS hL μ
  obtain ⟨i2, u2, n2⟩ := hψ.near hS hL μ
  set A := fderiv ℝ φ μ with hA
  set A' := fderiv ℝ ψ μ with hA'
  set H := iteratedFDeriv ℝ 2 φ μ with hH
  set H' := iteratedFDeriv ℝ 2 ψ μ with hH'
  set q : (ι → ℝ) → ℝ := fun x => A (x - μ) * A' (x - μ)
    + ((1 / 2) * (A (x - μ) * H' fun _ => x - μ) + (1 / 2) * ((H fun _ => x - μ) * A' (x - μ))) with hq
  have pA : ∀ χ : (ι → ℝ) → ℝ, PolyFn 1 fun x => fderiv ℝ χ μ (x - μ) := by
    intro χ
    have := iteratedFDeriv_poly 1 χ μ
    simpa using this
  have pq : PolyFn 3 q := by
    have h1 : PolyFn 2 fun x => A (x - μ) * A' (x - μ) := (pA φ).mul (pA ψ)
    have h2 : PolyFn 3 fun x => A (x - μ) * H' fun _ => x - μ := (pA φ).mul (iteratedFDeriv_poly 2 ψ μ)
    have h3 : PolyFn 3 fun x => (H fun _ => x - μ) * A' (x - μ) :=
      (iteratedFDeriv_poly 2 φ μ).mul (pA ψ)
    exact (h1.mono (by norm_num)).add ((h2.const_mul _).add (h3.const_mul _))
  have hb : ∀ x, |(φ x - φ μ) * (ψ x - ψ μ) - q x|
      ≤ ((‖A‖ * D' + ‖A'‖ * D) / 6 + C * C' / 4) * (∑ i, (x i - μ i) ^ 2) ^ 2 := by
    intro x
    obtain ⟨v, hv⟩ : ∃ v, v = x - μ := ⟨_, rfl⟩
    have a1 := taylorPoly_error (N := 1) (hφ.contDiff.of_le (by norm_num)) hφ.second μ x
    have a2 := taylorPoly_error (N := 2) hφ.contDiff hφ.third μ x
    have b1 := taylorPoly_error (N := 1) (hψ.contDiff.of_le (by norm_num)) hψ.second μ x
    have b2 := taylorPoly_error (N := 2) hψ.contDiff hψ.third μ x
    rw [taylorPoly_one, ← hA, ← hv] at a1
    rw [taylorPoly_one, ← hA', ← hv] at b1
    rw [taylorPoly_two, ← hA, ← hH, ← hv] at a2
    rw [taylorPoly_two, ← hA', ← hH', ← hv] at b2
    have e2 : ((1 + 1).factorial : ℝ) = 2 := by norm_num [Nat.factorial]
    have e6 : ((2 + 1).factorial : ℝ) = 6 := by norm_num [Nat.factorial]
    rw [e2] at a1 b1
    rw [e6] at a2 b2
    have n1 : |A v| ≤ ‖A‖ * ‖v‖ := A.le_opNorm v
    have n2 : |A' v| ≤ ‖A'‖ * ‖v‖ := A'.le_opNorm v
    have m1 := abs_mul_le_mul n1 b2
    have m2 := abs_mul_le_mul n2 a2
    have m3 := abs_mul_le_mul a1 b1
    have hk : 0 ≤ (‖A‖ * D' + ‖A'‖ * D) / 6 + C * C' / 4 := by
      have c1 : 0 ≤ C := (norm_nonneg _).trans (hφ.second μ)
      have c2 : 0 ≤ C' := (norm_nonneg _).trans (hψ.second μ)
      have c3 : 0 ≤ D := (norm_nonneg _).trans (hφ.third μ)
      have c4 : 0 ≤ D' := (norm_nonneg _).trans (hψ.third μ)
      positivity
    have hn := mul_le_mul_of_nonneg_left (norm_four_le_sum v) hk
    have hvi : ∀ i, x i - μ i = v i := fun i => by rw [hv]; rfl
    simp only [hq, ← hv, hvi]
    refine le_trans ?_ hn
    rw [show (φ x - φ μ) * (ψ x - ψ μ) - (A v * A' v + ((1 / 2) * (A v * H' fun _ => v)
        + (1 / 2) * ((H fun _ => v) * A' v)))
      = A v * (ψ x - (ψ μ + A' v + (1 / 2) * H' fun _ => v))
        + A' v * (φ x - (φ μ + A v + (1 / 2) * H fun _ => v))
        + (φ x - (φ μ + A v)) * (ψ x - (ψ μ + A' v)) by ring]
    refine (abs_add_three _ _ _).trans ?_
    calc _ ≤ ‖A‖ * ‖v‖ * (D' / 6 * ‖v‖ ^ (2 + 1)) + ‖A'‖ * ‖v‖ * (D / 6 * ‖v‖ ^ (2 + 1))
          + C / 2 * ‖v‖ ^ (1 + 1) * (C' / 2 * ‖v‖ ^ (1 + 1)) := by gcongr
      _ = _ := by ring
  have hmeas : Measurable fun x => (φ x - φ μ) * (ψ x - ψ μ) :=
    ((hφ.contDiff.continuous.sub continuous_const).mul
      (hψ.contDiff.continuous.sub continuous_const)).measurable
  obtain ⟨i3, main⟩ := gexp_error_of_poly hS hL μ hmeas pq hb
  rw [covOf, gexp_cov μ L φ ψ (φ μ) (ψ μ), integral_cov i1 i2 (φ μ) (ψ μ) i3]
  have p1 := abs_mul_le_mul u1 u2
  have p2 := abs_mul_le_mul n1 n2
  rw [abs_le] at p1 p2 main ⊢
  constructor <;> nlinarith

/-! ### Coordinates and moments -/

theorem smooth23_coord (i : ι) : Smooth23 (fun x : ι → ℝ => x i) 0 0 := by
  have hc : ContDiff ℝ 3 fun x : ι → ℝ => x i := contDiff_apply ℝ ℝ i
  have h2 : ∀ k x, 2 ≤ k → iteratedFDeriv ℝ k (fun x : ι → ℝ => x i) x = 0 := by
    intro k x hk
    obtain ⟨k, rfl⟩ : ∃ j, k = j + 2 := ⟨k - 2, by omega⟩
    have e : fderiv ℝ (fun x : ι → ℝ => x i)
        = fun _ => (ContinuousLinearMap.proj i : (ι → ℝ) →L[ℝ] ℝ) := by
      funext x
      exact (ContinuousLinearMap.proj (R := ℝ) (φ := fun _ : ι => ℝ) i).fderiv
    ext v
    rw [iteratedFDeriv_succ_apply_right, e, iteratedFDeriv_const_of_ne (by omega)]
    simp
  exact ⟨hc, fun x => by rw [h2 2 x le_rfl, norm_zero], fun x => by rw [h2 3 x (by omega), norm_zero]⟩

theorem norm_fderiv_coord_le (i : ι) (μ : ι → ℝ) : ‖fderiv ℝ (fun x : ι → ℝ => x i) μ‖ ≤ 1 := by
  have e : fderiv ℝ (fun x : ι → ℝ => x i) μ
      = (ContinuousLinearMap.proj i : (ι → ℝ) →L[ℝ] ℝ) :=
    (ContinuousLinearMap.proj (R := ℝ) (φ := fun _ : ι => ℝ) i).fderiv
  rw [e]
  refine ContinuousLinearMap.opNorm_le_bound _ zero_le_one fun v => ?_
  rw [one_mul]
  exact norm_le_pi_norm v i

theorem gexp_coord (μ : ι → ℝ) (L : Matrix ι ι ℝ) (i : ι) : gexp μ L (fun x => x i) = μ i := by
  simp only [gexp, Pi.add_apply, Pi.sub_apply]
  have : ∀ j, μ i + (√3 • L.col j) i + (μ i - (√3 • L.col j) i) = 2 * μ i := fun j => by ring
  simp only [this, Finset.sum_const, Finset.card_univ, nsmul_eq_mul]
  ring

theorem gexp_cross_error {S L : Matrix ι ι ℝ} (hS : S.PosSemidef) (hL : L * Lᵀ = S) (μ : ι → ℝ)
    {ψ : (ι → ℝ) → ℝ} {C D : ℝ} (hψ : Smooth23 ψ C D) (i : ι) :
    |gexp μ L (fun x => (x i - μ i) * (ψ x - gexp μ L ψ))
      - covOf (gauss μ S) (fun x => x i) ψ| ≤ D * S.trace ^ 2 := by
  have h := gexp_cov_error hS hL μ (smooth23_coord i) hψ
  rw [gexp_coord] at h
  refine h.trans ?_
  have h1 := norm_fderiv_coord_le i μ
  have hD : 0 ≤ D := (norm_nonneg _).trans (hψ.third μ)
  have := mul_le_mul_of_nonneg_right h1 hD
  simp only [mul_zero, zero_mul, add_zero]
  gcongr
  linarith

variable {n m : ℕ}

theorem uexp_applyR {a b : ℕ} (μ : Vec n) (L : Mat n n) (f : Vec n → Mat a b) (i : Fin a) (j : Fin b) :
    uexp μ L f i j = gexp μ L (fun x => f x i j) := by
  simp [uexp, gexp, Matrix.sum_apply]

theorem nearMoments {g : Vec n → Vec m} {M : Moments n} {L : Mat n n} (hL : IsCholesky M.cov L)
    (R : Mat m m) {B C D : Fin m → ℝ} (h4 : ∀ i, Smooth4 (fun x => g x i) (B i))
    (h23 : ∀ i, Smooth23 (fun x => g x i) (C i) (D i)) {y : Vec m} (hy : y = uexp M.mean L g) :
    NearMoments g R M B C D y (uexp M.mean L (fun x => vecMulVec (g x - y) (g x - y)) + R)
      (uexp M.mean L (fun x => vecMulVec (x - M.mean) (g x - y))) := by
  have hP := hL.posDef.posSemidef
  have hM := hL.mul_transpose
  have hyi : ∀ i, y i = gexp M.mean L fun x => g x i := fun i => by rw [hy, uexp_apply]
  refine ⟨fun i => ?_, fun i j => ?_, fun i j => ?_⟩
  · rw [hyi]
    exact (gexp_error hP hM _ (h4 i)).2
  · rw [Matrix.add_apply, uexp_apply₂, add_sub_add_right_eq_sub]
    have := gexp_cov_error hP hM M.mean (h23 i) (h23 j)
    rw [← hyi, ← hyi] at this
    exact this
  · rw [uexp_applyR]
    have := gexp_cross_error hP hM M.mean (h23 j) i
    rw [← hyi] at this
    exact this

end Verif
