import Verif.Proofs.UnscentedExact
import Verif.Props.UnscentedTransform

/-!
# C57: which expectations the unscented filters compute exactly

Predictions are observable as the rows of `filter` at missing observations, and as results of
`filter_update` without an observation.
-/

open MeasureTheory Matrix

namespace Verif

variable {n m : ℕ}

/-- **C57.** If the transition function is a polynomial of degree at most three, the predicted mean is
the exact expectation, given that the state has the Gaussian law reported for the step before. -/
theorem C57_cubic_mean {p : UParams n m} (hS : p.S0ᵀ = p.S0) (hQ : p.Qᵀ = p.Q) (hR : p.Rᵀ = p.R)
    {os : List (Obs m)} {l : List (Moments n)} (h : aukfFilter p os = .ok l) {t : ℕ}
    (ht : t + 1 < os.length) (ht' : t + 1 < l.length) (ho : (os[t + 1]).missing)
    {f : Vec n → Vec n} (hf : p.f.at t = .ok f) (i : Fin n) (hi : PolyFn 3 fun x => f x i) :
    (l[t + 1]).mean i = ∫ x, f x i ∂(gauss (l[t]).mean (l[t]).cov) := by
  obtain ⟨-, -, h3⟩ := (C53_additive_filter hS hQ hR).mp h
  obtain ⟨f', g, hf', -, P, Γ, ⟨L, hL, hP, -⟩, L₁, -, y, -, hc⟩ := h3 t ht ht'
  rw [hf] at hf'
  cases hf'
  rw [hc.1 ho, hP, uexp_apply]
  exact gexp_cubic hL.posDef.posSemidef hL.mul_transpose _ hi

/-- **C57.** For degree at most two no Gaussian law is needed: the predicted mean is the expectation
under every law with the mean and covariance reported for the step before. -/
theorem C57_quadratic_mean {p : UParams n m} (hS : p.S0ᵀ = p.S0) (hQ : p.Qᵀ = p.Q)
    (hR : p.Rᵀ = p.R) {os : List (Obs m)} {l : List (Moments n)} (h : aukfFilter p os = .ok l)
    {t : ℕ} (ht : t + 1 < os.length) (ht' : t + 1 < l.length) (ho : (os[t + 1]).missing)
    {f : Vec n → Vec n} (hf : p.f.at t = .ok f) (i : Fin n) (hi : PolyFn 2 fun x => f x i)
    {Ω : Type*} [MeasurableSpace Ω] {ν : Measure Ω} [IsProbabilityMeasure ν] {Y : Ω → Vec n}
    (hY : HasMoments ν Y (l[t]).mean (l[t]).cov) :
    (l[t + 1]).mean i = ∫ ω, f (Y ω) i ∂ν := by
  obtain ⟨-, -, h3⟩ := (C53_additive_filter hS hQ hR).mp h
  obtain ⟨f', g, hf', -, P, Γ, ⟨L, hL, hP, -⟩, L₁, -, y, -, hc⟩ := h3 t ht ht'
  rw [hf] at hf'
  cases hf'
  rw [hc.1 ho, hP, uexp_apply]
  exact gexp_quadratic hL.posDef.posSemidef hL.mul_transpose hY hi

/-- **C57.** With one state dimension: the mean is exact for polynomials of degree at most five, and
the covariance for polynomials of degree at most two. -/
theorem C57_one_dimension {p : UParams 1 m} (hS : p.S0ᵀ = p.S0) (hQ : p.Qᵀ = p.Q)
    (hR : p.Rᵀ = p.R) {os : List (Obs m)} {l : List (Moments 1)} (h : aukfFilter p os = .ok l)
    {t : ℕ} (ht : t + 1 < os.length) (ht' : t + 1 < l.length) (ho : (os[t + 1]).missing)
    {f : Vec 1 → Vec 1} (hf : p.f.at t = .ok f) :
    ((PolyFn 5 fun x => f x 0) →
      (l[t + 1]).mean 0 = ∫ x, f x 0 ∂(gauss (l[t]).mean (l[t]).cov)) ∧
    ((PolyFn 2 fun x => f x 0) →
      (l[t + 1]).cov 0 0 = ∫ x, (f x 0 - ∫ y, f y 0 ∂(gauss (l[t]).mean (l[t]).cov)) ^ 2
        ∂(gauss (l[t]).mean (l[t]).cov) + p.Q 0 0) := by
  obtain ⟨-, -, h3⟩ := (C53_additive_filter hS hQ hR).mp h
  obtain ⟨f', g, hf', -, P, Γ, ⟨L, hL, hP, hP', -⟩, L₁, -, y, -, hc⟩ := h3 t ht ht'
  rw [hf] at hf'
  cases hf'
  have key : (PolyFn 5 fun x => f x 0) →
      P.mean 0 = ∫ x, f x 0 ∂(gauss (l[t]).mean (l[t]).cov) := by
    intro hi
    rw [hP, uexp_apply]
    exact gexp_quintic hL.posDef.posSemidef hL.mul_transpose _ hi
  rw [hc.1 ho]
  refine ⟨key, fun hi => ?_⟩
  obtain ⟨q, hq, e⟩ := hi
  rw [← key ⟨q, hq.trans (by norm_num), e⟩, hP', Matrix.add_apply, uexp_apply₂]
  congr 1
  rw [show (fun x => vecMulVec (f x - P.mean) (f x - P.mean) 0 0)
    = fun x => (f x 0 - P.mean 0) ^ 2 by funext x; simp [vecMulVec_apply, sq]]
  refine gexp_quintic hL.posDef.posSemidef hL.mul_transpose _
    ⟨(q - MvPolynomial.C (P.mean 0)) ^ 2, ?_, fun x => by simp [e]⟩
  refine (MvPolynomial.totalDegree_pow _ _).trans ?_
  have := MvPolynomial.totalDegree_sub_C_le q (P.mean 0)
  omega

/-- **C57.** General noise: if the transition function is a polynomial of degree at most three in state
and noise together, the predicted mean is the exact expectation over independent Gaussian state and
noise. -/
theorem C57_general_mean {p : GParams n m} (hS : p.S0ᵀ = p.S0) (hQ : p.Qᵀ = p.Q) (hR : p.Rᵀ = p.R)
    {os : List (Obs m)} {l : List (Moments n)} (h : ukfFilter p os = .ok l) {t : ℕ}
    (ht : t + 1 < os.length) (ht' : t + 1 < l.length) (ho : (os[t + 1]).missing)
    {f : Vec n → Vec n → Vec n} (hf : p.f.at t = .ok f) (i : Fin n)
    (hi : PolyFn 3 fun z : Fin n ⊕ Fin n → ℝ =>
      f (fun a => z (.inl a)) (fun a => z (.inr a)) i) :
    (l[t + 1]).mean i = ∫ xw : Vec n × Vec n, f xw.1 xw.2 i
      ∂((gauss (l[t]).mean (l[t]).cov).prod (gauss 0 p.Q)) := by
  obtain ⟨-, -, h3⟩ := (C53_filter hS hQ hR).mp h
  obtain ⟨f', g, hf', -, L, LQ, LR, hL, hLQ, -, x, y, hx, -, hc⟩ := h3 t ht ht'
  rw [hf] at hf'
  cases hf'
  have hP := hL.posDef.posSemidef
  have hQ' := hLQ.posDef.posSemidef
  rw [hc.1 ho]
  show x i = _
  rw [hx, uexp₃_forget, uexp₂_apply,
    gexp_cubic (S := fromBlocks (l[t]).cov 0 0 p.Q) ?_ ?_ _ hi,
    integral_gauss_prod hP hQ' _ _ hi.measurable]
  · rfl
  · rw [← gauss_blocks hP hQ']
    exact (posSemidef_conj hP _).add (posSemidef_conj hQ' _)
  · rw [fromBlocks_transpose, fromBlocks_multiply]
    simp [hL.mul_transpose, hLQ.mul_transpose]

/-- **C57.** An observation that equals its exact expectation leaves the mean as it is, if the
observation function is a polynomial of degree at most three. -/
theorem C57_expected_observation {p : UParams n m} (hS : p.S0ᵀ = p.S0) (hQ : p.Qᵀ = p.Q)
    (hR : p.Rᵀ = p.R) {os : List (Obs m)} {l : List (Moments n)} (h : aukfFilter p os = .ok l)
    (h0 : 0 < os.length) (h0' : 0 < l.length) {g : Vec n → Vec m} (hg : p.g.at 0 = .ok g)
    (hi : ∀ i, PolyFn 3 fun x => g x i)
    (ho : ∀ i, (os[0]).val i = ∫ x, g x i ∂(gauss p.mu0 p.S0)) :
    (l[0]).mean = p.mu0 := by
  obtain ⟨-, h2, -⟩ := (C53_additive_filter hS hQ hR).mp h
  obtain ⟨g', hg', L, hL, y, hy, hc⟩ := h2 h0 h0'
  rw [hg] at hg'
  cases hg'
  by_cases hm : (os[0]).missing
  · rw [hc.1 hm]
  · obtain ⟨S', -, e, -⟩ := hc.2 hm
    have : (os[0]).val - y = 0 := by
      funext i
      rw [Pi.sub_apply, ho i, hy, uexp_apply]
      show _ - gexp p.mu0 L _ = 0
      rw [gexp_cubic (S := p.S0) hL.posDef.posSemidef hL.mul_transpose _ (hi i), sub_self]
    rw [e, this, mulVec_zero, add_zero]

/-- A polynomial of degree four of two variables. -/
def quartic (x : Vec 2) : Vec 2 := ![x 0 ^ 2 * x 1 ^ 2, x 1]

theorem quartic_integral : ∫ x, quartic x 0 ∂(gauss (0 : Vec 2) 1) = 1 := by
  have f4 := fun v : Vec 2 => form_four (S := (1 : Mat 2 2)) PosSemidef.one v
  have i4 := fun v : Vec 2 => integrable_form_pow (1 : Mat 2 2) v 4
  have e : ∀ x : Vec 2, quartic x 0 = (1 / 12 : ℝ) * (((![1, 1] ⬝ᵥ x) ^ 4 + (![1, -1] ⬝ᵥ x) ^ 4)
      + (-2) * ((![1, 0] ⬝ᵥ x) ^ 4 + (![0, 1] ⬝ᵥ x) ^ 4)) := by
    intro x
    simp only [quartic, cons_val_zero, dotProduct, Fin.sum_univ_two, cons_val_one]
    ring
  simp only [e]
  rw [integral_const_mul, integral_add ((i4 _).fun_add (i4 _)) (((i4 _).fun_add (i4 _)).const_mul _),
    integral_const_mul]
  rw [integral_add (i4 _) (i4 _), integral_add (i4 _) (i4 _), f4, f4, f4, f4]
  simp only [one_mulVec, dotProduct, Fin.sum_univ_two, cons_val_zero, cons_val_one]
  norm_num

/-- **C57.** Degree three is the limit from two dimensions on: for a polynomial of degree four the
filter predicts 0 where the exact expectation is 1. -/
theorem C57_fails_for_degree_four (g : Vec 2 → Vec m) (o o' : Obs m) (ho : o.missing)
    (ho' : o'.missing) :
    (∀ i, PolyFn 4 fun x => quartic x i) ∧
    ∃ M M', aukfFilter (⟨.flat [quartic], .flat [g], 1, 1, 0, 1⟩ : UParams 2 m) [o, o']
        = .ok [M, M'] ∧
      M'.mean 0 = 0 ∧ ∫ x, quartic x 0 ∂(gauss M.mean M.cov) = 1 := by
  constructor
  · intro i
    fin_cases i
    · refine ⟨MvPolynomial.X 0 ^ 2 * MvPolynomial.X 1 ^ 2, ?_, fun x => by simp [quartic]⟩
      refine (MvPolynomial.totalDegree_mul _ _).trans ?_
      simp
    · exact ⟨MvPolynomial.X 1, by simp, fun x => by simp [quartic]⟩
  · obtain ⟨l, hl, -⟩ := (C52_posDef (n := 2) (by norm_num)
      (u := (⟨.flat [quartic], .flat [g], 1, 1, 0, 1⟩ : UParams 2 m)) PosDef.one PosDef.one
      PosDef.one [o, o'] (fun t _ => ⟨quartic, rfl⟩) (fun t _ => ⟨g, rfl⟩)).1
    obtain ⟨h1, h2, h3⟩ := (C53_additive_filter (by simp) (by simp) (by simp)).mp hl
    simp only [List.length_cons, List.length_nil] at h1
    obtain ⟨M, M', rfl⟩ := List.length_eq_two.mp h1
    obtain ⟨g', -, L, -, y, -, hc⟩ := h2 (by simp) (by simp)
    have hM : M = ⟨0, 1⟩ := hc.1 ho
    obtain ⟨f', g', hf', -, P, Γ, ⟨L, hL, hP, -⟩, L₁, -, y, -, hc⟩ := h3 0 (by simp) (by simp)
    have hf : f' = quartic := by cases hf'; rfl
    have hM' : M' = P := hc.1 ho'
    subst hf hM'
    refine ⟨M, M', hl, ?_, ?_⟩
    · simp only [List.getElem_cons_zero, hM] at hL hP
      have h1 : IsCholesky (1 : Mat 2 2) 1 :=
        ⟨fun i j hij => one_apply_ne hij.ne, fun i => by simp, by simp⟩
      rw [hP, hL.unique h1, uexp_apply, gexp]
      simp [quartic, Fin.sum_univ_two]
    · rw [hM]
      exact quartic_integral

/-- The hypotheses of the positive theorems are satisfiable: a state in three dimensions whose first
coordinate moves by a product of all three, with a missing observation. -/
example (g : Vec 3 → Vec m) (o o' : Obs m) (ho' : o'.missing) :
    ∃ (f : Vec 3 → Vec 3) (l : List (Moments 3)), PolyFn 3 (fun x => f x 0) ∧
      (∀ a : ℝ, f ![a, a, a] 0 = a + a ^ 3) ∧
      aukfFilter (⟨.flat [f], .flat [g], 1, 1, 0, 1⟩ : UParams 3 m) [o, o'] = .ok l := by
  refine ⟨fun x => ![x 0 + x 0 * x 1 * x 2, x 1, x 2], ?_⟩
  obtain ⟨l, hl, -⟩ := (C52_posDef (n := 3) le_rfl
    (u := (⟨.flat [fun x => ![x 0 + x 0 * x 1 * x 2, x 1, x 2]], .flat [g], 1, 1, 0, 1⟩ :
      UParams 3 m)) PosDef.one PosDef.one PosDef.one [o, o']
    (fun t _ => ⟨_, rfl⟩) (fun t _ => ⟨_, rfl⟩)).1
  refine ⟨l, ⟨MvPolynomial.X 0 + MvPolynomial.X 0 * MvPolynomial.X 1 * MvPolynomial.X 2, ?_,
    fun x => by simp⟩, fun a => by simp; ring, hl⟩
  refine (MvPolynomial.totalDegree_add _ _).trans (max_le (by simp) ?_)
  refine (MvPolynomial.totalDegree_mul _ _).trans ?_
  have := MvPolynomial.totalDegree_mul (MvPolynomial.X (R := ℝ) (0 : Fin 3)) (MvPolynomial.X 1)
  simp only [MvPolynomial.totalDegree_X] at this ⊢
  omega

end Verif
