import Verif.Proofs.UnscentedAccuracy
import Verif.Props.UnscentedExact
import Mathlib.Analysis.SpecialFunctions.Trigonometric.Deriv

/-!
# C84: how accurate the unscented filters are for smooth functions

For functions that are not polynomials of low degree (C57) the unscented filters are approximations.
The theorems bound the error of every moment they use by a constant times the square of the total
variance of the state.  The constants are bounds of derivatives, so for a state that is known well
the error vanishes faster than the variance itself.
-/

open MeasureTheory Matrix

namespace Verif

variable {n m : ℕ}

/-- **C84.** The first row of `filter` is the Kalman correction of the initial moments with mean,
covariance and cross covariance of the observation that are exact up to the square of the variance. -/
theorem C84_first_row {p : UParams n m} (hS : p.S0ᵀ = p.S0) (hQ : p.Qᵀ = p.Q) (hR : p.Rᵀ = p.R)
    {os : List (Obs m)} {l : List (Moments n)} (h : aukfFilter p os = .ok l) (h0 : 0 < os.length)
    (h0' : 0 < l.length) {g : Vec n → Vec m} (hg : p.g.at 0 = .ok g) {B C D : Fin m → ℝ}
    (h4 : ∀ i, Smooth4 (fun x => g x i) (B i)) (h23 : ∀ i, Smooth23 (fun x => g x i) (C i) (D i)) :
    ∃ y S Γ, NearMoments g p.R ⟨p.mu0, p.S0⟩ B C D y S Γ ∧
      Corrected ⟨p.mu0, p.S0⟩ y S Γ os[0] l[0] := by
  obtain ⟨-, h2, -⟩ := (C53_additive_filter hS hQ hR).mp h
  obtain ⟨g', hg', L, hL, y, hy, hc⟩ := h2 h0 h0'
  rw [hg] at hg'
  cases hg'
  exact ⟨_, _, _, nearMoments hL _ h4 h23 hy, hc⟩

/-- **C84.** The other rows: the prediction is exact up to the square of the variance reported for the
step before, and the correction uses moments of the observation that are exact up to the square of the
predicted variance. -/
theorem C84_step {p : UParams n m} (hS : p.S0ᵀ = p.S0) (hQ : p.Qᵀ = p.Q) (hR : p.Rᵀ = p.R)
    {os : List (Obs m)} {l : List (Moments n)} (h : aukfFilter p os = .ok l) {t : ℕ}
    (ht : t + 1 < os.length) (ht' : t + 1 < l.length)
    {f : Vec n → Vec n} (hf : p.f.at t = .ok f) {g : Vec n → Vec m} (hg : p.g.at (t + 1) = .ok g)
    {Bf Cf Df : Fin n → ℝ} (hf4 : ∀ i, Smooth4 (fun x => f x i) (Bf i))
    (hf23 : ∀ i, Smooth23 (fun x => f x i) (Cf i) (Df i)) {B C D : Fin m → ℝ}
    (h4 : ∀ i, Smooth4 (fun x => g x i) (B i)) (h23 : ∀ i, Smooth23 (fun x => g x i) (C i) (D i)) :
    ∃ P Γ', NearMoments f p.Q l[t] Bf Cf Df P.mean P.cov Γ' ∧
      ∃ y S Γ, NearMoments g p.R P B C D y S Γ ∧ Corrected P y S Γ os[t + 1] l[t + 1] := by
  obtain ⟨-, -, h3⟩ := (C53_additive_filter hS hQ hR).mp h
  obtain ⟨f', g', hf', hg', P, Γ', ⟨L, hL, hP, hP', hΓ⟩, L₁, hL₁, y, hy, hc⟩ := h3 t ht ht'
  rw [hf] at hf'
  cases hf'
  rw [hg] at hg'
  cases hg'
  refine ⟨P, Γ', ?_, _, _, _, nearMoments hL₁ _ h4 h23 hy, hc⟩
  rw [hP', hΓ]
  exact nearMoments hL _ hf4 hf23 hP

/-- **C84.** The prediction by itself, as seen at a missing observation. -/
theorem C84_prediction {p : UParams n m} (hS : p.S0ᵀ = p.S0) (hQ : p.Qᵀ = p.Q) (hR : p.Rᵀ = p.R)
    {os : List (Obs m)} {l : List (Moments n)} (h : aukfFilter p os = .ok l) {t : ℕ}
    (ht : t + 1 < os.length) (ht' : t + 1 < l.length) (ho : (os[t + 1]).missing)
    {f : Vec n → Vec n} (hf : p.f.at t = .ok f) :
    (∀ i B, Smooth4 (fun x => f x i) B →
      |(l[t + 1]).mean i - ∫ x, f x i ∂(gauss (l[t]).mean (l[t]).cov)|
        ≤ B / 4 * (l[t]).cov.trace ^ 2) ∧
    ∀ i j C D C' D', Smooth23 (fun x => f x i) C D → Smooth23 (fun x => f x j) C' D' →
      |(l[t + 1]).cov i j - (covOf (gauss (l[t]).mean (l[t]).cov) (fun x => f x i) (fun x => f x j)
          + p.Q i j)|
        ≤ (‖fderiv ℝ (fun x => f x i) (l[t]).mean‖ * D'
          + ‖fderiv ℝ (fun x => f x j) (l[t]).mean‖ * D + 2 * (C * C')) * (l[t]).cov.trace ^ 2 := by
  obtain ⟨-, -, h3⟩ := (C53_additive_filter hS hQ hR).mp h
  obtain ⟨f', g, hf', -, P, Γ, ⟨L, hL, hP, hP', -⟩, L₁, -, y, -, hc⟩ := h3 t ht ht'
  rw [hf] at hf'
  cases hf'
  have hpd := hL.posDef.posSemidef
  have hPi : ∀ i, P.mean i = gexp (l[t]).mean L fun x => f x i := fun i => by rw [hP, uexp_apply]
  rw [hc.1 ho]
  refine ⟨fun i B h4 => ?_, fun i j C D C' D' hi hj => ?_⟩
  · rw [hPi]
    exact (gexp_error hpd hL.mul_transpose _ h4).2
  · rw [hP', Matrix.add_apply, uexp_apply₂, add_sub_add_right_eq_sub]
    have := gexp_cov_error hpd hL.mul_transpose (l[t]).mean hi hj
    rw [← hPi, ← hPi] at this
    exact this

/-- **C84.** Smoothing: every row but the last is the Rauch–Tung–Striebel correction of the filtered row
with a prediction and a cross covariance that are exact up to the square of the variance. -/
theorem C84_smooth {p : UParams n m} (hS : p.S0ᵀ = p.S0) (hQ : p.Qᵀ = p.Q) (hR : p.Rᵀ = p.R)
    {os : List (Obs m)} {l' : List (Moments n)} (h : aukfSmooth p os = .ok l') :
    ∃ l, aukfFilter p os = .ok l ∧ ∀ t (ht : t + 1 < l.length) (ht' : t + 1 < l'.length)
      (f : Vec n → Vec n), p.f.at t = .ok f → ∀ B C D : Fin n → ℝ,
        (∀ i, Smooth4 (fun x => f x i) (B i)) → (∀ i, Smooth23 (fun x => f x i) (C i) (D i)) →
        ∃ P Γ, NearMoments f p.Q l[t] B C D P.mean P.cov Γ ∧ SmoothedBack l[t] P l'[t + 1] Γ l'[t] := by
  obtain ⟨l, hl, -, -, -, h3⟩ := (C53_additive_smooth hS hQ hR).mp h
  refine ⟨l, hl, fun t ht ht' f hf B C D h4 h23 => ?_⟩
  obtain ⟨f', hf', P, Γ, ⟨L, hL, hP, hP', hΓ⟩, hs⟩ := h3 t ht ht'
  rw [hf] at hf'
  cases hf'
  refine ⟨P, Γ, ?_, hs⟩
  rw [hP', hΓ]
  exact nearMoments hL _ h4 h23 hP

/-- **C84.** General noise: the same for the prediction, with state and noise together. -/
theorem C84_general_prediction {p : GParams n m} (hS : p.S0ᵀ = p.S0) (hQ : p.Qᵀ = p.Q)
    (hR : p.Rᵀ = p.R) {os : List (Obs m)} {l : List (Moments n)} (h : ukfFilter p os = .ok l) {t : ℕ}
    (ht : t + 1 < os.length) (ht' : t + 1 < l.length) (ho : (os[t + 1]).missing)
    {f : Vec n → Vec n → Vec n} (hf : p.f.at t = .ok f) (i : Fin n) {B : ℝ}
    (h4 : Smooth4 (fun z : Fin n ⊕ Fin n → ℝ => f (fun a => z (.inl a)) (fun a => z (.inr a)) i) B) :
    |(l[t + 1]).mean i - ∫ xw : Vec n × Vec n, f xw.1 xw.2 i
      ∂((gauss (l[t]).mean (l[t]).cov).prod (gauss 0 p.Q))|
      ≤ B / 4 * ((l[t]).cov.trace + p.Q.trace) ^ 2 := by
  obtain ⟨-, -, h3⟩ := (C53_filter hS hQ hR).mp h
  obtain ⟨f', g, hf', -, L, LQ, LR, hL, hLQ, -, x, y, hx, -, hc⟩ := h3 t ht ht'
  rw [hf] at hf'
  cases hf'
  have hP := hL.posDef.posSemidef
  have hQ' := hLQ.posDef.posSemidef
  rw [hc.1 ho]
  show |x i - _| ≤ _
  have hb : (fromBlocks (l[t]).cov 0 0 p.Q).PosSemidef := by
    rw [← gauss_blocks hP hQ']
    exact (posSemidef_conj hP _).add (posSemidef_conj hQ' _)
  have hm : fromBlocks L 0 0 LQ * (fromBlocks L 0 0 LQ)ᵀ = fromBlocks (l[t]).cov 0 0 p.Q := by
    rw [fromBlocks_transpose, fromBlocks_multiply]
    simp [hL.mul_transpose, hLQ.mul_transpose]
  have htr : (fromBlocks (l[t]).cov 0 0 p.Q).trace = (l[t]).cov.trace + p.Q.trace := by
    simp [trace, Fintype.sum_sum_type]
  have key := (gexp_error hb hm (Sum.elim (l[t]).mean 0) h4).2
  rw [integral_gauss_prod hP hQ' _ _ h4.contDiff.continuous.measurable, htr] at key
  rw [hx, uexp₃_forget, uexp₂_apply]
  exact key

/-- **C84.** The order cannot be improved: for `x₀² x₁²` and a state with variance `s` in each of two
coordinates, the error of the predicted mean is a quarter of the square of the total variance. -/
theorem C84_order_is_sharp (g : Vec 2 → Vec m) (o o' : Obs m) (ho : o.missing) (ho' : o'.missing)
    {s : ℝ} (hs : 0 < s) :
    ∃ M M', aukfFilter (⟨.flat [quartic], .flat [g], 1, 1, 0, s • 1⟩ : UParams 2 m) [o, o']
        = .ok [M, M'] ∧
      M.cov.trace = 2 * s ∧
      |M'.mean 0 - ∫ x, quartic x 0 ∂(gauss M.mean M.cov)| = 1 / 4 * M.cov.trace ^ 2 := by
  have hpd : (s • (1 : Mat 2 2)).PosDef := PosDef.one.smul hs
  obtain ⟨l, hl, -⟩ := (C52_posDef (n := 2) (by norm_num)
    (u := (⟨.flat [quartic], .flat [g], 1, 1, 0, s • 1⟩ : UParams 2 m)) PosDef.one PosDef.one
    hpd [o, o'] (fun t _ => ⟨quartic, rfl⟩) (fun t _ => ⟨g, rfl⟩)).1
  obtain ⟨h1, h2, h3⟩ := (C53_additive_filter (by simp) (by simp) (by simp)).mp hl
  simp only [List.length_cons, List.length_nil] at h1
  obtain ⟨M, M', rfl⟩ := List.length_eq_two.mp h1
  obtain ⟨g', -, L, -, y, -, hc⟩ := h2 (by simp) (by simp)
  have hM : M = ⟨0, s • 1⟩ := hc.1 ho
  obtain ⟨f', g', hf', -, P, Γ, ⟨L, hL, hP, -⟩, L₁, -, y, -, hc⟩ := h3 0 (by simp) (by simp)
  have hf : f' = quartic := by cases hf'; rfl
  have hM' : M' = P := hc.1 ho'
  subst hf hM'
  have htr : M.cov.trace = 2 * s := by
    rw [hM]
    simp [trace, Fin.sum_univ_two]
  refine ⟨M, M', hl, htr, ?_⟩
  have h0 : M'.mean 0 = 0 := by
    simp only [List.getElem_cons_zero, hM] at hL hP
    have h1 : IsCholesky (s • (1 : Mat 2 2)) (√s • 1) := by
      refine ⟨fun i j hij => by simp [one_apply_ne hij.ne], fun i => by simpa using hs, ?_⟩
      rw [transpose_smul, transpose_one, smul_mul_smul_comm, Matrix.one_mul, Real.mul_self_sqrt hs.le]
    rw [hP, hL.unique h1, uexp_apply, gexp]
    simp [quartic, Fin.sum_univ_two]
  have hI : ∫ x, quartic x 0 ∂(gauss M.mean M.cov) = s ^ 2 := by
    rw [hM]
    have := form_sq_sq hpd.posSemidef (0 : Fin 2) 1
    simp only [quartic, cons_val_zero]
    rw [this]
    simp
    ring
  rw [h0, hI, htr, zero_sub, abs_neg, abs_of_nonneg (sq_nonneg s)]
  ring

/-! ### The hypotheses are satisfiable: a pendulum -/

/-- One Euler step of length `δ` of a pendulum. -/
noncomputable def pendulum (δ : ℝ) (x : Vec 2) : Vec 2 := ![x 0 + δ * x 1, x 1 - δ * Real.sin (x 0)]

theorem norm_iteratedFDeriv_sin_le (k : ℕ) (x : Vec 2) :
    ‖iteratedFDeriv ℝ k (fun x : Vec 2 => Real.sin (x 0)) x‖ ≤ 1 := by
  have h : (fun x : Vec 2 => Real.sin (x 0))
      = Real.sin ∘ (ContinuousLinearMap.proj 0 : (Fin 2 → ℝ) →L[ℝ] ℝ) := rfl
  have hn : ‖(ContinuousLinearMap.proj 0 : (Fin 2 → ℝ) →L[ℝ] ℝ)‖ ≤ 1 :=
    ContinuousLinearMap.opNorm_le_bound _ zero_le_one fun v => by
      rw [one_mul]; exact norm_le_pi_norm v 0
  rw [h, ContinuousLinearMap.iteratedFDeriv_comp_right (n := (k : WithTop ℕ∞)) _ Real.contDiff_sin _
    le_rfl]
  refine (ContinuousMultilinearMap.norm_compContinuousLinearMap_le _ _).trans ?_
  rw [Finset.prod_const, norm_iteratedFDeriv_eq_norm_iteratedDeriv, Real.norm_eq_abs]
  have := Real.abs_iteratedDeriv_sin_le_one k ((ContinuousLinearMap.proj 0 : (Fin 2 → ℝ) →L[ℝ] ℝ) x)
  exact mul_le_one₀ this (by positivity) (pow_le_one₀ (norm_nonneg _) hn)

theorem norm_iteratedFDeriv_pendulum_le {δ : ℝ} (hδ : 0 ≤ δ) {k : ℕ} (hk : 2 ≤ k) (i : Fin 2)
    (x : Vec 2) : ‖iteratedFDeriv ℝ k (fun x => pendulum δ x i) x‖ ≤ δ := by
  have hlin : ∀ A : (Fin 2 → ℝ) →L[ℝ] ℝ, iteratedFDeriv ℝ k A x = 0 := by
    intro A
    obtain ⟨k, rfl⟩ : ∃ j, k = j + 2 := ⟨k - 2, by omega⟩
    have e : fderiv ℝ A = fun _ => A := by
      funext x
      exact A.fderiv
    ext v
    rw [iteratedFDeriv_succ_apply_right, e, iteratedFDeriv_const_of_ne (by omega)]
    simp
  fin_cases i
  · have e : (fun x : Vec 2 => pendulum δ x 0) = (ContinuousLinearMap.proj 0
        + δ • ContinuousLinearMap.proj 1 : (Fin 2 → ℝ) →L[ℝ] ℝ) := by
      funext x
      simp [pendulum]
    show ‖iteratedFDeriv ℝ k (fun x : Vec 2 => pendulum δ x 0) x‖ ≤ δ
    rw [e, hlin, norm_zero]
    exact hδ
  · have e : (fun x : Vec 2 => pendulum δ x 1)
        = (⇑(ContinuousLinearMap.proj 1 : (Fin 2 → ℝ) →L[ℝ] ℝ))
          - δ • (fun x : Vec 2 => Real.sin (x 0)) := by
      funext x
      simp [pendulum]
    have hs : ContDiff ℝ k fun x : Vec 2 => Real.sin (x 0) :=
      Real.contDiff_sin.comp (contDiff_apply ℝ ℝ 0)
    show ‖iteratedFDeriv ℝ k (fun x : Vec 2 => pendulum δ x 1) x‖ ≤ δ
    have hs' : ContDiffAt ℝ k (δ • fun x : Vec 2 => Real.sin (x 0)) x := (hs.const_smul δ).contDiffAt
    rw [e, iteratedFDeriv_sub_apply (ContinuousLinearMap.contDiff _).contDiffAt hs', hlin, zero_sub, norm_neg,
      iteratedFDeriv_const_smul_apply hs.contDiffAt, norm_smul, Real.norm_eq_abs, abs_of_nonneg hδ]
    have := norm_iteratedFDeriv_sin_le k x
    exact mul_le_of_le_one_right hδ this

theorem contDiff_pendulum (δ : ℝ) (k : ℕ) (i : Fin 2) : ContDiff ℝ k fun x => pendulum δ x i := by
  fin_cases i
  · exact (contDiff_apply ℝ ℝ (0 : Fin 2)).add (contDiff_const.mul (contDiff_apply ℝ ℝ (1 : Fin 2)))
  · exact (contDiff_apply ℝ ℝ (1 : Fin 2)).sub (contDiff_const.mul
      (Real.contDiff_sin.comp (contDiff_apply ℝ ℝ (0 : Fin 2))))

/-- A pendulum, observed through the sine of its angle: the filter succeeds for all data, all
hypotheses of the theorems hold with derivative bounds `δ` and `1`, and the predicted mean of the
angular velocity is within `δ / 4 * (tr)²` of the exact one. -/
example {δ : ℝ} (hδ : 0 < δ) (os : List (Obs 1)) :
    let f := pendulum δ
    let g : Vec 2 → Vec 1 := fun x => ![Real.sin (x 0)]
    (∀ i, Smooth4 (fun x => f x i) δ ∧ Smooth23 (fun x => f x i) δ δ) ∧
    (∀ i, Smooth4 (fun x => g x i) 1 ∧ Smooth23 (fun x => g x i) 1 1) ∧
    ∃ l, aukfFilter (⟨.flat [f], .flat [g], 1, 1, 0, 1⟩ : UParams 2 1) os = .ok l ∧
      ∀ t (ht : t + 1 < os.length) (ht' : t + 1 < l.length), (os[t + 1]).missing →
        |(l[t + 1]).mean 1 - ∫ x, f x 1 ∂(gauss (l[t]).mean (l[t]).cov)|
          ≤ δ / 4 * (l[t]).cov.trace ^ 2 := by
  intro f g
  have hf : ∀ i, Smooth4 (fun x => f x i) δ ∧ Smooth23 (fun x => f x i) δ δ := fun i =>
    ⟨⟨contDiff_pendulum δ 4 i, norm_iteratedFDeriv_pendulum_le hδ.le (by norm_num) i⟩,
      ⟨contDiff_pendulum δ 3 i, norm_iteratedFDeriv_pendulum_le hδ.le (by norm_num) i,
        norm_iteratedFDeriv_pendulum_le hδ.le (by norm_num) i⟩⟩
  have hs : ∀ k : ℕ, ContDiff ℝ k fun x : Vec 2 => Real.sin (x 0) := fun k =>
    Real.contDiff_sin.comp (contDiff_apply ℝ ℝ 0)
  refine ⟨hf, fun i => ?_, ?_⟩
  · fin_cases i
    exact ⟨⟨hs 4, norm_iteratedFDeriv_sin_le 4⟩,
      ⟨hs 3, norm_iteratedFDeriv_sin_le 2, norm_iteratedFDeriv_sin_le 3⟩⟩
  · obtain ⟨l, hl, -⟩ := (C52_posDef (n := 2) (by norm_num)
      (u := (⟨.flat [f], .flat [g], 1, 1, 0, 1⟩ : UParams 2 1)) PosDef.one PosDef.one
      PosDef.one os (fun t _ => ⟨f, rfl⟩) (fun t _ => ⟨g, rfl⟩)).1
    exact ⟨l, hl, fun t ht ht' ho => (C84_prediction transpose_one transpose_one transpose_one hl ht ht'
      ho rfl).1 1 δ (hf 1).1⟩

end Verif
