import Verif.Proofs.UnscentedAccuracyGeneral
import Verif.Props.UnscentedAccuracy
import Verif.Props.UnscentedGeneral

/-!
# C84 for `UnscentedKalmanFilter`

In this class the noise is an argument of the functions and may enter them in any way.  All moments it
works with are exact up to the square of the total variance of state and noise.
-/

open MeasureTheory Matrix

namespace Verif

variable {n m : ℕ}

/-- **C84.** General noise, rows after the first: the prediction is exact up to the square of the
variance of state and transition noise, and the correction uses moments of the observation that are
exact up to the square of the variance of state and both noises. -/
theorem C84_general_step {p : GParams n m} (hS : p.S0ᵀ = p.S0) (hQ : p.Qᵀ = p.Q) (hR : p.Rᵀ = p.R)
    {os : List (Obs m)} {l : List (Moments n)} (h : ukfFilter p os = .ok l) {t : ℕ}
    (ht : t + 1 < os.length) (ht' : t + 1 < l.length)
    {f : Vec n → Vec n → Vec n} (hf : p.f.at t = .ok f)
    {g : Vec n → Vec m → Vec m} (hg : p.g.at (t + 1) = .ok g) {Bf Cf Df : Fin n → ℝ}
    (hf4 : ∀ i, Smooth4 (ofTwo fun x w => f x w i) (Bf i))
    (hf23 : ∀ i, Smooth23 (ofTwo fun x w => f x w i) (Cf i) (Df i)) {B C D : Fin m → ℝ}
    (h4 : ∀ i, Smooth4 (ofThree fun x w v => g (f x w) v i) (B i))
    (h23 : ∀ i, Smooth23 (ofThree fun x w v => g (f x w) v i) (C i) (D i)) :
    ∃ P Γ', NearPredicts f p.Q l[t] Bf Cf Df P Γ' ∧
      ∃ y S Γ, NearObserves f g p.Q p.R l[t] Cf Df B C D y S Γ ∧
        Corrected P y S Γ os[t + 1] l[t + 1] := by
  obtain ⟨-, -, h3⟩ := (C53_filter hS hQ hR).mp h
  obtain ⟨f', g', hf', hg', L, LQ, LR, hL, hLQ, hLR, x, y, hx, hy, hc⟩ := h3 t ht ht'
  rw [hf] at hf'
  cases hf'
  rw [hg] at hg'
  cases hg'
  rw [uexp₃_forget] at hx
  have e := uexp₃_forget (l[t]).mean L 0 LQ (0 : Vec m) LR
    (fun z w => vecMulVec (f z w - x) (f z w - x))
  rw [e] at hc
  exact ⟨_, _, nearPredicts hL hLQ hf4 hf23 hx, _, _, _, nearObserves hL hLQ hLR hf23 h4 h23 hx hy, hc⟩

theorem smooth23_state (i : Fin n) : Smooth23 (ofTwo fun (x _ : Vec n) => x i) 0 0 :=
  smooth23_coord (Sum.inl i)

/-- **C84.** General noise, first row: the Kalman correction of the initial moments with moments of the
observation that are exact up to the square of the variance. -/
theorem C84_general_first_row {p : GParams n m} (hS : p.S0ᵀ = p.S0) (hQ : p.Qᵀ = p.Q)
    (hR : p.Rᵀ = p.R) {os : List (Obs m)} {l : List (Moments n)} (h : ukfFilter p os = .ok l)
    (h0 : 0 < os.length) (h0' : 0 < l.length) {g : Vec n → Vec m → Vec m} (hg : p.g.at 0 = .ok g)
    {B C D : Fin m → ℝ} (h4 : ∀ i, Smooth4 (ofThree fun (x _ : Vec n) v => g x v i) (B i))
    (h23 : ∀ i, Smooth23 (ofThree fun (x _ : Vec n) v => g x v i) (C i) (D i)) :
    ∃ y S Γ, NearObserves (fun x _ => x) g p.Q p.R ⟨p.mu0, p.S0⟩ 0 0 B C D y S Γ ∧
      Corrected ⟨p.mu0, p.S0⟩ y S Γ os[0] l[0] := by
  obtain ⟨-, h2, -⟩ := (C53_filter hS hQ hR).mp h
  obtain ⟨g', hg', L, LQ, LR, hL, hLQ, hLR, x, y, hx, hy, hc⟩ := h2 h0 h0'
  rw [hg] at hg'
  cases hg'
  rw [uexp₃_forget] at hx
  have hx' : x = p.mu0 := by
    rw [hx, uexp₂_one]
    funext i
    rw [uexp_apply, gexp_coord]
  have e := uexp₃_forget p.mu0 L 0 LQ (0 : Vec m) LR (fun z _ => vecMulVec (z - x) (z - x))
  have e' : uexp p.mu0 L (fun z => vecMulVec (z - x) (z - x)) = p.S0 := by
    have := hL.mul_transpose
    simp only [hx', uexp, sub_self, vecMulVec_zero, smul_zero, zero_add, add_sub_cancel_left]
    simp only [sub_sub_cancel_left, sum_col_col]
    exact this
  simp only [e, uexp₂_one, e'] at hc
  exact ⟨_, _, _, nearObserves hL hLQ hLR smooth23_state h4 h23 hx hy, hx' ▸ hc⟩

/-- **C84.** General noise, smoothing: every row but the last is the Rauch–Tung–Striebel correction of
the filtered row with a prediction and a cross covariance that are exact up to the square of the
variance. -/
theorem C84_general_smooth {p : GParams n m} (hS : p.S0ᵀ = p.S0) (hQ : p.Qᵀ = p.Q) (hR : p.Rᵀ = p.R)
    {os : List (Obs m)} {l' : List (Moments n)} (h : ukfSmooth p os = .ok l') :
    ∃ l, ukfFilter p os = .ok l ∧ ∀ t (ht : t + 1 < l.length) (ht' : t + 1 < l'.length)
      (f : Vec n → Vec n → Vec n), p.f.at t = .ok f → ∀ B C D : Fin n → ℝ,
        (∀ i, Smooth4 (ofTwo fun x w => f x w i) (B i)) →
        (∀ i, Smooth23 (ofTwo fun x w => f x w i) (C i) (D i)) →
        ∃ P Γ, NearPredicts f p.Q l[t] B C D P Γ ∧ SmoothedBack l[t] P l'[t + 1] Γ l'[t] := by
  obtain ⟨l, hl, -, -, -, h3⟩ := (C53_smooth hS hQ hR).mp h
  refine ⟨l, hl, fun t ht ht' f hf B C D h4 h23 => ?_⟩
  obtain ⟨f', hf', P, Γ, ⟨L, LQ, hL, hLQ, hP, hP', hΓ⟩, hs⟩ := h3 t ht ht'
  rw [hf] at hf'
  cases hf'
  refine ⟨P, Γ, ?_, hs⟩
  have := nearPredicts hL hLQ h4 h23 hP
  rw [← hP', ← hΓ] at this
  exact this

/-! ### The hypotheses are satisfiable -/

section example_

variable {ι : Type*} [Fintype ι]

theorem norm_iteratedFDeriv_sin_add_le (a : ι) (A : (ι → ℝ) →L[ℝ] ℝ) {k : ℕ} (hk : 2 ≤ k) (x : ι → ℝ) :
    ‖iteratedFDeriv ℝ k (fun x : ι → ℝ => Real.sin (x a) + A x) x‖ ≤ 1 := by
  have hA : iteratedFDeriv ℝ k A x = 0 := by
    obtain ⟨k, rfl⟩ : ∃ j, k = j + 2 := ⟨k - 2, by omega⟩
    have e : fderiv ℝ A = fun _ => A := by
      funext x
      exact A.fderiv
    ext v
    rw [iteratedFDeriv_succ_apply_right, e, iteratedFDeriv_const_of_ne (by omega)]
    simp
  have h : (fun x : ι → ℝ => Real.sin (x a))
      = Real.sin ∘ (ContinuousLinearMap.proj a : (ι → ℝ) →L[ℝ] ℝ) := rfl
  have hs : ContDiff ℝ k fun x : ι → ℝ => Real.sin (x a) :=
    Real.contDiff_sin.comp (contDiff_apply ℝ ℝ a)
  have hn : ‖(ContinuousLinearMap.proj a : (ι → ℝ) →L[ℝ] ℝ)‖ ≤ 1 :=
    ContinuousLinearMap.opNorm_le_bound _ zero_le_one fun v => by
      rw [one_mul]; exact norm_le_pi_norm v a
  have e : (fun x : ι → ℝ => Real.sin (x a) + A x) = (fun x : ι → ℝ => Real.sin (x a)) + ⇑A := rfl
  rw [e, iteratedFDeriv_add_apply hs.contDiffAt A.contDiff.contDiffAt, hA, add_zero, h,
    ContinuousLinearMap.iteratedFDeriv_comp_right (n := (k : WithTop ℕ∞)) _ Real.contDiff_sin _ le_rfl]
  refine (ContinuousMultilinearMap.norm_compContinuousLinearMap_le _ _).trans ?_
  rw [Finset.prod_const, norm_iteratedFDeriv_eq_norm_iteratedDeriv, Real.norm_eq_abs]
  exact mul_le_one₀ (Real.abs_iteratedDeriv_sin_le_one k _) (by positivity)
    (pow_le_one₀ (norm_nonneg _) hn)

theorem smooth_sin_add (a : ι) (A : (ι → ℝ) →L[ℝ] ℝ) :
    Smooth4 (fun x : ι → ℝ => Real.sin (x a) + A x) 1 ∧
    Smooth23 (fun x : ι → ℝ => Real.sin (x a) + A x) 1 1 := by
  have hc : ∀ k : ℕ, ContDiff ℝ k fun x : ι → ℝ => Real.sin (x a) + A x := fun k =>
    (Real.contDiff_sin.comp (contDiff_apply ℝ ℝ a)).add A.contDiff
  exact ⟨⟨hc 4, norm_iteratedFDeriv_sin_add_le a A (by norm_num)⟩,
    ⟨hc 3, norm_iteratedFDeriv_sin_add_le a A (by norm_num),
      norm_iteratedFDeriv_sin_add_le a A (by norm_num)⟩⟩

end example_

/-- State and observation are `sin x + w` and `x + v`: the filter succeeds for all data, the functions
meet the hypotheses with all constants `1`, so the theorems apply to all its rows. -/
example (os : List (Obs 1)) :
    let f : Vec 1 → Vec 1 → Vec 1 := fun x w => ![Real.sin (x 0)] + w
    let g : Vec 1 → Vec 1 → Vec 1 := fun x v => x + v
    let p : GParams 1 1 := ⟨.flat [f], .flat [g], 1, 1, 0, 1⟩
    (∀ i, Smooth4 (ofTwo fun x w => f x w i) 1 ∧ Smooth23 (ofTwo fun x w => f x w i) 1 1) ∧
    (∀ i, Smooth4 (ofThree fun x w v => g (f x w) v i) 1 ∧
      Smooth23 (ofThree fun x w v => g (f x w) v i) 1 1) ∧
    ∃ l, ukfFilter p os = .ok l ∧
      ∀ t (ht : t + 1 < os.length) (ht' : t + 1 < l.length),
        ∃ P Γ', NearPredicts f 1 l[t] 1 1 1 P Γ' ∧
          ∃ y S Γ, NearObserves f g 1 1 l[t] 1 1 1 1 1 y S Γ ∧
            Corrected P y S Γ os[t + 1] l[t + 1] := by
  intro f g p
  have hf : ∀ i, Smooth4 (ofTwo fun x w => f x w i) 1 ∧ Smooth23 (ofTwo fun x w => f x w i) 1 1 := by
    intro i
    fin_cases i
    exact smooth_sin_add (Sum.inl (0 : Fin 1)) (ContinuousLinearMap.proj (Sum.inr (0 : Fin 1)))
  have hg : ∀ i, Smooth4 (ofThree fun x w v => g (f x w) v i) 1 ∧
      Smooth23 (ofThree fun x w v => g (f x w) v i) 1 1 := by
    intro i
    fin_cases i
    let A : ((Fin 1 ⊕ Fin 1) ⊕ Fin 1 → ℝ) →L[ℝ] ℝ :=
      ContinuousLinearMap.proj (R := ℝ) (φ := fun _ => ℝ) (Sum.inl (Sum.inr (0 : Fin 1)))
        + ContinuousLinearMap.proj (R := ℝ) (φ := fun _ => ℝ) (Sum.inr (0 : Fin 1))
    have := smooth_sin_add (Sum.inl (Sum.inl (0 : Fin 1))) A
    have e : (ofThree fun x w v => g (f x w) v (0 : Fin 1))
        = fun z : (Fin 1 ⊕ Fin 1) ⊕ Fin 1 → ℝ =>
          Real.sin (z (Sum.inl (Sum.inl (0 : Fin 1)))) + A z := by
      funext z
      simp [ofThree, f, g, A, add_assoc, vecHead]
    show Smooth4 (ofThree fun x w v => g (f x w) v (0 : Fin 1)) 1 ∧
      Smooth23 (ofThree fun x w v => g (f x w) v (0 : Fin 1)) 1 1
    rw [e]
    exact this
  refine ⟨hf, hg, ?_⟩
  obtain ⟨l, hl, -⟩ := (C86_posDef (u := p) PosDef.one PosDef.one PosDef.one os
    (fun t _ => ⟨fun x => ![Real.sin (x 0)], rfl⟩) (fun t _ => ⟨fun x => x, rfl⟩)).1
  exact ⟨l, hl, fun t ht ht' => C84_general_step transpose_one transpose_one transpose_one hl ht ht' rfl
    rfl (fun i => (hf i).1) (fun i => (hf i).2) (fun i => (hg i).1) (fun i => (hg i).2)⟩

end Verif
