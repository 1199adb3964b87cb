import Verif.Proofs.Riccati
import Verif.Props.SecondOrder

/-!
# C62, C63: the filter forgets its initial moments and settles

C62 gives rates for time-varying parameters and any mask, C63 a steady state for constant
parameters.  `Detectable` and `FullyObserved` are specified in `Verif.Spec.Forgetting`.
-/

open Matrix
open scoped MatrixOrder

namespace Verif

variable {n m : ℕ} {p : Params n m}

/-- **C62**, covariances.  The same run from two initial covariances, the first at most `1 + δ`
times the second.  If at every step the fraction `1 - ρ` of the predicted covariance of the second run
is process noise, then the covariance of the first run at time `t` is at most `1 + δ ρᵗ` times that of
the second.  (With `ρ = 1` the condition is empty.) -/
theorem C62_initial_covariance {os : List (Obs m)} (hdef : p.DefinedFor os.length)
    (hpsd : p.PSD os.length) {S' : Mat n n} (hS' : S'.PosSemidef) {δ ρ : ℝ} (hδ : 0 ≤ δ)
    (hρ : 0 ≤ ρ) (h0 : ((1 + δ) • S' - p.S0).PosSemidef) :
    ∃ out out' : List (Vec n × Mat n n),
      kfFilter p os = .ok out ∧ kfFilter { p with S0 := S' } os = .ok out' ∧
      out.length = os.length ∧ out'.length = os.length ∧
      ((∀ (t : ℕ) (r' : Vec n × Mat n n), t + 1 < os.length → out'[t]? = some r' → ∀ A Q,
          lastDims p.A t = .ok A → lastDims p.Q t = .ok Q →
          (Q - (1 - ρ) • (A * r'.2 * Aᵀ + Q)).PosSemidef) →
        ∀ (t : ℕ) (r r' : Vec n × Mat n n), out[t]? = some r → out'[t]? = some r' →
          ((1 + δ * ρ ^ t) • r'.2 - r.2).PosSemidef) := by
  have hc := definedFor_iff_covers.mp hdef
  have hc' : ({ p with S0 := S' } : Params n m).Covers os.length :=
    ⟨hc.A, hc.b, hc.Q, hc.C, hc.d, hc.R⟩
  refine ⟨_, _, kfFilter_eq hc, kfFilter_eq hc', by simp, by simp, fun hQ t r r' hr hr' => ?_⟩
  obtain ⟨ht, -⟩ := List.getElem?_eq_some_iff.mp hr
  simp only [List.length_map, List.length_range] at ht
  simp only [List.getElem?_map, List.getElem?_range ht, Option.map_some, Option.some.injEq]
    at hr hr'
  subst hr hr'
  set q : Params n m := { p with S0 := S' } with hq
  have hP := hpsd.fn hc
  have hP' : q.fn.PSD os.length := ⟨hP.Q, hP.R, hS'⟩
  refine (PFun.kf_ratio (P := p.fn) (P' := q.fn) (z := obsFn os) hP hP' rfl rfl rfl rfl hδ hρ h0
    (fun s hs => ?_) ht).2
  have := hQ s ((q.fn.kf (obsFn os) s).filtMean, (q.fn.kf (obsFn os) s).filtCov) hs
    (by simp [List.getElem?_range (show s < os.length by omega), hq]) _ _
    (lastDims_eq_ok (hc.A.mono (by omega))) (lastDims_eq_ok (hc.Q.mono (by omega)))
  rw [(q.fn.kf_pred_succ (obsFn os) s).2]
  exact this

/-- **C62**, means.  The same run from two initial means that differ, in every direction, by at most
`√c` standard deviations of the initial covariance.  If at every step the fraction `1 - ρ` of the
predicted covariance is process noise, the means at time `t` differ by at most `√(c ρᵗ)` reported
standard deviations, in every direction. -/
theorem C62_initial_mean {os : List (Obs m)} (hdef : p.DefinedFor os.length)
    (hpsd : p.PSD os.length) {a : Vec n} {c ρ : ℝ} (hc0 : 0 ≤ c) (hρ : 0 ≤ ρ)
    (ha : ∀ v, (v ⬝ᵥ (p.mu0 - a)) ^ 2 ≤ c * (v ⬝ᵥ (p.S0 *ᵥ v))) :
    ∃ out out' : List (Vec n × Mat n n),
      kfFilter p os = .ok out ∧ kfFilter { p with mu0 := a } os = .ok out' ∧
      out.length = os.length ∧ out'.length = os.length ∧
      ((∀ (t : ℕ) (r : Vec n × Mat n n), t + 1 < os.length → out[t]? = some r → ∀ A Q,
          lastDims p.A t = .ok A → lastDims p.Q t = .ok Q →
          (Q - (1 - ρ) • (A * r.2 * Aᵀ + Q)).PosSemidef) →
        ∀ (t : ℕ) (r r' : Vec n × Mat n n), out[t]? = some r → out'[t]? = some r' →
          ∀ v, (v ⬝ᵥ (r.1 - r'.1)) ^ 2 ≤ c * ρ ^ t * (v ⬝ᵥ (r.2 *ᵥ v))) := by
  have hc := definedFor_iff_covers.mp hdef
  have hc' : ({ p with mu0 := a } : Params n m).Covers os.length :=
    ⟨hc.A, hc.b, hc.Q, hc.C, hc.d, hc.R⟩
  refine ⟨_, _, kfFilter_eq hc, kfFilter_eq hc', by simp, by simp, fun hQ t r r' hr hr' => ?_⟩
  obtain ⟨ht, -⟩ := List.getElem?_eq_some_iff.mp hr
  simp only [List.length_map, List.length_range] at ht
  simp only [List.getElem?_map, List.getElem?_range ht, Option.map_some, Option.some.injEq]
    at hr hr'
  subst hr hr'
  have hP := hpsd.fn hc
  have := (PFun.kf_forget_mean (P := p.fn) (z := obsFn os) hP a (s := 0) (t := t) hc0 hρ ha
    (fun s _ hs => ?_) (by omega)).2
  · rw [zero_add] at this
    exact this
  · have := hQ s ((p.fn.kf (obsFn os) s).filtMean, (p.fn.kf (obsFn os) s).filtCov) hs
      (by simp [List.getElem?_range (show s < os.length by omega)]) _ _
      (lastDims_eq_ok (hc.A.mono (by omega))) (lastDims_eq_ok (hc.Q.mono (by omega)))
    rw [(p.fn.kf_pred_succ (obsFn os) s).2]
    exact this

/-! ### C63 -/

section
variable {A Q : Mat n n} {C : Mat m n} {R : Mat m m} {b mu0 a : Vec n} {d : Vec m} {S0 : Mat n n}

theorem kf_const {z : ℕ → Obs m} {T : ℕ} (hz : ∀ i, i < T → ¬ (z i).missing) {t : ℕ} (ht : t < T) :
    let P : PFun n m := (⟨.const A, .const b, .const Q, .const C, .const d, .const R, mu0, S0⟩ :
      Params n m).fn
    (P.kf z t).predCov = (ric A Q C R)^[t] S0 ∧
    (P.kf z t).filtCov = corr R C ((ric A Q C R)^[t] S0) := by
  intro P
  have step : ∀ t, t < T → (P.kf z t).predCov = (ric A Q C R)^[t] S0 →
      (P.kf z t).filtCov = corr R C ((ric A Q C R)^[t] S0) := by
    intro t ht h
    rw [(P.kf_observed z (hz t ht)).2.2, h]
    rfl
  induction t with
  | zero => exact ⟨rfl, step 0 ht rfl⟩
  | succ t ih =>
    have : (P.kf z (t + 1)).predCov = (ric A Q C R)^[t + 1] S0 := by
      rw [(P.kf_pred_succ z t).2, (ih (by omega)).2, Function.iterate_succ_apply']
      rfl
    exact ⟨this, step _ ht this⟩

theorem FullyObserved.fn {os : List (Obs m)} (h : FullyObserved os) :
    ∀ i, i < os.length → ¬ (obsFn os i).missing := fun i hi => by
  rw [obsFn_eq hi]; exact h _ (List.getElem_mem hi)

/-- **C63.** Constant parameters, positive definite transition covariance, a state that can be tracked
from the observations, no masked rows.  There is a covariance `P` such that a run started one step
from `P` reports `P` at every row, and every run, whatever its initial covariance, reports
covariances that approach `P` at a geometric rate. -/
theorem C63_steady_state (hQ : Q.PosDef) (hR : R.PosSemidef) (hdet : Detectable A C) :
    ∃ P : Mat n n, P.PosSemidef ∧
      (∀ (b mu0 : Vec n) (d : Vec m) (os : List (Obs m)), FullyObserved os →
        ∃ out, kfFilter ⟨.const A, .const b, .const Q, .const C, .const d, .const R, mu0,
            A * P * Aᵀ + Q⟩ os = .ok out ∧ out.length = os.length ∧ ∀ r ∈ out, r.2 = P) ∧
      ∀ S0 : Mat n n, S0.PosSemidef → ∃ κ ρ : ℝ, 0 ≤ ρ ∧ ρ < 1 ∧
        ∀ (b mu0 : Vec n) (d : Vec m) (os : List (Obs m)), FullyObserved os →
          ∃ out, kfFilter ⟨.const A, .const b, .const Q, .const C, .const d, .const R, mu0,
              S0⟩ os = .ok out ∧ out.length = os.length ∧
            ∀ (t : ℕ) (r : Vec n × Mat n n), out[t]? = some r →
              ∀ i j, |r.2 i j - P i j| ≤ κ * ρ ^ t := by
  have hR0 : 0 ≤ R := Matrix.nonneg_iff_posSemidef.mpr hR
  obtain ⟨L, hL0, hL⟩ := exists_limit (A := A) (C := C) hQ hR0 hdet
  refine ⟨corr R C L, Matrix.nonneg_iff_posSemidef.mp (corr_nonneg hL0 hR0 C), ?_, ?_⟩
  · intro b mu0 d os hos
    refine ⟨_, kfFilter_eq ⟨trivial, trivial, trivial, trivial, trivial, trivial⟩, by simp, ?_⟩
    intro r hr
    obtain ⟨t, ht, rfl⟩ := List.mem_map.mp hr
    rw [List.mem_range] at ht
    show (PFun.kf _ _ _).filtCov = _
    rw [(kf_const hos.fn ht).2]
    congr 1
    have : A * corr R C L * Aᵀ + Q = L := hL
    rw [this]
    exact Function.iterate_fixed hL t
  · intro S0 hS0
    obtain ⟨κ, ρ, -, h0, h1, -, hconv⟩ := converges (A := A) (C := C) hQ hR0 hL0 hL hdet
      (Matrix.nonneg_iff_posSemidef.mpr hS0)
    refine ⟨κ, ρ, h0, h1, fun b mu0 d os hos => ?_⟩
    refine ⟨_, kfFilter_eq ⟨trivial, trivial, trivial, trivial, trivial, trivial⟩, by simp, ?_⟩
    intro t r hr i j
    obtain ⟨ht, -⟩ := List.getElem?_eq_some_iff.mp hr
    simp only [List.length_map, List.length_range] at ht
    simp only [List.getElem?_map, List.getElem?_range ht, Option.map_some, Option.some.injEq] at hr
    subst hr
    simp only [(kf_const hos.fn ht).2]
    exact hconv t i j

/-- **C63**, means.  Under the same conditions the influence of the initial mean fades at a geometric
rate, whatever the initial covariance: two runs on the same data from different initial means end up
with the same means. -/
theorem C63_initial_mean_fades (hQ : Q.PosDef) (hR : R.PosSemidef) (hdet : Detectable A C)
    (hS0 : S0.PosSemidef) (mu0 a : Vec n) :
    ∃ κ ρ : ℝ, 0 ≤ ρ ∧ ρ < 1 ∧
      ∀ (b : Vec n) (d : Vec m) (os : List (Obs m)), FullyObserved os →
        ∃ out out' : List (Vec n × Mat n n),
          kfFilter ⟨.const A, .const b, .const Q, .const C, .const d, .const R, mu0, S0⟩ os
            = .ok out ∧
          kfFilter ⟨.const A, .const b, .const Q, .const C, .const d, .const R, a, S0⟩ os
            = .ok out' ∧ out.length = os.length ∧ out'.length = os.length ∧
          ∀ (t : ℕ) (r r' : Vec n × Mat n n), out[t]? = some r → out'[t]? = some r' →
            ∀ i, (r.1 i - r'.1 i) ^ 2 ≤ κ * ρ ^ t := by
  have hR0 : 0 ≤ R := Matrix.nonneg_iff_posSemidef.mpr hR
  have hS : 0 ≤ S0 := Matrix.nonneg_iff_posSemidef.mpr hS0
  have hQ0 := nonneg_of_posDef hQ
  obtain ⟨κ₁, hκ, hb⟩ := iter_bound (A := A) (C := C) hQ hR0 hdet hS
  have hκ0 : 0 < κ₁ := by linarith
  have hinv0 : 0 < κ₁⁻¹ := inv_pos.mpr hκ0
  have hinv1 : κ₁⁻¹ ≤ 1 / 2 := by rw [inv_le_comm₀ hκ0 (by norm_num)]; linarith
  set ρ := 1 - κ₁⁻¹ with hρdef
  have hρ : 0 < ρ := by linarith
  -- the difference after the first row
  set δ₀ : Vec n := (1 - gain S0 R C * C) *ᵥ (mu0 - a) with hδ₀
  set δ₁ : Vec n := A *ᵥ δ₀ with hδ₁
  have hrank : (0 : Mat n n) ≤ vecMulVec δ₁ δ₁ := by
    rw [Matrix.nonneg_iff_posSemidef]
    simpa using posSemidef_vecMulVec_self_star δ₁
  obtain ⟨c, hc0, hc⟩ := exists_dominates hQ hrank
  have hdom : ∀ v, (v ⬝ᵥ δ₁) ^ 2 ≤ c * (v ⬝ᵥ (Q *ᵥ v)) := by
    intro v
    have := form_le hc v
    rw [smul_mulVec, dotProduct_smul, smul_eq_mul, vecMulVec_mulVec] at this
    refine le_of_eq_of_le ?_ this
    rw [sq]
    simp [dotProduct_comm v δ₁]
  set M := ∑ i, Q i i with hM
  have hQd : ∀ i, 0 ≤ Q i i := fun i => (Matrix.nonneg_iff_posSemidef.mp hQ0).diag_nonneg
  have hMi : ∀ i, Q i i ≤ M := fun i => Finset.single_le_sum (fun i _ => hQd i) (Finset.mem_univ i)
  have hM0 : 0 ≤ M := Finset.sum_nonneg fun i _ => hQd i
  refine ⟨(∑ i, δ₀ i ^ 2) + c * κ₁ * M / ρ, ρ, hρ.le, by linarith, fun b d os hos => ?_⟩
  set p : Params n m := ⟨.const A, .const b, .const Q, .const C, .const d, .const R, mu0, S0⟩
    with hp
  have hcov : p.Covers os.length := ⟨trivial, trivial, trivial, trivial, trivial, trivial⟩
  have hcov' : ({ p with mu0 := a } : Params n m).Covers os.length :=
    ⟨trivial, trivial, trivial, trivial, trivial, trivial⟩
  have hPSD : p.fn.PSD os.length := ⟨fun _ _ => hQ.posSemidef, fun _ _ => hR, hS0⟩
  refine ⟨_, _, kfFilter_eq hcov, kfFilter_eq hcov', by simp, by simp, fun t r r' hr hr' i => ?_⟩
  obtain ⟨ht, -⟩ := List.getElem?_eq_some_iff.mp hr
  simp only [List.length_map, List.length_range] at ht
  simp only [List.getElem?_map, List.getElem?_range ht, Option.map_some, Option.some.injEq]
    at hr hr'
  subst hr hr'
  show ((p.fn.kf (obsFn os) t).filtMean i - ((p.fn.withMu a).kf (obsFn os) t).filtMean i) ^ 2 ≤ _
  have hz := hos.fn
  have e0 : (p.fn.kf (obsFn os) 0).filtMean - ((p.fn.withMu a).kf (obsFn os) 0).filtMean = δ₀ := by
    have h0 := hz 0 (by omega)
    rw [(p.fn.kf_observed _ h0).2.1, ((p.fn.withMu a).kf_observed _ h0).2.1,
      (p.fn.withMu_cov a _ 0).1, (p.fn.kf_zero_pred _).1, (p.fn.kf_zero_pred _).2,
      ((p.fn.withMu a).kf_zero_pred _).1]
    show mu0 + gain S0 R C *ᵥ ((obsFn os 0).val - (C *ᵥ mu0 + d))
        - (a + gain S0 R C *ᵥ ((obsFn os 0).val - (C *ᵥ a + d)))
      = (1 - gain S0 R C * C) *ᵥ (mu0 - a)
    simp only [sub_mulVec, one_mulVec, mulVec_sub, mulVec_add, mulVec_mulVec]
    abel
  cases t with
  | zero =>
    rw [pow_zero, mul_one, ← Pi.sub_apply, e0]
    have : δ₀ i ^ 2 ≤ ∑ i, δ₀ i ^ 2 :=
      Finset.single_le_sum (f := fun i => δ₀ i ^ 2) (fun _ _ => sq_nonneg _) (Finset.mem_univ i)
    have h2 : 0 ≤ c * κ₁ * M / ρ := by positivity
    linarith
  | succ t =>
    have e1 : (p.fn.kf (obsFn os) 1).predMean - ((p.fn.withMu a).kf (obsFn os) 1).predMean
        = δ₁ := by
      rw [(p.fn.kf_pred_succ _ 0).1, ((p.fn.withMu a).kf_pred_succ _ 0).1, hδ₁, ← e0, mulVec_sub]
      exact add_sub_add_right_eq_sub _ _ _
    have hpred : ∀ s, s < os.length → (p.fn.kf (obsFn os) s).predCov = (ric A Q C R)^[s] S0 :=
      fun s hs => (kf_const hz hs).1
    have hfilt := (kf_const (A := A) (Q := Q) (C := C) (R := R) (b := b) (mu0 := mu0) (d := d)
      (S0 := S0) hz ht).2
    have key := (PFun.kf_forget_mean (P := p.fn) (z := obsFn os) hPSD a (s := 1) (t := t) (c := c)
      (ρ := ρ) hc0 hρ.le (fun v => ?_) (fun s _ hs => ?_) (by omega)).2 (Pi.single i 1)
    · rw [add_comm 1 t] at key
      have e2 : ∀ w : Vec n, (Pi.single i 1 : Vec n) ⬝ᵥ w = w i := fun w => by simp
      rw [e2, e2] at key
      have e3 : (p.fn.kf (obsFn os) (t + 1)).filtCov = corr R C ((ric A Q C R)^[t + 1] S0) := hfilt
      have h5 : corr R C ((ric A Q C R)^[t + 1] S0) ≤ κ₁ • Q :=
        le_trans (updated_le C (Matrix.nonneg_iff_posSemidef.mp (iter_nonneg hQ hR0 hS _)) hR)
          (hb (t + 1))
      have h6 := form_le h5 (Pi.single i 1)
      rw [e2, e2, mulVec_single_one, mulVec_single_one] at h6
      rw [e3, mulVec_single_one] at key
      simp only [col_apply, Matrix.smul_apply, smul_eq_mul] at h6 key
      have h7 : 0 ≤ c * ρ ^ t := mul_nonneg hc0 (pow_nonneg hρ.le t)
      have h8 : κ₁ * Q i i ≤ κ₁ * M := mul_le_mul_of_nonneg_left (hMi i) hκ0.le
      have h9 : c * ρ ^ t * (corr R C ((ric A Q C R)^[t + 1] S0) i i) ≤ c * ρ ^ t * (κ₁ * M) :=
        mul_le_mul_of_nonneg_left (h6.trans h8) h7
      have h10 : 0 ≤ (∑ i, δ₀ i ^ 2) * ρ ^ (t + 1) :=
        mul_nonneg (Finset.sum_nonneg fun _ _ => sq_nonneg _) (pow_nonneg hρ.le _)
      have h11 : ((∑ i, δ₀ i ^ 2) + c * κ₁ * M / ρ) * ρ ^ (t + 1)
          = (∑ i, δ₀ i ^ 2) * ρ ^ (t + 1) + c * ρ ^ t * (κ₁ * M) := by
        have hr := hρ.ne'
        generalize ρ = r at hr
        rw [pow_succ]; field_simp
      rw [h11]
      exact (key.trans h9).trans (by linarith)
    · rw [e1, hpred 1 (by omega)]
      exact dom_mono hc0 hdom (le_ric hQ hR0 hS) v
    · rw [hpred (s + 1) hs, hρdef, sub_sub_cancel]
      have h4 := smul_le' (hb (s + 1)) hinv0.le
      rwa [smul_smul, inv_mul_cancel₀ hκ0.ne', one_smul] at h4

end

/-! ### The hypotheses can be met

Constant velocity, the position observed. -/

theorem detectable_example : Detectable !![1, 1; 0, (1 : ℝ)] (!![1, 0] : Mat 1 2) := by
  refine ⟨!![2; 1], !![3, 2; 2, 3], ?_, ?_⟩
  · rw [posDef_iff_real]
    refine ⟨by ext i j; fin_cases i <;> fin_cases j <;> rfl, fun v hv => ?_⟩
    have e : v ⬝ᵥ (!![3, 2; 2, 3] *ᵥ v) = (v 0) ^ 2 + (v 1) ^ 2 + 2 * (v 0 + v 1) ^ 2 := by
      simp [dotProduct, mulVec, Fin.sum_univ_two]; ring
    rw [e]
    have : v 0 ≠ 0 ∨ v 1 ≠ 0 := by
      by_contra h
      push_neg at h
      exact hv (by ext i; fin_cases i; exacts [h.1, h.2])
    rcases this with h | h
    · have := sq_pos_of_ne_zero h; positivity
    · have := sq_pos_of_ne_zero h; positivity
  · have e : (!![3, 2; 2, 3] : Mat 2 2) - (!![1, 1; 0, 1] - (!![2; 1] : Mat 2 1) * (!![1, 0] : Mat 1 2))
        * !![3, 2; 2, 3] * (!![1, 1; 0, 1] - (!![2; 1] : Mat 2 1) * (!![1, 0] : Mat 1 2))ᵀ
        = 1 := by
      have e' : (!![1, 1; 0, 1] : Mat 2 2) - (!![2; 1] : Mat 2 1) * (!![1, 0] : Mat 1 2)
          = !![-1, 1; -1, 1] := by
        ext i j
        fin_cases i <;> fin_cases j <;> norm_num [Matrix.mul_apply]
      rw [e']
      ext i j
      fin_cases i <;> fin_cases j <;>
        simp [Matrix.mul_apply, Fin.sum_univ_two, Matrix.one_apply, vecMul, dotProduct] <;> norm_num
    rw [e]
    exact PosDef.one

/-- For C62: with process noise and bounded covariances some `ρ < 1` serves. -/
example : ∃ (os : List (Obs 1)), os.length = 2 ∧ ∃ out,
    kfFilter (⟨.const !![1], .const 0, .const !![1], .const !![1], .const 0, .const !![1], 0,
      !![1]⟩ : Params 1 1) os = .ok out ∧
    ∀ (t : ℕ) (r : Vec 1 × Mat 1 1), t + 1 < os.length → out[t]? = some r →
      ((!![1] : Mat 1 1) - (1 - (1 / 2 : ℝ)) • (!![1] * r.2 * (!![1])ᵀ + !![1])).PosSemidef := by
  refine ⟨[⟨0, fun _ => false⟩, ⟨0, fun _ => false⟩], rfl, _,
    kfFilter_eq ⟨trivial, trivial, trivial, trivial, trivial, trivial⟩, fun t r ht hr => ?_⟩
  have h0 : t = 0 := by simp at ht; omega
  subst h0
  simp only [List.getElem?_map, List.length_cons, List.length_nil, Nat.reduceAdd,
    List.getElem?_range (show 0 < 2 by omega), Option.map_some, Option.some.injEq] at hr
  subst hr
  have h1 : (1 : Mat 1 1).PosSemidef := PosSemidef.one
  set z := obsFn [(⟨0, fun _ => false⟩ : Obs 1), ⟨0, fun _ => false⟩]
  set P : PFun 1 1 := (⟨.const !![1], .const 0, .const !![1], .const !![1], .const 0,
    .const !![1], 0, !![1]⟩ : Params 1 1).fn
  have hle : (P.kf z 0).filtCov ≤ (1 : Mat 1 1) := by
    have hz : ¬ (z 0).missing := by rintro ⟨i, hi⟩; cases hi
    rw [(P.kf_observed z hz).2.2, (P.kf_zero_pred z).2]
    have : P.S0 = 1 := one_eq'
    rw [this]
    exact updated_le _ h1 (by show (!![1] : Mat 1 1).PosSemidef; rw [one_eq']; exact h1)
  have h2 := smul_le' hle (show (0 : ℝ) ≤ 1 / 2 by norm_num)
  rw [one_eq', Matrix.one_mul, transpose_one, Matrix.mul_one]
  have e : (1 : Mat 1 1) - (1 - (1 / 2 : ℝ)) • ((P.kf z 0).filtCov + 1)
      = (1 / 2 : ℝ) • 1 - (1 / 2 : ℝ) • (P.kf z 0).filtCov := by module
  rw [e]
  exact h2

end Verif
