import Verif.Proofs.RiccatiReach
import Verif.Props.Forgetting

/-!
# C91: a steady state with a singular transition covariance

C63 asks for a positive definite transition covariance.  Models such as constant velocity have noise
in some components only; it is enough that the dynamics carry it to the others (`NoiseReaches`).
-/

open Matrix
open scoped MatrixOrder

namespace Verif

variable {n m : ℕ} {A Q : Mat n n} {C : Mat m n} {R : Mat m m}

theorem NoiseReaches.succ (hQ : Q.PosSemidef) {N : ℕ} (h : NoiseReaches A Q N) : NoiseReaches A Q (N + 1) := by
  unfold NoiseReaches
  rw [Finset.sum_range_succ]
  exact h.add_posSemidef (posSemidef_conj' hQ _)

/-- **C91.** Constant parameters, a transition covariance that may be singular but whose noise reaches
every direction in some number of steps, positive definite observation covariance, a state that can be
tracked from the observations, no masked rows.  There is a covariance `P` such that a run started one
step from `P` reports `P` at every row, and every run, whatever its initial covariance, reports
covariances that approach `P` at a geometric rate. -/
theorem C91_steady_state {N : ℕ} (hQ : Q.PosSemidef) (hQN : NoiseReaches A Q N) (hR : R.PosDef)
    (hdet : Detectable A C) :
    ∃ P : Mat n n, P.PosSemidef ∧
      (∀ (b mu0 : Vec n) (d : Vec m) (os : List (Obs m)), FullyObserved os →
        ∃ out, kfFilter ⟨.const A, .const b, .const Q, .const C, .const d, .const R, mu0,
            A * P * Aᵀ + Q⟩ os = .ok out ∧ out.length = os.length ∧ ∀ r ∈ out, r.2 = P) ∧
      ∀ S0 : Mat n n, S0.PosSemidef → ∃ κ ρ : ℝ, 0 ≤ ρ ∧ ρ < 1 ∧
        ∀ (b mu0 : Vec n) (d : Vec m) (os : List (Obs m)), FullyObserved os →
          ∃ out, kfFilter ⟨.const A, .const b, .const Q, .const C, .const d, .const R, mu0,
              S0⟩ os = .ok out ∧ out.length = os.length ∧
            ∀ (t : ℕ) (r : Vec n × Mat n n), out[t]? = some r →
              ∀ i j, |r.2 i j - P i j| ≤ κ * ρ ^ t := by
  have hR0 := nonneg_of_posDef hR
  have hQ0 : 0 ≤ Q := Matrix.nonneg_iff_posSemidef.mpr hQ
  have hW := reach_posDef (C := C) hQ0 hR (hQN.succ hQ)
  obtain ⟨L, hL0, hL⟩ := reach_limit (A := A) (C := C) hQ0 hR0 hdet N.succ_pos hW
  refine ⟨corr R C L, Matrix.nonneg_iff_posSemidef.mp (corr_nonneg hL0 hR0 C), ?_, ?_⟩
  · intro b mu0 d os hos
    refine ⟨_, kfFilter_eq ⟨trivial, trivial, trivial, trivial, trivial, trivial⟩, by simp, ?_⟩
    intro r hr
    obtain ⟨t, ht, rfl⟩ := List.mem_map.mp hr
    rw [List.mem_range] at ht
    show (PFun.kf _ _ _).filtCov = _
    rw [(kf_const hos.fn ht).2]
    congr 1
    have : A * corr R C L * Aᵀ + Q = L := hL
    rw [this]
    exact Function.iterate_fixed hL t
  · intro S0 hS0
    obtain ⟨κ, ρ, h0, h1, hconv⟩ := reach_converges (A := A) (C := C) hQ0 hR0 hdet N.succ_pos hW
      hL0 hL (Matrix.nonneg_iff_posSemidef.mpr hS0)
    refine ⟨κ, ρ, h0, h1, fun b mu0 d os hos => ?_⟩
    refine ⟨_, kfFilter_eq ⟨trivial, trivial, trivial, trivial, trivial, trivial⟩, by simp, ?_⟩
    intro t r hr i j
    obtain ⟨ht, -⟩ := List.getElem?_eq_some_iff.mp hr
    simp only [List.length_map, List.length_range] at ht
    simp only [List.getElem?_map, List.getElem?_range ht, Option.map_some, Option.some.injEq] at hr
    subst hr
    simp only [(kf_const hos.fn ht).2]
    exact hconv t i j

/-- **C91**, means.  Under the same conditions the influence of the initial mean fades at a geometric
rate, whatever the initial covariance. -/
theorem C91_initial_mean_fades {N : ℕ} {S0 : Mat n n} (hQ : Q.PosSemidef) (hQN : NoiseReaches A Q N)
    (hR : R.PosDef) (hdet : Detectable A C) (hS0 : S0.PosSemidef) (mu0 a : Vec n) :
    ∃ κ ρ : ℝ, 0 ≤ ρ ∧ ρ < 1 ∧
      ∀ (b : Vec n) (d : Vec m) (os : List (Obs m)), FullyObserved os →
        ∃ out out' : List (Vec n × Mat n n),
          kfFilter ⟨.const A, .const b, .const Q, .const C, .const d, .const R, mu0, S0⟩ os
            = .ok out ∧
          kfFilter ⟨.const A, .const b, .const Q, .const C, .const d, .const R, a, S0⟩ os
            = .ok out' ∧ out.length = os.length ∧ out'.length = os.length ∧
          ∀ (t : ℕ) (r r' : Vec n × Mat n n), out[t]? = some r → out'[t]? = some r' →
            ∀ i, (r.1 i - r'.1 i) ^ 2 ≤ κ * ρ ^ t := by
  have hR0 := nonneg_of_posDef hR
  have hQ0 : 0 ≤ Q := Matrix.nonneg_iff_posSemidef.mpr hQ
  have hW := reach_posDef (C := C) hQ0 hR (hQN.succ hQ)
  obtain ⟨κ, ρ, h0, h1, hfade⟩ := meanGap_fades (A := A) (C := C) hQ0 hR0 hdet N.succ_pos hW
    (Matrix.nonneg_iff_posSemidef.mpr hS0) (mu0 - a)
  refine ⟨κ, ρ, h0, h1, fun b d os hos => ?_⟩
  set p : Params n m := ⟨.const A, .const b, .const Q, .const C, .const d, .const R, mu0, S0⟩
    with hp
  have hcov : p.Covers os.length := ⟨trivial, trivial, trivial, trivial, trivial, trivial⟩
  have hcov' : ({ p with mu0 := a } : Params n m).Covers os.length :=
    ⟨trivial, trivial, trivial, trivial, trivial, trivial⟩
  refine ⟨_, _, kfFilter_eq hcov, kfFilter_eq hcov', by simp, by simp, fun t r r' hr hr' i => ?_⟩
  obtain ⟨ht, -⟩ := List.getElem?_eq_some_iff.mp hr
  simp only [List.length_map, List.length_range] at ht
  simp only [List.getElem?_map, List.getElem?_range ht, Option.map_some, Option.some.injEq]
    at hr hr'
  subst hr hr'
  show ((p.fn.kf (obsFn os) t).filtMean i - ((p.fn.withMu a).kf (obsFn os) t).filtMean i) ^ 2 ≤ _
  have hz := hos.fn
  have filt : ∀ t, t < os.length →
      (p.fn.kf (obsFn os) t).predMean - ((p.fn.withMu a).kf (obsFn os) t).predMean
        = meanGap A Q C R S0 (mu0 - a) t →
      (p.fn.kf (obsFn os) t).filtMean - ((p.fn.withMu a).kf (obsFn os) t).filtMean
        = (1 - gain ((ric A Q C R)^[t] S0) R C * C) *ᵥ meanGap A Q C R S0 (mu0 - a) t := by
    intro t ht h
    have hm := hz t ht
    have hpc : (p.fn.kf (obsFn os) t).predCov = (ric A Q C R)^[t] S0 := (kf_const hz ht).1
    rw [← h, (p.fn.kf_observed _ hm).2.1, ((p.fn.withMu a).kf_observed _ hm).2.1,
      (p.fn.withMu_cov a _ t).1, hpc]
    show _ + gain ((ric A Q C R)^[t] S0) R C *ᵥ ((obsFn os t).val - (C *ᵥ _ + d))
        - (_ + gain ((ric A Q C R)^[t] S0) R C *ᵥ ((obsFn os t).val - (C *ᵥ _ + d))) = _
    simp only [sub_mulVec, one_mulVec, mulVec_sub, mulVec_add, mulVec_mulVec]
    abel
  have pred : ∀ t, t < os.length →
      (p.fn.kf (obsFn os) t).predMean - ((p.fn.withMu a).kf (obsFn os) t).predMean
        = meanGap A Q C R S0 (mu0 - a) t := by
    intro t
    induction t with
    | zero => intro _; rfl
    | succ t ih =>
      intro ht
      rw [(p.fn.kf_pred_succ _ t).1, ((p.fn.withMu a).kf_pred_succ _ t).1, meanGap,
        ← filt t (by omega) (ih (by omega)), mulVec_sub]
      exact add_sub_add_right_eq_sub _ _ _
  rw [← Pi.sub_apply, filt t ht (pred t ht)]
  exact hfade t i

/-! ### The hypotheses can be met

Constant velocity, noise on the velocity only, the position observed. -/

theorem reaches_example : NoiseReaches !![1, 1; 0, (1 : ℝ)] !![0, 0; 0, 1] 2 := by
  unfold NoiseReaches
  have e : (∑ k ∈ Finset.range 2, (!![1, 1; 0, (1 : ℝ)] : Mat 2 2) ^ k * !![0, 0; 0, 1]
      * (!![1, 1; 0, (1 : ℝ)] ^ k)ᵀ) = !![1, 1; 1, 2] := by
    rw [Finset.sum_range_succ, Finset.sum_range_one, pow_zero, pow_one]
    ext i j
    fin_cases i <;> fin_cases j <;>
      simp [Matrix.mul_apply, Fin.sum_univ_two, Matrix.one_apply, vecMul, dotProduct] <;> norm_num
  rw [e, posDef_iff_real]
  refine ⟨by ext i j; fin_cases i <;> fin_cases j <;> rfl, fun v hv => ?_⟩
  have e : v ⬝ᵥ (!![1, 1; 1, 2] *ᵥ v) = (v 0 + v 1) ^ 2 + (v 1) ^ 2 := by
    simp [dotProduct, mulVec, Fin.sum_univ_two]; ring
  rw [e]
  by_cases h : v 1 = 0
  · have h0 : v 0 ≠ 0 := fun h0 => hv (by ext i; fin_cases i; exacts [h0, h])
    rw [h]
    have := sq_pos_of_ne_zero h0
    simpa using this
  · have := sq_pos_of_ne_zero h
    positivity

example : ∃ P : Mat 2 2, P.PosSemidef ∧ ¬ (!![0, 0; 0, (1 : ℝ)] : Mat 2 2).PosDef ∧
    ∀ S0 : Mat 2 2, S0.PosSemidef → ∃ κ ρ : ℝ, 0 ≤ ρ ∧ ρ < 1 ∧
      ∀ (b mu0 : Vec 2) (d : Vec 1) (os : List (Obs 1)), FullyObserved os →
        ∃ out, kfFilter ⟨.const !![1, 1; 0, 1], .const b, .const !![0, 0; 0, 1],
            .const !![1, 0], .const d, .const 1, mu0, S0⟩ os = .ok out ∧
          out.length = os.length ∧ ∀ (t : ℕ) (r : Vec 2 × Mat 2 2), out[t]? = some r →
            ∀ i j, |r.2 i j - P i j| ≤ κ * ρ ^ t := by
  have hQ : (!![0, 0; 0, (1 : ℝ)] : Mat 2 2).PosSemidef := by
    have : (!![0, 0; 0, (1 : ℝ)] : Mat 2 2) = diagonal ![0, 1] := by
      ext i j; fin_cases i <;> fin_cases j <;> rfl
    rw [this]
    exact PosSemidef.diagonal fun i => by fin_cases i <;> simp
  obtain ⟨P, hP, -, h⟩ := C91_steady_state (R := 1) hQ reaches_example PosDef.one
    detectable_example
  refine ⟨P, hP, fun hd => ?_, h⟩
  have := (posDef_iff_real.mp hd).2 ![1, 0] (fun h => by simpa using congrFun h 0)
  simp [dotProduct, mulVec, Fin.sum_univ_two] at this

end Verif
