import Verif.Proofs.Forgetting
import Verif.Spec.Forgetting
import Verif.Linalg.LogDet
import Mathlib.Analysis.SpecificLimits.Basic

/-!
# Convergence of the Riccati recursion
-/

open Matrix Filter Topology
open scoped MatrixOrder

namespace Verif

variable {n m : ℕ}

/-! ### Positive definite matrices dominate -/

theorem le_trace_smul {M : Mat n n} (hM : 0 ≤ M) : M ≤ M.trace • (1 : Mat n n) := by
  have hM' := Matrix.nonneg_iff_posSemidef.mp hM
  rw [Matrix.le_iff, posSemidef_iff_real]
  refine ⟨?_, fun v => ?_⟩
  · exact (Matrix.isHermitian_one.smul (IsSelfAdjoint.all _)).sub hM'.1
  · have hW : (((v ⬝ᵥ v) • (1 : Mat n n)) - vecMulVec v v).PosSemidef := by
      rw [posSemidef_iff_real]
      refine ⟨?_, fun w => ?_⟩
      · refine (Matrix.isHermitian_one.smul (IsSelfAdjoint.all _)).sub ?_
        ext i j
        simp [vecMulVec, mul_comm]
      · have e : w ⬝ᵥ (((v ⬝ᵥ v) • (1 : Mat n n) - vecMulVec v v) *ᵥ w)
            = (v ⬝ᵥ v) * (w ⬝ᵥ w) - (v ⬝ᵥ w) ^ 2 := by
          rw [sub_mulVec, smul_mulVec, one_mulVec, dotProduct_sub, dotProduct_smul, smul_eq_mul,
            vecMulVec_mulVec, sq]
          congr 1
          simp [dotProduct_smul, dotProduct_comm w v]
        rw [e, sub_nonneg]
        have := Finset.sum_mul_sq_le_sq_mul_sq Finset.univ v w
        simpa [dotProduct, sq] using this
    have h := trace_mul_nonneg hM' hW
    have e : (M * ((v ⬝ᵥ v) • (1 : Mat n n) - vecMulVec v v)).trace
        = v ⬝ᵥ ((M.trace • (1 : Mat n n) - M) *ᵥ v) := by
      rw [Matrix.mul_sub, trace_sub, Matrix.mul_smul, Matrix.mul_one, trace_smul, mul_vecMulVec,
        trace_vecMulVec, sub_mulVec, smul_mulVec, one_mulVec, dotProduct_sub, dotProduct_smul,
        smul_eq_mul, smul_eq_mul, mul_comm, dotProduct_comm v (M *ᵥ v)]
    rwa [e] at h

theorem exists_dominates {N M : Mat n n} (hN : N.PosDef) (hM : 0 ≤ M) :
    ∃ c : ℝ, 0 ≤ c ∧ M ≤ c • N := by
  obtain ⟨L, hL⟩ := exists_isCholesky N hN
  have hu : IsUnit L.det := hL.det_ne_zero.isUnit
  have h1 : 0 ≤ L⁻¹ * M * (L⁻¹)ᵀ :=
    Matrix.nonneg_iff_posSemidef.mpr (posSemidef_conj' (Matrix.nonneg_iff_posSemidef.mp hM) _)
  refine ⟨(L⁻¹ * M * (L⁻¹)ᵀ).trace, (Matrix.nonneg_iff_posSemidef.mp h1).trace_nonneg, ?_⟩
  have h2 := conj_le (le_trace_smul h1) L
  rw [conj_smul, Matrix.mul_one, hL.mul_transpose] at h2
  refine le_of_eq_of_le ?_ h2
  have e : L * (L⁻¹ * M * (L⁻¹)ᵀ) * Lᵀ = (L * L⁻¹) * M * (L * L⁻¹)ᵀ := by
    rw [transpose_mul]; simp only [Matrix.mul_assoc]
  rw [e, Matrix.mul_nonsing_inv _ hu]
  simp

theorem nonneg_of_posDef {N : Mat n n} (hN : N.PosDef) : 0 ≤ N :=
  Matrix.nonneg_iff_posSemidef.mpr hN.posSemidef

/-! ### The recursion -/

/-- One step of the recursion for predicted covariances. -/
noncomputable def ric (A Q : Mat n n) (C : Mat m n) (R : Mat m m) (P : Mat n n) : Mat n n :=
  A * corr R C P * Aᵀ + Q

section
variable {A Q : Mat n n} {C : Mat m n} {R : Mat m m} (hQ : Q.PosDef) (hR : 0 ≤ R)
include hQ hR

theorem le_ric {P : Mat n n} (hP : 0 ≤ P) : Q ≤ ric A Q C R P :=
  le_add_of_nonneg_left (Matrix.nonneg_iff_posSemidef.mpr
    (posSemidef_conj' (Matrix.nonneg_iff_posSemidef.mp (corr_nonneg hP hR C)) A))

theorem ric_nonneg {P : Mat n n} (hP : 0 ≤ P) : 0 ≤ ric A Q C R P :=
  (nonneg_of_posDef hQ).trans (le_ric hQ hR hP)

theorem iter_nonneg {S : Mat n n} (hS : 0 ≤ S) (t : ℕ) : 0 ≤ (ric A Q C R)^[t] S := by
  cases t with
  | zero => exact hS
  | succ t =>
    rw [Function.iterate_succ_apply']
    induction t with
    | zero => exact ric_nonneg hQ hR hS
    | succ t ih => rw [Function.iterate_succ_apply']; exact ric_nonneg hQ hR ih

theorem ric_scale {P P' : Mat n n} (hP : 0 ≤ P) (hP' : 0 ≤ P') {c : ℝ} (hc : 1 ≤ c)
    (h : P ≤ c • P') : ric A Q C R P ≤ c • ric A Q C R P' := by
  have h1 := conj_le (corr_scale hP hP' hR C hc h) A
  rw [conj_smul] at h1
  rw [ric, ric, smul_add]
  refine add_le_add h1 ?_
  simpa using smul_le_smul' (nonneg_of_posDef hQ) hc

theorem iter_bound (hdet : Detectable A C) {S : Mat n n} (hS : 0 ≤ S) :
    ∃ κ : ℝ, 2 ≤ κ ∧ ∀ t, (ric A Q C R)^[t] S ≤ κ • Q := by
  obtain ⟨K, N, hN, hD⟩ := hdet
  set F := A - K * C with hF
  obtain ⟨c, hc0, hc⟩ := exists_dominates hD (nonneg_of_posDef hN)
  have hW : 0 ≤ K * R * Kᵀ + Q := add_nonneg
    (Matrix.nonneg_iff_posSemidef.mpr (posSemidef_conj' (Matrix.nonneg_iff_posSemidef.mp hR) K))
    (nonneg_of_posDef hQ)
  obtain ⟨β, hβ0, hβ⟩ := exists_dominates hN hW
  obtain ⟨l, hl0, hl⟩ := exists_dominates hN hS
  obtain ⟨e, he0, he⟩ := exists_dominates hQ (nonneg_of_posDef hN)
  have hN0 := nonneg_of_posDef hN
  have hD0 := nonneg_of_posDef hD
  -- with `c + 1` in the place of `c`
  have hc1 : (0 : ℝ) < c + 1 := by linarith
  have hcD : N ≤ (c + 1) • (N - F * N * Fᵀ) := hc.trans (smul_le_smul' hD0 (by linarith))
  set lam := l + (c + 1) * β with hlam
  have hlam0 : 0 ≤ lam := add_nonneg hl0 (mul_nonneg hc1.le hβ0)
  have key : ∀ t, (ric A Q C R)^[t] S ≤ lam • N := by
    intro t
    induction t with
    | zero => exact hl.trans (smul_le_smul' hN0 (by rw [hlam]; nlinarith))
    | succ t ih =>
      rw [Function.iterate_succ_apply']
      have hp := iter_nonneg (A := A) (C := C) hQ hR hS t
      have h1 : ric A Q C R ((ric A Q C R)^[t] S)
          ≤ F * ((ric A Q C R)^[t] S) * Fᵀ + K * R * Kᵀ + Q :=
        add_le_add_left (joseph_pred hp hR C A K) Q
      have h2 := conj_le ih F
      rw [conj_smul] at h2
      have h3 : F * N * Fᵀ ≤ N - (c + 1)⁻¹ • N := by
        have := smul_le' hcD (inv_nonneg.mpr hc1.le)
        rw [smul_smul, inv_mul_cancel₀ hc1.ne', one_smul] at this
        exact le_sub_comm.mp this
      have h4 := smul_le' h3 hlam0
      calc _ ≤ _ := h1
        _ = F * ((ric A Q C R)^[t] S) * Fᵀ + (K * R * Kᵀ + Q) := add_assoc _ _ _
        _ ≤ lam • (N - (c + 1)⁻¹ • N) + β • N := add_le_add (h2.trans h4) hβ
        _ = (lam - lam * (c + 1)⁻¹ + β) • N := by module
        _ ≤ lam • N := smul_le_smul' hN0 (by
          have : β ≤ lam * (c + 1)⁻¹ := by
            rw [← div_eq_mul_inv, le_div_iff₀ hc1, hlam]; nlinarith
          linarith)
  refine ⟨lam * e + 2, by nlinarith, fun t => ?_⟩
  have h5 := smul_le' he hlam0
  rw [smul_smul] at h5
  exact ((key t).trans h5).trans (smul_le_smul' (nonneg_of_posDef hQ) (by linarith))

/-- Two runs with a common bound approach each other. -/
theorem iter_ratio {S S' : Mat n n} (hS : 0 ≤ S) (hS' : 0 ≤ S') {κ : ℝ} (hκ : 2 ≤ κ)
    (h : ∀ t, (ric A Q C R)^[t] S ≤ κ • Q) (h' : ∀ t, (ric A Q C R)^[t] S' ≤ κ • Q) (t : ℕ) :
    (ric A Q C R)^[t + 1] S ≤ (1 + κ * (1 - κ⁻¹) ^ t) • (ric A Q C R)^[t + 1] S' := by
  have hκ0 : (0 : ℝ) < κ := by linarith
  have hinv : κ⁻¹ ≤ 1 := inv_le_one_of_one_le₀ (by linarith)
  have hρ : (0 : ℝ) ≤ 1 - κ⁻¹ := by linarith
  have hQ0 := nonneg_of_posDef hQ
  induction t with
  | zero =>
    have h1 : Q ≤ (ric A Q C R)^[0 + 1] S' := by
      rw [Function.iterate_succ_apply']; exact le_ric hQ hR hS'
    have h2 := smul_le' h1 hκ0.le
    refine ((h 1).trans h2).trans
      (smul_le_smul' (iter_nonneg (A := A) (C := C) hQ hR hS' (0 + 1)) ?_)
    rw [pow_zero]; linarith
  | succ t ih =>
    have hn : (0 : ℝ) ≤ κ * (1 - κ⁻¹) ^ t := mul_nonneg hκ0.le (pow_nonneg hρ t)
    rw [Function.iterate_succ_apply', Function.iterate_succ_apply' _ (t + 1) S', pow_succ,
      ← mul_assoc]
    refine step_ratio hn (corr_scale (iter_nonneg hQ hR hS _) (iter_nonneg hQ hR hS' _) hR C
      (by linarith) ih) ?_
    have h3 := h' (t + 1 + 1)
    rw [Function.iterate_succ_apply'] at h3
    have h4 := smul_le' h3 (inv_nonneg.mpr hκ0.le)
    rw [smul_smul, inv_mul_cancel₀ hκ0.ne', one_smul] at h4
    rw [sub_sub_cancel]
    exact h4

end

/-! ### Entries -/

theorem form_single (M : Mat n n) (i j : Fin n) (s : ℝ) :
    (Pi.single i 1 + s • Pi.single j 1) ⬝ᵥ (M *ᵥ (Pi.single i 1 + s • Pi.single j 1))
      = M i i + s * M i j + s * M j i + s ^ 2 * M j j := by
  simp only [mulVec_add, mulVec_smul, mulVec_single_one, add_dotProduct, dotProduct_add,
    smul_dotProduct, dotProduct_smul, single_one_dotProduct, smul_eq_mul, col_apply]
  ring

theorem entry_le {X Y B : Mat n n} (hX : X.IsHermitian) (hY : Y.IsHermitian)
    (h1 : X ≤ Y + B) (h2 : Y ≤ X + B) (i j : Fin n) :
    |X i j - Y i j| ≤ (B i i + B j j) / 2 := by
  have sX : X j i = X i j := by simpa using hX.apply i j
  have sY : Y j i = Y i j := by simpa using hY.apply i j
  have hp : ∀ s : ℝ, s ^ 2 = 1 → X i i + s * X i j + s * X j i + s ^ 2 * X j j
      ≤ (Y + B) i i + s * (Y + B) i j + s * (Y + B) j i + s ^ 2 * (Y + B) j j := fun s _ => by
    rw [← form_single, ← form_single]; exact form_le h1 _
  have hq : ∀ s : ℝ, s ^ 2 = 1 → Y i i + s * Y i j + s * Y j i + s ^ 2 * Y j j
      ≤ (X + B) i i + s * (X + B) i j + s * (X + B) j i + s ^ 2 * (X + B) j j := fun s _ => by
    rw [← form_single, ← form_single]; exact form_le h2 _
  have a1 := hp 1 (by norm_num)
  have a2 := hp (-1) (by norm_num)
  have b1 := hq 1 (by norm_num)
  have b2 := hq (-1) (by norm_num)
  simp only [Matrix.add_apply, sX, sY] at a1 a2 b1 b2
  rw [abs_le]
  constructor <;> linarith

theorem le_of_entries {f g : ℕ → Mat n n} {F G : Mat n n}
    (hf : ∀ i j, Tendsto (fun t => f t i j) atTop (𝓝 (F i j)))
    (hg : ∀ i j, Tendsto (fun t => g t i j) atTop (𝓝 (G i j))) (h : ∀ t, f t ≤ g t) : F ≤ G := by
  rw [Matrix.le_iff, posSemidef_iff_real]
  have hd : ∀ i j, Tendsto (fun t => (g t - f t) i j) atTop (𝓝 ((G - F) i j)) := fun i j =>
    (hg i j).sub (hf i j)
  refine ⟨?_, fun v => ?_⟩
  · ext i j
    have hs : ∀ t, (g t - f t) j i = (g t - f t) i j := fun t => by
      simpa using (Matrix.le_iff.mp (h t)).1.apply i j
    have := hd j i
    simp only [hs] at this
    simpa using tendsto_nhds_unique this (hd i j)
  · have hl : Tendsto (fun t => v ⬝ᵥ ((g t - f t) *ᵥ v)) atTop (𝓝 (v ⬝ᵥ ((G - F) *ᵥ v))) := by
      simp only [dotProduct, mulVec]
      exact tendsto_finset_sum _ fun i _ => (tendsto_finset_sum _ fun j _ =>
        (hd i j).mul_const _).const_mul _
    exact ge_of_tendsto' hl fun t => (posSemidef_iff_real.mp (Matrix.le_iff.mp (h t))).2 v

/-! ### The limit -/

theorem herm_of_nonneg {M : Mat n n} (h : 0 ≤ M) : M.IsHermitian :=
  (Matrix.nonneg_iff_posSemidef.mp h).1

theorem pow_nonneg_rate {κ : ℝ} (hκ : 2 ≤ κ) (t : ℕ) : 0 ≤ κ * (1 - κ⁻¹) ^ t := by
  have hinv : κ⁻¹ ≤ 1 := inv_le_one_of_one_le₀ (by linarith)
  exact mul_nonneg (by linarith) (pow_nonneg (by linarith) t)

theorem ratio_abs {X Y Q : Mat n n} {ε κ : ℝ} (hε : 0 ≤ ε) (hY : Y ≤ κ • Q)
    (h : X ≤ (1 + ε) • Y) : X ≤ Y + (ε * κ) • Q := by
  refine h.trans ?_
  rw [add_smul, one_smul, mul_smul]
  exact add_le_add_right (smul_le' hY hε) Y

section
variable {A Q : Mat n n} {C : Mat m n} {R : Mat m m} (hQ : Q.PosDef) (hR : 0 ≤ R)
include hQ hR

theorem exists_limit (hdet : Detectable A C) :
    ∃ L : Mat n n, 0 ≤ L ∧ ric A Q C R L = L := by
  obtain ⟨κ, hκ, hb⟩ := iter_bound (A := A) (C := C) hQ hR hdet (le_refl (0 : Mat n n))
  have hinv1 : κ⁻¹ ≤ 1 := inv_le_one_of_one_le₀ (by linarith)
  have hinv0 : 0 < κ⁻¹ := inv_pos.mpr (by linarith)
  set a : ℕ → Mat n n := fun t => (ric A Q C R)^[t + 1] 0 with ha
  have hnn : ∀ t, 0 ≤ a t := fun t => iter_nonneg hQ hR le_rfl _
  have hshift : ∀ s t, (ric A Q C R)^[t + 1] ((ric A Q C R)^[s] 0) = a (t + s) := by
    intro s t
    rw [← Function.iterate_add_apply]
    simp only [ha]
    congr 1
    omega
  have hs0 : ∀ s, 0 ≤ (ric A Q C R)^[s] (0 : Mat n n) := fun s => iter_nonneg hQ hR le_rfl _
  have hbs : ∀ s t, (ric A Q C R)^[t] ((ric A Q C R)^[s] 0) ≤ κ • Q := fun s t => by
    rw [← Function.iterate_add_apply]; exact hb _
  have h1 : ∀ s t, a t ≤ (1 + κ * (1 - κ⁻¹) ^ t) • a (t + s) := fun s t => by
    have := iter_ratio hQ hR (le_refl 0) (hs0 s) hκ hb (hbs s) t
    rwa [hshift] at this
  have h2 : ∀ s t, a (t + s) ≤ (1 + κ * (1 - κ⁻¹) ^ t) • a t := fun s t => by
    have := iter_ratio hQ hR (hs0 s) (le_refl 0) hκ (hbs s) hb t
    rwa [hshift] at this
  have hrate := fun t => pow_nonneg_rate hκ t
  have hdist : ∀ i j t, |a t i j - a (t + 1) i j|
      ≤ (κ * κ * (Q i i + Q j j) / 2) * (1 - κ⁻¹) ^ t := by
    intro i j t
    have := entry_le (herm_of_nonneg (hnn t)) (herm_of_nonneg (hnn (t + 1)))
      (ratio_abs (hrate t) (hb (t + 1 + 1)) (h1 1 t))
      (ratio_abs (hrate t) (hb (t + 1)) (h2 1 t)) i j
    refine this.trans (le_of_eq ?_)
    simp only [Matrix.smul_apply, smul_eq_mul]
    ring
  have hlim : ∀ i j, ∃ l, Tendsto (fun t => a t i j) atTop (𝓝 l) := fun i j =>
    cauchySeq_tendsto_of_complete (cauchySeq_of_le_geometric (1 - κ⁻¹) _ (by linarith) fun t => by
      rw [Real.dist_eq]; exact hdist i j t)
  choose l hl using hlim
  let L : Mat n n := of l
  have hL : ∀ i j, Tendsto (fun t => a t i j) atTop (𝓝 (L i j)) := hl
  have hrt : Tendsto (fun t => 1 + κ * (1 - κ⁻¹) ^ t) atTop (𝓝 1) := by
    have := (tendsto_pow_atTop_nhds_zero_of_lt_one (r := 1 - κ⁻¹) (by linarith)
      (by linarith)).const_mul κ
    simpa using this.const_add 1
  have hL0 : 0 ≤ L := le_of_entries (f := fun _ => 0) (fun i j => tendsto_const_nhds) hL hnn
  have hsc : ∀ (X : Mat n n) (i j : Fin n),
      Tendsto (fun t => ((1 + κ * (1 - κ⁻¹) ^ t) • X) i j) atTop (𝓝 (X i j)) := fun X i j => by
    simpa using hrt.mul_const (X i j)
  have hs : ∀ t i j, Tendsto (fun s => a (t + s) i j) atTop (𝓝 (L i j)) := fun t i j => by
    have := (tendsto_add_atTop_iff_nat t).mpr (hL i j)
    simpa only [add_comm t] using this
  have b1 : ∀ t, a t ≤ (1 + κ * (1 - κ⁻¹) ^ t) • L := fun t =>
    le_of_entries (f := fun _ => a t) (fun i j => tendsto_const_nhds)
      (fun i j => by simpa using (hs t i j).const_mul (1 + κ * (1 - κ⁻¹) ^ t)) fun s => h1 s t
  have b2 : ∀ t, L ≤ (1 + κ * (1 - κ⁻¹) ^ t) • a t := fun t =>
    le_of_entries (g := fun _ => (1 + κ * (1 - κ⁻¹) ^ t) • a t) (hs t)
      (fun i j => tendsto_const_nhds) fun s => h2 s t
  have hstep : ∀ t, ric A Q C R (a t) = a (t + 1) := fun t =>
    (Function.iterate_succ_apply' _ _ _).symm
  have hL1 : ∀ i j, Tendsto (fun t => a (t + 1) i j) atTop (𝓝 (L i j)) := fun i j =>
    (tendsto_add_atTop_iff_nat 1).mpr (hL i j)
  refine ⟨L, hL0, le_antisymm ?_ ?_⟩
  · refine le_of_entries (f := fun _ => ric A Q C R L)
      (g := fun t => (1 + κ * (1 - κ⁻¹) ^ t) • a (t + 1)) (fun i j => tendsto_const_nhds)
      (fun i j => by simpa using hrt.mul (hL1 i j)) fun t => ?_
    rw [← hstep]
    exact ric_scale hQ hR hL0 (hnn t) (by linarith [hrate t]) (b2 t)
  · refine le_of_entries (f := fun t => a (t + 1))
      (g := fun t => (1 + κ * (1 - κ⁻¹) ^ t) • ric A Q C R L) hL1 (hsc _) fun t => ?_
    rw [← hstep]
    exact ric_scale hQ hR (hnn t) hL0 (by linarith [hrate t]) (b1 t)

theorem converges {L : Mat n n} (hL0 : 0 ≤ L) (hL : ric A Q C R L = L) (hdet : Detectable A C)
    {S : Mat n n} (hS : 0 ≤ S) :
    ∃ κ ρ : ℝ, 0 ≤ κ ∧ 0 ≤ ρ ∧ ρ < 1 ∧
      (∀ t, (1 - ρ) • (ric A Q C R)^[t] S ≤ Q) ∧
      ∀ t i j, |corr R C ((ric A Q C R)^[t] S) i j - corr R C L i j| ≤ κ * ρ ^ t := by
  obtain ⟨κ₁, hκ₁, hb₁⟩ := iter_bound (A := A) (C := C) hQ hR hdet hS
  obtain ⟨κ₂, hκ₂, hb₂⟩ := iter_bound (A := A) (C := C) hQ hR hdet hL0
  set κ := max κ₁ κ₂ with hκdef
  have hκ : 2 ≤ κ := hκ₁.trans (le_max_left _ _)
  have hQ0 := nonneg_of_posDef hQ
  have hb : ∀ t, (ric A Q C R)^[t] S ≤ κ • Q := fun t =>
    (hb₁ t).trans (smul_le_smul' hQ0 (le_max_left _ _))
  have hb' : ∀ t, (ric A Q C R)^[t] L ≤ κ • Q := fun t =>
    (hb₂ t).trans (smul_le_smul' hQ0 (le_max_right _ _))
  have hfix : ∀ t, (ric A Q C R)^[t] L = L := fun t => Function.iterate_fixed hL t
  have hκ0 : 0 < κ := by linarith
  have hinv1 : κ⁻¹ ≤ 1 / 2 := by
    rw [inv_le_comm₀ hκ0 (by norm_num)]; linarith
  have hinv0 : 0 < κ⁻¹ := inv_pos.mpr hκ0
  have hρ : 0 < 1 - κ⁻¹ := by linarith
  have hrate := fun t => pow_nonneg_rate hκ t
  have hp0 : ∀ t, 0 ≤ (ric A Q C R)^[t] S := fun t => iter_nonneg hQ hR hS t
  have corr_bound : ∀ {P : Mat n n}, 0 ≤ P → P ≤ κ • Q → corr R C P ≤ κ • Q := fun hP h => by
    refine le_trans ?_ h
    have := updated_le C (Matrix.nonneg_iff_posSemidef.mp hP) (Matrix.nonneg_iff_posSemidef.mp hR)
    exact this
  have hQd : ∀ i, 0 ≤ Q i i := fun i => (Matrix.nonneg_iff_posSemidef.mp hQ0).diag_nonneg
  set M := ∑ i, Q i i with hM
  have hMi : ∀ i, Q i i ≤ M := fun i => Finset.single_le_sum (fun i _ => hQd i) (Finset.mem_univ i)
  have hM0 : 0 ≤ M := Finset.sum_nonneg fun i _ => hQd i
  set D := ∑ i, ∑ j, |corr R C S i j - corr R C L i j| with hD
  have hDij : ∀ i j, |corr R C S i j - corr R C L i j| ≤ D := fun i j =>
    (Finset.single_le_sum (f := fun j => |corr R C S i j - corr R C L i j|)
      (fun _ _ => abs_nonneg _) (Finset.mem_univ j)).trans
      (Finset.single_le_sum (f := fun i => ∑ j, |corr R C S i j - corr R C L i j|)
        (fun _ _ => Finset.sum_nonneg fun _ _ => abs_nonneg _) (Finset.mem_univ i))
  have hD0 : 0 ≤ D := Finset.sum_nonneg fun _ _ => Finset.sum_nonneg fun _ _ => abs_nonneg _
  refine ⟨D + κ * κ * M / (1 - κ⁻¹), 1 - κ⁻¹, by positivity, hρ.le, by linarith, fun t => ?_,
    fun t i j => ?_⟩
  · have h4 := smul_le' (hb t) hinv0.le
    rw [smul_smul, inv_mul_cancel₀ hκ0.ne', one_smul] at h4
    rwa [sub_sub_cancel]
  · cases t with
    | zero =>
      rw [pow_zero, mul_one]
      have : 0 ≤ κ * κ * M / (1 - κ⁻¹) := by positivity
      exact (hDij i j).trans (by linarith)
    | succ t =>
      have r1 := iter_ratio hQ hR hS hL0 hκ hb hb' t
      have r2 := iter_ratio hQ hR hL0 hS hκ hb' hb t
      rw [hfix] at r1 r2
      have c1 := corr_scale (hp0 (t + 1)) hL0 hR C (by linarith [hrate t]) r1
      have c2 := corr_scale hL0 (hp0 (t + 1)) hR C (by linarith [hrate t]) r2
      have hLb : L ≤ κ • Q := by have := hb' 0; exact this
      have := entry_le (herm_of_nonneg (corr_nonneg (hp0 (t + 1)) hR C))
        (herm_of_nonneg (corr_nonneg hL0 hR C))
        (ratio_abs (hrate t) (corr_bound hL0 hLb) c1)
        (ratio_abs (hrate t) (corr_bound (hp0 (t + 1)) (hb (t + 1))) c2) i j
      refine this.trans ?_
      simp only [Matrix.smul_apply, smul_eq_mul]
      have e : (D + κ * κ * M / (1 - κ⁻¹)) * (1 - κ⁻¹) ^ (t + 1)
          = D * (1 - κ⁻¹) ^ (t + 1) + κ * (1 - κ⁻¹) ^ t * κ * M := by
        have hr := hρ.ne'
        generalize 1 - κ⁻¹ = r at hr
        rw [pow_succ]; field_simp
      rw [e]
      have h5 : 0 ≤ κ * (1 - κ⁻¹) ^ t * κ := mul_nonneg (hrate t) hκ0.le
      have h6 : κ * (1 - κ⁻¹) ^ t * κ * Q i i ≤ κ * (1 - κ⁻¹) ^ t * κ * M :=
        mul_le_mul_of_nonneg_left (hMi i) h5
      have h7 : κ * (1 - κ⁻¹) ^ t * κ * Q j j ≤ κ * (1 - κ⁻¹) ^ t * κ * M :=
        mul_le_mul_of_nonneg_left (hMi j) h5
      have h8 : 0 ≤ D * (1 - κ⁻¹) ^ (t + 1) := mul_nonneg hD0 (pow_nonneg hρ.le _)
      linarith

end

end Verif
