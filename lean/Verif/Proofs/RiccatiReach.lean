import Verif.Proofs.Riccati
import Mathlib.Analysis.SpecialFunctions.Pow.Real

/-!
# The Riccati recursion with a singular transition covariance (C91)
-/

open Matrix Filter Topology
open scoped MatrixOrder

namespace Verif

variable {n m : ℕ}

section
variable {A Q : Mat n n} {C : Mat m n} {R : Mat m m} (hQ : 0 ≤ Q) (hR : 0 ≤ R)
include hR

/-- The correction is concave, in the form used below. -/
theorem corr_concave {X Y Z : Mat n n} {δ : ℝ} (hδ : 0 ≤ δ) (hX : 0 ≤ X) (hY : 0 ≤ Y)
    (hZ : 0 ≤ Z) (h : X + δ • Z ≤ (1 + δ) • Y) :
    corr R C X + δ • corr R C Z ≤ (1 + δ) • corr R C Y := by
  have h1 := corr_le hX hR C (gain Y R C)
  have h2 := smul_le' (corr_le hZ hR C (gain Y R C)) hδ
  have h3 := conj_le h (1 - gain Y R C * C)
  rw [conj_smul] at h3
  rw [corr_eq hY hR]
  calc _ ≤ _ := add_le_add h1 h2
    _ = (1 - gain Y R C * C) * (X + δ • Z) * (1 - gain Y R C * C)ᵀ
        + (1 + δ) • (gain Y R C * R * (gain Y R C)ᵀ) := by
      rw [Matrix.mul_add, Matrix.add_mul, Matrix.mul_smul, Matrix.smul_mul]
      module
    _ ≤ _ := by
      rw [smul_add]
      exact add_le_add_left h3 _

theorem ric_concave {X Y Z : Mat n n} {δ : ℝ} (hδ : 0 ≤ δ) (hX : 0 ≤ X) (hY : 0 ≤ Y)
    (hZ : 0 ≤ Z) (h : X + δ • Z ≤ (1 + δ) • Y) :
    ric A Q C R X + δ • ric A Q C R Z ≤ (1 + δ) • ric A Q C R Y := by
  have h1 := conj_le (corr_concave hR (C := C) hδ hX hY hZ h) A
  rw [conj_smul, Matrix.mul_add, Matrix.add_mul, Matrix.mul_smul, Matrix.smul_mul] at h1
  have := add_le_add_left h1 ((1 + δ) • Q)
  rw [← smul_add] at this
  refine le_of_eq_of_le ?_ this
  simp only [ric]
  module

include hQ

theorem ric_nonneg' {P : Mat n n} (hP : 0 ≤ P) : 0 ≤ ric A Q C R P :=
  add_nonneg (Matrix.nonneg_iff_posSemidef.mpr
    (posSemidef_conj' (Matrix.nonneg_iff_posSemidef.mp (corr_nonneg hP hR C)) A)) hQ

theorem ric_mono {P P' : Mat n n} (hP : 0 ≤ P) (hP' : 0 ≤ P') (h : P ≤ P') :
    ric A Q C R P ≤ ric A Q C R P' := by
  have := ric_concave (A := A) (Q := Q) (C := C) hR (δ := 0) le_rfl hP hP' hP (by simpa using h)
  simpa using this

theorem iter_nonneg' {S : Mat n n} (hS : 0 ≤ S) (t : ℕ) : 0 ≤ (ric A Q C R)^[t] S := by
  induction t with
  | zero => exact hS
  | succ t ih => rw [Function.iterate_succ_apply']; exact ric_nonneg' hQ hR ih

theorem iter_mono {S S' : Mat n n} (hS : 0 ≤ S) (hS' : 0 ≤ S') (h : S ≤ S') (t : ℕ) :
    (ric A Q C R)^[t] S ≤ (ric A Q C R)^[t] S' := by
  induction t with
  | zero => exact h
  | succ t ih =>
    rw [Function.iterate_succ_apply', Function.iterate_succ_apply']
    exact ric_mono hQ hR (iter_nonneg' hQ hR hS t) (iter_nonneg' hQ hR hS' t) ih

theorem iter_concave {X Y Z : Mat n n} {δ : ℝ} (hδ : 0 ≤ δ) (hX : 0 ≤ X) (hY : 0 ≤ Y)
    (hZ : 0 ≤ Z) (h : X + δ • Z ≤ (1 + δ) • Y) (t : ℕ) :
    (ric A Q C R)^[t] X + δ • (ric A Q C R)^[t] Z ≤ (1 + δ) • (ric A Q C R)^[t] Y := by
  induction t with
  | zero => exact h
  | succ t ih =>
    simp only [Function.iterate_succ_apply']
    exact ric_concave hR hδ (iter_nonneg' hQ hR hX t) (iter_nonneg' hQ hR hY t)
      (iter_nonneg' hQ hR hZ t) ih

/-- The covariances stay bounded if the state can be tracked. -/
theorem iter_bounded (hdet : Detectable A C) {S : Mat n n} (hS : 0 ≤ S) :
    ∃ B : Mat n n, 0 ≤ B ∧ ∀ t, (ric A Q C R)^[t] S ≤ B := by
  obtain ⟨K, N, hN, hD⟩ := hdet
  set F := A - K * C with hF
  obtain ⟨c, hc0, hc⟩ := exists_dominates hD (nonneg_of_posDef hN)
  have hW : 0 ≤ K * R * Kᵀ + Q := add_nonneg
    (Matrix.nonneg_iff_posSemidef.mpr (posSemidef_conj' (Matrix.nonneg_iff_posSemidef.mp hR) K))
    hQ
  obtain ⟨β, hβ0, hβ⟩ := exists_dominates hN hW
  obtain ⟨l, hl0, hl⟩ := exists_dominates hN hS
  have hN0 := nonneg_of_posDef hN
  have hD0 := nonneg_of_posDef hD
  have hc1 : (0 : ℝ) < c + 1 := by linarith
  have hcD : N ≤ (c + 1) • (N - F * N * Fᵀ) := hc.trans (smul_le_smul' hD0 (by linarith))
  set lam := l + (c + 1) * β with hlam
  have hlam0 : 0 ≤ lam := add_nonneg hl0 (mul_nonneg hc1.le hβ0)
  refine ⟨lam • N, by simpa using smul_le_smul' hN0 hlam0, fun t => ?_⟩
  induction t with
  | zero => exact hl.trans (smul_le_smul' hN0 (by rw [hlam]; nlinarith))
  | succ t ih =>
    rw [Function.iterate_succ_apply']
    have hp := iter_nonneg' (A := A) (C := C) hQ hR hS t
    have h1 : ric A Q C R ((ric A Q C R)^[t] S)
        ≤ F * ((ric A Q C R)^[t] S) * Fᵀ + K * R * Kᵀ + Q :=
      add_le_add_left (joseph_pred hp hR C A K) Q
    have h2 := conj_le ih F
    rw [conj_smul] at h2
    have h3 : F * N * Fᵀ ≤ N - (c + 1)⁻¹ • N := by
      have := smul_le' hcD (inv_nonneg.mpr hc1.le)
      rw [smul_smul, inv_mul_cancel₀ hc1.ne', one_smul] at this
      exact le_sub_comm.mp this
    have h4 := smul_le' h3 hlam0
    calc _ ≤ _ := h1
      _ = F * ((ric A Q C R)^[t] S) * Fᵀ + (K * R * Kᵀ + Q) := add_assoc _ _ _
      _ ≤ lam • (N - (c + 1)⁻¹ • N) + β • N := add_le_add (h2.trans h4) hβ
      _ = (lam - lam * (c + 1)⁻¹ + β) • N := by module
      _ ≤ lam • N := smul_le_smul' hN0 (by
        have : β ≤ lam * (c + 1)⁻¹ := by
          rw [← div_eq_mul_inv, le_div_iff₀ hc1, hlam]; nlinarith
        linarith)

end

/-! ### The transition noise reaches every direction -/

theorem form_zero {M : Mat n n} (hM : 0 ≤ M) {v : Vec n} (h : v ⬝ᵥ (M *ᵥ v) = 0) : M *ᵥ v = 0 := by
  have hM' := Matrix.nonneg_iff_posSemidef.mp hM
  have := hM'.dotProduct_mulVec_zero_iff v
  rw [star_trivial] at this
  exact this.mp h

theorem form_conj_sq (M N : Mat n n) (v : Vec n) :
    v ⬝ᵥ ((M * N * Mᵀ) *ᵥ v) = (Mᵀ *ᵥ v) ⬝ᵥ (N *ᵥ (Mᵀ *ᵥ v)) := by
  rw [← mulVec_mulVec, ← mulVec_mulVec, dotProduct_mulVec, ← mulVec_transpose]

/-- Observing makes nothing certain that was not. -/
theorem corr_form_zero {P : Mat n n} {R : Mat m m} {C : Mat m n} (hP : 0 ≤ P) (hR : R.PosDef)
    {w : Vec n} (h : w ⬝ᵥ (corr R C P *ᵥ w) = 0) : w ⬝ᵥ (P *ᵥ w) = 0 := by
  have hR0 := nonneg_of_posDef hR
  rw [corr_eq hP hR0, add_mulVec, dotProduct_add] at h
  have e2 : w ⬝ᵥ ((gain P R C * R * (gain P R C)ᵀ) *ᵥ w)
      = ((gain P R C)ᵀ *ᵥ w) ⬝ᵥ (R *ᵥ ((gain P R C)ᵀ *ᵥ w)) := by
    rw [← mulVec_mulVec, ← mulVec_mulVec, dotProduct_mulVec, ← mulVec_transpose]
  rw [form_conj_sq, e2] at h
  have n1 := (posSemidef_iff_real.mp (Matrix.nonneg_iff_posSemidef.mp hP)).2
    ((1 - gain P R C * C)ᵀ *ᵥ w)
  have n2 := (posSemidef_iff_real.mp hR.posSemidef).2 ((gain P R C)ᵀ *ᵥ w)
  have z2 : (gain P R C)ᵀ *ᵥ w = 0 := by
    by_contra hne
    have := hR.dotProduct_mulVec_pos hne
    rw [star_trivial] at this
    linarith
  have z1 : (1 - gain P R C * C)ᵀ *ᵥ w = w := by
    rw [transpose_sub, transpose_one, sub_mulVec, one_mulVec, transpose_mul, ← mulVec_mulVec, z2,
      mulVec_zero, sub_zero]
  rw [z1] at h n1
  linarith

theorem reach_posDef {A Q : Mat n n} {C : Mat m n} {R : Mat m m} (hQ : 0 ≤ Q) (hR : R.PosDef)
    {N : ℕ} (h : (∑ k ∈ Finset.range N, A ^ k * Q * (A ^ k)ᵀ).PosDef) :
    ((ric A Q C R)^[N] 0).PosDef := by
  have hR0 := nonneg_of_posDef hR
  have hnn := fun t => iter_nonneg' (A := A) (C := C) hQ hR0 (le_refl (0 : Mat n n)) t
  have key : ∀ t (v : Vec n), v ⬝ᵥ ((ric A Q C R)^[t] 0 *ᵥ v) = 0 →
      ∀ k < t, v ⬝ᵥ ((A ^ k * Q * (A ^ k)ᵀ) *ᵥ v) = 0 := by
    intro t
    induction t with
    | zero => intro v _ k hk; omega
    | succ t ih =>
      intro v hv k hk
      rw [Function.iterate_succ_apply', ric, add_mulVec, dotProduct_add, form_conj_sq] at hv
      have n1 := (posSemidef_iff_real.mp (Matrix.nonneg_iff_posSemidef.mp
        (corr_nonneg (hnn t) hR0 C))).2 (Aᵀ *ᵥ v)
      have n2 := (posSemidef_iff_real.mp (Matrix.nonneg_iff_posSemidef.mp hQ)).2 v
      cases k with
      | zero => simp only [pow_zero, Matrix.one_mul, transpose_one, Matrix.mul_one]; linarith
      | succ k =>
        have := ih (Aᵀ *ᵥ v) (corr_form_zero (hnn t) hR (by linarith)) k (by omega)
        rw [form_conj_sq] at this ⊢
        rwa [pow_succ' A k, transpose_mul, ← mulVec_mulVec]
  refine PosDef.of_dotProduct_mulVec_pos (herm_of_nonneg (hnn N)) fun v hv => ?_
  rw [star_trivial]
  have n1 := (posSemidef_iff_real.mp (Matrix.nonneg_iff_posSemidef.mp (hnn N))).2 v
  refine lt_of_le_of_ne n1 fun h0 => ?_
  have hz := key N v h0.symm
  have := h.dotProduct_mulVec_pos hv
  rw [star_trivial, sum_mulVec, dotProduct_sum,
    Finset.sum_eq_zero fun k hk => hz k (Finset.mem_range.mp hk)] at this
  exact lt_irrefl _ this

/-! ### Two runs -/

/-- A rate per block of `N` steps is a rate per step. -/
theorem block_rate {N : ℕ} (hN : 0 < N) {κ : ℝ} (hκ : 2 ≤ κ) :
    ∃ K ρ : ℝ, 0 ≤ K ∧ 0 < ρ ∧ ρ < 1 ∧ ∀ t, N ≤ t → κ * (1 - κ⁻¹) ^ (t / N - 1) ≤ K * ρ ^ t := by
  have hκ0 : 0 < κ := by linarith
  have hinv0 : 0 < κ⁻¹ := inv_pos.mpr hκ0
  have hinv1 : κ⁻¹ ≤ 1 / 2 := by rw [inv_le_comm₀ hκ0 (by norm_num)]; linarith
  set σ := 1 - κ⁻¹ with hσ
  have hσ0 : 0 < σ := by linarith
  have hσ1 : σ < 1 := by linarith
  set ρ := σ ^ ((N : ℝ)⁻¹) with hρ
  have hρ0 : 0 < ρ := Real.rpow_pos_of_pos hσ0 _
  have hρ1 : ρ < 1 := Real.rpow_lt_one hσ0.le hσ1 (by positivity)
  have hpow : ρ ^ N = σ := Real.rpow_inv_natCast_pow hσ0.le hN.ne'
  refine ⟨κ / (σ * σ), ρ, by positivity, hρ0, hρ1, fun t ht => ?_⟩
  have h1 : σ ^ (t / N - 1) * (σ * σ) = ρ ^ (N * (t / N - 1 + 2)) := by
    rw [pow_mul, hpow, pow_add]; ring
  have h2 : t ≤ N * (t / N - 1 + 2) := by
    have h3 := Nat.div_add_mod t N
    have h4 := Nat.mod_lt t hN
    have h5 : 1 ≤ t / N := (Nat.one_le_div_iff hN).mpr ht
    have h6 : t / N - 1 + 2 = t / N + 1 := by omega
    rw [h6, Nat.mul_add]
    omega
  have h3 : σ ^ (t / N - 1) * (σ * σ) ≤ ρ ^ t := by
    rw [h1]; exact pow_le_pow_of_le_one hρ0.le hρ1.le h2
  have h4 : 0 < σ * σ := by positivity
  rw [div_mul_eq_mul_div, le_div_iff₀ h4, mul_assoc]
  exact mul_le_mul_of_nonneg_left h3 hκ0.le

/-- A geometric bound from some time on gives one from the start. -/
theorem geom_all {ι : Type*} [Fintype ι] {x : ι → ℕ → ℝ} {K ρ : ℝ} (hρ : 0 < ρ) {N : ℕ}
    (h : ∀ i t, N ≤ t → x i t ≤ K * ρ ^ t) : ∃ K', ∀ i t, x i t ≤ K' * ρ ^ t := by
  set D := ∑ t ∈ Finset.range N, ∑ i, |x i t| / ρ ^ t with hD
  have hin : ∀ t, 0 ≤ ∑ i, |x i t| / ρ ^ t := fun t =>
    Finset.sum_nonneg fun _ _ => by positivity
  have hD0 : 0 ≤ D := Finset.sum_nonneg fun t _ => hin t
  refine ⟨|K| + D, fun i t => ?_⟩
  have hp : 0 < ρ ^ t := pow_pos hρ t
  rcases le_or_gt N t with ht | ht
  · exact (h i t ht).trans (mul_le_mul_of_nonneg_right (by linarith [le_abs_self K]) hp.le)
  · have h1 : |x i t| / ρ ^ t ≤ D :=
      (Finset.single_le_sum (f := fun i => |x i t| / ρ ^ t) (fun _ _ => by positivity)
        (Finset.mem_univ i)).trans
      (Finset.single_le_sum (f := fun t => ∑ i, |x i t| / ρ ^ t) (fun t _ => hin t)
        (Finset.mem_range.mpr ht))
    rw [div_le_iff₀ hp] at h1
    have h2 : 0 ≤ |K| * ρ ^ t := by positivity
    linarith [le_abs_self (x i t)]

section
variable {A Q : Mat n n} {C : Mat m n} {R : Mat m m} (hQ : 0 ≤ Q) (hR : 0 ≤ R)
include hQ hR

theorem reach_le {S : Mat n n} (hS : 0 ≤ S) {N t : ℕ} (ht : N ≤ t) :
    (ric A Q C R)^[N] 0 ≤ (ric A Q C R)^[t] S := by
  obtain ⟨s, rfl⟩ := Nat.exists_eq_add_of_le ht
  rw [Function.iterate_add_apply]
  have hs := iter_nonneg' (A := A) (C := C) hQ hR hS s
  exact iter_mono hQ hR le_rfl hs hs N

theorem reach_ratio {S S' : Mat n n} (hS : 0 ≤ S) (hS' : 0 ≤ S') {N : ℕ} {κ : ℝ} (hκ : 2 ≤ κ)
    (hb : ∀ t, (ric A Q C R)^[t] S ≤ κ • (ric A Q C R)^[N] 0)
    (hb' : ∀ t, (ric A Q C R)^[t] S' ≤ κ • (ric A Q C R)^[N] 0) (j r : ℕ) :
    (ric A Q C R)^[N * (j + 1) + r] S
      ≤ (1 + κ * (1 - κ⁻¹) ^ j) • (ric A Q C R)^[N * (j + 1) + r] S' := by
  have hκ0 : 0 < κ := by linarith
  have hnn' : ∀ t, 0 ≤ (ric A Q C R)^[t] S' := fun t => iter_nonneg' hQ hR hS' t
  induction j with
  | zero =>
    have h1 := smul_le' (reach_le (A := A) (C := C) hQ hR hS' (N := N)
      (show N ≤ N * (0 + 1) + r by omega)) hκ0.le
    refine (hb _).trans (h1.trans (smul_le_smul' (hnn' _) ?_))
    simp
  | succ j ih =>
    have hrate := pow_nonneg_rate hκ j
    have hX := iter_nonneg' (A := A) (C := C) hQ hR hS (N * (j + 1) + r)
    have h1 := iter_concave (A := A) (C := C) hQ hR hrate hX (hnn' _) le_rfl
      (by simpa using ih) N
    rw [← Function.iterate_add_apply, ← Function.iterate_add_apply,
      show N + (N * (j + 1) + r) = N * (j + 1 + 1) + r by ring] at h1
    have h2 := smul_le' (hb' (N * (j + 1 + 1) + r)) (inv_nonneg.mpr hκ0.le)
    rw [smul_smul, inv_mul_cancel₀ hκ0.ne', one_smul] at h2
    have h3 := smul_le' h2 hrate
    have h4 := le_sub_iff_add_le.mpr h1
    refine h4.trans ((sub_le_sub_left h3 _).trans (le_of_eq ?_))
    rw [pow_succ]
    module

theorem reach_rate {N : ℕ} (hN : 0 < N) {κ : ℝ} (hκ : 2 ≤ κ) :
    ∃ K ρ : ℝ, 0 ≤ K ∧ 0 < ρ ∧ ρ < 1 ∧ ∀ S S' : Mat n n, 0 ≤ S → 0 ≤ S' →
      (∀ t, (ric A Q C R)^[t] S ≤ κ • (ric A Q C R)^[N] 0) →
      (∀ t, (ric A Q C R)^[t] S' ≤ κ • (ric A Q C R)^[N] 0) →
      ∀ t, N ≤ t → (ric A Q C R)^[t] S ≤ (1 + K * ρ ^ t) • (ric A Q C R)^[t] S' := by
  obtain ⟨K, ρ, hK, h0, h1, hr⟩ := block_rate hN hκ
  refine ⟨K, ρ, hK, h0, h1, fun S S' hS hS' hb hb' t ht => ?_⟩
  have h2 := reach_ratio hQ hR hS hS' hκ hb hb' (t / N - 1) (t % N)
  have h3 : N * (t / N - 1 + 1) + t % N = t := by
    have h5 : 1 ≤ t / N := (Nat.one_le_div_iff hN).mpr ht
    rw [show t / N - 1 + 1 = t / N by omega]
    exact Nat.div_add_mod t N
  rw [h3] at h2
  exact h2.trans (smul_le_smul' (iter_nonneg' hQ hR hS' t) (by linarith [hr t ht]))

/-- A common multiple of the covariance gathered in `N` steps bounds a run. -/
theorem reach_bound (hdet : Detectable A C) {N : ℕ} (hW : ((ric A Q C R)^[N] 0).PosDef)
    {S : Mat n n} (hS : 0 ≤ S) :
    ∃ κ : ℝ, 2 ≤ κ ∧ ∀ t, (ric A Q C R)^[t] S ≤ κ • (ric A Q C R)^[N] 0 := by
  obtain ⟨B, hB, hb⟩ := iter_bounded (A := A) (C := C) hQ hR hdet hS
  obtain ⟨c, hc0, hc⟩ := exists_dominates hW hB
  refine ⟨c + 2, by linarith, fun t => (hb t).trans (hc.trans ?_)⟩
  exact smul_le_smul' (nonneg_of_posDef hW) (by linarith)

theorem reach_limit (hdet : Detectable A C) {N : ℕ} (hN : 0 < N)
    (hW : ((ric A Q C R)^[N] 0).PosDef) : ∃ L : Mat n n, 0 ≤ L ∧ ric A Q C R L = L := by
  obtain ⟨κ, hκ, hb⟩ := reach_bound hQ hR hdet hW (le_refl 0)
  obtain ⟨K, ρ, hK, hρ0, hρ1, hrate⟩ := reach_rate (A := A) (C := C) hQ hR hN hκ
  set W := (ric A Q C R)^[N] 0 with hWdef
  have hs0 : ∀ s, 0 ≤ (ric A Q C R)^[s] (0 : Mat n n) := fun s => iter_nonneg' hQ hR le_rfl _
  have hbs : ∀ s t, (ric A Q C R)^[t] ((ric A Q C R)^[s] 0) ≤ κ • W := fun s t => by
    rw [← Function.iterate_add_apply]; exact hb _
  set a : ℕ → Mat n n := fun t => (ric A Q C R)^[t + N] 0 with ha
  have hnn : ∀ t, 0 ≤ a t := fun t => hs0 _
  have hshift : ∀ s t, (ric A Q C R)^[t + N] ((ric A Q C R)^[s] 0) = a (t + s) := by
    intro s t
    rw [← Function.iterate_add_apply]
    simp only [ha]
    congr 1
    omega
  set ε : ℕ → ℝ := fun t => K * ρ ^ (t + N) with hε
  have hε0 : ∀ t, 0 ≤ ε t := fun t => mul_nonneg hK (pow_nonneg hρ0.le _)
  have h1 : ∀ s t, a t ≤ (1 + ε t) • a (t + s) := fun s t => by
    have := hrate 0 _ le_rfl (hs0 s) hb (hbs s) (t + N) (by omega)
    rwa [hshift] at this
  have h2 : ∀ s t, a (t + s) ≤ (1 + ε t) • a t := fun s t => by
    have := hrate _ 0 (hs0 s) le_rfl (hbs s) hb (t + N) (by omega)
    rwa [hshift] at this
  have hdist : ∀ i j t, |a t i j - a (t + 1) i j|
      ≤ (K * ρ ^ N * κ * (W i i + W j j) / 2) * ρ ^ t := by
    intro i j t
    have := entry_le (herm_of_nonneg (hnn t)) (herm_of_nonneg (hnn (t + 1)))
      (ratio_abs (hε0 t) (hb (t + 1 + N)) (h1 1 t))
      (ratio_abs (hε0 t) (hb (t + N)) (h2 1 t)) i j
    refine this.trans (le_of_eq ?_)
    simp only [Matrix.smul_apply, smul_eq_mul, hε, pow_add]
    ring
  have hlim : ∀ i j, ∃ l, Tendsto (fun t => a t i j) atTop (𝓝 l) := fun i j =>
    cauchySeq_tendsto_of_complete (cauchySeq_of_le_geometric ρ _ hρ1 fun t => by
      rw [Real.dist_eq]; exact hdist i j t)
  choose l hl using hlim
  let L : Mat n n := of l
  have hL : ∀ i j, Tendsto (fun t => a t i j) atTop (𝓝 (L i j)) := hl
  have hrt : Tendsto (fun t => 1 + ε t) atTop (𝓝 1) := by
    have := (tendsto_add_atTop_iff_nat N).mpr
      ((tendsto_pow_atTop_nhds_zero_of_lt_one hρ0.le hρ1).const_mul K)
    simpa using this.const_add 1
  have hL0 : 0 ≤ L := le_of_entries (f := fun _ => 0) (fun i j => tendsto_const_nhds) hL hnn
  have hsc : ∀ (X : Mat n n) (i j : Fin n),
      Tendsto (fun t => ((1 + ε t) • X) i j) atTop (𝓝 (X i j)) := fun X i j => by
    simpa using hrt.mul_const (X i j)
  have hs : ∀ t i j, Tendsto (fun s => a (t + s) i j) atTop (𝓝 (L i j)) := fun t i j => by
    have := (tendsto_add_atTop_iff_nat t).mpr (hL i j)
    simpa only [add_comm t] using this
  have b1 : ∀ t, a t ≤ (1 + ε t) • L := fun t =>
    le_of_entries (f := fun _ => a t) (fun i j => tendsto_const_nhds)
      (fun i j => by simpa using (hs t i j).const_mul (1 + ε t)) fun s => h1 s t
  have b2 : ∀ t, L ≤ (1 + ε t) • a t := fun t =>
    le_of_entries (g := fun _ => (1 + ε t) • a t) (hs t)
      (fun i j => tendsto_const_nhds) fun s => h2 s t
  have hstep : ∀ t, ric A Q C R (a t) = a (t + 1) := fun t => by
    simp only [ha]
    rw [← Function.iterate_succ_apply' (ric A Q C R)]
    congr 1
    omega
  have hL1 : ∀ i j, Tendsto (fun t => a (t + 1) i j) atTop (𝓝 (L i j)) := fun i j =>
    (tendsto_add_atTop_iff_nat 1).mpr (hL i j)
  have hscale : ∀ {X Y : Mat n n} {e : ℝ}, 0 ≤ e → 0 ≤ X → 0 ≤ Y → X ≤ (1 + e) • Y →
      ric A Q C R X ≤ (1 + e) • ric A Q C R Y := fun {X Y e} he hX hY h => by
    have h3 := ric_concave (A := A) (Q := Q) (C := C) hR he hX hY (le_refl 0) (by simpa using h)
    have h4 := smul_le' (ric_nonneg' (A := A) (C := C) hQ hR (le_refl (0 : Mat n n))) he
    rw [smul_zero] at h4
    exact (le_add_of_nonneg_right h4).trans h3
  refine ⟨L, hL0, le_antisymm ?_ ?_⟩
  · refine le_of_entries (f := fun _ => ric A Q C R L)
      (g := fun t => (1 + ε t) • a (t + 1)) (fun i j => tendsto_const_nhds)
      (fun i j => by simpa using hrt.mul (hL1 i j)) fun t => ?_
    rw [← hstep]
    exact hscale (hε0 t) hL0 (hnn t) (b2 t)
  · refine le_of_entries (f := fun t => a (t + 1))
      (g := fun t => (1 + ε t) • ric A Q C R L) hL1 (hsc _) fun t => ?_
    rw [← hstep]
    exact hscale (hε0 t) (hnn t) hL0 (b1 t)

theorem reach_converges (hdet : Detectable A C) {N : ℕ} (hN : 0 < N)
    (hW : ((ric A Q C R)^[N] 0).PosDef) {L : Mat n n} (hL0 : 0 ≤ L) (hL : ric A Q C R L = L)
    {S : Mat n n} (hS : 0 ≤ S) :
    ∃ κ ρ : ℝ, 0 ≤ ρ ∧ ρ < 1 ∧
      ∀ t i j, |corr R C ((ric A Q C R)^[t] S) i j - corr R C L i j| ≤ κ * ρ ^ t := by
  obtain ⟨κ₁, hκ₁, hb₁⟩ := reach_bound hQ hR hdet hW hS
  obtain ⟨κ₂, hκ₂, hb₂⟩ := reach_bound hQ hR hdet hW hL0
  set W := (ric A Q C R)^[N] 0 with hWdef
  have hW0 := nonneg_of_posDef hW
  set κ := max κ₁ κ₂ with hκdef
  have hκ : 2 ≤ κ := hκ₁.trans (le_max_left _ _)
  have hb : ∀ t, (ric A Q C R)^[t] S ≤ κ • W := fun t =>
    (hb₁ t).trans (smul_le_smul' hW0 (le_max_left _ _))
  have hb' : ∀ t, (ric A Q C R)^[t] L ≤ κ • W := fun t =>
    (hb₂ t).trans (smul_le_smul' hW0 (le_max_right _ _))
  have hfix : ∀ t, (ric A Q C R)^[t] L = L := fun t => Function.iterate_fixed hL t
  obtain ⟨K, ρ, hK, hρ0, hρ1, hrate⟩ := reach_rate (A := A) (C := C) hQ hR hN hκ
  have hp0 : ∀ t, 0 ≤ (ric A Q C R)^[t] S := fun t => iter_nonneg' hQ hR hS t
  have corr_bound : ∀ {P : Mat n n}, 0 ≤ P → P ≤ κ • W → corr R C P ≤ κ • W := fun hP h => by
    refine le_trans ?_ h
    exact updated_le C (Matrix.nonneg_iff_posSemidef.mp hP) (Matrix.nonneg_iff_posSemidef.mp hR)
  have hWd : ∀ i, 0 ≤ W i i := fun i => (Matrix.nonneg_iff_posSemidef.mp hW0).diag_nonneg
  set M := ∑ i, W i i with hM
  have hMi : ∀ i, W i i ≤ M := fun i => Finset.single_le_sum (fun i _ => hWd i) (Finset.mem_univ i)
  obtain ⟨K', hK'⟩ := geom_all (ι := Fin n × Fin n) (K := K * κ * M) (ρ := ρ) (N := N)
    (x := fun ij t => |corr R C ((ric A Q C R)^[t] S) ij.1 ij.2 - corr R C L ij.1 ij.2|) hρ0
    fun ij t ht => by
      have hε : 0 ≤ K * ρ ^ t := mul_nonneg hK (pow_nonneg hρ0.le _)
      have r1 := hrate S L hS hL0 hb hb' t ht
      have r2 := hrate L S hL0 hS hb' hb t ht
      rw [hfix] at r1 r2
      have c1 := corr_scale (hp0 t) hL0 hR C (by linarith) r1
      have c2 := corr_scale hL0 (hp0 t) hR C (by linarith) r2
      have hLb : L ≤ κ • W := hb' 0
      have := entry_le (herm_of_nonneg (corr_nonneg (hp0 t) hR C))
        (herm_of_nonneg (corr_nonneg hL0 hR C))
        (ratio_abs hε (corr_bound hL0 hLb) c1)
        (ratio_abs hε (corr_bound (hp0 t) (hb t)) c2) ij.1 ij.2
      refine this.trans ?_
      simp only [Matrix.smul_apply, smul_eq_mul]
      have h5 : 0 ≤ K * ρ ^ t * κ := mul_nonneg hε (by linarith)
      have h6 := mul_le_mul_of_nonneg_left (hMi ij.1) h5
      have h7 := mul_le_mul_of_nonneg_left (hMi ij.2) h5
      linarith
  exact ⟨K', ρ, hρ0.le, hρ1, fun t i j => hK' (i, j) t⟩

end

/-! ### Two means -/

/-- Difference of the predicted means of two runs that differ in the initial mean only. -/
noncomputable def meanGap (A Q : Mat n n) (C : Mat m n) (R : Mat m m) (S : Mat n n) (d : Vec n) : ℕ → Vec n
  | 0 => d
  | t + 1 => A *ᵥ ((1 - gain ((ric A Q C R)^[t] S) R C * C) *ᵥ meanGap A Q C R S d t)

section
variable {A Q : Mat n n} {C : Mat m n} {R : Mat m m} (hQ : 0 ≤ Q) (hR : 0 ≤ R)
include hQ hR

theorem meanGap_block {S : Mat n n} (hS : 0 ≤ S) (d : Vec n) {c : ℝ} (hc : 0 ≤ c) {s : ℕ}
    (h : ∀ v, (v ⬝ᵥ meanGap A Q C R S d s) ^ 2 ≤ c * (v ⬝ᵥ ((ric A Q C R)^[s] S *ᵥ v))) (k : ℕ)
    (v : Vec n) :
    (v ⬝ᵥ meanGap A Q C R S d (s + k)) ^ 2
      ≤ c * (v ⬝ᵥ (((ric A Q C R)^[s + k] S - (ric A Q C R)^[k] 0) *ᵥ v)) := by
  induction k generalizing v with
  | zero => simpa using h v
  | succ k ih =>
    set P := (ric A Q C R)^[s + k] S with hP
    set Z := (ric A Q C R)^[k] (0 : Mat n n) with hZ
    have hP0 : 0 ≤ P := iter_nonneg' hQ hR hS _
    have hZ0 : 0 ≤ Z := iter_nonneg' hQ hR le_rfl _
    set F := 1 - gain P R C * C with hF
    have h1 := dom_map (dom_map ih F) A
    refine dom_mono hc h1 ?_ v
    rw [show s + (k + 1) = s + k + 1 by omega, Function.iterate_succ_apply',
      Function.iterate_succ_apply', ← hP, ← hZ]
    have h2 : F * (P - Z) * Fᵀ ≤ corr R C P - corr R C Z := by
      have h3 := corr_le hZ0 hR C (gain P R C)
      rw [corr_eq hP0 hR, Matrix.mul_sub, Matrix.sub_mul, le_sub_iff_add_le]
      refine (add_le_add_right h3 _).trans (le_of_eq ?_)
      abel
    refine (conj_le h2 A).trans (le_of_eq ?_)
    simp only [ric, Matrix.mul_sub, Matrix.sub_mul]
    abel

theorem meanGap_rate {S : Mat n n} (hS : 0 ≤ S) (d : Vec n) {N : ℕ} {κ c : ℝ} (hκ : 2 ≤ κ)
    (hc : 0 ≤ c) (hb : ∀ t, (ric A Q C R)^[t] S ≤ κ • (ric A Q C R)^[N] 0)
    (h : ∀ v, (v ⬝ᵥ meanGap A Q C R S d N) ^ 2 ≤ c * (v ⬝ᵥ ((ric A Q C R)^[N] 0 *ᵥ v)))
    (j r : ℕ) (v : Vec n) :
    (v ⬝ᵥ meanGap A Q C R S d (N * (j + 1) + r)) ^ 2
      ≤ c * (1 - κ⁻¹) ^ j * (v ⬝ᵥ ((ric A Q C R)^[N * (j + 1) + r] S *ᵥ v)) := by
  have hκ0 : 0 < κ := by linarith
  have hinv1 : κ⁻¹ ≤ 1 := inv_le_one_of_one_le₀ (by linarith)
  have hσ : 0 ≤ 1 - κ⁻¹ := by linarith
  induction j generalizing r v with
  | zero =>
    have h0 := dom_mono hc h (reach_le (A := A) (C := C) hQ hR hS (le_refl N))
    have h1 := meanGap_block hQ hR hS d hc h0 r v
    rw [zero_add, mul_one, pow_zero, mul_one]
    refine h1.trans (mul_le_mul_of_nonneg_left (form_le ?_ v) hc)
    exact sub_le_self _ (iter_nonneg' hQ hR le_rfl _)
  | succ j ih =>
    have hc' : 0 ≤ c * (1 - κ⁻¹) ^ j := mul_nonneg hc (pow_nonneg hσ j)
    have h1 := meanGap_block hQ hR hS d hc' (ih r) N v
    rw [show N * (j + 1) + r + N = N * (j + 1 + 1) + r by ring] at h1
    refine h1.trans ?_
    rw [pow_succ, ← mul_assoc, mul_assoc (c * _) (1 - κ⁻¹)]
    refine mul_le_mul_of_nonneg_left ?_ hc'
    have h2 := smul_le' (hb (N * (j + 1 + 1) + r)) (inv_nonneg.mpr hκ0.le)
    rw [smul_smul, inv_mul_cancel₀ hκ0.ne', one_smul] at h2
    have h3 := form_le h2 v
    rw [smul_mulVec, dotProduct_smul, smul_eq_mul] at h3
    rw [sub_mulVec, dotProduct_sub]
    linarith

/-- The difference of the filtered means fades. -/
theorem meanGap_fades (hdet : Detectable A C) {N : ℕ} (hN : 0 < N)
    (hW : ((ric A Q C R)^[N] 0).PosDef) {S : Mat n n} (hS : 0 ≤ S) (d : Vec n) :
    ∃ κ ρ : ℝ, 0 ≤ ρ ∧ ρ < 1 ∧ ∀ t i,
      (((1 - gain ((ric A Q C R)^[t] S) R C * C) *ᵥ meanGap A Q C R S d t) i) ^ 2
        ≤ κ * ρ ^ t := by
  obtain ⟨κ, hκ, hb⟩ := reach_bound hQ hR hdet hW hS
  have hκ0 : 0 < κ := by linarith
  have hinv1 : κ⁻¹ ≤ 1 := inv_le_one_of_one_le₀ (by linarith)
  obtain ⟨K, ρ, hK, hρ0, hρ1, hr⟩ := block_rate hN hκ
  set W := (ric A Q C R)^[N] 0 with hWdef
  have hW0 := nonneg_of_posDef hW
  set g := meanGap A Q C R S d with hg
  have hrank : (0 : Mat n n) ≤ vecMulVec (g N) (g N) := by
    rw [Matrix.nonneg_iff_posSemidef]
    simpa using posSemidef_vecMulVec_self_star (g N)
  obtain ⟨c, hc0, hc⟩ := exists_dominates hW hrank
  have hdom : ∀ v, (v ⬝ᵥ g N) ^ 2 ≤ c * (v ⬝ᵥ (W *ᵥ v)) := by
    intro v
    have := form_le hc v
    rw [smul_mulVec, dotProduct_smul, smul_eq_mul, vecMulVec_mulVec] at this
    refine le_of_eq_of_le ?_ this
    rw [sq]
    simp [dotProduct_comm v (g N)]
  have hWd : ∀ i, 0 ≤ W i i := fun i => (Matrix.nonneg_iff_posSemidef.mp hW0).diag_nonneg
  set M := ∑ i, W i i with hM
  have hMi : ∀ i, W i i ≤ M := fun i => Finset.single_le_sum (fun i _ => hWd i) (Finset.mem_univ i)
  have hM0 : 0 ≤ M := Finset.sum_nonneg fun i _ => hWd i
  obtain ⟨K', hK'⟩ := geom_all (ι := Fin n) (K := c * K * M) (ρ := ρ) (N := N)
    (x := fun i t => (((1 - gain ((ric A Q C R)^[t] S) R C * C) *ᵥ g t) i) ^ 2) hρ0
    fun i t ht => by
      have h3 : N * (t / N - 1 + 1) + t % N = t := by
        have h5 : 1 ≤ t / N := (Nat.one_le_div_iff hN).mpr ht
        rw [show t / N - 1 + 1 = t / N by omega]
        exact Nat.div_add_mod t N
      have h4 := meanGap_rate hQ hR hS d hκ hc0 hb hdom (t / N - 1) (t % N)
      rw [h3] at h4
      have hP0 := iter_nonneg' (A := A) (C := C) hQ hR hS t
      have hσ : 0 ≤ c * (1 - κ⁻¹) ^ (t / N - 1) :=
        mul_nonneg hc0 (pow_nonneg (by linarith) _)
      have key := dom_corr hP0 hR C hσ h4 (Pi.single i 1)
      have e2 : ∀ w : Vec n, (Pi.single i 1 : Vec n) ⬝ᵥ w = w i := fun w => by simp
      have h5 : corr R C ((ric A Q C R)^[t] S) ≤ κ • W :=
        le_trans (updated_le C (Matrix.nonneg_iff_posSemidef.mp hP0)
          (Matrix.nonneg_iff_posSemidef.mp hR)) (hb t)
      have h6 := form_le h5 (Pi.single i 1)
      rw [e2, e2, mulVec_single_one] at key
      rw [e2, e2, mulVec_single_one, mulVec_single_one] at h6
      simp only [col_apply, Matrix.smul_apply, smul_eq_mul] at h6 key
      refine key.trans ?_
      have h7 : corr R C ((ric A Q C R)^[t] S) i i ≤ κ * M :=
        h6.trans (mul_le_mul_of_nonneg_left (hMi i) hκ0.le)
      have h8 := mul_le_mul_of_nonneg_left h7 hσ
      have h9 := mul_le_mul_of_nonneg_left (hr t ht) (mul_nonneg hc0 hM0)
      refine h8.trans ?_
      calc _ = c * M * (κ * (1 - κ⁻¹) ^ (t / N - 1)) := by ring
        _ ≤ _ := h9
        _ = _ := by ring
  exact ⟨K', ρ, hρ0.le, hρ1, fun t i => hK' i t⟩

end

end Verif
