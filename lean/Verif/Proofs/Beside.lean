import Verif.Spec.Beside
import Verif.Proofs.Sensors
import Verif.Proofs.EmMonotone
import Mathlib.LinearAlgebra.Matrix.SchurComplement

/-!
# Lemmas for C112: two systems side by side
-/

open Matrix

namespace Verif

variable {n₁ n₂ m₁ m₂ k₁ k₂ l₁ l₂ q₁ q₂ : ℕ}

theorem blocks_mul (M₁ : Mat k₁ l₁) (M₂ : Mat k₂ l₂) (N₁ : Mat l₁ q₁) (N₂ : Mat l₂ q₂) :
    blocks M₁ M₂ * blocks N₁ N₂ = blocks (M₁ * N₁) (M₂ * N₂) := by
  ext i j
  refine Fin.addCases (fun i => ?_) (fun i => ?_) i <;>
    refine Fin.addCases (fun j => ?_) (fun j => ?_) j <;>
    simp [Matrix.mul_apply, blocks, Fin.sum_univ_add]

theorem blocks_transpose (M₁ : Mat k₁ l₁) (M₂ : Mat k₂ l₂) :
    (blocks M₁ M₂)ᵀ = blocks M₁ᵀ M₂ᵀ := by
  ext i j
  refine Fin.addCases (fun i => ?_) (fun i => ?_) i <;>
    refine Fin.addCases (fun j => ?_) (fun j => ?_) j <;>
    simp [blocks]

theorem blocks_add (M₁ N₁ : Mat k₁ l₁) (M₂ N₂ : Mat k₂ l₂) :
    blocks M₁ M₂ + blocks N₁ N₂ = blocks (M₁ + N₁) (M₂ + N₂) := by
  ext i j
  refine Fin.addCases (fun i => ?_) (fun i => ?_) i <;>
    refine Fin.addCases (fun j => ?_) (fun j => ?_) j <;>
    simp [blocks]

theorem blocks_sub (M₁ N₁ : Mat k₁ l₁) (M₂ N₂ : Mat k₂ l₂) :
    blocks M₁ M₂ - blocks N₁ N₂ = blocks (M₁ - N₁) (M₂ - N₂) := by
  ext i j
  refine Fin.addCases (fun i => ?_) (fun i => ?_) i <;>
    refine Fin.addCases (fun j => ?_) (fun j => ?_) j <;>
    simp [blocks]

theorem blocks_mulVec (M₁ : Mat k₁ l₁) (M₂ : Mat k₂ l₂) (v₁ : Vec l₁) (v₂ : Vec l₂) :
    blocks M₁ M₂ *ᵥ stackVec v₁ v₂ = stackVec (M₁ *ᵥ v₁) (M₂ *ᵥ v₂) := by
  ext i
  refine Fin.addCases (fun i => ?_) (fun i => ?_) i <;>
    simp [Matrix.mulVec, dotProduct, blocks, stackVec, Fin.sum_univ_add]

theorem blocks_one : blocks (1 : Mat k₁ k₁) (1 : Mat k₂ k₂) = 1 := by
  ext i j
  refine Fin.addCases (fun i => ?_) (fun i => ?_) i <;>
    refine Fin.addCases (fun j => ?_) (fun j => ?_) j
  · simp [blocks, Matrix.one_apply, Fin.ext_iff]
  · have : Fin.castAdd k₂ i ≠ Fin.natAdd k₁ j := fun h => by
      have := congrArg Fin.val h
      simp at this
      omega
    simp [blocks, Matrix.one_apply, this]
  · have : Fin.natAdd k₁ i ≠ Fin.castAdd k₂ j := fun h => by
      have := congrArg Fin.val h
      simp at this
      omega
    simp [blocks, Matrix.one_apply, this]
  · simp [blocks, Matrix.one_apply, Fin.ext_iff]

theorem blocks_pinv (M₁ : Mat k₁ l₁) (M₂ : Mat k₂ l₂) :
    pinv (blocks M₁ M₂) = blocks (pinv M₁) (pinv M₂) := by
  have h₁ := pinv_penrose M₁
  have h₂ := pinv_penrose M₂
  refine pinv_eq_of_penrose ⟨?_, ?_, ?_, ?_⟩
  · rw [blocks_mul, blocks_mul, h₁.mul_mul, h₂.mul_mul]
  · rw [blocks_mul, blocks_mul, h₁.mul_mul', h₂.mul_mul']
  · rw [blocks_mul, blocks_transpose, h₁.symm_left, h₂.symm_left]
  · rw [blocks_mul, blocks_transpose, h₁.symm_right, h₂.symm_right]

theorem blocks_gain (P₁ : Mat n₁ n₁) (P₂ : Mat n₂ n₂) (R₁ : Mat m₁ m₁) (R₂ : Mat m₂ m₂)
    (C₁ : Mat m₁ n₁) (C₂ : Mat m₂ n₂) :
    Verif.gain (blocks P₁ P₂) (blocks R₁ R₂) (blocks C₁ C₂)
      = blocks (Verif.gain P₁ R₁ C₁) (Verif.gain P₂ R₂ C₂) := by
  simp only [Verif.gain, blocks_transpose, blocks_mul, blocks_add, blocks_pinv]

/-- Two systems side by side, as functions of time. -/
structure PFun.Beside (P : PFun (n₁ + n₂) (m₁ + m₂)) (P₁ : PFun n₁ m₁) (P₂ : PFun n₂ m₂) (T : ℕ) :
    Prop where
  A : ∀ t, t + 1 < T → P.A t = blocks (P₁.A t) (P₂.A t)
  b : ∀ t, t + 1 < T → P.b t = stackVec (P₁.b t) (P₂.b t)
  Q : ∀ t, t + 1 < T → P.Q t = blocks (P₁.Q t) (P₂.Q t)
  C : ∀ t, t < T → P.C t = blocks (P₁.C t) (P₂.C t)
  d : ∀ t, t < T → P.d t = stackVec (P₁.d t) (P₂.d t)
  R : ∀ t, t < T → P.R t = blocks (P₁.R t) (P₂.R t)
  mu0 : P.mu0 = stackVec P₁.mu0 P₂.mu0
  S0 : P.S0 = blocks P₁.S0 P₂.S0

/-- Rows side by side, as functions of time. -/
def RowBeside (z : ℕ → Obs (m₁ + m₂)) (z₁ : ℕ → Obs m₁) (z₂ : ℕ → Obs m₂) (T : ℕ) : Prop :=
  ∀ t, t < T → ((z t).missing ↔ (z₁ t).missing) ∧ ((z t).missing ↔ (z₂ t).missing) ∧
    (¬ (z t).missing → (z t).val = stackVec (z₁ t).val (z₂ t).val)

section runs
variable {P : PFun (n₁ + n₂) (m₁ + m₂)} {P₁ : PFun n₁ m₁} {P₂ : PFun n₂ m₂} {T : ℕ}
  {z : ℕ → Obs (m₁ + m₂)} {z₁ : ℕ → Obs m₁} {z₂ : ℕ → Obs m₂}

theorem PFun.Beside.filt_of_pred (h : P.Beside P₁ P₂ T) (hz : RowBeside z z₁ z₂ T) {t : ℕ}
    (ht : t < T) (e1 : (P.kf z t).predMean = stackVec (P₁.kf z₁ t).predMean (P₂.kf z₂ t).predMean)
    (e2 : (P.kf z t).predCov = blocks (P₁.kf z₁ t).predCov (P₂.kf z₂ t).predCov) :
    (P.kf z t).filtMean = stackVec (P₁.kf z₁ t).filtMean (P₂.kf z₂ t).filtMean ∧
      (P.kf z t).filtCov = blocks (P₁.kf z₁ t).filtCov (P₂.kf z₂ t).filtCov := by
  obtain ⟨a₁, a₂, a₃⟩ := hz t ht
  by_cases hm : (z t).missing
  · rw [(P.kf_missing z hm).2.1, (P.kf_missing z hm).2.2, (P₁.kf_missing z₁ (a₁.mp hm)).2.1,
      (P₁.kf_missing z₁ (a₁.mp hm)).2.2, (P₂.kf_missing z₂ (a₂.mp hm)).2.1,
      (P₂.kf_missing z₂ (a₂.mp hm)).2.2]
    exact ⟨e1, e2⟩
  · obtain ⟨-, f, g⟩ := P.kf_observed z hm
    obtain ⟨-, f₁, g₁⟩ := P₁.kf_observed z₁ (fun x => hm (a₁.mpr x))
    obtain ⟨-, f₂, g₂⟩ := P₂.kf_observed z₂ (fun x => hm (a₂.mpr x))
    rw [f, g, f₁, f₂, g₁, g₂, e1, e2, h.R t ht, h.C t ht, h.d t ht, a₃ hm, blocks_gain]
    simp only [blocks_mulVec, blocks_mul, blocks_sub, stackVec_add, stackVec_sub, and_self]

theorem PFun.Beside.pred (h : P.Beside P₁ P₂ T) (hz : RowBeside z z₁ z₂ T) {t : ℕ} (ht : t < T) :
    (P.kf z t).predMean = stackVec (P₁.kf z₁ t).predMean (P₂.kf z₂ t).predMean ∧
      (P.kf z t).predCov = blocks (P₁.kf z₁ t).predCov (P₂.kf z₂ t).predCov := by
  induction t with
  | zero => exact ⟨h.mu0, h.S0⟩
  | succ t ih =>
    obtain ⟨i1, i2⟩ := ih (by omega)
    obtain ⟨f1, f2⟩ := h.filt_of_pred hz (by omega) i1 i2
    rw [(P.kf_pred_succ z t).1, (P.kf_pred_succ z t).2, (P₁.kf_pred_succ z₁ t).1,
      (P₁.kf_pred_succ z₁ t).2, (P₂.kf_pred_succ z₂ t).1, (P₂.kf_pred_succ z₂ t).2, f1, f2,
      h.A t ht, h.b t ht, h.Q t ht]
    simp only [blocks_mulVec, blocks_mul, blocks_add, blocks_transpose, stackVec_add, and_self]

theorem PFun.Beside.filt (h : P.Beside P₁ P₂ T) (hz : RowBeside z z₁ z₂ T) {t : ℕ} (ht : t < T) :
    (P.kf z t).filtMean = stackVec (P₁.kf z₁ t).filtMean (P₂.kf z₂ t).filtMean ∧
      (P.kf z t).filtCov = blocks (P₁.kf z₁ t).filtCov (P₂.kf z₂ t).filtCov :=
  h.filt_of_pred hz ht (h.pred hz ht).1 (h.pred hz ht).2

theorem PFun.Beside.smooth (h : P.Beside P₁ P₂ T) (hz : RowBeside z z₁ z₂ T) (j : ℕ) :
    ∀ {t : ℕ}, t < T → t + j = T - 1 →
    (P.ks z (T - 1) t).mean = stackVec (P₁.ks z₁ (T - 1) t).mean (P₂.ks z₂ (T - 1) t).mean ∧
      (P.ks z (T - 1) t).cov = blocks (P₁.ks z₁ (T - 1) t).cov (P₂.ks z₂ (T - 1) t).cov := by
  induction j with
  | zero =>
    intro t ht hj
    obtain rfl : t = T - 1 := by omega
    rw [P.ks_last, P₁.ks_last, P₂.ks_last]
    exact h.filt hz ht
  | succ j ih =>
    intro t ht hj
    obtain ⟨i1, i2⟩ := ih (t := t + 1) (by omega) (by omega)
    obtain ⟨f1, f2⟩ := h.filt hz ht
    have hA := h.A t (by omega)
    have hb := h.b t (by omega)
    have hQ := h.Q t (by omega)
    rw [P.ks_lt' z (by omega), P₁.ks_lt' z₁ (by omega), P₂.ks_lt' z₂ (by omega)]
    simp only [i1, i2, f1, f2, hA, hb, hQ, blocks_gain, blocks_mulVec, blocks_mul, blocks_add,
      blocks_sub, blocks_transpose, stackVec_add, stackVec_sub, and_self]

end runs

/-! ### Determinant, inverse, density -/

theorem blocks_eq_reindex (M₁ : Mat k₁ k₁) (M₂ : Mat k₂ k₂) :
    blocks M₁ M₂ = Matrix.reindex finSumFinEquiv finSumFinEquiv (fromBlocks M₁ 0 0 M₂) := by
  ext i j
  refine Fin.addCases (fun i => ?_) (fun i => ?_) i <;>
    refine Fin.addCases (fun j => ?_) (fun j => ?_) j <;>
    simp [blocks]

theorem blocks_det (M₁ : Mat k₁ k₁) (M₂ : Mat k₂ k₂) : (blocks M₁ M₂).det = M₁.det * M₂.det := by
  rw [blocks_eq_reindex, det_reindex_self, det_fromBlocks_zero₂₁]

theorem blocks_inv {M₁ : Mat k₁ k₁} {M₂ : Mat k₂ k₂} (h₁ : IsUnit M₁.det) (h₂ : IsUnit M₂.det) :
    (blocks M₁ M₂)⁻¹ = blocks M₁⁻¹ M₂⁻¹ := by
  refine inv_eq_right_inv ?_
  rw [blocks_mul, mul_nonsing_inv _ h₁, mul_nonsing_inv _ h₂, blocks_one]

theorem blocks_eq_stackCov (M₁ : Mat k₁ k₁) (M₂ : Mat k₂ k₂) : blocks M₁ M₂ = stackCov M₁ M₂ := rfl

theorem logN_blocks {x₁ c₁ : Vec k₁} {x₂ c₂ : Vec k₂} {S₁ : Mat k₁ k₁} {S₂ : Mat k₂ k₂}
    (h₁ : S₁.PosDef) (h₂ : S₂.PosDef) :
    logN (stackVec x₁ x₂) (stackVec c₁ c₂) (blocks S₁ S₂) = logN x₁ c₁ S₁ + logN x₂ c₂ S₂ := by
  rw [logN, logN, logN, blocks_det, Real.log_mul h₁.det_pos.ne' h₂.det_pos.ne',
    blocks_inv h₁.det_pos.ne'.isUnit h₂.det_pos.ne'.isUnit, stackVec_sub, blocks_mulVec, stackVec_dot]
  push_cast
  ring

end Verif
