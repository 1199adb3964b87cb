import Verif.Spec.Consistency
import Verif.Proofs.Ellipsoid
import Verif.Props.Regression

/-!
# Lemmas on a state that does not change (C89)
-/

open Matrix

namespace Verif

variable {n m : ℕ} {C : ℕ → Mat m n} {d : ℕ → Vec m} {R : ℕ → Mat m m} {os : List (Obs m)}

theorem quad_regPrecision (S : Mat n n) (T : ℕ) (u : Vec n) :
    u ⬝ᵥ (regPrecision S C R os T *ᵥ u) = u ⬝ᵥ (S⁻¹ *ᵥ u) + obsInfo C R os T u := by
  rw [regPrecision, add_mulVec, dotProduct_add, obsInfo, sum_mulVec, dotProduct_sum]
  congr 1
  refine Finset.sum_congr rfl fun i _ => ?_
  cases os[i]? with
  | none => simp
  | some o =>
    simp only
    split
    · simp
    · rw [weighted, ← mulVec_mulVec, ← mulVec_mulVec, dotProduct_mulVec, ← mulVec_transpose,
        transpose_transpose]

/-- Right-hand side of the normal equations, seen from a state `x`. -/
theorem dot_regInfo (mu : Vec n) (S : Mat n n) (T : ℕ) (x u : Vec n) :
    u ⬝ᵥ (regInfo mu S C d R os T - regPrecision S C R os T *ᵥ x)
      = u ⬝ᵥ (S⁻¹ *ᵥ (mu - x)) + ∑ i ∈ Finset.range T, match os[i]? with
        | some o => if o.missing then 0
            else (C i *ᵥ u) ⬝ᵥ ((R i)⁻¹ *ᵥ (o.val - (C i *ᵥ x + d i)))
        | none => 0 := by
  rw [regPrecision, regInfo, add_mulVec, add_sub_add_comm, ← mulVec_sub, dotProduct_add,
    sum_mulVec, ← Finset.sum_sub_distrib, dotProduct_sum]
  congr 1
  refine Finset.sum_congr rfl fun i _ => ?_
  cases os[i]? with
  | none => simp
  | some o =>
    simp only
    split
    · simp
    · rw [← mulVec_mulVec, ← mulVec_mulVec, ← mulVec_mulVec, ← mulVec_sub, ← mulVec_sub,
        dotProduct_mulVec, ← mulVec_transpose, transpose_transpose]
      congr 2
      abel

/-- Cauchy's inequality for the sum of the prior and the rows. -/
theorem dot_regInfo_sq {S : Mat n n} (hS : S.PosDef) {T : ℕ} (hT : T ≤ os.length)
    (hR : ∀ t, t < os.length → (R t).PosDef) (mu x u : Vec n) :
    (u ⬝ᵥ (regInfo mu S C d R os T - regPrecision S C R os T *ᵥ x)) ^ 2
      ≤ (u ⬝ᵥ (regPrecision S C R os T *ᵥ u))
        * (weighted S (mu - x) + obsErrors C d R os T x) ∧
    0 ≤ u ⬝ᵥ (regPrecision S C R os T *ᵥ u) ∧
    0 ≤ weighted S (mu - x) + obsErrors C d R os T x := by
  have cs : ∀ {k : ℕ} {S : Mat k k}, S.PosDef → ∀ a b : Vec k,
      (a ⬝ᵥ (S⁻¹ *ᵥ b)) ^ 2 ≤ (a ⬝ᵥ (S⁻¹ *ᵥ a)) * weighted S b := by
    intro k S h a b
    have := dot_sq_le_weighted h.inv a (S⁻¹ *ᵥ b)
    rwa [weighted, nonsing_inv_nonsing_inv _ h.det_pos.ne'.isUnit, mulVec_mulVec,
      mul_nonsing_inv _ h.det_pos.ne'.isUnit, one_mulVec, dotProduct_comm _ b] at this
  rw [dot_regInfo, quad_regPrecision]
  induction T with
  | zero =>
    simp only [obsInfo, obsErrors, Finset.range_zero, Finset.sum_empty, add_zero]
    exact ⟨cs hS _ _, (posSemidef_iff_real.mp hS.inv.posSemidef).2 _, weighted_nonneg hS _⟩
  | succ T ih =>
    obtain ⟨i1, i2, i3⟩ := ih (by omega)
    have hTl : T < os.length := by omega
    have hRT := hR T hTl
    rw [obsInfo, obsErrors, Finset.sum_range_succ, Finset.sum_range_succ, Finset.sum_range_succ,
      ← add_assoc, ← add_assoc, ← add_assoc]
    rw [obsInfo] at i1 i2
    rw [obsErrors] at i1 i3
    rw [List.getElem?_eq_getElem hTl]
    simp only
    by_cases hm : os[T].missing
    · simp only [if_pos hm, add_zero]
      exact ⟨i1, i2, i3⟩
    · simp only [if_neg hm]
      have w1 := weighted_nonneg hRT (C T *ᵥ u)
      have w2 := weighted_nonneg hRT (os[T].val - (C T *ᵥ x + d T))
      exact ⟨sq_add_le_mul i2 w1 i3 w2 i1 (cs hRT _ _), add_nonneg i2 w1, add_nonneg i3 w2⟩

/-- A lower bound of the precision is an upper bound of the covariance. -/
theorem inv_quad_le {L M : Mat n n} (hL : L.PosDef) (hM : M.PosDef) {k : ℝ}
    (h : ∀ v, k * (v ⬝ᵥ (M *ᵥ v)) ≤ v ⬝ᵥ (L *ᵥ v)) (v : Vec n) :
    k * (v ⬝ᵥ (L⁻¹ *ᵥ v)) ≤ weighted M v := by
  obtain ⟨u, hu⟩ : ∃ u, u = L⁻¹ *ᵥ v := ⟨_, rfl⟩
  have hv : v = L *ᵥ u := by
    rw [hu, mulVec_mulVec, mul_nonsing_inv _ hL.det_pos.ne'.isUnit, one_mulVec]
  have h1 := dot_sq_le_weighted hM u v
  have h2 := h u
  rw [← hv] at h2
  rw [← hu, dotProduct_comm]
  have h3 := weighted_nonneg hM v
  by_cases hk : 0 ≤ k
  · by_cases h4 : u ⬝ᵥ v ≤ 0
    · nlinarith
    · push Not at h4
      have h5 : k * (u ⬝ᵥ v) ^ 2 ≤ (u ⬝ᵥ v) * weighted M v := by
        calc k * (u ⬝ᵥ v) ^ 2 ≤ k * ((u ⬝ᵥ (M *ᵥ u)) * weighted M v) :=
              mul_le_mul_of_nonneg_left h1 hk
          _ = k * (u ⬝ᵥ (M *ᵥ u)) * weighted M v := by ring
          _ ≤ _ := mul_le_mul_of_nonneg_right h2 h3
      nlinarith
  · have h4 : 0 ≤ u ⬝ᵥ v := by
      rw [hv]
      exact (posSemidef_iff_real.mp hL.posSemidef).2 u
    nlinarith

end Verif
