import Verif.Model.SqrtUnscented
import Mathlib.LinearAlgebra.Matrix.Block

/-!
# `cholupdate` updates a triangular factor
-/

open Matrix

namespace Verif

variable {n v : ℕ}

/-- Upper triangular. -/
def UpperTri (A : Mat n n) : Prop := ∀ i j, j < i → A i j = 0

theorem UpperTri.det {A : Mat n n} (h : UpperTri A) : A.det = ∏ i, A i i :=
  det_of_upperTriangular (M := A) fun i j hij => h i j hij

theorem UpperTri.isUnit {A : Mat n n} (h : UpperTri A) (hd : ∀ i, A i i ≠ 0) : IsUnit A.det := by
  rw [h.det, isUnit_iff_ne_zero]
  exact Finset.prod_ne_zero_iff.mpr fun i _ => hd i

/-- Column of the inverse of an upper triangular matrix, scaled. -/
theorem UpperTri.exists_column {A : Mat n n} (h : UpperTri A) (hd : ∀ i, A i i ≠ 0) (k : Fin n) :
    ∃ w : Vec n, A *ᵥ w = Pi.single k (A k k) ∧ w k = 1 ∧ ∀ j, k < j → w j = 0 := by
  have hu := h.isUnit hd
  have hb : BlockTriangular A id := fun i j hij => h i j hij
  haveI : Invertible A := invertibleOfIsUnitDet A hu
  have hi : BlockTriangular A⁻¹ id := blockTriangular_inv_of_blockTriangular hb
  refine ⟨A⁻¹ *ᵥ Pi.single k (A k k), ?_, ?_, ?_⟩
  · rw [mulVec_mulVec, mul_nonsing_inv _ hu, one_mulVec]
  · have h1 : (A * A⁻¹) k k = 1 := by rw [mul_nonsing_inv _ hu]; simp
    rw [Matrix.mul_apply, Finset.sum_eq_single k] at h1
    · rw [mulVec_single]; simpa [mul_comm] using h1
    · intro j _ hj
      rcases lt_or_gt_of_ne hj with hj | hj
      · rw [h k j hj, zero_mul]
      · rw [hi (show id k < id j from hj), mul_zero]
    · simp
  · intro j hj
    rw [mulVec_single]
    have := hi (show id k < id j from hj)
    simp [this]

/-- The part of the vector that the loop has not used yet. -/
def tailFrom (k : ℕ) (x : Vec n) : Vec n := fun i => if k ≤ i.val then x i else 0

theorem pivot_pos {A : Mat n n} (h : UpperTri A) (hd : ∀ i, A i i ≠ 0) {σ : ℝ} {x : Vec n}
    (k : Fin n)
    (hM : (Aᵀ * A + σ • vecMulVec (tailFrom k x) (tailFrom k x)).PosDef) :
    0 < A k k ^ 2 + σ * x k ^ 2 := by
  obtain ⟨w, h1, h2, h3⟩ := h.exists_column hd k
  have hw : w ≠ 0 := fun hw => by rw [hw] at h2; simp at h2
  have := (posDef_iff_real.mp hM).2 w hw
  have e1 : w ⬝ᵥ ((Aᵀ * A) *ᵥ w) = A k k ^ 2 := by
    rw [← mulVec_mulVec, h1, dotProduct_mulVec, vecMul_transpose, h1]
    simp [sq]
  have e2 : tailFrom k x ⬝ᵥ w = x k := by
    rw [dotProduct, Finset.sum_eq_single k]
    · simp [tailFrom, h2]
    · intro j _ hj
      rcases lt_or_gt_of_ne hj with hj | hj
      · have : ¬ ((k : ℕ) ≤ j) := by simpa using hj
        simp [tailFrom, this]
      · rw [h3 j hj, mul_zero]
    · simp
  have e3 : w ⬝ᵥ (vecMulVec (tailFrom k x) (tailFrom k x) *ᵥ w) = x k ^ 2 := by
    rw [vecMulVec_mulVec, e2]
    simp only [op_smul_eq_smul]
    rw [dotProduct_smul, dotProduct_comm, e2, smul_eq_mul, sq]
  rw [add_mulVec, dotProduct_add, e1, smul_mulVec, dotProduct_smul, e3, smul_eq_mul] at this
  exact this

theorem gram_updateRow (A : Mat n n) (k : Fin n) (r : Vec n) :
    (A.updateRow k r)ᵀ * A.updateRow k r = Aᵀ * A - vecMulVec (A k) (A k) + vecMulVec r r := by
  ext i j
  simp only [Matrix.mul_apply, transpose_apply, Matrix.add_apply, Matrix.sub_apply, vecMulVec_apply]
  rw [← Finset.add_sum_erase _ _ (Finset.mem_univ k), ← Finset.add_sum_erase _ _ (Finset.mem_univ k)]
  have : ∑ l ∈ Finset.univ.erase k, A.updateRow k r l i * A.updateRow k r l j
      = ∑ l ∈ Finset.univ.erase k, A l i * A l j := by
    apply Finset.sum_congr rfl
    intro l hl
    have hl : l ≠ k := Finset.ne_of_mem_erase hl
    simp [updateRow_ne hl]
  rw [this]
  simp only [updateRow_self]
  ring

theorem tailFrom_zero (x : Vec n) : tailFrom 0 x = x := by
  funext i; simp [tailFrom]

theorem tailFrom_all (x : Vec n) : tailFrom n x = 0 := by
  funext i
  have : ¬ (n ≤ i.val) := by omega
  simp [tailFrom, this]

/-- What is true before step `k` of the inner loop. -/
structure CUInv (σ : ℝ) (M : Mat n n) (k : ℕ) (st : Mat n n × Vec n) : Prop where
  upper : UpperTri st.1
  diag : ∀ i, st.1 i i ≠ 0
  done : ∀ i : Fin n, i.val < k → 0 < st.1 i i
  gram : st.1ᵀ * st.1 + σ • vecMulVec (tailFrom k st.2) (tailFrom k st.2) = M

/-- Row `k` after step `k` of the inner loop. -/
noncomputable def cuRow (σ : ℝ) (A : Mat n n) (x : Vec n) (k : Fin n) (r : ℝ) : Vec n := fun j =>
  if j = k then r else if k < j then (A k j + σ * (x k / A k k) * x j) / (r / A k k) else A k j

/-- The vector after step `k` of the inner loop. -/
noncomputable def cuVec (σ : ℝ) (A : Mat n n) (x : Vec n) (k : Fin n) (r : ℝ) : Vec n := fun j =>
  if k < j then r / A k k * x j - x k / A k k * cuRow σ A x k r j else x j

theorem cholupdateStep_eq (σ : ℝ) (A : Mat n n) (x : Vec n) (k : Fin n) :
    cholupdateStep σ (A, x) k
      = if (k : ℕ) + 1 < n ∧ (A k k = 0 ∨ cholupdateR σ (A k k) (x k) = 0) then .error .nonFinite
        else .ok (A.updateRow k (cuRow σ A x k (cholupdateR σ (A k k) (x k))),
          cuVec σ A x k (cholupdateR σ (A k k) (x k))) := rfl

theorem cuRow_self (σ : ℝ) (A : Mat n n) (x : Vec n) (k : Fin n) (r : ℝ) :
    cuRow σ A x k r k = r := by simp [cuRow]

theorem cuRow_lt {σ : ℝ} {A : Mat n n} (hU : UpperTri A) (x : Vec n) {k j : Fin n} (r : ℝ)
    (hj : j < k) : cuRow σ A x k r j = 0 := by
  simp [cuRow, hj.ne, not_lt.mpr hj.le, hU k j hj]

theorem cuRow_gt {σ : ℝ} {A : Mat n n} (x : Vec n) {k j : Fin n} (r : ℝ)
    (hj : k < j) : cuRow σ A x k r j = (A k j + σ * (x k / A k k) * x j) / (r / A k k) := by
  simp [cuRow, hj.ne', hj]

theorem updateRow_upper {A : Mat n n} (hU : UpperTri A) (σ : ℝ) (x : Vec n) (k : Fin n) (r : ℝ) :
    UpperTri (A.updateRow k (cuRow σ A x k r)) := by
  intro i j hij
  by_cases hi : i = k
  · subst hi; simp [cuRow_lt hU x r hij]
  · simp [updateRow_ne hi, hU i j hij]

theorem tailFrom_lt (x : Vec n) {k i : Fin n} (hi : i < k) : tailFrom k x i = 0 := by
  have : ¬ (k.val ≤ i.val) := by simpa using hi
  simp [tailFrom, this]

theorem tailFrom_ge (x : Vec n) {k i : Fin n} (hi : k ≤ i) : tailFrom k x i = x i := by
  have : k.val ≤ i.val := hi
  simp [tailFrom, this]

theorem tailFrom_succ_le (x : Vec n) {k i : Fin n} (hi : i ≤ k) : tailFrom (k + 1) x i = 0 := by
  have : ¬ (k.val + 1 ≤ i.val) := by have : i.val ≤ k.val := hi; omega
  simp [tailFrom, this]

theorem tailFrom_succ_gt (x : Vec n) {k i : Fin n} (hi : k < i) : tailFrom (k + 1) x i = x i := by
  have : k.val + 1 ≤ i.val := hi
  simp [tailFrom, this]

/-- One step keeps the sum of the Gram matrix and the rest, at every entry if the pivot is exact, and
at all entries but that of the pivot otherwise. -/
theorem gram_step {σ : ℝ} {A : Mat n n} (hU : UpperTri A) (x : Vec n) (k : Fin n) {r : ℝ}
    (i j : Fin n)
    (h : (A k k ≠ 0 ∧ r ≠ 0 ∧ r ^ 2 = A k k ^ 2 + σ * x k ^ 2) ∨ i < k ∨ j < k) :
    ((A.updateRow k (cuRow σ A x k r))ᵀ * A.updateRow k (cuRow σ A x k r)
        + σ • vecMulVec (tailFrom (k + 1) (cuVec σ A x k r)) (tailFrom (k + 1) (cuVec σ A x k r))) i j
      = (Aᵀ * A + σ • vecMulVec (tailFrom k x) (tailFrom k x)) i j := by
  rw [gram_updateRow]
  simp only [Matrix.add_apply, Matrix.sub_apply, vecMulVec_apply, Matrix.smul_apply, smul_eq_mul]
  suffices key : - (A k i * A k j) + cuRow σ A x k r i * cuRow σ A x k r j
      + σ * (tailFrom (k + 1) (cuVec σ A x k r) i * tailFrom (k + 1) (cuVec σ A x k r) j)
      = σ * (tailFrom k x i * tailFrom k x j) by linarith
  rcases lt_or_ge i k with hi | hi
  · rw [hU k i hi, cuRow_lt hU x r hi, tailFrom_lt x hi, tailFrom_succ_le _ hi.le]; ring
  rcases lt_or_ge j k with hj | hj
  · rw [hU k j hj, cuRow_lt hU x r hj, tailFrom_lt x hj, tailFrom_succ_le _ hj.le]; ring
  rcases h with ⟨ha, hr, hr2⟩ | h | h
  · rcases hi.eq_or_lt with rfl | hi'
    · rcases hj.eq_or_lt with rfl | hj'
      · rw [tailFrom_succ_le _ le_rfl, tailFrom_ge x le_rfl, cuRow_self]
        linear_combination hr2
      · rw [tailFrom_succ_le _ le_rfl, tailFrom_ge x le_rfl, tailFrom_ge x hj, cuRow_self,
          cuRow_gt x r hj']
        field_simp
        ring
    · rcases hj.eq_or_lt with rfl | hj'
      · rw [tailFrom_succ_le _ le_rfl, tailFrom_ge x le_rfl, tailFrom_ge x hi, cuRow_self,
          cuRow_gt x r hi']
        field_simp
        ring
      · rw [tailFrom_succ_gt _ hi', tailFrom_succ_gt _ hj', tailFrom_ge x hi, tailFrom_ge x hj]
        simp only [cuVec, hi', hj', if_true]
        rw [cuRow_gt x r hi', cuRow_gt x r hj']
        have hx : ∀ u b : ℝ, r / A k k * u
            - x k / A k k * ((b + σ * (x k / A k k) * u) / (r / A k k))
              = (A k k * u - x k * b) / r := by
          intro u b
          field_simp
          rw [hr2]; ring
        have hy : ∀ u b : ℝ, (b + σ * (x k / A k k) * u) / (r / A k k)
            = (A k k * b + σ * x k * u) / r := by
          intro u b
          field_simp
        rw [hx, hx, hy, hy]
        have : (A k k * A k i + σ * x k * x i) / r * ((A k k * A k j + σ * x k * x j) / r)
            + σ * ((A k k * x i - x k * A k i) / r * ((A k k * x j - x k * A k j) / r))
            = A k i * A k j + σ * (x i * x j) := by
          field_simp
          rw [hr2]
          ring
        linarith
  · exact absurd h (not_lt.mpr hi)
  · exact absurd h (not_lt.mpr hj)

theorem cholupdateStep_inv {σ : ℝ} {M : Mat n n} (hM : M.PosDef) {k : Fin n}
    {st : Mat n n × Vec n} (h : CUInv σ M k st) :
    ∃ st', cholupdateStep σ st k = .ok st' ∧ CUInv σ M (k + 1) st' := by
  obtain ⟨A, x⟩ := st
  have hU : UpperTri A := h.upper
  have ha : A k k ≠ 0 := h.diag k
  have hp : 0 < A k k ^ 2 + σ * x k ^ 2 := pivot_pos h.upper h.diag k (by rw [h.gram]; exact hM)
  rw [cholupdateStep_eq]
  have hr0 : cholupdateR σ (A k k) (x k) = Real.sqrt (A k k ^ 2 + σ * x k ^ 2) := by
    rw [cholupdateR]; simp [not_lt.mpr hp.le]
  have hrp : 0 < cholupdateR σ (A k k) (x k) := by rw [hr0]; exact Real.sqrt_pos.mpr hp
  have hr2 : cholupdateR σ (A k k) (x k) ^ 2 = A k k ^ 2 + σ * x k ^ 2 := by
    rw [hr0]; exact Real.sq_sqrt hp.le
  generalize cholupdateR σ (A k k) (x k) = r at hrp hr2
  have : ¬ ((k : ℕ) + 1 < n ∧ (A k k = 0 ∨ r = 0)) := by
    rintro ⟨-, h | h⟩
    · exact ha h
    · exact hrp.ne' h
  rw [if_neg this]
  refine ⟨_, rfl, updateRow_upper hU σ x k r, ?_, ?_, ?_⟩
  · intro i
    by_cases hi : i = k
    · subst hi; simp [cuRow_self, hrp.ne']
    · simpa [updateRow_ne hi] using h.diag i
  · intro i hi
    by_cases hik : i = k
    · subst hik; simp [cuRow_self, hrp]
    · have : i.val < k.val := by
        have : i.val ≠ k.val := fun e => hik (Fin.ext e)
        omega
      simpa [updateRow_ne hik] using h.done i this
  · rw [← h.gram]
    ext i j
    exact gram_step hU x k i j (Or.inl ⟨ha, hrp.ne', hr2⟩)

theorem cholupdate_foldlM {σ : ℝ} {M : Mat n n} (hM : M.PosDef) (d k : ℕ) (hk : k + d = n)
    {st : Mat n n × Vec n} (h : CUInv σ M k st) :
    ∃ st', ((List.finRange n).drop k).foldlM (cholupdateStep σ) st = .ok st' ∧ CUInv σ M n st' := by
  induction d generalizing k st with
  | zero =>
    have : k = n := by omega
    subst this
    refine ⟨st, ?_, h⟩
    rw [List.drop_of_length_le (by simp)]
    rfl
  | succ d ih =>
    have hkn : k < n := by omega
    have hlen : k < (List.finRange n).length := by simpa using hkn
    obtain ⟨st₁, h1, h2⟩ := cholupdateStep_inv hM (k := ⟨k, hkn⟩) h
    obtain ⟨st₂, h3, h4⟩ := ih (k + 1) (by omega) h2
    refine ⟨st₂, ?_, h4⟩
    rw [List.drop_eq_getElem_cons hlen, List.foldlM_cons]
    have : (List.finRange n)[k] = ⟨k, hkn⟩ := by simp
    rw [this, h1]
    exact h3

/-- Upper triangular with nonzero diagonal. -/
structure UFactor (A : Mat n n) : Prop where
  upper : UpperTri A
  diag : ∀ i, A i i ≠ 0

theorem cholupdateVec_spec {σ : ℝ} {A : Mat n n} (hA : UFactor A) {x : Vec n}
    (hM : (Aᵀ * A + σ • vecMulVec x x).PosDef) :
    ∃ B, cholupdateVec σ A x = .ok B ∧ UFactor B ∧ (∀ i, 0 < B i i)
      ∧ Bᵀ * B = Aᵀ * A + σ • vecMulVec x x := by
  obtain ⟨st, h1, h2⟩ := cholupdate_foldlM (σ := σ) hM n 0 (by omega) (st := (A, x))
    ⟨hA.upper, hA.diag, fun i hi => absurd hi (by omega), by rw [tailFrom_zero]⟩
  refine ⟨st.1, ?_, ⟨h2.upper, h2.diag⟩, fun i => h2.done i i.2, ?_⟩
  · rw [cholupdateVec]
    rw [List.drop_zero] at h1
    rw [h1]
    rfl
  · have := h2.gram
    rw [tailFrom_all] at this
    simpa using this

theorem sum_vecMulVec (X : Mat v n) : Xᵀ * X = ∑ i, vecMulVec (X i) (X i) := by
  ext i j
  simp [Matrix.mul_apply, Matrix.sum_apply, vecMulVec_apply]

theorem vecMulVec_self_posSemidef (x : Vec n) : (vecMulVec x x).PosSemidef := by
  rw [posSemidef_iff_real]
  refine ⟨by rw [transpose_vecMulVec], fun y => ?_⟩
  rw [vecMulVec_mulVec]
  simp only [op_smul_eq_smul, dotProduct_smul, smul_eq_mul]
  rw [dotProduct_comm y x]
  exact mul_self_nonneg _

theorem cholupdate_rows {σ : ℝ} (X : List (Vec n)) {A : Mat n n} (hA : UFactor A)
    (hM : (Aᵀ * A + σ • (X.map fun x => vecMulVec x x).sum).PosDef) :
    ∃ B, X.foldlM (fun A x => cholupdateVec σ A x) A = .ok B ∧ UFactor B
      ∧ (X ≠ [] → ∀ i, 0 < B i i)
      ∧ Bᵀ * B = Aᵀ * A + σ • (X.map fun x => vecMulVec x x).sum := by
  have hAp : (Aᵀ * A).PosDef := by
    have hi := hA.upper.isUnit hA.diag
    rw [posDef_iff_real]
    refine ⟨by rw [transpose_mul, transpose_transpose], fun x hx => ?_⟩
    rw [← mulVec_mulVec, dotProduct_mulVec, vecMul_transpose]
    have h0 : A *ᵥ x ≠ 0 := fun h0 => hx (by
      have := congrArg (A⁻¹ *ᵥ ·) h0
      simpa [mulVec_mulVec, nonsing_inv_mul _ hi] using this)
    have : 0 ≤ (A *ᵥ x) ⬝ᵥ (A *ᵥ x) := Finset.sum_nonneg fun i _ => mul_self_nonneg _
    refine lt_of_le_of_ne this fun h => h0 (dotProduct_self_eq_zero.mp h.symm)
  induction X generalizing A with
  | nil => exact ⟨A, rfl, hA, by simp, by simp⟩
  | cons x X ih =>
    have hsum : ((x :: X).map fun x => vecMulVec x x).sum
        = vecMulVec x x + (X.map fun x => vecMulVec x x).sum := by simp
    have hps : ((X.map fun x => vecMulVec x x).sum).PosSemidef := by
      clear ih hM hsum
      induction X with
      | nil => simpa using (PosSemidef.zero : (0 : Mat n n).PosSemidef)
      | cons y X ih => simpa using (vecMulVec_self_posSemidef y).add ih
    rw [hsum] at hM
    have hM1 : (Aᵀ * A + σ • vecMulVec x x).PosDef := by
      rcases le_total 0 σ with h | h
      · exact hAp.add_posSemidef ((vecMulVec_self_posSemidef x).smul h)
      · have e : Aᵀ * A + σ • vecMulVec x x
            = (Aᵀ * A + σ • (vecMulVec x x + (X.map fun x => vecMulVec x x).sum))
              + (-σ) • (X.map fun x => vecMulVec x x).sum := by
          rw [smul_add, neg_smul]
          abel
        rw [e]
        exact hM.add_posSemidef (hps.smul (neg_nonneg.mpr h))
    obtain ⟨B, h1, h2, h3, h4⟩ := cholupdateVec_spec hA hM1
    obtain ⟨B', h5, h6, h7, h8⟩ := ih h2
      (by rw [h4, add_assoc, ← smul_add]; exact hM) (by rw [h4]; exact hM1)
    refine ⟨B', ?_, h6, fun _ => ?_, ?_⟩
    · rw [List.foldlM_cons, h1]; exact h5
    · by_cases hXn : X = []
      · subst hXn
        cases h5
        exact h3
      · exact h7 hXn
    · rw [h8, h4, hsum, smul_add, add_assoc]

theorem cholupdate_spec {A : Mat n n} (hA : UFactor A) (X : Mat v n) (w : ℝ)
    (hM : (Aᵀ * A + w • (Xᵀ * X)).PosDef) :
    ∃ B, cholupdate A X w = .ok B ∧ UFactor B ∧ (0 < v → ∀ i, 0 < B i i)
      ∧ Bᵀ * B = Aᵀ * A + w • (Xᵀ * X) := by
  have hw : Real.sign w * (Real.sqrt |w| * Real.sqrt |w|) = w := by
    rw [Real.mul_self_sqrt (abs_nonneg w)]
    rcases lt_trichotomy w 0 with h | h | h
    · rw [Real.sign_of_neg h, abs_of_neg h]; ring
    · rw [h]; simp
    · rw [Real.sign_of_pos h, abs_of_pos h]; ring
  have hsum : Real.sign w • (((List.finRange v).map fun i => (Real.sqrt |w| • X) i).map
      fun x => vecMulVec x x).sum = w • (Xᵀ * X) := by
    rw [List.map_map, ← List.ofFn_eq_map, List.sum_ofFn, sum_vecMulVec, Finset.smul_sum,
      Finset.smul_sum]
    apply Finset.sum_congr rfl
    intro i _
    ext a b
    simp only [Function.comp, Matrix.smul_apply, vecMulVec_apply, smul_eq_mul, Pi.smul_apply]
    linear_combination (X i a * X i b) * hw
  obtain ⟨B, h1, h2, h3, h4⟩ := cholupdate_rows (σ := Real.sign w)
    ((List.finRange v).map fun i => (Real.sqrt |w| • X) i) hA (by rw [hsum]; exact hM)
  refine ⟨B, ?_, h2, fun hv => h3 ?_, by rw [h4, hsum]⟩
  · rw [cholupdate]
    rw [List.foldlM_map] at h1
    exact h1
  · intro h
    have := congrArg List.length h
    simp at this
    omega

/-! ### What success of `cholupdate` means in general -/

/-- The indices are not both the last one. -/
def NotLast (i j : Fin n) : Prop := (i : ℕ) + 1 < n ∨ (j : ℕ) + 1 < n

theorem cholupdateR_nonneg (σ a x : ℝ) : 0 ≤ cholupdateR σ a x := by
  simp only [cholupdateR]
  split
  · norm_num
  · exact Real.sqrt_nonneg _

theorem cholupdateR_sq {σ a x : ℝ} (h : cholupdateR σ a x ≠ 0) :
    cholupdateR σ a x ^ 2 = a ^ 2 + σ * x ^ 2 := by
  simp only [cholupdateR] at h ⊢
  split at h
  · norm_num at h
  · rename_i h0
    rw [if_neg h0]
    exact Real.sq_sqrt (not_lt.mp h0)

theorem cholupdateStep_ok {σ : ℝ} {A : Mat n n} (hU : UpperTri A) {x : Vec n} {k : Fin n}
    {st' : Mat n n × Vec n} (h : cholupdateStep σ (A, x) k = .ok st') :
    UpperTri st'.1 ∧ ((k : ℕ) + 1 < n → 0 < st'.1 k k) ∧
    (∀ i, i ≠ k → st'.1 i i = A i i) ∧
    ∀ i j, NotLast i j → (st'.1ᵀ * st'.1
        + σ • vecMulVec (tailFrom (k + 1) st'.2) (tailFrom (k + 1) st'.2)) i j
      = (Aᵀ * A + σ • vecMulVec (tailFrom k x) (tailFrom k x)) i j := by
  rw [cholupdateStep_eq] at h
  split at h
  · cases h
  · rename_i hc
    cases h
    refine ⟨updateRow_upper hU σ x k _, fun hk => ?_, fun i hi => by simp [updateRow_ne hi], ?_⟩
    · simp only [not_and, not_or] at hc
      have hr := (hc hk).2
      simp only [updateRow_self, cuRow_self]
      refine lt_of_le_of_ne ?_ (Ne.symm hr)
      exact cholupdateR_nonneg _ _ _
    · intro i j hij
      apply gram_step hU
      by_cases hk : (k : ℕ) + 1 < n
      · left
        simp only [not_and, not_or] at hc
        refine ⟨(hc hk).1, (hc hk).2, ?_⟩
        exact cholupdateR_sq (hc hk).2
      · right
        rcases hij with h | h
        · left; exact Fin.lt_def.mpr (by omega)
        · right; exact Fin.lt_def.mpr (by omega)

theorem cholupdate_foldlM_ok {σ : ℝ} (d k : ℕ) (hk : k + d = n) {A : Mat n n} (hU : UpperTri A)
    {x : Vec n} (hd : ∀ i : Fin n, i.val < k → (i : ℕ) + 1 < n → 0 < A i i) {st' : Mat n n × Vec n}
    (h : ((List.finRange n).drop k).foldlM (cholupdateStep σ) (A, x) = .ok st') :
    UpperTri st'.1 ∧ (∀ i : Fin n, (i : ℕ) + 1 < n → 0 < st'.1 i i) ∧
    ∀ i j, NotLast i j → (st'.1ᵀ * st'.1) i j
      = (Aᵀ * A + σ • vecMulVec (tailFrom k x) (tailFrom k x)) i j := by
  induction d generalizing k A x with
  | zero =>
    have : k = n := by omega
    subst this
    rw [List.drop_of_length_le (by simp)] at h
    cases h
    exact ⟨hU, fun i => hd i i.2, fun i j _ => by rw [tailFrom_all]; simp⟩
  | succ d ih =>
    have hkn : k < n := by omega
    have hlen : k < (List.finRange n).length := by simpa using hkn
    rw [List.drop_eq_getElem_cons hlen, List.foldlM_cons] at h
    have : (List.finRange n)[k] = ⟨k, hkn⟩ := by simp
    rw [this] at h
    cases hs : cholupdateStep σ (A, x) ⟨k, hkn⟩ with
    | error e => rw [hs] at h; cases h
    | ok st₁ =>
      rw [hs] at h
      obtain ⟨h1, h2, h3, h4⟩ := cholupdateStep_ok hU hs
      obtain ⟨g1, g2, g3⟩ := ih (k + 1) (by omega) (A := st₁.1) (x := st₁.2) h1 (fun i hi hn => by
        by_cases hik : i = ⟨k, hkn⟩
        · subst hik; exact h2 hn
        · rw [h3 i hik]
          refine hd i ?_ hn
          have : i.val ≠ k := fun e => hik (Fin.ext e)
          omega) h
      refine ⟨g1, g2, fun i j hij => ?_⟩
      rw [g3 i j hij, ← h4 i j hij]

/-- If `cholupdate` does not divide by zero, the result is upper triangular, its diagonal is positive
except perhaps at the end, and its Gram matrix is right except perhaps in the last entry. -/
theorem cholupdate_ok {A : Mat n n} (hU : UpperTri A) {X : Mat v n} {w : ℝ} {B : Mat n n}
    (h : cholupdate A X w = .ok B) :
    UpperTri B ∧ (0 < v → ∀ i : Fin n, (i : ℕ) + 1 < n → 0 < B i i) ∧
    ∀ i j, NotLast i j → (Bᵀ * B) i j = (Aᵀ * A + w • (Xᵀ * X)) i j := by
  have key : ∀ (σ : ℝ) (Y : List (Vec n)) (A : Mat n n), UpperTri A →
      ∀ B, Y.foldlM (fun A x => cholupdateVec σ A x) A = .ok B →
      UpperTri B ∧ (Y ≠ [] → ∀ i : Fin n, (i : ℕ) + 1 < n → 0 < B i i) ∧
      ∀ i j, NotLast i j → (Bᵀ * B) i j = (Aᵀ * A + σ • (Y.map fun x => vecMulVec x x).sum) i j := by
    intro σ Y
    induction Y with
    | nil =>
      intro A hA B h
      cases h
      exact ⟨hA, by simp, by simp⟩
    | cons y Y ih =>
      intro A hA B h
      rw [List.foldlM_cons] at h
      cases hs : cholupdateVec σ A y with
      | error e => rw [hs] at h; cases h
      | ok A₁ =>
        rw [hs] at h
        rw [cholupdateVec] at hs
        cases hf : (List.finRange n).foldlM (cholupdateStep σ) (A, y) with
        | error e => rw [hf] at hs; cases hs
        | ok st =>
          rw [hf] at hs
          cases hs
          obtain ⟨h1, h2, h3⟩ := cholupdate_foldlM_ok n 0 (by omega) hA (by simp)
            (by rw [List.drop_zero]; exact hf)
          obtain ⟨g1, g2, g3⟩ := ih _ h1 B h
          refine ⟨g1, fun _ => ?_, fun i j hij => ?_⟩
          · by_cases hY : Y = []
            · subst hY; cases h; exact h2
            · exact g2 hY
          · rw [g3 i j hij, Matrix.add_apply, h3 i j hij, tailFrom_zero]
            simp [Matrix.add_apply, mul_add, add_assoc]
  have hw : Real.sign w * (Real.sqrt |w| * Real.sqrt |w|) = w := by
    rw [Real.mul_self_sqrt (abs_nonneg w)]
    rcases lt_trichotomy w 0 with h | h | h
    · rw [Real.sign_of_neg h, abs_of_neg h]; ring
    · rw [h]; simp
    · rw [Real.sign_of_pos h, abs_of_pos h]; ring
  have hsum : Real.sign w • (((List.finRange v).map fun i => (Real.sqrt |w| • X) i).map
      fun x => vecMulVec x x).sum = w • (Xᵀ * X) := by
    rw [List.map_map, ← List.ofFn_eq_map, List.sum_ofFn, sum_vecMulVec, Finset.smul_sum,
      Finset.smul_sum]
    apply Finset.sum_congr rfl
    intro i _
    ext a b
    simp only [Function.comp, Matrix.smul_apply, vecMulVec_apply, smul_eq_mul, Pi.smul_apply]
    linear_combination (X i a * X i b) * hw
  obtain ⟨h1, h2, h3⟩ := key (Real.sign w) ((List.finRange v).map fun i => (Real.sqrt |w| • X) i) A hU B
    (by rw [List.foldlM_map]; exact h)
  refine ⟨h1, fun hv => h2 ?_, fun i j hij => by rw [h3 i j hij, hsum]⟩
  intro h
  have := congrArg List.length h
  simp at this
  omega

end Verif
