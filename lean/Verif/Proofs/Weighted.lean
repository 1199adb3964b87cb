import Verif.Proofs.Forgetting
import Verif.Proofs.Riccati

/-!
# Vectors and matrices measured by a covariance matrix
-/

open Matrix
open scoped MatrixOrder

namespace Verif

variable {n m k : ℕ}

/-- The square root of `v ⬝ S v`. -/
noncomputable def wt (S : Mat n n) (v : Vec n) : ℝ := √(v ⬝ᵥ (S *ᵥ v))

theorem wt_nonneg (S : Mat n n) (v : Vec n) : 0 ≤ wt S v := Real.sqrt_nonneg _

theorem wt_mono {S S' : Mat n n} (h : S ≤ S') (v : Vec n) : wt S v ≤ wt S' v :=
  Real.sqrt_le_sqrt (form_le h v)

theorem wt_smul {ρ : ℝ} (hρ : 0 ≤ ρ) (S : Mat n n) (v : Vec n) :
    wt (ρ ^ 2 • S) v = ρ * wt S v := by
  rw [wt, smul_mulVec, dotProduct_smul, smul_eq_mul, Real.sqrt_mul (sq_nonneg ρ),
    Real.sqrt_sq hρ, wt]

theorem wt_map (M : Mat k n) (S : Mat n n) (v : Vec k) :
    wt S (Mᵀ *ᵥ v) = wt (M * S * Mᵀ) v := by
  rw [wt, wt]
  congr 1
  rw [← mulVec_mulVec, ← mulVec_mulVec, dotProduct_mulVec v, ← mulVec_transpose]

/-- `d` is at most `s` in the units of the covariance `S`. -/
def DomV (s : ℝ) (d : Vec n) (S : Mat n n) : Prop := ∀ v, |v ⬝ᵥ d| ≤ s * wt S v

/-- The same for matrices (not necessarily symmetric). -/
def DomM (s : ℝ) (E S : Mat n n) : Prop := ∀ v w, |v ⬝ᵥ (E *ᵥ w)| ≤ s * (wt S v * wt S w)

theorem DomV.map {s : ℝ} {d : Vec n} {S : Mat n n} (h : DomV s d S) (M : Mat k n) :
    DomV s (M *ᵥ d) (M * S * Mᵀ) := fun v => by
  have := h (Mᵀ *ᵥ v)
  rwa [wt_map, mulVec_transpose, ← dotProduct_mulVec] at this

theorem DomM.map {s : ℝ} {E S : Mat n n} (h : DomM s E S) (M : Mat k n) :
    DomM s (M * E * Mᵀ) (M * S * Mᵀ) := fun v w => by
  have := h (Mᵀ *ᵥ v) (Mᵀ *ᵥ w)
  rwa [wt_map, wt_map, mulVec_transpose, ← dotProduct_mulVec, mulVec_mulVec,
    mulVec_mulVec] at this

theorem DomV.mono {s ρ : ℝ} {d : Vec n} {S S' : Mat n n} (hs : 0 ≤ s) (hρ : 0 ≤ ρ)
    (h : DomV s d S) (hS : S ≤ ρ ^ 2 • S') : DomV (ρ * s) d S' := fun v => by
  have h1 := wt_mono hS v
  rw [wt_smul hρ] at h1
  calc _ ≤ s * wt S v := h v
    _ ≤ s * (ρ * wt S' v) := mul_le_mul_of_nonneg_left h1 hs
    _ = _ := by ring

theorem DomM.mono {s ρ : ℝ} {E S S' : Mat n n} (hs : 0 ≤ s) (hρ : 0 ≤ ρ)
    (h : DomM s E S) (hS : S ≤ ρ ^ 2 • S') : DomM (ρ ^ 2 * s) E S' := fun v w => by
  have h1 := wt_mono hS v
  have h2 := wt_mono hS w
  rw [wt_smul hρ] at h1 h2
  calc _ ≤ s * (wt S v * wt S w) := h v w
    _ ≤ s * ((ρ * wt S' v) * (ρ * wt S' w)) :=
      mul_le_mul_of_nonneg_left (mul_le_mul h1 h2 (wt_nonneg _ _)
        (mul_nonneg hρ (wt_nonneg _ _))) hs
    _ = _ := by ring

theorem DomV.add {s s' : ℝ} {d d' : Vec n} {S : Mat n n} (h : DomV s d S) (h' : DomV s' d' S) :
    DomV (s + s') (d + d') S := fun v => by
  rw [dotProduct_add, add_mul]
  exact (abs_add_le _ _).trans (add_le_add (h v) (h' v))

theorem DomM.add {s s' : ℝ} {E E' S : Mat n n} (h : DomM s E S) (h' : DomM s' E' S) :
    DomM (s + s') (E + E') S := fun v w => by
  rw [add_mulVec, dotProduct_add, add_mul]
  exact (abs_add_le _ _).trans (add_le_add (h v w) (h' v w))

theorem DomV.weaken {s s' : ℝ} {d : Vec n} {S : Mat n n} (h : DomV s d S) (hs : s ≤ s') :
    DomV s' d S := fun v => (h v).trans (mul_le_mul_of_nonneg_right hs (wt_nonneg _ _))

theorem DomM.weaken {s s' : ℝ} {E S : Mat n n} (h : DomM s E S) (hs : s ≤ s') :
    DomM s' E S := fun v w =>
  (h v w).trans (mul_le_mul_of_nonneg_right hs (mul_nonneg (wt_nonneg _ _) (wt_nonneg _ _)))

theorem domV_zero (S : Mat n n) : DomV 0 0 S := fun v => by simp

theorem domM_zero (S : Mat n n) : DomM 0 0 S := fun v w => by simp

/-! ### Entries -/

theorem wt_single (S : Mat n n) (i : Fin n) : wt S (Pi.single i 1) = √(S i i) := by
  rw [wt]
  simp [single_one_dotProduct]

theorem DomV.entry {s β : ℝ} {d : Vec n} {S : Mat n n} (hs : 0 ≤ s) (h : DomV s d S) (i : Fin n)
    (hS : S i i ≤ β) : |d i| ≤ s * √β := by
  have := h (Pi.single i 1)
  rw [single_one_dotProduct, wt_single] at this
  exact this.trans (mul_le_mul_of_nonneg_left (Real.sqrt_le_sqrt hS) hs)

theorem DomM.entry {s β : ℝ} {E S : Mat n n} (hs : 0 ≤ s) (hβ : 0 ≤ β) (h : DomM s E S)
    (hS : ∀ i, S i i ≤ β) (i j : Fin n) : |E i j| ≤ s * β := by
  have := h (Pi.single i 1) (Pi.single j 1)
  rw [single_one_dotProduct, wt_single, wt_single, mulVec_single_one] at this
  refine this.trans (mul_le_mul_of_nonneg_left ?_ hs)
  calc √(S i i) * √(S j j) ≤ √β * √β :=
        mul_le_mul (Real.sqrt_le_sqrt (hS i)) (Real.sqrt_le_sqrt (hS j)) (Real.sqrt_nonneg _)
          (Real.sqrt_nonneg _)
    _ = β := Real.mul_self_sqrt hβ

theorem abs_le_wt {S : Mat n n} {q : ℝ} (hq : 0 < q) (hS : ∀ v : Vec n, q * (v ⬝ᵥ v) ≤ v ⬝ᵥ (S *ᵥ v))
    (v : Vec n) (i : Fin n) : |v i| ≤ wt S v / √q := by
  rw [le_div_iff₀ (Real.sqrt_pos.mpr hq), wt, ← Real.sqrt_sq_eq_abs, ← Real.sqrt_mul (sq_nonneg _)]
  apply Real.sqrt_le_sqrt
  refine le_trans ?_ (hS v)
  rw [mul_comm]
  refine mul_le_mul_of_nonneg_left ?_ hq.le
  rw [dotProduct]
  have := Finset.single_le_sum (f := fun j => v j * v j) (fun j _ => mul_self_nonneg _)
    (Finset.mem_univ i)
  nlinarith [this]

/-- A vector with entries up to `κ`. -/
theorem domV_of_entries {S : Mat n n} {q κ : ℝ} (hq : 0 < q)
    (hS : ∀ v : Vec n, q * (v ⬝ᵥ v) ≤ v ⬝ᵥ (S *ᵥ v)) {d : Vec n} (hκ : 0 ≤ κ)
    (h : ∀ i, |d i| ≤ κ) : DomV (n * κ / √q) d S := fun v => by
  rw [dotProduct]
  calc |∑ i, v i * d i| ≤ ∑ i, |v i * d i| := Finset.abs_sum_le_sum_abs _ _
    _ ≤ ∑ _i : Fin n, wt S v / √q * κ := Finset.sum_le_sum fun i _ => by
        rw [abs_mul]
        exact mul_le_mul (abs_le_wt hq hS v i) (h i) (abs_nonneg _)
          (div_nonneg (wt_nonneg _ _) (Real.sqrt_nonneg _))
    _ = n * κ / √q * wt S v := by
        rw [Finset.sum_const, Finset.card_univ, Fintype.card_fin, nsmul_eq_mul]; ring

/-- A matrix with entries up to `κ`. -/
theorem domM_of_entries {S : Mat n n} {q κ : ℝ} (hq : 0 < q)
    (hS : ∀ v : Vec n, q * (v ⬝ᵥ v) ≤ v ⬝ᵥ (S *ᵥ v)) {E : Mat n n} (hκ : 0 ≤ κ)
    (h : ∀ i j, |E i j| ≤ κ) : DomM (n * n * κ / q) E S := fun v w => by
  have hq' := Real.sqrt_pos.mpr hq
  have e : v ⬝ᵥ (E *ᵥ w) = ∑ i, ∑ j, v i * (E i j * w j) := by
    simp only [dotProduct, mulVec, Finset.mul_sum]
  rw [e]
  calc |∑ i, ∑ j, v i * (E i j * w j)| ≤ ∑ i, ∑ j, |v i * (E i j * w j)| :=
        (Finset.abs_sum_le_sum_abs _ _).trans
          (Finset.sum_le_sum fun i _ => Finset.abs_sum_le_sum_abs _ _)
    _ ≤ ∑ _i : Fin n, ∑ _j : Fin n, wt S v / √q * (κ * (wt S w / √q)) :=
        Finset.sum_le_sum fun i _ => Finset.sum_le_sum fun j _ => by
          rw [abs_mul, abs_mul]
          exact mul_le_mul (abs_le_wt hq hS v i) (mul_le_mul (h i j) (abs_le_wt hq hS w j)
            (abs_nonneg _) hκ) (mul_nonneg (abs_nonneg _) (abs_nonneg _))
            (div_nonneg (wt_nonneg _ _) hq'.le)
    _ = n * n * κ / q * (wt S v * wt S w) := by
        simp only [Finset.sum_const, Finset.card_univ, Fintype.card_fin, nsmul_eq_mul]
        have : q = √q * √q := (Real.mul_self_sqrt hq.le).symm
        rw [this]
        field_simp
        rw [Real.sqrt_sq hq'.le]

/-! ### The factors by which a step of the filter and of the smoother multiplies errors -/

theorem closed_loop_le {P : Mat n n} {R : Mat m m} (hP : 0 ≤ P) (hR : 0 ≤ R) (C : Mat m n) :
    (1 - gain P R C * C) * P * (1 - gain P R C * C)ᵀ ≤ corr R C P := by
  rw [corr_eq hP hR]
  exact le_add_of_nonneg_right
    (Matrix.nonneg_iff_posSemidef.mpr (posSemidef_conj' (Matrix.nonneg_iff_posSemidef.mp hR) _))

theorem pred_le {A Q S : Mat n n} {ρ : ℝ} (hQ : (1 - ρ ^ 2) • (A * S * Aᵀ + Q) ≤ Q) :
    A * S * Aᵀ ≤ ρ ^ 2 • (A * S * Aᵀ + Q) := by
  rw [sub_smul, one_smul, sub_le_iff_le_add, add_comm (A * S * Aᵀ) Q] at hQ
  rw [add_comm (A * S * Aᵀ) Q]
  exact le_of_add_le_add_left hQ

/-- Transition noise is a part of the predicted covariance. -/
theorem exists_rate {q β : ℝ} (hq : 0 < q) (hqβ : q ≤ β) :
    ∃ ρ : ℝ, 0 ≤ ρ ∧ ρ < 1 ∧ ∀ {n : ℕ} {S Q : Mat n n}, q • (1 : Mat n n) ≤ Q →
      S ≤ β • (1 : Mat n n) → (1 - ρ ^ 2) • S ≤ Q := by
  have hβ : 0 < β := hq.trans_le hqβ
  have h1 : q / β ≤ 1 := (div_le_one hβ).mpr hqβ
  have h2 : 0 < q / β := div_pos hq hβ
  refine ⟨√(1 - q / β), Real.sqrt_nonneg _, ?_, fun {n} S Q hQ hS => ?_⟩
  · rw [Real.sqrt_lt' one_pos]; linarith
  · rw [Real.sq_sqrt (by linarith), sub_sub_cancel]
    refine (smul_le' hS h2.le).trans ?_
    rwa [smul_smul, div_mul_cancel₀ _ hβ.ne']

/-- The gain of the smoother multiplies errors by at most `ρ`. -/
theorem smoother_gain_le {A S P : Mat n n} {ρ : ℝ} (hS : 0 ≤ S)
    (hdet : IsUnit P.det) (hPs : Pᵀ = P) (hP : A * S * Aᵀ ≤ ρ ^ 2 • P) :
    S * (Aᵀ * pinv P) * P * (S * (Aᵀ * pinv P))ᵀ ≤ ρ ^ 2 • S := by
  have hS' := Matrix.nonneg_iff_posSemidef.mp hS
  have hSs := symm_of_posSemidef hS'
  have hinv : (P⁻¹)ᵀ = P⁻¹ := by rw [transpose_nonsing_inv, hPs]
  have hJ : (S * (Aᵀ * pinv P))ᵀ = P⁻¹ * A * S := by
    rw [pinv_eq_inv hdet, transpose_mul, transpose_mul, hinv, transpose_transpose, hSs]
  have e : S * (Aᵀ * pinv P) * P * (S * (Aᵀ * pinv P))ᵀ = S * Aᵀ * P⁻¹ * A * S := by
    rw [hJ, pinv_eq_inv hdet]
    simp only [Matrix.mul_assoc]
    rw [← Matrix.mul_assoc P P⁻¹, mul_nonsing_inv _ hdet, Matrix.one_mul]
  rw [e, Matrix.le_iff, posSemidef_iff_real]
  refine ⟨?_, fun x => ?_⟩
  · have : (S * Aᵀ * P⁻¹ * A * S)ᵀ = S * Aᵀ * P⁻¹ * A * S := by
      simp only [transpose_mul, transpose_transpose, hinv, hSs, Matrix.mul_assoc]
    rw [transpose_sub, transpose_smul, hSs, this]
  · rw [sub_mulVec, dotProduct_sub, smul_mulVec, dotProduct_smul, smul_eq_mul, sub_nonneg]
    set y := (P⁻¹ * A * S) *ᵥ x with hy
    set g := x ⬝ᵥ ((S * Aᵀ * P⁻¹ * A * S) *ᵥ x) with hg
    have h1 : g = (Aᵀ *ᵥ y) ⬝ᵥ (S *ᵥ x) := by
      rw [hg, hy, mulVec_mulVec]
      simp only [Matrix.mul_assoc]
      rw [← mulVec_mulVec, dotProduct_mulVec, ← mulVec_transpose, hSs, dotProduct_comm]
    have h2 : y ⬝ᵥ (P *ᵥ y) = g := by
      rw [hg, hy, mulVec_mulVec, dotProduct_comm, dotProduct_mulVec, ← mulVec_transpose,
        mulVec_mulVec, dotProduct_comm]
      congr 2
      have : (P⁻¹ * A * S)ᵀ = S * Aᵀ * P⁻¹ := by
        rw [transpose_mul, transpose_mul, hinv, hSs, Matrix.mul_assoc]
      rw [this]
      simp only [Matrix.mul_assoc]
      rw [← Matrix.mul_assoc P P⁻¹, mul_nonsing_inv _ hdet, Matrix.one_mul]
    have h3 := form_le hP y
    rw [smul_mulVec, dotProduct_smul, smul_eq_mul, h2] at h3
    have h4 : y ⬝ᵥ ((A * S * Aᵀ) *ᵥ y) = (Aᵀ *ᵥ y) ⬝ᵥ (S *ᵥ (Aᵀ *ᵥ y)) := by
      rw [← mulVec_mulVec, ← mulVec_mulVec, dotProduct_mulVec, ← mulVec_transpose]
    rw [h4] at h3
    -- Cauchy–Schwarz in the form of a nonnegative square
    have hcs : ∀ t : ℝ, 0 ≤ t ^ 2 * (x ⬝ᵥ (S *ᵥ x)) - 2 * t * g
        + (Aᵀ *ᵥ y) ⬝ᵥ (S *ᵥ (Aᵀ *ᵥ y)) := by
      intro t
      have := (posSemidef_iff_real.mp hS').2 (t • x - Aᵀ *ᵥ y)
      have hsy : x ⬝ᵥ (S *ᵥ (Aᵀ *ᵥ y)) = g := by
        rw [h1, dotProduct_mulVec, ← mulVec_transpose, hSs, dotProduct_comm]
      simp only [mulVec_sub, mulVec_smul, dotProduct_sub, sub_dotProduct, smul_dotProduct,
        dotProduct_smul, smul_eq_mul] at this
      rw [hsy, ← h1] at this
      linarith
    have hx0 := (posSemidef_iff_real.mp hS').2 x
    have hg0 : 0 ≤ g ∨ g < 0 := le_or_gt 0 g
    rcases hg0 with hg0 | hg0
    · by_cases hr : ρ ^ 2 = 0
      · have := hcs 1
        have h5 := hcs 0
        rw [hr, zero_mul] at h3
        have hz : (Aᵀ *ᵥ y) ⬝ᵥ (S *ᵥ (Aᵀ *ᵥ y)) = 0 := by
          have := (posSemidef_iff_real.mp hS').2 (Aᵀ *ᵥ y)
          linarith
        rw [hz] at hcs
        rw [hr, zero_mul]
        by_contra hne
        have hgp : 0 < g := by linarith
        by_cases hxz : x ⬝ᵥ (S *ᵥ x) = 0
        · have := hcs 1; rw [hxz] at this; linarith
        · have hxp : 0 < x ⬝ᵥ (S *ᵥ x) := lt_of_le_of_ne hx0 (Ne.symm hxz)
          have := hcs (g / (x ⬝ᵥ (S *ᵥ x)))
          have e2 : (g / (x ⬝ᵥ (S *ᵥ x))) ^ 2 * (x ⬝ᵥ (S *ᵥ x))
              - 2 * (g / (x ⬝ᵥ (S *ᵥ x))) * g + 0 = -(g ^ 2 / (x ⬝ᵥ (S *ᵥ x))) := by
            field_simp; ring
          rw [e2] at this
          have : 0 < g ^ 2 / (x ⬝ᵥ (S *ᵥ x)) := by positivity
          linarith
      · have := hcs (ρ ^ 2)
        have hrp : 0 < ρ ^ 2 := lt_of_le_of_ne (sq_nonneg ρ) (Ne.symm hr)
        have h6 : 0 ≤ ρ ^ 2 * (ρ ^ 2 * (x ⬝ᵥ (S *ᵥ x)) - g) := by nlinarith
        have := nonneg_of_mul_nonneg_right h6 hrp
        linarith
    · have : 0 ≤ ρ ^ 2 * (x ⬝ᵥ (S *ᵥ x)) := mul_nonneg (sq_nonneg _) hx0
      linarith

end Verif
