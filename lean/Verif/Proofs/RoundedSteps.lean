import Verif.Proofs.Near
import Verif.Proofs.Weighted

/-!
# One step with rounding errors, uniformly in the data of the step
-/

open Matrix Topology
open scoped MatrixOrder

namespace Verif

variable {n m k l : ℕ} {c : ℕ → ℝ}

/-! ### Constants from bounds along a filter -/

section

variable {ι : Type*} {F : Filter ι} {w w' : ι → ℝ}

theorem Ow.mono_w {f : ι → ℝ} (h : Ow F w f 0) (hw : ∀ᶠ i in F, |w i| ≤ w' i) : Ow F w' f 0 :=
  Asymptotics.IsBigO.trans h (Asymptotics.IsBigO.of_bound 1 (hw.mono fun i hi => by
    rw [one_mul, Real.norm_eq_abs, Real.norm_eq_abs]
    exact hi.trans (le_abs_self _)))

theorem OwM.mono_w {f : ι → Mat k l} (h : OwM F w f 0) (hw : ∀ᶠ i in F, |w i| ≤ w' i) :
    OwM F w' f 0 := fun p q => Ow.mono_w (h p q) hw

theorem OwV.mono_w {f : ι → Vec k} (h : OwV F w f 0) (hw : ∀ᶠ i in F, |w i| ≤ w' i) :
    OwV F w' f 0 := fun p => Ow.mono_w (h p) hw

/-- Products of two small matrices. -/
theorem owM_mul_sq {r : ℕ} {f : ι → Mat k l} {g : ι → Mat l r} (hf : OwM F w f 0)
    (hg : OwM F w g 0) : OwM F (fun i => w i ^ 2) (fun i => f i * g i) 0 := fun p q => by
  have : Ow F (fun i => w i ^ 2) (fun i => ∑ j, f i p j * g i j q) (∑ _j : Fin l, 0) := by
    refine Ow.sum fun j _ => ?_
    have h1 : Asymptotics.IsBigO F (fun i => f i p j) w := by simpa [Ow] using hf p j
    have h2 : Asymptotics.IsBigO F (fun i => g i j q) w := by simpa [Ow] using hg j q
    have := h1.mul h2
    simpa [Ow, sq] using this
  simpa [Matrix.mul_apply] using this

/-- The filter of members of `S` with `size` going to zero. -/
def smallIn (S : Set ι) (size : ι → ℝ) : Filter ι := Filter.comap size (𝓝 0) ⊓ Filter.principal S

theorem smallIn_tendsto (S : Set ι) (size : ι → ℝ) :
    Filter.Tendsto size (smallIn S size) (𝓝 0) :=
  Filter.tendsto_comap.mono_left inf_le_left

theorem smallIn_mem (S : Set ι) (size : ι → ℝ) : ∀ᶠ i in smallIn S size, i ∈ S :=
  Filter.Eventually.filter_mono inf_le_right (Filter.mem_principal_self S)

theorem smallIn_eventually {S : Set ι} {size : ι → ℝ} {q : ι → Prop}
    (h : ∀ᶠ i in smallIn S size, q i) :
    ∃ δ : ℝ, 0 < δ ∧ ∀ i ∈ S, |size i| ≤ δ → q i := by
  rw [smallIn, Filter.eventually_inf_principal, Filter.eventually_comap,
    Metric.eventually_nhds_iff] at h
  obtain ⟨e, he, h⟩ := h
  refine ⟨e / 2, by linarith, fun i hi hs => ?_⟩
  exact h (y := size i) (by rw [Real.dist_eq, sub_zero]; linarith) i rfl hi

theorem smallIn_tendsto_of_le {S : Set ι} {size : ι → ℝ} (h : ∀ i ∈ S, |w i| ≤ size i) :
    Filter.Tendsto w (smallIn S size) (𝓝 0) := by
  refine squeeze_zero_norm' ?_ (smallIn_tendsto S size)
  exact (smallIn_mem S size).mono fun i hi => by rw [Real.norm_eq_abs]; exact h i hi

theorem smallIn_bound {S : Set ι} {size : ι → ℝ} {κ : Type} [Fintype κ] {f : κ → ι → ℝ}
    (h : ∀ j, Ow (smallIn S size) w (f j) 0) :
    ∃ K δ : ℝ, 0 < K ∧ 0 < δ ∧ ∀ i ∈ S, |size i| ≤ δ → ∀ j, |f j i| ≤ K * |w i| := by
  have h1 : Asymptotics.IsBigO (smallIn S size) (fun x => ∑ j, |f j x|) w := by
    have := Asymptotics.IsBigO.sum (s := Finset.univ) (A := fun j x => |f j x|)
      (g := w) (l := smallIn S size) (fun j _ => by
        have := h j
        simp only [Ow, sub_zero] at this
        exact this.norm_left)
    refine this.congr_left fun i => ?_
    rw [Finset.sum_apply]
  obtain ⟨K, hK, hK'⟩ := h1.exists_pos
  obtain ⟨δ, hδ, h2⟩ := smallIn_eventually hK'.bound
  refine ⟨K, δ, hK, hδ, fun i hi hs j => ?_⟩
  have := h2 i hi hs
  rw [Real.norm_eq_abs, Real.norm_eq_abs,
    abs_of_nonneg (Finset.sum_nonneg fun _ _ => abs_nonneg _)] at this
  exact (Finset.single_le_sum (f := fun j => |f j i|) (fun _ _ => abs_nonneg _)
    (Finset.mem_univ j)).trans this

theorem smallIn_boundM {S : Set ι} {size : ι → ℝ} {f : ι → Mat k l}
    (h : OwM (smallIn S size) w f 0) :
    ∃ K δ : ℝ, 0 < K ∧ 0 < δ ∧ ∀ i ∈ S, |size i| ≤ δ → ∀ a b, |f i a b| ≤ K * |w i| := by
  obtain ⟨K, δ, hK, hδ, h⟩ := smallIn_bound (κ := Fin k × Fin l) (f := fun j i => f i j.1 j.2)
    (fun j => h j.1 j.2)
  exact ⟨K, δ, hK, hδ, fun i hi hs a b => h i hi hs (a, b)⟩

theorem smallIn_boundV {S : Set ι} {size : ι → ℝ} {f : ι → Vec k}
    (h : OwV (smallIn S size) w f 0) :
    ∃ K δ : ℝ, 0 < K ∧ 0 < δ ∧ ∀ i ∈ S, |size i| ≤ δ → ∀ a, |f i a| ≤ K * |w i| :=
  smallIn_bound (κ := Fin k) (f := fun j i => f i j) (fun j => h j)

theorem bddM_smallIn {S : Set ι} {size : ι → ℝ} {f : ι → Mat k l} {κ : ℝ}
    (h : ∀ i ∈ S, ∀ a b, |f i a b| ≤ κ) : BddM (smallIn S size) f := fun a b =>
  Asymptotics.IsBigO.of_bound κ ((smallIn_mem S size).mono fun i hi => by
    simpa using h i hi a b)

theorem bddV_smallIn {S : Set ι} {size : ι → ℝ} {f : ι → Vec k} {κ : ℝ}
    (h : ∀ i ∈ S, ∀ a, |f i a| ≤ κ) : BddV (smallIn S size) f := fun a =>
  Asymptotics.IsBigO.of_bound κ ((smallIn_mem S size).mono fun i hi => by
    simpa using h i hi a)

end

theorem abs_le_sumAbs (M : Mat k l) (a : Fin k) (b : Fin l) : |M a b| ≤ sumAbs M :=
  (Finset.single_le_sum (f := fun j => |M a j|) (fun _ _ => abs_nonneg _)
    (Finset.mem_univ b)).trans
    (Finset.single_le_sum (f := fun i => ∑ j, |M i j|)
      (fun _ _ => Finset.sum_nonneg fun _ _ => abs_nonneg _) (Finset.mem_univ a))

theorem sumAbs_le {M : Mat k l} {κ : ℝ} (h : ∀ a b, |M a b| ≤ κ) : sumAbs M ≤ k * l * κ := by
  calc sumAbs M ≤ ∑ _i : Fin k, ∑ _j : Fin l, κ :=
        Finset.sum_le_sum fun i _ => Finset.sum_le_sum fun j _ => h i j
    _ = k * l * κ := by
        simp only [Finset.sum_const, Finset.card_univ, Fintype.card_fin, nsmul_eq_mul]; ring

/-! ### Matrices bounded from below -/

/-- `M` is at least `r` times the identity. -/
def AtLeast (r : ℝ) (M : Mat k k) : Prop := ∀ v : Vec k, r * (v ⬝ᵥ v) ≤ v ⬝ᵥ (M *ᵥ v)

theorem sq_le_dot (v : Vec k) (i : Fin k) : v i ^ 2 ≤ v ⬝ᵥ v := by
  rw [sq]
  exact Finset.single_le_sum (f := fun j => v j * v j) (fun j _ => mul_self_nonneg _)
    (Finset.mem_univ i)

theorem dot_self_pos {v : Vec k} (h : v ≠ 0) : 0 < v ⬝ᵥ v := by
  have : 0 ≤ v ⬝ᵥ v := Finset.sum_nonneg fun j _ => mul_self_nonneg _
  exact lt_of_le_of_ne this fun h0 => h (dotProduct_self_eq_zero.mp h0.symm)

theorem AtLeast.det {r : ℝ} (hr : 0 < r) {M : Mat k k} (h : AtLeast r M) : IsUnit M.det := by
  rw [isUnit_iff_ne_zero]
  intro h0
  obtain ⟨v, hv, hMv⟩ := Matrix.exists_mulVec_eq_zero_iff.mpr h0
  have := h v
  rw [hMv, dotProduct_zero] at this
  nlinarith [dot_self_pos hv]

theorem AtLeast.pinv_le {r : ℝ} (hr : 0 < r) {M : Mat k k} (h : AtLeast r M) (i j : Fin k) :
    |pinv M i j| ≤ r⁻¹ := by
  have hd := h.det hr
  rw [pinv_eq_inv hd]
  set y : Vec k := M⁻¹ *ᵥ Pi.single j 1 with hy
  have e : ∀ i, M⁻¹ i j = y i := fun i => by rw [hy, mulVec_single_one]; rfl
  have h1 : M *ᵥ y = Pi.single j 1 := by
    rw [hy, mulVec_mulVec, mul_nonsing_inv _ hd, one_mulVec]
  have h2 := h y
  rw [h1, dotProduct_single_one] at h2
  have h3 := sq_le_dot y j
  rw [e]
  by_cases h0 : y = 0
  · rw [h0]; simpa using hr.le
  · have hp := dot_self_pos h0
    have h4 : r ^ 2 * (y ⬝ᵥ y) ≤ 1 := by
      have h5 : (r * (y ⬝ᵥ y)) ^ 2 ≤ y ⬝ᵥ y :=
        (pow_le_pow_left₀ (mul_pos hr hp).le h2 2).trans h3
      have h6 : (r ^ 2 * (y ⬝ᵥ y)) * (y ⬝ᵥ y) ≤ 1 * (y ⬝ᵥ y) := by nlinarith
      exact le_of_mul_le_mul_right h6 hp
    have h7 := sq_le_dot y i
    have h8 : (r * |y i|) ^ 2 ≤ 1 := by
      rw [mul_pow, sq_abs]
      exact (mul_le_mul_of_nonneg_left h7 (sq_nonneg r)).trans h4
    have h9 : r * |y i| ≤ 1 := by
      rw [sq_le_one_iff₀ (mul_nonneg hr.le (abs_nonneg _))] at h8
      exact h8
    rw [inv_eq_one_div, le_div_iff₀ hr, mul_comm]
    exact h9

theorem AtLeast.add_left {r : ℝ} {M N : Mat k k} (h : AtLeast r M) (hN : N.PosSemidef) :
    AtLeast r (N + M) := fun v => by
  rw [add_mulVec, dotProduct_add]
  linarith [h v, (posSemidef_iff_real.mp hN).2 v]

/-! ### Difference of two corrections -/

/-- The corrected covariances of two predicted covariances (the second need not be symmetric). -/
theorem correct_diff {C : Mat m n} {R : Mat m m} {P P' : Mat n n}
    (h : IsUnit (C * (P * Cᵀ) + R).det) (h' : IsUnit (C * (P' * Cᵀ) + R).det) :
    (P' - P' * (Cᵀ * pinv (C * (P' * Cᵀ) + R)) * (C * P'))
        - (P - P * (Cᵀ * pinv (C * (P * Cᵀ) + R)) * (C * P))
      = (1 - P * (Cᵀ * pinv (C * (P * Cᵀ) + R)) * C) * (P' - P)
        * (1 - Cᵀ * (pinv (C * (P' * Cᵀ) + R) * (C * P'))) := by
  rw [pinv_eq_inv h, pinv_eq_inv h']
  set V := C * (P * Cᵀ) + R with hV
  set V' := C * (P' * Cᵀ) + R with hV'
  -- `K C P' Cᵀ V'⁻¹ C P' = K (V' - R) V'⁻¹ C P'`
  have e1 : C * P' * Cᵀ * V'⁻¹ = 1 - R * V'⁻¹ := by
    have : C * P' * Cᵀ = V' - R := by rw [hV', Matrix.mul_assoc]; abel
    rw [this, Matrix.sub_mul, mul_nonsing_inv _ h']
  have e2 : V⁻¹ * (C * P * Cᵀ) = 1 - V⁻¹ * R := by
    have : C * P * Cᵀ = V - R := by rw [hV, Matrix.mul_assoc]; abel
    rw [this, Matrix.mul_sub, nonsing_inv_mul _ h]
  have f1 : P * Cᵀ * V⁻¹ * (C * P' * Cᵀ * V'⁻¹) * (C * P')
      = P * Cᵀ * V⁻¹ * (C * P') - P * Cᵀ * V⁻¹ * R * V'⁻¹ * (C * P') := by
    rw [e1, Matrix.mul_sub, Matrix.sub_mul, Matrix.mul_one]
    simp only [Matrix.mul_assoc]
  have f2 : P * Cᵀ * (V⁻¹ * (C * P * Cᵀ)) * V'⁻¹ * (C * P')
      = P * Cᵀ * V'⁻¹ * (C * P') - P * Cᵀ * V⁻¹ * R * V'⁻¹ * (C * P') := by
    rw [e2, Matrix.mul_sub, Matrix.sub_mul, Matrix.sub_mul, Matrix.mul_one]
    simp only [Matrix.mul_assoc]
  have g1 : (1 - P * (Cᵀ * V⁻¹) * C) * (P' - P) * (1 - Cᵀ * (V'⁻¹ * (C * P')))
      = P' - P' * (Cᵀ * V'⁻¹) * (C * P') - (P - P * (Cᵀ * V⁻¹) * (C * P))
        - P * Cᵀ * V⁻¹ * (C * P') + P * Cᵀ * V⁻¹ * (C * P' * Cᵀ * V'⁻¹) * (C * P')
        + P * Cᵀ * V'⁻¹ * (C * P') - P * Cᵀ * (V⁻¹ * (C * P * Cᵀ)) * V'⁻¹ * (C * P') := by
    simp only [Matrix.mul_sub, Matrix.sub_mul, Matrix.mul_one, Matrix.one_mul, Matrix.mul_assoc]
    abel
  rw [g1, f1, f2]
  abel

/-- The corrected means. -/
theorem correct_mean_diff (C : Mat m n) (K K' : Mat n m) (d z : Vec m) (x ε : Vec n) :
    (x + ε + K' *ᵥ (z - (C *ᵥ (x + ε) + d))) - (x + K *ᵥ (z - (C *ᵥ x + d)))
        - (1 - K * C) *ᵥ ε
      = (K' - K) *ᵥ (z - (C *ᵥ (x + ε) + d)) := by
  simp only [mulVec_add, mulVec_sub, sub_mulVec, one_mulVec, mulVec_mulVec, Matrix.sub_mul]
  abel

/-! ### The correction, uniformly -/

/-- Data of a correction: the exact predicted moments `x`, `P` and the errors `ε`, `e` of the
computed ones. -/
structure CorrIdx (c : ℕ → ℝ) (n m : ℕ) where
  u : ℝ
  ar : Arith c u
  C : Mat m n
  R : Mat m m
  d : Vec m
  x : Vec n
  P : Mat n n
  ε : Vec n
  e : Mat n n
  o : Obs m

/-- The data are bounded by `κ`, the noise of the observation is at least `r`. -/
structure CorrIdx.Ok (κ r : ℝ) (i : CorrIdx c n m) : Prop where
  u0 : 0 ≤ i.u
  C : ∀ a b, |i.C a b| ≤ κ
  R : ∀ a b, |i.R a b| ≤ κ
  d : ∀ a, |i.d a| ≤ κ
  x : ∀ a, |i.x a| ≤ κ
  P : ∀ a b, |i.P a b| ≤ κ
  z : ∀ a, |i.o.val a| ≤ κ
  obs : ¬ i.o.missing
  psd : i.P.PosSemidef
  Rpsd : i.R.PosSemidef
  noise : AtLeast r i.R

/-- Size of the errors. -/
def CorrIdx.size (i : CorrIdx c n m) : ℝ := i.u + sumAbs i.e + ∑ a, |i.ε a|

/-- Error of the corrected covariance, apart from the part that comes linearly from `e`. -/
noncomputable def CorrIdx.covRest (i : CorrIdx c n m) : Mat n n :=
  (flCorrect i.ar i.C i.R i.d (i.x + i.ε) (i.P + i.e) i.o).2.2
    - (filterCorrect i.C i.R i.d i.x i.P i.o).2.2
    - (1 - gain i.P i.R i.C * i.C) * i.e * (1 - gain i.P i.R i.C * i.C)ᵀ

/-- Error of the corrected mean, apart from the part that comes linearly from `ε`. -/
noncomputable def CorrIdx.meanRest (i : CorrIdx c n m) : Vec n :=
  (flCorrect i.ar i.C i.R i.d (i.x + i.ε) (i.P + i.e) i.o).2.1
    - (filterCorrect i.C i.R i.d i.x i.P i.o).2.1
    - (1 - gain i.P i.R i.C * i.C) *ᵥ i.ε

theorem exists_correct_const (c : ℕ → ℝ) (n m : ℕ) (κ : ℝ) {r : ℝ} (hr : 0 < r) :
    ∃ K δ : ℝ, 0 < K ∧ 0 < δ ∧ ∀ i : CorrIdx c n m, i.Ok κ r → i.size ≤ δ →
      (∀ a b, |i.covRest a b| ≤ K * (i.u + sumAbs i.e ^ 2)) ∧
      ∀ a, |i.meanRest a| ≤ K * (i.u + sumAbs i.e) := by
  set S : Set (CorrIdx c n m) := {i | i.Ok κ r} with hS
  set F := smallIn S CorrIdx.size with hF
  have hmem : ∀ᶠ i in F, i.Ok κ r := smallIn_mem S _
  have nn1 : ∀ i ∈ S, 0 ≤ i.u := fun i hi => hi.u0
  have nn2 : ∀ i : CorrIdx c n m, 0 ≤ ∑ a, |i.ε a| :=
    fun i => Finset.sum_nonneg fun _ _ => abs_nonneg _
  have hwu : Filter.Tendsto (fun i : CorrIdx c n m => i.u) F (𝓝 0) :=
    smallIn_tendsto_of_le fun i hi => by
      rw [abs_of_nonneg (nn1 i hi), CorrIdx.size]
      linarith [sumAbs_nonneg i.e, nn2 i]
  have hwe : Filter.Tendsto (fun i : CorrIdx c n m => sumAbs i.e) F (𝓝 0) :=
    smallIn_tendsto_of_le fun i hi => by
      rw [abs_of_nonneg (sumAbs_nonneg _), CorrIdx.size]
      linarith [nn1 i hi, nn2 i]
  have bC : BddM F (fun i => i.C) := bddM_smallIn fun i hi => hi.C
  have bR : BddM F (fun i => i.R) := bddM_smallIn fun i hi => hi.R
  have bd : BddV F (fun i => i.d) := bddV_smallIn fun i hi => hi.d
  have bx : BddV F (fun i => i.x) := bddV_smallIn fun i hi => hi.x
  have bP : BddM F (fun i => i.P) := bddM_smallIn fun i hi => hi.P
  have bz : BddV F (fun i => i.o.val) := bddV_smallIn fun i hi => hi.z
  have nε : OwV F CorrIdx.size (fun i => i.ε) 0 := fun a => by
    refine Asymptotics.IsBigO.of_bound 1 (hmem.mono fun i hi => ?_)
    rw [one_mul, Real.norm_eq_abs, Real.norm_eq_abs, Pi.zero_apply, sub_zero]
    refine le_trans ?_ (le_abs_self _)
    have := Finset.single_le_sum (f := fun a => |i.ε a|) (fun _ _ => abs_nonneg _)
      (Finset.mem_univ a)
    simp only [CorrIdx.size]
    linarith [hi.u0, sumAbs_nonneg i.e]
  have bε : BddV F (fun i => i.ε) := nε.bdd (smallIn_tendsto S _)
  have ne : OwM F (fun i => sumAbs i.e) (fun i => i.e) 0 := fun a b => by
    refine Asymptotics.IsBigO.of_bound 1 (Filter.Eventually.of_forall fun i => ?_)
    rw [one_mul, Real.norm_eq_abs, Real.norm_eq_abs, Matrix.zero_apply, sub_zero]
    exact (abs_le_sumAbs i.e a b).trans (le_abs_self _)
  -- the exact matrices
  have hV : ∀ i ∈ S, AtLeast r (i.C * (i.P * i.Cᵀ) + i.R) := fun i hi =>
    hi.noise.add_left (by rw [← Matrix.mul_assoc]; exact posSemidef_conj' hi.psd i.C)
  have hVdet : ∀ᶠ i in F, IsUnit (i.C * (i.P * i.Cᵀ) + i.R).det :=
    (smallIn_mem S _).mono fun i hi => (hV i hi).det hr
  have bVi : BddM F (fun i => pinv (i.C * (i.P * i.Cᵀ) + i.R)) :=
    bddM_smallIn fun i hi a b => (hV i hi).pinv_le hr a b
  -- matrices for the perturbed covariance
  have nC : NearM F (fun i => sumAbs i.e) (fun i : CorrIdx c n m => i.C) (fun i => i.C) := .refl bC
  have nCt : NearM F (fun i => sumAbs i.e) (fun i : CorrIdx c n m => i.Cᵀ) (fun i => i.Cᵀ) :=
    .refl bC.transpose
  have nP : NearM F (fun i => sumAbs i.e) (fun i => i.P + i.e) (fun i => i.P) :=
    ⟨ne.congr_ev (Filter.Eventually.of_forall fun i => by abel), bP⟩
  obtain ⟨nVi, hVdet'⟩ := ((nC.mul hwe (nP.mul hwe nCt)).add (.refl bR)).pinv hwe hVdet bVi
  have nK := nP.mul hwe (nCt.mul hwe nVi)
  have nH := nVi.mul hwe (nC.mul hwe nP)
  -- rounding
  obtain ⟨r1, r2⟩ := near_flCorrect_exact (br := fun i : CorrIdx c n m => i.ar) hwu bC bR bd
    (bx.add bε) (nP.bdd_left hwe) bz hVdet' (nVi.bdd_left hwe)
  have gainE : ∀ i : CorrIdx c n m,
      gain i.P i.R i.C = i.P * (i.Cᵀ * pinv (i.C * (i.P * i.Cᵀ) + i.R)) := fun i => by
    rw [gain, Matrix.mul_assoc, Matrix.mul_assoc]
  have gainT : ∀ i ∈ S, (gain i.P i.R i.C)ᵀ
      = pinv (i.C * (i.P * i.Cᵀ) + i.R) * (i.C * i.P) := fun i hi => by
    have hs : (i.C * (i.P * i.Cᵀ) + i.R)ᵀ = i.C * (i.P * i.Cᵀ) + i.R := by
      rw [← Matrix.mul_assoc]
      exact symm_of_posSemidef (innov_posSemidef i.C hi.psd hi.Rpsd)
    rw [gainE, transpose_mul, transpose_mul, transpose_transpose, symm_of_posSemidef hi.psd,
      pinv_eq_inv ((hV i hi).det hr), transpose_nonsing_inv, hs, Matrix.mul_assoc]
  have bG : BddM F (fun i => 1 - gain i.P i.R i.C * i.C) := by
    have h1 : BddM F (fun _ : CorrIdx c n m => (1 : Mat n n)) := fun a b =>
      Asymptotics.isBigO_const_const _ one_ne_zero _
    refine h1.sub (BddM.mul ?_ bC)
    simp only [gainE]
    exact nK.bdd
  -- covariance
  have hcov : OwM F (fun i => i.u + sumAbs i.e ^ 2) CorrIdx.covRest 0 := by
    have q1 := r2.diff.mono_w (w' := fun i => i.u + sumAbs i.e ^ 2) (hmem.mono fun i hi => by
      rw [abs_of_nonneg hi.u0]; linarith [sq_nonneg (sumAbs i.e)])
    have q2 := owM_mul_sq (owM_mul_zero bG ne) (owM_mul_zero bC.transpose nH.diff.neg_zero)
    have q2' := q2.mono_w (w' := fun i => i.u + sumAbs i.e ^ 2) (hmem.mono fun i hi => by
      rw [abs_of_nonneg (sq_nonneg _)]; linarith [hi.u0])
    have q3 := q1.add q2'
    rw [add_zero] at q3
    refine q3.congr_ev ?_
    filter_upwards [hmem, hVdet, hVdet'] with i hi hd hd'
    have hdiff := correct_diff (C := i.C) (R := i.R) (P := i.P) (P' := i.P + i.e) hd hd'
    rw [add_sub_cancel_left] at hdiff
    simp only [CorrIdx.covRest, CorrIdx.meanRest, flCorrect, filterCorrect, hi.obs, not_false_eq_true, if_true]
    rw [transpose_sub, transpose_one, transpose_mul, gainT i hi, gainE]
    rw [sub_eq_iff_eq_add] at hdiff
    rw [hdiff]
    simp only [Matrix.mul_sub, Matrix.mul_neg, Matrix.mul_one]
    abel
  have hmean : OwV F (fun i => i.u + sumAbs i.e) CorrIdx.meanRest 0 := by
    have q1 := r1.diff.mono_w (w' := fun i => i.u + sumAbs i.e) (hmem.mono fun i hi => by
      rw [abs_of_nonneg hi.u0]; linarith [sumAbs_nonneg i.e])
    have q2 := owV_zero_mulVec nK.diff (bz.sub ((bC.mulVec (bx.add bε)).add bd))
    have q2' := q2.mono_w (w' := fun i => i.u + sumAbs i.e) (hmem.mono fun i hi => by
      rw [abs_of_nonneg (sumAbs_nonneg _)]; linarith [hi.u0])
    have q3 := q1.add q2'
    rw [add_zero] at q3
    refine q3.congr_ev ?_
    filter_upwards [hmem] with i hi
    have hdiff := correct_mean_diff i.C (gain i.P i.R i.C)
      ((i.P + i.e) * (i.Cᵀ * pinv (i.C * ((i.P + i.e) * i.Cᵀ) + i.R))) i.d i.o.val i.x i.ε
    simp only [CorrIdx.covRest, CorrIdx.meanRest, flCorrect, filterCorrect, hi.obs, not_false_eq_true, if_true]
    rw [gainE] at hdiff ⊢
    rw [← hdiff]
    abel
  obtain ⟨K1, δ1, hK1, hδ1, b1⟩ := smallIn_boundM hcov
  obtain ⟨K2, δ2, hK2, hδ2, b2⟩ := smallIn_boundV hmean
  refine ⟨max K1 K2, min δ1 δ2, lt_max_of_lt_left hK1, lt_min hδ1 hδ2, fun i hi hs => ?_⟩
  have hs0 : 0 ≤ i.size := by
    have := nn2 i
    have := sumAbs_nonneg i.e
    have := hi.u0
    simp only [CorrIdx.size]; linarith
  have w1 : 0 ≤ i.u + sumAbs i.e ^ 2 := add_nonneg hi.u0 (sq_nonneg _)
  have w2 : 0 ≤ i.u + sumAbs i.e := add_nonneg hi.u0 (sumAbs_nonneg _)
  refine ⟨fun a b => ?_, fun a => ?_⟩
  · have := b1 i hi (by rw [abs_of_nonneg hs0]; exact hs.trans (min_le_left _ _)) a b
    rw [abs_of_nonneg w1] at this
    exact this.trans (mul_le_mul_of_nonneg_right (le_max_left _ _) w1)
  · have := b2 i hi (by rw [abs_of_nonneg hs0]; exact hs.trans (min_le_right _ _)) a
    rw [abs_of_nonneg w2] at this
    exact this.trans (mul_le_mul_of_nonneg_right (le_max_right _ _) w2)

/-! ### The prediction, uniformly -/

/-- Data of a prediction: computed filtered moments. -/
structure PredIdx (c : ℕ → ℝ) (n : ℕ) where
  u : ℝ
  ar : Arith c u
  A : Mat n n
  Q : Mat n n
  b : Vec n
  x : Vec n
  P : Mat n n

/-- The data are bounded by `κ`. -/
structure PredIdx.Ok (κ : ℝ) (i : PredIdx c n) : Prop where
  u0 : 0 ≤ i.u
  A : ∀ a b, |i.A a b| ≤ κ
  Q : ∀ a b, |i.Q a b| ≤ κ
  b : ∀ a, |i.b a| ≤ κ
  x : ∀ a, |i.x a| ≤ κ
  P : ∀ a b, |i.P a b| ≤ κ

theorem exists_predict_const (c : ℕ → ℝ) (n : ℕ) (κ : ℝ) :
    ∃ K δ : ℝ, 0 < K ∧ 0 < δ ∧ ∀ i : PredIdx c n, i.Ok κ → i.u ≤ δ →
      (∀ a b, |(flPredict i.ar i.A i.Q i.b i.x i.P).2 a b
        - (filterPredict i.A i.Q i.b i.x i.P).2 a b| ≤ K * i.u) ∧
      ∀ a, |(flPredict i.ar i.A i.Q i.b i.x i.P).1 a
        - (filterPredict i.A i.Q i.b i.x i.P).1 a| ≤ K * i.u := by
  set S : Set (PredIdx c n) := {i | i.Ok κ} with hS
  set F := smallIn S PredIdx.u with hF
  have hwu : Filter.Tendsto (fun i : PredIdx c n => i.u) F (𝓝 0) := smallIn_tendsto S _
  have nA : NearM F PredIdx.u (fun i => i.A) (fun i => i.A) := .refl (bddM_smallIn fun i hi => hi.A)
  have nQ : NearM F PredIdx.u (fun i => i.Q) (fun i => i.Q) := .refl (bddM_smallIn fun i hi => hi.Q)
  have nP : NearM F PredIdx.u (fun i => i.P) (fun i => i.P) := .refl (bddM_smallIn fun i hi => hi.P)
  have nb : NearV F PredIdx.u (fun i => i.b) (fun i => i.b) := .refl (bddV_smallIn fun i hi => hi.b)
  have nx : NearV F PredIdx.u (fun i => i.x) (fun i => i.x) := .refl (bddV_smallIn fun i hi => hi.x)
  have h1 := ((nA.fl_mul (br := fun i => i.ar) hwu (nP.fl_mul (br := fun i => i.ar) hwu
    nA.transpose)).fl_add (br := fun i => i.ar) hwu nQ).diff
  have h2 := ((nA.fl_mulV (br := fun i => i.ar) hwu nx).fl_add (br := fun i => i.ar) hwu nb).diff
  obtain ⟨K1, δ1, hK1, hδ1, b1⟩ := smallIn_boundM h1
  obtain ⟨K2, δ2, hK2, hδ2, b2⟩ := smallIn_boundV h2
  refine ⟨max K1 K2, min δ1 δ2, lt_max_of_lt_left hK1, lt_min hδ1 hδ2, fun i hi hs => ?_⟩
  refine ⟨fun a b => ?_, fun a => ?_⟩
  · have := b1 i hi (by rw [abs_of_nonneg hi.u0]; exact hs.trans (min_le_left _ _)) a b
    rw [abs_of_nonneg hi.u0] at this
    exact this.trans (mul_le_mul_of_nonneg_right (le_max_left _ _) hi.u0)
  · have := b2 i hi (by rw [abs_of_nonneg hi.u0]; exact hs.trans (min_le_right _ _)) a
    rw [abs_of_nonneg hi.u0] at this
    exact this.trans (mul_le_mul_of_nonneg_right (le_max_right _ _) hi.u0)

end Verif
