import Verif.Model.RoundedLoglik
import Verif.Proofs.Rounded
import Verif.Proofs.Likelihood
import Verif.Proofs.Density
import Mathlib.Analysis.SpecialFunctions.Log.Deriv

/-!
# `loglikelihood` in arithmetic with rounding errors
-/

open Matrix Topology

namespace Verif

variable {n m k l : ℕ} {c : ℕ → ℝ} {ι : Type*} {F : Filter ι} {w : ι → ℝ}

/-- Bounded along the filter. -/
def Bdd (F : Filter ι) (f : ι → ℝ) : Prop := Asymptotics.IsBigO F f (fun _ => (1 : ℝ))

theorem Ow.bdd (hw : Filter.Tendsto w F (𝓝 0)) {f : ι → ℝ} {a : ℝ} (h : Ow F w f a) : Bdd F f :=
  (h.tendsto hw).isBigO_one ℝ

theorem Bdd.add {f g : ι → ℝ} (hf : Bdd F f) (hg : Bdd F g) : Bdd F fun i => f i + g i :=
  Asymptotics.IsBigO.add hf hg

theorem Bdd.mul {f g : ι → ℝ} (hf : Bdd F f) (hg : Bdd F g) : Bdd F fun i => f i * g i := by
  have := Asymptotics.IsBigO.mul hf hg
  simpa [Bdd] using this

theorem bdd_const (a : ℝ) : Bdd F fun _ => a := Asymptotics.isBigO_const_const _ one_ne_zero _

theorem Bdd.sum {κ : Type*} {s : Finset κ} {f : κ → ι → ℝ} (h : ∀ j ∈ s, Bdd F (f j)) :
    Bdd F fun i => ∑ j ∈ s, f j i := by
  have := Asymptotics.IsBigO.sum h
  refine this.congr_left fun i => ?_
  rw [Finset.sum_apply]

theorem Bdd.of_le {f g : ι → ℝ} (hg : Bdd F g) (h : ∀ᶠ i in F, |f i| ≤ |g i|) : Bdd F f :=
  Asymptotics.IsBigO.trans (Asymptotics.IsBigO.of_bound 1 (h.mono fun i hi => by
    rw [one_mul]; exact hi)) hg

theorem Bdd.abs {f : ι → ℝ} (hf : Bdd F f) : Bdd F fun i => |f i| :=
  hf.of_le (Filter.Eventually.of_forall fun i => by rw [abs_abs])

/-- An additional error of the size of `w`, eventually. -/
theorem ow_of_err' {f g B : ι → ℝ} {K a : ℝ} (hg : Ow F w g a) (hB : Bdd F B)
    (h : ∀ᶠ i in F, |f i - g i| ≤ K * w i * (B i + 1)) : Ow F w f a := by
  have h1 : Asymptotics.IsBigO F (fun i => f i - g i) (fun i => K * w i * (B i + 1)) :=
    Asymptotics.IsBigO.of_bound 1 (h.mono fun i hi => by
      rw [one_mul, Real.norm_eq_abs]
      exact hi.trans (le_abs_self _))
  have h2 : Asymptotics.IsBigO F (fun i => K * w i * (B i + 1)) (fun i => w i * 1) := by
    refine Asymptotics.IsBigO.mul ?_ (hB.add (bdd_const 1))
    exact (Asymptotics.isBigO_refl w F).const_mul_left K
  simp only [mul_one] at h2
  refine ((h1.trans h2).add hg).congr_left fun i => ?_
  ring

theorem Ow.comp (hw : Filter.Tendsto w F (𝓝 0)) {f : ι → ℝ} {a : ℝ} (h : Ow F w f a) {φ : ℝ → ℝ}
    (hφ : DifferentiableAt ℝ φ a) : Ow F w (fun i => φ (f i)) (φ a) :=
  (hφ.isBigO_sub.comp_tendsto (h.tendsto hw)).trans h

theorem Ow.prod (hw : Filter.Tendsto w F (𝓝 0)) {κ : Type*} {s : Finset κ} {f : κ → ι → ℝ}
    {a : κ → ℝ} (h : ∀ j ∈ s, Ow F w (f j) (a j)) :
    Ow F w (fun i => ∏ j ∈ s, f j i) (∏ j ∈ s, a j) := by
  classical
  induction s using Finset.induction_on with
  | empty => simpa using ow_const (F := F) (w := w) 1
  | insert j s hj ih =>
    simp only [Finset.prod_insert hj]
    exact (h j (Finset.mem_insert_self _ _)).mul hw
      (ih fun i hi => h i (Finset.mem_insert_of_mem hi))

theorem OwM.det (hw : Filter.Tendsto w F (𝓝 0)) {f : ι → Mat k k} {a : Mat k k}
    (h : OwM F w f a) : Ow F w (fun i => (f i).det) a.det := by
  simp only [Matrix.det_apply']
  exact Ow.sum fun σ _ => (ow_const _).mul hw (Ow.prod hw fun j _ => h _ _)

/-! ### Positive definite matrices form an open set -/

theorem abs_form_le (M : Mat k k) (v : Vec k) : |v ⬝ᵥ (M *ᵥ v)| ≤ sumAbs M * (v ⬝ᵥ v) := by
  have hv : ∀ i j, |v i| * |v j| ≤ v ⬝ᵥ v := by
    intro i j
    have h1 : ∀ i, |v i| * |v i| ≤ v ⬝ᵥ v := fun i => by
      rw [abs_mul_abs_self]
      exact Finset.single_le_sum (f := fun a => v a * v a) (fun a _ => mul_self_nonneg _)
        (Finset.mem_univ i)
    nlinarith [h1 i, h1 j, sq_nonneg (|v i| - |v j|)]
  have e : v ⬝ᵥ (M *ᵥ v) = ∑ i, ∑ j, v i * (M i j * v j) := by
    simp [dotProduct, mulVec, Finset.mul_sum]
  rw [e, sumAbs, Finset.sum_mul]
  refine (Finset.abs_sum_le_sum_abs _ _).trans (Finset.sum_le_sum fun i _ => ?_)
  rw [Finset.sum_mul]
  refine (Finset.abs_sum_le_sum_abs _ _).trans (Finset.sum_le_sum fun j _ => ?_)
  rw [abs_mul, abs_mul]
  calc |v i| * (|M i j| * |v j|) = |M i j| * (|v i| * |v j|) := by ring
    _ ≤ |M i j| * (v ⬝ᵥ v) := mul_le_mul_of_nonneg_left (hv i j) (abs_nonneg _)

theorem posDef_near {S : Mat k k} (hS : S.PosDef) :
    ∃ δ : ℝ, 0 < δ ∧ ∀ N : Mat k k, Nᵀ = N → sumAbs (N - S) < δ → N.PosDef := by
  obtain ⟨L, hL⟩ := exists_isCholesky S hS
  have hd : IsUnit L.det := hL.det_ne_zero.isUnit
  set B := sumAbs (L⁻¹ * (L⁻¹)ᵀ) + 1 with hB
  have hB0 : 0 < B := by have := sumAbs_nonneg (L⁻¹ * (L⁻¹)ᵀ); linarith
  have key : ∀ v : Vec k, v ⬝ᵥ v ≤ B * (v ⬝ᵥ (S *ᵥ v)) := by
    intro v
    have e1 : v = (L⁻¹)ᵀ *ᵥ (Lᵀ *ᵥ v) := by
      rw [mulVec_mulVec, ← transpose_mul, mul_nonsing_inv _ hd, transpose_one, one_mulVec]
    have e2 : v ⬝ᵥ v = (Lᵀ *ᵥ v) ⬝ᵥ ((L⁻¹ * (L⁻¹)ᵀ) *ᵥ (Lᵀ *ᵥ v)) := by
      rw [← mulVec_mulVec, dotProduct_mulVec, ← mulVec_transpose, ← e1]
    have e3 : (Lᵀ *ᵥ v) ⬝ᵥ (Lᵀ *ᵥ v) = v ⬝ᵥ (S *ᵥ v) := by
      rw [← hL.mul_transpose, ← mulVec_mulVec, dotProduct_mulVec v, ← mulVec_transpose]
    have h1 := (le_abs_self _).trans (abs_form_le (L⁻¹ * (L⁻¹)ᵀ) (Lᵀ *ᵥ v))
    rw [← e2, e3] at h1
    have h2 : 0 ≤ v ⬝ᵥ (S *ᵥ v) := by
      rw [← e3]; exact Finset.sum_nonneg fun i _ => mul_self_nonneg _
    nlinarith
  refine ⟨B⁻¹, inv_pos.mpr hB0, fun N hN hlt => ?_⟩
  refine PosDef.of_dotProduct_mulVec_pos ?_ fun v hv => ?_
  · rw [Matrix.IsHermitian, conjTranspose_eq_transpose_of_trivial]; exact hN
  · rw [star_trivial]
    have hvv : 0 < v ⬝ᵥ v := by
      rw [← star_trivial v]
      simpa using dotProduct_star_self_pos_iff.mpr hv
    have h1 : v ⬝ᵥ (N *ᵥ v) = v ⬝ᵥ (S *ᵥ v) + v ⬝ᵥ ((N - S) *ᵥ v) := by
      rw [sub_mulVec, dotProduct_sub]; ring
    have h2 := (abs_le.mp (abs_form_le (N - S) v)).1
    have h3 := key v
    have h4 : B⁻¹ * (v ⬝ᵥ v) ≤ v ⬝ᵥ (S *ᵥ v) := by
      rw [inv_mul_le_iff₀ hB0]; exact h3
    have h5 := mul_lt_mul_of_pos_right hlt hvv
    rw [h1]
    linarith

theorem mirrorLower_symm (M : Mat k k) : (mirrorLower M)ᵀ = mirrorLower M := by
  ext i j
  simp only [transpose_apply, mirrorLower, of_apply]
  rcases lt_trichotomy i j with h | h | h
  · rw [if_pos h.le, if_neg (not_le.mpr h)]
  · rw [h]
  · rw [if_neg (not_le.mpr h), if_pos h.le]

theorem owM_mirror {M : ι → Mat k k} {S : Mat k k} (h : OwM F w M S) (hS : Sᵀ = S) :
    OwM F w (fun i => mirrorLower (M i)) S := by
  intro p q
  by_cases hpq : q ≤ p
  · simpa [mirrorLower, hpq] using h p q
  · have := h q p
    rw [show S q p = S p q from congrFun (congrFun hS p) q] at this
    simpa [mirrorLower, hpq] using this

/-! ### The factor -/

variable {br : ∀ i, ArithL c (w i)}

theorem ow_chol (hw : Filter.Tendsto w F (𝓝 0)) {M : ι → Mat k k} {S : Mat k k}
    (hM : OwM F w M S) (hS : S.PosDef) :
    ∃ L N : ι → Mat k k, (∀ᶠ i in F, (br i).chol k (M i) = .ok (L i)) ∧
      (∀ᶠ i in F, IsCholesky (N i) (L i)) ∧ OwM F w N S := by
  have hSt : Sᵀ = S := symm_of_posSemidef hS.posSemidef
  have hMt := tends_sumAbs (hM.tendsto hw)
  -- the matrix that is factored
  have hex : ∀ i, ∃ (L N : Mat k k), (∀ p q, |N p q - mirrorLower (M i) p q|
      ≤ c k * w i * (sumAbs (M i) + 1)) ∧
      (((br i).chol k (M i) = .ok L ∧ IsCholesky N L) ∨ (Nᵀ = N ∧ ¬ N.PosDef)) := by
    intro i
    have h := (br i).chol_err k (M i)
    cases e : (br i).chol k (M i) with
    | ok L =>
      rw [e] at h
      obtain ⟨E, hE, hL⟩ := h
      refine ⟨L, mirrorLower (M i) + E, fun p q => ?_, .inl ⟨rfl, hL⟩⟩
      rw [Matrix.add_apply, add_sub_cancel_left]
      exact hE p q
    | error e' =>
      rw [e] at h
      obtain ⟨-, E, hEt, hE, hN⟩ := h
      refine ⟨1, mirrorLower (M i) + E, fun p q => ?_, .inr ⟨?_, hN⟩⟩
      · rw [Matrix.add_apply, add_sub_cancel_left]
        exact hE p q
      · rw [transpose_add, mirrorLower_symm, hEt]
  choose L N hN hL using hex
  have hNO : OwM F w N S := fun p q =>
    ow_of_err (K := c k) (owM_mirror hM hSt p q) hMt fun i => hN i p q
  obtain ⟨δ, hδ, hopen⟩ := posDef_near hS
  have hev : ∀ᶠ i in F, sumAbs (N i - S) < δ := by
    have h0 : Filter.Tendsto (fun i => sumAbs (N i - S)) F (𝓝 (sumAbs (0 : Mat k k))) := by
      refine tends_sumAbs ?_
      have := (hNO.tendsto hw).sub_const S
      rwa [sub_self] at this
    have hz : sumAbs (0 : Mat k k) = 0 := by simp [sumAbs]
    rw [hz] at h0
    exact h0.eventually (gt_mem_nhds hδ)
  have hgood : ∀ᶠ i in F, (br i).chol k (M i) = .ok (L i) ∧ IsCholesky (N i) (L i) := by
    filter_upwards [hev] with i hi
    rcases hL i with h | ⟨h1, h2⟩
    · exact h
    · exact absurd (hopen _ h1 hi) h2
  exact ⟨L, N, hgood.mono fun _ h => h.1, hgood.mono fun _ h => h.2, hNO⟩

theorem IsCholesky.diag_sq {A L : Mat k k} (h : IsCholesky A L) (i j : Fin k) :
    L i j ^ 2 ≤ A i i := by
  have : A i i = ∑ j, L i j ^ 2 := by
    rw [← h.mul_transpose]
    simp [Matrix.mul_apply, sq]
  rw [this]
  exact Finset.single_le_sum (f := fun j => L i j ^ 2) (fun a _ => sq_nonneg _)
    (Finset.mem_univ j)

theorem IsCholesky.logDet {A L : Mat k k} (h : IsCholesky A L) :
    2 * ∑ i, Real.log (L i i) = Real.log A.det := by
  have hdet : L.det = ∏ i, L i i := det_of_lowerTriangular L fun i j hij => h.lower i j hij
  rw [← h.mul_transpose, det_mul, det_transpose, ← sq, Real.log_pow, hdet,
    Real.log_prod fun i _ => (h.diag_pos i).ne']
  norm_num

/-- The entries of the factors are bounded. -/
theorem bdd_factor (hw : Filter.Tendsto w F (𝓝 0)) {L N : ι → Mat k k} {S : Mat k k}
    (hL : ∀ᶠ i in F, IsCholesky (N i) (L i)) (hN : OwM F w N S) (p q : Fin k) :
    Bdd F fun i => L i p q := by
  refine Bdd.of_le (((hN p p).bdd hw).add (bdd_const 1)) ?_
  filter_upwards [hL] with i hi
  have h1 := hi.diag_sq p q
  have h2 : 0 ≤ N i p p := (sq_nonneg _).trans h1
  rw [abs_of_nonneg (by linarith : 0 ≤ N i p p + 1)]
  have h3 := sq_abs (L i p q)
  nlinarith [abs_nonneg (L i p q)]

/-- The logarithms of the diagonal of the factors are bounded. -/
theorem bdd_log_factor (hw : Filter.Tendsto w F (𝓝 0)) {L N : ι → Mat k k} {S : Mat k k}
    (hL : ∀ᶠ i in F, IsCholesky (N i) (L i)) (hN : OwM F w N S) (hS : S.PosDef) (p : Fin k) :
    Bdd F fun i => Real.log (L i p p) := by
  have hld : Ow F w (fun i => Real.log (N i).det) (Real.log S.det) :=
    (hN.det hw).comp hw (Real.differentiableAt_log hS.det_pos.ne')
  -- a bound from above for every logarithm
  have hup : ∀ q, Bdd F fun i => |L i q q| := fun q => (bdd_factor hw hL hN q q).abs
  have hB : Bdd F fun i => (∑ q, |L i q q|) + |Real.log (N i).det| :=
    (Bdd.sum fun q _ => hup q).add (hld.bdd hw).abs
  refine Bdd.of_le hB ?_
  filter_upwards [hL] with i hi
  have hlog : ∀ q, Real.log (L i q q) ≤ |L i q q| := fun q => by
    have := Real.log_le_sub_one_of_pos (hi.diag_pos q)
    have := le_abs_self (L i q q)
    linarith
  have hsum := hi.logDet
  have hsplit : ∑ q, Real.log (L i q q)
      = Real.log (L i p p) + ∑ q ∈ Finset.univ.erase p, Real.log (L i q q) :=
    (Finset.add_sum_erase _ _ (Finset.mem_univ p)).symm
  have hrest : ∑ q ∈ Finset.univ.erase p, Real.log (L i q q)
      ≤ ∑ q, |L i q q| :=
    (Finset.sum_le_sum fun q _ => hlog q).trans
      (Finset.sum_le_sum_of_subset_of_nonneg (Finset.subset_univ _) fun _ _ _ => abs_nonneg _)
  have hall : |L i p p| ≤ ∑ q, |L i q q| :=
    Finset.single_le_sum (f := fun q => |L i q q|) (fun _ _ => abs_nonneg _) (Finset.mem_univ p)
  have h0 : 0 ≤ ∑ q, |L i q q| := Finset.sum_nonneg fun _ _ => abs_nonneg _
  rw [abs_of_nonneg (add_nonneg h0 (abs_nonneg _)), abs_le]
  have h1 := neg_abs_le (Real.log (N i).det)
  have h2 := abs_nonneg (Real.log (N i).det)
  have h3 := hlog p
  constructor
  · linarith
  · linarith

/-- The logarithm of the determinant, as computed. -/
theorem ow_logDet (hw : Filter.Tendsto w F (𝓝 0)) {L N : ι → Mat k k} {S : Mat k k}
    (hL : ∀ᶠ i in F, IsCholesky (N i) (L i)) (hN : OwM F w N S) (hS : S.PosDef) :
    Ow F w (fun i => (br i).mulr 2 ((br i).sum k fun p => (br i).log (L i p p)))
      (Real.log S.det) := by
  have hld : Ow F w (fun i => Real.log (N i).det) (Real.log S.det) :=
    (hN.det hw).comp hw (Real.differentiableAt_log hS.det_pos.ne')
  have hbl := fun p => bdd_log_factor hw hL hN hS p
  -- the exact sum of the logarithms
  have h0 : Ow F w (fun i => ∑ p, Real.log (L i p p)) (1 / 2 * Real.log S.det) := by
    have h1 := (ow_const (F := F) (w := w) (1 / 2)).mul hw hld
    refine h1.congr' ?_ Filter.EventuallyEq.rfl
    filter_upwards [hL] with i hi
    rw [← hi.logDet]
    ring
  -- with errors in the logarithms
  have hlogerr : ∀ p, Ow F w (fun i => (br i).log (L i p p) - Real.log (L i p p)) 0 := fun p =>
    ow_of_err' (K := 1) (ow_const 0) (hbl p).abs (hL.mono fun i hi => by
      rw [sub_zero, one_mul]
      exact (br i).log_err _ (hi.diag_pos p))
  have h1 : Ow F w (fun i => ∑ p, (br i).log (L i p p)) (1 / 2 * Real.log S.det) := by
    have := h0.add (Ow.sum (s := Finset.univ) fun p _ => hlogerr p)
    simp only [Finset.sum_const_zero, add_zero] at this
    refine this.congr_left fun i => ?_
    beta_reduce
    rw [← Finset.sum_add_distrib]
    simp
  have hb2 : ∀ p, Bdd F fun i => (br i).log (L i p p) := fun p => by
    have := ((hlogerr p).bdd hw).add (hbl p)
    simpa using this
  have h2 : Ow F w (fun i => (br i).sum k fun p => (br i).log (L i p p))
      (1 / 2 * Real.log S.det) :=
    ow_of_err' h1 (Bdd.sum (s := Finset.univ) fun p _ => (hb2 p).abs)
      (Filter.Eventually.of_forall fun i => (br i).sum_err k _)
  have h3 := (ow_const (F := F) (w := w) 2).mul hw h2
  have e : (2 : ℝ) * (1 / 2 * Real.log S.det) = Real.log S.det := by ring
  rw [e] at h3
  exact ow_of_err' (K := 1) h3 (h3.bdd hw).abs (Filter.Eventually.of_forall fun i => by
    rw [one_mul]; exact (br i).mulr_err _ _)

/-- The quadratic form, as computed. -/
theorem ow_quad (hw : Filter.Tendsto w F (𝓝 0)) {L N : ι → Mat k k} {S : Mat k k}
    (hL : ∀ᶠ i in F, IsCholesky (N i) (L i)) (hN : OwM F w N S) (hS : S.PosDef) {b : ι → Vec k}
    {b' : Vec k} (hb : OwV F w b b') :
    Ow F w (fun i => (br i).sum k fun p => (br i).sq ((br i).solve k (L i) (b i) p))
      (b' ⬝ᵥ (pinv S *ᵥ b')) := by
  classical
  have hex : ∀ i, ∃ G : Mat k k, (L i).det ≠ 0 →
      (∀ p q, |G p q| ≤ c k * w i * (sumAbs (L i) + 1)) ∧
      (L i + G) *ᵥ (br i).solve k (L i) (b i) = b i := by
    intro i
    by_cases h : (L i).det ≠ 0
    · obtain ⟨G, hG⟩ := (br i).solve_err k (L i) (b i) h
      exact ⟨G, fun _ => hG⟩
    · exact ⟨0, fun h' => absurd h' h⟩
  choose G hG using hex
  have hLb : ∀ p q, Bdd F fun i => L i p q := fun p q => bdd_factor hw hL hN p q
  have hLs : Bdd F fun i => sumAbs (L i) :=
    Bdd.sum fun p _ => Bdd.sum fun q _ => (hLb p q).abs
  have hGO : OwM F w G 0 := fun p q => ow_of_err' (K := c k) (g := fun _ => 0) (ow_const 0) hLs
    (hL.mono fun i hi => by rw [sub_zero]; exact (hG i hi.det_ne_zero).1 p q)
  -- products with what is bounded
  have hz : ∀ {f g : ι → ℝ}, Ow F w f 0 → Bdd F g → Ow F w (fun i => f i * g i) 0 := by
    intro f g hf hg
    have h1 : Asymptotics.IsBigO F (fun i => f i) w := by simpa [Ow] using hf
    have := h1.mul hg
    simpa [Ow] using this
  have hW : OwM F w (fun i => (L i + G i) * (L i + G i)ᵀ) S := by
    intro p q
    have hsum : Ow F w (fun i => ∑ j, (G i p j * L i q j + G i q j * L i p j
        + G i p j * G i q j)) (∑ _j : Fin k, (0 : ℝ)) := by
      refine Ow.sum fun j _ => ?_
      have h1 := hz (hGO p j) (hLb q j)
      have h2 := hz (hGO q j) (hLb p j)
      have h3 := hz (hGO p j) ((hGO q j).bdd hw)
      simpa using (h1.add h2).add h3
    have := (hN p q).add hsum
    simp only [Finset.sum_const_zero, add_zero] at this
    refine this.congr' ?_ Filter.EventuallyEq.rfl
    filter_upwards [hL] with i hi
    rw [← hi.mul_transpose]
    simp only [Matrix.mul_apply, transpose_apply, Matrix.add_apply, ← Finset.sum_add_distrib]
    congr 1
    refine Finset.sum_congr rfl fun j _ => ?_
    ring
  have hPO := owM_pinv hw hW hS.det_pos.ne'.isUnit
  have hdet : ∀ᶠ i in F, ((L i + G i) * (L i + G i)ᵀ).det ≠ 0 :=
    ((hW.det hw).tendsto hw).eventually_ne hS.det_pos.ne'
  -- the exact sum of squares
  have h0 : Ow F w (fun i => ∑ p, ((br i).solve k (L i) (b i) p) ^ 2) (b' ⬝ᵥ (pinv S *ᵥ b')) := by
    have h1 : Ow F w (fun i => b i ⬝ᵥ (pinv ((L i + G i) * (L i + G i)ᵀ) *ᵥ b i))
        (b' ⬝ᵥ (pinv S *ᵥ b')) :=
      Ow.sum fun p _ => (hb p).mul hw (by
        simp only [mulVec, dotProduct]
        exact Ow.sum fun q _ => (hPO p q).mul hw (hb q))
    refine h1.congr' ?_ Filter.EventuallyEq.rfl
    filter_upwards [hL, hdet] with i hi hd
    have hx := (hG i hi.det_ne_zero).2
    generalize (br i).solve k (L i) (b i) = x at hx ⊢
    congr 1
    generalize hH : L i + G i = H at hx hd ⊢
    have hHd : IsUnit H.det := by
      rw [det_mul, det_transpose] at hd
      exact (mul_ne_zero_iff.mp hd).1.isUnit
    have hHt : IsUnit Hᵀ.det := by rwa [det_transpose]
    rw [pinv_eq_inv hd.isUnit, ← hx, Matrix.mul_inv_rev, mulVec_mulVec, Matrix.mul_assoc,
      nonsing_inv_mul _ hHd, Matrix.mul_one, dotProduct_mulVec, ← mulVec_transpose,
      ← transpose_nonsing_inv, transpose_transpose, mulVec_mulVec, nonsing_inv_mul _ hHd,
      one_mulVec]
    simp [dotProduct, sq]
  have hsq : ∀ p, Bdd F fun i => ((br i).solve k (L i) (b i) p) ^ 2 := fun p =>
    (h0.bdd hw).of_le (Filter.Eventually.of_forall fun i => by
      rw [abs_of_nonneg (sq_nonneg _),
        abs_of_nonneg (Finset.sum_nonneg fun _ _ => sq_nonneg _)]
      exact Finset.single_le_sum (f := fun p => ((br i).solve k (L i) (b i) p) ^ 2)
        (fun _ _ => sq_nonneg _) (Finset.mem_univ p))
  have herr : ∀ p, Ow F w (fun i => (br i).sq ((br i).solve k (L i) (b i) p)
      - ((br i).solve k (L i) (b i) p) ^ 2) 0 := fun p =>
    ow_of_err' (K := 1) (ow_const 0) (hsq p) (Filter.Eventually.of_forall fun i => by
      rw [sub_zero, one_mul]; exact (br i).sq_err _)
  have h1 : Ow F w (fun i => ∑ p, (br i).sq ((br i).solve k (L i) (b i) p))
      (b' ⬝ᵥ (pinv S *ᵥ b')) := by
    have := h0.add (Ow.sum (s := Finset.univ) fun p _ => herr p)
    simp only [Finset.sum_const_zero, add_zero] at this
    refine this.congr_left fun i => ?_
    beta_reduce
    rw [← Finset.sum_add_distrib]
    simp
  have hb2 : ∀ p, Bdd F fun i => (br i).sq ((br i).solve k (L i) (b i) p) := fun p => by
    have := ((herr p).bdd hw).add (hsq p)
    simpa using this
  exact ow_of_err' h1 (Bdd.sum (s := Finset.univ) fun p _ => (hb2 p).abs)
    (Filter.Eventually.of_forall fun i => (br i).sum_err k _)

/-- The log density, as computed: it is computed without an exception if the errors are small. -/
theorem ow_logMvn (hw : Filter.Tendsto w F (𝓝 0)) {M : ι → Mat k k} {S : Mat k k}
    (hM : OwM F w M S) (hS : S.PosDef) (x : Vec k) {mu : ι → Vec k} {mu' : Vec k}
    (hmu : OwV F w mu mu') :
    ∃ v : ι → ℝ, (∀ᶠ i in F, flLogMvn (br i) x (mu i) (M i) = .ok (v i)) ∧
      Ow F w v (-(1 / 2) * ((x - mu') ⬝ᵥ (S⁻¹ *ᵥ (x - mu')) + k * Real.log (2 * Real.pi)
        + Real.log S.det)) := by
  obtain ⟨L, N, hok, hL, hN⟩ := ow_chol (br := br) hw hM hS
  have hmul : ∀ {f g : ι → ℝ} {a b : ℝ}, Ow F w f a → Ow F w g b →
      Ow F w (fun i => (br i).mulr (f i) (g i)) (a * b) := fun hf hg =>
    ow_of_err' (K := 1) (hf.mul hw hg) ((hf.mul hw hg).bdd hw).abs
      (Filter.Eventually.of_forall fun i => by rw [one_mul]; exact (br i).mulr_err _ _)
  have hadd : ∀ {f g : ι → ℝ} {a b : ℝ}, Ow F w f a → Ow F w g b →
      Ow F w (fun i => (br i).add (f i) (g i)) (a + b) := fun hf hg =>
    ow_fl_add (br := fun i => (br i).toArith) hw hf hg
  have hpi : Ow F w (fun i => (br i).npPi) Real.pi :=
    ow_of_err' (K := 1) (ow_const Real.pi) (bdd_const Real.pi)
      (Filter.Eventually.of_forall fun i => by rw [one_mul]; exact (br i).pi_err)
  have h2pi := hmul (ow_const 2) hpi
  have hlog : Ow F w (fun i => (br i).log ((br i).mulr 2 (br i).npPi))
      (Real.log (2 * Real.pi)) := by
    have h1 := h2pi.comp hw (Real.differentiableAt_log (by positivity : 2 * Real.pi ≠ 0))
    have hpos : ∀ᶠ i in F, 0 < (br i).mulr 2 (br i).npPi :=
      (h2pi.tendsto hw).eventually (lt_mem_nhds (by positivity))
    exact ow_of_err' (K := 1) h1 (h1.bdd hw).abs (hpos.mono fun i hi => by
      rw [one_mul]; exact (br i).log_err _ hi)
  have hquad := ow_quad (br := br) hw hL hN hS
    (ow_fl_vsub (br := fun i => (br i).toArith) hw (owV_const x) hmu)
  have hdet := ow_logDet (br := br) hw hL hN hS
  refine ⟨fun i => (br i).mulr (-0.5) ((br i).add ((br i).add
      ((br i).sum k fun p => (br i).sq ((br i).solve k (L i) ((br i).vsub x (mu i)) p))
      ((br i).mulr k ((br i).log ((br i).mulr 2 (br i).npPi))))
      ((br i).mulr 2 ((br i).sum k fun p => (br i).log (L i p p)))), ?_, ?_⟩
  · filter_upwards [hok] with i hi
    simp only [flLogMvn, hi, bind, Except.bind, pure, Except.pure]
  · have := hmul (ow_const (F := F) (w := w) (-0.5))
      (hadd (hadd hquad (hmul (ow_const (k : ℝ)) hlog)) hdet)
    rw [pinv_eq_inv hS.det_pos.ne'.isUnit] at this
    have e : (-0.5 : ℝ) = -(1 / 2) := by norm_num
    rw [← e]
    exact this

theorem flLoglikLoop_pure {u : ℝ} {ar : ArithL c u} {p : Params n m} (v : ℕ → ℝ)
    (os : List (Obs m)) (ss : List (Step n m))
    (t : ℕ) (hl : ss.length = os.length)
    (h : ∀ i (h1 : i < ss.length) (h2 : i < os.length),
      flLoglikStep ar p (t + i) ss[i] os[i] = .ok (v (t + i))) :
    flLoglikLoop ar p t ss os = .ok ((List.range os.length).map fun i => v (t + i)) := by
  induction os generalizing ss t with
  | nil => cases ss <;> rfl
  | cons o os ih =>
    obtain ⟨s, ss, rfl⟩ := List.exists_cons_of_length_eq_add_one hl
    have h0 := h 0 (by simp) (by simp)
    have hi := ih ss (t + 1) (by simpa using hl) (fun i h1 h2 => by
      have := h (i + 1) (by simpa using h1) (by simpa using h2)
      rw [show t + 1 + i = t + (i + 1) by omega]
      simpa using this)
    simp only [List.getElem_cons_zero, add_zero] at h0
    simp only [flLoglikLoop, h0, hi, bind, Except.bind, pure, Except.pure, List.length_cons,
      List.range_succ_eq_map, List.map_cons, List.map_map, add_zero]
    congr 2
    apply List.map_congr_left
    intro i _
    simp only [Function.comp]
    congr 1
    omega

theorem sum_list_eq {u : ℝ} (ar : ArithL c u) {l : List ℝ} {T : ℕ} {v : ℕ → ℝ}
    (h : l = (List.range T).map v) :
    (ar.sum l.length fun i => l[i]) = ar.sum T fun i => v i := by
  subst h
  have : ∀ (a b : ℕ) (e : a = b) (x : Vec a) (y : Vec b), (∀ i, x i = y (Fin.cast e i)) →
      ar.sum a x = ar.sum b y := by
    rintro a b rfl x y h
    congr 1
    exact funext h
  exact this _ _ (by simp) _ _ fun i => by simp

/-- `loglikelihood`, as computed from given rows of the filter. -/
theorem ow_loglikLoop (hw : Filter.Tendsto w F (𝓝 0)) {p : Params n m} {os : List (Obs m)}
    (hc : p.Covers os.length) {R : Mat m m} (hR : p.R = .const R)
    {st : ι → ℕ → Step n m}
    (hk : ∀ t, t < os.length → FlNear F w (fun i => st i t) (p.fn.kf (obsFn os) t))
    (hS : ∀ t, t < os.length → ¬ (obsFn os t).missing →
      (p.fn.C t * (p.fn.kf (obsFn os) t).predCov * (p.fn.C t)ᵀ + p.fn.R t).PosDef) :
    ∃ (v : ι → ℝ) (L : ℝ), kfLoglik p os = .ok L ∧
      (∀ᶠ i in F, ∃ ls, flLoglikLoop (br i) p 0 ((List.range os.length).map (st i)) os = .ok ls ∧
        ((br i).sum ls.length fun j => ls[j]) = v i) ∧ Ow F w v L := by
  classical
  -- exact terms
  let S : ℕ → Mat m m := fun t =>
    p.fn.C t * (p.fn.kf (obsFn os) t).predCov * (p.fn.C t)ᵀ + p.fn.R t
  let ℓ : ℕ → Vec m → Vec m → ℝ := fun t x y => -(1 / 2) * ((x - y) ⬝ᵥ ((S t)⁻¹ *ᵥ (x - y))
    + m * Real.log (2 * Real.pi) + Real.log (S t).det)
  have hexact : kfLoglik p os
      = .ok (∑ t ∈ Finset.range os.length, p.fn.lterm ℓ (obsFn os) t) := by
    refine kfLoglik_pure hc hR fun t ht ho x y => ?_
    obtain ⟨ℓ', h1, -, h2, -⟩ := logMvn_posDef (hS t ht ho)
    rw [h1 x y, h2 x y]
  -- computed terms
  have hterm : ∀ t, ∃ v : ι → ℝ, t < os.length → (∀ᶠ i in F, flLoglikStep (br i) p t
      (st i t) (obsFn os t) = .ok (v i)) ∧
      Ow F w v (p.fn.lterm ℓ (obsFn os) t) := by
    intro t
    by_cases ht : t < os.length
    · by_cases ho : (obsFn os t).missing
      · refine ⟨fun _ => 0, fun _ => ⟨Filter.Eventually.of_forall fun i => ?_, ?_⟩⟩
        · simp [flLoglikStep, ho, pure, Except.pure]
        · simp only [PFun.lterm, ho, if_true]
          exact ow_const 0
      · have hC : OwM F w (fun _ : ι => p.fn.C t) (p.fn.C t) := owM_const _
        have hCt : OwM F w (fun _ : ι => (p.fn.C t)ᵀ) (p.fn.C t)ᵀ := owM_const _
        have hcov := ow_fl_madd (br := fun i => (br i).toArith) hw
          (ow_fl_mul (br := fun i => (br i).toArith) hw hC
            (ow_fl_mul (br := fun i => (br i).toArith) hw (hk t ht).predCov hCt))
          (owM_const (p.fn.R t))
        rw [← Matrix.mul_assoc] at hcov
        have hmean := ow_fl_vadd (br := fun i => (br i).toArith) hw
          (ow_fl_mulV (br := fun i => (br i).toArith) hw hC (hk t ht).predMean)
          (owV_const (p.fn.d t))
        obtain ⟨v, h1, h2⟩ := ow_logMvn (br := br) hw hcov (hS t ht ho) (obsFn os t).val hmean
        refine ⟨v, fun _ => ⟨h1.mono fun i hi => ?_, ?_⟩⟩
        · simp only [flLoglikStep, ho, not_false_eq_true, if_true]
          rw [lastDims_eq_ok (hc.C.mono (by omega)), lastDims_eq_ok (hc.d.mono (by omega)), hR]
          simp only [bind, Except.bind, pure, Except.pure]
          have hRt : p.fn.R t = R := by simp [Params.fn, hR, TV.get]
          rw [hRt] at hi
          exact hi
        · simp only [PFun.lterm, ho, if_false]
          exact h2
    · exact ⟨fun _ => 0, fun h => absurd h ht⟩
  choose v hv using hterm
  refine ⟨fun i => (br i).sum os.length fun t => v t i, _, hexact, ?_, ?_⟩
  · have hall : ∀ᶠ i in F, ∀ t ∈ Finset.range os.length, flLoglikStep (br i) p t
        (st i t) (obsFn os t) = .ok (v t i) :=
      (Filter.eventually_all_finset _).mpr fun t ht => (hv t (Finset.mem_range.mp ht)).1
    filter_upwards [hall] with i hi
    have hl := flLoglikLoop_pure (ar := br i) (p := p) (fun t => v t i) os
      ((List.range os.length).map (st i)) 0 (by simp)
      (fun t h1 h2 => by
        simp only [List.getElem_map, List.getElem_range, zero_add]
        rw [← obsFn_eq h2]
        exact hi t (Finset.mem_range.mpr h2))
    exact ⟨_, hl, sum_list_eq (br i) (v := fun t => v t i) (by simp)⟩
  · have h1 : Ow F w (fun i => ∑ t : Fin os.length, v t i)
        (∑ t ∈ Finset.range os.length, p.fn.lterm ℓ (obsFn os) t) := by
      rw [← Fin.sum_univ_eq_sum_range (fun t => p.fn.lterm ℓ (obsFn os) t)]
      exact Ow.sum fun t _ => (hv t t.2).2
    exact ow_of_err' h1
      (Bdd.sum (s := Finset.univ) fun t _ => (((hv (t : Fin os.length) t.2).2).bdd hw).abs)
      (Filter.Eventually.of_forall fun i => (br i).sum_err _ _)

/-- `loglikelihood`, as computed. -/
theorem ow_loglik (hw : Filter.Tendsto w F (𝓝 0)) {p : Params n m} {os : List (Obs m)}
    (hc : p.Covers os.length) {R : Mat m m} (hR : p.R = .const R)
    (hk : ∀ t, t < os.length → FlNear F w (fun i => p.fn.kfFl (br i).toArith (obsFn os) t)
      (p.fn.kf (obsFn os) t))
    (hS : ∀ t, t < os.length → ¬ (obsFn os t).missing →
      (p.fn.C t * (p.fn.kf (obsFn os) t).predCov * (p.fn.C t)ᵀ + p.fn.R t).PosDef) :
    ∃ (v : ι → ℝ) (L : ℝ), kfLoglik p os = .ok L ∧
      (∀ᶠ i in F, flLoglik (br i) p os = .ok (v i)) ∧ Ow F w v L := by
  obtain ⟨v, L, hL, hok, hv⟩ := ow_loglikLoop (br := br) hw hc hR hk hS
  refine ⟨v, L, hL, hok.mono fun i hi => ?_, hv⟩
  obtain ⟨ls, h1, h2⟩ := hi
  simp only [flLoglik, flFull_obsFn hc, bind, Except.bind, h1, pure, Except.pure, h2]

end Verif
