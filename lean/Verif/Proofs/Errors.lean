import Verif.Spec.Errors
import Verif.Proofs.CondGauss
import Verif.Proofs.Expect
import Verif.Proofs.Posterior
import Mathlib.Analysis.Matrix.Order
import Mathlib.MeasureTheory.Measure.Prod

/-!
# Errors of conditionally Gaussian vectors
-/

open MeasureTheory ProbabilityTheory Matrix
open scoped MatrixOrder

namespace Verif

variable {Ω H : Type*} [MeasurableSpace Ω] [MeasurableSpace H] {ι : Type*} [Fintype ι]
  [DecidableEq ι] {μ : Measure Ω} [IsProbabilityMeasure μ]
  {X : Ω → ι → ℝ} {Y : Ω → H} {f : H → ι → ℝ} {S : Matrix ι ι ℝ}

theorem CondGauss.joint_error (h : CondGauss μ X Y f S) :
    μ.map (fun ω => (Y ω, X ω - f (Y ω))) = (μ.map Y).prod (gauss 0 S) := by
  have hX := h.measX
  have hY := h.measY
  have hf := h.measf
  have e : μ.map (fun ω => (Y ω, X ω - f (Y ω)))
      = (μ.map (fun ω => (Y ω, X ω))).map (fun p => (p.1, p.2 - f p.1)) := by
    rw [Measure.map_map (by fun_prop) (by fun_prop)]; rfl
  rw [e, h.law, Measure.map_map (by fun_prop) (by fun_prop)]
  have : ((fun p : H × (ι → ℝ) => (p.1, p.2 - f p.1)) ∘ fun p => (p.1, f p.1 + p.2)) = id := by
    funext p
    simp
  rw [this, Measure.map_id]

theorem CondGauss.error_law (h : CondGauss μ X Y f S) :
    μ.map (fun ω => X ω - f (Y ω)) = gauss 0 S := by
  have hX := h.measX
  have hY := h.measY
  have hf := h.measf
  haveI : IsProbabilityMeasure (μ.map Y) := Measure.isProbabilityMeasure_map hY.aemeasurable
  have e : μ.map (fun ω => X ω - f (Y ω))
      = (μ.map (fun ω => (Y ω, X ω - f (Y ω)))).map Prod.snd := by
    rw [Measure.map_map (by fun_prop) (by fun_prop)]; rfl
  rw [e, h.joint_error, Measure.map_snd_prod]
  simp

theorem CondGauss.error_indep (h : CondGauss μ X Y f S) :
    IndepFun Y (fun ω => X ω - f (Y ω)) μ := by
  have hX := h.measX
  have hY := h.measY
  have hf := h.measf
  rw [indepFun_iff_map_prod_eq_prod_map_map (by fun_prop) (by fun_prop), h.joint_error,
    h.error_law]

/-- Second moment of a shifted linear form of a centred Gaussian. -/
theorem lintegral_gauss_form (hS : S.PosSemidef) (v : ι → ℝ) (c : ℝ) :
    ∫⁻ e, ENNReal.ofReal ((v ⬝ᵥ e + c) ^ 2) ∂(gauss 0 S)
      = ENNReal.ofReal (v ⬝ᵥ (S *ᵥ v)) + ENNReal.ofReal (c ^ 2) := by
  have hm := hasMoments_gauss 0 hS
  have i1 : Integrable (fun e : ι → ℝ => v ⬝ᵥ e) (gauss 0 S) := by
    simp only [dotProduct]
    exact integrable_finsetSum _ fun i _ => (hm.int1 i).const_mul _
  have i2 : Integrable (fun e : ι → ℝ => (v ⬝ᵥ e) * (v ⬝ᵥ e)) (gauss 0 S) := by
    simp only [dotProduct, Finset.sum_mul_sum]
    refine integrable_finsetSum _ fun i _ => integrable_finsetSum _ fun j _ => ?_
    have := (hm.int2 i j).const_mul (v i * v j)
    refine this.congr (Filter.Eventually.of_forall fun e => ?_)
    simp only
    ring
  have z1 : ∫ e : ι → ℝ, v ⬝ᵥ e ∂(gauss 0 S) = 0 := by
    simp only [dotProduct]
    rw [integral_finsetSum _ fun i _ => (hm.int1 i).const_mul _]
    refine Finset.sum_eq_zero fun i _ => ?_
    rw [integral_const_mul, hm.mean_eq]
    simp
  have z2 : ∫ e : ι → ℝ, (v ⬝ᵥ e) * (v ⬝ᵥ e) ∂(gauss 0 S) = v ⬝ᵥ (S *ᵥ v) := by
    have h := moment_mulVec (μ := gauss 0 S) (fun e => e) (Matrix.of fun (_ : Unit) i => v i) S
      hm.int2 (fun a b => by rw [hm.second]; simp) () ()
    have e : ∀ x : ι → ℝ, ((Matrix.of fun (_ : Unit) i => v i) *ᵥ x) () = v ⬝ᵥ x := fun x => rfl
    simp only [e] at h
    rw [h]
    simp only [Matrix.mul_apply, Matrix.transpose_apply, Matrix.of_apply, dotProduct, mulVec,
      Finset.sum_mul, Finset.mul_sum]
    rw [Finset.sum_comm]
    exact Finset.sum_congr rfl fun i _ => Finset.sum_congr rfl fun j _ => by ring
  have eq : ∀ e : ι → ℝ, (v ⬝ᵥ e + c) ^ 2 = (v ⬝ᵥ e) * (v ⬝ᵥ e) + (2 * c) * (v ⬝ᵥ e) + c ^ 2 :=
    fun e => by ring
  have i3 : Integrable (fun e : ι → ℝ => (v ⬝ᵥ e) * (v ⬝ᵥ e) + (2 * c) * (v ⬝ᵥ e)) (gauss 0 S) :=
    i2.add (i1.const_mul _)
  have i4 : Integrable (fun e : ι → ℝ => (v ⬝ᵥ e + c) ^ 2) (gauss 0 S) := by
    simp only [eq]
    exact i3.add (integrable_const _)
  rw [← ofReal_integral_eq_lintegral_ofReal i4 (Filter.Eventually.of_forall fun e => sq_nonneg _)]
  simp only [eq]
  rw [integral_add i3 (integrable_const _), integral_add i2 (i1.const_mul _), integral_const_mul,
    z1, z2]
  simp only [integral_const, probReal_univ, smul_eq_mul, one_mul, mul_zero, add_zero]
  refine ENNReal.ofReal_add ?_ (sq_nonneg c)
  have := hS.dotProduct_mulVec_nonneg v
  simpa using this

theorem CondGauss.pythagoras (h : CondGauss μ X Y f S) {φ : H → ι → ℝ} (hφ : Measurable φ)
    (v : ι → ℝ) :
    ∫⁻ ω, ENNReal.ofReal ((v ⬝ᵥ (X ω - φ (Y ω))) ^ 2) ∂μ
      = ENNReal.ofReal (v ⬝ᵥ (S *ᵥ v))
        + ∫⁻ ω, ENNReal.ofReal ((v ⬝ᵥ (f (Y ω) - φ (Y ω))) ^ 2) ∂μ := by
  have hX := h.measX
  have hY := h.measY
  have hf := h.measf
  haveI : IsProbabilityMeasure (μ.map Y) := Measure.isProbabilityMeasure_map hY.aemeasurable
  have hd : Measurable fun x : ι → ℝ => v ⬝ᵥ x := by
    simp only [dotProduct]; fun_prop
  let F : H × (ι → ℝ) → ENNReal := fun p =>
    ENNReal.ofReal ((v ⬝ᵥ p.2 + v ⬝ᵥ (f p.1 - φ p.1)) ^ 2)
  have hF : Measurable F := by fun_prop
  have e1 : ∫⁻ ω, ENNReal.ofReal ((v ⬝ᵥ (X ω - φ (Y ω))) ^ 2) ∂μ
      = ∫⁻ p, F p ∂(μ.map (fun ω => (Y ω, X ω - f (Y ω)))) := by
    rw [lintegral_map hF (by fun_prop)]
    refine lintegral_congr fun ω => ?_
    simp only [F]
    rw [← dotProduct_add, sub_add_sub_cancel]
  rw [e1, h.joint_error, lintegral_prod _ hF.aemeasurable]
  simp only [F]
  simp only [lintegral_gauss_form h.psd]
  rw [lintegral_map (by fun_prop) hY, lintegral_add_left measurable_const]
  simp

/-- The normalised squared length of a centred Gaussian vector. -/
theorem gauss_chiSq (hS : S.PosDef) :
    (gauss 0 S).map (fun e => e ⬝ᵥ (S⁻¹ *ᵥ e)) = (gauss (0 : ι → ℝ) 1).map (fun g => g ⬝ᵥ g) := by
  obtain ⟨B, hB⟩ := CStarAlgebra.nonneg_iff_eq_star_mul_self.mp hS.inv.posSemidef.nonneg
  rw [star_eq_conjTranspose, conjTranspose_eq_transpose_of_trivial] at hB
  have hu : IsUnit S.det := (Matrix.isUnit_iff_isUnit_det S).mp hS.isUnit
  have h1 : B * S * Bᵀ = 1 := by
    have : Bᵀ * (B * S) = 1 := by rw [← Matrix.mul_assoc, ← hB, Matrix.nonsing_inv_mul _ hu]
    exact mul_eq_one_comm.mp this
  have h2 := gauss_map_mulVec hS.posSemidef B 0
  rw [h1, mulVec_zero] at h2
  have hd : Measurable fun g : ι → ℝ => g ⬝ᵥ g := by simp only [dotProduct]; fun_prop
  rw [← h2, Measure.map_map hd (by fun_prop)]
  congr 1
  funext e
  simp only [Function.comp]
  rw [hB, ← mulVec_mulVec, dotProduct_mulVec, vecMul_transpose]

theorem CondGauss.honest {n : ℕ} {X : Ω → Vec n} {f : H → Vec n} {S : Mat n n}
    (h : CondGauss μ X Y f S) : Honest μ X Y (fun ω => f (Y ω)) S := by
  have hX := h.measX
  have hY := h.measY
  have hf := h.measf
  refine ⟨⟨f, hf, fun _ => rfl⟩, h.error_law, HasMoments.of_map (by fun_prop) h.error_law h.psd,
    h.error_indep, fun hpd => ?_⟩
  have hd : Measurable fun e : Vec n => e ⬝ᵥ (S⁻¹ *ᵥ e) := by
    simp only [dotProduct, mulVec]; fun_prop
  rw [← gauss_chiSq hpd, ← h.error_law, Measure.map_map hd (by fun_prop)]
  rfl

theorem CondGauss.optimal {n : ℕ} {X : Ω → Vec n} {f : H → Vec n} {S : Mat n n}
    (h : CondGauss μ X Y f S) : Optimal μ X Y (fun ω => f (Y ω)) S :=
  fun _ hφ v => h.pythagoras hφ v

/-- Independence of each member of a sequence from the earlier ones. -/
theorem iIndepFun_of_past {E : Type*} [MeasurableSpace E] {e : ℕ → Ω → E}
    (h : ∀ t, IndepFun (fun ω (i : Fin t) => e i ω) (e t) μ) : iIndepFun e μ := by
  rw [iIndepFun_iff_measure_inter_preimage_eq_mul]
  intro s
  induction s using Finset.induction_on_max with
  | empty => intro sets _; simp
  | insert a s hlt ih =>
    intro sets hs
    have ha : a ∉ s := fun h => lt_irrefl _ (hlt a h)
    rw [Finset.set_biInter_insert, Finset.prod_insert ha, ← ih fun i hi =>
      hs i (Finset.mem_insert_of_mem hi), Set.inter_comm, mul_comm]
    have e1 : (⋂ i ∈ s, e i ⁻¹' sets i)
        = (fun ω (i : Fin a) => e i ω) ⁻¹' (⋂ i : Fin a, {y | (i : ℕ) ∈ s → y i ∈ sets i}) := by
      ext ω
      simp only [Set.mem_iInter, Set.mem_preimage, Set.mem_setOf_eq]
      exact ⟨fun h i hi => h i hi, fun h i hi => h ⟨i, hlt i hi⟩ hi⟩
    rw [e1]
    refine (h a).measure_inter_preimage_eq_mul _ _ (MeasurableSet.iInter fun i => ?_)
      (hs a (Finset.mem_insert_self _ _))
    by_cases hi : (i : ℕ) ∈ s
    · simp only [hi, true_imp_iff]
      exact (measurable_pi_apply i) (hs i (Finset.mem_insert_of_mem hi))
    · simp [hi]

section Forecast

variable {n m T : ℕ} {P : PFun n m} {X : ℕ → Ω → Vec n} {Z : ℕ → Ω → Vec m}
  {noise : (i : Noise) → Ω → Vec (i.dim n m)}

theorem LG.forecast (h : LG μ P T X Z noise) (hP : P.PSD T) (mask : MaskPat m) {t : ℕ}
    (ht : t < T) :
    CondGauss μ (Z t) (seen mask Z t) (fun y => P.C t *ᵥ P.predM mask t y + P.d t)
      (P.C t * P.predC mask t * (P.C t)ᵀ + P.R t) := by
  have hi : IndepFun (fun ω => (seen mask Z t ω, X t ω)) (noise (.obs t)) μ :=
    h.indep_sets (S := past t t) (S' := {Noise.obs t})
      (by rw [Set.disjoint_singleton_right]; exact lt_irrefl t)
      (Measurable.prodMk (h.seen_past mask ht (by omega)) (h.state_past ht le_rfl))
      (meas_sig (Set.mem_singleton _))
  have := (h.pred hP mask ht).predict (h.meas (.obs t)) hi (hP.R t ht) (h.obs_law t ht)
    (P.C t) (P.d t)
  have e : Z t = fun ω => P.C t *ᵥ X t ω + P.d t + noise (.obs t) ω := funext (h.obs_eq t ht)
  rw [e]
  exact this

/-- The innovations at the unmasked times are independent. -/
theorem LG.innovations (h : LG μ P T X Z noise) (hP : P.PSD T) (mask : MaskPat m) :
    iIndepFun (fun (t : Unmasked mask T) ω =>
      Z t ω - (P.C t *ᵥ P.predM mask t (seen mask Z t ω) + P.d t)) μ := by
  classical
  let g : ℕ → ∀ k, (Fin k → Vec m) → Vec m := fun i k y =>
    if hi : i < k ∧ i < T ∧ ¬ mask.rowMissing i then
      y ⟨i, hi.1⟩ - (P.C i *ᵥ P.predM mask i (fun j => y ⟨j, by omega⟩) + P.d i) else 0
  have hg : ∀ i k, Measurable (g i k) := by
    intro i k
    by_cases hi : i < k ∧ i < T ∧ ¬ mask.rowMissing i
    · have hm := (h.pred hP mask hi.2.1).measf
      simp only [g, dif_pos hi]
      have h1 : Measurable fun y : Fin k → Vec m => P.predM mask i (fun j => y ⟨j, by omega⟩) :=
        hm.comp (by fun_prop)
      fun_prop
    · simp only [g, dif_neg hi]
      exact measurable_const
  let e : ℕ → Ω → Vec m := fun t ω => g t (t + 1) (seen mask Z (t + 1) ω)
  have he : ∀ i k, i < k → ∀ ω, e i ω = g i k (seen mask Z k ω) := by
    intro i k hik ω
    by_cases hi : i < T ∧ ¬ mask.rowMissing i
    · simp only [e, g, dif_pos (show i < k ∧ i < T ∧ ¬ mask.rowMissing i from ⟨hik, hi⟩),
        dif_pos (show i < i + 1 ∧ i < T ∧ ¬ mask.rowMissing i from ⟨i.lt_succ_self, hi⟩)]
      rfl
    · simp only [e, g, dif_neg (show ¬ (i < k ∧ i < T ∧ ¬ mask.rowMissing i) from fun h => hi h.2),
        dif_neg (show ¬ (i < i + 1 ∧ i < T ∧ ¬ mask.rowMissing i) from fun h => hi h.2)]
  have hval : ∀ t : Unmasked mask T, ∀ ω, e t ω
      = Z t ω - (P.C t *ᵥ P.predM mask t (seen mask Z t ω) + P.d t) := by
    intro t ω
    simp only [e, g, dif_pos (show (t : ℕ) < t + 1 ∧ (t : ℕ) < T ∧ ¬ mask.rowMissing t from
      ⟨Nat.lt_succ_self _, t.1.2, t.2⟩)]
    congr 1
    simp [seen, t.2]
  have hind : iIndepFun e μ := by
    refine iIndepFun_of_past fun t => ?_
    by_cases ht : t < T ∧ ¬ mask.rowMissing t
    · have h1 := (h.forecast hP mask ht.1).error_indep
      have e1 : (fun ω (i : Fin t) => e i ω)
          = (fun (y : Fin t → Vec m) (i : Fin t) => g i t y) ∘ seen mask Z t := by
        funext ω i
        exact he i t i.2 ω
      have e2 : e t = fun ω => Z t ω - (P.C t *ᵥ P.predM mask t (seen mask Z t ω) + P.d t) :=
        funext (hval ⟨⟨t, ht.1⟩, ht.2⟩)
      rw [e1, e2]
      exact h1.comp (φ := fun (y : Fin t → Vec m) (i : Fin t) => g i t y) (ψ := id)
        (measurable_pi_iff.mpr fun i => hg i t) measurable_id
    · have e2 : e t = fun _ => 0 := by
        funext ω
        simp only [e, g, dif_neg (show ¬ (t < t + 1 ∧ t < T ∧ ¬ mask.rowMissing t) from
          fun h => ht h.2)]
      rw [e2]
      exact indepFun_const_right _ _
  have := hind.precomp (g := fun t : Unmasked mask T => (t : ℕ))
    (fun a b hab => Subtype.ext (Fin.ext hab))
  have e3 : (fun (t : Unmasked mask T) ω =>
      Z t ω - (P.C t *ᵥ P.predM mask t (seen mask Z t ω) + P.d t))
      = fun (t : Unmasked mask T) => e t := by
    funext t ω
    exact (hval t ω).symm
  rw [e3]
  exact this

end Forecast

end Verif
