import Verif.Proofs.Density
import Verif.Proofs.Process
import Verif.Proofs.Loglik

/-!
# The joint density of the observations is the product of the predictive densities
-/

open MeasureTheory ProbabilityTheory Matrix

namespace Verif

variable {n m : ℕ}

/-- Append a last entry, as a measurable equivalence. -/
def snocEquiv (k : ℕ) (V : Type) [MeasurableSpace V] : (Fin k → V) × V ≃ᵐ (Fin (k + 1) → V) where
  toFun p := Fin.snoc p.1 p.2
  invFun y := (fun i => y i.castSucc, y (Fin.last k))
  left_inv p := by simp
  right_inv y := by
    funext i
    refine Fin.lastCases ?_ (fun j => ?_) i <;> simp
  measurable_toFun := measurable_snoc (f := Prod.fst) (g := Prod.snd) measurable_fst measurable_snd
  measurable_invFun := measurable_init.prodMk (measurable_pi_apply _)

theorem pi_snoc {k : ℕ} {V : Type} [MeasurableSpace V] (ρ : Fin (k + 1) → Measure V)
    [∀ i, SigmaFinite (ρ i)] :
    ((Measure.pi fun i : Fin k => ρ i.castSucc).prod (ρ (Fin.last k))).map (snocEquiv k V)
      = Measure.pi ρ := by
  symm
  apply Measure.pi_eq
  intro s hs
  rw [Measure.map_apply (snocEquiv k V).measurable (MeasurableSet.univ_pi hs)]
  have : snocEquiv k V ⁻¹' Set.univ.pi s
      = (Set.univ.pi fun i : Fin k => s i.castSucc) ×ˢ s (Fin.last k) := by
    ext p
    simp only [Set.mem_preimage, Set.mem_pi, Set.mem_univ, true_implies, Set.mem_prod]
    rw [Fin.forall_fin_succ']
    have e1 : ∀ j : Fin k, snocEquiv k V p j.castSucc = p.1 j := fun j => by
      show (Fin.snoc p.1 p.2 : Fin (k + 1) → V) j.castSucc = p.1 j
      rw [Fin.snoc_castSucc]
    have e2 : snocEquiv k V p (Fin.last k) = p.2 := by
      show (Fin.snoc p.1 p.2 : Fin (k + 1) → V) (Fin.last k) = p.2
      rw [Fin.snoc_last]
    simp only [e1, e2]
  rw [this, Measure.prod_prod, Measure.pi_pi, Fin.prod_univ_castSucc]

theorem CondGauss.compProd {Ω H ι : Type*} [MeasurableSpace Ω] [MeasurableSpace H] [Fintype ι]
    [DecidableEq ι] {μ : Measure Ω} [IsProbabilityMeasure μ]
    {X : Ω → ι → ℝ} {Y : Ω → H} {f : H → ι → ℝ} {S : Matrix ι ι ℝ}
    (h : CondGauss μ X Y f S) :
    μ.map (fun ω => (Y ω, X ω)) = μ.map Y ⊗ₘ gaussKernel f h.measf S := by
  have hf := h.measf
  have hY := h.measY
  haveI : IsProbabilityMeasure (μ.map Y) := Measure.isProbabilityMeasure_map hY.aemeasurable
  rw [h.law]
  ext s hs
  rw [Measure.compProd_apply hs, Measure.map_apply (by fun_prop) hs,
    Measure.prod_apply (by measurability)]
  refine lintegral_congr fun y => ?_
  rw [gaussKernel_apply f hf h.psd, gauss_eq_map h.psd (f y), Measure.map_apply (by fun_prop)
    (measurable_prodMk_left hs)]
  rfl

/-- Joint density of a history with a density and an observation with a conditional density. -/
theorem CondGauss.density {Ω H : Type*} [MeasurableSpace Ω] [MeasurableSpace H]
    {μ : Measure Ω} [IsProbabilityMeasure μ] {Z : Ω → Vec m} {Y : Ω → H} {f : H → Vec m}
    {S : Mat m m} (h : CondGauss μ Z Y f S) {ν : Measure H} [SFinite ν] {g : H → ENNReal}
    (hg : Measurable g) (hY : μ.map Y = ν.withDensity g) {q : Vec m → Vec m → ENNReal}
    (hq : Measurable fun p : Vec m × Vec m => q p.1 p.2)
    (hS : ∀ c, gauss c S = volume.withDensity (fun x => q x c)) :
    μ.map (fun ω => (Y ω, Z ω))
      = (ν.prod volume).withDensity (fun p => g p.1 * q p.2 (f p.1)) := by
  haveI : IsProbabilityMeasure (μ.map Y) := Measure.isProbabilityMeasure_map h.measY.aemeasurable
  have hf := h.measf
  have hq1 : Measurable fun p : H × Vec m => q p.2 (f p.1) :=
    hq.comp (measurable_snd.prodMk (hf.comp measurable_fst))
  have hq2 : ∀ y : H, Measurable fun x => q x (f y) := fun y =>
    hq.comp (measurable_id.prodMk measurable_const)
  have hgq : Measurable fun p : H × Vec m => g p.1 * q p.2 (f p.1) :=
    (hg.comp measurable_fst).mul hq1
  rw [h.compProd]
  ext s hs
  rw [Measure.compProd_apply hs, withDensity_apply _ hs, ← lintegral_indicator hs,
    lintegral_prod _ (hgq.indicator hs).aemeasurable]
  rw [hY, lintegral_withDensity_eq_lintegral_mul _ hg
    ((gaussKernel f hf S).measurable_kernel_prodMk_left hs)]
  refine lintegral_congr fun y => ?_
  simp only [Pi.mul_apply]
  rw [gaussKernel_apply f hf h.psd, hS, withDensity_apply _ (measurable_prodMk_left hs),
    ← lintegral_indicator (measurable_prodMk_left hs), ← lintegral_const_mul _
      ((hq2 y).indicator (measurable_prodMk_left hs))]
  refine lintegral_congr fun x => ?_
  by_cases hx : (y, x) ∈ s
  · simp [Set.indicator, hx]
  · simp [Set.indicator, hx]

/-- Reference measure for the first `k` rows: Lebesgue measure for unmasked rows, a point mass
at the placeholder 0 for masked rows. -/
noncomputable def refMeasure (mask : MaskPat m) (k : ℕ) : Measure (Fin k → Vec m) :=
  Measure.pi fun i => if mask.rowMissing i then Measure.dirac 0 else volume

instance refMeasure_sigmaFinite_aux (mask : MaskPat m) (i : ℕ) :
    SigmaFinite (if mask.rowMissing i then Measure.dirac 0 else (volume : Measure (Vec m))) := by
  split <;> infer_instance

instance (mask : MaskPat m) (k : ℕ) : SigmaFinite (refMeasure mask k) := by
  rw [refMeasure]; infer_instance

theorem refMeasure_succ (mask : MaskPat m) (k : ℕ) :
    refMeasure mask (k + 1) = ((refMeasure mask k).prod
      (if mask.rowMissing k then Measure.dirac 0 else volume)).map (snocEquiv k (Vec m)) :=
  (pi_snoc fun i : Fin (k + 1) =>
    if mask.rowMissing i then Measure.dirac 0 else (volume : Measure (Vec m))).symm

/-- Contribution of time `t` to the log-likelihood, for given log densities `ℓ`. -/
noncomputable def PFun.lterm (P : PFun n m) (ℓ : ℕ → Vec m → Vec m → ℝ) (z : ℕ → Obs m) (t : ℕ) :
    ℝ :=
  if (z t).missing then 0 else ℓ t (z t).val (P.C t *ᵥ (P.kf z t).predMean + P.d t)

theorem PFun.lterm_congr (P : PFun n m) (ℓ : ℕ → Vec m → Vec m → ℝ) {z z' : ℕ → Obs m} {t : ℕ}
    (h : ∀ i, i ≤ t → (z i).Sim (z' i)) : P.lterm ℓ z t = P.lterm ℓ z' t := by
  have e := (P.kf_pred_congr (t := t) fun i hi => h i (by omega)).1
  obtain ⟨h1, h2⟩ := h t le_rfl
  by_cases hm : (z t).missing
  · have hm' : (z' t).missing := h1.mp hm
    simp [PFun.lterm, hm, hm']
  · have hm' : ¬ (z' t).missing := fun h => hm (h1.mpr h)
    simp [PFun.lterm, hm, hm', h2 hm, e]

/-- Log-likelihood as a function of the history. -/
noncomputable def PFun.ll (P : PFun n m) (ℓ : ℕ → Vec m → Vec m → ℝ) (mask : MaskPat m) (k : ℕ)
    (y : Fin k → Vec m) : ℝ := ∑ t ∈ Finset.range k, P.lterm ℓ (zOf mask y) t

theorem PFun.ll_snoc (P : PFun n m) (ℓ : ℕ → Vec m → Vec m → ℝ) (mask : MaskPat m) (k : ℕ)
    (y : Fin k → Vec m) (a : Vec m) :
    P.ll ℓ mask (k + 1) (Fin.snoc y a) = P.ll ℓ mask k y
      + if mask.rowMissing k then 0 else ℓ k a (P.C k *ᵥ P.predM mask k y + P.d k) := by
  rw [PFun.ll, Finset.sum_range_succ]
  congr 1
  · refine Finset.sum_congr rfl fun t ht => ?_
    rw [Finset.mem_range] at ht
    exact P.lterm_congr ℓ fun i hi => zOf_snoc_sim mask y a (by omega)
  · rw [PFun.lterm, zOf_snoc_last]
    have e := (P.kf_pred_congr (t := k) fun i hi =>
      zOf_snoc_sim mask y a (i := i) (by omega)).1
    by_cases hm : mask.rowMissing k
    · have : (⟨a, mask k⟩ : Obs m).missing := hm
      simp [hm, this]
    · have : ¬ (⟨a, mask k⟩ : Obs m).missing := hm
      simp [hm, this, e, PFun.predM]

variable {Ω : Type*} [MeasurableSpace Ω] {μ : Measure Ω} [IsProbabilityMeasure μ] {P : PFun n m}
  {T : ℕ} {X : ℕ → Ω → Vec n} {Z : ℕ → Ω → Vec m} {noise : (i : Noise) → Ω → Vec (i.dim n m)}

/-- Law of the observation at `t` given the earlier ones. -/
theorem LG.predObs (h : LG μ P T X Z noise) (hP : P.PSD T) (mask : MaskPat m) {t : ℕ}
    (ht : t < T) :
    CondGauss μ (Z t) (seen mask Z t) (fun y => P.C t *ᵥ P.predM mask t y + P.d t)
      (P.C t * P.predC mask t * (P.C t)ᵀ + P.R t) := by
  have hi : IndepFun (fun ω => (seen mask Z t ω, X t ω)) (noise (.obs t)) μ :=
    h.indep_sets (S := past t t) (S' := {Noise.obs t})
      (by rw [Set.disjoint_singleton_right]; exact lt_irrefl t)
      (Measurable.prodMk (h.seen_past mask ht (by omega)) (h.state_past ht le_rfl))
      (meas_sig (Set.mem_singleton _))
  have := (h.pred hP mask ht).predict (h.meas (.obs t)) hi (hP.R t ht) (h.obs_law t ht) (P.C t)
    (P.d t)
  have e : Z t = fun ω => P.C t *ᵥ X t ω + P.d t + noise (.obs t) ω := funext (h.obs_eq t ht)
  rw [e]
  exact this

theorem LG.density (h : LG μ P T X Z noise) (hP : P.PSD T) (mask : MaskPat m)
    {ℓ : ℕ → Vec m → Vec m → ℝ}
    (hℓ : ∀ t, t < T → ¬ mask.rowMissing t →
      (∀ c, gauss c (P.C t * P.predC mask t * (P.C t)ᵀ + P.R t)
        = volume.withDensity fun x => ENNReal.ofReal (Real.exp (ℓ t x c))) ∧
      Measurable (fun q : Vec m × Vec m => ℓ t q.1 q.2)) {k : ℕ} (hk : k ≤ T) :
    Measurable (P.ll ℓ mask k) ∧
    μ.map (seen mask Z k) = (refMeasure mask k).withDensity
      (fun y => ENNReal.ofReal (Real.exp (P.ll ℓ mask k y))) := by
  induction k with
  | zero =>
    refine ⟨measurable_of_countable _, ?_⟩
    have e1 : (fun y => ENNReal.ofReal (Real.exp (P.ll ℓ mask 0 y))) = 1 := by
      funext y; simp [PFun.ll]
    rw [e1, withDensity_one, refMeasure, Measure.pi_of_empty _ (fun i => i.elim0)]
    have e2 : seen mask Z 0 = fun _ => fun i => i.elim0 := by
      funext ω i; exact i.elim0
    rw [e2, Measure.map_const, measure_univ, one_smul]
  | succ k ih =>
    obtain ⟨hmeas, hlaw⟩ := ih (by omega)
    have hpm := (h.pred hP mask (t := k) (by omega)).measf
    have hsn : P.ll ℓ mask (k + 1) = (fun p : (Fin k → Vec m) × Vec m => P.ll ℓ mask k p.1
        + if mask.rowMissing k then 0 else ℓ k p.2 (P.C k *ᵥ P.predM mask k p.1 + P.d k))
        ∘ (snocEquiv k (Vec m)).symm := by
      funext y
      have := P.ll_snoc ℓ mask k (fun i => y i.castSucc) (y (Fin.last k))
      rw [← show Fin.snoc (fun i : Fin k => y i.castSucc) (y (Fin.last k)) = y from
        (snocEquiv k (Vec m)).right_inv y, this]
      simp [snocEquiv]
    have hmeas' : Measurable (P.ll ℓ mask (k + 1)) := by
      rw [hsn]
      refine Measurable.comp ?_ (snocEquiv k (Vec m)).symm.measurable
      refine (hmeas.comp measurable_fst).add ?_
      by_cases hm : mask.rowMissing k
      · simp only [hm, if_true]; exact measurable_const
      · simp only [hm, if_false]
        exact (hℓ k (by omega) hm).2.comp (measurable_snd.prodMk (by fun_prop))
    refine ⟨hmeas', ?_⟩
    rw [refMeasure_succ]
    have hdens : (fun y => ENNReal.ofReal (Real.exp (P.ll ℓ mask (k + 1) y)))
        = fun y => (fun p : (Fin k → Vec m) × Vec m =>
          ENNReal.ofReal (Real.exp (P.ll ℓ mask k p.1)) *
          ENNReal.ofReal (Real.exp (if mask.rowMissing k then 0 else
            ℓ k p.2 (P.C k *ᵥ P.predM mask k p.1 + P.d k)))) ((snocEquiv k (Vec m)).symm y) := by
      funext y
      rw [hsn]
      simp only [Function.comp]
      rw [Real.exp_add, ENNReal.ofReal_mul (Real.exp_pos _).le]
    rw [hdens, ← map_withDensity_equiv (snocEquiv k (Vec m)) _ (fun p : (Fin k → Vec m) × Vec m =>
          ENNReal.ofReal (Real.exp (P.ll ℓ mask k p.1)) *
          ENNReal.ofReal (Real.exp (if mask.rowMissing k then 0 else
            ℓ k p.2 (P.C k *ᵥ P.predM mask k p.1 + P.d k))))]
    have hseenm : Measurable (seen mask Z k) :=
      seen_meas fun t ht => h.measZ (by omega)
    by_cases hm : mask.rowMissing k
    · simp only [hm, if_true, Real.exp_zero, ENNReal.ofReal_one, mul_one]
      have e : seen mask Z (k + 1) = snocEquiv k (Vec m) ∘ (fun y => (y, 0)) ∘ seen mask Z k := by
        funext ω
        rw [seen_succ, if_pos hm]
        rfl
      rw [e, ← Measure.map_map (snocEquiv k (Vec m)).measurable (by fun_prop),
        ← Measure.map_map (by fun_prop) hseenm, hlaw]
      congr 1
      have := prod_withDensity_left (μ := refMeasure mask k) (ν := Measure.dirac (0 : Vec m))
        (f := fun y => ENNReal.ofReal (Real.exp (P.ll ℓ mask k y))) (by fun_prop)
      rw [← this, Measure.prod_dirac]
    · simp only [hm, if_false]
      obtain ⟨hd, hdm⟩ := hℓ k (by omega) hm
      have hZ := h.predObs hP mask (t := k) (by omega)
      have e : seen mask Z (k + 1) = snocEquiv k (Vec m) ∘ fun ω => (seen mask Z k ω, Z k ω) := by
        funext ω
        rw [seen_succ, if_neg hm]
        rfl
      rw [e, ← Measure.map_map (snocEquiv k (Vec m)).measurable
        (hseenm.prodMk (h.measZ (by omega)))]
      congr 1
      exact hZ.density (by fun_prop) hlaw (q := fun x c => ENNReal.ofReal (Real.exp (ℓ k x c)))
        (by fun_prop) hd

/-! ### Dropping the masked rows -/

/-- Put 0 in the place of masked rows. -/
def extendZero {mask : MaskPat m} {T : ℕ} (z : Unmasked mask T → Vec m) : Fin T → Vec m :=
  fun t => if h : mask.rowMissing t then 0 else z ⟨t, h⟩

theorem measurable_extendZero {mask : MaskPat m} {T : ℕ} :
    Measurable (extendZero : (Unmasked mask T → Vec m) → Fin T → Vec m) := by
  rw [measurable_pi_iff]
  intro t
  by_cases h : mask.rowMissing t
  · simp only [extendZero, h, dif_pos]; exact measurable_const
  · simp only [extendZero, h, dif_neg, not_false_eq_true]; exact measurable_pi_apply _

theorem refMeasure_eq_map (mask : MaskPat m) (T : ℕ) :
    refMeasure mask T = (volume : Measure (Unmasked mask T → Vec m)).map extendZero := by
  rw [refMeasure]
  apply Measure.pi_eq
  intro s hs
  rw [Measure.map_apply measurable_extendZero (MeasurableSet.univ_pi hs)]
  rw [← Fintype.prod_subtype_mul_prod_subtype (fun t : Fin T => ¬ mask.rowMissing t)]
  have e1 : ∏ i : {t : Fin T // ¬ mask.rowMissing t},
      (if mask.rowMissing (i : Fin T) then Measure.dirac 0 else (volume : Measure (Vec m))) (s i)
      = ∏ i : {t : Fin T // ¬ mask.rowMissing t}, volume (s i) :=
    Finset.prod_congr rfl fun i _ => by rw [if_neg i.2]
  rw [e1]
  by_cases h0 : ∀ t : Fin T, mask.rowMissing t → (0 : Vec m) ∈ s t
  · have e2 : ∏ i : {t : Fin T // ¬ ¬ mask.rowMissing t},
        (if mask.rowMissing (i : Fin T) then Measure.dirac 0 else (volume : Measure (Vec m))) (s i)
        = 1 := by
      refine Finset.prod_eq_one fun i _ => ?_
      have hi : mask.rowMissing (i : Fin T) := not_not.mp i.2
      rw [if_pos hi, Measure.dirac_apply' _ (hs i), Set.indicator_of_mem (h0 _ hi)]
      rfl
    rw [e2, mul_one, ← volume_pi_pi]
    congr 1
    ext z
    simp only [Set.mem_preimage, Set.mem_pi, Set.mem_univ, true_implies]
    constructor
    · intro h u
      have := h u
      simpa [extendZero, u.2] using this
    · intro h t
      by_cases ht : mask.rowMissing t
      · simpa [extendZero, ht] using h0 t ht
      · simpa [extendZero, ht] using h ⟨t, ht⟩
  · push Not at h0
    obtain ⟨t, ht, hst⟩ := h0
    have e2 : ∏ i : {t : Fin T // ¬ ¬ mask.rowMissing t},
        (if mask.rowMissing (i : Fin T) then Measure.dirac 0 else (volume : Measure (Vec m))) (s i)
        = 0 := by
      refine Finset.prod_eq_zero (Finset.mem_univ ⟨t, not_not.mpr ht⟩) ?_
      rw [if_pos ht, Measure.dirac_apply' _ (hs t), Set.indicator_of_notMem hst]
    rw [e2, mul_zero]
    have : (extendZero : (Unmasked mask T → Vec m) → Fin T → Vec m) ⁻¹' Set.univ.pi s = ∅ := by
      ext z
      simp only [Set.mem_preimage, Set.mem_pi, Set.mem_univ, true_implies, Set.mem_empty_iff_false,
        iff_false]
      intro h
      have := h t
      simp [extendZero, ht, hst] at this
    rw [this, measure_empty]

theorem unmasked_density {mask : MaskPat m} {T : ℕ} {g : (Fin T → Vec m) → ENNReal}
    (hg : Measurable g) (hZ : ∀ t, t < T → Measurable (Z t))
    (h : μ.map (seen mask Z T) = (refMeasure mask T).withDensity g) :
    μ.map (fun ω (u : Unmasked mask T) => Z u ω)
      = volume.withDensity fun z => g (extendZero z) := by
  have hr : Measurable fun (y : Fin T → Vec m) (u : Unmasked mask T) => y u := by
    rw [measurable_pi_iff]; intro u; exact measurable_pi_apply _
  have e1 : (fun ω (u : Unmasked mask T) => Z u ω)
      = (fun (y : Fin T → Vec m) (u : Unmasked mask T) => y u) ∘ seen mask Z T := by
    funext ω u
    simp [seen, u.2]
  rw [e1, ← Measure.map_map hr (seen_meas hZ), h, refMeasure_eq_map]
  ext s hs
  rw [Measure.map_apply hr hs, withDensity_apply _ (hr hs), withDensity_apply _ hs,
    ← lintegral_indicator (hr hs), ← lintegral_indicator hs,
    lintegral_map (hg.indicator (hr hs)) measurable_extendZero]
  refine lintegral_congr fun z => ?_
  have : (fun u : Unmasked mask T => extendZero z u) = z := by
    funext u
    simp [extendZero, u.2]
  by_cases hz : z ∈ s
  · rw [Set.indicator_of_mem hz, Set.indicator_of_mem]
    show (fun u : Unmasked mask T => extendZero z u) ∈ s
    rwa [this]
  · rw [Set.indicator_of_notMem hz, Set.indicator_of_notMem]
    show ¬ (fun u : Unmasked mask T => extendZero z u) ∈ s
    rwa [this]

/-! ### The value of `loglikelihood` as a sum -/

theorem loglikLoop_pure {p : Params n m} (v : ℕ → ℝ) (os : List (Obs m)) (ss : List (Step n m))
    (t : ℕ) (hl : ss.length = os.length)
    (h : ∀ i (h1 : i < ss.length) (h2 : i < os.length),
      loglikStep p (t + i) ss[i] os[i] = .ok (v (t + i))) :
    loglikLoop p t ss os = .ok ((List.range os.length).map fun i => v (t + i)) := by
  induction os generalizing ss t with
  | nil => cases ss <;> rfl
  | cons o os ih =>
    obtain ⟨s, ss, rfl⟩ := List.exists_cons_of_length_eq_add_one hl
    have h0 := h 0 (by simp) (by simp)
    have hi := ih ss (t + 1) (by simpa using hl) (fun i h1 h2 => by
      have := h (i + 1) (by simpa using h1) (by simpa using h2)
      rw [show t + 1 + i = t + (i + 1) by omega]
      simpa using this)
    simp only [List.getElem_cons_zero, add_zero] at h0
    simp only [loglikLoop, h0, hi, bind, Except.bind, pure, Except.pure, List.length_cons,
      List.range_succ_eq_map, List.map_cons, List.map_map, add_zero]
    congr 2
    apply List.map_congr_left
    intro i _
    simp only [Function.comp]
    congr 1
    omega

/-- `loglikelihood` for a constant observation covariance and log densities `ℓ`. -/
theorem kfLoglik_pure {p : Params n m} {os : List (Obs m)} (hc : p.Covers os.length) {R : Mat m m}
    (hR : p.R = .const R) {ℓ : ℕ → Vec m → Vec m → ℝ}
    (hℓ : ∀ t, t < os.length → ¬ (obsFn os t).missing → ∀ x c, logMvn x c
      (p.fn.C t * (p.fn.kf (obsFn os) t).predCov * (p.fn.C t)ᵀ + p.fn.R t) = .ok (ℓ t x c)) :
    kfLoglik p os = .ok (∑ t ∈ Finset.range os.length, p.fn.lterm ℓ (obsFn os) t) := by
  rw [kfLoglik, filterFull_obsFn hc]
  simp only [bind, Except.bind]
  rw [loglikLoop_pure (p.fn.lterm ℓ (obsFn os)) os _ 0 (by simp) ?_]
  · simp only [pure, Except.pure, zero_add]
    congr 1
  · intro i h1 h2
    simp only [List.getElem_map, List.getElem_range, zero_add]
    have e := obsFn_eq h2
    by_cases hm : (obsFn os i).missing
    · simp only [PFun.lterm, hm, if_true]
      rw [e] at hm
      simp [loglikStep, hm, pure, Except.pure]
    · simp only [PFun.lterm, hm, if_false]
      rw [← e]
      simp only [loglikStep, hm, not_false_eq_true, if_true]
      rw [lastDims_eq_ok (hc.C.mono (by omega)), lastDims_eq_ok (hc.d.mono (by omega)), hR]
      simp only [bind, Except.bind, pure, Except.pure]
      have := hℓ i h2 hm (obsFn os i).val (p.fn.C i *ᵥ (p.fn.kf (obsFn os) i).predMean + p.fn.d i)
      rw [← Matrix.mul_assoc, ← this]
      simp [Params.fn, hR, TV.get]

end Verif
