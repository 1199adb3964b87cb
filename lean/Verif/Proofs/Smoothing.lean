import Verif.Proofs.Posterior

/-!
# The smoother computes conditional laws given all observations
-/

open MeasureTheory ProbabilityTheory Matrix

namespace Verif

variable {n m : ℕ} {Ω : Type*} [mΩ : MeasurableSpace Ω] {μ : Measure Ω} [IsProbabilityMeasure μ]
  {P : PFun n m} {T : ℕ}
  {X : ℕ → Ω → Vec n} {Z : ℕ → Ω → Vec m} {noise : (i : Noise) → Ω → Vec (i.dim n m)}

/-- The noises after time `t`. -/
def future (t : ℕ) : Set Noise := fun i =>
  match i with
  | .init => False
  | .trans s => t < s
  | .obs s => t < s

theorem disjoint_past_future (t : ℕ) : Disjoint (past (t + 1) (t + 1)) (future t) := by
  rw [Set.disjoint_left]
  rintro (_ | s | s) h1 h2
  · exact h2
  · exact absurd h2 (Nat.not_lt.mpr (Nat.lt_succ_iff.mp h1))
  · exact absurd h2 (Nat.not_lt.mpr (Nat.lt_succ_iff.mp h1))

/-- The observed rows after time `t`. -/
def tailSeen (mask : MaskPat m) (Z : ℕ → Ω → Vec m) (T t : ℕ) (ω : Ω) : Fin T → Vec m :=
  fun i => if (i : ℕ) ≤ t then 0 else seen mask Z T ω i

/-- Glue a history and the rows after it. -/
def joinH (T t : ℕ) (y : Fin (t + 1) → Vec m) (u : Fin T → Vec m) : Fin T → Vec m :=
  fun i => if h : (i : ℕ) < t + 1 then y ⟨i, h⟩ else u i

/-- The first `t + 1` rows. -/
def restrictH {T t : ℕ} (h : t < T) (y : Fin T → Vec m) : Fin (t + 1) → Vec m :=
  fun i => y ⟨i, by omega⟩

theorem restrictH_joinH {T t : ℕ} (h : t < T) (y : Fin (t + 1) → Vec m) (u : Fin T → Vec m) :
    restrictH h (joinH T t y u) = y := by
  funext i
  simp [restrictH, joinH, i.2]

theorem joinH_seen (mask : MaskPat m) (Z : ℕ → Ω → Vec m) (T t : ℕ) (ω : Ω) :
    seen mask Z T ω = joinH T t (seen mask Z (t + 1) ω) (tailSeen mask Z T t ω) := by
  funext i
  by_cases h : (i : ℕ) < t + 1
  · simp [joinH, h, seen]
  · simp [joinH, h, tailSeen, show ¬ (i : ℕ) ≤ t by omega]

theorem measurable_joinH (T t : ℕ) :
    Measurable (fun p : (Fin (t + 1) → Vec m) × (Fin T → Vec m) => joinH T t p.1 p.2) := by
  rw [measurable_pi_iff]
  intro i
  by_cases h : (i : ℕ) < t + 1
  · simp only [joinH, h, dif_pos]
    exact (measurable_pi_apply _).comp measurable_fst
  · simp only [joinH, h, dif_neg, not_false_eq_true]
    exact (measurable_pi_apply _).comp measurable_snd

theorem measurable_restrictH {T t : ℕ} (h : t < T) :
    Measurable (restrictH (m := m) h) := by
  rw [measurable_pi_iff]
  intro i
  exact measurable_pi_apply _

theorem tailSeen_meas {m : ℕ} {Ω : Type*} [MeasurableSpace Ω] {mask : MaskPat m}
    {Z : ℕ → Ω → Vec m} {T t : ℕ} (h : ∀ i, t < i → i < T → Measurable (Z i)) :
    Measurable (tailSeen mask Z T t) := by
  rw [measurable_pi_iff]
  intro i
  by_cases hi : (i : ℕ) ≤ t
  · simp only [tailSeen, hi, if_true]; exact measurable_const
  · simp only [tailSeen, hi, if_false, seen]
    by_cases hm : mask.rowMissing i
    · simp only [hm, if_true]; exact measurable_const
    · simp only [hm, if_false]
      exact h i (by omega) i.2

/-- The rows after `t` are a function of the state at `t + 1` and the noises after `t`. -/
theorem LG.tail_eq (h : LG μ P T X Z noise) (mask : MaskPat m) {t : ℕ} (ht : t + 1 < T) :
    ∃ φ : Vec n × ((i : future t) → Vec ((i : Noise).dim n m)) → (Fin T → Vec m), Measurable φ ∧
      ∀ ω, tailSeen mask Z T t ω = φ (X (t + 1) ω, fun i => noise i ω) := by
  set G : Ω → Vec n × ((i : future t) → Vec ((i : Noise).dim n m)) :=
    fun ω => (X (t + 1) ω, fun i => noise i ω) with hG
  have hX : Measurable[MeasurableSpace.comap G inferInstance] (X (t + 1)) :=
    measurable_fst.comp (comap_measurable G)
  have hN : ∀ i : future t, Measurable[MeasurableSpace.comap G inferInstance] (noise i) := fun i =>
    (measurable_pi_apply i).comp (measurable_snd.comp (comap_measurable G))
  have hXs : ∀ s, t + 1 ≤ s → s < T → Measurable[MeasurableSpace.comap G inferInstance] (X s) :=
    fun s hs hsT => @state_meas n m Ω (MeasurableSpace.comap G inferInstance) P T X noise
      h.trans_eq (t + 1) hX s hsT (fun r hr _ => hN ⟨.trans r, Nat.lt_of_succ_le hr⟩) s hs le_rfl
  have htail : Measurable[MeasurableSpace.comap G inferInstance] (tailSeen mask Z T t) := by
    refine @tailSeen_meas m Ω (MeasurableSpace.comap G inferInstance) mask Z T t fun i hi hiT => ?_
    exact @obs_meas n m Ω (MeasurableSpace.comap G inferInstance) P T X Z noise h.obs_eq i hiT
          (hXs i (by omega) hiT) (hN ⟨.obs i, hi⟩)
  obtain ⟨φ, h1, h2⟩ := htail.exists_eq_measurable_comp
  exact ⟨φ, h1, fun ω => congrFun h2 ω⟩

/-- The smoother's gain from time `t + 1` to `t`. -/
noncomputable def PFun.smoothG (P : PFun n m) (mask : MaskPat m) (t : ℕ) : Mat n n :=
  Verif.gain (P.filtC mask t) (P.Q t) (P.A t)

/-- State at `t` given all observations and the state at `t + 1`. -/
theorem LG.back (h : LG μ P T X Z noise) (hP : P.PSD T) (mask : MaskPat m) {t : ℕ}
    (ht : t + 1 < T) :
    CondGauss μ (X t) (fun ω => (seen mask Z T ω, X (t + 1) ω))
      (fun y => (P.filtM mask t (restrictH (by omega) y.1) - P.smoothG mask t *ᵥ
        (P.A t *ᵥ P.filtM mask t (restrictH (by omega) y.1) + P.b t)) + P.smoothG mask t *ᵥ y.2)
      (P.filtC mask t - P.smoothG mask t * P.A t * P.filtC mask t) := by
  have hf := h.filt hP mask (t := t) (by omega)
  have hi : IndepFun (fun ω => (seen mask Z (t + 1) ω, X t ω)) (noise (.trans t)) μ :=
    h.indep_sets (S := past t (t + 1)) (S' := {Noise.trans t})
      (by rw [Set.disjoint_singleton_right]; exact lt_irrefl t)
      (Measurable.prodMk (h.seen_past mask (by omega) (by omega))
        (h.state_past (by omega) le_rfl))
      (meas_sig (Set.mem_singleton _))
  have c1 := hf.correct (h.meas (.trans t)) hi (hP.Q t ht) (h.trans_law t ht) (P.A t) (P.b t)
  have eX : (fun ω => P.A t *ᵥ X t ω + P.b t + noise (.trans t) ω) = X (t + 1) :=
    (funext (h.trans_eq t ht)).symm
  have eX' : (fun ω => (seen mask Z (t + 1) ω, P.A t *ᵥ X t ω + P.b t + noise (.trans t) ω))
      = fun ω => (seen mask Z (t + 1) ω, X (t + 1) ω) :=
    funext fun ω => congrArg (Prod.mk _) (congrFun eX ω)
  have c1' := c1
  rw [eX'] at c1'
  obtain ⟨φ, hφ, hφe⟩ := h.tail_eq mask ht
  have hW : Measurable (fun ω => fun i : future t => noise i ω) := by
    rw [measurable_pi_iff]; exact fun i => h.meas i
  have hW' : Measurable[sig noise (future t)] (fun ω => fun i : future t => noise i ω) := by
    exact @measurable_pi_lambda Ω (future t) (fun i => Vec ((i : Noise).dim n m))
      (sig noise (future t)) _ _ fun i => meas_sig i.2
  have hiF : IndepFun (fun ω => ((seen mask Z (t + 1) ω, X (t + 1) ω), X t ω))
      (fun ω => fun i : future t => noise i ω) μ := by
    refine h.indep_sets (disjoint_past_future t) ?_ hW'
    refine Measurable.prodMk (Measurable.prodMk ?_ ?_) ?_
    · exact h.seen_past mask ht (by omega)
    · exact h.state_past ht le_rfl
    · exact h.state_past ht (by omega)
  have c2 := c1'.extend hW hiF (φ := fun q => φ (q.1.2, q.2)) (by fun_prop)
  have hfm := hf.measf
  have hr := measurable_restrictH (m := m) (show t < T by omega)
  refine c2.coarsen (φ := fun q => (joinH T t q.1.1 q.2, q.1.2)) ?_ ?_ ?_ ?_
  · refine Measurable.prodMk ?_ (by fun_prop)
    exact (measurable_joinH T t).comp
      (Measurable.prodMk (measurable_fst.comp measurable_fst) measurable_snd)
  · have h1 : Measurable fun y : (Fin T → Vec m) × Vec n =>
      P.filtM mask t (restrictH (by omega) y.1) := hfm.comp (hr.comp measurable_fst)
    fun_prop
  · intro y
    simp only [restrictH_joinH, PFun.smoothG]
    rw [mulVec_sub]
    abel
  · intro ω
    simp only [← hφe, ← joinH_seen]

theorem zOf_restrictH (mask : MaskPat m) {T t : ℕ} (h : t < T) (y : Fin T → Vec m) {i : ℕ}
    (hi : i ≤ t) : (zOf mask y i).Sim (zOf mask (restrictH h y) i) := by
  refine ⟨Iff.rfl, fun _ => ?_⟩
  simp only [zOf, show i < T by omega, show i < t + 1 by omega, dif_pos, restrictH]

/-- Smoothed mean as a function of all observations. -/
noncomputable def PFun.smoothM (P : PFun n m) (mask : MaskPat m) (T t : ℕ) (y : Fin T → Vec m) :
    Vec n := (P.ks (zOf mask y) (T - 1) t).mean

/-- Smoothed covariance. -/
noncomputable def PFun.smoothC (P : PFun n m) (mask : MaskPat m) (T t : ℕ) : Mat n n :=
  (P.ks (zNil mask) (T - 1) t).cov

theorem PFun.filtM_restrict (P : PFun n m) (mask : MaskPat m) {T t : ℕ} (h : t < T)
    (y : Fin T → Vec m) :
    (P.kf (zOf mask y) t).filtMean = P.filtM mask t (restrictH h y) := by
  rw [PFun.filtM, P.kf_congr fun i hi => zOf_restrictH mask h y hi]

theorem PFun.smoothM_lt (P : PFun n m) (mask : MaskPat m) {T t : ℕ} (h : t + 1 < T)
    (y : Fin T → Vec m) :
    P.smoothM mask T t y = (P.filtM mask t (restrictH (by omega) y) - P.smoothG mask t *ᵥ
        (P.A t *ᵥ P.filtM mask t (restrictH (by omega) y) + P.b t))
        + P.smoothG mask t *ᵥ P.smoothM mask T (t + 1) y := by
  rw [PFun.smoothM, P.ks_lt' _ (by omega)]
  simp only [P.filtM_restrict mask (show t < T by omega), P.filtCov_zOf, PFun.smoothM,
    PFun.smoothG]
  rw [mulVec_sub]
  abel

theorem PFun.PSD.smoothC_lt {P : PFun n m} {T t : ℕ} (hP : P.PSD T) (mask : MaskPat m)
    (h : t + 1 < T) :
    P.smoothC mask T t = P.smoothG mask t * P.smoothC mask T (t + 1) * (P.smoothG mask t)ᵀ
      + (P.filtC mask t - P.smoothG mask t * P.A t * P.filtC mask t) := by
  have hP' : P.PSD (T - 1 + 1) := by rwa [Nat.sub_add_cancel (by omega)]
  have e := hP'.ks_cov_eq (show t < T - 1 by omega) (zNil mask)
  rw [P.ks_lt' (t := t) (T := T - 1) (zNil mask) (by omega)] at e
  rw [PFun.smoothC, P.ks_lt' (t := t) (T := T - 1) (zNil mask) (by omega)]
  exact e

theorem PFun.smoothM_last (P : PFun n m) (mask : MaskPat m) (t : ℕ) (y : Fin (t + 1) → Vec m) :
    P.smoothM mask (t + 1) t y = P.filtM mask t y := by
  simp only [PFun.smoothM, Nat.add_sub_cancel, P.ks_last, PFun.filtM]

theorem PFun.smoothC_last (P : PFun n m) (mask : MaskPat m) (t : ℕ) :
    P.smoothC mask (t + 1) t = P.filtC mask t := by
  simp only [PFun.smoothC, Nat.add_sub_cancel, P.ks_last, PFun.filtC]

theorem LG.smooth (h : LG μ P T X Z noise) (hP : P.PSD T) (mask : MaskPat m) {t : ℕ}
    (ht : t < T) :
    CondGauss μ (X t) (seen mask Z T) (P.smoothM mask T t) (P.smoothC mask T t) := by
  obtain ⟨j, hj⟩ : ∃ j, T = t + 1 + j := ⟨T - (t + 1), by omega⟩
  induction j generalizing t with
  | zero =>
    rw [Nat.add_zero] at hj
    subst hj
    rw [P.smoothC_last, show P.smoothM mask (t + 1) t = P.filtM mask t from
      funext (P.smoothM_last mask t)]
    exact h.filt hP mask ht
  | succ j ih =>
    have ht1 : t + 1 < T := by omega
    have h1 := ih ht1 (by omega)
    have hr := measurable_restrictH (m := m) ht
    have hfm := (h.filt hP mask ht).measf
    have hg : Measurable fun y : Fin T → Vec m =>
        P.filtM mask t (restrictH ht y) - P.smoothG mask t *ᵥ
          (P.A t *ᵥ P.filtM mask t (restrictH ht y) + P.b t) := by
      have h1 : Measurable fun y : Fin T → Vec m => P.filtM mask t (restrictH ht y) := hfm.comp hr
      fun_prop
    have := h1.smooth hg (h.back hP mask ht1)
    rw [← hP.smoothC_lt mask ht1] at this
    rw [show P.smoothM mask T t = _ from funext (P.smoothM_lt mask ht1)]
    exact this

theorem LG.smoothPair (h : LG μ P T X Z noise) (hP : P.PSD T) (mask : MaskPat m) {t : ℕ}
    (ht1 : t + 1 < T) :
    CondGauss μ (fun ω => Sum.elim (X (t + 1) ω) (X t ω)) (seen mask Z T)
      (fun y => Sum.elim (P.smoothM mask T (t + 1) y) (P.smoothM mask T t y))
      (fromBlocks (P.smoothC mask T (t + 1)) (P.smoothC mask T (t + 1) * (P.smoothG mask t)ᵀ)
        (P.smoothC mask T (t + 1) * (P.smoothG mask t)ᵀ)ᵀ (P.smoothC mask T t)) := by
  have ht : t < T := by omega
  have h1 := h.smooth hP mask ht1
  have hr := measurable_restrictH (m := m) ht
  have hfm := (h.filt hP mask ht).measf
  have hg : Measurable fun y : Fin T → Vec m =>
      P.filtM mask t (restrictH ht y) - P.smoothG mask t *ᵥ
        (P.A t *ᵥ P.filtM mask t (restrictH ht y) + P.b t) := by
    have h1 : Measurable fun y : Fin T → Vec m => P.filtM mask t (restrictH ht y) := hfm.comp hr
    fun_prop
  have := h1.pair hg (h.back hP mask ht1)
  rw [← hP.smoothC_lt mask ht1] at this
  rw [show P.smoothM mask T t = _ from funext (P.smoothM_lt mask ht1), transpose_mul,
    transpose_transpose, symm_of_posSemidef h1.psd]
  exact this

end Verif
