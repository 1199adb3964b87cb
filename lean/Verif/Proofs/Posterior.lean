import Verif.Proofs.CondGauss
import Verif.Proofs.Causal
import Verif.Spec.Process
import Mathlib.MeasureTheory.Function.FactorsThrough

/-!
# The recursions of the filter and the smoother compute conditional laws
-/

open MeasureTheory ProbabilityTheory Matrix

namespace Verif

variable {n m : ℕ} {Ω : Type*}

/-- `IsLinGauss` with parameters as functions of time. -/
structure LG [MeasurableSpace Ω] (μ : Measure Ω) (P : PFun n m) (T : ℕ)
    (X : ℕ → Ω → Vec n) (Z : ℕ → Ω → Vec m)
    (noise : (i : Noise) → Ω → Vec (i.dim n m)) : Prop where
  meas : ∀ i, Measurable (noise i)
  indep : iIndepFun noise μ
  init_law : μ.map (noise .init) = gauss P.mu0 P.S0
  trans_law : ∀ t, t + 1 < T → μ.map (noise (.trans t)) = gauss 0 (P.Q t)
  obs_law : ∀ t, t < T → μ.map (noise (.obs t)) = gauss 0 (P.R t)
  init_eq : ∀ ω, X 0 ω = noise .init ω
  trans_eq : ∀ t, t + 1 < T → ∀ ω, X (t + 1) ω = P.A t *ᵥ X t ω + P.b t + noise (.trans t) ω
  obs_eq : ∀ t, t < T → ∀ ω, Z t ω = P.C t *ᵥ X t ω + P.d t + noise (.obs t) ω

section Meas

/-- The σ-algebra on `Ω` is arbitrary here. -/
theorem state_meas [MeasurableSpace Ω] {P : PFun n m} {T : ℕ} {X : ℕ → Ω → Vec n}
    {noise : (i : Noise) → Ω → Vec (i.dim n m)}
    (heq : ∀ t, t + 1 < T → ∀ ω, X (t + 1) ω = P.A t *ᵥ X t ω + P.b t + noise (.trans t) ω)
    {t₀ : ℕ} (h0 : Measurable (X t₀)) {t₁ : ℕ} (ht₁ : t₁ < T)
    (hW : ∀ s, t₀ ≤ s → s < t₁ → Measurable (noise (.trans s))) :
    ∀ t, t₀ ≤ t → t ≤ t₁ → Measurable (X t) := by
  intro t ht
  induction t, ht using Nat.le_induction with
  | base => exact fun _ => h0
  | succ t ht ih =>
    intro ht'
    have h1 := ih (by omega)
    have h2 : Measurable (fun ω => (noise (.trans t) ω : Vec n)) := hW t ht (by omega)
    have : X (t + 1) = fun ω => P.A t *ᵥ X t ω + P.b t + noise (.trans t) ω :=
      funext (heq t (by omega))
    rw [this]
    fun_prop

theorem obs_meas [MeasurableSpace Ω] {P : PFun n m} {T : ℕ} {X : ℕ → Ω → Vec n}
    {Z : ℕ → Ω → Vec m} {noise : (i : Noise) → Ω → Vec (i.dim n m)}
    (heq : ∀ t, t < T → ∀ ω, Z t ω = P.C t *ᵥ X t ω + P.d t + noise (.obs t) ω)
    {t : ℕ} (ht : t < T) (hX : Measurable (X t)) (hV : Measurable (noise (.obs t))) :
    Measurable (Z t) := by
  have h2 : Measurable (fun ω => (noise (.obs t) ω : Vec m)) := hV
  have : Z t = fun ω => P.C t *ᵥ X t ω + P.d t + noise (.obs t) ω := funext (heq t ht)
  rw [this]
  fun_prop

theorem seen_meas [MeasurableSpace Ω] {mask : MaskPat m} {Z : ℕ → Ω → Vec m} {k : ℕ}
    (h : ∀ t, t < k → Measurable (Z t)) : Measurable (seen mask Z k) := by
  rw [measurable_pi_iff]
  intro i
  by_cases hm : mask.rowMissing i
  · simp only [seen, hm, if_true]; fun_prop
  · simp only [seen, hm, if_false]; exact h i i.2

end Meas

variable [mΩ : MeasurableSpace Ω] {μ : Measure Ω} [IsProbabilityMeasure μ] {P : PFun n m} {T : ℕ}
  {X : ℕ → Ω → Vec n} {Z : ℕ → Ω → Vec m} {noise : (i : Noise) → Ω → Vec (i.dim n m)}

/-- The σ-algebra generated by a set of noises. -/
def sig (noise : (i : Noise) → Ω → Vec (i.dim n m)) (S : Set Noise) : MeasurableSpace Ω :=
  ⨆ i ∈ S, MeasurableSpace.comap (noise i) inferInstance

theorem meas_sig {S : Set Noise} {i : Noise} (hi : i ∈ S) : Measurable[sig noise S] (noise i) := by
  have : MeasurableSpace.comap (noise i) inferInstance ≤ sig noise S := le_biSup
    (f := fun i => MeasurableSpace.comap (noise i) inferInstance) hi
  exact (comap_measurable (noise i)).mono this le_rfl

theorem LG.indep_sets (h : LG μ P T X Z noise) {S S' : Set Noise} (hS : Disjoint S S')
    {H H' : Type*} [MeasurableSpace H] [MeasurableSpace H'] {U : Ω → H} {V : Ω → H'}
    (hU : Measurable[sig noise S] U) (hV : Measurable[sig noise S'] V) : IndepFun U V μ := by
  have := indep_iSup_of_disjoint (fun i => (h.meas i).comap_le) h.indep hS
  rw [IndepFun_iff_Indep]
  exact indep_of_indep_of_le_left (indep_of_indep_of_le_right this hV.comap_le) hU.comap_le

/-- The noises up to (not including) transition `t` and observation `k`. -/
def past (t k : ℕ) : Set Noise := fun i =>
  match i with
  | .init => True
  | .trans s => s < t
  | .obs s => s < k

theorem LG.state_past (h : LG μ P T X Z noise) {t k : ℕ} (ht : t < T) {s : ℕ} (hs : s ≤ t) :
    Measurable[sig noise (past t k)] (X s) := by
  have h0 : X 0 = noise .init := funext h.init_eq
  refine @state_meas n m Ω (sig noise (past t k)) P T X noise h.trans_eq 0 ?_ t ht ?_ s
    (Nat.zero_le _) hs
  · rw [h0]; exact meas_sig (i := Noise.init) trivial
  · intro s _ hs; exact meas_sig (i := Noise.trans s) hs

theorem LG.obs_past (h : LG μ P T X Z noise) {t k : ℕ} (ht : t < T) {s : ℕ} (hs : s ≤ t)
    (hk : s < k) : Measurable[sig noise (past t k)] (Z s) :=
  @obs_meas n m Ω (sig noise (past t k)) P T X Z noise h.obs_eq s (by omega) (h.state_past ht hs)
    (meas_sig (i := Noise.obs s) hk)

theorem LG.seen_past (h : LG μ P T X Z noise) (mask : MaskPat m) {t k : ℕ} (ht : t < T)
    (hk : k ≤ t + 1) : Measurable[sig noise (past t k)] (seen mask Z k) :=
  @seen_meas m Ω (sig noise (past t k)) mask Z k fun s hs => h.obs_past ht (by omega) hs

theorem LG.measX (h : LG μ P T X Z noise) {t : ℕ} (ht : t < T) : Measurable (X t) := by
  refine state_meas h.trans_eq (t₀ := 0) ?_ ht (fun s _ _ => h.meas _) t (Nat.zero_le _) le_rfl
  rw [show X 0 = noise .init from funext h.init_eq]; exact h.meas .init

theorem LG.measZ (h : LG μ P T X Z noise) {t : ℕ} (ht : t < T) : Measurable (Z t) :=
  obs_meas h.obs_eq ht (h.measX ht) (h.meas _)

/-! ### Functions of the observed history -/

/-- Observations made of a history `y` and the mask. -/
def zOf (mask : MaskPat m) {k : ℕ} (y : Fin k → Vec m) (i : ℕ) : Obs m :=
  ⟨if h : i < k then y ⟨i, h⟩ else 0, mask i⟩

/-- Observations with the given mask and values 0. -/
def zNil (mask : MaskPat m) (i : ℕ) : Obs m := ⟨0, mask i⟩

theorem missing_zOf (mask : MaskPat m) {k : ℕ} (y : Fin k → Vec m) (i : ℕ) :
    (zOf mask y i).missing ↔ mask.rowMissing i := Iff.rfl

theorem measurable_snoc {k : ℕ} {α : Type*} [MeasurableSpace α] {H : Type*} [MeasurableSpace H]
    {f : H → Fin k → α} {g : H → α} (hf : Measurable f) (hg : Measurable g) :
    Measurable (fun x => (Fin.snoc (f x) (g x) : Fin (k + 1) → α)) := by
  rw [measurable_pi_iff]
  intro i
  refine Fin.lastCases ?_ (fun j => ?_) i
  · simpa using hg
  · simp only [Fin.snoc_castSucc]; exact (measurable_pi_apply j).comp hf

theorem measurable_init {k : ℕ} {α : Type*} [MeasurableSpace α] :
    Measurable (fun y : Fin (k + 1) → α => (fun i => y i.castSucc : Fin k → α)) := by
  rw [measurable_pi_iff]
  intro i
  exact measurable_pi_apply _

theorem seen_succ (mask : MaskPat m) (Z : ℕ → Ω → Vec m) (k : ℕ) (ω : Ω) :
    seen mask Z (k + 1) ω
      = Fin.snoc (seen mask Z k ω) (if mask.rowMissing k then 0 else Z k ω) := by
  funext i
  refine Fin.lastCases ?_ (fun j => ?_) i
  · simp [seen]
  · simp [seen]

theorem zOf_snoc_sim (mask : MaskPat m) {k : ℕ} (y : Fin k → Vec m) (a : Vec m) {i : ℕ}
    (hi : i < k) : (zOf mask (Fin.snoc y a : Fin (k + 1) → Vec m) i).Sim (zOf mask y i) := by
  refine ⟨Iff.rfl, fun _ => ?_⟩
  simp only [zOf, hi, Nat.lt_succ_of_lt hi, dif_pos]
  have : (⟨i, Nat.lt_succ_of_lt hi⟩ : Fin (k + 1)) = Fin.castSucc ⟨i, hi⟩ := rfl
  rw [this, Fin.snoc_castSucc]

theorem zOf_snoc_last (mask : MaskPat m) {k : ℕ} (y : Fin k → Vec m) (a : Vec m) :
    zOf mask (Fin.snoc y a : Fin (k + 1) → Vec m) k = ⟨a, mask k⟩ := by
  simp only [zOf, Nat.lt_succ_self, dif_pos]
  have : (⟨k, Nat.lt_succ_self k⟩ : Fin (k + 1)) = Fin.last k := rfl
  rw [this, Fin.snoc_last]

theorem zOf_init_sim (mask : MaskPat m) {k : ℕ} (y : Fin (k + 1) → Vec m) {i : ℕ}
    (hi : i < k) : (zOf mask y i).Sim (zOf mask (fun j => y (Fin.castSucc j)) i) := by
  refine ⟨Iff.rfl, fun _ => ?_⟩
  simp only [zOf, hi, Nat.lt_succ_of_lt hi, dif_pos]
  rfl

/-- Predicted mean as a function of the history. -/
noncomputable def PFun.predM (P : PFun n m) (mask : MaskPat m) (t : ℕ) (y : Fin t → Vec m) :
    Vec n := (P.kf (zOf mask y) t).predMean

/-- Filtered mean as a function of the history. -/
noncomputable def PFun.filtM (P : PFun n m) (mask : MaskPat m) (t : ℕ) (y : Fin (t + 1) → Vec m) :
    Vec n := (P.kf (zOf mask y) t).filtMean

/-- Predicted covariance. -/
noncomputable def PFun.predC (P : PFun n m) (mask : MaskPat m) (t : ℕ) : Mat n n :=
  (P.kf (zNil mask) t).predCov

/-- Filtered covariance. -/
noncomputable def PFun.filtC (P : PFun n m) (mask : MaskPat m) (t : ℕ) : Mat n n :=
  (P.kf (zNil mask) t).filtCov

theorem PFun.predCov_zOf (P : PFun n m) (mask : MaskPat m) {k : ℕ} (y : Fin k → Vec m) (t : ℕ) :
    (P.kf (zOf mask y) t).predCov = P.predC mask t :=
  (P.kf_cov_congr (z := zOf mask y) (z' := zNil mask) fun _ _ => Iff.rfl).1

theorem PFun.filtCov_zOf (P : PFun n m) (mask : MaskPat m) {k : ℕ} (y : Fin k → Vec m) (t : ℕ) :
    (P.kf (zOf mask y) t).filtCov = P.filtC mask t :=
  (P.kf_cov_congr (z := zOf mask y) (z' := zNil mask) fun _ _ => Iff.rfl).2.2

theorem PFun.filtM_missing (P : PFun n m) {mask : MaskPat m} {t : ℕ} (hm : mask.rowMissing t)
    (y : Fin (t + 1) → Vec m) :
    P.filtM mask t y = P.predM mask t (fun i => y i.castSucc) := by
  rw [PFun.filtM, (P.kf_missing (zOf mask y) (t := t) hm).2.1, PFun.predM]
  exact (P.kf_pred_congr fun i hi => zOf_init_sim mask y hi).1

theorem PFun.filtM_observed (P : PFun n m) {mask : MaskPat m} {t : ℕ}
    (hm : ¬ mask.rowMissing t) (y : Fin (t + 1) → Vec m) :
    P.filtM mask t y = P.predM mask t (fun i => y i.castSucc)
      + Verif.gain (P.predC mask t) (P.R t) (P.C t) *ᵥ (y (Fin.last t)
        - (P.C t *ᵥ P.predM mask t (fun i => y i.castSucc) + P.d t)) := by
  have e := (P.kf_pred_congr (t := t) fun i hi => zOf_init_sim mask y hi).1
  rw [PFun.filtM, (P.kf_observed (zOf mask y) (t := t) hm).2.1, PFun.predM, P.predCov_zOf, e]
  simp only [zOf, Nat.lt_succ_self, dif_pos]
  rfl

theorem PFun.filtC_missing (P : PFun n m) {mask : MaskPat m} {t : ℕ} (hm : mask.rowMissing t) :
    P.filtC mask t = P.predC mask t := (P.kf_missing (zNil mask) (t := t) hm).2.2

theorem PFun.filtC_observed (P : PFun n m) {mask : MaskPat m} {t : ℕ}
    (hm : ¬ mask.rowMissing t) :
    P.filtC mask t = P.predC mask t
      - Verif.gain (P.predC mask t) (P.R t) (P.C t) * P.C t * P.predC mask t :=
  (P.kf_observed (zNil mask) (t := t) hm).2.2

theorem PFun.predM_succ (P : PFun n m) (mask : MaskPat m) (t : ℕ) (y : Fin (t + 1) → Vec m) :
    P.predM mask (t + 1) y = P.A t *ᵥ P.filtM mask t y + P.b t := rfl

theorem PFun.predC_succ (P : PFun n m) (mask : MaskPat m) (t : ℕ) :
    P.predC mask (t + 1) = P.A t * P.filtC mask t * (P.A t)ᵀ + P.Q t :=
  (P.kf_pred_succ (zNil mask) t).2

/-- One filtering step. -/
theorem LG.filt_of_pred (h : LG μ P T X Z noise) (hP : P.PSD T) (mask : MaskPat m) {t : ℕ}
    (ht : t < T)
    (ih : CondGauss μ (X t) (seen mask Z t) (P.predM mask t) (P.predC mask t)) :
    CondGauss μ (X t) (seen mask Z (t + 1)) (P.filtM mask t) (P.filtC mask t) := by
  by_cases hm : mask.rowMissing t
  · rw [P.filtC_missing hm]
    have hf : P.filtM mask t = fun y => P.predM mask t (fun i => y i.castSucc) :=
      funext (P.filtM_missing hm)
    have hmeas := ih.measf
    refine ih.coarsen (φ := fun y => Fin.snoc y 0)
      (measurable_snoc (f := fun y => y) (g := fun _ => 0) measurable_id measurable_const) ?_ ?_ ?_
    · rw [hf]; exact hmeas.comp measurable_init
    · intro y; rw [hf]; simp
    · intro ω; rw [seen_succ, if_pos hm]
  · rw [P.filtC_observed hm]
    have hi : IndepFun (fun ω => (seen mask Z t ω, X t ω)) (noise (.obs t)) μ :=
      h.indep_sets (S := past t t) (S' := {Noise.obs t})
        (by rw [Set.disjoint_singleton_right]; exact lt_irrefl t)
        (Measurable.prodMk (h.seen_past mask ht (by omega)) (h.state_past ht le_rfl))
        (meas_sig (Set.mem_singleton _))
    have := ih.correct (h.meas (.obs t)) hi (hP.R t ht) (h.obs_law t ht) (P.C t) (P.d t)
    have hf : P.filtM mask t = fun y => P.predM mask t (fun i => y i.castSucc)
      + Verif.gain (P.predC mask t) (P.R t) (P.C t) *ᵥ (y (Fin.last t)
        - (P.C t *ᵥ P.predM mask t (fun i => y i.castSucc) + P.d t)) :=
      funext (P.filtM_observed hm)
    have hmeas := ih.measf.comp measurable_init
    refine this.coarsen (φ := fun y => Fin.snoc y.1 y.2)
      (measurable_snoc (f := Prod.fst) (g := Prod.snd) measurable_fst measurable_snd) ?_ ?_ ?_
    · rw [hf]
      have h1 : Measurable fun y : Fin (t + 1) → Vec m =>
        P.predM mask t (fun i => y i.castSucc) := hmeas
      fun_prop
    · intro y; rw [hf]; simp
    · intro ω; rw [seen_succ, if_neg hm, h.obs_eq t ht]

/-- One prediction step. -/
theorem LG.pred_of_filt (h : LG μ P T X Z noise) (hP : P.PSD T) (mask : MaskPat m) {t : ℕ}
    (ht : t + 1 < T)
    (ih : CondGauss μ (X t) (seen mask Z (t + 1)) (P.filtM mask t) (P.filtC mask t)) :
    CondGauss μ (X (t + 1)) (seen mask Z (t + 1)) (P.predM mask (t + 1)) (P.predC mask (t + 1)) := by
  rw [P.predC_succ]
  have hi : IndepFun (fun ω => (seen mask Z (t + 1) ω, X t ω)) (noise (.trans t)) μ :=
    h.indep_sets (S := past t (t + 1)) (S' := {Noise.trans t})
      (by rw [Set.disjoint_singleton_right]; exact lt_irrefl t)
      (Measurable.prodMk (h.seen_past mask (by omega) (by omega))
        (h.state_past (by omega) le_rfl))
      (meas_sig (Set.mem_singleton _))
  have := ih.predict (h.meas (.trans t)) hi (hP.Q t ht) (h.trans_law t ht) (P.A t) (P.b t)
  have e : X (t + 1) = fun ω => P.A t *ᵥ X t ω + P.b t + noise (.trans t) ω :=
    funext (h.trans_eq t ht)
  rw [e]
  exact this

theorem LG.pred (h : LG μ P T X Z noise) (hP : P.PSD T) (mask : MaskPat m) {t : ℕ} (ht : t < T) :
    CondGauss μ (X t) (seen mask Z t) (P.predM mask t) (P.predC mask t) := by
  induction t with
  | zero =>
    refine CondGauss.init (h.measX ht) (y₀ := fun i => i.elim0) (fun ω => Subsingleton.elim _ _)
      hP.S0 ?_
    rw [show X 0 = noise .init from funext h.init_eq]
    exact h.init_law
  | succ t ih => exact h.pred_of_filt hP mask ht (h.filt_of_pred hP mask (by omega) (ih (by omega)))

theorem LG.filt (h : LG μ P T X Z noise) (hP : P.PSD T) (mask : MaskPat m) {t : ℕ} (ht : t < T) :
    CondGauss μ (X t) (seen mask Z (t + 1)) (P.filtM mask t) (P.filtC mask t) :=
  h.filt_of_pred hP mask ht (h.pred hP mask ht)

end Verif
