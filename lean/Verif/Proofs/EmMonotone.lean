import Verif.Proofs.EmAscent
import Verif.Proofs.Process
import Verif.Proofs.Smoothing
import Verif.Spec.Runs

/-!
# Random states with the smoothed moments, and the ascent of the M-step
-/

open MeasureTheory ProbabilityTheory Matrix

namespace Verif

variable {n m : ℕ}

/-- The error of the conditional mean is centred Gaussian. -/
theorem CondGauss.residual {Ω H : Type*} [MeasurableSpace Ω] [MeasurableSpace H] {μ : Measure Ω}
    [IsProbabilityMeasure μ] {ι : Type*} [Fintype ι] [DecidableEq ι] {X : Ω → ι → ℝ} {Y : Ω → H}
    {f : H → ι → ℝ} {S : Matrix ι ι ℝ} (h : CondGauss μ X Y f S) :
    HasMoments μ (fun ω => X ω - f (Y ω)) 0 S := by
  have hX := h.measX
  have hY := h.measY
  have hf := h.measf
  haveI : IsProbabilityMeasure (μ.map Y) := Measure.isProbabilityMeasure_map hY.aemeasurable
  refine HasMoments.of_map (by fun_prop) ?_ h.psd
  have e := congrArg (fun ν => ν.map fun q : H × (ι → ℝ) => q.2 - f q.1) h.law
  rw [Measure.map_map (by fun_prop) (by fun_prop), Measure.map_map (by fun_prop) (by fun_prop)]
    at e
  refine Eq.trans e ?_
  have e2 : ((fun q : H × (ι → ℝ) => q.2 - f q.1) ∘ fun p => (p.1, f p.1 + p.2)) = Prod.snd := by
    funext p
    simp
  rw [e2, Measure.map_snd_prod]
  simp

/-- For any data, random states with the smoothed moments exist. -/
theorem exists_statsMoments {p : Params n m} {T : ℕ} (hc : p.Covers (T + 1))
    (hP : p.fn.PSD (T + 1)) (z : ℕ → Obs m) :
    ∃ (Ω : Type) (_ : MeasurableSpace Ω) (ν : Measure Ω) (_ : IsProbabilityMeasure ν)
      (X : ℕ → Ω → Vec n), StatsMoments ν X (p.fn.stats z T) T := by
  obtain ⟨Ω, i1, μ, i2, X, Z, noise, hp⟩ := exists_isLinGauss p (T + 1)
  have h := hp.lg hc
  set mask : MaskPat m := fun t => (z t).mask with hmask
  set M := fun t ω => p.fn.smoothM mask (T + 1) t (seen mask Z (T + 1) ω) with hM
  refine ⟨Ω, i1, μ, i2, fun t ω => (X t ω - M t ω) + (p.fn.stats z T t).mean, ?_, ?_⟩
  · intro t ht
    have h1 := ((h.smooth hP mask (t := t) (by omega)).residual).add_const (p.fn.stats z T t).mean
    rw [zero_add] at h1
    have e : p.fn.smoothC mask (T + 1) t = (p.fn.stats z T t).cov :=
      (p.fn.ks_cov_congr (z := zNil mask) (z' := z) (fun _ _ => Iff.rfl) ht).1
    rw [e] at h1
    exact h1
  · intro t ht
    have h1 := ((h.smoothPair hP mask (t := t) (by omega)).residual).add_const
      (Sum.elim (p.fn.stats z T (t + 1)).mean (p.fn.stats z T t).mean)
    rw [zero_add] at h1
    have e : p.fn.smoothC mask (T + 1) t = (p.fn.stats z T t).cov :=
      (p.fn.ks_cov_congr (z := zNil mask) (z' := z) (fun _ _ => Iff.rfl) (by omega)).1
    have e1 : p.fn.smoothC mask (T + 1) (t + 1) = (p.fn.stats z T (t + 1)).cov :=
      (p.fn.ks_cov_congr (z := zNil mask) (z' := z) (fun _ _ => Iff.rfl) (by omega)).1
    have e2 : p.fn.smoothG mask t = (p.fn.ks z T t).gain := by
      rw [p.fn.ks_lt' z ht, PFun.smoothG, PFun.filtC]
      rw [(p.fn.kf_cov_congr (z := zNil mask) (z' := z) fun _ _ => Iff.rfl).2.2]
    have e3 : p.fn.smoothC mask (T + 1) (t + 1) * (p.fn.smoothG mask t)ᵀ
        = (p.fn.stats z T (t + 1)).pair := by
      rw [e1, e2]
      simp [PFun.stats]
    rw [e3, e1, e] at h1
    convert h1 using 2 with ω
    funext i
    rcases i with i | i <;> simp [hM]

/-! ### Ascent of the M-step -/

theorem TV.get_of_eq_const {α : Type} [Inhabited α] {p : TV α} {a : α} (h : p = .const a) :
    p.get = fun _ => a := by
  rw [h]; rfl

theorem em_ascent {p p' : Params n m} {vars : EmVar → Bool} {f : ℕ → EmStats n} {g : ℕ → Obs m}
    {T : ℕ} (h : EmEqs p vars p f g T p') (hf : PairPSD f T) (hf' : ∀ t ≤ T, (f t).cov.PosSemidef)
    (hc : p.EmInvariant vars) (hp : p.fn.PD (T + 1)) (hp' : p'.fn.PD (T + 1)) :
    eJoint f g T p.fn ≤ eJoint f g T p'.fn := by
  have hf'' : ∀ t < T + 1, (f t).cov.PosSemidef := fun t ht => hf' t (by omega)
  have hR0 : (p.fn.R 0).PosDef := hp.R 0 (by omega)
  have hR0' : (p'.fn.R 0).PosDef := hp'.R 0 (by omega)
  -- initial state
  have hI : expLogN p.S0 (initTerm f p.mu0) ≤ expLogN p'.S0 (initTerm f p'.mu0) := by
    have h1 : expLogN p.S0 (initTerm f p.mu0) ≤ expLogN p.S0 (initTerm f p'.mu0) := by
      have e := h.mu0
      split at e
      · rw [e]; exact eInit_mu0 hp.S0 _
      · rw [e]
    have h2 : expLogN p.S0 (initTerm f p'.mu0) ≤ expLogN p'.S0 (initTerm f p'.mu0) := by
      have e := h.S0
      split at e
      · have hd : (initTerm f p'.mu0).PosDef := by
          have := hp'.S0
          rw [show p'.fn.S0 = p'.S0 from rfl, e] at this
          exact this
        rw [e]
        exact eInit_S0 p'.mu0 hd hp.S0
      · rw [e]
    exact h1.trans h2
  -- observations
  have hO : eObs f g p.C.get p.d.get p.R.get (T + 1)
      ≤ eObs f g p'.C.get p'.d.get p'.R.get (T + 1) := by
    have h1 : eObs f g p.C.get p.d.get p.R.get (T + 1)
        ≤ eObs f g p'.C.get p.d.get p.R.get (T + 1) := by
      have e := h.C
      split at e
      · next hv =>
        obtain ⟨C, eC⟩ := hc.C hv
        obtain ⟨R, eR⟩ := hc.R (Or.inl hv)
        rw [TV.get_of_eq_const e, TV.get_of_eq_const eC, TV.get_of_eq_const eR]
        rw [show p.fn.R 0 = p.R.get 0 from rfl, TV.get_of_eq_const eR] at hR0
        exact eObs_newC (g := g) hf'' _ hR0 C
      · rw [e]
    have h2 : eObs f g p'.C.get p.d.get p.R.get (T + 1)
        ≤ eObs f g p'.C.get p.d.get p'.R.get (T + 1) := by
      have e := h.R
      split at e
      · next hv =>
        obtain ⟨R, eR⟩ := hc.R (Or.inr (Or.inr hv))
        rw [show p.fn.R 0 = p.R.get 0 from rfl, TV.get_of_eq_const eR] at hR0
        rw [show p'.fn.R 0 = p'.R.get 0 from rfl, TV.get_of_eq_const e] at hR0'
        rw [TV.get_of_eq_const e, TV.get_of_eq_const eR]
        exact eObs_newR (g := g) _ _ hR0' hR0
      · rw [e]
    have h3 : eObs f g p'.C.get p.d.get p'.R.get (T + 1)
        ≤ eObs f g p'.C.get p'.d.get p'.R.get (T + 1) := by
      have e := h.d
      split at e
      · next hv =>
        obtain ⟨d, ed⟩ := hc.d hv
        obtain ⟨R, eR⟩ := hc.R (Or.inr (Or.inl hv))
        obtain ⟨R', eR'⟩ : p'.R.IsConst := by
          have e := h.R
          split at e
          · exact ⟨_, e⟩
          · exact ⟨R, e.trans eR⟩
        rw [show p'.fn.R 0 = p'.R.get 0 from rfl, TV.get_of_eq_const eR'] at hR0'
        rw [TV.get_of_eq_const e, TV.get_of_eq_const ed, TV.get_of_eq_const eR']
        exact eObs_newd (g := g) _ hR0' d
      · rw [e]
    exact h1.trans (h2.trans h3)
  -- transitions
  have hTr : eTrans f p.A.get p.b.get p.Q.get T ≤ eTrans f p'.A.get p'.b.get p'.Q.get T := by
    rcases Nat.eq_zero_or_pos T with rfl | hT
    · simp [eTrans]
    have hQ0 : (p.fn.Q 0).PosDef := hp.Q 0 (by omega)
    have hQ0' : (p'.fn.Q 0).PosDef := hp'.Q 0 (by omega)
    have h1 : eTrans f p.A.get p.b.get p.Q.get T ≤ eTrans f p'.A.get p.b.get p.Q.get T := by
      have e := h.A
      split at e
      · next hv =>
        obtain ⟨A, eA⟩ := hc.A hv
        obtain ⟨Q, eQ⟩ := hc.Q (Or.inl hv)
        rw [TV.get_of_eq_const e, TV.get_of_eq_const eA, TV.get_of_eq_const eQ]
        rw [show p.fn.Q 0 = p.Q.get 0 from rfl, TV.get_of_eq_const eQ] at hQ0
        exact eTrans_newA hf _ hQ0 A
      · rw [e]
    have h2 : eTrans f p'.A.get p.b.get p.Q.get T ≤ eTrans f p'.A.get p.b.get p'.Q.get T := by
      have e := h.Q
      split at e
      · next hv =>
        obtain ⟨Q, eQ⟩ := hc.Q (Or.inr (Or.inr hv))
        rw [show p.fn.Q 0 = p.Q.get 0 from rfl, TV.get_of_eq_const eQ] at hQ0
        rw [show p'.fn.Q 0 = p'.Q.get 0 from rfl, TV.get_of_eq_const e] at hQ0'
        rw [TV.get_of_eq_const e, TV.get_of_eq_const eQ]
        exact eTrans_newQ _ _ hQ0' hQ0
      · rw [e]
    have h3 : eTrans f p'.A.get p.b.get p'.Q.get T ≤ eTrans f p'.A.get p'.b.get p'.Q.get T := by
      have e := h.b
      split at e
      · next hv =>
        obtain ⟨b, eb⟩ := hc.b hv
        obtain ⟨Q, eQ⟩ := hc.Q (Or.inr (Or.inl hv))
        obtain ⟨Q', eQ'⟩ : p'.Q.IsConst := by
          have e := h.Q
          split at e
          · exact ⟨_, e⟩
          · exact ⟨Q, e.trans eQ⟩
        rw [show p'.fn.Q 0 = p'.Q.get 0 from rfl, TV.get_of_eq_const eQ'] at hQ0'
        rw [TV.get_of_eq_const e, TV.get_of_eq_const eb, TV.get_of_eq_const eQ']
        exact eTrans_newb _ hQ0' b
      · rw [e]
    exact h1.trans (h2.trans h3)
  simp only [eJoint]
  exact add_le_add (add_le_add hI hTr) hO

theorem Params.PD.fn {p : Params n m} {T : ℕ} (h : p.PD T) (hc : p.Covers T) : p.fn.PD T :=
  ⟨fun t ht => h.Q t ht _ (lastDims_eq_ok (hc.Q.mono (show t + 1 ≤ _ by omega))),
   fun t ht => h.R t ht _ (lastDims_eq_ok (hc.R.mono (show t + 1 ≤ _ by omega))), h.S0⟩

/-- What `loglikelihood` returns. -/
theorem kfLoglik_predLL {p : Params n m} {os : List (Obs m)} (hne : os ≠ [])
    (hc : p.Covers os.length) (hp : p.PD os.length) (hR : p.R.IsConst) :
    kfLoglik p os = .ok (p.fn.predLL (obsFn os) (os.length - 1)) := by
  obtain ⟨R, hR⟩ := hR
  have hlen : 0 < os.length := List.length_pos_iff.mpr hne
  have hP := hp.fn hc
  rw [kfLoglik_pure hc hR (ℓ := fun t x c => logN x c
    (p.fn.C t * (p.fn.kf (obsFn os) t).predCov * (p.fn.C t)ᵀ + p.fn.R t))]
  · rw [PFun.predLL, Nat.sub_add_cancel hlen]
    congr 1
    refine Finset.sum_congr rfl fun t _ => ?_
    rw [PFun.lterm]
    by_cases ho : (obsFn os t).missing
    · rw [if_pos ho, Obs.w_missing ho, zero_mul]
    · rw [if_neg ho, Obs.w_observed ho, one_mul]
  · intro t ht _ x c
    obtain ⟨ℓ, h1, -, h2, -⟩ := logMvn_posDef
      (posDef_conj_add (hP.filt (obsFn os) ht).1.posSemidef (hP.R t ht) (p.fn.C t))
    rw [h1, h2, logN]
    congr 1
    ring

/-! ### Positive definiteness is kept -/

theorem PFun.PD.smooth {P : PFun n m} {T : ℕ} (h : P.PD (T + 1)) (z : ℕ → Obs m) {t : ℕ}
    (ht : t ≤ T) : (P.ks z T t).cov.PosDef := by
  rcases Nat.lt_or_eq_of_le ht with ht | rfl
  · rw [h.psd.ks_cov_eq ht z, P.ks_lt' z ht]
    rw [add_comm]
    exact (h.back z (t := t) (by omega)).add_posSemidef
      (posSemidef_conj' (h.psd.smooth (t := t + 1) (by omega) z) _)
  · rw [P.ks_last]
    exact (h.filt z (by omega)).2

theorem posDef_of_ker {k : ℕ} {M : Mat k k} (hM : M.PosSemidef) (h : ∀ x, M *ᵥ x = 0 → x = 0) :
    M.PosDef := by
  refine hM.posDef_iff_isUnit.mpr ?_
  rw [Matrix.isUnit_iff_isUnit_det, isUnit_iff_ne_zero]
  intro hd
  obtain ⟨v, hv, h0⟩ := exists_mulVec_eq_zero_iff.mpr hd
  exact hv (h v h0)

theorem posDef_ker {k : ℕ} {M : Mat k k} (hM : M.PosDef) {x : Vec k} (h : M *ᵥ x = 0) : x = 0 := by
  by_contra hx
  have := hM.dotProduct_mulVec_pos hx
  rw [h, dotProduct_zero] at this
  exact lt_irrefl _ this

theorem PFun.PD.transTerm {P : PFun n m} {T : ℕ} (h : P.PD (T + 1)) (z : ℕ → Obs m)
    (A : ℕ → Mat n n) (b : ℕ → Vec n) {t : ℕ} (ht : t < T) :
    (Verif.transTerm (P.stats z T) A b t).PosDef := by
  have hV := h.smooth z (t := t + 1) (by omega)
  have hU := h.back z (t := t) (by omega)
  have hVt := symm_of_posSemidef hV.posSemidef
  have e0 : (P.stats z T t).cov = (P.ks z T t).gain * (P.ks z T (t + 1)).cov
      * (P.ks z T t).gainᵀ + P.backCov z t := by
    have := h.psd.ks_cov_eq ht z
    simp only [PFun.stats]
    rw [this, PFun.backCov, P.ks_lt' z ht]
  have e1 : (P.stats z T (t + 1)).pair = (P.ks z T (t + 1)).cov * (P.ks z T t).gainᵀ := by
    simp [PFun.stats]
  rw [Verif.transTerm, e0, e1, show (P.stats z T (t + 1)).cov = (P.ks z T (t + 1)).cov from rfl]
  generalize (P.ks z T t).gain = G
  generalize (P.ks z T (t + 1)).cov = V at hV hVt
  generalize P.backCov z t = U at hU
  have e2 : A t * ((G * V * Gᵀ + U) * (A t)ᵀ) + V - V * Gᵀ * (A t)ᵀ - (V * Gᵀ * (A t)ᵀ)ᵀ
      = (1 - A t * G) * V * (1 - A t * G)ᵀ + A t * U * (A t)ᵀ := by
    simp only [transpose_mul, transpose_sub, transpose_one, transpose_transpose, hVt,
      Matrix.mul_sub, Matrix.sub_mul, Matrix.mul_add, Matrix.add_mul, Matrix.one_mul,
      Matrix.mul_one, Matrix.mul_assoc]
    abel
  have hp : ((1 - A t * G) * V * (1 - A t * G)ᵀ + A t * U * (A t)ᵀ).PosDef := by
    have s1 := posSemidef_conj' hV.posSemidef (1 - A t * G)
    have s2 := posSemidef_conj' hU.posSemidef (A t)
    refine posDef_of_ker (s1.add s2) fun x hx => ?_
    obtain ⟨k1, k2⟩ := add_mulVec_zero s1 s2 hx
    have q : ∀ {W : Mat n n} (B : Mat n n), W.PosDef → (B * W * Bᵀ) *ᵥ x = 0 → Bᵀ *ᵥ x = 0 := by
      intro W B hW hB
      have h1 : (Bᵀ *ᵥ x) ⬝ᵥ (W *ᵥ (Bᵀ *ᵥ x)) = 0 := by
        have := congrArg (fun y => x ⬝ᵥ y) hB
        simp only [dotProduct_zero, ← mulVec_mulVec] at this
        rw [dotProduct_mulVec x B, ← mulVec_transpose] at this
        exact this
      by_contra hne
      have := hW.dotProduct_mulVec_pos hne
      simp only [star_trivial] at this
      exact absurd h1 this.ne'
    have a2 := q (A t) hU k2
    have a1 := q (1 - A t * G) hV k1
    rw [transpose_sub, transpose_one, transpose_mul, sub_mulVec, one_mulVec, ← mulVec_mulVec, a2,
      mulVec_zero, sub_zero] at a1
    exact a1
  rw [← e2] at hp
  have := hp.add_posSemidef (vecMulVec_posSemidef ((P.stats z T (t + 1)).mean
    - A t *ᵥ (P.stats z T t).mean - b t))
  convert this using 1
  abel

theorem sum_posDef {k N : ℕ} {M : ℕ → Mat k k} (hN : 0 < N) (h : ∀ t < N, (M t).PosDef) :
    (∑ t ∈ Finset.range N, M t).PosDef := by
  induction N with
  | zero => omega
  | succ N ih =>
    rw [Finset.sum_range_succ]
    rcases Nat.eq_zero_or_pos N with rfl | h0
    · simpa using h 0 (by omega)
    · exact (ih h0 fun t ht => h t (by omega)).add (h N (by omega))

theorem PFun.PD.newQ {P : PFun n m} {T : ℕ} (h : P.PD (T + 1)) (z : ℕ → Obs m)
    (A : ℕ → Mat n n) (b : ℕ → Vec n) (hT : 0 < T) :
    (Verif.newQ (P.stats z T) A b T).PosDef := by
  rw [Verif.newQ, if_pos hT, transScatter_eq_sum]
  exact (sum_posDef hT fun t ht => h.transTerm z A b ht).smul (by positivity)

/-- Only the new observation covariance can fail to be positive definite. -/
theorem PFun.PD.step {p p' : Params n m} {vars : EmVar → Bool} {g : ℕ → Obs m} {T : ℕ}
    (h : EmEqs p vars p (p.fn.stats g T) g T p') (hp : p.fn.PD (T + 1))
    (hR : vars .observationCovariance = true → (p'.R.get 0).PosDef) : p'.fn.PD (T + 1) := by
  refine ⟨fun t ht => ?_, fun t ht => ?_, ?_⟩
  · have e := h.Q
    split at e
    · simp only [Params.fn, e, TV.get]
      exact hp.newQ g _ _ (by omega)
    · simp only [Params.fn, e]
      exact hp.Q t ht
  · have e := h.R
    split at e
    · next hv =>
      have := hR hv
      rw [e] at this
      simp only [Params.fn, e]
      exact this
    · simp only [Params.fn, e]
      exact hp.R t ht
  · have e := h.S0
    split at e
    · simp only [Params.fn, e]
      exact (hp.smooth g (Nat.zero_le T)).add_posSemidef (vecMulVec_posSemidef _)
    · simp only [Params.fn, e]
      exact hp.S0

/-- With an observation matrix of full row rank the new observation covariance is positive
definite. -/
theorem PFun.PD.newR {P : PFun n m} {T : ℕ} (h : P.PD (T + 1)) (z : ℕ → Obs m)
    (C : ℕ → Mat m n) (d : ℕ → Vec m) {t : ℕ} (ht : t ≤ T) (ho : ¬ (z t).missing)
    (hC : ∀ y : Vec m, (C t)ᵀ *ᵥ y = 0 → y = 0) :
    (Verif.newR (P.stats z T) z C d (T + 1)).PosDef := by
  have hterm : ∀ s < T + 1, ((z s).w • obsTerm (P.stats z T) z C d s).PosSemidef := by
    intro s hs
    refine smul_posSemidef (z s).w_nonneg ((vecMulVec_posSemidef _).add ?_)
    rw [← Matrix.mul_assoc]
    exact posSemidef_conj' (h.psd.smooth (by omega) z) (C s)
  have hS : (obsScatter (P.stats z T) z C d (T + 1)).PosDef := by
    rw [obsScatter_eq_sum]
    refine posDef_of_ker (posSemidef_sum _ fun s hs => hterm s (Finset.mem_range.mp hs))
      fun y hy => ?_
    have h0 := sum_mulVec_zero (fun s hs => hterm s (Finset.mem_range.mp hs)) hy t
      (Finset.mem_range.mpr (by omega))
    rw [Obs.w_observed ho, one_smul, obsTerm, ← Matrix.mul_assoc] at h0
    have h1 := (add_mulVec_zero (vecMulVec_posSemidef _)
      (posSemidef_conj' (h.psd.smooth ht z) (C t)) h0).2
    refine hC y ?_
    by_contra hne
    have := (h.smooth z ht).dotProduct_mulVec_pos hne
    simp only [star_trivial] at this
    have e := congrArg (fun x => y ⬝ᵥ x) h1
    simp only [dotProduct_zero, ← mulVec_mulVec] at e
    rw [dotProduct_mulVec y (C t), ← mulVec_transpose] at e
    exact absurd e this.ne'
  rw [Verif.newR]
  split
  · next h0 => exact hS.smul (by positivity)
  · exact hS

end Verif
