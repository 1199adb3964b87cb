import Verif.Proofs.EmMax

/-!
# The expected complete-data log-likelihood in terms of the smoothed statistics
-/

open MeasureTheory ProbabilityTheory Matrix

namespace Verif

variable {n m : ℕ} {Ω : Type*} [MeasurableSpace Ω] {ν : Measure Ω} [IsProbabilityMeasure ν]

theorem TV.at_eq_get {α : Type} [Zero α] [Inhabited α] {p : TV α} {t : ℕ} (h : p.Covers (t + 1)) :
    p.at t = p.get t := by
  cases p with
  | const a => rfl
  | seq l =>
    have : t < l.length := h
    simp [TV.at, TV.get, List.getD, List.getElem?_eq_getElem this]

/-- Random states with the moments `f`. -/
structure StatsMoments (ν : Measure Ω) (X : ℕ → Ω → Vec n) (f : ℕ → EmStats n) (T : ℕ) :
    Prop where
  single : ∀ t ≤ T, HasMoments ν (X t) (f t).mean (f t).cov
  pair : ∀ t < T, HasMoments ν (fun ω => Sum.elim (X (t + 1) ω) (X t ω))
    (Sum.elim (f (t + 1)).mean (f t).mean)
    (fromBlocks (f (t + 1)).cov (f (t + 1)).pair (f (t + 1)).pairᵀ (f t).cov)

/-- The three parts together. -/
noncomputable def eJoint (f : ℕ → EmStats n) (g : ℕ → Obs m) (T : ℕ) (P : PFun n m) : ℝ :=
  expLogN P.S0 (initTerm f P.mu0) + eTrans f P.A P.b P.Q T + eObs f g P.C P.d P.R (T + 1)

theorem logJoint_eq {q : Params n m} {os : List (Obs m)} (hc : q.Covers os.length)
    (x : ℕ → Vec n) : logJoint q os x = logN (x 0) q.mu0 q.S0
      + ∑ t ∈ Finset.range (os.length - 1),
        logN (x (t + 1)) (q.fn.A t *ᵥ x t + q.fn.b t) (q.fn.Q t)
      + ∑ t ∈ Finset.range os.length, (obsFn os t).w *
        logN (obsFn os t).val (q.fn.C t *ᵥ x t + q.fn.d t) (q.fn.R t) := by
  rw [logJoint]
  congr 1
  · congr 1
    refine Finset.sum_congr rfl fun t ht => ?_
    rw [Finset.mem_range] at ht
    rw [TV.at_eq_get (hc.A.mono (by omega)), TV.at_eq_get (hc.b.mono (by omega)),
      TV.at_eq_get (hc.Q.mono (by omega))]
    rfl
  · rw [Finset.sum_range]
    refine Finset.sum_congr rfl fun t _ => ?_
    have ht := t.2
    rw [TV.at_eq_get (hc.C.mono (show (t : ℕ) + 1 ≤ _ by omega)),
      TV.at_eq_get (hc.d.mono (show (t : ℕ) + 1 ≤ _ by omega)),
      TV.at_eq_get (hc.R.mono (show (t : ℕ) + 1 ≤ _ by omega)), obsFn_eq ht]
    by_cases hm : ∃ j, os[t].mask j = true
    · rw [if_pos hm, Obs.w_missing (o := os[(t : ℕ)]) hm, zero_mul]
    · rw [if_neg hm, Obs.w_observed (o := os[(t : ℕ)]) hm, one_mul]
      rfl

theorem StatsMoments.joint {X : ℕ → Ω → Vec n} {f : ℕ → EmStats n} {T : ℕ}
    (h : StatsMoments ν X f T) {q : Params n m} {os : List (Obs m)} (hlen : os.length = T + 1)
    (hc : q.Covers os.length) :
    Integrable (fun ω => logJoint q os fun t => X t ω) ν ∧
    ∫ ω, logJoint q os (fun t => X t ω) ∂ν = eJoint f (obsFn os) T q.fn := by
  simp only [logJoint_eq hc, hlen, Nat.add_sub_cancel]
  have h0 := (h.single 0 (by omega)).logN q.mu0 q.S0
  have h1 : ∀ t ∈ Finset.range T, _ := fun t ht =>
    (h.pair t (Finset.mem_range.mp ht)).logN_trans (q.fn.A t) (q.fn.b t) (q.fn.Q t)
  have h2 : ∀ t ∈ Finset.range (T + 1), _ := fun t ht =>
    (h.single t (Nat.lt_succ_iff.mp (Finset.mem_range.mp ht))).logN_obs (q.fn.C t) (q.fn.d t)
      (obsFn os t).val (q.fn.R t)
  have i1 := integrable_finsetSum _ fun t ht => (h1 t ht).1
  have i2 := integrable_finsetSum _ fun t ht => ((h2 t ht).1.const_mul (obsFn os t).w)
  have i01 : Integrable (fun ω => logN (X 0 ω) q.mu0 q.S0 + ∑ t ∈ Finset.range T,
      logN (X (t + 1) ω) (q.fn.A t *ᵥ X t ω + q.fn.b t) (q.fn.Q t)) ν := h0.1.add i1
  refine ⟨i01.add i2, ?_⟩
  rw [integral_add i01 i2, integral_add h0.1 i1, integral_finsetSum _ fun t ht =>
    (h1 t ht).1, integral_finsetSum _ fun t ht => ((h2 t ht).1.const_mul (obsFn os t).w), h0.2]
  simp only [eJoint, initTerm, eTrans, eObs]
  congr 1
  · congr 1
    exact Finset.sum_congr rfl fun t ht => (h1 t ht).2
  · refine Finset.sum_congr rfl fun t ht => ?_
    rw [integral_const_mul, (h2 t ht).2]
    rfl

theorem stats_pairPSD {P : PFun n m} {T : ℕ} (h : P.PSD (T + 1)) (z : ℕ → Obs m) :
    PairPSD (P.stats z T) T := by
  intro t ht
  have hs := h.smooth (t := t + 1) (by omega) z
  have e := h.ks_cov_eq ht z
  have hu : ((P.kf z t).filtCov - (P.ks z T t).gain * P.A t * (P.kf z t).filtCov).PosSemidef := by
    rw [P.ks_lt' z (by omega)]
    exact updated_posSemidef _ (h.filt (by omega) z) (h.Q t (by omega))
  simp only [PFun.stats, Nat.add_sub_cancel, Nat.succ_ne_zero, if_false, Nat.add_one_ne_zero]
  have hsym := symm_of_posSemidef hs
  rw [e]
  generalize (P.ks z T t).gain = J at *
  generalize (P.kf z t).filtCov - J * P.A t * (P.kf z t).filtCov = U at *
  generalize (P.ks z T (t + 1)).cov = S at *
  have h1 := posSemidef_conj' hs (fromRows (1 : Mat n n) J)
  have h2 := posSemidef_conj' hu (fromRows (0 : Mat n n) (1 : Mat n n))
  have := h1.add h2
  convert this using 1
  simp only [fromRows_mul, transpose_fromRows, Matrix.mul_fromCols, transpose_mul, transpose_one,
    transpose_zero, transpose_transpose, hsym, Matrix.one_mul, Matrix.mul_one, Matrix.zero_mul,
    Matrix.mul_zero, Matrix.mul_assoc]
  ext (i | i) (j | j) <;> simp

theorem mstepMax {p p' : Params n m} {vars : EmVar → Bool} {f : ℕ → EmStats n} {g : ℕ → Obs m}
    {T : ℕ} (h : EmEqs p vars p f g T p') (hf : PairPSD f T) (hf' : ∀ t ≤ T, (f t).cov.PosSemidef)
    (hR : ∀ R, p.R = .const R → R.PosDef) (hQ : ∀ Q, p.Q = .const Q → 0 < T → Q.PosDef)
    (hS : p.S0.PosDef) :
    MStepMax (fun q => eJoint f g T q.fn) (fun v => vars v = true ∧ Weighed p p' v) p p' := by
  have hf'' : ∀ t < T + 1, (f t).cov.PosSemidef := fun t ht => hf' t (by omega)
  refine ⟨fun ⟨hv, hw⟩ C' => ?_, fun ⟨hv, _⟩ hp R' hR' => ?_, fun ⟨hv, hw⟩ A' => ?_,
    fun ⟨hv, _⟩ hp Q' hQ' => ?_, fun ⟨hv, _⟩ mu' => ?_, fun ⟨hv, _⟩ hp S' hS' => ?_,
    fun ⟨hv, hw⟩ hp b' => ?_, fun ⟨hv, hw⟩ hp d' => ?_⟩
  · obtain ⟨R, e⟩ := hw
    have e1 := h.C
    rw [if_pos hv] at e1
    rw [e1]
    have := eObs_newC (g := g) hf'' p.d.get (hR R e) C'
    simp only [eJoint, Params.fn, e]
    exact add_le_add_right this _
  · have e1 := h.R
    rw [if_pos hv] at e1
    rw [e1] at hp ⊢
    have := eObs_newR (f := f) (g := g) (N := T + 1) p'.C.get p.d.get hp hR'
    simp only [eJoint, Params.fn]
    exact add_le_add_right this _
  · have e1 := h.A
    rw [if_pos hv] at e1
    rw [e1]
    simp only [eJoint, Params.fn]
    gcongr
    rcases Nat.eq_zero_or_pos T with rfl | hT
    · simp [eTrans]
    · obtain ⟨Q, e⟩ := hw
      rw [e]
      exact eTrans_newA hf p.b.get (hQ Q e hT) A'
  · have e1 := h.Q
    rw [if_pos hv] at e1
    rw [e1] at hp ⊢
    have := eTrans_newQ (f := f) (T := T) p'.A.get p.b.get hp hQ'
    simp only [eJoint, Params.fn]
    gcongr
    exact this
  · have e1 := h.mu0
    rw [if_pos hv] at e1
    rw [e1]
    have := eInit_mu0 (f := f) hS mu'
    simp only [eJoint, Params.fn]
    gcongr
  · have e1 := h.S0
    rw [if_pos hv] at e1
    rw [e1] at hp ⊢
    have := eInit_S0 (f := f) p'.mu0 hp hS'
    simp only [eJoint, Params.fn]
    gcongr
    exact this
  · have e1 := h.b
    rw [if_pos hv] at e1
    obtain ⟨Q, e⟩ := hw
    rw [e] at hp
    have := eTrans_newb (f := f) (T := T) p'.A.get hp b'
    simp only [eJoint, Params.fn, e, e1]
    gcongr
    exact this
  · have e1 := h.d
    rw [if_pos hv] at e1
    obtain ⟨R, e⟩ := hw
    rw [e] at hp
    have := eObs_newd (f := f) (g := g) (N := T + 1) p'.C.get hp d'
    simp only [eJoint, Params.fn, e, e1]
    exact add_le_add_right this _

theorem MStepMax.congr {E E' : Params n m → ℝ} {claim : EmVar → Prop} {p p' : Params n m} {N : ℕ}
    (h : MStepMax E claim p p') (he : ∀ q : Params n m, q.Covers N → E' q = E q)
    (hp : p.Covers N) (hp' : p'.Covers N) : MStepMax E' claim p p' := by
  refine ⟨fun hv C' => ?_, fun hv h1 R' hR' => ?_, fun hv A' => ?_, fun hv h1 Q' hQ' => ?_,
    fun hv mu' => ?_, fun hv h1 S' hS' => ?_, fun hv h1 b' => ?_, fun hv h1 d' => ?_⟩
  · refine le_of_eq_of_le (he _ ?_) ((h.C hv C').trans_eq (he _ ?_).symm)
    · exact ⟨hp.A, hp.b, hp.Q, trivial, hp.d, hp.R⟩
    · exact ⟨hp.A, hp.b, hp.Q, hp'.C, hp.d, hp.R⟩
  · refine le_of_eq_of_le (he _ ?_) ((h.R hv h1 R' hR').trans_eq (he _ ?_).symm)
    · exact ⟨hp.A, hp.b, hp.Q, hp'.C, hp.d, trivial⟩
    · exact ⟨hp.A, hp.b, hp.Q, hp'.C, hp.d, hp'.R⟩
  · refine le_of_eq_of_le (he _ ?_) ((h.A hv A').trans_eq (he _ ?_).symm)
    · exact ⟨trivial, hp.b, hp.Q, hp'.C, hp.d, hp'.R⟩
    · exact ⟨hp'.A, hp.b, hp.Q, hp'.C, hp.d, hp'.R⟩
  · refine le_of_eq_of_le (he _ ?_) ((h.Q hv h1 Q' hQ').trans_eq (he _ ?_).symm)
    · exact ⟨hp'.A, hp.b, trivial, hp'.C, hp.d, hp'.R⟩
    · exact ⟨hp'.A, hp.b, hp'.Q, hp'.C, hp.d, hp'.R⟩
  · refine le_of_eq_of_le (he _ ?_) ((h.mu0 hv mu').trans_eq (he _ ?_).symm)
    · exact ⟨hp'.A, hp.b, hp'.Q, hp'.C, hp.d, hp'.R⟩
    · exact ⟨hp'.A, hp.b, hp'.Q, hp'.C, hp.d, hp'.R⟩
  · refine le_of_eq_of_le (he _ ?_) ((h.S0 hv h1 S' hS').trans_eq (he _ ?_).symm)
    · exact ⟨hp'.A, hp.b, hp'.Q, hp'.C, hp.d, hp'.R⟩
    · exact ⟨hp'.A, hp.b, hp'.Q, hp'.C, hp.d, hp'.R⟩
  · refine le_of_eq_of_le (he _ ?_) ((h.b hv h1 b').trans_eq (he _ ?_).symm)
    · exact ⟨hp'.A, trivial, hp'.Q, hp'.C, hp.d, hp'.R⟩
    · exact ⟨hp'.A, hp'.b, hp'.Q, hp'.C, hp.d, hp'.R⟩
  · refine le_of_eq_of_le (he _ ?_) ((h.d hv h1 d').trans_eq (he _ ?_).symm)
    · exact ⟨hp'.A, hp'.b, hp'.Q, hp'.C, trivial, hp'.R⟩
    · exact hp'

end Verif
