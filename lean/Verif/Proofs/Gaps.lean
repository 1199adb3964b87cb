import Verif.Spec.Gaps
import Verif.Proofs.Rows

/-!
# Leaving out a missing row
-/

open Matrix

namespace Verif

variable {n m : ℕ}

/-- The position in the long run of row `t` of the run without row `k`. -/
def skipAt (k t : ℕ) : ℕ := if t < k then t else t + 1

theorem skipAt_lt {k t : ℕ} (h : t < k) : skipAt k t = t := if_pos h
theorem skipAt_ge {k t : ℕ} (h : k ≤ t) : skipAt k t = t + 1 := if_neg (by omega)

/-- The same for parameters as functions of time. -/
structure PFun.Without (P P' : PFun n m) (k T : ℕ) : Prop where
  C : ∀ t, t + 1 < T → P'.C t = P.C (skipAt k t)
  d : ∀ t, t + 1 < T → P'.d t = P.d (skipAt k t)
  R : ∀ t, t + 1 < T → P'.R t = P.R (skipAt k t)
  before : ∀ t, t + 1 < k → t + 2 < T → P'.A t = P.A t ∧ P'.b t = P.b t ∧ P'.Q t = P.Q t
  after : ∀ t, k ≤ t → t + 2 < T →
    P'.A t = P.A (t + 1) ∧ P'.b t = P.b (t + 1) ∧ P'.Q t = P.Q (t + 1)
  composed : ∀ j, k = j + 1 → k + 1 < T → P'.A j = P.A k * P.A j ∧
    P'.b j = P.A k *ᵥ P.b j + P.b k ∧ P'.Q j = P.A k * P.Q j * (P.A k)ᵀ + P.Q k
  first : k = 0 → 1 < T → P'.mu0 = P.A 0 *ᵥ P.mu0 + P.b 0 ∧
    P'.S0 = P.A 0 * P.S0 * (P.A 0)ᵀ + P.Q 0
  notFirst : k ≠ 0 → P'.mu0 = P.mu0 ∧ P'.S0 = P.S0

variable {P P' : PFun n m} {k T : ℕ} {z z' : ℕ → Obs m}

theorem PFun.Without.kf (h : P.Without P' k T) (hm : (z k).missing)
    (hz : ∀ t, t + 1 < T → z' t = z (skipAt k t)) {t : ℕ} (ht : t + 1 < T) :
    P'.kf z' t = P.kf z (skipAt k t) := by
  have step : ∀ t, t + 1 < T → (P'.kf z' t).predMean = (P.kf z (skipAt k t)).predMean →
      (P'.kf z' t).predCov = (P.kf z (skipAt k t)).predCov →
      P'.kf z' t = P.kf z (skipAt k t) := by
    intro t ht e1 e2
    rw [P'.kf_correct z' t, P.kf_correct z (skipAt k t), e1, e2, hz t ht]
    simp only [PFun.correct, h.C t ht, h.d t ht, h.R t ht]
  obtain ⟨-, m1, m2⟩ := P.kf_missing z hm
  induction t with
  | zero =>
    apply step 0 ht
    · by_cases hk : k = 0
      · subst hk
        rw [skipAt_ge le_rfl, (P.kf_pred_succ z 0).1, m1]
        exact (h.first rfl ht).1
      · rw [skipAt_lt (by omega)]
        exact (h.notFirst hk).1
    · by_cases hk : k = 0
      · subst hk
        rw [skipAt_ge le_rfl, (P.kf_pred_succ z 0).2, m2]
        exact (h.first rfl ht).2
      · rw [skipAt_lt (by omega)]
        exact (h.notFirst hk).2
  | succ t ih =>
    have i := ih (by omega)
    rcases lt_trichotomy (t + 1) k with hk | hk | hk
    · rw [skipAt_lt (by omega)] at i
      obtain ⟨eA, eb, eQ⟩ := h.before t hk ht
      apply step _ ht
      · rw [skipAt_lt hk, (P.kf_pred_succ z t).1, (P'.kf_pred_succ z' t).1, i, eA, eb]
      · rw [skipAt_lt hk, (P.kf_pred_succ z t).2, (P'.kf_pred_succ z' t).2, i, eA, eQ]
    · rw [skipAt_lt (by omega)] at i
      obtain ⟨eA, eb, eQ⟩ := h.composed t hk.symm (by omega)
      subst hk
      apply step _ ht
      · rw [skipAt_ge le_rfl, (P.kf_pred_succ z (t + 1)).1, m1, (P.kf_pred_succ z t).1,
          (P'.kf_pred_succ z' t).1, i, eA, eb, mulVec_add, mulVec_mulVec, add_assoc]
      · rw [skipAt_ge le_rfl, (P.kf_pred_succ z (t + 1)).2, m2, (P.kf_pred_succ z t).2,
          (P'.kf_pred_succ z' t).2, i, eA, eQ]
        simp only [Matrix.mul_add, Matrix.add_mul, Matrix.mul_assoc, transpose_mul]
        abel
    · rw [skipAt_ge (by omega)] at i
      obtain ⟨eA, eb, eQ⟩ := h.after t (by omega) ht
      apply step _ ht
      · rw [skipAt_ge hk.le, (P.kf_pred_succ z (t + 1)).1, (P'.kf_pred_succ z' t).1, i, eA, eb]
      · rw [skipAt_ge hk.le, (P.kf_pred_succ z (t + 1)).2, (P'.kf_pred_succ z' t).2, i, eA, eQ]

/-- Two successive smoothing gains over a missing row compose. -/
theorem gain_comp {F Q₁ : Mat n n} (hF : F.PosSemidef) (hQ : Q₁.PosSemidef) (A₁ A₂ Q₂ : Mat n n) :
    gain F Q₁ A₁ * gain (A₁ * F * A₁ᵀ + Q₁) Q₂ A₂ = gain F (A₂ * Q₁ * A₂ᵀ + Q₂) (A₂ * A₁) := by
  have e : A₂ * (A₁ * F * A₁ᵀ + Q₁) * A₂ᵀ + Q₂
      = A₂ * A₁ * F * (A₂ * A₁)ᵀ + (A₂ * Q₁ * A₂ᵀ + Q₂) := by
    simp only [Matrix.mul_add, Matrix.add_mul, Matrix.mul_assoc, transpose_mul]
    abel
  rw [gain.eq_1 (A₁ * F * A₁ᵀ + Q₁), ← Matrix.mul_assoc, ← Matrix.mul_assoc, gain_mul A₁ hF hQ, e,
    gain.eq_1 F (A₂ * Q₁ * A₂ᵀ + Q₂), transpose_mul, Matrix.mul_assoc F]

theorem PFun.Without.ks (h : P.Without P' k (T + 2)) (hP : P.PSD (T + 2)) (hm : (z k).missing)
    (hk : k ≤ T + 1) (hz : ∀ t, t ≤ T → z' t = z (skipAt k t)) {t : ℕ} (ht : t ≤ T) :
    (P'.ks z' T t).mean = (P.ks z (T + 1) (skipAt k t)).mean ∧
      (P'.ks z' T t).cov = (P.ks z (T + 1) (skipAt k t)).cov := by
  have hkf : ∀ t, t ≤ T → P'.kf z' t = P.kf z (skipAt k t) := fun t ht =>
    h.kf hm (fun t ht => hz t (by omega)) (by omega)
  obtain ⟨-, m1, m2⟩ := P.kf_missing z hm
  obtain ⟨j, hj⟩ : ∃ j, T = t + j := ⟨T - t, by omega⟩
  induction j generalizing t with
  | zero =>
    obtain rfl : t = T := by omega
    rw [P'.ks_last, hkf t le_rfl]
    by_cases hkT : k = t + 1
    · subst hkT
      rw [skipAt_lt (by omega), P.ks_lt z (by omega), P.ks_last, m1, m2]
      simp only [smoothUpdate, sub_self, mulVec_zero, Matrix.zero_mul, Matrix.mul_zero, add_zero,
        and_self]
    · rw [skipAt_ge (by omega), P.ks_last]
      exact ⟨rfl, rfl⟩
  | succ j ih =>
    obtain ⟨i1, i2⟩ := ih (t := t + 1) (by omega) (by omega)
    rw [P'.ks_lt' z' (by omega)]
    simp only [i1, i2, hkf t (by omega)]
    rcases lt_trichotomy (t + 1) k with hkt | hkt | hkt
    · rw [skipAt_lt (show t < k by omega), skipAt_lt hkt, P.ks_lt' z (show t < T + 1 by omega)]
      obtain ⟨eA, eb, eQ⟩ := h.before t hkt (by omega)
      simp only [eA, eb, eQ, and_self]
    · obtain ⟨eA, eb, eQ⟩ := h.composed t hkt.symm (by omega)
      subst hkt
      have g := gain_comp (hP.filt (t := t) (by omega) z) (hP.Q t (by omega)) (P.A t) (P.A (t + 1))
        (P.Q (t + 1))
      rw [skipAt_lt (show t < t + 1 by omega), skipAt_ge le_rfl,
        P.ks_lt' z (show t < T + 1 by omega), P.ks_lt' z (show t + 1 < T + 1 by omega)]
      simp only [m1, m2, eA, eb, eQ, ← g, (P.kf_pred_succ z t).1, (P.kf_pred_succ z t).2,
        add_sub_cancel_left]
      constructor
      · rw [mulVec_mulVec, mulVec_add (P.A (t + 1)), mulVec_mulVec, add_assoc (_ *ᵥ _) (_ *ᵥ _)]
      · congr 1
        simp only [Matrix.mul_add, Matrix.add_mul, Matrix.mul_sub, Matrix.sub_mul, Matrix.mul_assoc,
          transpose_mul]
        abel
    · rw [skipAt_ge (show k ≤ t + 1 by omega), skipAt_ge (show k ≤ t by omega),
        P.ks_lt' z (show t + 1 < T + 1 by omega)]
      obtain ⟨eA, eb, eQ⟩ := h.after t (by omega) (by omega)
      simp only [eA, eb, eQ, and_self]

/-! ### From parameters with lists to functions of time -/

theorem tv_of_lastDims {α : Type} [Inhabited α] {a : TV α} {K : ℕ} {f : ℕ → α}
    (h : ∀ t, t < K → lastDims a t = .ok (f t)) : a.Covers K ∧ ∀ t, t < K → a.get t = f t := by
  have hc : a.Covers K := by
    cases a with
    | const a => trivial
    | seq l =>
      by_contra hlt
      simp only [TV.Covers, not_le] at hlt
      have := h l.length hlt
      simp [lastDims] at this
  exact ⟨hc, fun t ht => lastDims_get hc ht (h t ht)⟩

theorem DropsEntry.get {α : Type} [Inhabited α] {a a' : TV α} (hd : DropsEntry a a' k (T - 1))
    (hc : a.Covers T) : a'.Covers (T - 1) ∧ ∀ t, t < T - 1 → a'.get t = a.get (skipAt k t) := by
  apply tv_of_lastDims
  intro t ht
  by_cases hk : t < k
  · rw [skipAt_lt hk, hd.1 t hk ht, lastDims_eq_ok (hc.mono (by omega))]
  · rw [skipAt_ge (by omega), hd.2 t (by omega) ht, lastDims_eq_ok (hc.mono (by omega))]

theorem WithoutStep.fn {p p' : Params n m} (h : WithoutStep p p' k T) (hc : p.Covers T) :
    p'.Covers (T - 1) ∧ p.fn.Without p'.fn k T := by
  have key : ∀ t, t + 2 < T →
      lastDims p'.A t = .ok (if t + 1 < k then p.A.get t else if t + 1 = k then
        p.A.get k * p.A.get t else p.A.get (t + 1)) ∧
      lastDims p'.b t = .ok (if t + 1 < k then p.b.get t else if t + 1 = k then
        p.A.get k *ᵥ p.b.get t + p.b.get k else p.b.get (t + 1)) ∧
      lastDims p'.Q t = .ok (if t + 1 < k then p.Q.get t else if t + 1 = k then
        p.A.get k * p.Q.get t * (p.A.get k)ᵀ + p.Q.get k else p.Q.get (t + 1)) := by
    intro t ht
    have A := fun s (hs : s + 1 < T) => lastDims_eq_ok (hc.A.mono (show s + 1 ≤ T - 1 by omega))
    have b := fun s (hs : s + 1 < T) => lastDims_eq_ok (hc.b.mono (show s + 1 ≤ T - 1 by omega))
    have Q := fun s (hs : s + 1 < T) => lastDims_eq_ok (hc.Q.mono (show s + 1 ≤ T - 1 by omega))
    rcases lt_trichotomy (t + 1) k with hk | hk | hk
    · obtain ⟨e1, e2, e3⟩ := h.before t hk ht
      rw [if_pos hk, if_pos hk, if_pos hk, e1, e2, e3]
      exact ⟨A t (by omega), b t (by omega), Q t (by omega)⟩
    · have := h.composed t hk.symm (by omega) _ _ _ _ _ _ (A t (by omega)) (b t (by omega))
        (Q t (by omega)) (A k (by omega)) (b k (by omega)) (Q k (by omega))
      simpa [hk] using this
    · obtain ⟨e1, e2, e3⟩ := h.after t (by omega) ht
      rw [if_neg (by omega), if_neg (by omega), if_neg (by omega), if_neg (by omega),
        if_neg (by omega), if_neg (by omega), e1, e2, e3]
      exact ⟨A _ (by omega), b _ (by omega), Q _ (by omega)⟩
  obtain ⟨cC, gC⟩ := h.C.get hc.C
  obtain ⟨cd, gd⟩ := h.d.get hc.d
  obtain ⟨cR, gR⟩ := h.R.get hc.R
  obtain ⟨cA, gA⟩ := tv_of_lastDims (K := T - 1 - 1) fun t ht => (key t (by omega)).1
  obtain ⟨cb, gb⟩ := tv_of_lastDims (K := T - 1 - 1) fun t ht => (key t (by omega)).2.1
  obtain ⟨cQ, gQ⟩ := tv_of_lastDims (K := T - 1 - 1) fun t ht => (key t (by omega)).2.2
  refine ⟨⟨cA, cb, cQ, cC, cd, cR⟩, fun t ht => gC t (by omega), fun t ht => gd t (by omega),
    fun t ht => gR t (by omega), ?_, ?_, ?_, ?_, h.notFirst⟩
  · intro t hk ht
    have := gA t (by omega)
    have := gb t (by omega)
    have := gQ t (by omega)
    simp_all [Params.fn]
  · intro t hk ht
    have e1 := gA t (by omega)
    have e2 := gb t (by omega)
    have e3 := gQ t (by omega)
    rw [if_neg (by omega), if_neg (by omega)] at e1 e2 e3
    exact ⟨e1, e2, e3⟩
  · intro j hk ht
    have e1 := gA j (by omega)
    have e2 := gb j (by omega)
    have e3 := gQ j (by omega)
    rw [if_neg (by omega), if_pos hk.symm] at e1 e2 e3
    exact ⟨e1, e2, e3⟩
  · intro hk hT
    exact h.first hk hT _ _ _ (lastDims_eq_ok (hc.A.mono (by omega)))
      (lastDims_eq_ok (hc.b.mono (by omega))) (lastDims_eq_ok (hc.Q.mono (by omega)))

theorem obsFn_eraseIdx (os : List (Obs m)) (k t : ℕ) :
    obsFn (os.eraseIdx k) t = obsFn os (skipAt k t) := by
  simp only [obsFn, List.getD_eq_getElem?_getD, List.getElem?_eraseIdx, skipAt]
  split <;> rfl

theorem map_range_eraseIdx {α : Type} (f : ℕ → α) {k T : ℕ} (hk : k < T) :
    ((List.range T).map f).eraseIdx k = (List.range (T - 1)).map fun t => f (skipAt k t) := by
  apply List.ext_getElem?
  intro t
  rw [List.getElem?_eraseIdx]
  by_cases ht : t < T - 1
  · by_cases h : t < k
    · rw [if_pos h]
      simp [List.getElem?_range (show t < T by omega), List.getElem?_range ht, skipAt_lt h]
    · rw [if_neg h]
      simp [List.getElem?_range (show t + 1 < T by omega), List.getElem?_range ht,
        skipAt_ge (show k ≤ t by omega)]
  · rw [List.getElem?_eq_none (l := List.map _ (List.range (T - 1))) (by simp; omega)]
    split
    · omega
    · exact List.getElem?_eq_none (by simp; omega)

/-! ### Log likelihood -/

theorem loglikLoop_shift_congr {p p' : Params n m} (os : List (Obs m)) :
    ∀ (t t' : ℕ) (ss : List (Step n m)), (∀ i s o, ss[i]? = some s → os[i]? = some o →
      loglikStep p' (t' + i) s o = loglikStep p (t + i) s o) →
      loglikLoop p' t' ss os = loglikLoop p t ss os := by
  induction os with
  | nil => intro t t' ss _; cases ss <;> rfl
  | cons o os ih =>
    intro t t' ss h
    cases ss with
    | nil => rfl
    | cons s ss =>
      have h0 := h 0 s o rfl rfl
      have hi := ih (t + 1) (t' + 1) ss fun i s o hs ho => by
        have := h (i + 1) s o (by simpa using hs) (by simpa using ho)
        rwa [show t + 1 + i = t + (i + 1) by omega, show t' + 1 + i = t' + (i + 1) by omega]
      simp only [Nat.add_zero] at h0
      simp only [loglikLoop, h0, hi]

theorem loglikLoop_erase {p p' : Params n m} : ∀ (k t : ℕ) (ss : List (Step n m))
    (os : List (Obs m)), ss.length = os.length →
    (∀ i s o, i < k → ss[i]? = some s → os[i]? = some o →
      loglikStep p' (t + i) s o = loglikStep p (t + i) s o) →
    (∀ i s o, k ≤ i → ss[i + 1]? = some s → os[i + 1]? = some o →
      loglikStep p' (t + i) s o = loglikStep p (t + i + 1) s o) →
    (∀ o, os[k]? = some o → o.missing) →
    (do let l ← loglikLoop p' t (ss.eraseIdx k) (os.eraseIdx k); pure l.sum)
      = (do let l ← loglikLoop p t ss os; pure l.sum : Res ℝ) := by
  intro k
  induction k with
  | zero =>
    intro t ss os hl _ h2 hm
    cases os with
    | nil =>
      obtain rfl := List.length_eq_zero_iff.mp hl
      rfl
    | cons o os =>
      obtain ⟨s, ss, rfl⟩ := List.exists_cons_of_length_eq_add_one hl
      have hmo := hm o rfl
      have e : loglikStep p t s o = .ok 0 := by
        rw [loglikStep, if_neg (not_not.mpr hmo)]
        rfl
      have e2 : loglikLoop p' t ss os = loglikLoop p (t + 1) ss os :=
        loglikLoop_shift_congr os (t + 1) t ss fun i s o hs ho => by
          have := h2 i s o (Nat.zero_le _) (by simpa using hs) (by simpa using ho)
          rwa [show t + 1 + i = t + i + 1 by omega]
      simp only [List.eraseIdx_zero, List.tail_cons, e2, loglikLoop, e]
      cases loglikLoop p (t + 1) ss os with
      | error e => rfl
      | ok l => simp [bind, Except.bind, pure, Except.pure]
  | succ k ih =>
    intro t ss os hl h1 h2 hm
    cases os with
    | nil =>
      obtain rfl := List.length_eq_zero_iff.mp hl
      rfl
    | cons o os =>
      obtain ⟨s, ss, rfl⟩ := List.exists_cons_of_length_eq_add_one hl
      have h0 := h1 0 s o (by omega) rfl rfl
      have hi := ih (t + 1) ss os (by simpa using hl)
        (fun i s o hik hs ho => by
          have := h1 (i + 1) s o (by omega) (by simpa using hs) (by simpa using ho)
          rwa [show t + 1 + i = t + (i + 1) by omega])
        (fun i s o hik hs ho => by
          have := h2 (i + 1) s o (by omega) (by simpa using hs) (by simpa using ho)
          rwa [show t + 1 + i = t + (i + 1) by omega])
        (fun o ho => hm o (by simpa using ho))
      simp only [Nat.add_zero] at h0
      simp only [List.eraseIdx_cons_succ, loglikLoop, h0]
      cases loglikStep p t s o with
      | error e => rfl
      | ok x =>
        cases h3 : loglikLoop p' (t + 1) (ss.eraseIdx k) (os.eraseIdx k) with
        | error e =>
          cases h4 : loglikLoop p (t + 1) ss os with
          | error e' =>
            rw [h3, h4] at hi
            simpa [bind, Except.bind] using hi
          | ok l =>
            rw [h3, h4] at hi
            simp [bind, Except.bind, pure, Except.pure] at hi
        | ok l' =>
          cases h4 : loglikLoop p (t + 1) ss os with
          | error e' =>
            rw [h3, h4] at hi
            simp [bind, Except.bind, pure, Except.pure] at hi
          | ok l =>
            rw [h3, h4] at hi
            simp only [bind, Except.bind, pure, Except.pure, Except.ok.injEq] at hi
            simp [bind, Except.bind, pure, Except.pure, hi]

/-- For all parameters that cover the run there is a model without step `k`. -/
theorem exists_withoutStep {p : Params n m} (hc : p.Covers T) (k : ℕ) :
    ∃ p', WithoutStep p p' k T := by
  have A := fun s (hs : s + 1 < T) => lastDims_eq_ok (hc.A.mono (show s + 1 ≤ T - 1 by omega))
  have b := fun s (hs : s + 1 < T) => lastDims_eq_ok (hc.b.mono (show s + 1 ≤ T - 1 by omega))
  have Q := fun s (hs : s + 1 < T) => lastDims_eq_ok (hc.Q.mono (show s + 1 ≤ T - 1 by omega))
  have C := fun s (hs : s < T) => lastDims_eq_ok (hc.C.mono (show s + 1 ≤ T by omega))
  have d := fun s (hs : s < T) => lastDims_eq_ok (hc.d.mono (show s + 1 ≤ T by omega))
  have R := fun s (hs : s < T) => lastDims_eq_ok (hc.R.mono (show s + 1 ≤ T by omega))
  have L : ∀ {α : Type} (f : ℕ → α) (t : ℕ), t < T →
      lastDims (.seq ((List.range T).map f)) t = .ok (f t) := by
    intro α f t ht
    simp [lastDims, List.getElem?_range ht]
  have hobs : ∀ {α : Type} [Inhabited α] (a : TV α),
      (∀ s, s < T → lastDims a s = .ok (a.get s)) →
      DropsEntry a (.seq ((List.range T).map fun t => a.get (skipAt k t))) k (T - 1) := by
    intro α _ a ha
    refine ⟨fun t hk ht => ?_, fun t hk ht => ?_⟩
    · rw [L _ _ (by omega), skipAt_lt hk, ha t (by omega)]
    · rw [L _ _ (by omega), skipAt_ge hk, ha (t + 1) (by omega)]
  refine ⟨{
    A := .seq ((List.range T).map fun t => if t + 1 < k then p.A.get t else if t + 1 = k then
        p.A.get k * p.A.get t else p.A.get (t + 1))
    b := .seq ((List.range T).map fun t => if t + 1 < k then p.b.get t else if t + 1 = k then
        p.A.get k *ᵥ p.b.get t + p.b.get k else p.b.get (t + 1))
    Q := .seq ((List.range T).map fun t => if t + 1 < k then p.Q.get t else if t + 1 = k then
        p.A.get k * p.Q.get t * (p.A.get k)ᵀ + p.Q.get k else p.Q.get (t + 1))
    C := .seq ((List.range T).map fun t => p.C.get (skipAt k t))
    d := .seq ((List.range T).map fun t => p.d.get (skipAt k t))
    R := .seq ((List.range T).map fun t => p.R.get (skipAt k t))
    mu0 := if k = 0 then p.A.get 0 *ᵥ p.mu0 + p.b.get 0 else p.mu0
    S0 := if k = 0 then p.A.get 0 * p.S0 * (p.A.get 0)ᵀ + p.Q.get 0 else p.S0 },
    hobs _ C, hobs _ d, hobs _ R, ?_, ?_, ?_, ?_, ?_⟩
  · intro t hk ht
    simp only [L _ t (show t < T by omega), if_pos hk, A t (by omega), b t (by omega),
      Q t (by omega), and_self]
  · intro t hk ht
    simp only [L _ t (show t < T by omega), if_neg (show ¬ t + 1 < k by omega),
      if_neg (show ¬ t + 1 = k by omega), A (t + 1) (by omega), b (t + 1) (by omega),
      Q (t + 1) (by omega), and_self]
  · intro j hk ht A₁ b₁ Q₁ A₂ b₂ Q₂ h1 h2 h3 h4 h5 h6
    rw [A j (by omega)] at h1
    rw [b j (by omega)] at h2
    rw [Q j (by omega)] at h3
    rw [A k (by omega)] at h4
    rw [b k (by omega)] at h5
    rw [Q k (by omega)] at h6
    cases h1; cases h2; cases h3; cases h4; cases h5; cases h6
    simp only [L _ j (show j < T by omega), if_neg (show ¬ j + 1 < k by omega),
      if_pos (show j + 1 = k by omega), and_self]
  · intro hk hT A₁ b₁ Q₁ h1 h2 h3
    rw [A 0 (by omega)] at h1
    rw [b 0 (by omega)] at h2
    rw [Q 0 (by omega)] at h3
    cases h1; cases h2; cases h3
    simp only [if_pos hk, and_self]
  · intro hk
    simp only [if_neg hk, and_self]

end Verif
