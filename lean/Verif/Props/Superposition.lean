import Verif.Spec.Superposition
import Verif.Props.Symmetry
import Verif.Proofs.Gaps

/-!
# C48: superposition of inputs and data
-/

open Matrix

namespace Verif

variable {n m : ℕ}

/-- `Superposes` for functions of time. -/
structure PFun.Superposes (a c : ℝ) (P P₁ P₂ : PFun n m) (T : ℕ) : Prop where
  A : P₁.A = P.A ∧ P₂.A = P.A
  Q : P₁.Q = P.Q ∧ P₂.Q = P.Q
  C : P₁.C = P.C ∧ P₂.C = P.C
  R : P₁.R = P.R ∧ P₂.R = P.R
  S0 : P₁.S0 = P.S0 ∧ P₂.S0 = P.S0
  mu0 : P.mu0 = a • P₁.mu0 + c • P₂.mu0
  b : ∀ t, t + 1 < T → P.b t = a • P₁.b t + c • P₂.b t
  d : ∀ t, t < T → P.d t = a • P₁.d t + c • P₂.d t

section fn
variable {P P₁ P₂ : PFun n m} {z z₁ z₂ : ℕ → Obs m} {a c : ℝ} {T : ℕ}

theorem PFun.kf_cov_same {P P' : PFun n m} {z z' : ℕ → Obs m} (hA : P'.A = P.A) (hQ : P'.Q = P.Q)
    (hC : P'.C = P.C) (hR : P'.R = P.R) (hS : P'.S0 = P.S0)
    (hz : ∀ t, (z t).missing ↔ (z' t).missing) (t : ℕ) :
    (P'.kf z' t).predCov = (P.kf z t).predCov ∧ (P'.kf z' t).filtCov = (P.kf z t).filtCov := by
  have step : ∀ t, (P'.kf z' t).predCov = (P.kf z t).predCov →
      (P'.kf z' t).filtCov = (P.kf z t).filtCov := by
    intro t h
    by_cases hm : (z t).missing
    · rw [(P.kf_missing z hm).2.2, (P'.kf_missing z' ((hz t).mp hm)).2.2, h]
    · rw [(P.kf_observed z hm).2.2, (P'.kf_observed z' (mt (hz t).mpr hm)).2.2, h, hC, hR]
  induction t with
  | zero => exact ⟨hS, step 0 hS⟩
  | succ t ih =>
    have h : (P'.kf z' (t + 1)).predCov = (P.kf z (t + 1)).predCov := by
      rw [(P.kf_pred_succ z t).2, (P'.kf_pred_succ z' t).2, ih.2, hA, hQ]
    exact ⟨h, step _ h⟩

theorem PFun.Superposes.filt (h : PFun.Superposes a c P P₁ P₂ T) (hz : Combines a c z z₁ z₂) {t : ℕ}
    (ht : t < T) :
    (P.kf z t).filtMean = a • (P₁.kf z₁ t).filtMean + c • (P₂.kf z₂ t).filtMean ∧
    (P₁.kf z₁ t).filtCov = (P.kf z t).filtCov ∧ (P₂.kf z₂ t).filtCov = (P.kf z t).filtCov := by
  have c1 := P.kf_cov_same (P' := P₁) h.A.1 h.Q.1 h.C.1 h.R.1 h.S0.1 fun t => (hz t).1
  have c2 := P.kf_cov_same (P' := P₂) h.A.2 h.Q.2 h.C.2 h.R.2 h.S0.2 fun t => (hz t).2.1
  refine ⟨?_, (c1 t).2, (c2 t).2⟩
  have step : ∀ t, t < T →
      (P.kf z t).predMean = a • (P₁.kf z₁ t).predMean + c • (P₂.kf z₂ t).predMean →
      (P.kf z t).filtMean = a • (P₁.kf z₁ t).filtMean + c • (P₂.kf z₂ t).filtMean := by
    intro t ht hp
    obtain ⟨m1, m2, hv⟩ := hz t
    by_cases hm : (z t).missing
    · rw [(P.kf_missing z hm).2.1, (P₁.kf_missing z₁ (m1.mp hm)).2.1,
        (P₂.kf_missing z₂ (m2.mp hm)).2.1, hp]
    · rw [(P.kf_observed z hm).2.1, (P₁.kf_observed z₁ (mt m1.mpr hm)).2.1,
        (P₂.kf_observed z₂ (mt m2.mpr hm)).2.1, hv hm, hp, (c1 t).1, (c2 t).1, h.C.1, h.C.2, h.R.1,
        h.R.2, h.d t ht]
      simp only [mulVec_add, mulVec_sub, mulVec_smul, smul_add, smul_sub]
      abel
  induction t with
  | zero => exact step 0 ht h.mu0
  | succ t ih =>
    refine step _ ht ?_
    rw [(P.kf_pred_succ z t).1, (P₁.kf_pred_succ z₁ t).1, (P₂.kf_pred_succ z₂ t).1, ih (by omega),
      h.A.1, h.A.2, h.b t ht]
    simp only [mulVec_add, mulVec_smul, smul_add]
    abel

theorem PFun.Superposes.smooth (h : PFun.Superposes a c P P₁ P₂ T) (hz : Combines a c z z₁ z₂)
    (j : ℕ) : ∀ {t : ℕ}, t < T → t + j = T - 1 →
    (P.ks z (T - 1) t).mean = a • (P₁.ks z₁ (T - 1) t).mean + c • (P₂.ks z₂ (T - 1) t).mean ∧
    (P₁.ks z₁ (T - 1) t).cov = (P.ks z (T - 1) t).cov ∧
    (P₂.ks z₂ (T - 1) t).cov = (P.ks z (T - 1) t).cov := by
  induction j with
  | zero =>
    intro t ht hj
    obtain rfl : t = T - 1 := by omega
    rw [P.ks_last, P₁.ks_last, P₂.ks_last]
    exact h.filt hz ht
  | succ j ih =>
    intro t ht hj
    obtain ⟨i1, i2, i3⟩ := ih (t := t + 1) (by omega) (by omega)
    obtain ⟨f1, f2, f3⟩ := h.filt hz ht
    rw [P.ks_lt' z (by omega), P₁.ks_lt' z₁ (by omega), P₂.ks_lt' z₂ (by omega)]
    simp only [i1, i2, i3, f1, f2, f3, h.A.1, h.A.2, h.Q.1, h.Q.2, h.b t (by omega), and_self, and_true]
    simp only [mulVec_add, mulVec_sub, mulVec_smul, smul_add, smul_sub]
    abel

end fn

theorem DataCombination.fn {a c : ℝ} {os os₁ os₂ : List (Obs m)} (h : DataCombination a c os os₁ os₂) :
    Combines a c (obsFn os) (obsFn os₁) (obsFn os₂) := by
  obtain ⟨l1, l2, h⟩ := h
  intro t
  by_cases ht : t < os.length
  · rw [obsFn_eq ht, obsFn_eq (by omega), obsFn_eq (by omega)]
    exact h t ht (by omega) (by omega)
  · have hd : ∀ xs : List (Obs m), ¬ t < xs.length → obsFn xs t = ⟨0, fun _ => true⟩ := by
      intro xs hx
      simp [obsFn, hx]
    rw [hd os ht, hd os₁ (by omega), hd os₂ (by omega)]
    refine ⟨Iff.rfl, Iff.rfl, fun _ => by simp⟩

theorem Superposes.fn {a c : ℝ} {p p₁ p₂ : Params n m} {T : ℕ} (h : Superposes a c p p₁ p₂ T)
    (h₁ : p₁.Covers T) (h₂ : p₂.Covers T) : p.Covers T ∧ p.fn.Superposes a c p₁.fn p₂.fn T := by
  obtain ⟨cb, eb⟩ := tv_of_lastDims (a := p.b) (K := T - 1) fun t ht =>
    h.b t (by omega) _ _ (lastDims_eq_ok (h₁.b.mono (by omega))) (lastDims_eq_ok (h₂.b.mono (by omega)))
  obtain ⟨cd, ed⟩ := tv_of_lastDims (a := p.d) (K := T) fun t ht =>
    h.d t ht _ _ (lastDims_eq_ok (h₁.d.mono (by omega))) (lastDims_eq_ok (h₂.d.mono (by omega)))
  refine ⟨⟨by rw [← h.A.1]; exact h₁.A, cb, by rw [← h.Q.1]; exact h₁.Q, by rw [← h.C.1]; exact h₁.C,
    cd, by rw [← h.R.1]; exact h₁.R⟩, ?_, ?_, ?_, ?_, h.S0, h.mu0, fun t ht => eb t (by omega), ed⟩
  · simp only [Params.fn, h.A.1, h.A.2, and_self]
  · simp only [Params.fn, h.Q.1, h.Q.2, and_self]
  · simp only [Params.fn, h.C.1, h.C.2, and_self]
  · simp only [Params.fn, h.R.1, h.R.2, and_self]

/-- **C48, superposition.** Means depend linearly on data, offsets and initial mean taken together: if
those of one run are `a` times those of a second plus `c` times those of a third, for any `a` and `c`,
then so are the means that `filter` and `smooth` return, and all three runs return the same
covariances. -/
theorem C48_superposition {a c : ℝ} {p p₁ p₂ : Params n m} {os os₁ os₂ : List (Obs m)}
    (h : Superposes a c p p₁ p₂ os.length) (hos : DataCombination a c os os₁ os₂) :
    (∀ r₁ r₂, kfFilter p₁ os₁ = .ok r₁ → kfFilter p₂ os₂ = .ok r₂ →
      kfFilter p os = .ok (List.zipWith (fun x y => (a • x.1 + c • y.1, x.2)) r₁ r₂) ∧
      r₁.map Prod.snd = r₂.map Prod.snd) ∧
    (∀ r₁ r₂, kfSmooth p₁ os₁ = .ok r₁ → kfSmooth p₂ os₂ = .ok r₂ →
      kfSmooth p os = .ok (List.zipWith (fun x y => (a • x.1 + c • y.1, x.2)) r₁ r₂) ∧
      r₁.map Prod.snd = r₂.map Prod.snd) := by
  have hz := hos.fn
  obtain ⟨l1, l2, -⟩ := hos
  constructor
  · intro r₁ r₂ h1 h2
    by_cases hne : os = []
    · subst hne
      obtain rfl : os₁ = [] := List.length_eq_zero_iff.mp l1.symm
      obtain rfl : os₂ = [] := List.length_eq_zero_iff.mp l2.symm
      cases h1
      cases h2
      exact ⟨rfl, rfl⟩
    · have hpos := List.length_pos_iff.mpr hne
      have c₁ := kfFilter_covers h1 (List.length_pos_iff.mp (l1 ▸ hpos))
      have c₂ := kfFilter_covers h2 (List.length_pos_iff.mp (l2 ▸ hpos))
      rw [← l1] at c₁
      rw [← l2] at c₂
      obtain ⟨hc, hP⟩ := h.fn c₁ c₂
      rw [kfFilter_eq hc, kfFilter_ok h1, kfFilter_ok h2, ← l1, ← l2, List.zipWith_map,
        List.zipWith_self, List.map_map, List.map_map]
      refine ⟨congrArg Except.ok (List.map_congr_left fun t ht => ?_),
        List.map_congr_left fun t ht => ?_⟩
      · obtain ⟨x, y, -⟩ := hP.filt hz (List.mem_range.mp ht)
        rw [x, y]
      · obtain ⟨-, x, y⟩ := hP.filt hz (List.mem_range.mp ht)
        exact x.trans y.symm
  · intro r₁ r₂ h1 h2
    obtain ⟨n₁, c₁, f₁⟩ := kfSmooth_ok h1
    obtain ⟨n₂, c₂, f₂⟩ := kfSmooth_ok h2
    have hne : os ≠ [] := by
      rintro rfl
      exact n₁ (List.length_eq_zero_iff.mp l1.symm)
    rw [← l1] at c₁ f₁
    rw [← l2] at c₂ f₂
    obtain ⟨hc, hP⟩ := h.fn c₁ c₂
    rw [kfSmooth_eq hne hc, f₁, f₂, List.zipWith_map, List.zipWith_self, List.map_map, List.map_map]
    refine ⟨congrArg Except.ok (List.map_congr_left fun t ht => ?_),
      List.map_congr_left fun t ht => ?_⟩
    · have ht' := List.mem_range.mp ht
      obtain ⟨x, y, -⟩ := hP.smooth hz (os.length - 1 - t) ht' (by omega)
      rw [x, y]
    · have ht' := List.mem_range.mp ht
      obtain ⟨-, x, y⟩ := hP.smooth hz (os.length - 1 - t) ht' (by omega)
      exact x.trans y.symm

/-- **C48, known inputs.** Known inputs can be subtracted: `filter` and `smooth` of the model without
offsets and initial mean, applied to the deviations of the readings from the mean path `x` of the
model, return the deviations of the means from `x`, and the same covariances. -/
theorem C48_known_inputs {p : Params n m} {x : ℕ → Vec n} {os os' : List (Obs m)}
    (hd : p.DefinedFor os.length) (hx : MeanPath p os.length x) (hos : Deviations p x os os') :
    (∃ out out', kfFilter p os = .ok out ∧ kfFilter p.noInputs os' = .ok out' ∧
      out = List.zipWith (fun t r => (x t + r.1, r.2)) (List.range os.length) out') ∧
    (os ≠ [] → ∃ out out', kfSmooth p os = .ok out ∧ kfSmooth p.noInputs os' = .ok out' ∧
      out = List.zipWith (fun t r => (x t + r.1, r.2)) (List.range os.length) out') := by
  have hc := definedFor_iff_covers.mp hd
  obtain ⟨len, hv⟩ := hos
  have hc0 : p.noInputs.Covers os.length := ⟨hc.A, trivial, hc.Q, hc.C, trivial, hc.R⟩
  -- the readings that the model predicts along its mean path
  let mid : List (Obs m) := (List.range os.length).map fun t =>
    ⟨p.fn.C t *ᵥ x t + p.fn.d t, (obsFn os t).mask⟩
  have lmid : mid.length = os.length := by simp [mid]
  have vmid : ∀ t (h : t < mid.length),
      mid[t] = ⟨p.fn.C t *ᵥ x t + p.fn.d t, (obsFn os t).mask⟩ := fun t h => by simp [mid]
  have mmid : ∀ t (h : t < mid.length) (h' : t < os.length), mid[t].missing ↔ os[t].missing := by
    intro t h h'
    rw [vmid, ← obsFn_eq h']
    exact Iff.rfl
  have hs : Superposes 1 1 p p p.noInputs os.length := by
    refine ⟨⟨rfl, rfl⟩, ⟨rfl, rfl⟩, ⟨rfl, rfl⟩, ⟨rfl, rfl⟩, ⟨rfl, rfl⟩, ?_, ?_, ?_⟩
    · simp [Params.noInputs]
    · rintro t - b₁ b₂ h1 ⟨⟩
      rw [one_smul, smul_zero, add_zero, h1]
    · rintro t - b₁ b₂ h1 ⟨⟩
      rw [one_smul, smul_zero, add_zero, h1]
  have hcomb : DataCombination 1 1 os mid os' := by
    refine ⟨lmid.symm, len.symm, fun t h h1 h2 => ⟨(mmid t h1 h).symm, (hv t h h2).1.symm, fun hm => ?_⟩⟩
    rw [(hv t h h2).2 hm _ _ (lastDims_eq_ok (hc.C.mono (by omega)))
      (lastDims_eq_ok (hc.d.mono (by omega))), vmid, one_smul, one_smul]
    simp only [Params.fn]
    abel
  have h47 := C47_zero_innovations p mid x (by rw [lmid]; exact hx) (by
    intro t h hm C d hC hd
    rw [vmid]
    have h' : t < os.length := by omega
    rw [lastDims_eq_ok (hc.C.mono (by omega))] at hC
    rw [lastDims_eq_ok (hc.d.mono (by omega))] at hd
    cases hC
    cases hd
    rfl)
  have fin : ∀ r₁ r₂ : List (Vec n × Mat n n), r₁.map Prod.fst = (List.range mid.length).map x →
      r₁.map Prod.snd = r₂.map Prod.snd →
      List.zipWith (fun x y => ((1 : ℝ) • x.1 + (1 : ℝ) • y.1, x.2)) r₁ r₂
        = List.zipWith (fun t r => (x t + r.1, r.2)) (List.range os.length) r₂ := by
    intro r₁ r₂ e1 e2
    rw [lmid] at e1
    have n1 : r₁.length = os.length := by simpa using congrArg List.length e1
    have n2 : r₁.length = r₂.length := by simpa using congrArg List.length e2
    refine List.ext_getElem (by simp [n1]) fun t h1 h2 => ?_
    have k1 : t < r₁.length := by simp at h1; omega
    have k2 : t < r₂.length := by omega
    have g1 : r₁[t].1 = x t := by
      have := congrArg (fun l => l[t]?) e1
      simpa [k1, n1 ▸ k1] using this
    have g2 : r₁[t].2 = r₂[t].2 := by
      have := congrArg (fun l => l[t]?) e2
      simpa [k1, k2] using this
    simp only [List.getElem_zipWith, List.getElem_range, one_smul, g1, g2]
  constructor
  · have e1 := kfFilter_eq (os := mid) (lmid ▸ hc)
    have e2 := kfFilter_eq (os := os') (len ▸ hc0)
    obtain ⟨a1, a2⟩ := (C48_superposition hs hcomb).1 _ _ e1 e2
    exact ⟨_, _, a1, e2, fin _ _ (h47.1 _ e1) a2⟩
  · intro hne
    have q1 : mid ≠ [] := fun e => hne (List.length_eq_zero_iff.mp (by rw [← lmid, e]; rfl))
    have q2 : os' ≠ [] := fun e => hne (List.length_eq_zero_iff.mp (by rw [← len, e]; rfl))
    have e1 := kfSmooth_eq q1 (lmid ▸ hc)
    have e2 := kfSmooth_eq q2 (len ▸ hc0)
    obtain ⟨a1, a2⟩ := (C48_superposition hs hcomb).2 _ _ e1 e2
    exact ⟨_, _, a1, e2, fin _ _ (h47.2 _ e1) a2⟩

/-- A walk pushed by 3 at every step, from 5, read with an offset 2. -/
noncomputable def exPushed : Params 1 1 where
  A := .const 1
  b := .const ![3]
  Q := .const 1
  C := .const 1
  d := .const ![2]
  R := .const 1
  mu0 := ![5]
  S0 := 1

/-- The hypotheses of `C48_known_inputs` hold for the example and data of any length: the path is
`5 + 3 t`. -/
example (zs : List ℝ) :
    exPushed.DefinedFor (zs.map fun z => (⟨![z], fun _ => false⟩ : Obs 1)).length ∧
    MeanPath exPushed zs.length (fun t => ![5 + 3 * (t : ℝ)]) ∧
    Deviations exPushed (fun t => ![5 + 3 * (t : ℝ)]) (zs.map fun z => ⟨![z], fun _ => false⟩)
      ((List.range zs.length).map fun t => ⟨![zs.getD t 0 - (5 + 3 * t) - 2], fun _ => false⟩) := by
  refine ⟨⟨?_, ?_, ?_, ?_, ?_, ?_⟩, ⟨?_, ?_⟩, by simp, fun t h h' => ⟨?_, ?_⟩⟩
  all_goals try (intro t ht; exact ⟨_, rfl⟩)
  · simp [exPushed]
  · rintro t - _ _ ⟨⟩ ⟨⟩
    ext i
    fin_cases i
    simp only [one_mulVec]
    simp
    ring
  · simp [Obs.missing]
  · rintro - _ _ ⟨⟩ ⟨⟩
    ext i
    fin_cases i
    rw [List.length_map] at h
    simp [h]
    ring

end Verif
