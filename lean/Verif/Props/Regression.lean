import Verif.Spec.Regression
import Verif.Linalg.LogDet
import Verif.Proofs.Gaps
import Verif.Props.Posterior

/-!
# C72: a state that does not change is Bayesian linear regression
-/

open Matrix

namespace Verif

variable {n m : ℕ}

/-- Information form of one step of the filter. -/
theorem PFun.kf_information (P : PFun n m) (z : ℕ → Obs m) {t : ℕ}
    (hP : (P.kf z t).predCov.PosDef) (hR : (P.R t).PosDef) (h : ¬ (z t).missing) :
    ((P.kf z t).predCov⁻¹ + (P.C t)ᵀ * (P.R t)⁻¹ * P.C t) * (P.kf z t).filtCov = 1 ∧
    ((P.kf z t).predCov⁻¹ + (P.C t)ᵀ * (P.R t)⁻¹ * P.C t) *ᵥ (P.kf z t).filtMean
      = (P.kf z t).predCov⁻¹ *ᵥ (P.kf z t).predMean
        + ((P.C t)ᵀ * (P.R t)⁻¹) *ᵥ ((z t).val - P.d t) := by
  obtain ⟨-, e1, e2⟩ := P.kf_observed z h
  obtain ⟨i1, i2, -⟩ := updated_inv hP hR (P.C t)
  rw [e1, e2]
  refine ⟨i1, ?_⟩
  rw [mulVec_add, mulVec_mulVec, i2, add_mulVec, ← sub_sub, sub_right_comm, mulVec_sub _ (_ - _),
    mulVec_mulVec, add_assoc]
  congr 1
  abel

theorem Params.Static.fn {p : Params n m} (h : p.Static) :
    p.fn.A = (fun _ => 1) ∧ p.fn.b = (fun _ => 0) ∧ p.fn.Q = (fun _ => 0) := by
  refine ⟨?_, ?_, ?_⟩
  · simp only [Params.fn, h.A]; rfl
  · simp only [Params.fn, h.b]; rfl
  · simp only [Params.fn, h.Q]; rfl

theorem Params.Observes.covers {p : Params n m} {C : ℕ → Mat m n} {d : ℕ → Vec m}
    {R : ℕ → Mat m m} {T : ℕ} (h : p.Observes C d R T) (hs : p.Static) : p.Covers T :=
  ⟨by rw [hs.A]; trivial, by rw [hs.b]; trivial, by rw [hs.Q]; trivial, (tv_of_lastDims h.C).1,
    (tv_of_lastDims h.d).1, (tv_of_lastDims h.R).1⟩

variable {p : Params n m} {C : ℕ → Mat m n} {d : ℕ → Vec m} {R : ℕ → Mat m m} {os : List (Obs m)}

theorem regression_filt (hs : p.Static) (h : p.Observes C d R os.length) (hS : p.S0.PosDef)
    (hR : ∀ t, t < os.length → (R t).PosDef) {t : ℕ} (ht : t < os.length) :
    (regPrecision p.S0 C R os (t + 1)).PosDef ∧
    (p.fn.kf (obsFn os) t).filtCov = (regPrecision p.S0 C R os (t + 1))⁻¹ ∧
    (p.fn.kf (obsFn os) t).filtMean
      = (regPrecision p.S0 C R os (t + 1))⁻¹ *ᵥ regInfo p.mu0 p.S0 C d R os (t + 1) := by
  have step : ∀ t, t < os.length → (regPrecision p.S0 C R os t).PosDef →
      (p.fn.kf (obsFn os) t).predCov = (regPrecision p.S0 C R os t)⁻¹ →
      (p.fn.kf (obsFn os) t).predMean
        = (regPrecision p.S0 C R os t)⁻¹ *ᵥ regInfo p.mu0 p.S0 C d R os t →
      (regPrecision p.S0 C R os (t + 1)).PosDef ∧
      (p.fn.kf (obsFn os) t).filtCov = (regPrecision p.S0 C R os (t + 1))⁻¹ ∧
      (p.fn.kf (obsFn os) t).filtMean
        = (regPrecision p.S0 C R os (t + 1))⁻¹ *ᵥ regInfo p.mu0 p.S0 C d R os (t + 1) := by
    intro t ht hpd e1 e2
    have hu : IsUnit (regPrecision p.S0 C R os t).det := hpd.det_pos.ne'.isUnit
    have hCt : p.fn.C t = C t := (tv_of_lastDims h.C).2 t ht
    have hdt : p.fn.d t = d t := (tv_of_lastDims h.d).2 t ht
    have hRt : p.fn.R t = R t := (tv_of_lastDims h.R).2 t ht
    by_cases hm : (obsFn os t).missing
    · have hL : regPrecision p.S0 C R os (t + 1) = regPrecision p.S0 C R os t := by
        rw [obsFn_eq ht] at hm
        simp only [regPrecision, Finset.sum_range_succ, List.getElem?_eq_getElem ht, if_pos hm,
          add_zero]
      have hI : regInfo p.mu0 p.S0 C d R os (t + 1) = regInfo p.mu0 p.S0 C d R os t := by
        rw [obsFn_eq ht] at hm
        simp only [regInfo, Finset.sum_range_succ, List.getElem?_eq_getElem ht, if_pos hm,
          add_zero]
      obtain ⟨-, m1, m2⟩ := p.fn.kf_missing (obsFn os) hm
      rw [hL, hI, m1, m2]
      exact ⟨hpd, e1, e2⟩
    · have hL : regPrecision p.S0 C R os (t + 1)
          = regPrecision p.S0 C R os t + (C t)ᵀ * (R t)⁻¹ * C t := by
        rw [obsFn_eq ht] at hm
        simp only [regPrecision, Finset.sum_range_succ, List.getElem?_eq_getElem ht, if_neg hm,
          add_assoc]
      have hI : regInfo p.mu0 p.S0 C d R os (t + 1)
          = regInfo p.mu0 p.S0 C d R os t + ((C t)ᵀ * (R t)⁻¹) *ᵥ ((obsFn os t).val - d t) := by
        rw [obsFn_eq ht] at hm ⊢
        simp only [regInfo, Finset.sum_range_succ, List.getElem?_eq_getElem ht, if_neg hm,
          add_assoc]
      have hpd' : (regPrecision p.S0 C R os (t + 1)).PosDef := by
        rw [hL]
        refine hpd.add_posSemidef ?_
        have := posSemidef_conj' (hR t ht).inv.posSemidef (C t)ᵀ
        rwa [transpose_transpose] at this
      obtain ⟨i1, i2⟩ := p.fn.kf_information (obsFn os) (t := t) (by rw [e1]; exact hpd.inv)
        (by rw [hRt]; exact hR t ht) hm
      rw [hCt, hRt, e1, nonsing_inv_nonsing_inv _ hu, ← hL] at i1 i2
      rw [e2, mulVec_mulVec, mul_nonsing_inv _ hu, one_mulVec, hdt, ← hI] at i2
      refine ⟨hpd', (inv_eq_right_inv i1).symm, ?_⟩
      rw [← i2, mulVec_mulVec, nonsing_inv_mul _ hpd'.det_pos.ne'.isUnit, one_mulVec]
  obtain ⟨fA, fb, fQ⟩ := hs.fn
  induction t with
  | zero =>
    have hu : IsUnit p.S0.det := hS.det_pos.ne'.isUnit
    apply step 0 ht
    · simp only [regPrecision, Finset.range_zero, Finset.sum_empty, add_zero]
      exact hS.inv
    · simp only [regPrecision, Finset.range_zero, Finset.sum_empty, add_zero,
        nonsing_inv_nonsing_inv _ hu]
      rfl
    · simp only [regPrecision, regInfo, Finset.range_zero, Finset.sum_empty, add_zero,
        nonsing_inv_nonsing_inv _ hu, mulVec_mulVec, mul_nonsing_inv _ hu, one_mulVec]
      rfl
  | succ t ih =>
    obtain ⟨h1, h2, h3⟩ := ih (by omega)
    apply step _ ht h1
    · rw [(p.fn.kf_pred_succ (obsFn os) t).2, fA, fQ, h2]
      simp
    · rw [(p.fn.kf_pred_succ (obsFn os) t).1, fA, fb, h3]
      simp

theorem static_smooth (hs : p.Static) {z : ℕ → Obs m} {T : ℕ}
    (hf : ∀ t, t ≤ T → (p.fn.kf z t).filtCov.PosDef) {t : ℕ} (ht : t ≤ T) :
    (p.fn.ks z T t).mean = (p.fn.kf z T).filtMean ∧
      (p.fn.ks z T t).cov = (p.fn.kf z T).filtCov := by
  obtain ⟨fA, fb, fQ⟩ := hs.fn
  obtain ⟨j, hj⟩ : ∃ j, T = t + j := ⟨T - t, by omega⟩
  induction j generalizing t with
  | zero =>
    obtain rfl : t = T := by omega
    rw [p.fn.ks_last]
    exact ⟨rfl, rfl⟩
  | succ j ih =>
    obtain ⟨i1, i2⟩ := ih (t := t + 1) (by omega) (by omega)
    have hu : IsUnit (p.fn.kf z t).filtCov.det := (hf t (by omega)).det_pos.ne'.isUnit
    have hg : gain (p.fn.kf z t).filtCov (0 : Mat n n) (1 : Mat n n) = 1 := by
      rw [gain, transpose_one, Matrix.mul_one, Matrix.one_mul, Matrix.mul_one, add_zero,
        pinv_eq_inv hu, mul_nonsing_inv _ hu]
    rw [p.fn.ks_lt' z (by omega)]
    simp only [fA, fb, fQ, hg, i1, i2]
    simp

/-- **C72.** For a state that does not change, positive definite prior and observation covariances
and any data with any missing rows, row `t` of `filter` is the posterior of Bayesian linear
regression with the rows `0 … t`, and every row of `smooth` is the one with all rows. -/
theorem C72_linear_regression (hs : p.Static) (h : p.Observes C d R os.length) (hS : p.S0.PosDef)
    (hR : ∀ t, t < os.length → (R t).PosDef) :
    (∀ out, kfFilter p os = .ok out → ∀ t r, out[t]? = some r →
      (regPrecision p.S0 C R os (t + 1)).PosDef ∧
      r.2 = (regPrecision p.S0 C R os (t + 1))⁻¹ ∧
      r.1 = (regPrecision p.S0 C R os (t + 1))⁻¹ *ᵥ regInfo p.mu0 p.S0 C d R os (t + 1)) ∧
    (∀ out, kfSmooth p os = .ok out → ∀ r ∈ out,
      (regPrecision p.S0 C R os os.length).PosDef ∧
      r.2 = (regPrecision p.S0 C R os os.length)⁻¹ ∧
      r.1 = (regPrecision p.S0 C R os os.length)⁻¹ *ᵥ regInfo p.mu0 p.S0 C d R os os.length) := by
  constructor
  · intro out ho t r hr
    obtain ⟨ht, -, rfl⟩ := kfFilter_row ho hr
    exact regression_filt hs h hS hR ht
  · intro out ho r hr
    obtain ⟨t, hr⟩ := List.mem_iff_getElem?.mp hr
    obtain ⟨ht, -, rfl⟩ := kfSmooth_row ho hr
    obtain ⟨e1, e2⟩ := static_smooth hs (z := obsFn os) (T := os.length - 1) (fun s hsl => by
      obtain ⟨q1, q2, -⟩ := regression_filt hs h hS hR (t := s) (by omega)
      rw [q2]
      exact q1.inv) (t := t) (by omega)
    rw [e1, e2]
    have := regression_filt hs h hS hR (t := os.length - 1) (by omega)
    rwa [show os.length - 1 + 1 = os.length by omega] at this

theorem regPrecision_perm {C' : ℕ → Mat m n} {R' : ℕ → Mat m m} {os' : List (Obs m)} {T : ℕ}
    (S : Mat n n) (σ : Equiv.Perm (Fin T)) (ho : ∀ i : Fin T, os'[(i : ℕ)]? = os[(σ i : ℕ)]?)
    (hC : ∀ i : Fin T, C' i = C (σ i)) (hR : ∀ i : Fin T, R' i = R (σ i)) :
    regPrecision S C' R' os' T = regPrecision S C R os T := by
  simp only [regPrecision, Finset.sum_range]
  congr 1
  symm
  rw [← Equiv.sum_comp σ]
  refine Finset.sum_congr rfl fun i _ => ?_
  rw [ho, hC, hR]

theorem regInfo_perm {C' : ℕ → Mat m n} {d' : ℕ → Vec m} {R' : ℕ → Mat m m}
    {os' : List (Obs m)} {T : ℕ} (mu : Vec n)
    (S : Mat n n) (σ : Equiv.Perm (Fin T)) (ho : ∀ i : Fin T, os'[(i : ℕ)]? = os[(σ i : ℕ)]?)
    (hC : ∀ i : Fin T, C' i = C (σ i)) (hd : ∀ i : Fin T, d' i = d (σ i))
    (hR : ∀ i : Fin T, R' i = R (σ i)) :
    regInfo mu S C' d' R' os' T = regInfo mu S C d R os T := by
  simp only [regInfo, Finset.sum_range]
  congr 1
  symm
  rw [← Equiv.sum_comp σ]
  refine Finset.sum_congr rfl fun i _ => ?_
  rw [ho, hC, hd, hR]

/-- **C72 (order of the data).** For a state that does not change, the order of the rows (with their
observation parameters) does not matter: the last row of `filter` stays the same. -/
theorem C72_order_of_rows {p' : Params n m} {C' : ℕ → Mat m n} {d' : ℕ → Vec m} {R' : ℕ → Mat m m}
    {os' : List (Obs m)} (hs : p.Static) (hs' : p'.Static) (h : p.Observes C d R os.length)
    (h' : p'.Observes C' d' R' os.length) (hmu : p'.mu0 = p.mu0) (hS0 : p'.S0 = p.S0)
    (hS : p.S0.PosDef) (hR : ∀ t, t < os.length → (R t).PosDef) (hl : os'.length = os.length)
    (σ : Equiv.Perm (Fin os.length)) (ho : ∀ i : Fin os.length, os'[(i : ℕ)]? = os[(σ i : ℕ)]?)
    (hC : ∀ i : Fin os.length, C' i = C (σ i)) (hd : ∀ i : Fin os.length, d' i = d (σ i))
    (hRσ : ∀ i : Fin os.length, R' i = R (σ i)) (out out' : List (Vec n × Mat n n))
    (hf : kfFilter p os = .ok out) (hf' : kfFilter p' os' = .ok out') :
    out'.getLast? = out.getLast? := by
  have e : ∀ {q : Params n m} {l : List (Obs m)} {o : List (Vec n × Mat n n)},
      kfFilter q l = .ok o → o.length = l.length := fun hq => by rw [kfFilter_ok hq]; simp
  rw [List.getLast?_eq_getElem?, List.getLast?_eq_getElem?, e hf, e hf', hl]
  by_cases hz : os.length = 0
  · rw [List.getElem?_eq_none (by rw [e hf']; omega), List.getElem?_eq_none (by rw [e hf]; omega)]
  have hlt : os.length - 1 < out.length := by rw [e hf]; omega
  have hlt' : os.length - 1 < out'.length := by rw [e hf']; omega
  obtain ⟨-, a1, a2⟩ := (C72_linear_regression hs h hS hR).1 out hf _ _
    (List.getElem?_eq_getElem hlt)
  obtain ⟨-, b1, b2⟩ := (C72_linear_regression (os := os') hs' (by rwa [hl]) (by rwa [hS0])
    (fun t ht => by
      have := hRσ ⟨t, by omega⟩
      simp only at this
      rw [this]
      exact hR _ (σ ⟨t, by omega⟩).2)).1 out' hf' _ _ (List.getElem?_eq_getElem hlt')
  rw [show os.length - 1 + 1 = os.length by omega] at a1 a2 b1 b2
  rw [hmu, hS0, regPrecision_perm _ σ ho hC hRσ, regInfo_perm _ _ σ ho hC hd hRσ] at b2
  rw [hS0, regPrecision_perm _ σ ho hC hRσ] at b1
  rw [List.getElem?_eq_getElem hlt, List.getElem?_eq_getElem hlt']
  congr 1
  exact Prod.ext (b2.trans a2.symm) (b1.trans a1.symm)

/-- Regression of a line: intercept and slope, one observation per time step at the position `t`. -/
noncomputable def exLine : Params 2 1 where
  A := .const 1
  b := .const 0
  Q := .const 0
  C := .seq [!![1, 0], !![1, 1], !![1, 2]]
  d := .const 0
  R := .const 1
  mu0 := ![3, 1]
  S0 := 1

/-- It meets the hypotheses of C72. -/
example : exLine.Static ∧
    exLine.Observes (fun t => !![1, (t : ℝ)]) (fun _ => 0) (fun _ => 1) 3 ∧ exLine.S0.PosDef ∧
    (1 : Mat 1 1).PosDef := by
  refine ⟨⟨rfl, rfl, rfl⟩, ⟨?_, fun _ _ => rfl, fun _ _ => rfl⟩, PosDef.one, PosDef.one⟩
  intro t ht
  have : t = 0 ∨ t = 1 ∨ t = 2 := by omega
  rcases this with rfl | rfl | rfl <;> simp [exLine, lastDims]

end Verif
