import Verif.Proofs.Sensors
import Verif.Props.Runs
import Verif.Props.EmMonotone

/-!
# C67, C68: one and several sensors
-/

open Matrix

namespace Verif

variable {n m m₁ m₂ : ℕ}

/-! ### C67 -/

/-- **C67.** If the quantity `a · x` is a combination `w` of the observed components, then the
variance that `filter` reports for it after an observation is at most the variance `w · R w` of the
observation noise in this combination; so is the variance that `smooth` reports. -/
theorem C67_never_worse_than_sensor (p : Params n m) (os : List (Obs m)) (hpsd : p.PSD os.length)
    {t : ℕ} {o : Obs m} (ho : os[t]? = some o) (hobs : ¬ o.missing) {C : Mat m n} {R : Mat m m}
    (hC : lastDims p.C t = .ok C) (hR : lastDims p.R t = .ok R) {a : Vec n} {w : Vec m}
    (haw : ∀ x : Vec n, a ⬝ᵥ x = w ⬝ᵥ (C *ᵥ x)) :
    (∀ out r, kfFilter p os = .ok out → out[t]? = some r → a ⬝ᵥ (r.2 *ᵥ a) ≤ w ⬝ᵥ (R *ᵥ w)) ∧
    (∀ out r, kfSmooth p os = .ok out → out[t]? = some r → a ⬝ᵥ (r.2 *ᵥ a) ≤ w ⬝ᵥ (R *ᵥ w)) := by
  obtain ⟨ht, ho'⟩ := List.getElem?_eq_some_iff.mp ho
  have hz : ¬ (obsFn os t).missing := by rwa [obsFn_eq ht, ho']
  have hw : Cᵀ *ᵥ w = a := by
    refine dotProduct_eq _ _ fun x => ?_
    rw [haw x, dotProduct_mulVec, ← mulVec_transpose]
  have key : p.Covers os.length → a ⬝ᵥ ((p.fn.kf (obsFn os) t).filtCov *ᵥ a) ≤ w ⬝ᵥ (R *ᵥ w) := by
    intro hc
    have hP := hpsd.fn hc
    rw [(p.fn.kf_observed (obsFn os) hz).2.2, show p.fn.R t = R from lastDims_get hc.R ht hR,
      show p.fn.C t = C from lastDims_get hc.C ht hC]
    exact corrected_form_le (hP.pred ht _) (hpsd.R t ht R hR) C hw
  constructor
  · intro out r h hr
    obtain ⟨-, hc, rfl⟩ := kfFilter_row h hr
    exact key hc
  · intro out r h hr
    obtain ⟨-, hc, rfl⟩ := kfSmooth_row h hr
    have hP := hpsd.fn hc
    obtain ⟨T, hT⟩ : ∃ T, os.length = T + 1 := ⟨os.length - 1, by omega⟩
    have h1 := form_nonneg (PFun.PSD.smooth_le_filt (T := os.length - 1) (t := t)
      (by rwa [show os.length - 1 + 1 = os.length by omega]) (by omega) (obsFn os)) a
    rw [sub_mulVec, dotProduct_sub] at h1
    have := key hc
    simp only
    linarith

/-- **C67, exact sensor.** If a sensor without noise determines the state (`G C = 1`), the reading
is one the model can produce (`z = C x + d`) and the state before the reading is uncertain in every
direction (initial covariance, or transition covariance of the step before, positive definite), then
`filter` returns the state `x` with covariance 0. -/
theorem C67_exact_sensor (p : Params n m) (os : List (Obs m)) (hpsd : p.PSD os.length)
    {t : ℕ} {o : Obs m} (ho : os[t]? = some o) (hobs : ¬ o.missing) {C : Mat m n} {d : Vec m}
    (hC : lastDims p.C t = .ok C) (hd : lastDims p.d t = .ok d) (hR : lastDims p.R t = .ok 0)
    {G : Mat n m} (hG : G * C = 1) {x : Vec n} (hx : o.val = C *ᵥ x + d)
    (hunc : (t = 0 ∧ p.S0.PosDef) ∨ (∃ s Q, t = s + 1 ∧ lastDims p.Q s = .ok Q ∧ Q.PosDef))
    {out : List (Vec n × Mat n n)} {r : Vec n × Mat n n} (h : kfFilter p os = .ok out)
    (hr : out[t]? = some r) : r = (x, 0) := by
  obtain ⟨ht, ho'⟩ := List.getElem?_eq_some_iff.mp ho
  obtain ⟨-, hc, rfl⟩ := kfFilter_row h hr
  have hz : ¬ (obsFn os t).missing := by rwa [obsFn_eq ht, ho']
  have hP := hpsd.fn hc
  have hpred := hP.pred ht (obsFn os)
  have hpd : (p.fn.kf (obsFn os) t).predCov.PosDef := by
    rcases hunc with ⟨rfl, h0⟩ | ⟨s, Q, rfl, hQ, hQd⟩
    · exact h0
    · rw [(p.fn.kf_pred_succ (obsFn os) s).2, show p.fn.Q s = Q from lastDims_get hc.Q (by omega) hQ]
      exact PosDef.posSemidef_add (posSemidef_conj' (hP.filt (by omega) _) _) hQd
  obtain ⟨-, em, ec⟩ := p.fn.kf_observed (obsFn os) hz
  rw [show p.fn.R t = 0 from lastDims_get hc.R ht hR, show p.fn.C t = C from lastDims_get hc.C ht hC,
    show p.fn.d t = d from lastDims_get hc.d ht hd] at em
  rw [show p.fn.R t = 0 from lastDims_get hc.R ht hR, show p.fn.C t = C from lastDims_get hc.C ht hC]
    at ec
  set P := (p.fn.kf (obsFn os) t).predCov with hPdef
  have hcov : P - Verif.gain P 0 C * C * P = 0 := by
    have h0 : ((P - Verif.gain P 0 C * C * P)).PosSemidef := updated_posSemidef C hpred PosSemidef.zero
    have hj := joseph C hpred PosSemidef.zero G
    rw [hG, sub_self, Matrix.zero_mul, Matrix.zero_mul, Matrix.mul_zero, Matrix.zero_mul, zero_add] at hj
    exact posSemidef_add_eq_zero h0 (posSemidef_conj' (innov_posSemidef C hpred PosSemidef.zero) _) hj.symm
  have hKC : Verif.gain P 0 C * C = 1 := by
    have hu : IsUnit P.det := (Matrix.isUnit_iff_isUnit_det _).mp hpd.isUnit
    have e : Verif.gain P 0 C * C * P = 1 * P := by rw [Matrix.one_mul]; exact (sub_eq_zero.mp hcov).symm
    rw [← Matrix.mul_nonsing_inv_cancel_right _ (Verif.gain P 0 C * C) hu, e,
      Matrix.mul_nonsing_inv_cancel_right _ _ hu]
  refine Prod.ext ?_ ?_
  · show (p.fn.kf (obsFn os) t).filtMean = x
    have hv : (obsFn os t).val = C *ᵥ x + d := by rw [obsFn_eq ht, ho', hx]
    rw [em, hv, add_sub_add_right_eq_sub, ← mulVec_sub, mulVec_mulVec, hKC, one_mulVec]
    abel
  · show (p.fn.kf (obsFn os) t).filtCov = 0
    rw [ec, hcov]

/-- If `P` is positive definite, the gain for an exact sensor reproduces every reading the sensor can
give. -/
theorem mul_gain_zero_mul {P : Mat n n} (hP : P.PosDef) (C : Mat m n) :
    C * Verif.gain P 0 C * C = C := by
  obtain ⟨S, hS⟩ : ∃ S, S = C * P * Cᵀ := ⟨_, rfl⟩
  obtain ⟨W, hW⟩ : ∃ W, W = 1 - S * pinv S := ⟨_, rfl⟩
  have hWS : W * S = 0 := by
    rw [hW, Matrix.sub_mul, Matrix.one_mul, (pinv_penrose S).1, sub_self]
  have hz : (W * C) * P * (W * C)ᵀ = 0 := by
    rw [transpose_mul]
    calc W * C * P * (Cᵀ * Wᵀ) = W * (C * P * Cᵀ) * Wᵀ := by simp only [Matrix.mul_assoc]
      _ = 0 := by rw [← hS, hWS, Matrix.zero_mul]
  have hWC : W * C = 0 := by
    obtain ⟨V, hV⟩ : ∃ V, V = W * C := ⟨_, rfl⟩
    rw [← hV] at hz ⊢
    ext i j
    by_contra hne
    have hne' : V i ≠ 0 := fun h0 => hne (by rw [h0]; rfl)
    have hpos : 0 < V i ⬝ᵥ (P *ᵥ V i) := by
      simpa using hP.dotProduct_mulVec_pos hne'
    have : V i ⬝ᵥ (P *ᵥ V i) = (V * P * Vᵀ) i i := by
      rw [Matrix.mul_assoc, Matrix.mul_apply]
      simp only [dotProduct, mulVec, Matrix.mul_apply, transpose_apply]
    rw [this, hz] at hpos
    exact lt_irrefl _ hpos
  have e : C * Verif.gain P 0 C = S * pinv S := by
    rw [Verif.gain, add_zero, ← hS, ← Matrix.mul_assoc, ← Matrix.mul_assoc, ← hS]
  rw [hW, Matrix.sub_mul, Matrix.one_mul] at hWC
  rw [e]
  exact (sub_eq_zero.mp hWC).symm

/-- **C67, exact reading.** A sensor without noise, whatever it measures: if the reading is one it can
give and the state before the reading is uncertain in every direction, then the filtered mean
reproduces the reading and the filtered covariance of the quantity read is 0. -/
theorem C67_exact_reading (p : Params n m) (os : List (Obs m)) (hpsd : p.PSD os.length)
    {t : ℕ} {o : Obs m} (ho : os[t]? = some o) (hobs : ¬ o.missing) {C : Mat m n} {d : Vec m}
    (hC : lastDims p.C t = .ok C) (hd : lastDims p.d t = .ok d) (hR : lastDims p.R t = .ok 0)
    {x : Vec n} (hx : o.val = C *ᵥ x + d)
    (hunc : (t = 0 ∧ p.S0.PosDef) ∨ (∃ s Q, t = s + 1 ∧ lastDims p.Q s = .ok Q ∧ Q.PosDef))
    {out : List (Vec n × Mat n n)} {r : Vec n × Mat n n} (h : kfFilter p os = .ok out)
    (hr : out[t]? = some r) : C *ᵥ r.1 + d = o.val ∧ C * r.2 = 0 := by
  obtain ⟨ht, ho'⟩ := List.getElem?_eq_some_iff.mp ho
  obtain ⟨-, hc, rfl⟩ := kfFilter_row h hr
  have hz : ¬ (obsFn os t).missing := by rwa [obsFn_eq ht, ho']
  have hP := hpsd.fn hc
  have hpd : (p.fn.kf (obsFn os) t).predCov.PosDef := by
    rcases hunc with ⟨rfl, h0⟩ | ⟨s, Q, rfl, hQ, hQd⟩
    · exact h0
    · rw [(p.fn.kf_pred_succ (obsFn os) s).2, show p.fn.Q s = Q from lastDims_get hc.Q (by omega) hQ]
      exact PosDef.posSemidef_add (posSemidef_conj' (hP.filt (by omega) _) _) hQd
  obtain ⟨-, em, ec⟩ := p.fn.kf_observed (obsFn os) hz
  rw [show p.fn.R t = 0 from lastDims_get hc.R ht hR, show p.fn.C t = C from lastDims_get hc.C ht hC,
    show p.fn.d t = d from lastDims_get hc.d ht hd] at em
  rw [show p.fn.R t = 0 from lastDims_get hc.R ht hR, show p.fn.C t = C from lastDims_get hc.C ht hC]
    at ec
  have hK := mul_gain_zero_mul hpd C
  constructor
  · show C *ᵥ (p.fn.kf (obsFn os) t).filtMean + d = o.val
    have hv : (obsFn os t).val = C *ᵥ x + d := by rw [obsFn_eq ht, ho', hx]
    rw [em, hv, add_sub_add_right_eq_sub, ← mulVec_sub, mulVec_add, mulVec_mulVec, mulVec_mulVec,
      hK, mulVec_sub, hx]
    abel
  · show C * (p.fn.kf (obsFn os) t).filtCov = 0
    rw [ec, Matrix.mul_sub, ← Matrix.mul_assoc, ← Matrix.mul_assoc, hK, sub_self]

/-- **C67, exact reading, any value.** `P` is the covariance of the state before the reading: the
initial covariance, or `A P' A' + Q` with the filtered covariance `P'` of the time before.  If the
sensor has no noise and the predicted covariance `C P C'` of the reading is invertible, then the
filtered mean reproduces the reading, whatever it is, and the filtered covariance of the quantity
read is 0. -/
theorem C67_exact_any_reading (p : Params n m) (os : List (Obs m)) {t : ℕ} {o : Obs m}
    (ho : os[t]? = some o) (hobs : ¬ o.missing) {C : Mat m n} {d : Vec m}
    (hC : lastDims p.C t = .ok C) (hd : lastDims p.d t = .ok d) (hR : lastDims p.R t = .ok 0)
    {out : List (Vec n × Mat n n)} {r : Vec n × Mat n n} (h : kfFilter p os = .ok out)
    (hr : out[t]? = some r) {P : Mat n n}
    (hP : (t = 0 ∧ P = p.S0) ∨ (∃ s A Q r', t = s + 1 ∧ lastDims p.A s = .ok A ∧
      lastDims p.Q s = .ok Q ∧ out[s]? = some r' ∧ P = A * r'.2 * Aᵀ + Q))
    (hinv : IsUnit (C * P * Cᵀ).det) : C *ᵥ r.1 + d = o.val ∧ C * r.2 = 0 := by
  obtain ⟨ht, ho'⟩ := List.getElem?_eq_some_iff.mp ho
  obtain ⟨-, hc, rfl⟩ := kfFilter_row h hr
  have hz : ¬ (obsFn os t).missing := by rwa [obsFn_eq ht, ho']
  have hpd : (p.fn.kf (obsFn os) t).predCov = P := by
    rcases hP with ⟨rfl, rfl⟩ | ⟨s, A, Q, r', rfl, hA, hQ, hr', rfl⟩
    · rfl
    · obtain ⟨-, -, rfl⟩ := kfFilter_row h hr'
      rw [(p.fn.kf_pred_succ (obsFn os) s).2, show p.fn.Q s = Q from lastDims_get hc.Q (by omega) hQ,
        show p.fn.A s = A from lastDims_get hc.A (by omega) hA]
  obtain ⟨-, em, ec⟩ := p.fn.kf_observed (obsFn os) hz
  rw [show p.fn.R t = 0 from lastDims_get hc.R ht hR, show p.fn.C t = C from lastDims_get hc.C ht hC,
    show p.fn.d t = d from lastDims_get hc.d ht hd, hpd] at em
  rw [show p.fn.R t = 0 from lastDims_get hc.R ht hR, show p.fn.C t = C from lastDims_get hc.C ht hC,
    hpd] at ec
  have hK : C * Verif.gain P 0 C = 1 := by
    rw [Verif.gain, add_zero, pinv_eq_inv hinv, ← Matrix.mul_assoc, ← Matrix.mul_assoc,
      Matrix.mul_nonsing_inv _ hinv]
  constructor
  · show C *ᵥ (p.fn.kf (obsFn os) t).filtMean + d = o.val
    have hv : (obsFn os t).val = o.val := by rw [obsFn_eq ht, ho']
    rw [em, hv, mulVec_add, mulVec_mulVec, hK, one_mulVec]
    abel
  · show C * (p.fn.kf (obsFn os) t).filtCov = 0
    rw [ec, Matrix.mul_sub, ← Matrix.mul_assoc, ← Matrix.mul_assoc, hK, Matrix.one_mul, sub_self]

/-- A sensor that reads one coordinate of a point without noise meets the hypotheses. -/
example : IsUnit ((!![1, 0] : Mat 1 2) * (1 : Mat 2 2) * (!![1, 0] : Mat 1 2)ᵀ).det := by
  simp [Matrix.det_fin_one, vecMul, dotProduct, Fin.sum_univ_succ]

/-- A point in the plane whose coordinates are measured together with their sum, from the second time
on without noise. -/
noncomputable def exSums : Params 2 3 where
  A := .const !![1, 1; 0, 1]
  b := .const 0
  Q := .const 1
  C := .const !![1, 0; 0, 1; 1, 1]
  d := .const 0
  R := .seq [1, 0]
  mu0 := 0
  S0 := 1

/-- The hypotheses of C67 hold for the example: the difference of the coordinates is a combination of
the readings; the sensor determines the state. -/
example : exSums.PSD 2 ∧ exSums.DefinedFor 2 ∧
    (∀ x : Vec 2, ![1, -1] ⬝ᵥ x = ![1, -1, 0] ⬝ᵥ (!![1, 0; 0, 1; 1, 1] *ᵥ x)) ∧
    (!![1, 0, 0; 0, 1, 0] : Mat 2 3) * (!![1, 0; 0, 1; 1, 1] : Mat 3 2) = 1 ∧
    lastDims exSums.R 1 = .ok 0 ∧ ∃ Q, lastDims exSums.Q 0 = .ok Q ∧ Q.PosDef := by
  refine ⟨⟨?_, ?_, PosSemidef.one⟩, definedFor_iff_covers.mpr ⟨trivial, trivial, trivial, trivial,
    trivial, le_refl 2⟩, ?_, ?_, rfl, 1, rfl, PosDef.one⟩
  · intro t _ Q hQ
    cases hQ
    exact PosSemidef.one
  · intro t ht R hR
    match t with
    | 0 => cases hR; exact PosSemidef.one
    | 1 => cases hR; exact PosSemidef.zero
    | t + 2 => omega
  · intro x
    simp [dotProduct, Matrix.mulVec, Fin.sum_univ_succ]
  · ext i j
    fin_cases i <;> fin_cases j <;> simp [Matrix.mul_apply, Fin.sum_univ_succ]

/-! ### C68 -/

/-- **C68.** Correcting by the readings of two sensors with uncorrelated noise in one call of
`filter_update` gives the same as two calls, one per sensor, the second with the transition that
leaves the state unchanged.  (`p`, `p₁`, `p₂` are the objects whose methods are called; all their
parameters are overridden by the arguments.) -/
theorem C68_two_sensors (p : Params n (m₁ + m₂)) (p₁ : Params n m₁) (p₂ : Params n m₂) (mean : Vec n)
    {cov A Q : Mat n n} (b : Vec n) (C₁ : Mat m₁ n) (C₂ : Mat m₂ n) (d₁ : Vec m₁) (d₂ : Vec m₂)
    {R₁ : Mat m₁ m₁} {R₂ : Mat m₂ m₂} (hcov : cov.PosSemidef) (hQ : Q.PosSemidef) (h₁ : R₁.PosDef)
    (h₂ : R₂.PosDef) {o₁ : Obs m₁} {o₂ : Obs m₂} (q₁ : ¬ o₁.missing) (q₂ : ¬ o₂.missing) :
    filterUpdate p mean cov (some (stackObs o₁ o₂))
      ⟨some A, some b, some Q, some (stackRows C₁ C₂), some (stackVec d₁ d₂), some (stackCov R₁ R₂)⟩
    = (do
      let r ← filterUpdate p₁ mean cov (some o₁) ⟨some A, some b, some Q, some C₁, some d₁, some R₁⟩
      filterUpdate p₂ r.1 r.2 (some o₂) ⟨some 1, some 0, some 0, some C₂, some d₂, some R₂⟩) := by
  have hP : (A * (cov * Aᵀ) + Q).PosSemidef := by
    rw [← Matrix.mul_assoc]
    exact (posSemidef_conj' hcov A).add hQ
  have e := correct_stack hP h₁ h₂ C₁ C₂ d₁ d₂ q₁ q₂ (A *ᵥ mean + b)
  simp only [filterUpdate, argOrDefault, filterPredict, bind, Except.bind, pure, Except.pure,
    one_mulVec, add_zero, Matrix.one_mul, Matrix.transpose_one, Matrix.mul_one]
  rw [e]

/-- **C68, order.** The order in which two sensors are processed does not matter. -/
theorem C68_order_of_sensors (p₁ : Params n m₁) (p₂ : Params n m₂) (mean : Vec n)
    {cov A Q : Mat n n} (b : Vec n) (C₁ : Mat m₁ n) (C₂ : Mat m₂ n) (d₁ : Vec m₁) (d₂ : Vec m₂)
    {R₁ : Mat m₁ m₁} {R₂ : Mat m₂ m₂} (hcov : cov.PosSemidef) (hQ : Q.PosSemidef) (h₁ : R₁.PosDef)
    (h₂ : R₂.PosDef) {o₁ : Obs m₁} {o₂ : Obs m₂} (q₁ : ¬ o₁.missing) (q₂ : ¬ o₂.missing) :
    (do
      let r ← filterUpdate p₁ mean cov (some o₁) ⟨some A, some b, some Q, some C₁, some d₁, some R₁⟩
      filterUpdate p₂ r.1 r.2 (some o₂) ⟨some 1, some 0, some 0, some C₂, some d₂, some R₂⟩)
    = (do
      let r ← filterUpdate p₂ mean cov (some o₂) ⟨some A, some b, some Q, some C₂, some d₂, some R₂⟩
      filterUpdate p₁ r.1 r.2 (some o₁) ⟨some 1, some 0, some 0, some C₁, some d₁, some R₁⟩) := by
  have hP : (A * (cov * Aᵀ) + Q).PosSemidef := by
    rw [← Matrix.mul_assoc]
    exact (posSemidef_conj' hcov A).add hQ
  have e := correct_order hP h₁ h₂ C₁ C₂ d₁ d₂ q₁ q₂ (A *ᵥ mean + b)
  simp only [filterUpdate, argOrDefault, filterPredict, bind, Except.bind, pure, Except.pure,
    one_mulVec, add_zero, Matrix.one_mul, Matrix.transpose_one, Matrix.mul_one]
  rw [e]

/-- **C68, whole runs.** Row `t + 1` of `filter` for the stacked readings is obtained from row `t` by
two calls of `filter_update`, one per sensor; the first row by a run on the first reading of the first
sensor alone, followed by one call for the second sensor. -/
theorem C68_stacked_run (p : Params n (m₁ + m₂)) (p₁ : Params n m₁) (p₂ : Params n m₂)
    (os : List (Obs (m₁ + m₂))) (hpsd : p.PSD os.length) {t : ℕ} {o₁ : Obs m₁} {o₂ : Obs m₂}
    (ho : os[t]? = some (stackObs o₁ o₂)) (q₁ : ¬ o₁.missing) (q₂ : ¬ o₂.missing)
    {C₁ : Mat m₁ n} {C₂ : Mat m₂ n} {d₁ : Vec m₁} {d₂ : Vec m₂} {R₁ : Mat m₁ m₁} {R₂ : Mat m₂ m₂}
    (hC : lastDims p.C t = .ok (stackRows C₁ C₂)) (hd : lastDims p.d t = .ok (stackVec d₁ d₂))
    (hR : lastDims p.R t = .ok (stackCov R₁ R₂)) (h₁ : R₁.PosDef) (h₂ : R₂.PosDef)
    {out : List (Vec n × Mat n n)} {r' : Vec n × Mat n n} (h : kfFilter p os = .ok out)
    (hr' : out[t]? = some r') :
    (t = 0 → (do
      let f ← kfFilter { p with C := .const C₁, d := .const d₁, R := .const R₁ } [o₁]
      let r ← (match f[0]? with
        | some r => .ok r
        | none => .error .indexError)
      filterUpdate p₂ r.1 r.2 (some o₂) ⟨some 1, some 0, some 0, some C₂, some d₂, some R₂⟩) = .ok r') ∧
    (∀ s r A b Q, t = s + 1 → out[s]? = some r → lastDims p.A s = .ok A → lastDims p.b s = .ok b →
      lastDims p.Q s = .ok Q → (do
      let q ← filterUpdate p₁ r.1 r.2 (some o₁) ⟨some A, some b, some Q, some C₁, some d₁, some R₁⟩
      filterUpdate p₂ q.1 q.2 (some o₂) ⟨some 1, some 0, some 0, some C₂, some d₂, some R₂⟩) = .ok r') := by
  obtain ⟨ht, ho'⟩ := List.getElem?_eq_some_iff.mp ho
  obtain ⟨-, hc, hrow⟩ := kfFilter_row h hr'
  have hP := hpsd.fn hc
  constructor
  · rintro rfl
    have e := correct_stack hpsd.S0 h₁ h₂ C₁ C₂ d₁ d₂ q₁ q₂ p.mu0
    have ek : p.fn.kf (obsFn os) 0 = p.fn.correct 0 p.mu0 p.S0 (obsFn os 0) := rfl
    rw [hrow, ek]
    simp only [PFun.correct, show p.fn.C 0 = _ from lastDims_get hc.C ht hC,
      show p.fn.d 0 = _ from lastDims_get hc.d ht hd, show p.fn.R 0 = _ from lastDims_get hc.R ht hR,
      obsFn_eq ht, ho', e]
    simp only [kfFilter, filterFull, filterLoop, filterStep, lastDims, filterUpdate, argOrDefault,
      filterPredict, bind, Except.bind, pure, Except.pure, List.map_cons, List.map_nil,
      List.getElem?_cons_zero, one_mulVec, add_zero, Matrix.one_mul, Matrix.transpose_one, Matrix.mul_one]
  · rintro s r A b Q rfl hr hA hb hQ
    obtain ⟨-, -, hrow'⟩ := kfFilter_row h hr
    have hcov : r.2.PosSemidef := by rw [hrow']; exact hP.filt (by omega) _
    obtain ⟨r'', e1, e2⟩ := C12_update_is_next_row p os out h s r.1 r.2 hr _ ho
      ⟨some A, some b, some Q, some (stackRows C₁ C₂), some (stackVec d₁ d₂), some (stackCov R₁ R₂)⟩
      (.inl ⟨_, rfl, hA⟩) (.inl ⟨_, rfl, hb⟩) (.inl ⟨_, rfl, hQ⟩) (.inl ⟨_, rfl, hC⟩)
      (.inl ⟨_, rfl, hd⟩) (.inl ⟨_, rfl, hR⟩)
    rw [hr'] at e1
    rw [← C68_two_sensors p p₁ p₂ r.1 b C₁ C₂ d₁ d₂ hcov (hpsd.Q s (by omega) Q hQ) h₁ h₂ q₁ q₂, e2,
      Option.some.inj e1]

/-- Two sensors of position and velocity: position with variance 4, velocity with variance 1. -/
noncomputable def exTwoSensors : Params 2 (1 + 1) where
  A := .const !![1, 1; 0, 1]
  b := .const 0
  Q := .const 1
  C := .const (stackRows !![1, 0] !![0, 1])
  d := .const (stackVec ![2] ![0])
  R := .const (stackCov !![4] !![1])
  mu0 := 0
  S0 := 1

/-- The hypotheses of C68 hold for the example. -/
example : exTwoSensors.PSD 2 ∧ (!![4] : Mat 1 1).PosDef ∧ (!![1] : Mat 1 1).PosDef ∧
    stackCov !![4] !![1] = (!![4, 0; 0, 1] : Mat 2 2) ∧
    ¬ (⟨![3], fun _ => false⟩ : Obs 1).missing := by
  have h4 : (!![4] : Mat 1 1).PosDef := posDef_scalar (by norm_num)
  have h1 : (!![1] : Mat 1 1).PosDef := posDef_scalar (by norm_num)
  refine ⟨⟨?_, ?_, PosSemidef.one⟩, h4, h1, ?_, ?_⟩
  · intro t _ Q hQ
    cases hQ
    exact PosSemidef.one
  · intro t _ R hR
    cases hR
    exact (stackCov_posDef h4 h1).posSemidef
  · ext i j
    fin_cases i <;> fin_cases j <;> rfl
  · rintro ⟨i, hi⟩
    cases hi

end Verif
