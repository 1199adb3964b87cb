import Verif.Proofs.Information
import Verif.Proofs.Gaps
import Verif.Proofs.EmJoint

/-!
# C114: only the information of a row matters
-/

open Matrix

namespace Verif

variable {n m m' : ℕ}

theorem SameInformation.fn {p : Params n m} {p' : Params n m'} {os : List (Obs m)}
    {os' : List (Obs m')} (h : SameInformation p p' os os') (hc : p.Covers os.length)
    (hc' : p'.Covers os.length) (hR : p.NoisySensors os.length) (hR' : p'.NoisySensors os.length) :
    p.fn.SameInfo p'.fn (obsFn os) (obsFn os') os.length := by
  have key : ∀ t, t < os.length →
      rowPrecision (p.fn.C t) (p.fn.R t) (obsFn os t)
        = rowPrecision (p'.fn.C t) (p'.fn.R t) (obsFn os' t) ∧
      rowEvidence (p.fn.C t) (p.fn.R t) (p.fn.d t) (obsFn os t)
        = rowEvidence (p'.fn.C t) (p'.fn.R t) (p'.fn.d t) (obsFn os' t) := fun t ht => by
    have ht' : t < os'.length := by rw [h.len]; exact ht
    rw [obsFn_eq ht, obsFn_eq ht']
    exact h.rows t _ _ _ _ _ _ _ _ (List.getElem?_eq_getElem ht) (List.getElem?_eq_getElem ht')
      (lastDims_eq_ok (hc.C.mono (by omega))) (lastDims_eq_ok (hc'.C.mono (by omega)))
      (lastDims_eq_ok (hc.R.mono (by omega))) (lastDims_eq_ok (hc'.R.mono (by omega)))
      (lastDims_eq_ok (hc.d.mono (by omega))) (lastDims_eq_ok (hc'.d.mono (by omega)))
  exact ⟨by simp only [Params.fn, h.A], by simp only [Params.fn, h.b], by simp only [Params.fn, h.Q],
    h.mu0, h.S0, fun t ht => hR t ht _ (lastDims_eq_ok (hc.R.mono (by omega))),
    fun t ht => hR' t ht _ (lastDims_eq_ok (hc'.R.mono (by omega))),
    fun t ht => (key t ht).1, fun t ht => (key t ht).2⟩

/-- **C114.** With positive definite observation covariances the results of `filter` and `smooth`
depend on the observations only through the precision `C' R⁻¹ C` and the evidence `C' R⁻¹ (z - d)` of
every row: two sets of sensors, of any numbers of components, with data of equal information give the
same means and covariances. -/
theorem C114_information (p : Params n m) (p' : Params n m') (os : List (Obs m))
    (os' : List (Obs m')) (h : SameInformation p p' os os') (hd : p.DefinedFor os.length)
    (hd' : p'.DefinedFor os.length) (hpsd : p.PSD os.length) (hR : p.NoisySensors os.length)
    (hR' : p'.NoisySensors os.length) :
    kfFilter p' os' = kfFilter p os ∧ kfSmooth p' os' = kfSmooth p os := by
  have hc := definedFor_iff_covers.mp hd
  have hc' := definedFor_iff_covers.mp hd'
  have hf := h.fn hc hc' hR hR'
  have hP := hpsd.fn hc
  constructor
  · rw [kfFilter_eq hc, kfFilter_eq (by rw [h.len]; exact hc'), h.len]
    congr 1
    refine List.map_congr_left fun t ht => ?_
    obtain ⟨a, b⟩ := hf.filt hP (List.mem_range.mp ht)
    rw [a, b]
  · by_cases hne : os = []
    · subst hne
      obtain rfl : os' = [] := List.length_eq_zero_iff.mp h.len
      rfl
    · have hne' : os' ≠ [] := fun e => hne (by
        have := h.len
        rw [e] at this
        exact List.length_eq_zero_iff.mp this.symm)
      rw [kfSmooth_eq hne hc, kfSmooth_eq hne' (by rw [h.len]; exact hc'), h.len]
      congr 1
      refine List.map_congr_left fun t ht => ?_
      have ht' := List.mem_range.mp ht
      obtain ⟨a, b⟩ := hf.smooth hP (os.length - 1 - t) ht' (by omega)
      rw [a, b]

/-- Log likelihood of a run with positive definite observation covariance, through the information of
the rows. -/
theorem loglik_info {p : Params n m} {os : List (Obs m)} (hc : p.Covers os.length)
    (hpsd : p.PSD os.length) {R : Mat m m} (hR : p.R = .const R) (hRd : R.PosDef) :
    kfLoglik p os = .ok (noiseLogDensities R p.d os + ∑ t ∈ Finset.range os.length,
      infoTerm (p.fn.kf (obsFn os) t).predMean (p.fn.kf (obsFn os) t).predCov
        (rowPrecision (p.fn.C t) (p.fn.R t) (obsFn os t))
        (rowEvidence (p.fn.C t) (p.fn.R t) (p.fn.d t) (obsFn os t))) := by
  have hP := hpsd.fn hc
  have hRt : ∀ t, p.fn.R t = R := fun t => by simp only [Params.fn, hR]; rfl
  have key : ∀ {k : ℕ} {S : Mat k k}, S.PosDef → ∀ x c, logMvn x c S = .ok (logN x c S) := by
    intro k S hS x c
    obtain ⟨ℓ, h1, -, h2, -⟩ := logMvn_posDef hS
    rw [h1, h2, logN]
    congr 1
    ring
  rw [kfLoglik_pure hc hR fun t ht _ x c =>
    key (posDef_conj_add (hP.pred ht _) (by rw [hRt]; exact hRd) (p.fn.C t)) x c]
  congr 1
  rw [noiseLogDensities, Finset.sum_fin_eq_sum_range, ← Finset.sum_add_distrib]
  refine Finset.sum_congr rfl fun t ht => ?_
  have ht' := Finset.mem_range.mp ht
  rw [p.fn.lterm_info (obsFn os) (hP.pred ht' _) (by rw [hRt]; exact hRd), dif_pos ht', hRt,
    obsFn_eq ht', TV.at_eq_get (hc.d.mono (by omega))]
  rfl

/-- **C114, loglikelihood.** The log likelihoods of the two runs differ only by the log densities of
the noises, which do not depend on the process. -/
theorem C114_loglikelihood (p : Params n m) (p' : Params n m') (os : List (Obs m))
    (os' : List (Obs m')) (h : SameInformation p p' os os') (hd : p.DefinedFor os.length)
    (hd' : p'.DefinedFor os.length) (hpsd : p.PSD os.length) {R : Mat m m} {R' : Mat m' m'}
    (hR : p.R = .const R) (hR' : p'.R = .const R') (hRd : R.PosDef) (hRd' : R'.PosDef) :
    ∃ L L', kfLoglik p os = .ok L ∧ kfLoglik p' os' = .ok L' ∧
      L' - noiseLogDensities R' p'.d os' = L - noiseLogDensities R p.d os := by
  have hc := definedFor_iff_covers.mp hd
  have hc' := definedFor_iff_covers.mp hd'
  have n1 : p.NoisySensors os.length := fun t _ S hS => by rw [hR] at hS; cases hS; exact hRd
  have n2 : p'.NoisySensors os.length := fun t _ S hS => by rw [hR'] at hS; cases hS; exact hRd'
  have hf := h.fn hc hc' n1 n2
  have hpsd' : p'.PSD os.length := ⟨by rw [h.Q]; exact hpsd.Q,
    fun t ht S hS => (n2 t ht S hS).posSemidef, by rw [h.S0]; exact hpsd.S0⟩
  refine ⟨_, _, loglik_info hc hpsd hR hRd,
    loglik_info (by rw [h.len]; exact hc') (by rw [h.len]; exact hpsd') hR' hRd', ?_⟩
  rw [add_sub_cancel_left, add_sub_cancel_left, h.len]
  refine Finset.sum_congr rfl fun t ht => ?_
  have ht' := Finset.mem_range.mp ht
  obtain ⟨a, b⟩ := hf.pred (hpsd.fn hc) ht'
  rw [a, b, ← hf.prec t ht', ← hf.evid t ht']

/-- **C114, comparison of processes.** The difference of the log likelihoods of two candidate
processes `p`, `q` for the same sensors and data is the same if the sensors and the data are replaced
by others of the same information. -/
theorem C114_comparison (p q : Params n m) (p' q' : Params n m') (os : List (Obs m))
    (os' : List (Obs m')) (hp : SameInformation p p' os os') (hq : SameInformation q q' os os')
    (dp : p.DefinedFor os.length) (dp' : p'.DefinedFor os.length) (dq : q.DefinedFor os.length)
    (dq' : q'.DefinedFor os.length) (pp : p.PSD os.length) (pq : q.PSD os.length)
    {R : Mat m m} {R' : Mat m' m'} (hR : p.R = .const R) (hR' : p'.R = .const R')
    (hRd : R.PosDef) (hRd' : R'.PosDef) (eR : q.R = p.R) (eR' : q'.R = p'.R) (ed : q.d = p.d)
    (ed' : q'.d = p'.d) :
    ∃ Lp Lq Lp' Lq', kfLoglik p os = .ok Lp ∧ kfLoglik q os = .ok Lq ∧ kfLoglik p' os' = .ok Lp' ∧
      kfLoglik q' os' = .ok Lq' ∧ Lq' - Lp' = Lq - Lp := by
  obtain ⟨Lp, Lp', h1, h2, h3⟩ := C114_loglikelihood p p' os os' hp dp dp' pp hR hR' hRd hRd'
  obtain ⟨Lq, Lq', h4, h5, h6⟩ := C114_loglikelihood q q' os os' hq dq dq' pq (eR.trans hR)
    (eR'.trans hR') hRd hRd'
  refine ⟨Lp, Lq, Lp', Lq', h1, h4, h2, h5, ?_⟩
  rw [ed, ed'] at h6
  linarith

/-- **C114, rows without information.** A row read through an observation matrix 0 may as well be
masked. -/
theorem C114_uninformative_row (p : Params n (m + 1)) (os : List (Obs (m + 1))) {k : ℕ}
    (hk : lastDims p.C k = .ok 0) (hd : p.DefinedFor os.length) (hpsd : p.PSD os.length)
    (hR : p.NoisySensors os.length) (v : Vec (m + 1)) :
    kfFilter p (os.set k ⟨v, fun _ => true⟩) = kfFilter p os ∧
      kfSmooth p (os.set k ⟨v, fun _ => true⟩) = kfSmooth p os := by
  refine C114_information p p os _ ⟨rfl, rfl, rfl, rfl, rfl, List.length_set, ?_⟩ hd hd hpsd hR hR
  intro t o o' C C' R R' d d' ho ho' hC hC' hR hR' hd hd'
  rw [hC] at hC'
  rw [hR] at hR'
  rw [hd] at hd'
  cases hC'
  cases hR'
  cases hd'
  by_cases e : k = t
  · subst e
    rw [hk] at hC
    cases hC
    simp only [rowPrecision, rowEvidence, Matrix.mul_zero, transpose_zero, Matrix.zero_mul,
      zero_mulVec, ite_self, and_self]
  · rw [List.getElem?_set_ne e, ho] at ho'
    cases ho'
    exact ⟨rfl, rfl⟩

/-- **C114, repeated readings.** Two sensors with uncorrelated noises reading the same quantity may be
replaced by one: its readings are the averages of the two weighted with the inverse covariances (the
offsets removed), its covariance is the inverse of the sum of the inverse covariances. -/
theorem C114_weighted_average (p : Params n (m + m)) (p' : Params n m)
    (zs : List (Vec m × Vec m)) {C : Mat m n} {d₁ d₂ : Vec m} {R₁ R₂ : Mat m m}
    (hA : p'.A = p.A) (hb : p'.b = p.b) (hQ : p'.Q = p.Q) (hmu : p'.mu0 = p.mu0) (hS : p'.S0 = p.S0)
    (hC : p.C = .const (stackRows C C)) (hd : p.d = .const (stackVec d₁ d₂))
    (hR : p.R = .const (stackCov R₁ R₂)) (hC' : p'.C = .const C) (hd' : p'.d = .const 0)
    (hR' : p'.R = .const (R₁⁻¹ + R₂⁻¹)⁻¹) (h₁ : R₁.PosDef) (h₂ : R₂.PosDef)
    (hdef : p.DefinedFor zs.length) (hpsd : p.PSD zs.length) :
    kfFilter p' (zs.map fun z =>
        ⟨(R₁⁻¹ + R₂⁻¹)⁻¹ *ᵥ (R₁⁻¹ *ᵥ (z.1 - d₁) + R₂⁻¹ *ᵥ (z.2 - d₂)), fun _ => false⟩)
      = kfFilter p (zs.map fun z => ⟨stackVec z.1 z.2, fun _ => false⟩) ∧
    kfSmooth p' (zs.map fun z =>
        ⟨(R₁⁻¹ + R₂⁻¹)⁻¹ *ᵥ (R₁⁻¹ *ᵥ (z.1 - d₁) + R₂⁻¹ *ᵥ (z.2 - d₂)), fun _ => false⟩)
      = kfSmooth p (zs.map fun z => ⟨stackVec z.1 z.2, fun _ => false⟩) := by
  have hW : (R₁⁻¹ + R₂⁻¹).PosDef := h₁.inv.add h₂.inv
  have uW : IsUnit (R₁⁻¹ + R₂⁻¹).det := hW.det_pos.ne'.isUnit
  have hCR : (stackRows C C)ᵀ * (stackCov R₁ R₂)⁻¹
      = (stackRows (R₁⁻¹ * C) (R₂⁻¹ * C))ᵀ := by
    have s1 : (R₁⁻¹)ᵀ = R₁⁻¹ := by
      have := h₁.inv.isHermitian.eq
      rwa [conjTranspose_eq_transpose_of_trivial] at this
    have s2 : (R₂⁻¹)ᵀ = R₂⁻¹ := by
      have := h₂.inv.isHermitian.eq
      rwa [conjTranspose_eq_transpose_of_trivial] at this
    rw [← blocks_eq_stackCov, blocks_inv h₁.det_pos.ne'.isUnit h₂.det_pos.ne'.isUnit,
      ← transpose_inj, transpose_mul, transpose_transpose, transpose_transpose, blocks_transpose,
      s1, s2, blocks_mul_stack]
  have t1 : (R₁⁻¹ * C)ᵀ = Cᵀ * R₁⁻¹ := by
    have := h₁.inv.isHermitian.eq
    rw [conjTranspose_eq_transpose_of_trivial] at this
    rw [transpose_mul, this]
  have t2 : (R₂⁻¹ * C)ᵀ = Cᵀ * R₂⁻¹ := by
    have := h₂.inv.isHermitian.eq
    rw [conjTranspose_eq_transpose_of_trivial] at this
    rw [transpose_mul, this]
  have nm : ∀ k, ¬ ∃ i : Fin k, (fun _ => false : Fin k → Bool) i = true := fun k ⟨i, hi⟩ => by
    cases hi
  refine C114_information p p' _ _ ⟨hA, hb, hQ, hmu, hS, by simp only [List.length_map], ?_⟩
    (by rw [List.length_map]; exact hdef) ?_ (by rw [List.length_map]; exact hpsd) ?_ ?_
  · intro t o o' C₁ C₂ S₁ S₂ e₁ e₂ ho ho' hC₁ hC₂ hS₁ hS₂ he₁ he₂
    rw [hC] at hC₁
    rw [hC'] at hC₂
    rw [hR] at hS₁
    rw [hR'] at hS₂
    rw [hd] at he₁
    rw [hd'] at he₂
    cases hC₁
    cases hC₂
    cases hS₁
    cases hS₂
    cases he₁
    cases he₂
    rw [List.getElem?_map] at ho ho'
    cases hz : zs[t]? with
    | none => rw [hz] at ho; cases ho
    | some z =>
      rw [hz] at ho ho'
      cases ho
      cases ho'
      simp only [rowPrecision, rowEvidence, if_neg (nm _)]
      rw [hCR, stack_transpose_mul, stackVec_sub, stack_transpose_mulVec, t1, t2, nonsing_inv_nonsing_inv _ uW]
      constructor
      · rw [Matrix.mul_add, Matrix.add_mul]
      · rw [sub_zero, mulVec_mulVec, Matrix.mul_assoc, mul_nonsing_inv _ uW, Matrix.mul_one,
          mulVec_add, mulVec_mulVec, mulVec_mulVec]
  · rw [List.length_map]
    exact ⟨by rw [hA]; exact hdef.A, by rw [hb]; exact hdef.b, by rw [hQ]; exact hdef.Q,
      fun t _ => ⟨C, by rw [hC']; rfl⟩, fun t _ => ⟨0, by rw [hd']; rfl⟩,
      fun t _ => ⟨(R₁⁻¹ + R₂⁻¹)⁻¹, by rw [hR']; rfl⟩⟩
  · intro t _ R h
    rw [hR] at h
    cases h
    exact stackCov_posDef h₁ h₂
  · intro t _ R h
    rw [hR'] at h
    cases h
    exact hW.inv

/-- A walk read by two thermometers, the second with an offset and a larger variance. -/
noncomputable def exThermometers : Params 1 (1 + 1) where
  A := .const 1
  b := .const 0
  Q := .const 1
  C := .const (stackRows 1 1)
  d := .const (stackVec 0 ![3])
  R := .const (stackCov 1 ((4 : ℝ) • 1))
  mu0 := 0
  S0 := 1

/-- The hypotheses hold for the example, for runs of any length: the one thermometer that replaces the
two has a positive variance and reads weighted averages. -/
example (zs : List (Vec 1 × Vec 1)) :
    ((1 : Mat 1 1).PosDef ∧ ((4 : ℝ) • (1 : Mat 1 1)).PosDef) ∧
    exThermometers.DefinedFor zs.length ∧ exThermometers.PSD zs.length := by
  have h4 : ((4 : ℝ) • (1 : Mat 1 1)).PosDef := PosDef.one.smul (by norm_num)
  refine ⟨⟨PosDef.one, h4⟩, ⟨?_, ?_, ?_, ?_, ?_, ?_⟩, ⟨?_, ?_, PosSemidef.one⟩⟩
  all_goals try (intro t ht; exact ⟨_, rfl⟩)
  · rintro t - _ ⟨⟩; exact PosSemidef.one
  · rintro t - _ ⟨⟩; exact (stackCov_posDef PosDef.one h4).posSemidef

/-- A walk whose second reading goes through an observation matrix 0. -/
noncomputable def exBlind : Params 1 1 where
  A := .const 1
  b := .const 0
  Q := .const 1
  C := .seq [1, 0, 1]
  d := .const 0
  R := .const 1
  mu0 := 0
  S0 := 1

/-- The hypotheses of `C114_uninformative_row` hold for three readings. -/
example : lastDims exBlind.C 1 = .ok 0 ∧ exBlind.DefinedFor 3 ∧ exBlind.PSD 3 ∧
    exBlind.NoisySensors 3 := by
  refine ⟨rfl, ⟨?_, ?_, ?_, ?_, ?_, ?_⟩, ⟨?_, ?_, PosSemidef.one⟩, ?_⟩
  · intro t ht; exact ⟨_, rfl⟩
  · intro t ht; exact ⟨_, rfl⟩
  · intro t ht; exact ⟨_, rfl⟩
  · intro t ht
    match t, ht with
    | 0, _ => exact ⟨_, rfl⟩
    | 1, _ => exact ⟨_, rfl⟩
    | 2, _ => exact ⟨_, rfl⟩
  · intro t ht; exact ⟨_, rfl⟩
  · intro t ht; exact ⟨_, rfl⟩
  · rintro t - _ ⟨⟩; exact PosSemidef.one
  · rintro t - _ ⟨⟩; exact PosSemidef.one
  · rintro t - _ ⟨⟩; exact PosDef.one

/-- A walk read in metres, with the transition variance `q`. -/
noncomputable def exMetres (q : ℝ) : Params 1 1 where
  A := .const 1
  b := .const 0
  Q := .const !![q]
  C := .const 1
  d := .const 0
  R := .const 1
  mu0 := 0
  S0 := 1

/-- The same walk read in half metres. -/
noncomputable def exHalfMetres (q : ℝ) : Params 1 1 :=
  { exMetres q with C := .const ((2 : ℝ) • 1), R := .const ((4 : ℝ) • 1) }

/-- The hypotheses of `C114_comparison` hold for the variances 1 and 5, for data of any length. -/
example (os : List (Obs 1)) :
    (∀ q, SameInformation (exMetres q) (exHalfMetres q) os
      (os.map fun o => ⟨(2 : ℝ) • o.val, o.mask⟩)) ∧
    (∀ q, 0 ≤ q → (exMetres q).PSD os.length) ∧
    (∀ q, (exMetres q).DefinedFor os.length ∧ (exHalfMetres q).DefinedFor os.length) ∧
    ((4 : ℝ) • (1 : Mat 1 1)).PosDef ∧ (exMetres 1).Q ≠ (exMetres 5).Q := by
  have h4 : ((4 : ℝ) • (1 : Mat 1 1)).PosDef := PosDef.one.smul (by norm_num)
  have hi : ((4 : ℝ) • (1 : Mat 1 1))⁻¹ = (1 / 4 : ℝ) • 1 := by
    refine inv_eq_right_inv ?_
    rw [Matrix.smul_mul, Matrix.one_mul, smul_smul]
    norm_num
  refine ⟨fun q => ⟨rfl, rfl, rfl, rfl, rfl, List.length_map _, ?_⟩, fun q hq => ⟨?_, ?_, PosSemidef.one⟩,
    fun q => ⟨⟨?_, ?_, ?_, ?_, ?_, ?_⟩, ⟨?_, ?_, ?_, ?_, ?_, ?_⟩⟩, h4, fun h => ?_⟩
  · rintro t o o' _ _ _ _ _ _ ho ho' ⟨⟩ ⟨⟩ ⟨⟩ ⟨⟩ ⟨⟩ ⟨⟩
    rw [List.getElem?_map, ho] at ho'
    cases ho'
    simp only [rowPrecision, rowEvidence, hi, inv_one, transpose_one, transpose_smul,
      Matrix.smul_mul, Matrix.mul_smul, Matrix.one_mul, smul_smul, sub_zero, smul_mulVec, one_mulVec,
      mulVec_smul]
    norm_num
  · rintro t - _ ⟨⟩
    have : (!![q] : Mat 1 1) = q • 1 := by
      ext i j
      rw [Subsingleton.elim j i, Matrix.smul_apply, Matrix.one_apply_eq]
      fin_cases i
      simp
    rw [this]
    exact PosSemidef.one.smul hq
  · rintro t - _ ⟨⟩; exact PosSemidef.one
  all_goals try (intro t ht; exact ⟨_, rfl⟩)
  · have := congrFun (congrFun (TV.const.inj h) 0) 0
    norm_num at this

end Verif
