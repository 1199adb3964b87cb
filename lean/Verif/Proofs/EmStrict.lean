import Verif.Proofs.EmMonotone

/-!
# When an iteration of `em` does not increase the likelihood, it changes nothing
-/

open Matrix

namespace Verif

variable {n m k : ℕ}

/-! ### Equality in the inequalities for traces and determinants -/

theorem eq_zero_of_conj_eq_zero {L D : Mat k k} (hL : IsUnit L.det) (h : Lᵀ * D * L = 0) :
    D = 0 := by
  have ht : IsUnit (Lᵀ).det := by rwa [det_transpose]
  have e : D = (Lᵀ)⁻¹ * (Lᵀ * D * L) * L⁻¹ := by
    rw [Matrix.mul_assoc Lᵀ, ← Matrix.mul_assoc, ← Matrix.mul_assoc, nonsing_inv_mul _ ht,
      Matrix.one_mul, Matrix.mul_assoc, mul_nonsing_inv _ hL, Matrix.mul_one]
  rw [e, h, Matrix.mul_zero, Matrix.zero_mul]

/-- The trace of the product of a positive definite and a positive semidefinite matrix is zero only
if the latter is. -/
theorem eq_zero_of_trace_mul {W D : Mat k k} (hW : W.PosDef) (hD : D.PosSemidef)
    (h : (W * D).trace ≤ 0) : D = 0 := by
  obtain ⟨L, hL⟩ := exists_isCholesky W hW
  have hp := posSemidef_conj' hD Lᵀ
  rw [transpose_transpose] at hp
  have e : (Lᵀ * D * L).trace = (W * D).trace := by
    rw [← hL.mul_transpose, Matrix.trace_mul_comm, ← Matrix.mul_assoc]
  have h0 : (Lᵀ * D * L).trace = 0 := le_antisymm (e ▸ h) hp.trace_nonneg
  exact eq_zero_of_conj_eq_zero hL.det_ne_zero.isUnit (hp.trace_eq_zero_iff.mp h0)

/-- `log det M = tr M - k` only for the identity. -/
theorem eq_one_of_logDet {M : Mat k k} (hM : M.PosDef) (h : M.trace - k ≤ Real.log M.det) :
    M = 1 := by
  have h1 : ∀ i, hM.1.eigenvalues i = 1 := by
    rw [hM.1.det_eq_prod_eigenvalues, hM.1.trace_eq_sum_eigenvalues] at h
    simp only [RCLike.ofReal_real_eq_id, id] at h
    rw [Real.log_prod fun i _ => (hM.eigenvalues_pos i).ne'] at h
    by_contra hne
    push Not at hne
    obtain ⟨i, hi⟩ := hne
    have hlt : ∑ i, Real.log (hM.1.eigenvalues i) < ∑ i, (hM.1.eigenvalues i - 1) :=
      Finset.sum_lt_sum (fun i _ => Real.log_le_sub_one_of_pos (hM.eigenvalues_pos i))
        ⟨i, Finset.mem_univ i, Real.log_lt_sub_one_of_pos (hM.eigenvalues_pos i) hi⟩
    simp at hlt
    linarith
  have e := hM.1.spectral_theorem
  have hd : (diagonal (RCLike.ofReal ∘ hM.1.eigenvalues) : Mat k k) = 1 := by
    ext i j
    simp [diagonal_apply, Matrix.one_apply, h1]
  rw [hd, map_one] at e
  exact e

/-- Equality in Gibbs' inequality. -/
theorem eq_of_logDet {R S : Mat k k} (hR : R.PosDef) (hS : S.PosDef)
    (h : (R⁻¹ * S).trace - k ≤ Real.log S.det - Real.log R.det) : S = R := by
  obtain ⟨L, hL⟩ := exists_isCholesky R hR
  have hd := hL.det_ne_zero
  have hu : IsUnit L.det := hd.isUnit
  have hinv : R⁻¹ = L⁻¹ᵀ * L⁻¹ := by
    rw [← hL.mul_transpose, Matrix.mul_inv_rev, transpose_nonsing_inv]
  have hM : (L⁻¹ * S * L⁻¹ᵀ).PosDef := by
    have : Function.Injective (L⁻¹).vecMul := by
      rw [Matrix.vecMul_injective_iff_isUnit]
      exact (Matrix.isUnit_iff_isUnit_det _).mpr (by simpa using hu)
    have := hS.mul_mul_conjTranspose_same this
    rwa [conjTranspose_eq_transpose_of_trivial] at this
  have e1 : (L⁻¹ * S * L⁻¹ᵀ).trace = (R⁻¹ * S).trace := by
    rw [Matrix.trace_mul_comm, ← Matrix.mul_assoc, hinv]
  have e2 : (L⁻¹ * S * L⁻¹ᵀ).det = S.det / R.det := by
    rw [det_mul, det_mul, det_transpose, det_nonsing_inv, ← hL.mul_transpose, det_mul,
      det_transpose, Ring.inverse_eq_inv']
    field_simp
  have h1 := eq_one_of_logDet hM (by
    rw [e1, e2, Real.log_div hS.det_pos.ne' hR.det_pos.ne']; exact h)
  have e3 : L * (L⁻¹ * S * L⁻¹ᵀ) * Lᵀ = S := by
    have ht : L⁻¹ᵀ * Lᵀ = 1 := by rw [← transpose_mul, mul_nonsing_inv _ hu, transpose_one]
    rw [← Matrix.mul_assoc, ← Matrix.mul_assoc, mul_nonsing_inv _ hu, Matrix.one_mul,
      Matrix.mul_assoc, ht, Matrix.mul_one]
  rw [← e3, h1, Matrix.mul_one, hL.mul_transpose]

/-! ### Equality in the steps of the M-step -/

theorem gsum_mono_eq {N : ℝ} {S M M' : Mat k k} (hS : S.PosDef) (h : (M' - M).PosSemidef)
    (hle : gsum N S M ≤ gsum N S M') : M' - M = 0 := by
  refine eq_zero_of_trace_mul hS.inv h ?_
  rw [Matrix.mul_sub, Matrix.trace_sub]
  simp only [gsum] at hle
  linarith

theorem gsum_max_eq {N : ℝ} (hN : 0 < N) {S S' M : Mat k k} (hS : S.PosDef) (hS' : S'.PosDef)
    (hM : S = (1 / N) • M) (hle : gsum N S M ≤ gsum N S' M) : S = S' := by
  have e : M = N • S := by rw [hM, smul_smul, mul_one_div, div_self hN.ne', one_smul]
  have hu : S⁻¹ * S = 1 := nonsing_inv_mul _ hS.det_pos.ne'.isUnit
  refine eq_of_logDet hS' hS ?_
  simp only [gsum] at hle
  rw [e, Matrix.mul_smul, Matrix.mul_smul, hu, Matrix.trace_smul, Matrix.trace_smul] at hle
  simp only [Matrix.trace_one, Fintype.card_fin, smul_eq_mul] at hle
  have : N * ((S'⁻¹ * S).trace - k) ≤ N * (Real.log S.det - Real.log S'.det) := by nlinarith
  exact le_of_mul_le_mul_left this hN

theorem conj_posDef_eq_zero {D : Mat m n} {M : Mat n n} (hM : M.PosDef) (h : D * M * Dᵀ = 0) :
    D = 0 := by
  have key : ∀ x : Vec m, Dᵀ *ᵥ x = 0 := by
    intro x
    have h1 : (Dᵀ *ᵥ x) ⬝ᵥ (M *ᵥ (Dᵀ *ᵥ x)) = 0 := by
      have := congrArg (fun B => x ⬝ᵥ (B *ᵥ x)) h
      simp only [zero_mulVec, dotProduct_zero, ← mulVec_mulVec] at this
      rw [dotProduct_mulVec x D, ← mulVec_transpose] at this
      exact this
    by_contra hne
    have := hM.dotProduct_mulVec_pos hne
    simp only [star_trivial] at this
    exact absurd h1 this.ne'
  have e : Dᵀ = 0 := by
    apply Matrix.ext_of_mulVec_single
    intro i
    rw [key, zero_mulVec]
  rw [← transpose_transpose D, e, transpose_zero]

theorem vecMulVec_self_eq_zero {v : Vec k} (h : vecMulVec v v = 0) : v = 0 := by
  funext i
  have := congrFun (congrFun h i) i
  simpa [vecMulVec_apply] using this

variable {f : ℕ → EmStats n} (g : ℕ → Obs m)

theorem obsScatter_newC_eq {N : ℕ} (hf : ∀ t < N, (f t).cov.PosSemidef)
    (hp : (∑ t ∈ Finset.range N,
      ((g t).w • ((f t).cov + vecMulVec (f t).mean (f t).mean))).PosDef) (d : ℕ → Vec m)
    (C' : Mat m n)
    (h : obsScatter f g (fun _ => C') d N - obsScatter f g (fun _ => newC f g d N) d N = 0) :
    newC f g d N = C' := by
  have key : ∀ C : Mat m n, obsScatter f g (fun _ => C) d N
      = ∑ t ∈ Finset.range N, (g t).w • vecMulVec ((g t).val - d t) ((g t).val - d t)
        + (C * (∑ t ∈ Finset.range N, (g t).w • ((f t).cov + vecMulVec (f t).mean (f t).mean)) * Cᵀ
        - C * (∑ t ∈ Finset.range N, (g t).w • vecMulVec ((g t).val - d t) (f t).mean)ᵀ
        - (∑ t ∈ Finset.range N, (g t).w • vecMulVec ((g t).val - d t) (f t).mean) * Cᵀ) := by
    intro C
    rw [obsScatter_eq_sum]
    simp only [obsTerm_expand, smul_add, smul_sub, Finset.sum_add_distrib, Finset.sum_sub_distrib,
      Matrix.mul_sum, Matrix.sum_mul, transpose_sum, transpose_smul, Matrix.mul_smul,
      Matrix.smul_mul, Matrix.mul_add, Matrix.add_mul]
  rw [key, key, add_sub_add_left_eq_sub, regression_sub (symm_of_posSemidef hp.posSemidef)
    (newC_normal g hf d)] at h
  exact (sub_eq_zero.mp (conj_posDef_eq_zero hp h)).symm

theorem transScatter_newA_eq {T : ℕ} (hf : PairPSD f T)
    (hp : (∑ t ∈ Finset.range T,
      ((f t).cov + vecMulVec (f t).mean (f t).mean)).PosDef) (b : ℕ → Vec n) (A' : Mat n n)
    (h : transScatter f (fun _ => A') b T - transScatter f (fun _ => newA f b T) b T = 0) :
    newA f b T = A' := by
  have key : ∀ A : Mat n n, transScatter f (fun _ => A) b T
      = ∑ t ∈ Finset.range T, (vecMulVec ((f (t + 1)).mean - b t) ((f (t + 1)).mean - b t)
          + (f (t + 1)).cov)
        + (A * (∑ t ∈ Finset.range T, ((f t).cov + vecMulVec (f t).mean (f t).mean)) * Aᵀ
        - A * (∑ t ∈ Finset.range T, ((f (t + 1)).pair + vecMulVec (f (t + 1)).mean (f t).mean
          - vecMulVec (b t) (f t).mean))ᵀ
        - (∑ t ∈ Finset.range T, ((f (t + 1)).pair + vecMulVec (f (t + 1)).mean (f t).mean
          - vecMulVec (b t) (f t).mean)) * Aᵀ) := by
    intro A
    rw [transScatter_eq_sum]
    simp only [transTerm_expand, Finset.sum_add_distrib, Finset.sum_sub_distrib,
      Matrix.mul_sum, Matrix.sum_mul, transpose_sum, transpose_add, transpose_sub,
      Matrix.mul_add, Matrix.add_mul, Matrix.mul_sub, Matrix.sub_mul]
  rw [key, key, add_sub_add_left_eq_sub, regression_sub (symm_of_posSemidef hp.posSemidef)
    (newA_normal hf b)] at h
  exact (sub_eq_zero.mp (conj_posDef_eq_zero hp h)).symm

theorem obsScatter_newd_eq {N : ℕ} (hN : 0 < obsCount g N) (C : ℕ → Mat m n) (d' : Vec m)
    (h : obsScatter f g C (fun _ => d') N - obsScatter f g C (fun _ => newd f g C N) N = 0) :
    newd f g C N = d' := by
  have hpos : (0 : ℝ) < obsCount g N := by exact_mod_cast hN
  have hc : (∑ t ∈ Finset.range N, (g t).w) • newd f g C N
      = ∑ t ∈ Finset.range N, (g t).w • ((g t).val - C t *ᵥ (f t).mean) := by
    rw [newd, if_pos hN, ← obsCount_eq, smul_smul, mul_one_div, div_self hpos.ne', one_smul]
  have := center_sub (fun t => (g t).w) (fun t => (g t).val - C t *ᵥ (f t).mean) hc d'
  have e : ∀ d : Vec m, obsScatter f g C (fun _ => d) N
      = ∑ t ∈ Finset.range N, (g t).w • vecMulVec ((g t).val - C t *ᵥ (f t).mean - d)
        ((g t).val - C t *ᵥ (f t).mean - d)
        + ∑ t ∈ Finset.range N, (g t).w • (C t * ((f t).cov * (C t)ᵀ)) := by
    intro d
    simp only [obsScatter, smul_add, Finset.sum_add_distrib]
  rw [e, e, add_sub_add_right_eq_sub, this, ← obsCount_eq] at h
  have h0 := (smul_eq_zero.mp h).resolve_left hpos.ne'
  exact (sub_eq_zero.mp (vecMulVec_self_eq_zero h0)).symm

theorem transScatter_newb_eq {T : ℕ} (hT : 0 < T) (A : ℕ → Mat n n) (b' : Vec n)
    (h : transScatter f A (fun _ => b') T - transScatter f A (fun _ => newb f A T) T = 0) :
    newb f A T = b' := by
  have hpos : (0 : ℝ) < T := by exact_mod_cast hT
  have hc : (∑ t ∈ Finset.range T, (1 : ℝ)) • newb f A T
      = ∑ t ∈ Finset.range T, (1 : ℝ) • ((f (t + 1)).mean - A t *ᵥ (f t).mean) := by
    simp only [Finset.sum_const, Finset.card_range, nsmul_eq_mul, mul_one, one_smul]
    rw [newb, if_pos hT, smul_smul, mul_one_div, div_self hpos.ne', one_smul]
  have := center_sub (fun _ => 1) (fun t => (f (t + 1)).mean - A t *ᵥ (f t).mean) hc b'
  simp only [one_smul, Finset.sum_const, Finset.card_range, nsmul_eq_mul, mul_one] at this
  have e : ∀ b : Vec n, transScatter f A (fun _ => b) T
      = ∑ t ∈ Finset.range T, vecMulVec ((f (t + 1)).mean - A t *ᵥ (f t).mean - b)
        ((f (t + 1)).mean - A t *ᵥ (f t).mean - b)
        + ∑ t ∈ Finset.range T, (A t * ((f t).cov * (A t)ᵀ) + (f (t + 1)).cov
          - (f (t + 1)).pair * (A t)ᵀ - ((f (t + 1)).pair * (A t)ᵀ)ᵀ) := by
    intro b
    rw [transScatter, ← Finset.sum_add_distrib]
    exact Finset.sum_congr rfl fun t _ => by abel
  rw [e, e, add_sub_add_right_eq_sub, this] at h
  have h0 := (smul_eq_zero.mp h).resolve_left hpos.ne'
  exact (sub_eq_zero.mp (vecMulVec_self_eq_zero h0)).symm

theorem sum_w_posDef {N : ℕ} (hN : 0 < obsCount g N) (hf : ∀ t < N, (f t).cov.PosDef) :
    (∑ t ∈ Finset.range N,
      ((g t).w • ((f t).cov + vecMulVec (f t).mean (f t).mean))).PosDef := by
  have h1 : ∀ t < N, ((f t).cov + vecMulVec (f t).mean (f t).mean).PosDef := fun t ht =>
    (hf t ht).add_posSemidef (vecMulVec_posSemidef _)
  have hps : ∀ t ∈ Finset.range N,
      ((g t).w • ((f t).cov + vecMulVec (f t).mean (f t).mean)).PosSemidef := fun t ht =>
    smul_posSemidef (g t).w_nonneg (h1 t (Finset.mem_range.mp ht)).posSemidef
  refine posDef_of_ker (sum_posSemidef _ hps) fun x hx => ?_
  have h2 := sum_mulVec_zero hps hx
  have hw : ∃ t ∈ Finset.range N, (g t).w ≠ 0 := by
    by_contra hno
    push Not at hno
    have : (obsCount g N : ℝ) = 0 := by rw [obsCount_eq]; exact Finset.sum_eq_zero hno
    have : obsCount g N = 0 := by exact_mod_cast this
    omega
  obtain ⟨t, ht, hwt⟩ := hw
  have h3 := h2 t ht
  rw [smul_mulVec, smul_eq_zero] at h3
  exact posDef_ker (h1 t (Finset.mem_range.mp ht)) (h3.resolve_left hwt)

/-! ### The M-step -/

/-- If the M-step does not increase the expected log density, it changes nothing. -/
theorem em_ascent_eq {p p' : Params n m} {vars : EmVar → Bool} {T : ℕ}
    (h : EmEqs p vars p f g T p') (hf : PairPSD f T) (hf' : ∀ t ≤ T, (f t).cov.PosDef)
    (hc : p.EmInvariant vars) (hp : p.fn.PD (T + 1)) (hp' : p'.fn.PD (T + 1)) (hT : 0 < T)
    (hN : 0 < obsCount g (T + 1)) (hle : eJoint f g T p'.fn ≤ eJoint f g T p.fn) : p' = p := by
  have hd' : ∀ t < T + 1, (f t).cov.PosDef := fun t ht => hf' t (by omega)
  have hf'' : ∀ t < T + 1, (f t).cov.PosSemidef := fun t ht => (hd' t ht).posSemidef
  have hR0 : (p.fn.R 0).PosDef := hp.R 0 (by omega)
  have hR0' : (p'.fn.R 0).PosDef := hp'.R 0 (by omega)
  have hQ0 : (p.fn.Q 0).PosDef := hp.Q 0 (by omega)
  have hQ0' : (p'.fn.Q 0).PosDef := hp'.Q 0 (by omega)
  have hpC := sum_w_posDef (f := f) g hN hd'
  have hpA : (∑ t ∈ Finset.range T, ((f t).cov + vecMulVec (f t).mean (f t).mean)).PosDef :=
    sum_posDef hT fun t ht => (hd' t (by omega)).add_posSemidef (vecMulVec_posSemidef _)
  have hNr : (0 : ℝ) < obsCount g (T + 1) := by exact_mod_cast hN
  have hTr : (0 : ℝ) < T := by exact_mod_cast hT
  -- initial state
  have i1 : expLogN p.S0 (initTerm f p.mu0) ≤ expLogN p.S0 (initTerm f p'.mu0) ∧
      (expLogN p.S0 (initTerm f p'.mu0) ≤ expLogN p.S0 (initTerm f p.mu0) → p'.mu0 = p.mu0) := by
    have e := h.mu0
    split at e
    · refine ⟨by rw [e]; exact eInit_mu0 hp.S0 _, fun hle => ?_⟩
      rw [e] at hle ⊢
      have := gsum_mono_eq (N := 1) (S := p.S0) (M := initTerm f (f 0).mean)
        (M' := initTerm f p.mu0) hp.S0 ?_ (by rwa [gsum_one, gsum_one])
      · rw [initTerm, initTerm] at this
        simp only [sub_self, vecMulVec_zero, add_zero, add_sub_cancel_left] at this
        exact sub_eq_zero.mp (vecMulVec_self_eq_zero this)
      · rw [initTerm, initTerm]
        simp only [sub_self, vecMulVec_zero, add_zero, add_sub_cancel_left]
        exact vecMulVec_posSemidef _
    · exact ⟨by rw [e], fun _ => e⟩
  have i2 : expLogN p.S0 (initTerm f p'.mu0) ≤ expLogN p'.S0 (initTerm f p'.mu0) ∧
      (expLogN p'.S0 (initTerm f p'.mu0) ≤ expLogN p.S0 (initTerm f p'.mu0) → p'.S0 = p.S0) := by
    have e := h.S0
    split at e
    · have hd : (initTerm f p'.mu0).PosDef := by
        have := hp'.S0
        rw [show p'.fn.S0 = p'.S0 from rfl, e] at this
        exact this
      refine ⟨by rw [e]; exact eInit_S0 p'.mu0 hd hp.S0, fun hle => ?_⟩
      rw [e] at hle ⊢
      exact gsum_max_eq (M := initTerm f p'.mu0) one_pos hd hp.S0 (by simp [initTerm])
        (by rw [gsum_one, gsum_one]; exact hle)
    · exact ⟨by rw [e], fun _ => e⟩
  -- observations
  have o1 : eObs f g p.C.get p.d.get p.R.get (T + 1)
        ≤ eObs f g p'.C.get p.d.get p.R.get (T + 1) ∧
      (eObs f g p'.C.get p.d.get p.R.get (T + 1)
        ≤ eObs f g p.C.get p.d.get p.R.get (T + 1) → p'.C = p.C) := by
    have e := h.C
    split at e
    · next hv =>
      obtain ⟨C, eC⟩ := hc.C hv
      obtain ⟨R, eR⟩ := hc.R (Or.inl hv)
      rw [TV.get_of_eq_const e, TV.get_of_eq_const eC, TV.get_of_eq_const eR]
      rw [show p.fn.R 0 = p.R.get 0 from rfl, TV.get_of_eq_const eR] at hR0
      refine ⟨eObs_newC (g := g) hf'' _ hR0 C, fun hle => ?_⟩
      rw [eObs_const, eObs_const] at hle
      rw [e, eC, obsScatter_newC_eq g hf'' hpC _ C
        (gsum_mono_eq hR0 (obsScatter_newC g hf'' _ C) hle)]
    · exact ⟨by rw [e], fun _ => e⟩
  have o2 : eObs f g p'.C.get p.d.get p.R.get (T + 1)
        ≤ eObs f g p'.C.get p.d.get p'.R.get (T + 1) ∧
      (eObs f g p'.C.get p.d.get p'.R.get (T + 1)
        ≤ eObs f g p'.C.get p.d.get p.R.get (T + 1) → p'.R = p.R) := by
    have e := h.R
    split at e
    · next hv =>
      obtain ⟨R, eR⟩ := hc.R (Or.inr (Or.inr hv))
      rw [show p.fn.R 0 = p.R.get 0 from rfl, TV.get_of_eq_const eR] at hR0
      rw [show p'.fn.R 0 = p'.R.get 0 from rfl, TV.get_of_eq_const e] at hR0'
      rw [TV.get_of_eq_const e, TV.get_of_eq_const eR]
      refine ⟨eObs_newR (g := g) _ _ hR0' hR0, fun hle => ?_⟩
      rw [eObs_const, eObs_const] at hle
      have hnew : newR f g p'.C.get p.d.get (T + 1) = R :=
        gsum_max_eq hNr hR0' hR0 (by simp only [newR, if_pos hN]) hle
      rw [e, eR, hnew]
    · exact ⟨by rw [e], fun _ => e⟩
  have o3 : eObs f g p'.C.get p.d.get p'.R.get (T + 1)
        ≤ eObs f g p'.C.get p'.d.get p'.R.get (T + 1) ∧
      (eObs f g p'.C.get p'.d.get p'.R.get (T + 1)
        ≤ eObs f g p'.C.get p.d.get p'.R.get (T + 1) → p'.d = p.d) := by
    have e := h.d
    split at e
    · next hv =>
      obtain ⟨d, ed⟩ := hc.d hv
      obtain ⟨R, eR⟩ := hc.R (Or.inr (Or.inl hv))
      obtain ⟨R', eR'⟩ : p'.R.IsConst := by
        have e := h.R
        split at e
        · exact ⟨_, e⟩
        · exact ⟨R, e.trans eR⟩
      rw [show p'.fn.R 0 = p'.R.get 0 from rfl, TV.get_of_eq_const eR'] at hR0'
      rw [TV.get_of_eq_const e, TV.get_of_eq_const ed, TV.get_of_eq_const eR']
      refine ⟨eObs_newd (g := g) _ hR0' d, fun hle => ?_⟩
      rw [eObs_const, eObs_const] at hle
      rw [e, ed, obsScatter_newd_eq g hN _ d (gsum_mono_eq hR0' (obsScatter_newd g hN _ d) hle)]
    · exact ⟨by rw [e], fun _ => e⟩
  -- transitions
  have t1 : eTrans f p.A.get p.b.get p.Q.get T ≤ eTrans f p'.A.get p.b.get p.Q.get T ∧
      (eTrans f p'.A.get p.b.get p.Q.get T ≤ eTrans f p.A.get p.b.get p.Q.get T → p'.A = p.A) := by
    have e := h.A
    split at e
    · next hv =>
      obtain ⟨A, eA⟩ := hc.A hv
      obtain ⟨Q, eQ⟩ := hc.Q (Or.inl hv)
      rw [TV.get_of_eq_const e, TV.get_of_eq_const eA, TV.get_of_eq_const eQ]
      rw [show p.fn.Q 0 = p.Q.get 0 from rfl, TV.get_of_eq_const eQ] at hQ0
      refine ⟨eTrans_newA hf _ hQ0 A, fun hle => ?_⟩
      rw [eTrans_const, eTrans_const] at hle
      rw [e, eA, transScatter_newA_eq hf hpA _ A
        (gsum_mono_eq hQ0 (transScatter_newA hf _ A) hle)]
    · exact ⟨by rw [e], fun _ => e⟩
  have t2 : eTrans f p'.A.get p.b.get p.Q.get T ≤ eTrans f p'.A.get p.b.get p'.Q.get T ∧
      (eTrans f p'.A.get p.b.get p'.Q.get T ≤ eTrans f p'.A.get p.b.get p.Q.get T →
        p'.Q = p.Q) := by
    have e := h.Q
    split at e
    · next hv =>
      obtain ⟨Q, eQ⟩ := hc.Q (Or.inr (Or.inr hv))
      rw [show p.fn.Q 0 = p.Q.get 0 from rfl, TV.get_of_eq_const eQ] at hQ0
      rw [show p'.fn.Q 0 = p'.Q.get 0 from rfl, TV.get_of_eq_const e] at hQ0'
      rw [TV.get_of_eq_const e, TV.get_of_eq_const eQ]
      refine ⟨eTrans_newQ _ _ hQ0' hQ0, fun hle => ?_⟩
      rw [eTrans_const, eTrans_const] at hle
      have hnew : newQ f p'.A.get p.b.get T = Q :=
        gsum_max_eq hTr hQ0' hQ0 (by simp only [newQ, if_pos hT]) hle
      rw [e, eQ, hnew]
    · exact ⟨by rw [e], fun _ => e⟩
  have t3 : eTrans f p'.A.get p.b.get p'.Q.get T ≤ eTrans f p'.A.get p'.b.get p'.Q.get T ∧
      (eTrans f p'.A.get p'.b.get p'.Q.get T ≤ eTrans f p'.A.get p.b.get p'.Q.get T →
        p'.b = p.b) := by
    have e := h.b
    split at e
    · next hv =>
      obtain ⟨b, eb⟩ := hc.b hv
      obtain ⟨Q, eQ⟩ := hc.Q (Or.inr (Or.inl hv))
      obtain ⟨Q', eQ'⟩ : p'.Q.IsConst := by
        have e := h.Q
        split at e
        · exact ⟨_, e⟩
        · exact ⟨Q, e.trans eQ⟩
      rw [show p'.fn.Q 0 = p'.Q.get 0 from rfl, TV.get_of_eq_const eQ'] at hQ0'
      rw [TV.get_of_eq_const e, TV.get_of_eq_const eb, TV.get_of_eq_const eQ']
      refine ⟨eTrans_newb _ hQ0' b, fun hle => ?_⟩
      rw [eTrans_const, eTrans_const] at hle
      rw [e, eb, transScatter_newb_eq hT _ b (gsum_mono_eq hQ0' (transScatter_newb hT _ b) hle)]
    · exact ⟨by rw [e], fun _ => e⟩
  have hsum : (expLogN p'.S0 (initTerm f p'.mu0) + eTrans f p'.A.get p'.b.get p'.Q.get T
        + eObs f g p'.C.get p'.d.get p'.R.get (T + 1))
      ≤ expLogN p.S0 (initTerm f p.mu0) + eTrans f p.A.get p.b.get p.Q.get T
        + eObs f g p.C.get p.d.get p.R.get (T + 1) := hle
  have emu := i1.2 (by linarith [i1.1, i2.1, o1.1, o2.1, o3.1, t1.1, t2.1, t3.1])
  have eS := i2.2 (by linarith [i1.1, i2.1, o1.1, o2.1, o3.1, t1.1, t2.1, t3.1])
  have eC := o1.2 (by linarith [i1.1, i2.1, o1.1, o2.1, o3.1, t1.1, t2.1, t3.1])
  have eR := o2.2 (by linarith [i1.1, i2.1, o1.1, o2.1, o3.1, t1.1, t2.1, t3.1])
  have ed := o3.2 (by linarith [i1.1, i2.1, o1.1, o2.1, o3.1, t1.1, t2.1, t3.1])
  have eA := t1.2 (by linarith [i1.1, i2.1, o1.1, o2.1, o3.1, t1.1, t2.1, t3.1])
  have eQ := t2.2 (by linarith [i1.1, i2.1, o1.1, o2.1, o3.1, t1.1, t2.1, t3.1])
  have eb := t3.2 (by linarith [i1.1, i2.1, o1.1, o2.1, o3.1, t1.1, t2.1, t3.1])
  obtain ⟨A, b, Q, C, d, R, mu0, S0⟩ := p'
  simp only at emu eS eC eR ed eA eQ eb
  subst emu eS eC eR ed eA eQ eb
  rfl

end Verif
