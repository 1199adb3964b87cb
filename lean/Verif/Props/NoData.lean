import Verif.Proofs.NoData
import Verif.Proofs.Rows
import Verif.Props.EmMonotone

/-!
# C98: `em` on data that say nothing

`em` on a sequence in which every row is masked, and on a sequence of one row.
-/

open Matrix

namespace Verif

variable {n m : ℕ}

private theorem missing_of_all {os : List (Obs m)} (hall : ∀ o ∈ os, o.missing) {t : ℕ}
    (ht : t < os.length) : (obsFn os t).missing := by
  rw [obsFn_eq ht]; exact hall _ (List.getElem_mem ht)

/-! ### Every row masked -/

/-- **C98.** If every row is masked, then after any positive number of iterations `em` has replaced
the selected ones of the observation matrices, observation offsets and observation covariance by
zero, whatever they were. -/
theorem C98_masked_observation_part {p p' : Params n m} {os : List (Obs m)} {k : ℕ}
    {vars : EmVar → Bool} (hall : ∀ o ∈ os, o.missing) (h : kfEm p os (k + 1) vars = .ok p') :
    p'.C = (if vars .observationMatrices then .const 0 else p.C) ∧
    p'.d = (if vars .observationOffsets then .const 0 else p.d) ∧
    p'.R = (if vars .observationCovariance then .const 0 else p.R) := by
  obtain ⟨hne, -, old, q⟩ := kfEm_succ_ok h
  have hpos := List.length_pos_iff.mpr hne
  have hz : ∀ t < os.length - 1 + 1, (obsFn os t).missing := fun t ht =>
    missing_of_all hall (by omega)
  refine ⟨?_, ?_, ?_⟩
  · rw [q.C, newC_missing hz]
  · rw [q.d, newd_missing hz]
  · rw [q.R, newR_missing hz]

/-- **C98.** If every one of at least two rows is masked and the transition parameters do not
depend on time, any number of iterations leaves the transition matrix, offset and covariance and the
initial mean and covariance as they were, selected or not.  (If the transition matrix is selected, the
initial covariance has to be positive definite.) -/
theorem C98_masked_dynamics {p p' : Params n m} {os : List (Obs m)} {k : ℕ} {vars : EmVar → Bool}
    (hall : ∀ o ∈ os, o.missing) (hlen : 2 ≤ os.length) {A Q : Mat n n} {b : Vec n}
    (hA : p.A = .const A) (hb : p.b = .const b) (hQ : p.Q = .const Q)
    (hdef : p.DefinedFor os.length) (hpsd : p.PSD os.length)
    (hreg : vars .transitionMatrices → p.S0.PosDef) (h : kfEm p os k vars = .ok p') :
    p'.A = p.A ∧ p'.b = p.b ∧ p'.Q = p.Q ∧ p'.mu0 = p.mu0 ∧ p'.S0 = p.S0 := by
  obtain ⟨T, hT⟩ : ∃ T, os.length = T + 2 := ⟨os.length - 2, by omega⟩
  have hc := definedFor_iff_covers.mp hdef
  have hz : ∀ t ≤ T + 1, (obsFn os t).missing := fun t ht => missing_of_all hall (by omega)
  have hP := hpsd.fn hc
  refine (emLoop_ok h hc (fun q => (q.A = p.A ∧ q.b = p.b ∧ q.Q = p.Q ∧ q.mu0 = p.mu0 ∧
    q.S0 = p.S0) ∧ q.fn.PSD os.length) ⟨⟨rfl, rfl, rfl, rfl, rfl⟩, hP⟩ ?_).1
  rintro q q' ⟨⟨eA, eb, eQ, em, eS⟩, hq⟩ - - - - e
  rw [hT] at e hq
  simp only [Nat.add_succ_sub_one] at e
  have st := fun t (ht : t < T + 1) => PFun.stats_missing hq hz ht
  have gA : ∀ t, q.fn.A t = A := fun t => by simp [Params.fn, eA, hA, TV.get]
  have gb : ∀ t, q.fn.b t = b := fun t => by simp [Params.fn, eb, hb, TV.get]
  have gQ : ∀ t, q.fn.Q t = Q := fun t => by simp [Params.fn, eQ, hQ, TV.get]
  simp only [gA, gb, gQ] at st
  have hpos : (0 : ℝ) < ((T + 1 : ℕ) : ℝ) := by exact_mod_cast Nat.succ_pos T
  obtain ⟨s0m, s0c⟩ := q.fn.ks_missing hz 0 (by omega)
  obtain ⟨-, k0m, k0c⟩ := q.fn.kf_missing (obsFn os) (hz 0 (by omega))
  have f0m : (q.fn.stats (obsFn os) (T + 1) 0).mean = p.mu0 := by
    rw [← em]; exact s0m.trans k0m
  have f0c : (q.fn.stats (obsFn os) (T + 1) 0).cov = p.S0 := by
    rw [← eS]; exact s0c.trans k0c
  have hcov : ∀ t < T + 2, (q.fn.stats (obsFn os) (T + 1) t).cov.PosSemidef := fun t ht =>
    hq.smooth (by omega) (obsFn os)
  generalize hf : q.fn.stats (obsFn os) (T + 1) = f at st e f0m f0c hcov
  have gb' : q.b.get = fun _ => b := funext gb
  -- the transition matrix
  have rA : q'.A = p.A := by
    rw [e.A]
    split
    · rename_i hv
      rw [hA]
      congr 1
      rw [newA, gb']
      have hM : (∑ t ∈ Finset.range (T + 1), ((f t).cov + vecMulVec (f t).mean (f t).mean)).PosDef := by
        rw [Finset.sum_range_succ', add_comm]
        refine Matrix.PosDef.add_posSemidef ?_ (sum_posSemidef _ fun t ht =>
          (hcov (t + 1) (by have := Finset.mem_range.mp ht; omega)).add (vecMulVec_posSemidef _))
        rw [f0c]
        exact (hreg hv).add_posSemidef (vecMulVec_posSemidef _)
      have hs : ∑ t ∈ Finset.range (T + 1), ((f (t + 1)).pair
            + vecMulVec (f (t + 1)).mean (f t).mean - vecMulVec b (f t).mean)
          = A * ∑ t ∈ Finset.range (T + 1), ((f t).cov + vecMulVec (f t).mean (f t).mean) := by
        rw [Finset.mul_sum]
        refine Finset.sum_congr rfl fun t ht => ?_
        obtain ⟨e1, -, e3⟩ := st t (Finset.mem_range.mp ht)
        rw [e1, e3, add_vecMulVec, Matrix.mul_add, mul_vecMulVec]
        abel
      have hd : IsUnit (∑ t ∈ Finset.range (T + 1),
          ((f t).cov + vecMulVec (f t).mean (f t).mean)).det := hM.det_pos.ne'.isUnit
      rw [hs, pinv_eq_inv hd, Matrix.mul_assoc, mul_nonsing_inv _ hd, Matrix.mul_one]
    · rfl
  have rA' : q'.A.get = fun _ => A := funext fun t => by rw [rA, hA]; rfl
  have rQ : q'.Q = p.Q := by
    rw [e.Q]
    split
    · rw [hQ]
      congr 1
      rw [newQ, if_pos (Nat.succ_pos T), rA', gb', transScatter]
      have : ∑ t ∈ Finset.range (T + 1),
          (vecMulVec ((f (t + 1)).mean - A *ᵥ (f t).mean - b)
              ((f (t + 1)).mean - A *ᵥ (f t).mean - b)
            + A * ((f t).cov * Aᵀ) + (f (t + 1)).cov - (f (t + 1)).pair * Aᵀ
            - ((f (t + 1)).pair * Aᵀ)ᵀ) = ((T + 1 : ℕ) : ℝ) • Q := by
        rw [Finset.sum_congr rfl (g := fun _ => Q) fun t ht => ?_]
        · rw [Finset.sum_const, Finset.card_range, ← Nat.cast_smul_eq_nsmul ℝ]
        · have ht' := Finset.mem_range.mp ht
          obtain ⟨e1, e2, e3⟩ := st t ht'
          have hs := symm_of_posSemidef (hcov t (by omega))
          rw [e1, e2, e3]
          simp only [transpose_mul, transpose_transpose, hs, Matrix.mul_assoc]
          have : A *ᵥ (f t).mean + b - A *ᵥ (f t).mean - b = 0 := by abel
          rw [this, vecMulVec_zero]
          abel
      rw [this, smul_smul, one_div, inv_mul_cancel₀ hpos.ne', one_smul]
    · rfl
  have rmu : q'.mu0 = p.mu0 := by
    rw [e.mu0]
    split
    · exact f0m
    · rfl
  have rS : q'.S0 = p.S0 := by
    rw [e.S0]
    split
    · rw [rmu, f0m, f0c, sub_self, vecMulVec_zero, add_zero]
    · rfl
  have rb : q'.b = p.b := by
    rw [e.b]
    split
    · rw [hb]
      congr 1
      rw [newb, if_pos (Nat.succ_pos T), rA']
      have : ∑ t ∈ Finset.range (T + 1), ((f (t + 1)).mean - A *ᵥ (f t).mean)
          = ((T + 1 : ℕ) : ℝ) • b := by
        rw [Finset.sum_congr rfl (g := fun _ => b) fun t ht => ?_]
        · rw [Finset.sum_const, Finset.card_range, ← Nat.cast_smul_eq_nsmul ℝ]
        · rw [(st t (Finset.mem_range.mp ht)).1, add_sub_cancel_left]
      rw [this, smul_smul, one_div, inv_mul_cancel₀ hpos.ne', one_smul]
    · rfl
  refine ⟨⟨rA, rb, rQ, rmu, rS⟩, fun t ht => ?_, fun t ht => ?_, ?_⟩
  · have := hP.Q t ht
    simpa only [Params.fn, rQ] using this
  · show (q'.R.get t).PosSemidef
    rw [e.R]
    split
    · rw [newR_missing (N := T + 1 + 1) (fun s hs => hz s (by omega))]
      exact PosSemidef.zero
    · exact hP.R t ht
  · show q'.S0.PosSemidef
    rw [rS]
    exact hpsd.S0

/-- **C98.** Trained on nothing, the filter believes every measurement completely: if the observation
covariance was selected and the observation matrices and offsets were not, then in every later run
the estimate after an unmasked row agrees exactly with that row, and the reported covariance of the
measured quantity is zero.  (Transition covariance and initial covariance positive definite, rows of
the observation matrix linearly independent.) -/
theorem C98_masked_then_measurements_believed {p p' : Params n m} {os : List (Obs m)} {k : ℕ}
    {vars : EmVar → Bool} (hall : ∀ o ∈ os, o.missing) (hlen : 2 ≤ os.length) {A Q : Mat n n}
    {b : Vec n} (hA : p.A = .const A) (hb : p.b = .const b) (hQ : p.Q = .const Q)
    (hdef : p.DefinedFor os.length) (hpsd : p.PSD os.length) (hS : p.S0.PosDef) (hQd : Q.PosDef)
    (hR : vars .observationCovariance) (hvC : ¬ vars .observationMatrices)
    (hvd : ¬ vars .observationOffsets) (h : kfEm p os (k + 1) vars = .ok p')
    {new : List (Obs m)} {out : List (Vec n × Mat n n)} (hout : kfFilter p' new = .ok out)
    {t : ℕ} {mean : Vec n} {cov : Mat n n} (hrow : out[t]? = some (mean, cov))
    {z : Obs m} (hnew : new[t]? = some z) (hz : ¬ z.missing) {C : Mat m n} {d : Vec m}
    (hC : lastDims p.C t = .ok C) (hd : lastDims p.d t = .ok d) (hrank : ∀ x, Cᵀ *ᵥ x = 0 → x = 0) :
    C *ᵥ mean + d = z.val ∧ C * cov * Cᵀ = 0 := by
  obtain ⟨rC, rd, rR⟩ := C98_masked_observation_part hall h
  obtain ⟨rA, rb, rQ, rm, rS⟩ :=
    C98_masked_dynamics hall hlen hA hb hQ hdef hpsd (fun _ => hS) h
  obtain ⟨ht, hc, er⟩ := kfFilter_row hout hrow
  have hzt : obsFn new t = z := by
    rw [obsFn_eq ht]
    exact (List.getElem?_eq_some_iff.mp hnew).2
  have hz' : ¬ (obsFn new t).missing := by rw [hzt]; exact hz
  have gC : p'.fn.C t = C := by
    have := lastDims_eq_ok (hc.C.mono ht)
    rw [rC, if_neg hvC, hC] at this
    rw [show p'.fn.C t = p'.C.get t from rfl, rC, if_neg hvC]
    exact (Except.ok.inj this).symm
  have gd : p'.fn.d t = d := by
    have := lastDims_eq_ok (hc.d.mono ht)
    rw [rd, if_neg hvd, hd] at this
    rw [show p'.fn.d t = p'.d.get t from rfl, rd, if_neg hvd]
    exact (Except.ok.inj this).symm
  have gR : p'.fn.R t = 0 := by
    rw [show p'.fn.R t = p'.R.get t from rfl, rR, if_pos hR]; rfl
  have hP : p'.fn.PSD new.length := by
    refine ⟨fun s _ => ?_, fun s _ => ?_, ?_⟩
    · rw [show p'.fn.Q s = p'.Q.get s from rfl, rQ, hQ]; exact hQd.posSemidef
    · rw [show p'.fn.R s = p'.R.get s from rfl, rR, if_pos hR]; exact PosSemidef.zero
    · show p'.S0.PosSemidef
      rw [rS]; exact hpsd.S0
  have hpd : (p'.fn.kf (obsFn new) t).predCov.PosDef := by
    cases t with
    | zero =>
      rw [(p'.fn.kf_zero_pred _).2]
      show p'.S0.PosDef
      rw [rS]; exact hS
    | succ s =>
      rw [(p'.fn.kf_pred_succ _ s).2, add_comm]
      refine Matrix.PosDef.add_posSemidef ?_ (posSemidef_conj' (hP.filt (by omega) _) _)
      rw [show p'.fn.Q s = p'.Q.get s from rfl, rQ, hQ]; exact hQd
  obtain ⟨-, e2, e3⟩ := p'.fn.kf_observed (obsFn new) hz'
  rw [gC, gR, gd, hzt] at e2
  rw [gC, gR] at e3
  obtain ⟨rfl, rfl⟩ := Prod.mk.inj er
  generalize (p'.fn.kf (obsFn new) t).predCov = P at *
  have hM : (C * P * Cᵀ).PosDef := by
    have := hpd.mul_mul_conjTranspose_same (B := C) (fun x y hxy => by
      have h0 := hrank (x - y) (by
        rw [mulVec_sub, mulVec_transpose, mulVec_transpose, sub_eq_zero]; exact hxy)
      exact sub_eq_zero.mp h0)
    rwa [conjTranspose_eq_transpose_of_trivial] at this
  have hK : C * Verif.gain P 0 C = 1 := by
    have hu : IsUnit (C * P * Cᵀ).det := hM.det_pos.ne'.isUnit
    rw [Verif.gain, add_zero, pinv_eq_inv hu, ← Matrix.mul_assoc, ← Matrix.mul_assoc,
      mul_nonsing_inv _ hu]
  constructor
  · rw [e2, mulVec_add, mulVec_mulVec, hK, one_mulVec]
    abel
  · rw [e3, Matrix.mul_sub, ← Matrix.mul_assoc, ← Matrix.mul_assoc, hK, Matrix.one_mul, sub_self,
      Matrix.zero_mul]

/-! ### One row -/

/-- **C98.** On a single row, `em` replaces the selected ones of transition matrix, transition offset
and transition covariance by zero, whatever they were. -/
theorem C98_single_row {p p' : Params n m} {o : Obs m} {k : ℕ} {vars : EmVar → Bool}
    (h : kfEm p [o] (k + 1) vars = .ok p') :
    p'.A = (if vars .transitionMatrices then .const 0 else p.A) ∧
    p'.b = (if vars .transitionOffsets then .const 0 else p.b) ∧
    p'.Q = (if vars .transitionCovariance then .const 0 else p.Q) := by
  obtain ⟨-, -, old, q⟩ := kfEm_succ_ok h
  simp only [List.length_singleton, Nat.sub_self] at q
  refine ⟨?_, ?_, ?_⟩
  · rw [q.A, newA_zero]
  · rw [q.b, newb_zero]
  · rw [q.Q, newQ_zero]

/-- **C98.** After that, if all three were selected, the filter is deaf: in every later run, of any
length and on any data, all estimates from the second row on are exactly zero with covariance
zero. -/
theorem C98_single_row_then_deaf {p p' : Params n m} {o : Obs m} {k : ℕ} {vars : EmVar → Bool}
    (h : kfEm p [o] (k + 1) vars = .ok p') (hA : vars .transitionMatrices)
    (hb : vars .transitionOffsets) (hQ : vars .transitionCovariance) {new : List (Obs m)}
    {out : List (Vec n × Mat n n)} (hout : kfFilter p' new = .ok out) {t : ℕ} {mean : Vec n}
    {cov : Mat n n} (hrow : out[t + 1]? = some (mean, cov)) : mean = 0 ∧ cov = 0 := by
  obtain ⟨rA, rb, rQ⟩ := C98_single_row h
  rw [if_pos hA] at rA
  rw [if_pos hb] at rb
  rw [if_pos hQ] at rQ
  obtain ⟨-, -, er⟩ := kfFilter_row hout hrow
  obtain ⟨rfl, rfl⟩ := Prod.mk.inj er
  obtain ⟨e1, e2⟩ := p'.fn.kf_pred_succ (obsFn new) t
  have gA : p'.fn.A t = 0 := by rw [show p'.fn.A t = p'.A.get t from rfl, rA]; rfl
  have gb : p'.fn.b t = 0 := by rw [show p'.fn.b t = p'.b.get t from rfl, rb]; rfl
  have gQ : p'.fn.Q t = 0 := by rw [show p'.fn.Q t = p'.Q.get t from rfl, rQ]; rfl
  rw [gA, gb, zero_mulVec, add_zero] at e1
  rw [gA, gQ, Matrix.zero_mul, Matrix.zero_mul, add_zero] at e2
  by_cases hm : (obsFn new (t + 1)).missing
  · obtain ⟨-, e3, e4⟩ := p'.fn.kf_missing _ hm
    exact ⟨e3.trans e1, e4.trans e2⟩
  · obtain ⟨-, e3, e4⟩ := p'.fn.kf_observed _ hm
    rw [e3, e4, e1, e2]
    simp [Verif.gain]

/-! ### The hypotheses can be met -/

/-- Three rows of one number, all masked. -/
noncomputable def exMasked : List (Obs 1) := List.replicate 3 ⟨![7], fun _ => true⟩

theorem exMasked_missing : ∀ o ∈ exMasked, o.missing := fun o ho => by
  rw [List.eq_of_mem_replicate ho]
  exact ⟨0, rfl⟩

/-- `exPlane`, three masked rows and the default selection meet all hypotheses of the three theorems
on masked rows: `em` runs, and a later run on data has unmasked rows. -/
example : ∃ p' out, kfEm exPlane exMasked 5 defaultVars = .ok p' ∧ p'.R = .const 0 ∧
    exPlane.DefinedFor 3 ∧ exPlane.PSD 3 ∧ exPlane.S0.PosDef ∧
    (1 : Mat 2 2).PosDef ∧ exPlane.Q = .const 1 ∧
    kfFilter p' [⟨![2], fun _ => false⟩, ⟨![5], fun _ => false⟩] = .ok out ∧ out.length = 2 ∧
    ∀ C, lastDims exPlane.C 1 = .ok C → ∀ x, Cᵀ *ᵥ x = 0 → x = 0 := by
  have hc : exPlane.Covers exMasked.length := ⟨trivial, trivial, trivial, trivial, trivial, trivial⟩
  obtain ⟨p', h, -⟩ := C23_em_succeeds (by simp [exMasked]) (definedFor_iff_covers.mpr hc) 5
    defaultVars
  have hpsd : exPlane.PSD 3 := by
    refine ⟨fun t _ Q hQ => ?_, fun t _ R hR => ?_, PosSemidef.one⟩
    · cases hQ; exact PosSemidef.one
    · cases hR; exact PosSemidef.one
  obtain ⟨rC, rd, rR⟩ := C98_masked_observation_part exMasked_missing h
  obtain ⟨rA, rb, rQ, -, -⟩ := C98_masked_dynamics exMasked_missing (by simp [exMasked]) rfl rfl rfl
    (definedFor_iff_covers.mpr hc) hpsd (fun _ => PosDef.one) h
  have hc' : p'.Covers 2 := by
    refine ⟨?_, ?_, ?_, ?_, ?_, ?_⟩
    · rw [rA]; trivial
    · rw [rb]; trivial
    · rw [rQ]; trivial
    · rw [rC]; trivial
    · rw [rd]; trivial
    · rw [rR]; trivial
  refine ⟨p', _, h, rR, definedFor_iff_covers.mpr hc, hpsd, PosDef.one, PosDef.one, rfl,
    kfFilter_eq hc', by simp, fun C hC x hx => ?_⟩
  cases hC
  have := congrFun hx 0
  ext i
  fin_cases i
  simpa [Matrix.mulVec, dotProduct] using this

/-- One row and everything selected: `em` runs, and a later run has a second row. -/
example : ∃ p' out r, kfEm exPlane [⟨![7], fun _ => false⟩] 5 (fun _ => true) = .ok p' ∧
    kfFilter p' [⟨![2], fun _ => false⟩, ⟨![5], fun _ => false⟩] = .ok out ∧ out[1]? = some r := by
  have hc : exPlane.Covers 1 := ⟨trivial, trivial, trivial, trivial, trivial, trivial⟩
  obtain ⟨p', h, -⟩ := C23_em_succeeds (os := [(⟨![7], fun _ => false⟩ : Obs 1)]) (by simp)
    (definedFor_iff_covers.mpr hc) 5 (fun _ => true)
  obtain ⟨-, -, old, q⟩ := kfEm_succ_ok h
  have hc' : p'.Covers 2 := by
    refine ⟨?_, ?_, ?_, ?_, ?_, ?_⟩
    · rw [q.A]; trivial
    · rw [q.b]; trivial
    · rw [q.Q]; trivial
    · rw [q.C]; trivial
    · rw [q.d]; trivial
    · rw [q.R]; trivial
  exact ⟨p', _, _, h, kfFilter_eq hc', rfl⟩

end Verif
