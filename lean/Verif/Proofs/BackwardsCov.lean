import Verif.Proofs.Backwards

/-!
# Lemmas for C116: covariances and log likelihood backwards in time
-/

open Matrix

namespace Verif

variable {n m : ℕ}

/-- The model with another sensor at time `k`: matrix `G`, no offset, unit noise. -/
noncomputable def PFun.probe (P : PFun n m) (k : ℕ) (G : Mat m n) : PFun n m :=
  { P with C := Function.update P.C k G, d := Function.update P.d k 0, R := Function.update P.R k 1 }

theorem PFun.PD.probe {P : PFun n m} {T : ℕ} (h : P.PD T) (k : ℕ) (G : Mat m n) :
    (P.probe k G).PD T where
  Q := h.Q
  R t ht := by
    by_cases e : t = k
    · subst e
      simp only [PFun.probe, Function.update_self]
      exact PosDef.one
    · simp only [PFun.probe, Function.update_of_ne e]
      exact h.R t ht
  S0 := h.S0

theorem PFun.probe_ks {P : PFun n m} {T : ℕ} (h : P.PD (T + 1)) {k : ℕ} (G : Mat m n)
    {z : ℕ → Obs m} (hk : (z k).missing) {t : ℕ} (ht : t ≤ T) :
    ((P.probe k G).ks z T t).mean = (P.ks z T t).mean ∧
      ((P.probe k G).ks z T t).cov = (P.ks z T t).cov := by
  have hs : P.SameInfo (P.probe k G) z z (T + 1) := by
    refine ⟨rfl, rfl, rfl, rfl, rfl, h.R, (h.probe k G).R, fun t _ => ?_, fun t _ => ?_⟩
    · by_cases e : t = k
      · subst e
        have hk' : ∃ i, (z t).mask i = true := hk
        rw [rowPrecision, rowPrecision, if_pos hk', if_pos hk']
      · simp only [PFun.probe, Function.update_of_ne e]
    · by_cases e : t = k
      · subst e
        have hk' : ∃ i, (z t).mask i = true := hk
        rw [rowEvidence, rowEvidence, if_pos hk', if_pos hk']
      · simp only [PFun.probe, Function.update_of_ne e]
  exact hs.smooth h.psd (T - t) (by omega) (by omega)

theorem gain_one_inj {V V' : Mat n n} (hV : V.PosSemidef) (hV' : V'.PosSemidef) {G : Mat m n}
    (h : Verif.gain V 1 G = Verif.gain V' 1 G) : V * Gᵀ = V' * Gᵀ := by
  have key : ∀ {S : Mat n n}, S.PosSemidef → S * Gᵀ * (1 - G * Verif.gain S 1 G)
      = Verif.gain S 1 G := by
    intro S hS
    have e := info_gain G hS (PosDef.one (n := Fin m) (R := ℝ))
    rw [inv_one, Matrix.mul_one, Matrix.add_mul, Matrix.one_mul] at e
    have c : S * Gᵀ * (G * Verif.gain S 1 G) = S * (Gᵀ * G) * Verif.gain S 1 G := by
      simp only [Matrix.mul_assoc]
    rw [Matrix.mul_sub, Matrix.mul_one, c]
    exact sub_eq_of_eq_add e.symm
  have hS : (G * V * Gᵀ + 1).PosDef := posDef_conj_add hV PosDef.one G
  have uS : IsUnit (G * V * Gᵀ + 1).det := hS.det_pos.ne'.isUnit
  have inv : (1 - G * Verif.gain V 1 G) * (G * V * Gᵀ + 1) = 1 := by
    have : Verif.gain V 1 G * (G * V * Gᵀ + 1) = V * Gᵀ := by
      rw [Verif.gain, pinv_eq_inv uS, nonsing_inv_mul_cancel_right _ _ uS]
    rw [Matrix.sub_mul, Matrix.one_mul, Matrix.mul_assoc G (Verif.gain V 1 G), this, ← Matrix.mul_assoc]
    abel
  have a := key hV
  have b := key hV'
  rw [← h] at b
  have c := congrArg (fun M => M * (G * V * Gᵀ + 1)) (a.trans b.symm)
  simp only [Matrix.mul_assoc _ (1 - G * Verif.gain V 1 G), inv, Matrix.mul_one] at c
  exact c

section
variable {P P' : PFun n m} {T : ℕ} {mv : ℕ → Vec n} {V : ℕ → Mat n n}

theorem PFun.Rev.probe (h : P.Rev P' T mv V) {j k : ℕ} (hk : j + k = T) (G : Mat m n) :
    (P.probe k G).Rev (P'.probe j G) T mv V where
  mv0 := h.mv0
  V0 := h.V0
  mvs := h.mvs
  Vs := h.Vs
  mu0 := h.mu0
  S0 := h.S0
  A := h.A
  b := h.b
  Q := h.Q
  C s t hst := by
    by_cases e : t = k
    · obtain rfl : s = j := by omega
      subst e
      simp only [PFun.probe, Function.update_self]
    · have e' : s ≠ j := by omega
      simp only [PFun.probe, Function.update_of_ne e, Function.update_of_ne e', h.C s t hst]
  d s t hst := by
    by_cases e : t = k
    · obtain rfl : s = j := by omega
      subst e
      simp only [PFun.probe, Function.update_self]
    · have e' : s ≠ j := by omega
      simp only [PFun.probe, Function.update_of_ne e, Function.update_of_ne e', h.d s t hst]
  R s t hst := by
    by_cases e : t = k
    · obtain rfl : s = j := by omega
      subst e
      simp only [PFun.probe, Function.update_self]
    · have e' : s ≠ j := by omega
      simp only [PFun.probe, Function.update_of_ne e, Function.update_of_ne e', h.R s t hst]

/-- Smoothed mean after a reading of the probe. -/
theorem PFun.probe_mean (hP : P.PD (T + 1)) {k : ℕ} (hk : k ≤ T) (G : Mat m n) {z : ℕ → Obs m}
    (hz : (z k).missing) (y : Vec m) :
    ((P.probe k G).ks (Function.update z k ⟨y, fun _ => false⟩) T k).mean
      = (P.ks z T k).mean + Verif.gain (P.ks z T k).cov 1 G *ᵥ (y - G *ᵥ (P.ks z T k).mean) := by
  have hm : ¬ (Function.update z k ⟨y, fun _ => false⟩ k).missing := by
    rw [Function.update_self]
    rintro ⟨i, hi⟩
    exact absurd hi (by simp)
  have e := (hP.probe k G).psd.leave_one_out (hP.probe k G).R (k := k) (z' := z)
    (z := Function.update z k ⟨y, fun _ => false⟩)
    (fun t ht => by rw [Function.update_of_ne ht]) hm hz (by omega)
  rw [filterCorrect_gain hm] at e
  have e1 := congrArg Prod.fst e
  obtain ⟨a, b⟩ := P.probe_ks hP G hz hk
  simp only [Nat.add_sub_cancel, a, b] at e1
  rw [e1]
  simp only [PFun.probe, Function.update_self, add_zero]

theorem PFun.Rev.cov_masked (h : P.Rev P' T mv V) (hP : P.PD (T + 1)) (hm : 0 < m) (z : ℕ → Obs m)
    {s t : ℕ} (ht : s + t = T) (hz : (z t).missing) :
    (P'.ks (fun s => z (T - s)) T s).cov = (P.ks z T t).cov := by
  have e : T - s = t := by omega
  have hz' : ((fun s => z (T - s)) s).missing := by simpa only [e] using hz
  have hmean := h.mean hP z ht
  have hV := hP.psd.smooth (show t ≤ T by omega) z
  have hV' := (h.pd hP).psd.smooth (show s ≤ T by omega) fun s => z (T - s)
  have hg : ∀ G : Mat m n, (P'.ks (fun s => z (T - s)) T s).cov * Gᵀ = (P.ks z T t).cov * Gᵀ := by
    intro G
    refine gain_one_inj hV' hV ?_
    refine Matrix.ext_of_mulVec_single fun i => ?_
    generalize (Pi.single i (1 : ℝ) : Vec m) = v
    have e1 := PFun.probe_mean hP (show t ≤ T by omega) G hz (v + G *ᵥ (P.ks z T t).mean)
    have e2 := PFun.probe_mean (h.pd hP) (show s ≤ T by omega) G (z := fun s => z (T - s)) hz'
      (v + G *ᵥ (P.ks z T t).mean)
    have e3 := (h.probe ht G).mean (hP.probe t G)
      (Function.update z t ⟨v + G *ᵥ (P.ks z T t).mean, fun _ => false⟩) ht
    rw [(P'.probe s G).ks_congr (z' := Function.update (fun s => z (T - s)) s
        ⟨v + G *ᵥ (P.ks z T t).mean, fun _ => false⟩) (fun i hi => by
      have : Function.update z t (⟨v + G *ᵥ (P.ks z T t).mean, fun _ => false⟩ : Obs m) (T - i)
          = Function.update (fun s => z (T - s)) s
            ⟨v + G *ᵥ (P.ks z T t).mean, fun _ => false⟩ i := by
        by_cases q : i = s
        · subst q
          rw [e, Function.update_self, Function.update_self]
        · rw [Function.update_of_ne q, Function.update_of_ne (by omega)]
      rw [this]
      exact ⟨Iff.rfl, fun _ => rfl⟩) (by omega), e1, e2, hmean, add_sub_cancel_right,
      add_right_inj] at e3
    exact e3
  ext a b
  have := congrFun (congrFun (hg (Matrix.of fun _ c => if c = b then 1 else 0)) a) ⟨0, hm⟩
  simpa [Matrix.mul_apply] using this

/-- The data with row `k` masked. -/
def maskRow (z : ℕ → Obs m) (k : ℕ) : ℕ → Obs m := Function.update z k ⟨0, fun _ => true⟩

theorem maskRow_missing (hm : 0 < m) (z : ℕ → Obs m) (k : ℕ) : (maskRow z k k).missing := by
  rw [maskRow, Function.update_self]
  exact ⟨⟨0, hm⟩, rfl⟩

theorem maskRow_rev (z : ℕ → Obs m) {s t : ℕ} (ht : s + t = T) {i : ℕ} (hi : i ≤ T) :
    maskRow (fun s => z (T - s)) s i = maskRow z t (T - i) := by
  by_cases q : i = s
  · subst q
    rw [show T - i = t by omega, maskRow, maskRow, Function.update_self, Function.update_self]
  · rw [maskRow, maskRow, Function.update_of_ne q, Function.update_of_ne (by omega)]

theorem sim_refl_of_eq {o o' : Obs m} (h : o = o') : o.Sim o' := by
  subst h; exact ⟨Iff.rfl, fun _ => rfl⟩

/-- Means and covariances backwards. -/
theorem PFun.Rev.smooth (h : P.Rev P' T mv V) (hP : P.PD (T + 1)) (hm : 0 < m) (z : ℕ → Obs m)
    {s t : ℕ} (ht : s + t = T) :
    (P'.ks (fun s => z (T - s)) T s).mean = (P.ks z T t).mean ∧
      (P'.ks (fun s => z (T - s)) T s).cov = (P.ks z T t).cov := by
  refine ⟨h.mean hP z ht, ?_⟩
  have e : T - s = t := by omega
  by_cases hz : (z t).missing
  · exact h.cov_masked hP hm z ht hz
  · have hz' : ¬ ((fun s => z (T - s)) s).missing := by simpa only [e] using hz
    have a := hP.psd.leave_one_out hP.R (z' := maskRow z t) (k := t)
      (fun i hi => by rw [maskRow, Function.update_of_ne hi]) hz (maskRow_missing hm z t) (by omega)
    have b := (h.pd hP).psd.leave_one_out (h.pd hP).R (z' := maskRow (fun s => z (T - s)) s) (k := s)
      (fun i hi => by rw [maskRow, Function.update_of_ne hi]) hz' (maskRow_missing hm _ s) (by omega)
    simp only [Nat.add_sub_cancel] at a b
    rw [P'.ks_congr (z' := fun i => maskRow z t (T - i))
        (fun i hi => sim_refl_of_eq (maskRow_rev z ht hi)) (show s ≤ T by omega),
      h.mean hP (maskRow z t) ht, h.cov_masked hP hm (maskRow z t) ht (maskRow_missing hm z t),
      h.C s t ht, h.d s t ht, h.R s t ht, e, ← a] at b
    exact congrArg Prod.snd b

theorem PFun.rowLL_congr (P : PFun n m) {z z' : ℕ → Obs m} {t : ℕ}
    (h : ∀ i, i ≤ t → (z i).Sim (z' i)) : P.rowLL z t = P.rowLL z' t := by
  obtain ⟨a, b⟩ := P.kf_pred_congr (z := z) (z' := z') (t := t) fun i hi => h i (by omega)
  obtain ⟨h1, h2⟩ := h t le_rfl
  by_cases hm : (z t).missing
  · have hm' : (z' t).missing := h1.mp hm
    rw [PFun.rowLL, PFun.rowLL, if_pos hm, if_pos hm']
  · have hm' : ¬ (z' t).missing := fun q => hm (h1.mpr q)
    rw [PFun.rowLL, PFun.rowLL, if_neg hm, if_neg hm', a, b, h2 hm]

/-- The log likelihood backwards. -/
theorem PFun.Rev.loglik (h : P.Rev P' T mv V) (hP : P.PD (T + 1)) (hm : 0 < m) (z : ℕ → Obs m) :
    ∑ s ∈ Finset.range (T + 1), P'.rowLL (fun s => z (T - s)) s
      = ∑ t ∈ Finset.range (T + 1), P.rowLL z t := by
  -- the rows from `j` on masked
  have key : ∀ j, ∀ z : ℕ → Obs m, (∀ t ≤ T, j ≤ t → (z t).missing) →
      ∑ s ∈ Finset.range (T + 1), P'.rowLL (fun s => z (T - s)) s
        = ∑ t ∈ Finset.range (T + 1), P.rowLL z t := by
    intro j
    induction j with
    | zero =>
      intro z hz
      rw [Finset.sum_eq_zero, Finset.sum_eq_zero]
      · intro t ht
        have := Finset.mem_range.mp ht
        rw [PFun.rowLL, if_pos (hz t (by omega) (Nat.zero_le _))]
      · intro s hs
        rw [PFun.rowLL, if_pos (hz (T - s) (by omega) (Nat.zero_le _))]
    | succ j ih =>
      intro z hz
      by_cases hj : j ≤ T
      · by_cases hzj : (z j).missing
        · refine ih z fun t ht hjt => ?_
          by_cases q : t = j
          · rw [q]; exact hzj
          · exact hz t ht (by omega)
        · have ht : T - j + j = T := by omega
          have e : T - (T - j) = j := by omega
          have hzj' : ¬ ((fun s => z (T - s)) (T - j)).missing := by simpa only [e] using hzj
          have a := hP.psd.leave_one_out_loglik hP.R (z' := maskRow z j) (k := j)
            (fun i hi => by rw [maskRow, Function.update_of_ne hi]) hzj (maskRow_missing hm z j)
            (by omega)
          have b := (h.pd hP).psd.leave_one_out_loglik (h.pd hP).R
            (z' := maskRow (fun s => z (T - s)) (T - j)) (k := T - j)
            (fun i hi => by rw [maskRow, Function.update_of_ne hi]) hzj' (maskRow_missing hm _ _)
            (by omega)
          have c := ih (maskRow z j) fun t hT hjt => by
            by_cases q : t = j
            · rw [q]; exact maskRow_missing hm z j
            · rw [maskRow, Function.update_of_ne q]
              exact hz t hT (by omega)
          simp only [Nat.add_sub_cancel] at a b
          rw [P'.ks_congr (z' := fun i => maskRow z j (T - i))
              (fun i hi => sim_refl_of_eq (maskRow_rev z ht hi)) (show T - j ≤ T by omega),
            (h.smooth hP hm (maskRow z j) ht).1, (h.smooth hP hm (maskRow z j) ht).2,
            h.C _ j ht, h.d _ j ht, h.R _ j ht, e,
            Finset.sum_congr (s₁ := Finset.range (T + 1)) rfl fun t ht' =>
              P'.rowLL_congr (z := maskRow (fun s => z (T - s)) (T - j))
                (z' := fun i => maskRow z j (T - i)) (t := t)
                fun i hi => sim_refl_of_eq (maskRow_rev z ht
                  (by have := Finset.mem_range.mp ht'; omega)), c, ← a] at b
          exact b
      · exact ih z fun t ht hjt => absurd (le_trans hjt ht) hj
  exact key (T + 1) z fun t ht hjt => by omega

end

end Verif
