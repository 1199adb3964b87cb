import Verif.Spec.EmSymmetry
import Verif.Proofs.Symmetry
import Verif.Proofs.EmMonotone

/-!
# `em` in other coordinates
-/

open Matrix

namespace Verif

variable {n m : ℕ}

theorem pinv_conj_regular {k : ℕ} {S M : Mat k k} (hS : IsUnit S.det) (hM : M.PosDef ∨ M = 0) :
    pinv (S * M * Sᵀ) = Sᵀ⁻¹ * pinv M * S⁻¹ := by
  rcases hM with hM | rfl
  · have hd : IsUnit M.det := hM.det_pos.ne'.isUnit
    have hSt : IsUnit Sᵀ.det := by rwa [det_transpose]
    rw [pinv_eq_inv hd, pinv_eq_inv (by rw [det_mul, det_mul]; exact (hS.mul hd).mul hSt),
      Matrix.mul_inv_rev, Matrix.mul_inv_rev, Matrix.mul_assoc]
  · rw [Matrix.mul_zero, Matrix.zero_mul, pinv_zero, Matrix.mul_zero, Matrix.zero_mul]

/-- `Sᵀ` cancels in a regression. -/
theorem mul_pinv_conj {k l : ℕ} {S M : Mat k k} (hS : IsUnit S.det) (hM : M.PosDef ∨ M = 0)
    (X : Mat l k) : X * Sᵀ * pinv (S * M * Sᵀ) = X * pinv M * S⁻¹ := by
  have hSt : IsUnit Sᵀ.det := by rwa [det_transpose]
  rw [pinv_conj_regular hS hM, ← Matrix.mul_assoc, ← Matrix.mul_assoc, Matrix.mul_assoc X,
    mul_nonsing_inv _ hSt, Matrix.mul_one]

theorem vecMulVec_change {a b : ℕ} {a' b' : ℕ} (V : Mat a' a) (S : Mat b' b) (u : Vec a) (v : Vec b) :
    vecMulVec (V *ᵥ u) (S *ᵥ v) = V * vecMulVec u v * Sᵀ := by
  rw [mul_vecMulVec, vecMulVec_mul, vecMul_transpose]

theorem cancel_left {k l : ℕ} {S : Mat k k} (hS : IsUnit S.det) (X : Mat l k) (v : Vec k) :
    (X * S⁻¹) *ᵥ (S *ᵥ v) = X *ᵥ v := by
  rw [mulVec_mulVec, Matrix.mul_assoc, nonsing_inv_mul _ hS, Matrix.mul_one]

theorem cancel_conj {k l l' : ℕ} {S : Mat k k} (hS : IsUnit S.det) (X : Mat l k) (M : Mat k l') :
    X * S⁻¹ * (S * M) = X * M := by
  rw [Matrix.mul_assoc, ← Matrix.mul_assoc S⁻¹, nonsing_inv_mul _ hS, Matrix.one_mul]

theorem cancel_right {k l l' : ℕ} {S : Mat k k} (hS : IsUnit S.det) (M : Mat l' k) (X : Mat l k) :
    M * Sᵀ * (X * S⁻¹)ᵀ = M * Xᵀ := by
  have hSt : IsUnit Sᵀ.det := by rwa [det_transpose]
  rw [transpose_mul, transpose_nonsing_inv, Matrix.mul_assoc, ← Matrix.mul_assoc Sᵀ,
    mul_nonsing_inv _ hSt, Matrix.one_mul]

/-! ### The statistics -/

/-- Statistics of `S x`. -/
def EmStats.change (S : Mat n n) (s : EmStats n) : EmStats n :=
  ⟨S *ᵥ s.mean, S * s.cov * Sᵀ, S * s.pair * Sᵀ⟩

theorem TV.get_map {α β : Type} [Inhabited α] [Inhabited β] (f : α → β) {p : TV α} {t k : ℕ}
    (h : p.Covers k) (ht : t < k) : (p.map f).get t = f (p.get t) := by
  cases p with
  | const a => rfl
  | seq l =>
    have : t < l.length := lt_of_lt_of_le ht h
    simp [TV.map, TV.get, this]

theorem TV.covers_map {α β : Type} (f : α → β) (p : TV α) (k : ℕ) :
    (p.map f).Covers k ↔ p.Covers k := by
  cases p with
  | const a => exact Iff.rfl
  | seq l => simp [TV.map, TV.Covers]

theorem Params.covers_changeUnits (p : Params n m) (S : Mat n n) (V : Mat m m) (w : Vec m) (T : ℕ) :
    (p.changeUnits S V w).Covers T ↔ p.Covers T := by
  constructor
  · rintro ⟨h1, h2, h3, h4, h5, h6⟩
    exact ⟨(TV.covers_map _ _ _).mp h1, (TV.covers_map _ _ _).mp h2, (TV.covers_map _ _ _).mp h3,
      (TV.covers_map _ _ _).mp h4, (TV.covers_map _ _ _).mp h5, (TV.covers_map _ _ _).mp h6⟩
  · rintro ⟨h1, h2, h3, h4, h5, h6⟩
    exact ⟨(TV.covers_map _ _ _).mpr h1, (TV.covers_map _ _ _).mpr h2, (TV.covers_map _ _ _).mpr h3,
      (TV.covers_map _ _ _).mpr h4, (TV.covers_map _ _ _).mpr h5, (TV.covers_map _ _ _).mpr h6⟩

theorem obsFn_affine (V : Mat m m) (w : Vec m) (os : List (Obs m)) {t : ℕ} (ht : t < os.length) :
    obsFn (os.map (Obs.affine V w)) t = (obsFn os t).affine V w := by
  rw [obsFn_eq ht, obsFn_eq (by simpa using ht), List.getElem_map]

theorem obsFn_affine_missing (V : Mat m m) (w : Vec m) (os : List (Obs m)) (t : ℕ) :
    (obsFn os t).missing ↔ (obsFn (os.map (Obs.affine V w)) t).missing := by
  by_cases ht : t < os.length
  · rw [obsFn_affine V w os ht]
    rfl
  · have h1 : obsFn os t = ⟨0, fun _ => true⟩ := by
      simp [obsFn, List.getD_eq_getElem?_getD, List.getElem?_eq_none (not_lt.mp ht)]
    have h2 : obsFn (os.map (Obs.affine V w)) t = ⟨0, fun _ => true⟩ := by
      simp only [obsFn, List.getD_eq_getElem?_getD]
      rw [List.getElem?_eq_none (by simpa using ht)]
      rfl
    rw [h1, h2]

section
variable {p : Params n m} {S : Mat n n} {V : Mat m m} {w : Vec m} {os : List (Obs m)} {T : ℕ}

theorem stats_changeUnits (hS : IsUnit S.det) (hV : IsUnit V.det) (hT : os.length = T + 1)
    (hc : p.Covers (T + 1)) (hp : p.PD (T + 1)) {t : ℕ} (ht : t ≤ T) :
    (p.changeUnits S V w).fn.stats (obsFn (os.map (Obs.affine V w))) T t
      = (p.fn.stats (obsFn os) T t).change S := by
  set P := p.fn with hPdef
  have hPD : P.PD (T + 1) := hp.fn hc
  let P₁ : PFun n m := ⟨P.A, P.b, P.Q, fun t => V * P.C t, fun t => V *ᵥ P.d t + w,
    fun t => V * P.R t * Vᵀ, P.mu0, P.S0⟩
  set z := obsFn os with hz
  set z' := obsFn (os.map (Obs.affine V w)) with hz'
  have h1 : P.ObsMap P₁ (fun _ => V) (fun _ => w) (T + 1) :=
    ⟨fun _ _ => rfl, fun _ _ => rfl, fun _ _ => rfl, fun _ _ => rfl, fun _ _ => rfl, fun _ _ => rfl,
      rfl, rfl⟩
  have hP₁ : P₁.PSD (T + 1) :=
    ⟨hPD.psd.Q, fun t ht => posSemidef_conj' (hPD.psd.R t ht) V, hPD.psd.S0⟩
  have h2 : P₁.StateMap (p.changeUnits S V w).fn S 0 (T + 1) := by
    refine ⟨fun t ht => ?_, fun t ht => ?_, fun t ht => ?_, fun t ht => ?_, fun t ht => ?_,
      fun t ht => ?_, ?_, rfl⟩
    · show (p.A.map _).get t * S = S * p.A.get t
      rw [TV.get_map _ hc.A (show t < T + 1 - 1 by omega), Matrix.mul_assoc,
        nonsing_inv_mul _ hS, Matrix.mul_one]
    · show _ *ᵥ (0 : Vec n) + (p.b.map _).get t = S *ᵥ p.b.get t + 0
      rw [TV.get_map _ hc.b (show t < T + 1 - 1 by omega), mulVec_zero, zero_add, add_zero]
    · exact TV.get_map _ hc.Q (show t < T + 1 - 1 by omega)
    · show (p.C.map _).get t * S = V * p.C.get t
      rw [TV.get_map _ hc.C ht, Matrix.mul_assoc, nonsing_inv_mul _ hS, Matrix.mul_one]
    · show _ *ᵥ (0 : Vec n) + (p.d.map _).get t = V *ᵥ p.d.get t + w
      rw [TV.get_map _ hc.d ht, mulVec_zero, zero_add]
    · exact TV.get_map _ hc.R ht
    · show S *ᵥ p.mu0 = S *ᵥ p.mu0 + 0
      rw [add_zero]
  have hmiss := obsFn_affine_missing V w os
  have hval : ∀ i, i ≤ T → ¬ (z i).missing →
      (P.C i * (P.kf z i).predCov * (P.C i)ᵀ + P.R i).PosDef ∧
      (z' i).val = V *ᵥ (z i).val + w := by
    intro i hi _
    refine ⟨Matrix.PosDef.posSemidef_add (posSemidef_conj' (hPD.psd.pred (by omega) z) _)
      (hPD.R i (by omega)), ?_⟩
    rw [hz', obsFn_affine V w os (by omega)]
    rfl
  have sm : ∀ t ≤ T, ((p.changeUnits S V w).fn.ks z' T t).mean = S *ᵥ (P.ks z T t).mean ∧
      ((p.changeUnits S V w).fn.ks z' T t).cov = S * (P.ks z T t).cov * Sᵀ := by
    intro t ht
    obtain ⟨a1, a2⟩ := h2.smooth hP₁ z' ht
    obtain ⟨b1, b2⟩ := h1.ks hPD.psd (fun _ _ => hV) hmiss ht
    rw [a1, a2, b1, b2 hval, add_zero]
    exact ⟨rfl, rfl⟩
  have hg : ∀ t < T, ((p.changeUnits S V w).fn.ks z' T t).gain
      = S * (P.ks z T t).gain * S⁻¹ := by
    intro t ht
    have f1 := (h2.filt z' (t := t) (by omega)).2
    have f2 := ((h1.kf hPD.psd (fun _ _ => hV) hmiss (t := t) (by omega)).1).2
    rw [← hz, ← hz'] at f2
    rw [PFun.ks_lt' _ _ ht, PFun.ks_lt' _ _ ht]
    show Verif.gain ((p.changeUnits S V w).fn.kf z' t).filtCov ((p.changeUnits S V w).fn.Q t)
      ((p.changeUnits S V w).fn.A t) = S * Verif.gain (P.kf z t).filtCov (P.Q t) (P.A t) * S⁻¹
    have eA : (p.changeUnits S V w).fn.A t = S * P.A t * S⁻¹ :=
      TV.get_map _ hc.A (show t < T + 1 - 1 by omega)
    have eQ : (p.changeUnits S V w).fn.Q t = S * P.Q t * Sᵀ :=
      TV.get_map _ hc.Q (show t < T + 1 - 1 by omega)
    rw [f1, f2, eA, eQ, Verif.gain, Verif.gain, cancel_right hS, Matrix.mul_assoc S]
    have e : S * P.A t * S⁻¹ * (S * (P.kf z t).filtCov * Sᵀ) * (S * P.A t * S⁻¹)ᵀ
        + S * P.Q t * Sᵀ = S * (P.A t * (P.kf z t).filtCov * (P.A t)ᵀ + P.Q t) * Sᵀ := by
      rw [Matrix.mul_assoc S (P.kf z t).filtCov, cancel_conj hS, ← Matrix.mul_assoc,
        cancel_right hS, transpose_mul, Matrix.mul_add, Matrix.add_mul]
      simp only [Matrix.mul_assoc]
    rw [e, transpose_mul, ← Matrix.mul_assoc, ← Matrix.mul_assoc, mul_pinv_conj hS (Or.inl ?_)]
    · simp only [Matrix.mul_assoc]
    · exact posDef_conj_add (hPD.filt z (t := t) (by omega)).2.posSemidef (hPD.Q t (by omega)) _
  obtain ⟨s1, s2⟩ := sm t ht
  simp only [PFun.stats, EmStats.change, s1, s2]
  congr 1
  rcases Nat.eq_zero_or_pos t with rfl | h0
  · simp
  · rw [if_neg h0.ne', if_neg h0.ne', hg (t - 1) (by omega), cancel_right hS, transpose_mul]
    simp only [Matrix.mul_assoc]

end

/-! ### The M-step -/

section
variable {f f' : ℕ → EmStats n} {g g' : ℕ → Obs m} {S : Mat n n} {V : Mat m m} {w : Vec m} {N : ℕ}

theorem w_affine (o : Obs m) : (o.affine V w).w = o.w := rfl

theorem newC_change (hS : IsUnit S.det) {d d' : ℕ → Vec m}
    (hf : ∀ t < N, f' t = (f t).change S) (hg : ∀ t < N, g' t = (g t).affine V w)
    (hd : ∀ t < N, d' t = V *ᵥ d t + w)
    (hM : (∑ t ∈ Finset.range N, (g t).w • ((f t).cov + vecMulVec (f t).mean (f t).mean)).PosDef ∨
      ∑ t ∈ Finset.range N, (g t).w • ((f t).cov + vecMulVec (f t).mean (f t).mean) = 0) :
    newC f' g' d' N = V * newC f g d N * S⁻¹ := by
  have e1 : ∑ t ∈ Finset.range N, (g' t).w • vecMulVec ((g' t).val - d' t) (f' t).mean
      = V * (∑ t ∈ Finset.range N, (g t).w • vecMulVec ((g t).val - d t) (f t).mean) * Sᵀ := by
    rw [Matrix.mul_sum, Matrix.sum_mul]
    refine Finset.sum_congr rfl fun t ht => ?_
    have ht := Finset.mem_range.mp ht
    rw [hf t ht, hg t ht, hd t ht, w_affine, Matrix.mul_smul, Matrix.smul_mul, ← vecMulVec_change]
    simp only [Obs.affine, EmStats.change, add_sub_add_right_eq_sub, mulVec_sub]
  have e2 : ∑ t ∈ Finset.range N, (g' t).w • ((f' t).cov + vecMulVec (f' t).mean (f' t).mean)
      = S * (∑ t ∈ Finset.range N, (g t).w • ((f t).cov + vecMulVec (f t).mean (f t).mean)) * Sᵀ := by
    rw [Matrix.mul_sum, Matrix.sum_mul]
    refine Finset.sum_congr rfl fun t ht => ?_
    have ht := Finset.mem_range.mp ht
    rw [hf t ht, hg t ht, w_affine, Matrix.mul_smul, Matrix.smul_mul, Matrix.mul_add,
      Matrix.add_mul, ← vecMulVec_change]
    rfl
  rw [newC, newC, e1, e2, mul_pinv_conj hS hM]
  simp only [Matrix.mul_assoc]

theorem obsCount_change (hg : ∀ t < N, g' t = (g t).affine V w) : obsCount g' N = obsCount g N := by
  rw [obsCount, obsCount]
  congr 1
  refine Finset.filter_congr fun t ht => ?_
  rw [hg t (Finset.mem_range.mp ht)]
  rfl

theorem obsScatter_change (hS : IsUnit S.det) {C C' : ℕ → Mat m n} {d d' : ℕ → Vec m}
    (hf : ∀ t < N, f' t = (f t).change S) (hg : ∀ t < N, g' t = (g t).affine V w)
    (hC : ∀ t < N, C' t = V * C t * S⁻¹) (hd : ∀ t < N, d' t = V *ᵥ d t + w) :
    obsScatter f' g' C' d' N = V * obsScatter f g C d N * Vᵀ := by
  rw [obsScatter, obsScatter, Matrix.mul_sum, Matrix.sum_mul]
  refine Finset.sum_congr rfl fun t ht => ?_
  have ht := Finset.mem_range.mp ht
  rw [hf t ht, hg t ht, hC t ht, hd t ht, w_affine, Matrix.mul_smul, Matrix.smul_mul,
    Matrix.mul_add, Matrix.add_mul, ← vecMulVec_change]
  simp only [Obs.affine, EmStats.change]
  have e1 : V *ᵥ (g t).val + w - (V * C t * S⁻¹) *ᵥ (S *ᵥ (f t).mean) - (V *ᵥ d t + w)
      = V *ᵥ ((g t).val - C t *ᵥ (f t).mean - d t) := by
    rw [cancel_left hS, mulVec_sub, mulVec_sub, mulVec_mulVec]
    abel
  have e2 : V * C t * S⁻¹ * (S * (f t).cov * Sᵀ * (V * C t * S⁻¹)ᵀ)
      = V * (C t * ((f t).cov * (C t)ᵀ)) * Vᵀ := by
    rw [cancel_right hS, Matrix.mul_assoc S, cancel_conj hS, transpose_mul]
    simp only [Matrix.mul_assoc]
  rw [e1, e2]

theorem newR_change (hS : IsUnit S.det) {C C' : ℕ → Mat m n} {d d' : ℕ → Vec m}
    (hf : ∀ t < N, f' t = (f t).change S) (hg : ∀ t < N, g' t = (g t).affine V w)
    (hC : ∀ t < N, C' t = V * C t * S⁻¹) (hd : ∀ t < N, d' t = V *ᵥ d t + w) :
    newR f' g' C' d' N = V * newR f g C d N * Vᵀ := by
  rw [newR, newR, obsCount_change hg, obsScatter_change hS hf hg hC hd]
  split_ifs
  · rw [Matrix.mul_smul, Matrix.smul_mul]
  · rfl

theorem newd_change (hS : IsUnit S.det) {C C' : ℕ → Mat m n}
    (hf : ∀ t < N, f' t = (f t).change S) (hg : ∀ t < N, g' t = (g t).affine V w)
    (hC : ∀ t < N, C' t = V * C t * S⁻¹) (hw : w = 0 ∨ 0 < obsCount g N) :
    newd f' g' C' N = V *ᵥ newd f g C N + w := by
  have e : ∑ t ∈ Finset.range N, (g' t).w • ((g' t).val - C' t *ᵥ (f' t).mean)
      = V *ᵥ (∑ t ∈ Finset.range N, (g t).w • ((g t).val - C t *ᵥ (f t).mean))
        + (obsCount g N : ℝ) • w := by
    rw [obsCount_eq, mulVec_sum, Finset.sum_smul, ← Finset.sum_add_distrib]
    refine Finset.sum_congr rfl fun t ht => ?_
    have ht := Finset.mem_range.mp ht
    rw [hf t ht, hg t ht, hC t ht, w_affine, mulVec_smul, ← smul_add]
    simp only [Obs.affine, EmStats.change]
    rw [cancel_left hS, mulVec_sub, mulVec_mulVec]
    congr 1
    abel
  rw [newd, newd, obsCount_change hg, e]
  split_ifs with h
  · have h' : (obsCount g N : ℝ) ≠ 0 := by exact_mod_cast h.ne'
    rw [smul_add, mulVec_smul, smul_smul, one_div, inv_mul_cancel₀ h', one_smul]
  · rcases hw with rfl | hw
    · simp
    · exact absurd hw h

theorem newA_change (hS : IsUnit S.det) {b b' : ℕ → Vec n}
    (hf : ∀ t < N + 1, f' t = (f t).change S) (hb : ∀ t < N, b' t = S *ᵥ b t)
    (hM : (∑ t ∈ Finset.range N, ((f t).cov + vecMulVec (f t).mean (f t).mean)).PosDef ∨
      ∑ t ∈ Finset.range N, ((f t).cov + vecMulVec (f t).mean (f t).mean) = 0) :
    newA f' b' N = S * newA f b N * S⁻¹ := by
  have e1 : ∑ t ∈ Finset.range N, ((f' (t + 1)).pair + vecMulVec (f' (t + 1)).mean (f' t).mean
        - vecMulVec (b' t) (f' t).mean)
      = S * (∑ t ∈ Finset.range N, ((f (t + 1)).pair + vecMulVec (f (t + 1)).mean (f t).mean
        - vecMulVec (b t) (f t).mean)) * Sᵀ := by
    rw [Matrix.mul_sum, Matrix.sum_mul]
    refine Finset.sum_congr rfl fun t ht => ?_
    have ht := Finset.mem_range.mp ht
    rw [hf t (by omega), hf (t + 1) (by omega), hb t ht, Matrix.mul_sub, Matrix.sub_mul,
      Matrix.mul_add, Matrix.add_mul, ← vecMulVec_change, ← vecMulVec_change]
    rfl
  have e2 : ∑ t ∈ Finset.range N, ((f' t).cov + vecMulVec (f' t).mean (f' t).mean)
      = S * (∑ t ∈ Finset.range N, ((f t).cov + vecMulVec (f t).mean (f t).mean)) * Sᵀ := by
    rw [Matrix.mul_sum, Matrix.sum_mul]
    refine Finset.sum_congr rfl fun t ht => ?_
    have ht := Finset.mem_range.mp ht
    rw [hf t (by omega), Matrix.mul_add, Matrix.add_mul, ← vecMulVec_change]
    rfl
  rw [newA, newA, e1, e2, mul_pinv_conj hS hM]
  simp only [Matrix.mul_assoc]

theorem transScatter_change (hS : IsUnit S.det) {A A' : ℕ → Mat n n} {b b' : ℕ → Vec n}
    (hf : ∀ t < N + 1, f' t = (f t).change S) (hA : ∀ t < N, A' t = S * A t * S⁻¹)
    (hb : ∀ t < N, b' t = S *ᵥ b t) :
    transScatter f' A' b' N = S * transScatter f A b N * Sᵀ := by
  rw [transScatter, transScatter, Matrix.mul_sum, Matrix.sum_mul]
  refine Finset.sum_congr rfl fun t ht => ?_
  have ht := Finset.mem_range.mp ht
  rw [hf t (by omega), hf (t + 1) (by omega), hA t ht, hb t ht]
  simp only [EmStats.change]
  have e1 : S *ᵥ (f (t + 1)).mean - (S * A t * S⁻¹) *ᵥ (S *ᵥ (f t).mean) - S *ᵥ b t
      = S *ᵥ ((f (t + 1)).mean - A t *ᵥ (f t).mean - b t) := by
    rw [cancel_left hS, mulVec_sub, mulVec_sub, mulVec_mulVec]
  have e2 : S * A t * S⁻¹ * (S * (f t).cov * Sᵀ * (S * A t * S⁻¹)ᵀ)
      = S * (A t * ((f t).cov * (A t)ᵀ)) * Sᵀ := by
    rw [cancel_right hS, Matrix.mul_assoc S (f t).cov, cancel_conj hS, transpose_mul]
    simp only [Matrix.mul_assoc]
  have e3 : S * (f (t + 1)).pair * Sᵀ * (S * A t * S⁻¹)ᵀ
      = S * ((f (t + 1)).pair * (A t)ᵀ) * Sᵀ := by
    rw [cancel_right hS, transpose_mul]
    simp only [Matrix.mul_assoc]
  have e4 : (S * ((f (t + 1)).pair * (A t)ᵀ) * Sᵀ)ᵀ = S * ((f (t + 1)).pair * (A t)ᵀ)ᵀ * Sᵀ := by
    simp only [transpose_mul, transpose_transpose, Matrix.mul_assoc]
  rw [e1, e2, e3, e4, vecMulVec_change]
  simp only [Matrix.mul_sub, Matrix.sub_mul, Matrix.mul_add, Matrix.add_mul]

theorem newQ_change (hS : IsUnit S.det) {A A' : ℕ → Mat n n} {b b' : ℕ → Vec n}
    (hf : ∀ t < N + 1, f' t = (f t).change S) (hA : ∀ t < N, A' t = S * A t * S⁻¹)
    (hb : ∀ t < N, b' t = S *ᵥ b t) :
    newQ f' A' b' N = S * newQ f A b N * Sᵀ := by
  rw [newQ, newQ, transScatter_change hS hf hA hb]
  split_ifs
  · rw [Matrix.mul_smul, Matrix.smul_mul]
  · rfl

theorem newb_change (hS : IsUnit S.det) {A A' : ℕ → Mat n n}
    (hf : ∀ t < N + 1, f' t = (f t).change S) (hA : ∀ t < N, A' t = S * A t * S⁻¹) :
    newb f' A' N = S *ᵥ newb f A N := by
  rw [newb, newb]
  split_ifs
  · rw [mulVec_smul, mulVec_sum]
    congr 1
    refine Finset.sum_congr rfl fun t ht => ?_
    have ht := Finset.mem_range.mp ht
    rw [hf t (by omega), hf (t + 1) (by omega), hA t ht]
    simp only [EmStats.change]
    rw [cancel_left hS, mulVec_sub, mulVec_mulVec]
  · rw [mulVec_zero]

end

theorem weighted_sum_regular {f : ℕ → EmStats n} {g : ℕ → Obs m} {N : ℕ}
    (hf : ∀ t < N, (f t).cov.PosDef) :
    (∑ t ∈ Finset.range N, (g t).w • ((f t).cov + vecMulVec (f t).mean (f t).mean)).PosDef ∨
      ∑ t ∈ Finset.range N, (g t).w • ((f t).cov + vecMulVec (f t).mean (f t).mean) = 0 := by
  induction N with
  | zero => right; simp
  | succ N ih =>
    rw [Finset.sum_range_succ]
    have hN : ((f N).cov + vecMulVec (f N).mean (f N).mean).PosDef :=
      (hf N (by omega)).add_posSemidef (vecMulVec_posSemidef _)
    by_cases h : (g N).missing
    · rw [Obs.w_missing h, zero_smul, add_zero]
      exact ih fun t ht => hf t (by omega)
    · rw [Obs.w_observed h, one_smul]
      left
      rcases ih fun t ht => hf t (by omega) with h | h
      · exact h.add hN
      · rw [h, zero_add]; exact hN

theorem sum_regular {f : ℕ → EmStats n} {N : ℕ} (hf : ∀ t < N, (f t).cov.PosDef) :
    (∑ t ∈ Finset.range N, ((f t).cov + vecMulVec (f t).mean (f t).mean)).PosDef ∨
      ∑ t ∈ Finset.range N, ((f t).cov + vecMulVec (f t).mean (f t).mean) = 0 := by
  rcases Nat.eq_zero_or_pos N with rfl | h
  · right; simp
  · left
    exact sum_posDef h fun t ht => (hf t ht).add_posSemidef (vecMulVec_posSemidef _)

theorem EmEqs.changeUnits {given old p₁ p₁' : Params n m} {vars : EmVar → Bool}
    {f f' : ℕ → EmStats n} {g g' : ℕ → Obs m} {T : ℕ} {S : Mat n n} {V : Mat m m} {w : Vec m}
    (hS : IsUnit S.det) (hold : old.Covers (T + 1)) (hcov : p₁.Covers (T + 1))
    (hf : ∀ t < T + 1, f' t = (f t).change S)
    (hg : ∀ t < T + 1, g' t = (g t).affine V w) (hpd : ∀ t < T + 1, (f t).cov.PosDef)
    (hw : w = 0 ∨ 0 < obsCount g (T + 1) ∨ vars .observationOffsets = false)
    (h : EmEqs given vars old f g T p₁)
    (h' : EmEqs (given.changeUnits S V w) vars (old.changeUnits S V w) f' g' T p₁') :
    p₁' = p₁.changeUnits S V w := by
  have hd : ∀ t < T + 1, (old.changeUnits S V w).d.get t = V *ᵥ old.d.get t + w :=
    fun t ht => TV.get_map _ hold.d ht
  have hb : ∀ t < T, (old.changeUnits S V w).b.get t = S *ᵥ old.b.get t :=
    fun t ht => TV.get_map _ hold.b (show t < T + 1 - 1 by omega)
  have eC : p₁'.C = (p₁.changeUnits S V w).C := by
    show _ = p₁.C.map _
    rw [h'.C, h.C]
    split_ifs
    · rw [newC_change hS hf hg hd (weighted_sum_regular hpd)]; rfl
    · rfl
  have gC : ∀ t < T + 1, p₁'.C.get t = V * p₁.C.get t * S⁻¹ := by
    intro t ht
    rw [eC]
    exact TV.get_map _ hcov.C ht
  have eA : p₁'.A = (p₁.changeUnits S V w).A := by
    show _ = p₁.A.map _
    rw [h'.A, h.A]
    split_ifs
    · rw [newA_change hS hf hb (sum_regular fun t ht => hpd t (by omega))]; rfl
    · rfl
  have gA : ∀ t < T, p₁'.A.get t = S * p₁.A.get t * S⁻¹ := by
    intro t ht
    rw [eA]
    exact TV.get_map _ hcov.A (show t < T + 1 - 1 by omega)
  have eR : p₁'.R = (p₁.changeUnits S V w).R := by
    show _ = p₁.R.map _
    rw [h'.R, h.R]
    split_ifs
    · rw [newR_change hS hf hg gC hd]; rfl
    · rfl
  have eQ : p₁'.Q = (p₁.changeUnits S V w).Q := by
    show _ = p₁.Q.map _
    rw [h'.Q, h.Q]
    split_ifs
    · rw [newQ_change hS hf gA hb]; rfl
    · rfl
  have emu : p₁'.mu0 = S *ᵥ p₁.mu0 := by
    rw [h'.mu0, h.mu0]
    split_ifs
    · rw [hf 0 (by omega)]; rfl
    · rfl
  have eS : p₁'.S0 = S * p₁.S0 * Sᵀ := by
    rw [h'.S0, h.S0]
    split_ifs
    · rw [hf 0 (by omega), emu]
      simp only [EmStats.change]
      rw [← mulVec_sub, vecMulVec_change, Matrix.mul_add, Matrix.add_mul]
    · rfl
  have eb : p₁'.b = (p₁.changeUnits S V w).b := by
    show _ = p₁.b.map _
    rw [h'.b, h.b]
    split_ifs
    · rw [newb_change hS hf gA]; rfl
    · rfl
  have ed : p₁'.d = (p₁.changeUnits S V w).d := by
    show _ = p₁.d.map _
    rw [h'.d, h.d]
    split_ifs with hv
    · rw [newd_change hS hf hg gC (by
        rcases hw with hw | hw | hw
        · exact Or.inl hw
        · exact Or.inr hw
        · rw [hw] at hv; cases hv)]
      rfl
    · rfl
  have key : ∀ a b : Params n m, a.A = b.A → a.b = b.b → a.Q = b.Q → a.C = b.C → a.d = b.d →
      a.R = b.R → a.mu0 = b.mu0 → a.S0 = b.S0 → a = b := by
    rintro ⟨⟩ ⟨⟩ h1 h2 h3 h4 h5 h6 h7 h8
    cases h1; cases h2; cases h3; cases h4; cases h5; cases h6; cases h7; cases h8
    rfl
  exact key _ _ eA eb eQ eC ed eR emu eS

theorem emStats_nil (p : Params n m) : emStats p [] = .error .valueError := rfl

theorem emStats_error {p : Params n m} {os : List (Obs m)} (h0 : os ≠ [])
    (h : ¬ p.Covers os.length) : emStats p os = .error .indexError := by
  rw [emStats]
  cases hf : filterFull p os with
  | error e => rw [filterFull_error hf]; rfl
  | ok l =>
    rcases filterFull_ok_iff.mp ⟨l, hf⟩ with h1 | hc
    · exact absurd h1 h0
    · exact absurd hc h

theorem emLoop_changeUnits {given : Params n m} {vars : EmVar → Bool} {os : List (Obs m)}
    {S : Mat n n} {V : Mat m m} {w : Vec m} (hS : IsUnit S.det) (hV : IsUnit V.det)
    (hw : w = 0 ∨ 0 < obsCount (obsFn os) os.length ∨ vars .observationOffsets = false)
    (k : ℕ) (p : Params n m)
    (hgc : os ≠ [] → p.Covers os.length → given.Covers os.length)
    (hp : ∀ j < k, ∀ q, emLoop given vars os j p = .ok q → q.PD os.length) :
    emLoop (given.changeUnits S V w) vars (os.map (Obs.affine V w)) k (p.changeUnits S V w)
      = (emLoop given vars os k p).map fun q => q.changeUnits S V w := by
  induction k generalizing p with
  | zero => rfl
  | succ k ih =>
    rw [emLoop_succ, emLoop_succ]
    by_cases h : os ≠ [] ∧ p.Covers os.length
    · obtain ⟨hne, hc⟩ := h
      have hgv := hgc hne hc
      obtain ⟨p₁, h1, h2, h3⟩ := emIter_ok (vars := vars) hne hc hgv
      have hne' : os.map (Obs.affine V w) ≠ [] := by simpa using hne
      have hlen : (os.map (Obs.affine V w)).length = os.length := List.length_map _
      obtain ⟨p₁', h1', h2', h3'⟩ := emIter_ok (vars := vars) (os := os.map (Obs.affine V w)) hne'
        (by rw [hlen]; exact (p.covers_changeUnits S V w _).mpr hc)
        (by rw [hlen]; exact (given.covers_changeUnits S V w _).mpr hgv)
      obtain ⟨T, hT⟩ : ∃ T, os.length = T + 1 :=
        ⟨os.length - 1, by have := List.length_pos_iff.mpr hne; omega⟩
      have hp0 := hp 0 (by omega) p rfl
      rw [hlen] at h3'
      rw [hT] at hc h2 h3 h3' hp0
      rw [Nat.add_sub_cancel] at h3 h3'
      have e : p₁' = p₁.changeUnits S V w := by
        refine EmEqs.changeUnits hS hc h2 ?_ ?_ ?_ ?_ h3 h3'
        · intro t ht
          exact stats_changeUnits hS hV hT hc hp0 (by omega)
        · intro t ht
          exact obsFn_affine V w os (by omega)
        · intro t ht
          exact (hp0.fn hc).smooth (obsFn os) (by omega)
        · rwa [hT] at hw
      rw [h1, h1', e]
      simp only [bind, Except.bind]
      refine ih p₁ (fun _ _ => hgv) fun j hj q hq => hp (j + 1) (by omega) q ?_
      rw [emLoop_succ, h1]
      exact hq
    · by_cases h0 : os = []
      · subst h0
        rw [List.map_nil, emStats_nil, emStats_nil]
        rfl
      · have h' : ¬ p.Covers os.length := fun hc => h ⟨h0, hc⟩
        rw [emStats_error h0 h', emStats_error (by simpa using h0)
          (by rw [List.length_map, p.covers_changeUnits]; exact h')]
        rfl

end Verif
