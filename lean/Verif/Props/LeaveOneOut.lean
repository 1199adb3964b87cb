import Verif.Proofs.LeaveOneOutLoglik
import Verif.Props.Information

/-!
# C115: leaving out one row
-/

open Matrix

namespace Verif

variable {n m : ℕ}

theorem MaskedAt.fn {k : ℕ} {os os' : List (Obs m)} (h : MaskedAt k os os') (hk : k < os.length) :
    (∀ t, t ≠ k → obsFn os' t = obsFn os t) ∧ (obsFn os' k).missing := by
  refine ⟨fun t ht => ?_, ?_⟩
  · simp only [obsFn, List.getD_eq_getElem?_getD, h.rows t ht]
  · have hk' : k < os'.length := by rw [h.len]; exact hk
    rw [obsFn_eq hk']
    exact h.hidden _ (List.getElem?_eq_getElem hk')

theorem Params.NoisySensors.fn {p : Params n m} {T : ℕ} (h : p.NoisySensors T) (hc : p.Covers T) :
    ∀ t, t < T → (p.fn.R t).PosDef :=
  fun t ht => h t ht _ (lastDims_eq_ok (hc.R.mono (by omega)))

/-- **C115.** Mask one observed row `k`, smooth, and correct the smoothed mean and covariance of that
time by the row left out (`filter_update` with the identity as transition, no offset and no transition
noise): the result is the smoothed mean and covariance with the row. -/
theorem C115_leave_one_out (p : Params n m) (os os' : List (Obs m)) (hpsd : p.PSD os.length)
    (hR : p.NoisySensors os.length) {k : ℕ} {o : Obs m} (hk : os[k]? = some o)
    (ho : ∀ i, o.mask i = false) (h : MaskedAt k os os') {out out' : List (Vec n × Mat n n)}
    (hs : kfSmooth p os = .ok out) (hs' : kfSmooth p os' = .ok out') {r r' : Vec n × Mat n n}
    (hr : out[k]? = some r) (hr' : out'[k]? = some r') {C : Mat m n} {d : Vec m} {R : Mat m m}
    (hC : lastDims p.C k = .ok C) (hd : lastDims p.d k = .ok d) (hRk : lastDims p.R k = .ok R) :
    filterUpdate p r'.1 r'.2 (some o)
      { A := some 1, b := some 0, Q := some 0, C := some C, d := some d, R := some R } = .ok r := by
  obtain ⟨hkl, hc, rfl⟩ := kfSmooth_row hs hr
  obtain ⟨-, -, rfl⟩ := kfSmooth_row hs' hr'
  obtain ⟨hz, hm'⟩ := h.fn hkl
  have eo : obsFn os k = o := by
    rw [obsFn_eq hkl]
    exact Option.some.inj ((List.getElem?_eq_getElem hkl).symm.trans hk)
  have hm : ¬ (obsFn os k).missing := by
    rw [eo]
    rintro ⟨i, hi⟩
    rw [ho i] at hi
    exact absurd hi (by simp)
  have e := (hpsd.fn hc).leave_one_out (hR.fn hc) hz hm hm' hkl
  have eC : C = p.fn.C k := (lastDims_ok_get hC).1
  have ed : d = p.fn.d k := (lastDims_ok_get hd).1
  have eR : R = p.fn.R k := (lastDims_ok_get hRk).1
  rw [h.len, e, eC, ed, eR, eo]
  simp only [filterUpdate, argOrDefault, bind, Except.bind, filterPredict, one_mulVec, add_zero,
    transpose_one, Matrix.mul_one, Matrix.one_mul]
  rfl

/-- The log likelihood with a constant positive definite observation covariance. -/
theorem loglik_rowLL {p : Params n m} {os : List (Obs m)} (hc : p.Covers os.length)
    (hpsd : p.PSD os.length) {R : Mat m m} (hR : p.R = .const R) (hRd : R.PosDef) :
    kfLoglik p os = .ok (∑ t ∈ Finset.range os.length, p.fn.rowLL (obsFn os) t) := by
  have hP := hpsd.fn hc
  have hRt : ∀ t, p.fn.R t = R := fun t => by simp only [Params.fn, hR]; rfl
  have key : ∀ {k : ℕ} {S : Mat k k}, S.PosDef → ∀ x c, logMvn x c S = .ok (logN x c S) := by
    intro k S hS x c
    obtain ⟨ℓ, h1, -, h2, -⟩ := logMvn_posDef hS
    rw [h1, h2, logN]
    congr 1
    ring
  rw [kfLoglik_pure hc hR fun t ht _ x c =>
    key (posDef_conj_add (hP.pred ht _) (by rw [hRt]; exact hRd) (p.fn.C t)) x c]
  rfl

/-- **C115, loglikelihood.** What an observed row adds to the log likelihood of the run is the log
density of its value under the smoothed mean and covariance computed without it, seen through the
sensor. -/
theorem C115_loglikelihood (p : Params n m) (os os' : List (Obs m)) (hdef : p.DefinedFor os.length)
    (hpsd : p.PSD os.length) {R : Mat m m} (hR : p.R = .const R) (hRd : R.PosDef) {k : ℕ} {o : Obs m}
    (hk : os[k]? = some o) (ho : ∀ i, o.mask i = false) (h : MaskedAt k os os')
    {out' : List (Vec n × Mat n n)} (hs' : kfSmooth p os' = .ok out') {r' : Vec n × Mat n n}
    (hr' : out'[k]? = some r') {C : Mat m n} {d : Vec m} (hC : lastDims p.C k = .ok C)
    (hd : lastDims p.d k = .ok d) :
    ∃ ℓ ℓ', kfLoglik p os = .ok ℓ ∧ kfLoglik p os' = .ok ℓ' ∧
      ℓ = ℓ' + logN o.val (C *ᵥ r'.1 + d) (C * r'.2 * Cᵀ + R) := by
  have hc := definedFor_iff_covers.mp hdef
  obtain ⟨hkl, -, rfl⟩ := kfSmooth_row hs' hr'
  rw [h.len] at hkl
  obtain ⟨hz, hm'⟩ := h.fn hkl
  have eo : obsFn os k = o := by
    rw [obsFn_eq hkl]
    exact Option.some.inj ((List.getElem?_eq_getElem hkl).symm.trans hk)
  have hm : ¬ (obsFn os k).missing := by
    rw [eo]
    rintro ⟨i, hi⟩
    rw [ho i] at hi
    exact absurd hi (by simp)
  have hRt : ∀ t, p.fn.R t = R := fun t => by simp only [Params.fn, hR]; rfl
  have e := (hpsd.fn hc).leave_one_out_loglik (fun t _ => by rw [hRt]; exact hRd) hz hm hm' hkl
  refine ⟨_, _, loglik_rowLL hc hpsd hR hRd,
    loglik_rowLL (by rw [h.len]; exact hc) (by rw [h.len]; exact hpsd) hR hRd, ?_⟩
  have eC : C = p.fn.C k := (lastDims_ok_get hC).1
  have ed : d = p.fn.d k := (lastDims_ok_get hd).1
  rw [h.len, e, eC, ed, ← eo, priorLL, hRt]

/-- The hypotheses hold for runs of the walk `exMetres` with at least one row, the first of them
observed and then masked. -/
example (x : Vec 1) (os : List (Obs 1)) (q : ℝ) (hq : 0 ≤ q) :
    (exMetres q).PSD (os.length + 1) ∧ (exMetres q).NoisySensors (os.length + 1) ∧
    (exMetres q).DefinedFor (os.length + 1) ∧
    MaskedAt 0 (⟨x, fun _ => false⟩ :: os) (⟨x, fun _ => true⟩ :: os) ∧
    (∃ out, kfSmooth (exMetres q) (⟨x, fun _ => false⟩ :: os) = .ok out) ∧
    (∃ out, kfSmooth (exMetres q) (⟨x, fun _ => true⟩ :: os) = .ok out) := by
  have hd : ∀ T, (exMetres q).DefinedFor T := fun T =>
    ⟨fun _ _ => ⟨_, rfl⟩, fun _ _ => ⟨_, rfl⟩, fun _ _ => ⟨_, rfl⟩, fun _ _ => ⟨_, rfl⟩,
      fun _ _ => ⟨_, rfl⟩, fun _ _ => ⟨_, rfl⟩⟩
  refine ⟨⟨?_, ?_, PosSemidef.one⟩, ?_, hd _, ⟨rfl, ?_, ?_⟩, ?_, ?_⟩
  · rintro t - _ ⟨⟩
    have : (!![q] : Mat 1 1) = q • 1 := by
      ext i j
      rw [Subsingleton.elim i 0, Subsingleton.elim j 0]
      simp
    rw [this]
    exact PosSemidef.one.smul hq
  · rintro t - _ ⟨⟩; exact PosSemidef.one
  · rintro t - _ ⟨⟩; exact PosDef.one
  · intro t ht
    cases t with
    | zero => exact absurd rfl ht
    | succ t => rfl
  · rintro o ⟨⟩; exact ⟨0, rfl⟩
  · exact ⟨_, kfSmooth_eq (by simp) (definedFor_iff_covers.mp (hd _))⟩
  · exact ⟨_, kfSmooth_eq (by simp) (definedFor_iff_covers.mp (hd _))⟩

end Verif
