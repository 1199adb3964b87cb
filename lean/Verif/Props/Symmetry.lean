import Verif.Proofs.Symmetry
import Verif.Proofs.Loglik
import Verif.Proofs.Density
import Verif.Spec.Symmetry
import Verif.Props.Posterior

/-!
# C20, C21, C47, C48, C51: symmetries of filter and smoother
-/

open Matrix

namespace Verif

variable {n n' m : ℕ}

/-! ### Helpers -/

theorem affine_ext {k l : ℕ} {M M' : Mat k l} {v v' : Vec k}
    (h : ∀ x, M *ᵥ x + v = M' *ᵥ x + v') : M = M' ∧ v = v' := by
  have hv : v = v' := by have := h 0; simpa using this
  refine ⟨?_, hv⟩
  subst hv
  apply Matrix.mulVec_injective
  funext x
  exact add_right_cancel (h x)

theorem StateChange.covers {p : Params n m} {p' : Params n' m} {L : Mat n' n} {c : Vec n'} {T : ℕ}
    (h : StateChange p p' L c T) (hc : p.Covers T) : p'.Covers T := by
  have hd := definedFor_iff_covers.mpr hc
  rw [← definedFor_iff_covers]
  refine ⟨fun t ht => ?_, fun t ht => ?_, fun t ht => ?_, fun t ht => ?_, fun t ht => ?_, ?_⟩
  · obtain ⟨A, hA⟩ := hd.A t ht
    obtain ⟨b, hb⟩ := hd.b t ht
    obtain ⟨A', b', h1, h2, -⟩ := h.trans t ht A b hA hb
    exact ⟨_, h1⟩
  · obtain ⟨A, hA⟩ := hd.A t ht
    obtain ⟨b, hb⟩ := hd.b t ht
    obtain ⟨A', b', h1, h2, -⟩ := h.trans t ht A b hA hb
    exact ⟨_, h2⟩
  · obtain ⟨Q, hQ⟩ := hd.Q t ht
    exact ⟨_, h.noise t ht Q hQ⟩
  · obtain ⟨C, hC⟩ := hd.C t ht
    obtain ⟨d, hd'⟩ := hd.d t ht
    obtain ⟨C', d', h1, h2, -⟩ := h.emit t ht C d hC hd'
    exact ⟨_, h1⟩
  · obtain ⟨C, hC⟩ := hd.C t ht
    obtain ⟨d, hd'⟩ := hd.d t ht
    obtain ⟨C', d', h1, h2, -⟩ := h.emit t ht C d hC hd'
    exact ⟨_, h2⟩
  · rw [h.obsNoise]; exact hd.R

theorem StateChange.fn {p : Params n m} {p' : Params n' m} {L : Mat n' n} {c : Vec n'} {T : ℕ}
    (h : StateChange p p' L c T) (hc : p.Covers T) : p.fn.StateMap p'.fn L c T := by
  have key : ∀ t, t + 1 < T → p'.fn.A t * L = L * p.fn.A t ∧
      p'.fn.A t *ᵥ c + p'.fn.b t = L *ᵥ p.fn.b t + c := by
    intro t ht
    obtain ⟨A', b', h1, h2, h3⟩ := h.trans t ht _ _ (lastDims_eq_ok (hc.A.mono (by omega)))
      (lastDims_eq_ok (hc.b.mono (by omega)))
    have e1 := (lastDims_ok_get h1).1
    have e2 := (lastDims_ok_get h2).1
    subst e1 e2
    apply affine_ext
    intro x
    have := h3 x
    simp only [mulVec_add, mulVec_mulVec] at this
    rw [← add_assoc, ← add_assoc]
    exact this
  have key2 : ∀ t, t < T → p'.fn.C t * L = p.fn.C t ∧
      p'.fn.C t *ᵥ c + p'.fn.d t = p.fn.d t := by
    intro t ht
    obtain ⟨A', b', h1, h2, h3⟩ := h.emit t ht _ _ (lastDims_eq_ok (hc.C.mono (by omega)))
      (lastDims_eq_ok (hc.d.mono (by omega)))
    have e1 := (lastDims_ok_get h1).1
    have e2 := (lastDims_ok_get h2).1
    subst e1 e2
    apply affine_ext
    intro x
    have := h3 x
    simp only [mulVec_add, mulVec_mulVec] at this
    rw [← add_assoc]
    exact this
  refine ⟨fun t ht => (key t ht).1, fun t ht => (key t ht).2, fun t ht => ?_,
    fun t ht => (key2 t ht).1, fun t ht => (key2 t ht).2, fun t ht => ?_, h.init.1, h.init.2⟩
  · exact (lastDims_ok_get (h.noise t ht _ (lastDims_eq_ok (hc.Q.mono (by omega))))).1.symm
  · simp only [Params.fn, h.obsNoise]

theorem loglikLoop_congr {p : Params n m} {p' : Params n' m}
    (os os' : List (Obs m)) (t : ℕ) (ss : List (Step n m)) (ss' : List (Step n' m))
    (w : ℕ → ℝ)
    (hs : ss.length = os.length) (hs' : ss'.length = os.length) (ho : os'.length = os.length)
    (h : ∀ i (h1 : i < ss.length) (h2 : i < ss'.length) (h3 : i < os.length) (h4 : i < os'.length),
      loglikStep p' (t + i) ss'[i] os'[i] = (loglikStep p (t + i) ss[i] os[i]).map (· + w (t + i))) :
    loglikLoop p' t ss' os'
      = (loglikLoop p t ss os).map (fun l => List.zipWith (· + ·) l
          ((List.range l.length).map fun i => w (t + i))) := by
  induction os generalizing t ss ss' os' with
  | nil =>
    have e1 := List.length_eq_zero_iff.mp hs
    have e2 := List.length_eq_zero_iff.mp hs'
    subst e1 e2
    rfl
  | cons o os ih =>
    obtain ⟨s, ss, rfl⟩ := List.exists_cons_of_length_eq_add_one hs
    obtain ⟨s', ss', rfl⟩ := List.exists_cons_of_length_eq_add_one hs'
    obtain ⟨o', os', rfl⟩ := List.exists_cons_of_length_eq_add_one ho
    have h0 := h 0 (by simp) (by simp) (by simp) (by simp)
    have hi := ih os' (t + 1) ss ss' (by simpa using hs) (by simpa using hs') (by simpa using ho)
      (fun i h1 h2 h3 h4 => by
        have := h (i + 1) (by simpa using h1) (by simpa using h2) (by simpa using h3)
          (by simpa using h4)
        simp only [List.getElem_cons_succ] at this
        rw [show t + 1 + i = t + (i + 1) by omega]
        exact this)
    simp only [List.getElem_cons_zero, add_zero] at h0
    simp only [loglikLoop, h0, hi]
    cases loglikStep p t s o with
    | error e => rfl
    | ok v =>
      simp only [Except.map, bind, Except.bind]
      cases loglikLoop p (t + 1) ss os with
      | error e => rfl
      | ok l =>
        simp only [pure, Except.pure, List.length_cons, List.range_succ_eq_map, List.map_cons,
          List.zipWith_cons_cons, List.map_map, add_zero]
        congr 3
        apply List.map_congr_left
        intro i _
        simp only [Function.comp]
        congr 1
        omega

theorem kfFilter_ok_covers {p : Params n m} {os : List (Obs m)} {out : List (Vec n × Mat n n)}
    (h : kfFilter p os = .ok out) : os = [] ∨ p.Covers os.length := by
  rw [kfFilter] at h
  cases hf : filterFull p os with
  | error e => rw [hf] at h; cases h
  | ok l => exact filterFull_ok_iff.mp ⟨l, hf⟩

/-! ### C20 -/

/-- **C20.** If the model `p'` is the model `p` with the state `x` replaced by `L x + c`, then
`filter` and `smooth` return the replaced estimates (means `L μ + c`, covariances `L Σ Lᵀ`) and
`loglikelihood` returns the same value.  Invertibility of `L` is not needed; in particular `L`
may drop or duplicate components. -/
theorem C20_state_coordinates (p : Params n m) (p' : Params n' m) (L : Mat n' n) (c : Vec n')
    (os : List (Obs m)) (h : StateChange p p' L c os.length) (hd : p.DefinedFor os.length) :
    kfFilter p' os
      = (kfFilter p os).map (List.map fun r => (L *ᵥ r.1 + c, L * r.2 * Lᵀ)) ∧
    (p.PSD os.length → kfSmooth p' os
      = (kfSmooth p os).map (List.map fun r => (L *ᵥ r.1 + c, L * r.2 * Lᵀ))) ∧
    kfLoglik p' os = kfLoglik p os := by
  have hc := definedFor_iff_covers.mp hd
  have hc' := h.covers hc
  have hm := h.fn hc
  refine ⟨?_, fun hpsd => ?_, ?_⟩
  · rw [kfFilter_eq hc, kfFilter_eq hc']
    simp only [Except.map, List.map_map]
    congr 1
    apply List.map_congr_left
    intro t ht
    rw [List.mem_range] at ht
    have := hm.filt (obsFn os) ht
    simp only [Function.comp, this.1, this.2]
  · rcases List.eq_nil_or_concat os with rfl | ⟨_, _, hos⟩
    · rfl
    · have hne : os ≠ [] := by rw [hos]; simp
      obtain ⟨T, hT⟩ : ∃ T, os.length = T + 1 :=
        ⟨os.length - 1, by have := List.length_pos_iff.mpr hne; omega⟩
      rw [kfSmooth_eq hne hc, kfSmooth_eq hne hc']
      have hP := hpsd.fn hc
      rw [hT] at hm hP ⊢
      simp only [Except.map, List.map_map]
      congr 1
      apply List.map_congr_left
      intro t ht
      rw [List.mem_range] at ht
      have := hm.smooth hP (obsFn os) (t := t) (by omega)
      simp only [Function.comp, this.1, this.2, Nat.add_sub_cancel]
  · have key := loglikLoop_congr (p := p) (p' := p') os os 0
      ((List.range os.length).map (p.fn.kf (obsFn os)))
      ((List.range os.length).map (p'.fn.kf (obsFn os))) (fun _ => 0) (by simp) (by simp) rfl ?_
    · rw [kfLoglik, kfLoglik, filterFull_obsFn hc, filterFull_obsFn hc']
      simp only [bind, Except.bind, key]
      cases loglikLoop p 0 ((List.range os.length).map (p.fn.kf (obsFn os))) os with
      | error e => rfl
      | ok l =>
        have : ∀ l : List ℝ, List.zipWith (· + ·) l ((List.range l.length).map fun _ => (0:ℝ)) = l := by
          intro l
          apply List.ext_getElem <;> simp
        simp only [Except.map, this]
    · intro i h1 h2 h3 h4
      have hid : ∀ r : Res ℝ, r.map (· + 0) = r := by
        intro r; cases r <;> simp [Except.map]
      rw [hid]
      simp only [List.getElem_map, List.getElem_range, zero_add, loglikStep]
      by_cases hmi : os[i].missing
      · simp [hmi]
      · simp only [hmi, not_false_eq_true, if_true]
        rw [lastDims_eq_ok (hc.C.mono (by omega)), lastDims_eq_ok (hc.d.mono (by omega)),
          lastDims_eq_ok (hc'.C.mono (by omega)), lastDims_eq_ok (hc'.d.mono (by omega)),
          h.obsNoise]
        cases p.R with
        | seq l => rfl
        | const R =>
          simp only [bind, Except.bind, pure, Except.pure]
          have hp := hm.pred (obsFn os) (t := i) h3
          have hC := hm.C i h3
          have hdd := hm.d i h3
          simp only [Params.fn] at hC hdd
          congr 1
          · rw [hp.1, mulVec_add, mulVec_mulVec, hC, add_assoc, hdd]
          · rw [hp.2, ← hC, transpose_mul]
            simp only [Matrix.mul_assoc]

/-- Concretely: swap and shear the two state components of the example model and shift the
first. -/
example : ∃ (p' : Params 2 1) (os : List (Obs 1)), os.length = 3 ∧
    StateChange exParams p' !![0, 1; 1, 1] ![5, 0] os.length ∧ exParams.DefinedFor os.length ∧
    exParams.PSD os.length := by
  refine ⟨⟨.seq [!![1, 0; 1, 1], !![1, 0; 2, 1]], .seq [![1, -4], ![1, -9]],
    .const !![1, 1; 1, 1], .const !![-1, 1], .const ![8],
    .const !![2], ![10, 5], !![1, 1; 1, 2]⟩,
    [⟨![1], fun _ => false⟩, ⟨![4], fun _ => true⟩, ⟨![2], fun _ => false⟩], rfl, ?_,
    exParams_definedFor, exParams_psd⟩
  refine ⟨fun t ht A b hA hb => ?_, fun t ht Q hQ => ?_, fun t ht C d hC hd => ?_, rfl, ?_, ?_⟩
  · have h2 : t = 0 ∨ t = 1 := by simp at ht; omega
    cases hb
    rcases h2 with rfl | rfl <;> cases hA
    · refine ⟨_, _, rfl, rfl, fun x => ?_⟩
      ext i; fin_cases i <;> simp [mulVec, dotProduct, Fin.sum_univ_two, vecHead, vecTail] <;> ring
    · refine ⟨_, _, rfl, rfl, fun x => ?_⟩
      ext i; fin_cases i <;> simp [mulVec, dotProduct, Fin.sum_univ_two, vecHead, vecTail] <;> ring
  · cases hQ
    simp only [lastDims]
    congr 1
    ext i j; fin_cases i <;> fin_cases j <;> simp [Matrix.mul_apply, Fin.sum_univ_two, vecHead, vecTail]
  · cases hC; cases hd
    refine ⟨_, _, rfl, rfl, fun x => ?_⟩
    ext i; fin_cases i; simp [mulVec, dotProduct, Fin.sum_univ_two, vecHead, vecTail]; ring
  · ext i; fin_cases i <;> simp [exParams, mulVec, dotProduct, Fin.sum_univ_two, vecHead, vecTail] <;> norm_num
  · ext i j; fin_cases i <;> fin_cases j <;>
      simp [exParams, Matrix.mul_apply, Fin.sum_univ_two, vecHead, vecTail] <;> norm_num

/-! ### C21 -/

theorem ObsChange.covers {p p' : Params n m} {L : ℕ → Mat m m} {c : ℕ → Vec m} {T : ℕ}
    (h : ObsChange p p' L c T) (hc : p.Covers T) : p'.Covers T := by
  have hd := definedFor_iff_covers.mpr hc
  rw [← definedFor_iff_covers]
  refine ⟨by rw [h.A]; exact hd.A, by rw [h.b]; exact hd.b, by rw [h.Q]; exact hd.Q,
    fun t ht => ?_, fun t ht => ?_, fun t ht => ?_⟩
  · obtain ⟨C, hC⟩ := hd.C t ht
    obtain ⟨d, hd'⟩ := hd.d t ht
    obtain ⟨C', d', h1, h2, -⟩ := h.emit t ht C d hC hd'
    exact ⟨_, h1⟩
  · obtain ⟨C, hC⟩ := hd.C t ht
    obtain ⟨d, hd'⟩ := hd.d t ht
    obtain ⟨C', d', h1, h2, -⟩ := h.emit t ht C d hC hd'
    exact ⟨_, h2⟩
  · obtain ⟨R, hR⟩ := hd.R t ht
    exact ⟨_, h.obsNoise t ht R hR⟩

theorem ObsChange.fn {p p' : Params n m} {L : ℕ → Mat m m} {c : ℕ → Vec m} {T : ℕ}
    (h : ObsChange p p' L c T) (hc : p.Covers T) : p.fn.ObsMap p'.fn L c T := by
  have key2 : ∀ t, t < T → p'.fn.C t = L t * p.fn.C t ∧ p'.fn.d t = L t *ᵥ p.fn.d t + c t := by
    intro t ht
    obtain ⟨A', b', h1, h2, h3⟩ := h.emit t ht _ _ (lastDims_eq_ok (hc.C.mono (by omega)))
      (lastDims_eq_ok (hc.d.mono (by omega)))
    have e1 := (lastDims_ok_get h1).1
    have e2 := (lastDims_ok_get h2).1
    subst e1 e2
    apply affine_ext
    intro x
    have := h3 x
    simp only [mulVec_add, mulVec_mulVec] at this
    rw [← add_assoc]
    exact this
  refine ⟨fun t _ => by simp only [Params.fn, h.A], fun t _ => by simp only [Params.fn, h.b],
    fun t _ => by simp only [Params.fn, h.Q],
    fun t ht => (key2 t ht).1, fun t ht => (key2 t ht).2, fun t ht => ?_, h.init.1, h.init.2⟩
  exact (lastDims_ok_get (h.obsNoise t ht _ (lastDims_eq_ok (hc.R.mono (by omega))))).1.symm

/-- The innovation covariance (`C P Cᵀ + R`, with `P` the predicted covariance) of every row that is
not missing is positive definite. -/
def Params.InnovationsPosDef (p : Params n m) (os : List (Obs m)) : Prop :=
  ∀ steps, filterFull p os = .ok steps → ∀ t s o C R, steps[t]? = some s → os[t]? = some o →
    ¬ o.missing → lastDims p.C t = .ok C → lastDims p.R t = .ok R → (C * s.predCov * Cᵀ + R).PosDef

theorem Params.InnovationsPosDef.fn {p : Params n m} {os : List (Obs m)} (h : p.InnovationsPosDef os)
    (hc : p.Covers os.length) {t : ℕ} (ht : t < os.length) (hm : ¬ (obsFn os t).missing) :
    (p.fn.C t * (p.fn.kf (obsFn os) t).predCov * (p.fn.C t)ᵀ + p.fn.R t).PosDef := by
  rw [obsFn_eq ht] at hm
  exact h _ (filterFull_obsFn hc) t _ _ _ _ (by simp [ht]) (List.getElem?_eq_getElem ht) hm
    (lastDims_eq_ok (hc.C.mono ht)) (lastDims_eq_ok (hc.R.mono ht))

/-- So it is if the observation covariances are positive definite. -/
theorem Params.innovationsPosDef {p : Params n m} {os : List (Obs m)} (hd : p.DefinedFor os.length)
    (hpsd : p.PSD os.length)
    (hR : ∀ t, t < os.length → ∀ R, lastDims p.R t = .ok R → R.PosDef) : p.InnovationsPosDef os := by
  intro steps hs t s o C R h1 h2 _ hC hR'
  have hc := definedFor_iff_covers.mp hd
  rw [filterFull_obsFn hc] at hs
  cases hs
  have ht : t < os.length := by
    by_contra hge
    rw [List.getElem?_eq_none (by omega)] at h2
    cases h2
  have e : s = p.fn.kf (obsFn os) t := by
    rw [List.getElem?_map, List.getElem?_range ht] at h1
    exact (Option.some.inj h1).symm
  subst e
  exact Matrix.PosDef.posSemidef_add (posSemidef_conj' ((hpsd.fn hc).pred ht _) _) (hR t ht R hR')

/-- **C21.** If the observations are replaced by `L t z + c t` with invertible `L t`, and the
observation model accordingly, `filter` and `smooth` return the same (innovation covariances
positive definite, as they are if the observation covariances are:
`Params.innovationsPosDef`). -/
theorem C21_observation_coordinates (p p' : Params n m) (L : ℕ → Mat m m) (c : ℕ → Vec m)
    (os os' : List (Obs m)) (h : ObsChange p p' L c os.length) (hz : DataChange L c os os')
    (hL : ∀ t, t < os.length → IsUnit (L t))
    (hd : p.DefinedFor os.length) (hpsd : p.PSD os.length)
    (hS : p.InnovationsPosDef os) :
    kfFilter p' os' = kfFilter p os ∧ kfSmooth p' os' = kfSmooth p os := by
  obtain ⟨hlen, hz⟩ := hz
  have hc := definedFor_iff_covers.mp hd
  have hc' := h.covers hc
  have hm := h.fn hc
  have hP := hpsd.fn hc
  have hmiss : ∀ t, ((obsFn os t).missing ↔ (obsFn os' t).missing) := by
    intro t
    by_cases ht : t < os.length
    · rw [obsFn_eq ht, obsFn_eq (by omega)]
      exact (hz t ht (by omega)).1
    · simp [obsFn, ht, show ¬ t < os'.length by omega]
  have hval : ∀ t, t < os.length → ¬ (obsFn os t).missing →
      (p.fn.C t * (p.fn.kf (obsFn os) t).predCov * (p.fn.C t)ᵀ + p.fn.R t).PosDef ∧
      (obsFn os' t).val = L t *ᵥ (obsFn os t).val + c t := by
    intro t ht hmi
    refine ⟨hS.fn hc ht hmi, ?_⟩
    rw [obsFn_eq ht] at hmi ⊢
    rw [obsFn_eq (by omega)]
    exact (hz t ht (by omega)).2 hmi
  have hLd : ∀ t, t < os.length → IsUnit (L t).det := fun t ht =>
    (Matrix.isUnit_iff_isUnit_det _).mp (hL t ht)
  constructor
  · rw [kfFilter_eq hc, kfFilter_eq (by rw [← hlen]; exact hc'), ← hlen]
    congr 1
    apply List.map_congr_left
    intro t ht
    rw [List.mem_range] at ht
    obtain ⟨⟨-, h1⟩, h2⟩ := hm.kf hP hLd hmiss ht
    rw [h1, (h2 fun i hi => hval i (by omega)).2]
  · by_cases hne : os = []
    · subst hne
      have := List.length_eq_zero_iff.mp hlen.symm
      subst this
      rfl
    have hne' : os' ≠ [] := by rintro rfl; exact hne (List.length_eq_zero_iff.mp hlen)
    obtain ⟨T, hT⟩ : ∃ T, os.length = T + 1 :=
      ⟨os.length - 1, by have := List.length_pos_iff.mpr hne; omega⟩
    rw [kfSmooth_eq hne hc, kfSmooth_eq hne' (by rw [← hlen]; exact hc'), ← hlen]
    rw [hT] at hm hP hLd hval ⊢
    congr 1
    apply List.map_congr_left
    intro t ht
    rw [List.mem_range] at ht
    obtain ⟨h1, h2⟩ := hm.ks hP hLd hmiss (t := t) (by omega)
    rw [Nat.add_sub_cancel, h1, h2 fun i hi => hval i (by omega)]

/-- **C21, log-likelihood.** Under the same replacement with a constant `L` the log-likelihood
changes by `- log |det L|` for every unmasked row (the density transforms as a density). -/
theorem C21_observation_coordinates_loglik (p p' : Params n m) (L : Mat m m) (c : ℕ → Vec m)
    (os os' : List (Obs m)) (h : ObsChange p p' (fun _ => L) c os.length)
    (hz : DataChange (fun _ => L) c os os') (hL : IsUnit L)
    (hd : p.DefinedFor os.length) (hpsd : p.PSD os.length)
    (R : Mat m m) (hR : p.R = .const R) (hS : p.InnovationsPosDef os) (hR' : p'.R.IsConst) :
    ∃ l, kfLoglik p os = .ok l ∧
      kfLoglik p' os' = .ok (l - (os.countP fun o => ¬ o.missing) * Real.log |L.det|) := by
  obtain ⟨hlen, hz⟩ := hz
  have hc := definedFor_iff_covers.mp hd
  have hc' := h.covers hc
  have hm := h.fn hc
  have hP := hpsd.fn hc
  have hLd : IsUnit L.det := (Matrix.isUnit_iff_isUnit_det _).mp hL
  have hR0 : ∀ t, p.fn.R t = R := fun t => by simp [Params.fn, hR, TV.get]
  have hmiss : ∀ t, ((obsFn os t).missing ↔ (obsFn os' t).missing) := by
    intro t
    by_cases ht : t < os.length
    · rw [obsFn_eq ht, obsFn_eq (by omega)]
      exact (hz t ht (by omega)).1
    · simp [obsFn, ht, show ¬ t < os'.length by omega]
  have hval : ∀ t, t < os.length → ¬ (obsFn os t).missing →
      (p.fn.C t * (p.fn.kf (obsFn os) t).predCov * (p.fn.C t)ᵀ + p.fn.R t).PosDef ∧
      (obsFn os' t).val = L *ᵥ (obsFn os t).val + c t := by
    intro t ht hmi
    refine ⟨hS.fn hc ht hmi, ?_⟩
    rw [obsFn_eq ht] at hmi ⊢
    rw [obsFn_eq (by omega)]
    exact (hz t ht (by omega)).2 hmi
  have hspd : ∀ t, t < os.length → ¬ (obsFn os t).missing →
      (p.fn.C t * ((p.fn.kf (obsFn os) t).predCov * (p.fn.C t)ᵀ) + R).PosDef := by
    intro t ht hmi
    rw [← Matrix.mul_assoc, ← hR0 t]
    exact hS.fn hc ht hmi
  have hok : ∀ (i : ℕ) (hi : i < os.length), ∃ v, loglikStep p i (p.fn.kf (obsFn os) i) os[i]
      = .ok v := by
    intro i hi
    by_cases hmi : os[i].missing
    · exact ⟨0, by simp [loglikStep, hmi]; rfl⟩
    · obtain ⟨ℓ, hℓ, -⟩ := logMvn_posDef (hspd i hi (by rw [obsFn_eq hi]; exact hmi))
      refine ⟨ℓ os[i].val (p.fn.C i *ᵥ (p.fn.kf (obsFn os) i).predMean + p.fn.d i), ?_⟩
      simp only [loglikStep, hmi, not_false_eq_true, if_true]
      rw [lastDims_eq_ok (hc.C.mono (by omega)), lastDims_eq_ok (hc.d.mono (by omega)), hR]
      simp only [bind, Except.bind, pure, Except.pure]
      exact hℓ _ _
  have hallok : ∃ l : List ℝ, loglikLoop p 0 ((List.range os.length).map (p.fn.kf (obsFn os))) os
      = .ok l := by
    have gen : ∀ (os : List (Obs m)) (ss : List (Step n m)) (t : ℕ), ss.length = os.length →
        (∀ i (h1 : i < ss.length) (h2 : i < os.length),
          ∃ v, loglikStep p (t + i) ss[i] os[i] = .ok v) →
        ∃ l : List ℝ, loglikLoop p t ss os = .ok l := by
      intro os
      induction os with
      | nil => intro ss t hl _; exact ⟨[], by cases ss <;> rfl⟩
      | cons o os ih =>
        intro ss t hl hv
        obtain ⟨s, ss, rfl⟩ := List.exists_cons_of_length_eq_add_one hl
        obtain ⟨v, hv0⟩ := hv 0 (by simp) (by simp)
        obtain ⟨l, hl'⟩ := ih ss (t + 1) (by simpa using hl) (fun i h1 h2 => by
          have := hv (i + 1) (by simpa using h1) (by simpa using h2)
          rw [show t + 1 + i = t + (i + 1) by omega]
          simpa using this)
        simp only [List.getElem_cons_zero, add_zero] at hv0
        exact ⟨v :: l, by simp only [loglikLoop, hv0, hl']; rfl⟩
    apply gen _ _ 0 (by simp)
    intro i h1 h2
    simpa using hok i h2
  obtain ⟨l, hl⟩ := hallok
  have key := loglikLoop_congr (p := p) (p' := p') os os' 0
      ((List.range os.length).map (p.fn.kf (obsFn os)))
      ((List.range os.length).map (p'.fn.kf (obsFn os')))
      (fun t => if (obsFn os t).missing then 0 else - Real.log |L.det|) (by simp) (by simp)
      hlen.symm ?_
  · refine ⟨l.sum, ?_, ?_⟩
    · rw [kfLoglik, filterFull_obsFn hc]
      simp only [bind, Except.bind, hl]
      rfl
    · rw [kfLoglik, filterFull_obsFn (by rw [← hlen]; exact hc'), ← hlen]
      simp only [bind, Except.bind, key, hl, Except.map, pure, Except.pure]
      congr 1
      have hll := (loglikLoop_length (by simp) hl).1
      have gen : ∀ (os : List (Obs m)) (l : List ℝ), l.length = os.length →
          (List.zipWith (· + ·) l ((List.range l.length).map fun i =>
            if (obsFn os (0 + i)).missing then (0 : ℝ) else - Real.log |L.det|)).sum
          = l.sum - (os.countP fun o => ¬ o.missing) * Real.log |L.det| := by
        intro os
        induction os with
        | nil => intro l hl; simp [List.length_eq_zero_iff.mp hl]
        | cons o os ih =>
          intro l hl
          obtain ⟨v, l, rfl⟩ := List.exists_cons_of_length_eq_add_one hl
          have := ih l (by simpa using hl)
          rw [List.length_cons, List.range_succ_eq_map, List.map_cons, List.map_map,
            List.zipWith_cons_cons, List.sum_cons, List.sum_cons, List.countP_cons]
          have e : ((fun i => if (obsFn (o :: os) (0 + i)).missing then (0 : ℝ)
              else - Real.log |L.det|) ∘ Nat.succ)
              = fun i => if (obsFn os (0 + i)).missing then (0 : ℝ) else - Real.log |L.det| := by
            funext i
            have : obsFn (o :: os) (0 + i.succ) = obsFn os (0 + i) := by
              simp [obsFn]
            simp only [Function.comp, this]
          rw [e, this]
          have e0 : obsFn (o :: os) (0 + 0) = o := by simp [obsFn]
          rw [e0]
          by_cases ho : o.missing
          · simp [ho]; ring
          · simp [ho]; ring
      exact gen os l hll
  · intro i h1 h2 h3 h4
    simp only [List.getElem_map, List.getElem_range, zero_add]
    have hmi' : (obsFn os i) = os[i] := obsFn_eq h3
    have hmi2 : (obsFn os' i) = os'[i] := obsFn_eq h4
    rw [← hmi', ← hmi2]
    by_cases hmi : (obsFn os i).missing
    · have := (hmiss i).mp hmi
      simp [loglikStep, hmi, this, Except.map, pure, Except.pure]
    · have hmi'' : ¬ (obsFn os' i).missing := fun hh => hmi ((hmiss i).mpr hh)
      simp only [loglikStep, hmi, hmi'', not_false_eq_true, if_true, if_false]
      rw [lastDims_eq_ok (hc.C.mono (by omega)), lastDims_eq_ok (hc.d.mono (by omega)),
        lastDims_eq_ok (hc'.C.mono (by omega)), lastDims_eq_ok (hc'.d.mono (by omega)), hR]
      obtain ⟨R', hR'⟩ := hR'
      have hRR : R' = L * R * Lᵀ := by
        have := hm.R i h3
        simpa [Params.fn, hR', hR, TV.get] using this
      rw [hR']
      simp only [bind, Except.bind, pure, Except.pure]
      obtain ⟨⟨hpc, -⟩, hpm⟩ := hm.kf hP (fun _ _ => hLd) hmiss h3
      have hpm := (hpm fun j hj => hval j (by omega)).1
      have hC := hm.C i h3
      have hdd := hm.d i h3
      simp only [Params.fn] at hC hdd
      have hS := hspd i h3 hmi
      rw [hC, hdd, hpc, hpm, (hval i h3 hmi).2, hRR]
      have eS : L * p.C.get i * ((p.fn.kf (obsFn os) i).predCov * (L * p.C.get i)ᵀ) + L * R * Lᵀ
          = L * (p.C.get i * ((p.fn.kf (obsFn os) i).predCov * (p.C.get i)ᵀ) + R) * Lᵀ := by
        rw [transpose_mul, Matrix.mul_add, Matrix.add_mul]
        simp only [Matrix.mul_assoc]
      rw [eS]
      change (p.C.get i * ((p.fn.kf (obsFn os) i).predCov * (p.C.get i)ᵀ) + R).PosDef at hS
      generalize p.C.get i * ((p.fn.kf (obsFn os) i).predCov * (p.C.get i)ᵀ) + R = S at hS ⊢
      have hS' : (L * S * Lᵀ).PosDef := by
        rw [posDef_iff_real] at hS ⊢
        refine ⟨?_, fun x hx => ?_⟩
        · rw [transpose_mul, transpose_mul, transpose_transpose, hS.1, Matrix.mul_assoc]
        · have := hS.2 (Lᵀ *ᵥ x) (fun h0 => hx (by
            have hu : IsUnit Lᵀ.det := by rwa [det_transpose]
            have := congrArg (fun v => (Lᵀ)⁻¹ *ᵥ v) h0
            simpa [mulVec_mulVec, nonsing_inv_mul _ hu] using this))
          rwa [← mulVec_mulVec, ← mulVec_mulVec, dotProduct_mulVec, ← mulVec_transpose]
      obtain ⟨ℓ, hℓ, -, hf, -⟩ := logMvn_posDef hS
      obtain ⟨ℓ', hℓ', -, hf', -⟩ := logMvn_posDef hS'
      rw [hℓ, hℓ', hf, hf']
      simp only [Except.map]
      congr 1
      set x := (obsFn os i).val
      set y := p.C.get i *ᵥ (p.fn.kf (obsFn os) i).predMean + p.d.get i with hy
      have e1 : L *ᵥ x + c i - ((L * p.C.get i) *ᵥ (p.fn.kf (obsFn os) i).predMean
          + (L *ᵥ p.d.get i + c i)) = L *ᵥ (x - y) := by
        rw [hy, mulVec_sub, mulVec_add, mulVec_mulVec]
        abel
      rw [e1]
      have hLt : IsUnit Lᵀ.det := by rwa [det_transpose]
      have e2 : (L *ᵥ (x - y)) ⬝ᵥ ((L * S * Lᵀ)⁻¹ *ᵥ (L *ᵥ (x - y)))
          = (x - y) ⬝ᵥ (S⁻¹ *ᵥ (x - y)) := by
        rw [Matrix.mul_inv_rev, Matrix.mul_inv_rev, mulVec_mulVec, Matrix.mul_assoc,
          Matrix.mul_assoc, nonsing_inv_mul L hLd, Matrix.mul_one, dotProduct_mulVec,
          ← vecMul_transpose, vecMul_vecMul, ← Matrix.mul_assoc, mul_nonsing_inv _ hLt,
          Matrix.one_mul, ← dotProduct_mulVec]
      rw [e2, det_mul, det_mul, det_transpose]
      have hdS := hS.det_pos
      have hd0 : |L.det| ≠ 0 := abs_ne_zero.mpr hLd.ne_zero
      have e3 : L.det * S.det * L.det = |L.det| ^ 2 * S.det := by rw [sq_abs]; ring
      rw [e3, Real.log_mul (pow_ne_zero 2 hd0) hdS.ne', Real.log_pow]
      push_cast
      ring

/-- Concretely: metres to feet with an offset, in a model with a nonzero offset. -/
example : ∃ (p' : Params 2 1) (os os' : List (Obs 1)), os.length = 3 ∧
    ObsChange exParams p' (fun _ => !![3]) (fun _ => ![7]) os.length ∧
    DataChange (fun _ => !![3]) (fun _ => ![7]) os os' ∧ IsUnit (!![3] : Mat 1 1) ∧
    exParams.DefinedFor os.length ∧ exParams.PSD os.length ∧ p'.R.IsConst ∧
    (exParams.R = .const !![2]) ∧ exParams.InnovationsPosDef os := by
  refine ⟨⟨exParams.A, exParams.b, exParams.Q, .const !![3, 0], .const ![16], .const !![18],
    exParams.mu0, exParams.S0⟩,
    [⟨![1], fun _ => false⟩, ⟨![4], fun _ => true⟩, ⟨![2], fun _ => false⟩],
    [⟨![10], fun _ => false⟩, ⟨![0], fun _ => true⟩, ⟨![13], fun _ => false⟩], rfl,
    ⟨rfl, rfl, rfl, fun t _ C d hC hd => ?_, fun t _ R hR => ?_, rfl, rfl⟩, ⟨rfl, ?_⟩, ?_,
    exParams_definedFor, exParams_psd, ⟨_, rfl⟩, rfl, ?_⟩
  · cases hC; cases hd
    refine ⟨_, _, rfl, rfl, fun x => ?_⟩
    ext i; fin_cases i; simp [mulVec, dotProduct, Fin.sum_univ_two, vecHead, vecTail]; ring
  · cases hR
    simp only [lastDims]
    congr 1
    ext i j; fin_cases i; fin_cases j; simp [Matrix.mul_apply]; norm_num
  · intro t h h'
    have : t = 0 ∨ t = 1 ∨ t = 2 := by simp at h; omega
    rcases this with rfl | rfl | rfl
    · refine ⟨Iff.rfl, fun _ => ?_⟩
      ext i; fin_cases i; simp [mulVec, dotProduct]; norm_num
    · refine ⟨Iff.rfl, fun h => ?_⟩
      exact absurd ⟨0, rfl⟩ h
    · refine ⟨Iff.rfl, fun _ => ?_⟩
      ext i; fin_cases i; simp [mulVec, dotProduct]; norm_num
  · rw [Matrix.isUnit_iff_isUnit_det]; simp
  · refine Params.innovationsPosDef exParams_definedFor exParams_psd fun t _ R hR => ?_
    have e : (!![2] : Mat 1 1) = diagonal ![2] := by
      ext i j; fin_cases i; fin_cases j; rfl
    cases hR
    rw [e]
    exact PosDef.diagonal (by intro i; fin_cases i; simp)

/-! ### C47 -/

/-- **C47.** If every unmasked observation is what the model predicts along its mean path, the
filtered and smoothed means are that path. -/
theorem C47_zero_innovations (p : Params n m) (os : List (Obs m)) (x : ℕ → Vec n)
    (hx : MeanPath p os.length x)
    (hz : ∀ t (h : t < os.length), ¬ os[t].missing → ∀ C d, lastDims p.C t = .ok C →
      lastDims p.d t = .ok d → os[t].val = C *ᵥ x t + d) :
    (∀ out, kfFilter p os = .ok out → out.map Prod.fst = (List.range os.length).map x) ∧
    (∀ out, kfSmooth p os = .ok out → out.map Prod.fst = (List.range os.length).map x) := by
  have path : p.Covers os.length → ∀ t, t < os.length → p.fn.path t = x t := by
    intro hc t
    induction t with
    | zero => intro _; exact hx.1.symm
    | succ t ih =>
      intro ht
      rw [PFun.path, ih (by omega), hx.2 t ht _ _ (lastDims_eq_ok (hc.A.mono (by omega)))
        (lastDims_eq_ok (hc.b.mono (by omega)))]
      rfl
  have hz' : p.Covers os.length → ∀ t, t < os.length → ¬ (obsFn os t).missing →
      (obsFn os t).val = p.fn.C t *ᵥ p.fn.path t + p.fn.d t := by
    intro hc t ht hmi
    rw [path hc t ht]
    rw [obsFn_eq ht] at hmi ⊢
    exact hz t ht hmi _ _ (lastDims_eq_ok (hc.C.mono (by omega)))
      (lastDims_eq_ok (hc.d.mono (by omega)))
  constructor
  · intro out h
    rw [kfFilter_ok h, List.map_map]
    rcases kfFilter_ok_covers h with rfl | hc
    · rfl
    apply List.map_congr_left
    intro t ht
    rw [List.mem_range] at ht
    simp only [Function.comp]
    rw [(p.fn.kf_path (hz' hc) ht).2, path hc t ht]
  · intro out h
    obtain ⟨hne, hc, rfl⟩ := kfSmooth_ok h
    rw [List.map_map]
    apply List.map_congr_left
    intro t ht
    rw [List.mem_range] at ht
    simp only [Function.comp]
    have := p.fn.ks_path (z := obsFn os) (T := os.length - 1)
      (fun t ht => hz' hc t (by omega)) (t := t) (by omega)
    rw [this, path hc t ht]

example : ∃ (os : List (Obs 1)) (x : ℕ → Vec 2), os.length = 3 ∧ MeanPath exParams os.length x ∧
    (∀ t (h : t < os.length), ¬ os[t].missing → ∀ C d, lastDims exParams.C t = .ok C →
      lastDims exParams.d t = .ok d → os[t].val = C *ᵥ x t + d) ∧
    ¬ (os.getD 0 ⟨0, fun _ => true⟩).missing := by
  refine ⟨[⟨![3], fun _ => false⟩, ⟨![4], fun _ => true⟩, ⟨![20], fun _ => false⟩],
    fun t => if t = 0 then ![0, 5] else if t = 1 then ![5, 6] else ![17, 7], rfl, ⟨rfl, ?_⟩, ?_, ?_⟩
  · intro t ht A b hA hb
    have h2 : t = 0 ∨ t = 1 := by simp at ht; omega
    cases hb
    rcases h2 with rfl | rfl <;> cases hA <;> ext i <;> fin_cases i <;>
      simp [mulVec, dotProduct, Fin.sum_univ_two, vecHead, vecTail] <;> norm_num
  · intro t h hmi C d hC hd
    cases hC; cases hd
    have : t = 0 ∨ t = 1 ∨ t = 2 := by simp at h; omega
    rcases this with rfl | rfl | rfl
    · ext i; fin_cases i; simp [mulVec, dotProduct, Fin.sum_univ_two]
    · exact absurd ⟨0, rfl⟩ hmi
    · ext i; fin_cases i; simp [mulVec, dotProduct, Fin.sum_univ_two]; norm_num
  · rintro ⟨i, hi⟩
    cases hi

/-! ### C48 -/

/-- **C48.** Filtered and smoothed means are affine functions of the data: data `a X + b Y` with
`a + b = 1` (and the same missing rows) gives means `a mean(X) + b mean(Y)`. -/
theorem C48_means_affine (p : Params n m) (a b : ℝ) (hab : a + b = 1)
    (os os₁ os₂ : List (Obs m)) (h : DataCombination a b os os₁ os₂) :
    (∀ r₁ r₂, kfFilter p os₁ = .ok r₁ → kfFilter p os₂ = .ok r₂ → ∃ r, kfFilter p os = .ok r ∧
      r.map Prod.fst = List.zipWith (fun x y => a • x.1 + b • y.1) r₁ r₂) ∧
    (∀ r₁ r₂, kfSmooth p os₁ = .ok r₁ → kfSmooth p os₂ = .ok r₂ → ∃ r, kfSmooth p os = .ok r ∧
      r.map Prod.fst = List.zipWith (fun x y => a • x.1 + b • y.1) r₁ r₂) := by
  obtain ⟨l1, l2, h⟩ := h
  have hcomb : Combines a b (obsFn os) (obsFn os₁) (obsFn os₂) := by
    intro t
    by_cases ht : t < os.length
    · rw [obsFn_eq ht, obsFn_eq (by omega), obsFn_eq (by omega)]
      exact h t ht (by omega) (by omega)
    · have hd : ∀ xs : List (Obs m), ¬ t < xs.length → obsFn xs t = ⟨0, fun _ => true⟩ := by
        intro xs hx
        simp [obsFn, hx]
      rw [hd os ht, hd os₁ (by omega), hd os₂ (by omega)]
      refine ⟨Iff.rfl, Iff.rfl, fun _ => by simp⟩
  constructor
  · intro r₁ r₂ h1 h2
    have hr1 := kfFilter_ok h1
    have hr2 := kfFilter_ok h2
    rcases kfFilter_ok_covers h1 with rfl | hc
    · have := List.length_eq_zero_iff.mp l1
      subst this
      exact ⟨[], rfl, by subst hr1; simp⟩
    rw [← l1] at hc
    refine ⟨_, kfFilter_eq hc, ?_⟩
    subst hr1 hr2
    rw [← l1, ← l2, List.zipWith_map, List.map_map, List.zipWith_self]
    apply List.map_congr_left
    intro t ht
    exact (p.fn.kf_combine hab hcomb t).2
  · intro r₁ r₂ h1 h2
    obtain ⟨hne, hc, rfl⟩ := kfSmooth_ok h1
    obtain ⟨-, -, rfl⟩ := kfSmooth_ok h2
    rw [← l1] at hc
    have hne' : os ≠ [] := by
      rintro rfl
      exact hne (List.length_eq_zero_iff.mp l1.symm)
    refine ⟨_, kfSmooth_eq hne' hc, ?_⟩
    rw [← l1, ← l2, List.zipWith_map, List.map_map, List.zipWith_self]
    apply List.map_congr_left
    intro t ht
    rw [List.mem_range] at ht
    exact p.fn.ks_combine hab hcomb (by omega)

example : ∃ os os₁ os₂ : List (Obs 1), os.length = 3 ∧ DataCombination 3 (-2) os os₁ os₂ ∧
    ∃ r, kfSmooth exParams os₁ = .ok r := by
  refine ⟨[⟨![1], fun _ => false⟩, ⟨![9], fun _ => true⟩, ⟨![3], fun _ => false⟩],
    [⟨![1], fun _ => false⟩, ⟨![4], fun _ => true⟩, ⟨![5], fun _ => false⟩],
    [⟨![1], fun _ => false⟩, ⟨![0], fun _ => true⟩, ⟨![6], fun _ => false⟩], rfl, ⟨rfl, rfl, ?_⟩,
    _, kfSmooth_eq (by simp) (definedFor_iff_covers.mp exParams_definedFor)⟩
  intro t h h' h''
  have : t = 0 ∨ t = 1 ∨ t = 2 := by simp at h; omega
  rcases this with rfl | rfl | rfl
  · refine ⟨Iff.rfl, Iff.rfl, fun _ => ?_⟩
    ext i; fin_cases i; simp; norm_num
  · exact ⟨Iff.rfl, Iff.rfl, fun h => absurd ⟨0, rfl⟩ h⟩
  · refine ⟨Iff.rfl, Iff.rfl, fun _ => ?_⟩
    ext i; fin_cases i; simp; norm_num

/-! ### C51 -/

/-- **C51.** More noise (larger transition, observation or initial covariance) and fewer
observations (more masked rows) never make a filtered covariance smaller. -/
theorem C51_filter_monotone (p p' : Params n m) (os os' : List (Obs m))
    (hp : MoreNoise p p' os.length) (hpsd : p.PSD os.length)
    (hos : List.Forall₂ (fun o o' : Obs m => o.missing → o'.missing) os os')
    (r r' : List (Vec n × Mat n n)) (hr : kfFilter p os = .ok r) (hr' : kfFilter p' os' = .ok r') :
    List.Forall₂ (fun a a' : Vec n × Mat n n => (a'.2 - a.2).PosSemidef) r r' := by
  have hlen := hos.length_eq
  rw [kfFilter_ok hr, kfFilter_ok hr', ← hlen]
  rcases kfFilter_ok_covers hr with rfl | hc
  · exact .nil
  rcases kfFilter_ok_covers hr' with rfl | hc'
  · rw [hlen]; exact .nil
  rw [← hlen] at hc'
  rw [List.forall₂_map_left_iff, List.forall₂_map_right_iff, List.forall₂_same]
  intro t ht
  rw [List.mem_range] at ht
  refine (PFun.kf_mono (hpsd.fn hc) (fun t _ => by simp only [Params.fn, hp.A])
    (fun t _ => by simp only [Params.fn, hp.C]) (fun t ht => ?_) (fun t ht => ?_) hp.S0
    (fun t ht => ?_) ht).2
  · obtain ⟨Q', h1, h2⟩ := hp.Q t ht _ (lastDims_eq_ok (hc.Q.mono (by omega)))
    rw [(lastDims_ok_get h1).1] at h2
    exact h2
  · obtain ⟨R', h1, h2⟩ := hp.R t ht _ (lastDims_eq_ok (hc.R.mono (by omega)))
    rw [(lastDims_ok_get h1).1] at h2
    exact h2
  · rw [obsFn_eq ht, obsFn_eq (by omega)]
    exact (List.forall₂_iff_get.mp hos).2 t ht (by omega)

example : ∃ (p' : Params 2 1) (os os' : List (Obs 1)), os.length = 3 ∧
    MoreNoise exParams p' os.length ∧ exParams.PSD os.length ∧ p' ≠ exParams ∧
    List.Forall₂ (fun o o' : Obs 1 => o.missing → o'.missing) os os' ∧
    ∃ r r', kfFilter exParams os = .ok r ∧ kfFilter p' os' = .ok r' := by
  have hc : exParams.Covers 3 := definedFor_iff_covers.mp exParams_definedFor
  refine ⟨{ exParams with Q := .const (!![0, 0; 0, 1] + 1), S0 := 1 + 1 },
    [⟨![1], fun _ => false⟩, ⟨![9], fun _ => false⟩, ⟨![3], fun _ => false⟩],
    [⟨![1], fun _ => true⟩, ⟨![4], fun _ => false⟩, ⟨![5], fun _ => false⟩], rfl,
    ⟨rfl, rfl, rfl, rfl, fun t _ Q hQ => ?_, fun t _ R hR => ?_, rfl, ?_⟩, exParams_psd, ?_, ?_,
    _, _, kfFilter_eq hc, kfFilter_eq ?_⟩
  · cases hQ
    exact ⟨_, rfl, by rw [add_sub_cancel_left]; exact PosSemidef.one⟩
  · cases hR
    exact ⟨_, rfl, by rw [sub_self]; exact PosSemidef.zero⟩
  · show ((1 + 1 : Mat 2 2) - 1).PosSemidef
    rw [add_sub_cancel_left]; exact PosSemidef.one
  · intro h
    have := congrArg (fun q => q.S0 0 0) h
    simp [exParams] at this
  · refine .cons ?_ (.cons ?_ (.cons ?_ .nil)) <;> rintro ⟨i, hi⟩ <;> cases hi
  · exact ⟨hc.A, hc.b, trivial, hc.C, hc.d, hc.R⟩

end Verif
