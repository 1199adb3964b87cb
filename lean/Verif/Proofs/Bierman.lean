import Verif.Proofs.BiermanStep
import Verif.Proofs.Cholesky
import Verif.Proofs.Symmetry

/-!
# Bierman's filter reconstructs the standard one
-/

open Matrix

namespace Verif

variable {n m : ℕ}

/-- Decorrelated correction equals the standard correction. -/
theorem bierCorrect_decorrelated (hn : 0 < n) (C : Mat m n) {R R2 : Mat m m} (hR : R.PosDef)
    (hR2 : R2 * R2ᵀ = R) (d : Vec m) (x : Vec n) {c : UDU n} (hc : c.Valid) (o : Obs m) :
    (bierCorrect (pinv R2 * C) 1 (pinv R2 *ᵥ d) x c ⟨pinv R2 *ᵥ o.val, o.mask⟩).2.Valid ∧
    (bierCorrect (pinv R2 * C) 1 (pinv R2 *ᵥ d) x c ⟨pinv R2 *ᵥ o.val, o.mask⟩).1
      = (filterCorrect C R d x c.reconstruct o).2.1 ∧
    (bierCorrect (pinv R2 * C) 1 (pinv R2 *ᵥ d) x c ⟨pinv R2 *ᵥ o.val, o.mask⟩).2.reconstruct
      = (filterCorrect C R d x c.reconstruct o).2.2 := by
  obtain ⟨h1, h2, h3⟩ := bierCorrect_eq hn (pinv R2 * C) (pinv R2 *ᵥ d) x hc
    ⟨pinv R2 *ᵥ o.val, o.mask⟩
  refine ⟨h1, ?_⟩
  rw [h2, h3]
  by_cases hm : o.missing
  · have hm' : (⟨pinv R2 *ᵥ o.val, o.mask⟩ : Obs m).missing := hm
    simp [filterCorrect, hm, hm']
  · have hm' : ¬ (⟨R2⁻¹ *ᵥ o.val, o.mask⟩ : Obs m).missing := hm
    have hdet : IsUnit R2.det := by
      have := hR.det_pos
      rw [← hR2, det_mul, det_transpose] at this
      exact isUnit_iff_ne_zero.mpr (by rintro h; simp [h] at this)
    have hdi : IsUnit (R2⁻¹).det := by rw [det_nonsing_inv]; exact hdet.ringInverse
    have h1' : R2⁻¹ * R * (R2⁻¹)ᵀ = 1 := by
      rw [← hR2, ← Matrix.mul_assoc, nonsing_inv_mul _ hdet, Matrix.one_mul, ← transpose_mul,
        nonsing_inv_mul _ hdet, transpose_one]
    have hP := hc.posSemidef
    generalize c.reconstruct = P at hP ⊢
    have hS : (C * P * Cᵀ + R).PosDef := hR.posSemidef_add (posSemidef_conj' hP C)
    have hg := gain_obsMap_inv C hP hR.posSemidef (isUnit_iff_ne_zero.mpr hS.det_pos.ne') hdi
    have hc' := (gain_obsMap C hP hR.posSemidef hdi).2
    rw [h1'] at hg hc'
    have e1 : P * (Cᵀ * pinv (C * (P * Cᵀ) + R)) = gain P R C := by
      rw [gain]; simp only [Matrix.mul_assoc]
    have e2 : P * ((R2⁻¹ * C)ᵀ * pinv (R2⁻¹ * C * (P * (R2⁻¹ * C)ᵀ) + 1)) = gain P 1 (R2⁻¹ * C) := by
      rw [gain]; simp only [Matrix.mul_assoc]
    simp only [filterCorrect, hm, hm', not_false_eq_true, if_true, pinv_eq_inv hdet, e1, e2]
    constructor
    · rw [← mulVec_mulVec, ← mulVec_add, ← mulVec_sub, mulVec_mulVec, hg]
    · rw [← Matrix.mul_assoc, hc', Matrix.mul_assoc]

/-- The row is factored properly. -/
def BStep.Valid (s : BStep n) : Prop := s.predCov.Valid ∧ s.filtCov.Valid

theorem bierPredict_eq (hn : 0 < n) (A : Mat n n) {Q : Mat n n} (hQ : Q.PosSemidef) (b mean : Vec n)
    {c : UDU n} (hc : c.Valid) :
    ∃ r, bierPredict A Q b mean c = .ok r ∧ r.2.Valid ∧ r.1 = A *ᵥ mean + b ∧
      r.2.reconstruct = A * (c.reconstruct * Aᵀ) + Q := by
  obtain ⟨u, h1, h2, h3⟩ := udu_posSemidef
    (M := A * c.reconstruct * Aᵀ + Q) ((posSemidef_conj' hc.posSemidef A).add hQ) hn
  refine ⟨(A *ᵥ mean + b, u), ?_, h2, rfl, ?_⟩
  · rw [bierPredict, h1]; rfl
  · rw [h3, Matrix.mul_assoc]

theorem lastDims_map {α β : Type} (f : α → β) (p : TV α) (t : ℕ) :
    lastDims (p.map f) t = (lastDims p t).map f := by
  cases p with
  | const a => rfl
  | seq l =>
    simp only [TV.map, lastDims, List.getElem?_map]
    cases l[t]? <;> rfl

theorem bierStep_eq (hn : 0 < n) {p : Params n m} {Q : Mat n n} {R R2 : Mat m m} {S0 : UDU n}
    (hQ : p.Q = .const Q) (hQp : Q.PosSemidef) (hR : p.R = .const R) (hR2 : R2 * R2ᵀ = R)
    (hRd : R.PosDef) (hS : S0.Valid) (hS0 : S0.reconstruct = p.S0) (t : ℕ)
    (prev : Option (BStep n)) (hv : ∀ s ∈ prev, s.Valid)
    (prev' : Option (Step n m)) (hprev : prev.map (BStep.step m) = prev'.map Step.forget)
    (o : Obs m) :
    (∀ s, bierStep p (p.C.map fun X => pinv R2 * X) (p.d.map fun v => pinv R2 *ᵥ v) S0 t prev
      ⟨pinv R2 *ᵥ o.val, o.mask⟩ = .ok s → s.Valid) ∧
    (bierStep p (p.C.map fun X => pinv R2 * X) (p.d.map fun v => pinv R2 *ᵥ v) S0 t prev
        ⟨pinv R2 *ᵥ o.val, o.mask⟩).map (BStep.step m)
      = (filterStep p t prev' o).map Step.forget := by
  have key : ∀ (C : Mat m n) (d : Vec m) (mean : Vec n) (c2 : UDU n), c2.Valid →
      BStep.Valid ⟨mean, c2,
        (bierCorrect (pinv R2 * C) 1 (pinv R2 *ᵥ d) mean c2 ⟨pinv R2 *ᵥ o.val, o.mask⟩).1,
        (bierCorrect (pinv R2 * C) 1 (pinv R2 *ᵥ d) mean c2 ⟨pinv R2 *ᵥ o.val, o.mask⟩).2⟩ ∧
      BStep.step m ⟨mean, c2,
        (bierCorrect (pinv R2 * C) 1 (pinv R2 *ᵥ d) mean c2 ⟨pinv R2 *ᵥ o.val, o.mask⟩).1,
        (bierCorrect (pinv R2 * C) 1 (pinv R2 *ᵥ d) mean c2 ⟨pinv R2 *ᵥ o.val, o.mask⟩).2⟩
      = Step.forget ⟨mean, c2.reconstruct, (filterCorrect C R d mean c2.reconstruct o).1,
        (filterCorrect C R d mean c2.reconstruct o).2.1,
        (filterCorrect C R d mean c2.reconstruct o).2.2⟩ := by
    intro C d mean c2 hc2
    obtain ⟨h0, h1, h2⟩ := bierCorrect_decorrelated hn C hRd hR2 d mean hc2 o
    refine ⟨⟨hc2, h0⟩, ?_⟩
    simp only [BStep.step, Step.forget, h1, h2]
  have cR : p.R.Covers (t + 1) := by rw [hR]; trivial
  have lQ : ∀ t, lastDims (TV.const Q) t = .ok Q := fun _ => rfl
  have cQ : p.Q.Covers (t - 1 + 1) := by rw [hQ]; trivial
  have eR : p.R.get t = R := by rw [hR]; rfl
  have eQ : p.Q.get (t - 1) = Q := by rw [hQ]; rfl
  rcases prev with _ | s <;> rcases prev' with _ | s'
  · by_cases hC : p.C.Covers (t + 1) <;> by_cases hd : p.d.Covers (t + 1) <;>
    simp only [bierStep, filterStep, lastDims_map, lastDims_eq_ok, lastDims_eq_error, hC, hd, cR, eR,
        bind, Except.bind, pure, Except.pure, not_false_eq_true, Except.map, Except.ok.injEq,
        reduceCtorEq, IsEmpty.forall_iff, implies_true, true_and]
    obtain ⟨k1, k2⟩ := key (p.C.get t) (p.d.get t) p.mu0 S0 hS
    refine ⟨fun s hs => hs ▸ k1, ?_⟩
    rw [k2, hS0]
  · cases hprev
  · cases hprev
  · simp only [Option.map_some, Option.some.injEq] at hprev
    have hm : s.filtMean = s'.filtMean := congrArg Step.filtMean hprev
    have hc : s.filtCov.reconstruct = s'.filtCov := congrArg Step.filtCov hprev
    have hsv : s.filtCov.Valid := (hv s rfl).2
    by_cases hA : p.A.Covers (t - 1 + 1)
    swap
    · simp only [bierStep, filterStep, lastDims_eq_error hA, bind, Except.bind, Except.map,
        reduceCtorEq, IsEmpty.forall_iff, implies_true, true_and]
    by_cases hb : p.b.Covers (t - 1 + 1)
    swap
    · simp only [bierStep, filterStep, lastDims_eq_ok hA, lastDims_eq_ok cQ, lastDims_eq_error hb,
        bind, Except.bind, Except.map, reduceCtorEq, IsEmpty.forall_iff, implies_true, true_and]
    obtain ⟨r, h1, h2, h3, h4⟩ := bierPredict_eq hn (p.A.get (t - 1)) hQp (p.b.get (t - 1))
      s.filtMean hsv
    obtain ⟨k1, k2⟩ := key (p.C.get t) (p.d.get t) r.1 r.2 h2
    by_cases hC : p.C.Covers (t + 1) <;> by_cases hd : p.d.Covers (t + 1) <;>
    simp only [bierStep, filterStep, lastDims_map, lastDims_eq_ok, lastDims_eq_error, hC, hd, hA, hb,
      cR, eR, cQ, eQ, bind, Except.bind, pure, Except.pure, not_false_eq_true, Except.map,
      Except.ok.injEq, reduceCtorEq, IsEmpty.forall_iff, implies_true, true_and, hQ, lQ, h1]
    refine ⟨fun s hs => hs ▸ k1, ?_⟩
    rw [k2, h3, h4, hm, hc]
    rfl

theorem bierLoop_eq (hn : 0 < n) {p : Params n m} {Q : Mat n n} {R R2 : Mat m m} {S0 : UDU n}
    (hQ : p.Q = .const Q) (hQp : Q.PosSemidef) (hR : p.R = .const R) (hR2 : R2 * R2ᵀ = R)
    (hRd : R.PosDef) (hS : S0.Valid) (hS0 : S0.reconstruct = p.S0) (os : List (Obs m)) (t : ℕ)
    (prev : Option (BStep n)) (hv : ∀ s ∈ prev, s.Valid)
    (prev' : Option (Step n m)) (hprev : prev.map (BStep.step m) = prev'.map Step.forget) :
    (bierLoop p (p.C.map fun X => pinv R2 * X) (p.d.map fun v => pinv R2 *ᵥ v) S0 t prev
        (os.map fun o => ⟨pinv R2 *ᵥ o.val, o.mask⟩)).map (List.map (BStep.step m))
      = (filterLoop p t prev' os).map (List.map Step.forget) := by
  induction os generalizing t prev prev' with
  | nil => rfl
  | cons o os ih =>
    obtain ⟨h0, h1⟩ := bierStep_eq hn hQ hQp hR hR2 hRd hS hS0 t prev hv prev' hprev o
    rw [List.map_cons, bierLoop, filterLoop]
    generalize bierStep p _ _ S0 t prev _ = bs at h0 h1 ⊢
    generalize filterStep p t prev' o = fs at h1 ⊢
    rcases bs with e | s <;> rcases fs with e' | s' <;>
      simp only [Except.map, reduceCtorEq, Except.error.injEq, Except.ok.injEq] at h1
    · rw [h1]; rfl
    · have h2 := ih (t + 1) (some s) (by rintro _ ⟨⟩; exact h0 s rfl) (some s') (by simp [h1])
      simp only [bind, Except.bind]
      generalize bierLoop p _ _ S0 (t + 1) (some s) _ = bl at h2 ⊢
      generalize filterLoop p (t + 1) (some s') os = fl at h2 ⊢
      rcases bl with e | l <;> rcases fl with e' | l' <;>
        simp only [Except.map, reduceCtorEq, Except.error.injEq, Except.ok.injEq] at h2
      · rw [h2]; rfl
      · simp only [pure, Except.pure, Except.map, List.map_cons, h1, h2]

theorem bierFull_eq (hn : 0 < n) {p : Params n m} (h : p.NoiseDef) (os : List (Obs m)) :
    (bierFull id p os).map (List.map (BStep.step m))
      = (filterFull p os).map (List.map Step.forget) := by
  obtain ⟨⟨Q, hQ, hQd⟩, ⟨R, hR, hRd⟩, hS⟩ := h
  obtain ⟨R2, cR, iR⟩ := cholesky_of_posDef hRd
  obtain ⟨S0, cS, vS, rS⟩ := udu_posSemidef hS hn
  simp only [bierFull, decorrelate, cS, hR, cholParam, cR, bind, Except.bind, pure, Except.pure]
  exact bierLoop_eq hn hQ hQd hR iR.mul_transpose hRd vS rS os 0 none (by rintro _ ⟨⟩) none rfl

theorem bierLoop_length {p : Params n m} {C : TV (Mat m n)} {d : TV (Vec m)} {S0 : UDU n}
    {os : List (Obs m)} {t : ℕ} {prev : Option (BStep n)} {l : List (BStep n)}
    (h : bierLoop p C d S0 t prev os = .ok l) : l.length = os.length := by
  induction os generalizing t prev l with
  | nil => cases h; rfl
  | cons o os ih =>
    rw [bierLoop] at h
    cases hs : bierStep p C d S0 t prev o with
    | error e => rw [hs] at h; cases h
    | ok s =>
      rw [hs] at h
      simp only [bind, Except.bind] at h
      cases hl : bierLoop p C d S0 (t + 1) (some s) os with
      | error e => rw [hl] at h; cases h
      | ok l' =>
        rw [hl] at h
        cases h
        simp [ih hl]

theorem bierFull_length {store : ℝ → ℝ} {p : Params n m} {os : List (Obs m)} {l : List (BStep n)}
    (h : bierFull store p os = .ok l) : l.length = os.length := by
  rw [bierFull] at h
  cases hS : udu store p.S0 with
  | error e => rw [hS] at h; cases h
  | ok S0 =>
    rw [hS] at h
    simp only [bind, Except.bind] at h
    cases hR : cholParam p.R with
    | error e => rw [decorrelate, hR] at h; cases h
    | ok R2 =>
      rw [decorrelate, hR] at h
      simpa using bierLoop_length h

/-- With at least one row nothing is raised. -/
theorem bierFull_rows {store : ℝ → ℝ} {p : Params n m} {os : List (Obs m)} (hne : os ≠ []) :
    (bierFull store p os >>= bierRows m) = (bierFull store p os).map (List.map (BStep.step m)) := by
  cases h : bierFull store p os with
  | error e => rfl
  | ok l =>
    have := bierFull_length h
    cases l with
    | nil => exact absurd (List.length_eq_zero_iff.mp this.symm) hne
    | cons s l => rfl

theorem bierFull_bind (hn : 0 < n) {p : Params n m} (h : p.NoiseDef) {os : List (Obs m)}
    (hne : os ≠ []) {α : Type} (k : List (Step n m) → Res α) (hk : ∀ l, k (l.map Step.forget) = k l) :
    (bierFull id p os >>= fun l => bierRows m l >>= k) = filterFull p os >>= k := by
  have e := bierFull_eq hn h os
  have e' : (bierFull id p os >>= fun l => bierRows m l >>= k)
      = bierFull id p os >>= fun l => k (l.map (BStep.step m)) := by
    have := bierFull_rows (store := id) (p := p) hne
    generalize bierFull id p os = bf at this ⊢
    cases bf with
    | error e => rfl
    | ok l =>
      have : bierRows m l = .ok (l.map (BStep.step m)) := this
      simp only [bind, Except.bind, this]
  rw [e']
  generalize bierFull id p os = bf at e ⊢
  generalize filterFull p os = ff at e ⊢
  rcases bf with e1 | l <;> rcases ff with e2 | l' <;>
    simp only [Except.map, reduceCtorEq, Except.error.injEq, Except.ok.injEq] at e
  · rw [e]; rfl
  · simp only [bind, Except.bind, e, hk]

theorem bierStats_eq (hn : 0 < n) {p : Params n m} (h : p.NoiseDef) {os : List (Obs m)}
    (hne : os ≠ []) : bierStats id p os = emStats p os :=
  bierFull_bind hn h hne (fun l => do
    let sm ← smoothFull p.A l
    pure ((sm.zip (smoothPair sm)).map
      fun q : SStep n × Mat n n => (⟨q.1.mean, q.1.cov, q.2⟩ : EmStats n)))
    fun l => by simp only [smoothFull_forget]

end Verif
