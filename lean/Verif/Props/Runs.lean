import Verif.Proofs.Loglik
import Verif.Props.Posterior

/-!
# C12, C16, C17, C18, C19, C22, C27
-/

open Matrix MeasureTheory

namespace Verif

variable {n m : ℕ} {α : Type}

/-! ### C12 -/

/-- **C12, one step.** With the parameters of the time step, `filter_update` maps row `t` of the
output of `filter` to row `t + 1`. -/
theorem C12_update_is_next_row (p : Params n m) (os : List (Obs m))
    (out : List (Vec n × Mat n n)) (h : kfFilter p os = .ok out) (t : ℕ)
    (mean : Vec n) (cov : Mat n n) (hrow : out[t]? = some (mean, cov))
    (o : Obs m) (ho : os[t + 1]? = some o) (a : UpdateArgs n m)
    (hA : Supplied a.A p.A t) (hb : Supplied a.b p.b t) (hQ : Supplied a.Q p.Q t)
    (hC : Supplied a.C p.C (t + 1)) (hd : Supplied a.d p.d (t + 1))
    (hR : Supplied a.R p.R (t + 1)) :
    ∃ r, out[t + 1]? = some r ∧ filterUpdate p mean cov (some o) a = .ok r := by
  obtain ⟨hlt, ho'⟩ := List.getElem?_eq_some_iff.mp ho
  have hout := kfFilter_ok h
  have hc : p.Covers os.length := by
    rw [kfFilter] at h
    cases hf : filterFull p os with
    | error e => rw [hf] at h; cases h
    | ok l =>
      rcases filterFull_ok_iff.mp ⟨l, hf⟩ with rfl | hc
      · simp at hlt
      · exact hc
  have hc2 : p.Covers (t + 2) := hc.mono (by omega)
  have hcA : p.A.Covers (t + 1) := hc2.A
  have hcb : p.b.Covers (t + 1) := hc2.b
  have hcQ : p.Q.Covers (t + 1) := hc2.Q
  refine ⟨((p.fn.kf (obsFn os) (t + 1)).filtMean, (p.fn.kf (obsFn os) (t + 1)).filtCov), ?_, ?_⟩
  · rw [hout]
    simp [hlt]
  · have hr : ((p.fn.kf (obsFn os) t).filtMean, (p.fn.kf (obsFn os) t).filtCov) = (mean, cov) := by
      rw [hout] at hrow
      simpa [show t < os.length by omega] using hrow
    cases hr
    have eo : obsFn os (t + 1) = o := by rw [obsFn_eq hlt, ho']
    simp only [filterUpdate, argOrDefault_supplied hA (lastDims_eq_ok hcA),
      argOrDefault_supplied hb (lastDims_eq_ok hcb),
      argOrDefault_supplied hQ (lastDims_eq_ok hcQ),
      argOrDefault_supplied hC (lastDims_eq_ok hc2.C),
      argOrDefault_supplied hd (lastDims_eq_ok hc2.d),
      argOrDefault_supplied hR (lastDims_eq_ok hc2.R), bind, Except.bind, pure, Except.pure]
    rw [← eo]
    rfl

/-- **C12.** A list that starts with the first row of `filter` and is continued by `filter_update`
is the output of `filter`. (The first row alone is `filter` on the first observation, by C11.) -/
theorem C12_online_equals_batch (p : Params n m) (os : List (Obs m))
    (out : List (Vec n × Mat n n)) (h : kfFilter p os = .ok out)
    (online : List (Vec n × Mat n n)) (hlen : online.length = os.length)
    (hfirst : kfFilter p (os.take 1) = .ok (online.take 1))
    (a : ℕ → UpdateArgs n m)
    (ha : ∀ t, t + 1 < os.length →
      Supplied (a t).A p.A t ∧ Supplied (a t).b p.b t ∧ Supplied (a t).Q p.Q t ∧
      Supplied (a t).C p.C (t + 1) ∧ Supplied (a t).d p.d (t + 1) ∧ Supplied (a t).R p.R (t + 1))
    (hstep : ∀ t r o, online[t]? = some r → os[t + 1]? = some o →
      filterUpdate p r.1 r.2 (some o) (a t) = (match online[t + 1]? with
        | some r' => .ok r'
        | none => .error .indexError)) :
    online = out := by
  have hol : out.length = os.length := by rw [kfFilter_ok h]; simp
  have h0 : ∀ r, out[0]? = some r → online[0]? = some r := by
    intro r hr
    have hpos : 0 < os.length := by
      rw [← hol]; exact (List.getElem?_eq_some_iff.mp hr).1
    have e1 := kfFilter_ok hfirst
    have e2 := kfFilter_ok h
    rw [e2] at hr
    have h1 : (os.take 1).length = 1 := by simp; omega
    rw [h1] at e1
    have hz : p.fn.kf (obsFn (os.take 1)) 0 = p.fn.kf (obsFn os) 0 := by
      apply p.fn.kf_congr
      intro i hi
      have : i = 0 := by omega
      subst this
      have : obsFn (os.take 1) 0 = obsFn os 0 := by
        simp [obsFn, List.getElem?_take]
      rw [this]; exact Obs.Sim.refl _
    have h2 : (online.take 1)[0]? = some r := by
      rw [e1]
      simp only [hpos, List.getElem?_map, List.getElem?_range, Option.map_some] at hr ⊢
      simpa [hz] using hr
    simpa [List.getElem?_take] using h2
  have main : ∀ t, t < os.length → online[t]? = out[t]? := by
    intro t
    induction t with
    | zero =>
      intro ht
      have : out[0]? = some (out[0]'(by omega)) := List.getElem?_eq_getElem _
      rw [this]; exact h0 _ this
    | succ t ih =>
      intro ht
      have e := ih (by omega)
      have ho : out[t]? = some (out[t]'(by omega)) := List.getElem?_eq_getElem _
      have hos : os[t + 1]? = some os[t + 1] := List.getElem?_eq_getElem _
      obtain ⟨q1, q2, q3, q4, q5, q6⟩ := ha t ht
      obtain ⟨r, hr, hr'⟩ := C12_update_is_next_row p os out h t _ _ ho _ hos (a t) q1 q2 q3 q4 q5 q6
      have := hr'.symm.trans (hstep t _ _ (e.trans ho) hos)
      have hon : online[t + 1]? = some (online[t + 1]'(by omega)) := List.getElem?_eq_getElem _
      rw [hon] at this ⊢
      rw [hr]
      simp only [Except.ok.injEq] at this
      rw [← this]
  apply List.ext_getElem?
  intro t
  by_cases ht : t < os.length
  · exact main t ht
  · rw [List.getElem?_eq_none (by omega), List.getElem?_eq_none (by omega)]

/-- Arguments as required exist for every time of the example: the matrix that varies is passed,
all others are omitted. -/
example : ∀ t, t + 1 < 3 → ∃ a : UpdateArgs 2 1, a.b = none ∧
    Supplied a.A exParams.A t ∧ Supplied a.b exParams.b t ∧ Supplied a.Q exParams.Q t ∧
    Supplied a.C exParams.C (t + 1) ∧ Supplied a.d exParams.d (t + 1) ∧
    Supplied a.R exParams.R (t + 1) := by
  intro t ht
  obtain ⟨A, hA⟩ := exParams_definedFor.A t ht
  exact ⟨{ A := some A }, rfl, .inl ⟨A, rfl, hA⟩, .inr ⟨rfl, _, rfl⟩, .inr ⟨rfl, _, rfl⟩,
    .inr ⟨rfl, _, rfl⟩, .inr ⟨rfl, _, rfl⟩, .inr ⟨rfl, _, rfl⟩⟩

/-! ### C16 -/

/-- **C16.** If every row is masked, `filter` and `smooth` return at each time the mean and
covariance of the (Gaussian) law of the state, and `loglikelihood` is 0. -/
theorem C16_no_observations_prior {Ω : Type*} [MeasurableSpace Ω] {μ : Measure Ω}
    [IsProbabilityMeasure μ] {p : Params n m} {X : ℕ → Ω → Vec n} {Z : ℕ → Ω → Vec m}
    {noise : (i : Noise) → Ω → Vec (i.dim n m)} (os : List (Obs m)) (hne : os ≠ [])
    (hall : ∀ o ∈ os, o.missing)
    (hproc : IsLinGauss μ p os.length X Z noise) (hdef : p.DefinedFor os.length)
    (hpsd : p.PSD os.length) :
    (∃ f s, kfFilter p os = .ok f ∧ kfSmooth p os = .ok s ∧ f = s ∧ f.length = os.length ∧
      ∀ t mean cov, f[t]? = some (mean, cov) → μ.map (X t) = gauss mean cov) ∧
    kfLoglik p os = .ok 0 := by
  have hc := definedFor_iff_covers.mp hdef
  have h := hproc.lg hc
  have hP := hpsd.fn hc
  have hmiss : ∀ t, t < os.length → (obsFn os t).missing := fun t ht => by
    rw [obsFn_eq ht]; exact hall _ (List.getElem_mem ht)
  obtain ⟨T, hT⟩ : ∃ T, os.length = T + 1 :=
    ⟨os.length - 1, by have := List.length_pos_iff.mpr hne; omega⟩
  have hlaw : ∀ t, t < os.length →
      μ.map (X t) = gauss (p.fn.kf (obsFn os) t).filtMean (p.fn.kf (obsFn os) t).filtCov := by
    intro t ht
    let mask : MaskPat m := fun t => (obsFn os t).mask
    have hcg := h.filt hP mask ht
    rw [hcg.law_const (y₀ := fun _ => 0) (fun ω => ?_)]
    · have hsim : ∀ i ≤ t, (zOf mask (fun _ : Fin (t + 1) => (0 : Vec m)) i).Sim (obsFn os i) :=
        fun i hi => ⟨Iff.rfl, fun hn => absurd (hmiss i (by omega)) hn⟩
      rw [← p.fn.kf_congr hsim, p.fn.filtCov_zOf]
      rfl
    · funext i
      have hi : mask.rowMissing i := hmiss i (by omega)
      simp only [seen, hi, if_true]
  have hsm : ∀ t, t < os.length → (p.fn.ks (obsFn os) (os.length - 1) t).mean
      = (p.fn.kf (obsFn os) t).filtMean ∧ (p.fn.ks (obsFn os) (os.length - 1) t).cov
      = (p.fn.kf (obsFn os) t).filtCov := by
    rw [hT, Nat.add_sub_cancel]
    have key : ∀ j t, t + j = T → (p.fn.ks (obsFn os) T t).mean
        = (p.fn.kf (obsFn os) t).filtMean ∧ (p.fn.ks (obsFn os) T t).cov
        = (p.fn.kf (obsFn os) t).filtCov := by
      intro j
      induction j with
      | zero =>
        intro t ht
        obtain rfl : t = T := by omega
        rw [p.fn.ks_last]; exact ⟨rfl, rfl⟩
      | succ j ih =>
        intro t ht
        obtain ⟨e1, e2⟩ := ih (t + 1) (by omega)
        obtain ⟨-, e3, e4⟩ := p.fn.kf_missing (obsFn os) (hmiss (t + 1) (by omega))
        rw [p.fn.ks_lt' _ (by omega), e1, e2, e3, e4, (p.fn.kf_pred_succ _ t).1,
          (p.fn.kf_pred_succ _ t).2]
        simp
    intro t ht
    exact key (T - t) t (by omega)
  refine ⟨⟨_, _, kfFilter_eq hc, kfSmooth_eq hne hc, ?_, by simp, ?_⟩, ?_⟩
  · apply List.map_congr_left
    intro t ht
    rw [List.mem_range] at ht
    rw [(hsm t ht).1, (hsm t ht).2]
  · intro t mean cov hrow
    have ht : t < os.length := by
      have := (List.getElem?_eq_some_iff.mp hrow).1
      simpa using this
    simp only [List.getElem?_map, List.getElem?_range ht, Option.map_some, Option.some.injEq,
      Prod.mk.injEq] at hrow
    rw [← hrow.1, ← hrow.2]
    exact hlaw t ht
  · rw [kfLoglik, filterFull_obsFn hc]
    simp only [bind, Except.bind]
    rw [loglikLoop_missing hall 0 _ (by simp)]
    simp [pure, Except.pure]

/-- The hypotheses hold for `exParams` and three masked rows (values under the mask do not
matter), for some process. -/
example : ∃ (os : List (Obs 1)), os.length = 3 ∧ (∀ o ∈ os, o.missing) ∧ exParams.DefinedFor 3 ∧
    exParams.PSD 3 ∧ ∃ (Ω : Type) (_ : MeasurableSpace Ω) (μ : Measure Ω)
      (_ : IsProbabilityMeasure μ) (X : ℕ → Ω → Vec 2) (Z : ℕ → Ω → Vec 1)
      (noise : (i : Noise) → Ω → Vec (i.dim 2 1)), IsLinGauss μ exParams 3 X Z noise :=
  ⟨[⟨![1], fun _ => true⟩, ⟨![2], fun _ => true⟩, ⟨![4], fun _ => true⟩], rfl,
    by simp [Obs.missing], exParams_definedFor, exParams_psd, exists_isLinGauss exParams 3⟩

/-! ### C17 -/

/-- **C17.** `loglikelihood` is the sum, over the rows, of 0 for a masked row and of the log
density of the row under the one-step prediction (made by the filter) for the others. -/
theorem C17_loglik_sum (p : Params n m) (os : List (Obs m)) (ℓ : ℝ)
    (h : kfLoglik p os = .ok ℓ) :
    ∃ steps, ∃ ls : List ℝ, filterFull p os = .ok steps ∧ ls.length = os.length ∧ ℓ = ls.sum ∧
      ∀ t o s, os[t]? = some o → steps[t]? = some s → ∃ l, ls[t]? = some l ∧
        (o.missing → l = 0) ∧
        (¬ o.missing → ∃ C d R, lastDims p.C t = .ok C ∧ lastDims p.d t = .ok d ∧
          lastDims p.R t = .ok R ∧
          logMvn o.val (C *ᵥ s.predMean + d) (C * s.predCov * Cᵀ + R) = .ok l) := by
  rw [kfLoglik] at h
  cases hf : filterFull p os with
  | error e => rw [hf] at h; cases h
  | ok steps =>
    rw [hf] at h
    simp only [bind, Except.bind] at h
    cases hl : loglikLoop p 0 steps os with
    | error e => rw [hl] at h; cases h
    | ok ls =>
      rw [hl] at h
      simp only [pure, Except.pure, Except.ok.injEq] at h
      have hlen := filterLoop_length hf
      obtain ⟨h1, h2⟩ := loglikLoop_length hlen hl
      refine ⟨steps, ls, rfl, h1, h.symm, fun t o s ho hs => ?_⟩
      obtain ⟨t1, ho⟩ := List.getElem?_eq_some_iff.mp ho
      obtain ⟨t2, hs⟩ := List.getElem?_eq_some_iff.mp hs
      obtain ⟨l, hl1, hl2⟩ := h2 t t1 t2
      rw [ho, hs, Nat.zero_add] at hl2
      refine ⟨l, hl1, fun hm => ?_, fun hm => ?_⟩
      · simp only [loglikStep, hm, not_true_eq_false, if_false, pure, Except.pure,
          Except.ok.injEq] at hl2
        exact hl2.symm
      · simp only [loglikStep, hm, not_false_eq_true, if_true] at hl2
        cases hC : lastDims p.C t with
        | error e => rw [hC] at hl2; cases hl2
        | ok C =>
          cases hd : lastDims p.d t with
          | error e => rw [hC, hd] at hl2; cases hl2
          | ok d =>
            rw [hC, hd] at hl2
            simp only [bind, Except.bind] at hl2
            cases hR : p.R with
            | seq l => rw [hR] at hl2; cases hl2
            | const R =>
              rw [hR] at hl2
              refine ⟨C, d, R, rfl, rfl, rfl, ?_⟩
              rw [Matrix.mul_assoc]
              exact hl2

/-- **C17, extension.** The log-likelihood of `xs ++ ys` is that of `xs` plus that of `ys` for the
filter that resumes after `xs`. -/
theorem C17_loglik_append (p : Params n m) (xs ys : List (Obs m)) (ℓ : ℝ)
    (hℓ : kfLoglik p xs = .ok ℓ)
    (out : List (Vec n × Mat n n)) (hx : kfFilter p xs = .ok out)
    (mean : Vec n) (cov : Mat n n) (hlast : out.getLast? = some (mean, cov))
    (A Q : Mat n n) (b : Vec n) (hA : lastDims p.A (xs.length - 1) = .ok A)
    (hQ : lastDims p.Q (xs.length - 1) = .ok Q) (hb : lastDims p.b (xs.length - 1) = .ok b) :
    kfLoglik p (xs ++ ys)
      = (kfLoglik (p.resume xs.length (A *ᵥ mean + b) (A * cov * Aᵀ + Q)) ys).map (ℓ + ·) := by
  rw [kfFilter] at hx
  rw [kfLoglik] at hℓ
  cases hf : filterFull p xs with
  | error e => rw [hf] at hx; cases hx
  | ok l =>
    rw [hf] at hx hℓ
    simp only [bind, Except.bind, pure, Except.pure, Except.ok.injEq] at hx hℓ
    subst hx
    cases hll : loglikLoop p 0 l xs with
    | error e => rw [hll] at hℓ; cases hℓ
    | ok ls =>
      rw [hll] at hℓ
      simp only [Except.ok.injEq] at hℓ
      subst hℓ
      rw [List.getLast?_map, Option.map_eq_some_iff] at hlast
      obtain ⟨s, hs, hs'⟩ := hlast
      cases hs'
      rw [kfLoglik, kfLoglik, filterFull, filterLoop_append p 0 none xs ys l hf, hs]
      simp only [Option.some_or, Nat.zero_add]
      rw [filterLoop_restart p xs.length s ys hA hQ hb]
      cases hg : filterFull (p.resume xs.length (A *ᵥ s.filtMean + b) (A * s.filtCov * Aᵀ + Q)) ys with
      | error e => rfl
      | ok l' =>
        simp only [Except.map, bind, Except.bind]
        rw [loglikLoop_append p 0 l l' xs ys (filterLoop_length hf) ls hll, Nat.zero_add,
          ← Nat.add_zero xs.length, loglikLoop_resume p xs.length 0 (A *ᵥ s.filtMean + b)
            (A * s.filtCov * Aᵀ + Q)]
        simp only [Nat.add_zero]
        cases loglikLoop (p.resume xs.length (A *ᵥ s.filtMean + b) (A * s.filtCov * Aᵀ + Q)) 0 l' ys with
        | error e => rfl
        | ok w => simp [Except.map, pure, Except.pure]

/-- **C17, masked rows.** Appending a masked row does not change the log-likelihood. -/
theorem C17_loglik_masked_row (p : Params n m) (xs : List (Obs m)) (o : Obs m) (ho : o.missing)
    (ℓ : ℝ) (hℓ : kfLoglik p xs = .ok ℓ) (hdef : p.DefinedFor (xs.length + 1)) :
    kfLoglik p (xs ++ [o]) = .ok ℓ := by
  have hc := definedFor_iff_covers.mp hdef
  have hcx := hc.mono (Nat.le_succ xs.length)
  have hf := filterFull_obsFn hcx
  have hg := filterFull_obsFn (p := p) (os := xs ++ [o]) (by simpa using hc)
  rw [kfLoglik, hf] at hℓ
  simp only [bind, Except.bind] at hℓ
  cases hl : loglikLoop p 0 ((List.range xs.length).map (p.fn.kf (obsFn xs))) xs with
  | error e => rw [hl] at hℓ; cases hℓ
  | ok ls =>
    rw [hl] at hℓ
    simp only [pure, Except.pure, Except.ok.injEq] at hℓ
    subst hℓ
    have e : (List.range (xs ++ [o]).length).map (p.fn.kf (obsFn (xs ++ [o])))
        = (List.range xs.length).map (p.fn.kf (obsFn xs))
          ++ [p.fn.kf (obsFn (xs ++ [o])) xs.length] := by
      rw [List.length_append, List.length_singleton, List.range_succ, List.map_append]
      congr 1
      apply List.map_congr_left
      intro t ht
      rw [List.mem_range] at ht
      apply p.fn.kf_congr
      intro i hi
      have : obsFn (xs ++ [o]) i = obsFn xs i := by
        simp only [obsFn, List.getD_eq_getElem?_getD]
        rw [List.getElem?_append_left (by omega)]
      rw [this]
      exact Obs.Sim.refl _
    rw [kfLoglik, hg, e]
    simp only [bind, Except.bind]
    rw [loglikLoop_append p 0 _ _ xs [o] (by simp) ls hl, loglikLoop_missing (by simpa using ho)
      _ _ (by simp)]
    simp [Except.map, pure, Except.pure]

/-! ### C18 -/

/-- **C18.** Giving a parameter once or repeating it for every time step makes no difference for
`filter` and `smooth` (for `loglikelihood` either, as long as the observation covariance is given
the same way: see C49). -/
theorem C18_constant_equals_repeated (p p' : Params n m) (os : List (Obs m))
    (hA : p.A.Repeats p'.A (os.length - 1)) (hb : p.b.Repeats p'.b (os.length - 1))
    (hQ : p.Q.Repeats p'.Q (os.length - 1)) (hC : p.C.Repeats p'.C os.length)
    (hd : p.d.Repeats p'.d os.length) (hR : p.R.Repeats p'.R os.length)
    (hmu : p.mu0 = p'.mu0) (hS : p.S0 = p'.S0) :
    kfFilter p os = kfFilter p' os ∧ kfSmooth p os = kfSmooth p' os ∧
      (p.R = p'.R → kfLoglik p os = kfLoglik p' os) := by
  have ag : p.Agree p' os.length :=
    ⟨fun t ht => hA.lastDims (by omega), fun t ht => hb.lastDims (by omega),
     fun t ht => hQ.lastDims (by omega), fun t ht => hC.lastDims ht, fun t ht => hd.lastDims ht,
     fun t ht => hR.lastDims ht, hmu, hS⟩
  refine ⟨kfFilter_agree ag, kfSmooth_agree ag, fun hR' => ?_⟩
  rw [kfLoglik, kfLoglik, filterFull_agree ag]
  congr 1
  funext l
  rw [loglikLoop_agree hR' os 0 (fun i hi => ag.C i (by omega)) (fun i hi => ag.d i (by omega))]

example : (TV.const (5 : ℕ)).Repeats (.seq [5, 5, 5, 5]) 3 :=
  .inr ⟨5, 4, by omega, rfl, rfl⟩

/-! ### C19 -/

/-- **C19.** `filter` fails exactly when some time-varying parameter is too short, and then with
`IndexError`: observation parameters need one entry per observation (masked or not), transition
parameters one less. -/
theorem C19_index_error_iff (p : Params n m) (os : List (Obs m)) (hne : os ≠ []) :
    (kfFilter p os = .error .indexError ↔
      ¬ (p.A.AtLeast (os.length - 1) ∧ p.b.AtLeast (os.length - 1) ∧ p.Q.AtLeast (os.length - 1) ∧
         p.C.AtLeast os.length ∧ p.d.AtLeast os.length ∧ p.R.AtLeast os.length)) ∧
    (∀ e, kfFilter p os = .error e → e = .indexError) ∧
    ((∃ out, kfFilter p os = .ok out) ∨ kfFilter p os = .error .indexError) := by
  have hcov : p.Covers os.length ↔ (p.A.AtLeast (os.length - 1) ∧ p.b.AtLeast (os.length - 1) ∧
      p.Q.AtLeast (os.length - 1) ∧ p.C.AtLeast os.length ∧ p.d.AtLeast os.length ∧
      p.R.AtLeast os.length) := by
    simp only [← TV.covers_iff_atLeast]
    exact ⟨fun h => ⟨h.1, h.2, h.3, h.4, h.5, h.6⟩, fun ⟨a, b, c, d, e, f⟩ => ⟨a, b, c, d, e, f⟩⟩
  rw [← hcov]
  by_cases hc : p.Covers os.length
  · rw [kfFilter_eq hc]
    simp [hc]
  · have : kfFilter p os = .error .indexError := by
      rw [kfFilter]
      cases hf : filterFull p os with
      | error e => rw [filterFull_error hf]; rfl
      | ok l =>
        rcases filterFull_ok_iff.mp ⟨l, hf⟩ with rfl | h'
        · exact absurd rfl hne
        · exact absurd h' hc
    rw [this]
    simp [hc]

/-- **C19, surplus.** Entries beyond those a run needs have no influence. -/
theorem C19_surplus_ignored (p p' : Params n m) (os : List (Obs m))
    (hA : p.A.SameUpTo p'.A (os.length - 1)) (hb : p.b.SameUpTo p'.b (os.length - 1))
    (hQ : p.Q.SameUpTo p'.Q (os.length - 1)) (hC : p.C.SameUpTo p'.C os.length)
    (hd : p.d.SameUpTo p'.d os.length) (hR : p.R.SameUpTo p'.R os.length)
    (hmu : p.mu0 = p'.mu0) (hS : p.S0 = p'.S0) :
    kfFilter p os = kfFilter p' os ∧ kfSmooth p os = kfSmooth p' os := by
  have ag : p.Agree p' os.length :=
    ⟨fun t ht => hA.lastDims (by omega), fun t ht => hb.lastDims (by omega),
     fun t ht => hQ.lastDims (by omega), fun t ht => hC.lastDims ht, fun t ht => hd.lastDims ht,
     fun t ht => hR.lastDims ht, hmu, hS⟩
  exact ⟨kfFilter_agree ag, kfSmooth_agree ag⟩

example : (TV.seq [1, 2, 3]).SameUpTo (.seq [1, 2, 4, 5]) 2 := .inr ⟨_, _, rfl, rfl, rfl⟩

/-- The example's transition matrices suffice for three observations, not for four. -/
example (os : List (Obs 1)) : (os.length = 3 → ∃ out, kfFilter exParams os = .ok out) ∧
    (os.length = 4 → kfFilter exParams os = .error .indexError) := by
  constructor
  · intro h
    exact ⟨_, kfFilter_eq (by rw [h]; exact definedFor_iff_covers.mp exParams_definedFor)⟩
  · intro h
    have hne : os ≠ [] := by rintro rfl; simp at h
    rw [(C19_index_error_iff exParams os hne).1, h]
    intro hall
    have := hall.1 _ rfl
    simp at this

/-! ### C22 -/

/-- **C22.** At a time step whose observation matrix is zero the row has no influence: replacing
it by any other row, in particular a masked one, changes no result of `filter` and `smooth`. -/
theorem C22_zero_observation_matrix (p : Params n m) (os : List (Obs m)) (t : ℕ)
    (hC : lastDims p.C t = .ok 0) (o' : Obs m) :
    kfFilter p os = kfFilter p (os.set t o') ∧ kfSmooth p os = kfSmooth p (os.set t o') := by
  have : filterFull p os = filterFull p (os.set t o') :=
    filterLoop_set os (by rw [Nat.zero_add]; exact hC) none o'
  rw [kfFilter, kfFilter, kfSmooth, kfSmooth, ← this]
  exact ⟨rfl, rfl⟩

example : ∃ p : Params 2 1, lastDims p.C 1 = .ok 0 ∧ lastDims p.C 0 ≠ .ok 0 ∧
    ∃ out, kfFilter p [⟨![1], fun _ => false⟩, ⟨![2], fun _ => false⟩] = .ok out := by
  refine ⟨{ exParams with C := .seq [!![1, 0], 0] }, rfl, ?_, _, kfFilter_eq
    ⟨Nat.le_succ 1, trivial, trivial, le_refl 2, trivial, trivial⟩⟩
  intro h
  have := congrFun (congrFun (Except.ok.inj h) 0) 0
  simp at this

/-! ### C27 -/

/-- **C27.** `filter_update` uses an argument that is given and otherwise the constant parameter;
if a parameter is neither given nor constant it raises `ValueError`, whatever the observation.
The result depends on nothing else of the model: any other model with the resolved values as
constant parameters, called without optional arguments, gives the same. -/
theorem C27_filter_update_arguments (p : Params n m) (mean : Vec n) (cov : Mat n n)
    (o : Option (Obs m)) (a : UpdateArgs n m) :
    (∀ A b Q C d R,
      (a.A = some A ∨ a.A = none ∧ p.A = .const A) → (a.b = some b ∨ a.b = none ∧ p.b = .const b) →
      (a.Q = some Q ∨ a.Q = none ∧ p.Q = .const Q) → (a.C = some C ∨ a.C = none ∧ p.C = .const C) →
      (a.d = some d ∨ a.d = none ∧ p.d = .const d) → (a.R = some R ∨ a.R = none ∧ p.R = .const R) →
      (∃ r, filterUpdate p mean cov o a = .ok r) ∧ ∀ mu S,
      filterUpdate p mean cov o a = filterUpdate
        ⟨.const A, .const b, .const Q, .const C, .const d, .const R, mu, S⟩ mean cov o {}) ∧
    ((a.A = none ∧ ¬ p.A.IsConst ∨ a.b = none ∧ ¬ p.b.IsConst ∨ a.Q = none ∧ ¬ p.Q.IsConst ∨
      a.C = none ∧ ¬ p.C.IsConst ∨ a.d = none ∧ ¬ p.d.IsConst ∨ a.R = none ∧ ¬ p.R.IsConst) →
      filterUpdate p mean cov o a = .error .valueError) := by
  have hok : ∀ {α : Type} {arg : Option α} {q : TV α} {v : α},
      (arg = some v ∨ arg = none ∧ q = .const v) → argOrDefault arg q = .ok v := by
    rintro α arg q v (rfl | ⟨rfl, rfl⟩) <;> rfl
  have herr : ∀ {α : Type} {arg : Option α} {q : TV α},
      (∃ v, argOrDefault arg q = .ok v) ∨ argOrDefault arg q = .error .valueError := by
    intro α arg q
    rcases arg with _ | v
    · rcases q with a | l
      · exact .inl ⟨a, rfl⟩
      · exact .inr rfl
    · exact .inl ⟨v, rfl⟩
  have hbad : ∀ {α : Type} {arg : Option α} {q : TV α},
      (arg = none ∧ ¬ q.IsConst) → argOrDefault arg q = .error .valueError := by
    rintro α arg q ⟨rfl, hq⟩
    rcases q with a | l
    · exact absurd ⟨a, rfl⟩ hq
    · rfl
  constructor
  · intro A b Q C d R hA hb hQ hC hd hR
    constructor
    · simp only [filterUpdate, hok hA, hok hb, hok hQ, hok hC, hok hd, hok hR]
      exact ⟨_, rfl⟩
    · intro mu S
      simp only [filterUpdate, hok hA, hok hb, hok hQ, hok hC, hok hd, hok hR]
      rfl
  · intro h
    simp only [filterUpdate]
    rcases @herr _ a.b p.b with ⟨b, hb⟩ | hb
    swap
    · rw [hb]; rfl
    rcases @herr _ a.d p.d with ⟨d, hd⟩ | hd
    swap
    · rw [hb, hd]; rfl
    rcases @herr _ a.A p.A with ⟨A, hA⟩ | hA
    swap
    · rw [hb, hd, hA]; rfl
    rcases @herr _ a.C p.C with ⟨C, hC⟩ | hC
    swap
    · rw [hb, hd, hA, hC]; rfl
    rcases @herr _ a.Q p.Q with ⟨Q, hQ⟩ | hQ
    swap
    · rw [hb, hd, hA, hC, hQ]; rfl
    rcases @herr _ a.R p.R with ⟨R, hR⟩ | hR
    swap
    · rw [hb, hd, hA, hC, hQ, hR]; rfl
    exfalso
    rcases h with h | h | h | h | h | h
    · rw [hbad h] at hA; cases hA
    · rw [hbad h] at hb; cases hb
    · rw [hbad h] at hQ; cases hQ
    · rw [hbad h] at hC; cases hC
    · rw [hbad h] at hd; cases hd
    · rw [hbad h] at hR; cases hR

/-- **C27, no observation.** Without an observation the result is the prediction. -/
theorem C27_filter_update_no_observation (A Q : Mat n n) (b : Vec n) (C : Mat m n) (R : Mat m m)
    (d : Vec m) (hm : 0 < m) (mu : Vec n) (S : Mat n n) (mean : Vec n) (cov : Mat n n) :
    filterUpdate ⟨.const A, .const b, .const Q, .const C, .const d, .const R, mu, S⟩ mean cov none {}
      = .ok (A *ᵥ mean + b, A * cov * Aᵀ + Q) := by
  have hmiss : (⟨0, fun _ => true⟩ : Obs m).missing := ⟨⟨0, hm⟩, rfl⟩
  simp only [filterUpdate, argOrDefault, bind, Except.bind, pure, Except.pure, filterPredict,
    filterCorrect_missing hmiss, Matrix.mul_assoc]

/-- Both cases occur for the example: the varying transition matrix has to be passed. -/
example (mean : Vec 2) (cov : Mat 2 2) :
    filterUpdate exParams mean cov none {} = .error .valueError ∧
    ∃ r, filterUpdate exParams mean cov none { A := some 1 } = .ok r := by
  refine ⟨(C27_filter_update_arguments exParams mean cov none {}).2 (.inl ⟨rfl, ?_⟩), _, rfl⟩
  rintro ⟨a, ha⟩
  cases ha

end Verif
