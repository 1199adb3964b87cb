import Verif.Proofs.EmLimitPoints
import Verif.Props.EmCritical
import Verif.Props.EmSymmetry

/-!
# C111: every iteration of `em` makes progress, and where it leads
-/

open Matrix Filter Topology

namespace Verif

variable {n m : ℕ}

/-- **C111.** Every iteration of `em` increases `loglikelihood`, unless it leaves all parameters as
they are: for every data set with at least two rows of which one is unmasked, every mask pattern,
selection and number `k` of iterations done so far (hypotheses as in `C05_em_monotone_partial`). -/
theorem C111_strict_progress {p q q' : Params n m} {os : List (Obs m)} {vars : EmVar → Bool}
    (k : ℕ) (hlen2 : 2 ≤ os.length) (hobs : ∃ o ∈ os, ¬ o.missing) (hinv : p.EmInvariant vars)
    (hR : p.R.IsConst) (h : kfEm p os k vars = .ok q) (h' : kfEm p os (k + 1) vars = .ok q')
    (hq : q.PD os.length)
    (hq' : vars .observationCovariance = true → ∀ R, q'.R = .const R → R.PosDef) :
    ∃ l l', kfLoglik q os = .ok l ∧ kfLoglik q' os = .ok l' ∧ (l < l' ∨ l' = l ∧ q' = q) := by
  rw [C23_em_add p os vars k 1, h] at h'
  have hq' := C24_em_covariances_posDef hq h' hq'
  obtain ⟨hne, c0, c1, heq⟩ := emStep_of_kfEm h'
  have hRq := isConst_R_of_kfEm h hR
  refine ⟨_, _, kfLoglik_predLL hne c0 hq hRq, kfLoglik_predLL hne c1 hq'
    (isConst_R_of_kfEm h' hRq), ?_⟩
  have hlen : os.length - 1 + 1 = os.length :=
    Nat.sub_add_cancel (List.length_pos_iff.mpr hne)
  have hP := hq.fn c0
  have hP' := hq'.fn c1
  have hN := obsCount_pos_of_mem hobs
  rw [← hlen] at hP hP' c0 hN
  by_cases hle : q'.fn.predLL (obsFn os) (os.length - 1) ≤ q.fn.predLL (obsFn os) (os.length - 1)
  · have e := em_eq_of_predLL_le heq c0 (emInvariant_of_kfEm h hinv) hP hP' (by omega) hN hle
    exact Or.inr ⟨by rw [e], e⟩
  · exact Or.inl (not_le.mp hle)

/-- **C111.** An upper bound for `loglikelihood`: with an observation covariance `R` not below
`R₀`, no parameters whatever reach more than the densities of the unmasked rows under perfect
prediction with covariance `R₀`. -/
theorem C111_loglik_bounded {p : Params n m} {os : List (Obs m)} {R R₀ : Mat m m} {l : ℝ}
    (hne : os ≠ []) (hdef : p.DefinedFor os.length) (hp : p.PD os.length) (hR : p.R = .const R)
    (hR₀ : R₀.PosDef) (hge : (R - R₀).PosSemidef) (h : kfLoglik p os = .ok l) :
    l ≤ ∑ i : Fin os.length, if ∀ j, os[i].mask j = false then
      -(1 / 2) * (m * Real.log (2 * Real.pi) + Real.log R₀.det) else 0 := by
  have hc := definedFor_iff_covers.mp hdef
  rw [kfLoglik_predLL hne hc hp ⟨R, hR⟩] at h
  cases h
  have hlen : os.length - 1 + 1 = os.length :=
    Nat.sub_add_cancel (List.length_pos_iff.mpr hne)
  have hP := hp.fn hc
  rw [← hlen] at hP
  refine (predLL_le hP hR₀ (fun t _ => ?_) _).trans (le_of_eq ?_)
  · rw [show p.fn.R t = p.R.get t from rfl, TV.get_of_eq_const hR]
    exact hge
  · rw [hlen, obsCount_eq, ← Fin.sum_univ_eq_sum_range (fun t => (obsFn os t).w), Finset.sum_mul]
    refine Finset.sum_congr rfl fun i _ => ?_
    rw [obsFn_eq i.isLt]
    have hmiss : os[i].missing ↔ ¬ ∀ j, os[i].mask j = false := by
      simp [Obs.missing]
    split
    · next hi =>
      rw [show os[(i : ℕ)] = os[i] from rfl, Obs.w_observed (by rw [hmiss]; simpa using hi)]
      simp [logN]
    · next hi =>
      rw [show os[(i : ℕ)] = os[i] from rfl, Obs.w_missing (hmiss.mpr hi), zero_mul]

/-- **C111.** If the observation covariance is not estimated, or stays above some positive definite
matrix, then the values of `loglikelihood` after 0, 1, 2, … iterations of `em` converge. -/
theorem C111_loglik_converges {p : Params n m} {os : List (Obs m)} {vars : EmVar → Bool}
    (hne : os ≠ []) (hdef : p.DefinedFor os.length)
    (hinv : p.EmInvariant vars) (hR : p.R.IsConst) (hp : p.PD os.length)
    (hrank : vars .observationCovariance = true →
      (vars .observationMatrices = false ∧ KeepsObsCov p os) ∧ ∃ R₀ : Mat m m, R₀.PosDef ∧
        ∀ k q R, kfEm p os k vars = .ok q → q.R = .const R → (R - R₀).PosSemidef) :
    ∃ (l : ℕ → ℝ) (L : ℝ), Monotone l ∧ Tendsto l atTop (𝓝 L) ∧
      ∀ k, ∃ q, kfEm p os k vars = .ok q ∧ kfLoglik q os = .ok (l k) := by
  obtain ⟨l, hm, hl⟩ := C05_em_monotone_sequence_partial hne hdef hinv hR hp
    (fun hv => (hrank hv).1)
  obtain ⟨R₀, hR₀, hge⟩ : ∃ R₀ : Mat m m, R₀.PosDef ∧
      ∀ k q R, kfEm p os k vars = .ok q → q.R = .const R → (R - R₀).PosSemidef := by
    cases hv : vars .observationCovariance with
    | true => exact (hrank hv).2
    | false =>
      obtain ⟨R, eR⟩ := hR
      refine ⟨R, hp.R 0 (List.length_pos_iff.mpr hne) R (by rw [eR]; rfl), fun k q R' h e => ?_⟩
      have := (C23_em_only_selected h).R hv
      rw [e, eR] at this
      cases this
      rw [sub_self]
      exact PosSemidef.zero
  have hb : BddAbove (Set.range l) := by
    refine ⟨∑ i : Fin os.length, if ∀ j, os[i].mask j = false then
      -(1 / 2) * (m * Real.log (2 * Real.pi) + Real.log R₀.det) else 0, ?_⟩
    rintro _ ⟨k, rfl⟩
    obtain ⟨q, h1, h2, h3⟩ := hl k
    obtain ⟨q', e1, e2⟩ := C23_em_succeeds hne hdef k vars
    rw [h1] at e1
    cases e1
    obtain ⟨R, eR⟩ := isConst_R_of_kfEm h1 hR
    exact C111_loglik_bounded hne e2 h2 eR hR₀ (hge k q R h1 eR) h3
  refine ⟨l, _, hm, tendsto_atTop_ciSup hm hb, fun k => ?_⟩
  obtain ⟨q, h1, -, h3⟩ := hl k
  exact ⟨q, h1, h3⟩

/-! ### Limit points -/

theorem EmConverges.covers {p lim : Params n m} {q : ℕ → Params n m} {vars : EmVar → Bool} {T : ℕ}
    (hl : EmConverges vars p q lim) (hc : p.Covers T) : lim.Covers T := by
  have hs := hl.sameFixed
  have hk := hl.selConst
  have cov : ∀ {α : Type} {a b : TV α} {s : Bool} {k : ℕ}, b.Covers k →
      (s = true → a.IsConst) → (s = false → a = b) → a.Covers k := by
    intro α a b s k hb h1 h2
    cases s
    · rw [h2 rfl]; exact hb
    · obtain ⟨v, rfl⟩ := h1 rfl; trivial
  exact ⟨cov hc.A hk.A hs.A, cov hc.b hk.b hs.b, cov hc.Q hk.Q hs.Q, cov hc.C hk.C hs.C,
    cov hc.d hk.d hs.d, cov hc.R hk.R hs.R⟩

theorem EmConverges.emInvariant {p lim : Params n m} {q : ℕ → Params n m} {vars : EmVar → Bool}
    (hl : EmConverges vars p q lim) (hinv : p.EmInvariant vars) : lim.EmInvariant vars := by
  have hs := hl.sameFixed
  have hk := hl.selConst
  have one : ∀ {α : Type} {a b : TV α} {s : Bool}, b.IsConst →
      (s = true → a.IsConst) → (s = false → a = b) → a.IsConst := by
    intro α a b s hb h1 h2
    cases s
    · rw [h2 rfl]; exact hb
    · exact h1 rfl
  exact ⟨hk.A, hk.b, hk.C, hk.d, fun h => one (hinv.Q h) hk.Q hs.Q, fun h => one (hinv.R h) hk.R hs.R⟩

theorem EmConverges.isConst_R {p lim : Params n m} {q : ℕ → Params n m} {vars : EmVar → Bool}
    (hl : EmConverges vars p q lim) (hR : p.R.IsConst) : lim.R.IsConst := by
  cases hv : vars .observationCovariance with
  | true => exact hl.selConst.R hv
  | false => rw [hl.sameFixed.R hv]; exact hR

theorem kfEm_one_of_eqs {p : Params n m} {os : List (Obs m)} {vars : EmVar → Bool} (hne : os ≠ [])
    (hc : p.Covers os.length)
    (h : EmEqs p vars p (p.fn.stats (obsFn os) (os.length - 1)) (obsFn os) (os.length - 1) p) :
    kfEm p os 1 vars = .ok p := by
  obtain ⟨p', h1, -, h2⟩ := emIter_ok (given := p) (vars := vars) hne hc hc
  rw [h2.eq_emNext, ← h.eq_emNext] at h1
  rw [kfEm, emLoop_succ]
  cases hss : emStats p os with
  | error e => rw [hss] at h1; cases h1
  | ok ss =>
    rw [hss] at h1
    have h3 : emStep p vars p ss os = .ok p := h1
    show (emStep p vars p ss os >>= fun q => emLoop p vars os 0 q) = _
    rw [h3]
    rfl

/-- **C111.** Every limit point of `em` is a fixed point: if the parameters returned by `em` converge
along some increasing sequence `φ 0 < φ 1 < …` of numbers of iterations - it is not assumed that
they converge along all of them - to parameters with positive definite covariances, then `em`
leaves the limit unchanged. -/
theorem C111_limit_point_fixed {p lim : Params n m} {q : ℕ → Params n m} {φ : ℕ → ℕ}
    {vars : EmVar → Bool} {os : List (Obs m)} (hlen2 : 2 ≤ os.length)
    (hobs : ∃ o ∈ os, ¬ o.missing) (hinv : p.EmInvariant vars) (hR : p.R.IsConst)
    (hp : p.PD os.length)
    (hrank : vars .observationCovariance = true →
      vars .observationMatrices = false ∧ KeepsObsCov p os)
    (hq : ∀ k, kfEm p os k vars = .ok (q k)) (hφ : StrictMono φ)
    (hl : EmConverges vars p (fun k => q (φ k)) lim) (hpd : lim.PD os.length) :
    kfEm lim os 1 vars = .ok lim := by
  have h0 : q 0 = p := by
    have := hq 0
    cases this
    rfl
  obtain ⟨hne, hc, -, -⟩ := emStep_of_kfEm (hq 1)
  have hlen : os.length - 1 + 1 = os.length := Nat.sub_add_cancel (List.length_pos_iff.mpr hne)
  have hstep : ∀ k, EmEqs (q k) vars (q k) ((q k).fn.stats (obsFn os) (os.length - 1)) (obsFn os)
      (os.length - 1) (q (k + 1)) := by
    intro k
    have h1 := hq (k + 1)
    rw [C23_em_add, hq k] at h1
    exact (emStep_of_kfEm h1).2.2.2
  have hdef : p.DefinedFor os.length := definedFor_iff_covers.mpr hc
  obtain ⟨l, hm, hll⟩ := C05_em_monotone_sequence_partial hne hdef hinv hR hp hrank
  have hmono : Monotone fun k => (q k).fn.predLL (obsFn os) (os.length - 1) := by
    have e : ∀ k, (q k).fn.predLL (obsFn os) (os.length - 1) = l k := by
      intro k
      obtain ⟨q', h1, h2, h3⟩ := hll k
      rw [hq k] at h1
      cases h1
      obtain ⟨q', e1, e2⟩ := C23_em_succeeds hne hdef k vars
      rw [hq k] at e1
      cases e1
      rw [kfLoglik_predLL hne (definedFor_iff_covers.mp e2) h2 (isConst_R_of_kfEm (hq k) hR)] at h3
      exact Except.ok.inj h3
    simpa only [e] using hm
  have hcl := hl.covers hc
  have hPl := hpd.fn hcl
  have hN := obsCount_pos_of_mem hobs
  have hcl' := hcl
  rw [← hlen] at hPl hN hcl'
  have he := (emNext_eqs p vars lim (lim.fn.stats (obsFn os) (os.length - 1)) (obsFn os)
    (os.length - 1))
  refine kfEm_one_of_eqs hne hcl (em_limit_point h0 hstep hmono hφ hl hPl ?_ hcl'
    (hl.emInvariant hinv) (by omega) hN)
  refine PFun.PD.step (he.given hl.sameFixed) hPl fun hv => ?_
  obtain ⟨hC, ⟨t, ht, hmask, hfull⟩⟩ := hrank hv
  have e := he.R
  rw [if_pos hv] at e
  rw [e]
  refine hPl.newR _ _ _ (t := t) (by omega) ?_ ?_
  · rw [obsFn_eq ht]
    rintro ⟨j, hj⟩
    rw [hmask j] at hj
    cases hj
  · rw [he.sameFixed.C hC]
    exact hfull _ (lastDims_eq_ok (hc.C.mono (show t + 1 ≤ _ by omega)))

/-- **C111.** Every limit point of `em` with positive definite covariances is a critical point of
`loglikelihood`. -/
theorem C111_limit_point_critical {p lim : Params n m} {q : ℕ → Params n m} {φ : ℕ → ℕ}
    {vars : EmVar → Bool} {os : List (Obs m)} (hlen2 : 2 ≤ os.length)
    (hobs : ∃ o ∈ os, ¬ o.missing) (hinv : p.EmInvariant vars) (hR : p.R.IsConst)
    (hp : p.PD os.length)
    (hrank : vars .observationCovariance = true →
      vars .observationMatrices = false ∧ KeepsObsCov p os)
    (hq : ∀ k, kfEm p os k vars = .ok (q k)) (hφ : StrictMono φ)
    (hl : EmConverges vars p (fun k => q (φ k)) lim) (hpd : lim.PD os.length) :
    IsCritical vars lim os :=
  C65_fixed_point_critical (hl.emInvariant hinv) (hl.isConst_R hR)
    (C111_limit_point_fixed hlen2 hobs hinv hR hp hrank hq hφ hl hpd)

/-- **C111.** At a limit point `loglikelihood` is the limit of its values along all iterations (so
it is the same at all limit points). -/
theorem C111_limit_point_loglik {p lim : Params n m} {q : ℕ → Params n m} {φ : ℕ → ℕ}
    {vars : EmVar → Bool} {os : List (Obs m)} (hinv : p.EmInvariant vars) (hR : p.R.IsConst)
    (hp : p.PD os.length)
    (hrank : vars .observationCovariance = true →
      vars .observationMatrices = false ∧ KeepsObsCov p os)
    (hq : ∀ k, kfEm p os k vars = .ok (q k)) (hφ : StrictMono φ)
    (hl : EmConverges vars p (fun k => q (φ k)) lim) (hpd : lim.PD os.length) :
    ∃ (l : ℕ → ℝ) (L : ℝ), (∀ k, kfLoglik (q k) os = .ok (l k)) ∧ Tendsto l atTop (𝓝 L) ∧
      kfLoglik lim os = .ok L := by
  have h0 : q 0 = p := by
    have := hq 0
    cases this
    rfl
  obtain ⟨hne, hc, -, -⟩ := emStep_of_kfEm (hq 1)
  have hlen : os.length - 1 + 1 = os.length := Nat.sub_add_cancel (List.length_pos_iff.mpr hne)
  have hstep : ∀ k, EmEqs (q k) vars (q k) ((q k).fn.stats (obsFn os) (os.length - 1)) (obsFn os)
      (os.length - 1) (q (k + 1)) := by
    intro k
    have h1 := hq (k + 1)
    rw [C23_em_add, hq k] at h1
    exact (emStep_of_kfEm h1).2.2.2
  have hdef : p.DefinedFor os.length := definedFor_iff_covers.mpr hc
  obtain ⟨l, hm, hll⟩ := C05_em_monotone_sequence_partial hne hdef hinv hR hp hrank
  have hl' : ∀ k, kfLoglik (q k) os = .ok (l k) := by
    intro k
    obtain ⟨q', h1, -, h3⟩ := hll k
    rw [hq k] at h1
    cases h1
    exact h3
  have e : ∀ k, (q k).fn.predLL (obsFn os) (os.length - 1) = l k := by
    intro k
    obtain ⟨q', h1, h2, h3⟩ := hll k
    rw [hq k] at h1
    cases h1
    obtain ⟨q', e1, e2⟩ := C23_em_succeeds hne hdef k vars
    rw [hq k] at e1
    cases e1
    rw [kfLoglik_predLL hne (definedFor_iff_covers.mp e2) h2 (isConst_R_of_kfEm (hq k) hR)] at h3
    exact Except.ok.inj h3
  have hcl := hl.covers hc
  have hPl := hpd.fn hcl
  rw [← hlen] at hPl
  have ht := predLL_limit_point h0 hstep hφ hl hPl
  simp only [e] at ht
  refine ⟨l, _, hl', ?_, kfLoglik_predLL hne hcl hpd (hl.isConst_R hR)⟩
  exact (tendsto_iff_tendsto_subseq_of_monotone hm
    (hφ.tendsto_atTop.comp (tendsto_add_atTop_nat 1))).mpr ht

/-- **C111.** Limit points exist if the estimates stay away from the boundary: if the entries of all
estimates remain bounded and the determinants of the estimated covariances remain above some
`ε > 0`, then the estimates converge along some increasing sequence of numbers of iterations to
parameters that `em` leaves unchanged and that are a critical point of `loglikelihood`. -/
theorem C111_limit_points_exist {p : Params n m} {q : ℕ → Params n m}
    {vars : EmVar → Bool} {os : List (Obs m)} {B ε : ℝ} (hlen2 : 2 ≤ os.length)
    (hobs : ∃ o ∈ os, ¬ o.missing) (hinv : p.EmInvariant vars) (hR : p.R.IsConst)
    (hp : p.PD os.length)
    (hrank : vars .observationCovariance = true →
      vars .observationMatrices = false ∧ KeepsObsCov p os)
    (hq : ∀ k, kfEm p os k vars = .ok (q k)) (hε : 0 < ε) (hbd : ∀ k, EmBounded vars B ε (q k)) :
    ∃ (lim : Params n m) (φ : ℕ → ℕ), StrictMono φ ∧ EmConverges vars p (fun k => q (φ k)) lim ∧
      lim.PD os.length ∧ kfEm lim os 1 vars = .ok lim ∧ IsCritical vars lim os := by
  have hbd' : ∀ k, EmBounded vars (max B 0) ε (q k) := fun k =>
    have le : ∀ {x : ℝ}, x ≤ B → x ≤ max B 0 := fun h => h.trans (le_max_left _ _)
    ⟨fun e i j => le ((hbd k).A e i j), fun e i => le ((hbd k).b e i),
     fun e => ⟨fun i j => le (((hbd k).Q e).1 i j), ((hbd k).Q e).2⟩,
     fun e i j => le ((hbd k).C e i j), fun e i => le ((hbd k).d e i),
     fun e => ⟨fun i j => le (((hbd k).R e).1 i j), ((hbd k).R e).2⟩,
     fun e i => le ((hbd k).mu0 e i),
     fun e => ⟨fun i j => le (((hbd k).S0 e).1 i j), ((hbd k).S0 e).2⟩⟩
  obtain ⟨lim, φ, hφ, hl⟩ := exists_emConverges (p := p) (le_max_right B 0) hbd'
  obtain ⟨hne, hc, -, -⟩ := emStep_of_kfEm (hq 1)
  have hall : ∀ k, (q k).PD os.length := by
    intro k
    obtain ⟨q', h1, h2⟩ := kfEm_posDef_all hne (definedFor_iff_covers.mpr hc) hp hrank k
    rw [hq k] at h1
    cases h1
    exact h2
  have hpd : lim.PD os.length := by
    have hs := hl.sameFixed
    have hk := hl.selConst
    refine ⟨fun t ht Q hQ => ?_, fun t ht R hR' => ?_, ?_⟩
    · cases hv : vars .transitionCovariance with
      | false => exact hp.Q t ht Q (by rw [← hs.Q hv]; exact hQ)
      | true =>
        rw [(hk.Q hv).eq_at] at hQ
        cases hQ
        refine posDef_of_limit (sel_true hl.Q hv).2 (fun k => ?_) hε fun k => ((hbd (φ k)).Q hv).2
        have hcst := (emInvariant_of_kfEm (hq (φ k)) hinv).Q (Or.inr (Or.inr hv))
        exact (hall (φ k)).Q t ht _ (by rw [hcst.eq_at]; rfl)
    · cases hv : vars .observationCovariance with
      | false => exact hp.R t ht R (by rw [← hs.R hv]; exact hR')
      | true =>
        rw [(hk.R hv).eq_at] at hR'
        cases hR'
        refine posDef_of_limit (sel_true hl.R hv).2 (fun k => ?_) hε fun k => ((hbd (φ k)).R hv).2
        have hcst := isConst_R_of_kfEm (hq (φ k)) hR
        exact (hall (φ k)).R t ht _ (by rw [hcst.eq_at]; rfl)
    · cases hv : vars .initialStateCovariance with
      | false => rw [hs.S0 hv]; exact hp.S0
      | true =>
        exact posDef_of_limit (sel_true hl.S0 hv) (fun k => (hall (φ k)).S0) hε fun k =>
          ((hbd (φ k)).S0 hv).2
  exact ⟨lim, φ, hφ, hl, hpd, C111_limit_point_fixed hlen2 hobs hinv hR hp hrank hq hφ hl hpd,
    C111_limit_point_critical hlen2 hobs hinv hR hp hrank hq hφ hl hpd⟩

/-! ### With the default selection the likelihood may grow without bound -/

/-- A scalar state observed once, both with variance `r`. -/
noncomputable def exShrink (r q : ℝ) : Params 1 1 where
  A := .const !![1]
  b := .const ![0]
  Q := .const !![q]
  C := .const !![1]
  d := .const ![0]
  R := .const !![r]
  mu0 := ![0]
  S0 := !![r]

/-- One observation: 0. -/
def exZero : List (Obs 1) := [⟨![0], ![false]⟩]

theorem exShrink_covers (r q : ℝ) : (exShrink r q).Covers exZero.length :=
  ⟨trivial, trivial, trivial, trivial, trivial, trivial⟩

theorem exShrink_pd {r : ℝ} (q : ℝ) (hr : 0 < r) : (exShrink r q).PD exZero.length := by
  refine ⟨fun t ht Q hQ => ?_, fun t ht R hR => ?_, posDef_scalar hr⟩
  · simp [exZero] at ht
  · cases hR; exact posDef_scalar hr

theorem exShrink_em {r : ℝ} (q : ℝ) (hr : 0 < r) :
    ∃ q', kfEm (exShrink r q) exZero 1 defaultVars = .ok (exShrink (r / 2) q') := by
  obtain ⟨p', h, -⟩ := C23_em_succeeds (p := exShrink r q) (os := exZero) (by simp [exZero])
    (definedFor_iff_covers.mpr (exShrink_covers r q)) 1 defaultVars
  obtain ⟨-, -, -, e⟩ := emStep_of_kfEm h
  obtain ⟨eC, eR, eA, eQ, em, eS, eb, ed⟩ := e
  have hk := kf_scalar (P := (exShrink r q).fn) (z := obsFn exZero) (t := 0) (μ := 0) (π := r)
    (r := r) (y := 0) rfl rfl rfl rfl rfl rfl (by linarith)
  have hf : (((exShrink r q).fn.stats (obsFn exZero) 0) 0).mean = ![0] := by
    show ((exShrink r q).fn.ks (obsFn exZero) 0 0).mean = _
    rw [PFun.ks_last]
    exact hk.1.trans (by simp)
  have hv : (((exShrink r q).fn.stats (obsFn exZero) 0) 0).cov = !![r / 2] := by
    show ((exShrink r q).fn.ks (obsFn exZero) 0 0).cov = _
    rw [PFun.ks_last]
    refine hk.2.trans ?_
    congr 3
    field_simp
    ring
  have eA' : p'.A = (exShrink r q).A := by simpa [defaultVars] using eA
  have eb' : p'.b = (exShrink r q).b := by simpa [defaultVars] using eb
  have eC' : p'.C = (exShrink r q).C := by simpa [defaultVars] using eC
  have ed' : p'.d = (exShrink r q).d := by simpa [defaultVars] using ed
  have em' : p'.mu0 = ![0] := by
    rw [em, if_pos (by rfl)]; exact hf
  have eS' : p'.S0 = !![r / 2] := by
    rw [eS, if_pos (by rfl), em']
    refine (congrArg₂ (· + ·) hv (congrArg (fun v => vecMulVec (v - ![0]) (v - ![0])) hf)).trans ?_
    ext i j; fin_cases i; fin_cases j; simp [vecMulVec_apply]
  have hN : 0 < obsCount (obsFn exZero) 1 :=
    obsCount_pos_of_mem (os := exZero) ⟨⟨![0], ![false]⟩, by simp [exZero], by simp [Obs.missing]⟩
  have hN1 : obsCount (obsFn exZero) 1 = 1 := by
    have : obsCount (obsFn exZero) 1 ≤ 1 := by
      rw [obsCount]
      exact (Finset.card_filter_le _ _).trans (by simp)
    omega
  have eR' : p'.R = .const !![r / 2] := by
    rw [eR, if_pos (by rfl), eC']
    show TV.const (newR _ _ _ _ 1) = _
    rw [newR, if_pos hN, hN1, obsScatter_eq_sum, Finset.sum_range_one]
    rw [Obs.w_observed (o := obsFn exZero 0) (by simp [obsFn, exZero, Obs.missing])]
    simp only [one_smul, obsTerm]
    rw [show exZero.length - 1 = 0 from rfl, hf, hv]
    simp only [exShrink, TV.get, one_scalar, obsFn, exZero]
    congr 1
    ext i j; fin_cases i; fin_cases j; simp [vecMulVec_apply]
  obtain ⟨q', eQ'⟩ : ∃ q' : ℝ, p'.Q = .const !![q'] := by
    rw [eQ, if_pos (by rfl)]
    have key : ∀ M : Mat 1 1, ∃ q' : ℝ, TV.const M = TV.const !![q'] := fun M =>
      ⟨M 0 0, by congr 1; ext i j; fin_cases i; fin_cases j; rfl⟩
    exact key _
  refine ⟨q', ?_⟩
  rw [h]
  congr 1
  cases p'
  simp only at eA' eb' eC' eR' eQ' eS' ed' em'
  subst eA' eb' eC' eR' eQ' eS' ed' em'
  rfl

theorem exShrink_loglik {r : ℝ} (q : ℝ) (hr : 0 < r) : kfLoglik (exShrink r q) exZero
    = .ok (-(1 / 2) * (Real.log (2 * Real.pi) + Real.log (2 * r))) := by
  rw [kfLoglik_predLL (by simp [exZero]) (exShrink_covers r q) (exShrink_pd q hr) ⟨_, rfl⟩]
  congr 1
  rw [show exZero.length - 1 = 0 from rfl, PFun.predLL, Finset.sum_range_one,
    Obs.w_observed (o := obsFn exZero 0) (by simp [obsFn, exZero, Obs.missing]), one_mul]
  have := logN_scalar 0 0 (show (0 : ℝ) < 2 * r by linarith)
  refine Eq.trans ?_ (this.trans (by simp))
  congr 1
  · show _ + ![(0 : ℝ)] = _
    show (!![1] : Mat 1 1) *ᵥ ![0] + _ = _
    ext i; fin_cases i; simp
  · show (!![1] : Mat 1 1) * !![r] * (!![1] : Mat 1 1)ᵀ + !![r] = _
    rw [one_scalar, transpose_one, Matrix.one_mul, Matrix.mul_one]
    ext i j; fin_cases i; fin_cases j; simp; ring

/-- **C111.** With the default `em_vars` the values of `loglikelihood` need not converge: here they
grow beyond all bounds, while the variances tend to zero. -/
theorem C111_loglik_diverges :
    ∃ l : ℕ → ℝ, Tendsto l atTop atTop ∧ ∀ k, ∃ q, kfEm (exShrink 1 1) exZero k defaultVars = .ok q ∧
      kfLoglik q exZero = .ok (l k) ∧ q.PD exZero.length ∧ q.R = .const !![(1 / 2) ^ k] := by
  have hk : ∀ k : ℕ, ∃ s, kfEm (exShrink 1 1) exZero k defaultVars
      = .ok (exShrink ((1 / 2) ^ k) s) := by
    intro k
    induction k with
    | zero => exact ⟨1, by rw [pow_zero]; rfl⟩
    | succ k ih =>
      obtain ⟨s, hs⟩ := ih
      obtain ⟨s', hs'⟩ := exShrink_em s (r := (1 / 2) ^ k) (by positivity)
      refine ⟨s', ?_⟩
      rw [C23_em_add, hs]
      refine hs'.trans ?_
      congr 2
      rw [pow_succ]
      ring
  refine ⟨fun k => -(1 / 2) * (Real.log (2 * Real.pi) + Real.log (2 * (1 / 2) ^ k)), ?_, fun k => ?_⟩
  · have e : ∀ k : ℕ, -(1 / 2) * (Real.log (2 * Real.pi) + Real.log (2 * (1 / 2) ^ k))
        = k * (Real.log 2 / 2) + -(1 / 2) * (Real.log (2 * Real.pi) + Real.log 2) := by
      intro k
      have : Real.log (2 * (1 / 2) ^ k) = Real.log 2 - k * Real.log 2 := by
        rw [Real.log_mul (by norm_num) (by positivity), Real.log_pow, one_div, Real.log_inv]
        ring
      rw [this]
      ring
    simp only [e]
    exact tendsto_atTop_add_const_right _ _ (Tendsto.atTop_mul_const
      (half_pos (Real.log_pos one_lt_two)) tendsto_natCast_atTop_atTop)
  · obtain ⟨s, hs⟩ := hk k
    have hpos : (0 : ℝ) < (1 / 2) ^ k := by positivity
    exact ⟨_, hs, exShrink_loglik s hpos, exShrink_pd s hpos, rfl⟩

/-! ### Cases that meet the hypotheses -/

/-- The hypotheses of `C111_strict_progress` hold for `exPlane` with the default selection, a data
set with a masked row, and every number of iterations. -/
example : ∃ os : List (Obs 1), 2 ≤ os.length ∧ (∃ o ∈ os, ¬ o.missing) ∧ (∃ o ∈ os, o.missing) ∧
    exPlane.EmInvariant defaultVars ∧ exPlane.R.IsConst ∧
    ∀ k, ∃ q q', kfEm exPlane os k defaultVars = .ok q ∧
      kfEm exPlane os (k + 1) defaultVars = .ok q' ∧ q.PD os.length ∧
      ∀ R, q'.R = .const R → R.PosDef := by
  have hp : ∀ T, exPlane.PD T := fun T => ⟨fun t _ Q hQ => by cases hQ; exact PosDef.one,
    fun t _ R hR => by cases hR; exact PosDef.one, PosDef.one⟩
  refine ⟨[⟨![2], ![false]⟩, ⟨![0], ![true]⟩, ⟨![5], ![false]⟩], by simp,
    ⟨⟨![2], ![false]⟩, by simp, by simp [Obs.missing]⟩, ⟨⟨![0], ![true]⟩, by simp, 0, rfl⟩,
    ⟨fun _ => ⟨_, rfl⟩, fun _ => ⟨_, rfl⟩, fun _ => ⟨_, rfl⟩, fun _ => ⟨_, rfl⟩,
      fun _ => ⟨_, rfl⟩, fun _ => ⟨_, rfl⟩⟩, ⟨1, rfl⟩, fun k => ?_⟩
  have hall := kfEm_posDef_all (p := exPlane)
    (os := [⟨![2], ![false]⟩, ⟨![0], ![true]⟩, ⟨![5], ![false]⟩]) (vars := defaultVars) (by simp)
    (definedFor_iff_covers.mpr ⟨trivial, trivial, trivial, trivial, trivial, trivial⟩) (hp _)
    fun _ => ⟨rfl, ⟨0, by simp, fun j => by fin_cases j; rfl, fun C hC y hy => by
      cases hC
      have := congrFun hy 0
      ext i
      fin_cases i
      simpa [Matrix.mulVec, dotProduct] using this⟩⟩
  obtain ⟨q, h1, h2⟩ := hall k
  obtain ⟨q', h3, h4⟩ := hall (k + 1)
  exact ⟨q, q', h1, h3, h2, fun R eR => h4.R 0 (by simp) R (by rw [eR]; rfl)⟩

/-- An observation and a masked row. -/
def exTail : List (Obs 1) := [⟨![0], ![false]⟩, ⟨![0], ![true]⟩]

theorem exHalf_em_tail (μ : ℝ) : kfEm (exHalf μ) exTail 1 onlyMean = .ok (exHalf (μ / 2)) := by
  have hc : (exHalf μ).Covers 2 := ⟨trivial, trivial, trivial, trivial, trivial, trivial⟩
  obtain ⟨p', h, -⟩ := C23_em_succeeds (os := exTail) (by simp [exTail])
    (definedFor_iff_covers.mpr hc) 1 onlyMean
  obtain ⟨-, -, -, e⟩ := emStep_of_kfEm h
  obtain ⟨eC, eR, eA, eQ, em, eS, eb, ed⟩ := e
  rw [h]
  congr 1
  have hm : p'.mu0 = ![μ / 2] := by
    rw [em, if_pos (by rfl)]
    show ((exHalf μ).fn.ks (obsFn exTail) 1 0).mean = _
    have hmiss : (obsFn exTail 1).missing := ⟨0, rfl⟩
    rw [PFun.ks_lt' _ _ (by norm_num), PFun.ks_last]
    have e1 : ((exHalf μ).fn.kf (obsFn exTail) (0 + 1)).filtMean
        = (exHalf μ).fn.A 0 *ᵥ ((exHalf μ).fn.kf (obsFn exTail) 0).filtMean
          + (exHalf μ).fn.b 0 := by
      rw [← (PFun.kf_pred_succ _ _ 0).1]
      exact (PFun.kf_missing _ _ hmiss).2.1
    simp only [e1, sub_self, mulVec_zero, add_zero]
    refine (kf_scalar (μ := μ) (π := 1) (r := 1) (y := 0) rfl rfl rfl rfl rfl rfl
      (by norm_num)).1.trans ?_
    congr 1
    ring
  have eA' : p'.A = (exHalf μ).A := by simpa [onlyMean] using eA
  have eb' : p'.b = (exHalf μ).b := by simpa [onlyMean] using eb
  have eC' : p'.C = (exHalf μ).C := by simpa [onlyMean] using eC
  have eR' : p'.R = (exHalf μ).R := by simpa [onlyMean] using eR
  have eQ' : p'.Q = (exHalf μ).Q := by simpa [onlyMean] using eQ
  have eS' : p'.S0 = (exHalf μ).S0 := by simpa [onlyMean] using eS
  have ed' : p'.d = (exHalf μ).d := by simpa [onlyMean] using ed
  cases p'
  simp only at eA' eb' eC' eR' eQ' eS' ed' hm
  subst eA' eb' eC' eR' eQ' eS' ed' hm
  rfl

/-- The hypotheses of `C111_limit_points_exist` (and of the theorems on limit points) hold where
only the initial mean is estimated. -/
example : ∃ q : ℕ → Params 1 1, (∀ k, kfEm (exHalf 1) exTail k onlyMean = .ok (q k)) ∧
    2 ≤ exTail.length ∧ (∃ o ∈ exTail, ¬ o.missing) ∧ (exHalf 1).EmInvariant onlyMean ∧
    (exHalf 1).R.IsConst ∧ (exHalf 1).PD exTail.length ∧
    (onlyMean .observationCovariance = true →
      onlyMean .observationMatrices = false ∧ KeepsObsCov (exHalf 1) exTail) ∧
    (∀ k, EmBounded onlyMean 1 1 (q k)) ∧ q 1 ≠ q 0 := by
  refine ⟨fun k => exHalf ((1 / 2) ^ k), fun k => ?_, by simp [exTail],
    ⟨⟨![0], ![false]⟩, by simp [exTail], by simp [Obs.missing]⟩,
    ⟨fun _ => ⟨_, rfl⟩, fun _ => ⟨_, rfl⟩, fun _ => ⟨_, rfl⟩, fun _ => ⟨_, rfl⟩,
      fun _ => ⟨_, rfl⟩, fun _ => ⟨_, rfl⟩⟩, ⟨_, rfl⟩, exHalf_pd 1 _, (fun h => nomatch h),
    fun k => ⟨(fun h => nomatch h), (fun h => nomatch h), (fun h => nomatch h),
      (fun h => nomatch h), (fun h => nomatch h), (fun h => nomatch h), fun _ i => ?_,
      (fun h => nomatch h)⟩, fun h => ?_⟩
  · induction k with
    | zero => simp only [pow_zero]; rfl
    | succ k ih =>
      rw [C23_em_add, ih]
      refine (exHalf_em_tail _).trans ?_
      simp only [pow_succ]
      congr 2
      ring
  · fin_cases i
    show |((1 / 2 : ℝ)) ^ k| ≤ 1
    rw [abs_of_pos (by positivity)]
    exact pow_le_one₀ (by norm_num) (by norm_num)
  · have := congrArg (fun p => p.mu0 0) h
    norm_num [exHalf] at this

/-- `C111_loglik_converges` applies with everything but the observation covariance selected. -/
example (os : List (Obs 1)) (hos : os ≠ []) : ∃ (l : ℕ → ℝ) (L : ℝ), Monotone l ∧
    Tendsto l atTop (𝓝 L) ∧ ∀ k, ∃ q,
      kfEm exPlane os k (fun v => v != .observationCovariance) = .ok q ∧
      kfLoglik q os = .ok (l k) :=
  C111_loglik_converges hos
    (definedFor_iff_covers.mpr ⟨trivial, trivial, trivial, trivial, trivial, trivial⟩)
    ⟨fun _ => ⟨_, rfl⟩, fun _ => ⟨_, rfl⟩, fun _ => ⟨_, rfl⟩, fun _ => ⟨_, rfl⟩,
      fun _ => ⟨_, rfl⟩, fun _ => ⟨_, rfl⟩⟩ ⟨1, rfl⟩
    ⟨fun t _ Q hQ => by cases hQ; exact PosDef.one, fun t _ R hR => by cases hR; exact PosDef.one,
      PosDef.one⟩ (fun h => by simp at h)

end Verif
