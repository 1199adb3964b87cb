import Verif.Proofs.EmLimit
import Verif.Props.EmMonotone

/-!
# C65: what `em` converges to
-/

open Matrix Filter Topology

namespace Verif

variable {n m : ℕ}

/-- **C65.** Parameters that `em` leaves unchanged are a critical point of `loglikelihood`: along
every differentiable family of parameters through them that moves only what `em` estimates, the
derivative of the returned log-likelihood is zero. -/
theorem C65_fixed_point_critical {p : Params n m} {vars : EmVar → Bool} {os : List (Obs m)}
    (hinv : p.EmInvariant vars) (hR : p.R.IsConst) (h : kfEm p os 1 vars = .ok p) :
    IsCritical vars p os := by
  obtain ⟨hne, -, -, heq⟩ := emStep_of_kfEm h
  intro E _ _ c x hc
  exact em_critical hinv hR heq hne hc

/-- **C65.** If the parameters returned by `em` with more and more iterations converge to
parameters with positive definite covariances, then `em` leaves the limit unchanged. -/
theorem C65_limit_fixed {p lim : Params n m} {q : ℕ → Params n m} {vars : EmVar → Bool}
    {os : List (Obs m)} (hq : ∀ k, kfEm p os k vars = .ok (q k)) (hl : EmConverges vars p q lim)
    (hpd : lim.PD os.length) : kfEm lim os 1 vars = .ok lim := by
  have h0 : q 0 = p := by
    have := hq 0
    cases this
    rfl
  obtain ⟨hne, hc, -, -⟩ := emStep_of_kfEm (hq 1)
  have hlen : os.length - 1 + 1 = os.length := Nat.sub_add_cancel (List.length_pos_iff.mpr hne)
  have hstep : ∀ k, EmEqs (q k) vars (q k) ((q k).fn.stats (obsFn os) (os.length - 1)) (obsFn os)
      (os.length - 1) (q (k + 1)) := by
    intro k
    have h1 := hq (k + 1)
    rw [C23_em_add, hq k] at h1
    exact (emStep_of_kfEm h1).2.2.2
  have hcl : lim.Covers os.length := by
    have hs := hl.sameFixed
    have hk := hl.selConst
    have cov : ∀ {α : Type} {a b : TV α} {s : Bool} {k : ℕ}, b.Covers k →
        (s = true → a.IsConst) → (s = false → a = b) → a.Covers k := by
      intro α a b s k hb h1 h2
      cases s
      · rw [h2 rfl]; exact hb
      · obtain ⟨v, rfl⟩ := h1 rfl; trivial
    exact ⟨cov hc.A hk.A hs.A, cov hc.b hk.b hs.b, cov hc.Q hk.Q hs.Q, cov hc.C hk.C hs.C,
      cov hc.d hk.d hs.d, cov hc.R hk.R hs.R⟩
  have hfix := em_limit h0 hstep hl (by rw [hlen]; exact hpd.fn hcl)
  obtain ⟨p', h1, -, h2⟩ := emIter_ok (given := lim) (vars := vars) hne hcl hcl
  rw [h2.eq_emNext, ← hfix.eq_emNext] at h1
  rw [kfEm, emLoop_succ]
  cases hss : emStats lim os with
  | error e => rw [hss] at h1; cases h1
  | ok ss =>
    rw [hss] at h1
    have h3 : emStep lim vars lim ss os = .ok lim := h1
    show (emStep lim vars lim ss os >>= fun q => emLoop lim vars os 0 q) = _
    rw [h3]
    rfl

/-- **C65.** If `em` converges, then to a critical point of `loglikelihood` (the limit has to have
positive definite covariances). -/
theorem C65_limit_critical {p lim : Params n m} {q : ℕ → Params n m} {vars : EmVar → Bool}
    {os : List (Obs m)} (hinv : p.EmInvariant vars) (hR : p.R.IsConst)
    (hq : ∀ k, kfEm p os k vars = .ok (q k)) (hl : EmConverges vars p q lim)
    (hpd : lim.PD os.length) : IsCritical vars lim os := by
  have hs := hl.sameFixed
  have hk := hl.selConst
  have one : ∀ {α : Type} {a b : TV α} {s : Bool}, b.IsConst →
      (s = true → a.IsConst) → (s = false → a = b) → a.IsConst := by
    intro α a b s hb h1 h2
    cases s
    · rw [h2 rfl]; exact hb
    · exact h1 rfl
  exact C65_fixed_point_critical
    ⟨hk.A, hk.b, hk.C, hk.d, fun h => one (hinv.Q h) hk.Q hs.Q, fun h => one (hinv.R h) hk.R hs.R⟩
    (one hR hk.R hs.R) (C65_limit_fixed hq hl hpd)

/-! ### A case that meets the hypotheses -/

/-- Unit variances, initial mean `μ`. -/
noncomputable def exHalf (μ : ℝ) : Params 1 1 where
  A := .const !![1]
  b := .const ![0]
  Q := .const !![1]
  C := .const !![1]
  d := .const ![0]
  R := .const !![1]
  mu0 := ![μ]
  S0 := !![1]

/-- Only the initial mean is estimated. -/
def onlyMean : EmVar → Bool
  | .initialStateMean => true
  | _ => false

theorem exHalf_pd (μ : ℝ) (T : ℕ) : (exHalf μ).PD T := by
  refine ⟨fun t _ Q hQ => ?_, fun t _ R hR => ?_, posDef_scalar one_pos⟩
  · cases hQ; exact posDef_scalar one_pos
  · cases hR; exact posDef_scalar one_pos

theorem exHalf_em (μ : ℝ) : kfEm (exHalf μ) [⟨![0], ![false]⟩] 1 onlyMean = .ok (exHalf (μ / 2)) := by
  have hc : (exHalf μ).Covers 1 := ⟨trivial, trivial, trivial, trivial, trivial, trivial⟩
  obtain ⟨p', h, -⟩ := C23_em_succeeds (os := [⟨![0], ![false]⟩]) (by simp)
    (definedFor_iff_covers.mpr hc) 1 onlyMean
  obtain ⟨-, -, -, e⟩ := emStep_of_kfEm h
  obtain ⟨eC, eR, eA, eQ, em, eS, eb, ed⟩ := e
  rw [h]
  congr 1
  have hm : p'.mu0 = ![μ / 2] := by
    rw [em, if_pos (by rfl)]
    show ((exHalf μ).fn.ks (obsFn [⟨![0], ![false]⟩]) 0 0).mean = _
    rw [PFun.ks_last]
    refine (kf_scalar (μ := μ) (π := 1) (r := 1) (y := 0) rfl rfl rfl rfl rfl rfl
      (by norm_num)).1.trans ?_
    congr 1
    ring
  have eA' : p'.A = (exHalf μ).A := by simpa [onlyMean] using eA
  have eb' : p'.b = (exHalf μ).b := by simpa [onlyMean] using eb
  have eC' : p'.C = (exHalf μ).C := by simpa [onlyMean] using eC
  have eR' : p'.R = (exHalf μ).R := by simpa [onlyMean] using eR
  have eQ' : p'.Q = (exHalf μ).Q := by simpa [onlyMean] using eQ
  have eS' : p'.S0 = (exHalf μ).S0 := by simpa [onlyMean] using eS
  have ed' : p'.d = (exHalf μ).d := by simpa [onlyMean] using ed
  cases p'
  simp only at eA' eb' eC' eR' eQ' eS' ed' hm
  subst eA' eb' eC' eR' eQ' eS' ed' hm
  rfl

/-- Every iteration halves the initial mean; the hypotheses of `C65_limit_critical` hold. -/
example : ∃ (q : ℕ → Params 1 1), (∀ k, kfEm (exHalf 1) [⟨![0], ![false]⟩] k onlyMean = .ok (q k)) ∧
    EmConverges onlyMean (exHalf 1) q (exHalf 0) ∧ (exHalf 0).PD 1 ∧
    (exHalf 1).EmInvariant onlyMean ∧ (exHalf 1).R.IsConst ∧ q 1 ≠ exHalf 0 := by
  refine ⟨fun k => exHalf ((1 / 2) ^ k), fun k => ?_, ⟨rfl, rfl, rfl, rfl, rfl, rfl, ?_, rfl⟩,
    exHalf_pd 0 1, ⟨fun _ => ⟨_, rfl⟩, fun _ => ⟨_, rfl⟩, fun _ => ⟨_, rfl⟩, fun _ => ⟨_, rfl⟩,
      fun _ => ⟨_, rfl⟩, fun _ => ⟨_, rfl⟩⟩, ⟨_, rfl⟩, ?_⟩
  · induction k with
    | zero => simp only [pow_zero]; rfl
    | succ k ih =>
      rw [C23_em_add, ih]
      refine (exHalf_em _).trans ?_
      simp only [pow_succ]
      congr 2
      ring
  · simp only [onlyMean, if_true]
    intro i
    fin_cases i
    simpa [exHalf] using tendsto_pow_atTop_nhds_zero_of_lt_one (r := (1 / 2 : ℝ)) (by norm_num)
      (by norm_num)
  · intro h
    have := congrArg (fun p => p.mu0 0) h
    norm_num [exHalf] at this

/-- Families through the limit exist: its initial mean may move. -/
example : EmFamily onlyMean (exHalf 0) 1 (fun θ : ℝ => exHalf θ) 0 := by
  have tv : ∀ {α : Type} {s : (ℝ → α) → Prop} (a : α) (t : ℕ), s (fun _ => a) →
      TVSmooth s (fun _ : ℝ => TV.const a) t := fun a t h => ⟨fun _ => a, fun _ => rfl, h⟩
  refine ⟨rfl, ⟨fun t _ => tv _ t fun i j => contDiffAt_const, fun t _ => tv _ t fun i =>
    contDiffAt_const, fun t _ => tv _ t fun i j => contDiffAt_const, fun t _ => tv _ t fun i j =>
    contDiffAt_const, fun t _ => tv _ t fun i => contDiffAt_const, fun t _ => tv _ t fun i j =>
    contDiffAt_const, fun i => ?_, fun i j => contDiffAt_const⟩,
    Eventually.of_forall fun θ => exHalf_pd θ 1, fun _ => rfl, fun _ => rfl, fun _ => rfl,
    fun _ => rfl, fun _ => rfl, fun _ => rfl, (fun h => nomatch h), fun _ _ => rfl⟩
  fin_cases i
  exact contDiffAt_id

/-- The limit is a fixed point and a critical point. -/
example : IsCritical onlyMean (exHalf 0) [⟨![0], ![false]⟩] :=
  C65_fixed_point_critical
    ⟨fun _ => ⟨_, rfl⟩, fun _ => ⟨_, rfl⟩, fun _ => ⟨_, rfl⟩, fun _ => ⟨_, rfl⟩,
      fun _ => ⟨_, rfl⟩, fun _ => ⟨_, rfl⟩⟩ ⟨_, rfl⟩ (by simpa using exHalf_em 0)

end Verif
