import Verif.Proofs.EmMonotone
import Verif.Props.EmOptimal

/-!
# C05: `em` does not decrease the likelihood
-/

open MeasureTheory ProbabilityTheory Matrix

namespace Verif

variable {n m : ℕ}

/-- What an iteration of `em` computes is constant in time, and what it does not compute is kept. -/
theorem emInvariant_of_kfEm {p q : Params n m} {os : List (Obs m)} {k : ℕ} {vars : EmVar → Bool}
    (h : kfEm p os k vars = .ok q) (hp : p.EmInvariant vars) : q.EmInvariant vars := by
  induction k generalizing q with
  | zero => cases h; exact hp
  | succ k ih =>
    rw [C23_em_add p os vars k 1] at h
    cases h1 : kfEm p os k vars with
    | error e => rw [h1] at h; cases h
    | ok p1 =>
      rw [h1] at h
      have hi := ih h1
      obtain ⟨-, -, -, e⟩ := emStep_of_kfEm h
      have key : ∀ {α : Type} {x y : TV α} {v : Bool} {a : α}, x = (if v then .const a else y) →
          (v = true ∨ y.IsConst) → x.IsConst := by
        intro α x y v a hx hv
        cases v with
        | true => exact ⟨a, hx⟩
        | false =>
          rcases hv with hv | hv
          · cases hv
          · rw [show x = y from hx]; exact hv
      exact ⟨fun hv => key e.A (Or.inl hv), fun hv => key e.b (Or.inl hv),
        fun hv => key e.C (Or.inl hv), fun hv => key e.d (Or.inl hv),
        fun hv => key e.Q (Or.inr (hi.Q hv)), fun hv => key e.R (Or.inr (hi.R hv))⟩

theorem isConst_R_of_kfEm {p q : Params n m} {os : List (Obs m)} {k : ℕ} {vars : EmVar → Bool}
    (h : kfEm p os k vars = .ok q) (hp : p.R.IsConst) : q.R.IsConst := by
  induction k generalizing q with
  | zero => cases h; exact hp
  | succ k ih =>
    rw [C23_em_add p os vars k 1] at h
    cases h1 : kfEm p os k vars with
    | error e => rw [h1] at h; cases h
    | ok p1 =>
      rw [h1] at h
      obtain ⟨-, -, -, e⟩ := emStep_of_kfEm h
      have e := e.R
      split at e
      · exact ⟨_, e⟩
      · rw [e]; exact ih h1

theorem Params.PD.of_fn {p : Params n m} {T : ℕ} (h : p.fn.PD T) : p.PD T := by
  have key : ∀ {α : Type} [Inhabited α] {x : TV α} {t : ℕ} {a : α}, lastDims x t = .ok a →
      a = x.get t := by
    intro α _ x t a hx
    cases x with
    | const b => cases hx; rfl
    | seq l =>
      simp only [lastDims] at hx
      split at hx
      · next h => cases hx; simp [TV.get, h]
      · cases hx
  exact ⟨fun t ht Q hQ => by rw [key hQ]; exact h.Q t ht,
    fun t ht R hR => by rw [key hR]; exact h.R t ht, h.S0⟩

/-- **C24, C05.** `em` keeps covariances positive definite, with one exception: the new observation
covariance (which is 0, for instance, when every row is masked). -/
theorem C24_em_covariances_posDef {p p' : Params n m} {os : List (Obs m)} {vars : EmVar → Bool}
    (hp : p.PD os.length) (h : kfEm p os 1 vars = .ok p')
    (hR : vars .observationCovariance = true → ∀ R, p'.R = .const R → R.PosDef) :
    p'.PD os.length := by
  obtain ⟨hne, c0, c1, heq⟩ := emStep_of_kfEm h
  have hlen : os.length - 1 + 1 = os.length :=
    Nat.sub_add_cancel (List.length_pos_iff.mpr hne)
  have hP := hp.fn c0
  rw [← hlen] at hP
  refine Params.PD.of_fn ?_
  rw [← hlen]
  refine PFun.PD.step heq hP fun hv => ?_
  have e := heq.R
  rw [if_pos hv] at e
  rw [e]
  exact hR hv _ e

/-- **C05, for parameters that are constant in time where `em` computes them.**  For every data
set, mask pattern, selection and number `k` of iterations done so far: if the covariances before the
iteration are positive definite, and the new observation covariance is (if `em` computes one; the
other new covariances always are), then `loglikelihood` does not decrease from the parameters after
`k` iterations to those after `k + 1`.  What is missing from the full claim: an observation
covariance given per time step (`loglikelihood` raises, C49), a selected parameter given per time
step, and a transition covariance given per time step while the transition matrices or offsets are
selected (`C05_fails`). -/
theorem C05_em_monotone_partial {p q q' : Params n m} {os : List (Obs m)} {vars : EmVar → Bool}
    (k : ℕ) (hinv : p.EmInvariant vars) (hR : p.R.IsConst) (h : kfEm p os k vars = .ok q)
    (h' : kfEm p os (k + 1) vars = .ok q') (hq : q.PD os.length)
    (hq' : vars .observationCovariance = true → ∀ R, q'.R = .const R → R.PosDef) :
    ∃ l l', kfLoglik q os = .ok l ∧ kfLoglik q' os = .ok l' ∧ l ≤ l' := by
  rw [C23_em_add p os vars k 1, h] at h'
  have hq' := C24_em_covariances_posDef hq h' hq'
  obtain ⟨hne, c0, c1, heq⟩ := emStep_of_kfEm h'
  have hRq := isConst_R_of_kfEm h hR
  refine ⟨_, _, kfLoglik_predLL hne c0 hq hRq, kfLoglik_predLL hne c1 hq'
    (isConst_R_of_kfEm h' hRq), ?_⟩
  have hlen : os.length - 1 + 1 = os.length :=
    Nat.sub_add_cancel (List.length_pos_iff.mpr hne)
  have hP := hq.fn c0
  have hP' := hq'.fn c1
  rw [← hlen] at hP hP' c0
  obtain ⟨Ω, i1, ν, i2, X, hX⟩ := exists_statsMoments c0 hP.psd (obsFn os)
  have h1 := predLL_ge hX hP hP'
  have h2 := em_ascent heq (stats_pairPSD hP.psd _) (fun t ht => hP.psd.smooth ht _)
    (emInvariant_of_kfEm h hinv) hP hP'
  linarith

/-- The observation covariance stays positive definite when it is not selected, or when the
observation matrix is kept and has full row rank at an unmasked row. -/
structure KeepsObsCov (p : Params n m) (os : List (Obs m)) : Prop where
  keeps : ∃ (t : ℕ) (h : t < os.length), (∀ j, os[t].mask j = false) ∧
    ∀ C, lastDims p.C t = .ok C → ∀ y : Vec m, Cᵀ *ᵥ y = 0 → y = 0

/-- Positive definite covariances stay so through all iterations. -/
theorem kfEm_posDef_all {p : Params n m} {os : List (Obs m)} {vars : EmVar → Bool} (hne : os ≠ [])
    (hdef : p.DefinedFor os.length) (hp : p.PD os.length)
    (hrank : vars .observationCovariance = true →
      vars .observationMatrices = false ∧ KeepsObsCov p os) :
    ∀ k, ∃ q, kfEm p os k vars = .ok q ∧ q.PD os.length := by
  intro k
  induction k with
  | zero => exact ⟨p, rfl, hp⟩
  | succ k ih =>
    obtain ⟨q, h1, h2⟩ := ih
    obtain ⟨q', h3, -⟩ := C23_em_succeeds hne hdef (k + 1) vars
    refine ⟨q', h3, ?_⟩
    rw [C23_em_add p os vars k 1, h1] at h3
    refine C24_em_covariances_posDef h2 h3 fun hv R eR => ?_
    obtain ⟨hC, ⟨t, ht, hmask, hfull⟩⟩ := hrank hv
    obtain ⟨-, c0, c1, heq⟩ := emStep_of_kfEm h3
    have hlen : os.length - 1 + 1 = os.length :=
      Nat.sub_add_cancel (List.length_pos_iff.mpr hne)
    have hP := h2.fn c0
    rw [← hlen] at hP
    have e := heq.R
    rw [if_pos hv, eR] at e
    cases e
    have eC : q'.C = q.C := by simpa [hC] using heq.C
    have eC0 : q.C = p.C := (C23_em_only_selected h1).C hC
    refine hP.newR _ _ _ (t := t) (by omega) ?_ ?_
    · rw [obsFn_eq ht]
      rintro ⟨j, hj⟩
      rw [hmask j] at hj
      cases hj
    · rw [eC, eC0]
      exact hfull _ (lastDims_eq_ok
        ((definedFor_iff_covers.mp hdef).C.mono (show t + 1 ≤ _ by omega)))

/-- **C05, all iterations from a given start.**  Nothing is assumed of the computed parameters:
starting from positive definite covariances, and with the observation covariance not selected, or
selected with an observation matrix that is kept and has full row rank at an unmasked row (the
default selection keeps the observation matrix), `em` succeeds and the values of `loglikelihood`
after 0, 1, 2, … iterations form a non-decreasing sequence. -/
theorem C05_em_monotone_sequence_partial {p : Params n m} {os : List (Obs m)}
    {vars : EmVar → Bool} (hne : os ≠ []) (hdef : p.DefinedFor os.length)
    (hinv : p.EmInvariant vars) (hR : p.R.IsConst) (hp : p.PD os.length)
    (hrank : vars .observationCovariance = true →
      vars .observationMatrices = false ∧ KeepsObsCov p os) :
    ∃ l : ℕ → ℝ, Monotone l ∧
      ∀ k, ∃ q, kfEm p os k vars = .ok q ∧ q.PD os.length ∧ kfLoglik q os = .ok (l k) := by
  have hall := kfEm_posDef_all hne hdef hp hrank
  choose q hq1 hq2 using hall
  have hl : ∀ k, ∃ l, kfLoglik (q k) os = .ok l := by
    intro k
    have hd := C23_em_succeeds hne hdef k vars
    obtain ⟨q', e1, e2⟩ := hd
    rw [hq1 k] at e1
    cases e1
    exact ⟨_, kfLoglik_predLL hne (definedFor_iff_covers.mp e2) (hq2 k)
      (isConst_R_of_kfEm (hq1 k) hR)⟩
  choose l hl using hl
  refine ⟨l, monotone_nat_of_le_succ fun k => ?_, fun k => ⟨q k, hq1 k, hq2 k, hl k⟩⟩
  obtain ⟨l1, l2, e1, e2, hle⟩ := C05_em_monotone_partial k hinv hR (hq1 k) (hq1 (k + 1)) (hq2 k)
    (fun _ R eR => (hq2 (k + 1)).R 0 (List.length_pos_iff.mpr hne) R (by rw [eR]; rfl))
  rw [hl k] at e1
  rw [hl (k + 1)] at e2
  cases e1
  cases e2
  exact hle

/-! ### Without constancy the claim fails -/

theorem one_scalar : (!![1] : Mat 1 1) = 1 := by
  ext i j; fin_cases i; fin_cases j; rfl

theorem gain_scalar {a r : ℝ} (h : 0 < a + r) : gain !![a] !![r] !![1] = !![a / (a + r)] := by
  have hS : (!![a] + !![r] : Mat 1 1) * !![(a + r)⁻¹] = 1 := by
    ext i j
    fin_cases i; fin_cases j
    simp [Matrix.mul_apply, h.ne']
  rw [one_scalar, gain, transpose_one, Matrix.mul_one, Matrix.one_mul, Matrix.mul_one,
    pinv_eq_of_mul_eq_one hS]
  ext i j
  fin_cases i; fin_cases j
  simp [Matrix.mul_apply, div_eq_mul_inv]

/-- A random walk with drift `β`, quiet between the first two observations and restless
afterwards. -/
noncomputable def exDrift (β : ℝ) : Params 1 1 where
  A := .const !![1]
  b := .const ![β]
  Q := .seq [!![1 / 2], !![29 / 2]]
  C := .const !![1]
  d := .const ![0]
  R := .const !![1]
  mu0 := ![0]
  S0 := !![1]

/-- Three observations: 0, 0, 128. -/
def exJump : List (Obs 1) := [⟨![0], ![false]⟩, ⟨![0], ![false]⟩, ⟨![128], ![false]⟩]

theorem posDef_scalar {a : ℝ} (h : 0 < a) : (!![a] : Mat 1 1).PosDef := by
  have e : (!![a] : Mat 1 1) = diagonal ![a] := by
    ext i j; fin_cases i; fin_cases j; rfl
  rw [e]
  exact PosDef.diagonal (by intro i; fin_cases i; exact h)

theorem exDrift_covers (β : ℝ) : (exDrift β).Covers exJump.length :=
  ⟨trivial, trivial, le_refl 2, trivial, trivial, trivial⟩

theorem exDrift_pd (β : ℝ) : (exDrift β).PD exJump.length := by
  refine ⟨fun t ht Q hQ => ?_, fun t ht R hR => ?_, posDef_scalar one_pos⟩
  · have : t = 0 ∨ t = 1 := by simp only [exJump, List.length_cons, List.length_nil] at ht; omega
    rcases this with rfl | rfl <;> cases hQ <;> exact posDef_scalar (by norm_num)
  · cases hR; exact posDef_scalar one_pos

theorem kf_scalar {P : PFun 1 1} {z : ℕ → Obs 1} {t : ℕ} {μ π r y : ℝ}
    (h1 : (P.kf z t).predMean = ![μ]) (h2 : (P.kf z t).predCov = !![π]) (hC : P.C t = !![1])
    (hd : P.d t = ![0]) (hR : P.R t = !![r]) (hz : z t = ⟨![y], ![false]⟩) (hp : 0 < π + r) :
    (P.kf z t).filtMean = ![μ + π / (π + r) * (y - μ)] ∧
      (P.kf z t).filtCov = !![π - π / (π + r) * π] := by
  have ho : ¬ (z t).missing := by rw [hz]; simp [Obs.missing]
  obtain ⟨-, e1, e2⟩ := P.kf_observed z ho
  rw [e1, e2, h1, h2, hC, hd, hR, hz, gain_scalar hp, one_scalar, one_mulVec, Matrix.mul_one]
  constructor
  · ext i; fin_cases i; simp [Matrix.mulVec, dotProduct, mul_comm]
  · ext i j; fin_cases i; fin_cases j; simp [Matrix.mul_apply]

theorem kf_scalar_pred {P : PFun 1 1} {z : ℕ → Obs 1} {t : ℕ} {μ π q β : ℝ}
    (h1 : (P.kf z t).filtMean = ![μ]) (h2 : (P.kf z t).filtCov = !![π]) (hA : P.A t = !![1])
    (hb : P.b t = ![β]) (hQ : P.Q t = !![q]) :
    (P.kf z (t + 1)).predMean = ![μ + β] ∧ (P.kf z (t + 1)).predCov = !![π + q] := by
  obtain ⟨e1, e2⟩ := P.kf_pred_succ z t
  rw [e1, e2, h1, h2, hA, hb, hQ, one_scalar, one_mulVec, transpose_one, Matrix.one_mul, Matrix.mul_one]
  constructor
  · ext i; fin_cases i; simp [Matrix.mulVec, dotProduct]
  · ext i j; fin_cases i; fin_cases j; simp [Matrix.mul_apply]

theorem exDrift_run (β : ℝ) :
    let k := (exDrift β).fn.kf (obsFn exJump)
    ((k 0).predMean = ![0] ∧ (k 0).predCov = !![1]) ∧
    ((k 0).filtMean = ![0] ∧ (k 0).filtCov = !![1 / 2]) ∧
    ((k 1).predMean = ![β] ∧ (k 1).predCov = !![1]) ∧
    ((k 1).filtMean = ![β / 2] ∧ (k 1).filtCov = !![1 / 2]) ∧
    ((k 2).predMean = ![3 / 2 * β] ∧ (k 2).predCov = !![15]) ∧
    (k 2).filtMean = ![120 + 3 / 32 * β] := by
  intro k
  have h0 : (k 0).predMean = ![0] ∧ (k 0).predCov = !![1] := ⟨rfl, rfl⟩
  have f0 := kf_scalar (y := 0) h0.1 h0.2 rfl rfl (r := 1) rfl rfl (by norm_num)
  norm_num at f0
  have h1 := kf_scalar_pred f0.1 f0.2 rfl (β := β) rfl (q := 1 / 2) rfl
  norm_num at h1
  have f1 := kf_scalar (y := 0) h1.1 h1.2 rfl rfl (r := 1) rfl rfl (by norm_num)
  norm_num at f1
  have h2 := kf_scalar_pred f1.1 f1.2 rfl (β := β) rfl (q := 29 / 2) rfl
  norm_num at h2
  have f2 := kf_scalar (y := 128) h2.1 h2.2 rfl rfl (r := 1) rfl rfl (by norm_num)
  refine ⟨h0, ⟨f0.1, f0.2.trans (by norm_num)⟩, h1, ⟨f1.1.trans ?_, f1.2.trans (by norm_num)⟩,
    ⟨h2.1.trans ?_, h2.2⟩, f2.1.trans ?_⟩
  · congr 1; ring
  · congr 1; ring
  · congr 1; ring

/-- Only the transition offset is selected. -/
def onlyOffset : EmVar → Bool
  | .transitionOffsets => true
  | _ => false

theorem exDrift_offset : newb ((exDrift 0).fn.stats (obsFn exJump) 2) (exDrift 0).A.get 2
    = ![59] := by
  obtain ⟨-, ⟨m0, c0⟩, -, ⟨m1, c1⟩, -, m2⟩ := exDrift_run 0
  set P := (exDrift 0).fn with hP
  have e2 : (P.ks (obsFn exJump) 2 2).mean = ![120] := by
    rw [P.ks_last]; simpa using m2
  have g1 : gain (P.kf (obsFn exJump) 1).filtCov (P.Q 1) (P.A 1) = !![1 / 30] := by
    rw [c1]
    refine (gain_scalar (a := 1 / 2) (r := 29 / 2) (by norm_num)).trans (by norm_num)
  have g0 : gain (P.kf (obsFn exJump) 0).filtCov (P.Q 0) (P.A 0) = !![1 / 2] := by
    rw [c0]
    refine (gain_scalar (a := 1 / 2) (r := 1 / 2) (by norm_num)).trans (by norm_num)
  have e1 : (P.ks (obsFn exJump) 2 1).mean = ![4] := by
    rw [P.ks_lt' _ (by norm_num), g1, e2, m1]
    ext i; fin_cases i
    simp [P, Params.fn, exDrift, TV.get, one_scalar, Matrix.mulVec, dotProduct]
    norm_num
  have e0 : (P.ks (obsFn exJump) 2 0).mean = ![2] := by
    rw [P.ks_lt' _ (by norm_num), g0, e1, m0]
    ext i; fin_cases i
    simp [P, Params.fn, exDrift, TV.get, one_scalar, Matrix.mulVec, dotProduct]
    norm_num
  rw [newb, if_pos (by norm_num), Finset.sum_range_succ, Finset.sum_range_one]
  simp only [PFun.stats, e0, e1, e2, zero_add, one_add_one_eq_two]
  ext i; fin_cases i
  simp [exDrift, TV.get, one_scalar]
  norm_num

theorem exDrift_em : kfEm (exDrift 0) exJump 1 onlyOffset = .ok (exDrift 59) := by
  obtain ⟨p', h, -⟩ := C23_em_succeeds (p := exDrift 0) (os := exJump) (by simp [exJump])
    (definedFor_iff_covers.mpr (exDrift_covers 0)) 1 onlyOffset
  obtain ⟨-, -, -, e⟩ := emStep_of_kfEm h
  obtain ⟨eC, eR, eA, eQ, em, eS, eb, ed⟩ := e
  rw [h]
  congr 1
  have eA' : p'.A = (exDrift 0).A := by simpa [onlyOffset] using eA
  have hb : p'.b = .const ![59] := by
    rw [eb, eA', if_pos (by rfl)]
    exact congrArg _ exDrift_offset
  have eC' : p'.C = (exDrift 0).C := by simpa [onlyOffset] using eC
  have eR' : p'.R = (exDrift 0).R := by simpa [onlyOffset] using eR
  have eQ' : p'.Q = (exDrift 0).Q := by simpa [onlyOffset] using eQ
  have em' : p'.mu0 = (exDrift 0).mu0 := by simpa [onlyOffset] using em
  have eS' : p'.S0 = (exDrift 0).S0 := by simpa [onlyOffset] using eS
  have ed' : p'.d = (exDrift 0).d := by simpa [onlyOffset] using ed
  cases p'
  simp only at eA' eC' eR' eQ' em' eS' ed' hb
  subst eA' eC' eR' eQ' em' eS' ed' hb
  rfl

theorem logN_scalar (x c : ℝ) {s : ℝ} (hs : 0 < s) :
    logN (![x] : Vec 1) ![c] !![s]
      = -(1 / 2) * (Real.log (2 * Real.pi) + Real.log s + (x - c) ^ 2 / s) := by
  have hi : (!![s] : Mat 1 1)⁻¹ = !![s⁻¹] := by
    refine Matrix.inv_eq_left_inv ?_
    ext i j; fin_cases i; fin_cases j
    simp [Matrix.mul_apply, hs.ne']
  rw [logN, hi]
  simp [Matrix.mulVec, dotProduct, Matrix.det_unique]
  field_simp

theorem exDrift_loglik (β : ℝ) : kfLoglik (exDrift β) exJump
    = .ok (-(1 / 2) * (3 * Real.log (2 * Real.pi) + 2 * Real.log 2 + Real.log 16
      + β ^ 2 / 2 + (128 - 3 / 2 * β) ^ 2 / 16)) := by
  rw [kfLoglik_predLL (by simp [exJump]) (exDrift_covers β) (exDrift_pd β) ⟨_, rfl⟩]
  congr 1
  obtain ⟨⟨m0, c0⟩, -, ⟨m1, c1⟩, -, ⟨m2, c2⟩, -⟩ := exDrift_run β
  have term : ∀ (t : ℕ) (y μ π : ℝ), obsFn exJump t = ⟨![y], ![false]⟩ →
      ((exDrift β).fn.kf (obsFn exJump) t).predMean = ![μ] →
      ((exDrift β).fn.kf (obsFn exJump) t).predCov = !![π] → 0 < π + 1 →
      (obsFn exJump t).w * logN (obsFn exJump t).val
        ((exDrift β).fn.C t *ᵥ ((exDrift β).fn.kf (obsFn exJump) t).predMean + (exDrift β).fn.d t)
        ((exDrift β).fn.C t * ((exDrift β).fn.kf (obsFn exJump) t).predCov * ((exDrift β).fn.C t)ᵀ
          + (exDrift β).fn.R t)
      = -(1 / 2) * (Real.log (2 * Real.pi) + Real.log (π + 1) + (y - μ) ^ 2 / (π + 1)) := by
    intro t y μ π hz hm hc hp
    have hw : (obsFn exJump t).w = 1 := Obs.w_observed (by rw [hz]; simp [Obs.missing])
    rw [hw, hm, hc, hz, one_mul, ← logN_scalar y μ hp]
    congr 1
    · simp only [exDrift, Params.fn, TV.get, one_scalar, one_mulVec]
      ext i; fin_cases i; simp
    · simp only [exDrift, Params.fn, TV.get, one_scalar, Matrix.one_mul, transpose_one,
        Matrix.mul_one]
      ext i j; fin_cases i; fin_cases j; simp
  rw [show exJump.length - 1 = 2 from rfl, PFun.predLL, Finset.sum_range_succ,
    Finset.sum_range_succ, Finset.sum_range_one, term 0 0 0 1 rfl m0 c0 (by norm_num),
    term 1 0 β 1 rfl m1 c1 (by norm_num), term 2 128 _ 15 rfl m2 c2 (by norm_num)]
  norm_num
  ring

/-- **C05 fails** when the transition covariance is given per time step: every covariance involved
is positive definite, only the transition offset is selected, and one iteration of `em` decreases
`loglikelihood`. -/
theorem C05_fails : ∃ (p p' : Params 1 1) (os : List (Obs 1)) (l l' : ℝ),
    p.PD os.length ∧ p'.PD os.length ∧ p.DefinedFor os.length ∧
    kfEm p os 1 onlyOffset = .ok p' ∧ kfLoglik p os = .ok l ∧ kfLoglik p' os = .ok l' ∧ l' < l :=
  ⟨exDrift 0, exDrift 59, exJump, _, _, exDrift_pd 0, exDrift_pd 59,
    definedFor_iff_covers.mpr (exDrift_covers 0), exDrift_em, exDrift_loglik 0, exDrift_loglik 59, by
      norm_num
      linarith⟩

/-- **C06 fails** in the same situation: whatever random states with the smoothed moments the
expectation is taken over, the new transition offset is not a maximiser (the old offset is
better). -/
theorem C06_fails {Ω : Type*} [MeasurableSpace Ω] {ν : Measure Ω} [IsProbabilityMeasure ν]
    {X : ℕ → Ω → Vec 1} {ss : List (EmStats 1)} (hss : emStats (exDrift 0) exJump = .ok ss)
    (hX : SmoothedMoments ν X ss) :
    kfEm (exDrift 0) exJump 1 onlyOffset = .ok (exDrift 59) ∧
    ¬ MStepMax (fun q => ∫ ω, logJoint q exJump (fun t => X t ω) ∂ν)
      (fun v => onlyOffset v = true) (exDrift 0) (exDrift 59) := by
  refine ⟨exDrift_em, fun h => ?_⟩
  rw [emStats_eq (by simp [exJump]) (exDrift_covers 0)] at hss
  cases hss
  have hX' : StatsMoments ν X ((exDrift 0).fn.stats (obsFn exJump) 2) 2 := hX.stats
  have h1 := predLL_ge hX' ((exDrift_pd 0).fn (exDrift_covers 0))
    ((exDrift_pd 59).fn (exDrift_covers 59))
  have l0 := kfLoglik_predLL (by simp [exJump]) (exDrift_covers 0) (exDrift_pd 0) ⟨_, rfl⟩
  have l1 := kfLoglik_predLL (by simp [exJump]) (exDrift_covers 59) (exDrift_pd 59) ⟨_, rfl⟩
  rw [exDrift_loglik] at l0 l1
  rw [← (hX'.joint (q := exDrift 59) (os := exJump) rfl (exDrift_covers 59)).2,
    ← (hX'.joint (q := exDrift 0) (os := exJump) rfl (exDrift_covers 0)).2] at h1
  have h2 : ∫ ω, logJoint (exDrift 0) exJump (fun t => X t ω) ∂ν
      ≤ ∫ ω, logJoint (exDrift 59) exJump (fun t => X t ω) ∂ν :=
    h.b rfl (posDef_scalar (a := 1 / 2) (by norm_num)) ![0]
  simp only [Except.ok.injEq] at l0 l1
  rw [show exJump.length - 1 = 2 from rfl] at l0 l1
  rw [← l0, ← l1] at h1
  norm_num at h1
  linarith

/-- Such random states exist, so `C06_fails` is a counterexample. -/
example : ∃ ss, emStats (exDrift 0) exJump = .ok ss ∧
    ∃ (Ω : Type) (_ : MeasurableSpace Ω) (ν : Measure Ω) (_ : IsProbabilityMeasure ν)
      (X : ℕ → Ω → Vec 1), SmoothedMoments ν X ss :=
  ⟨_, emStats_eq (by simp [exJump]) (exDrift_covers 0),
    C06_states_exist (exDrift_pd 0).psd (emStats_eq (by simp [exJump]) (exDrift_covers 0))⟩

/-! ### A case that meets the hypotheses -/

/-- Two-dimensional states, the sum of the components observed, all parameters constant. -/
noncomputable def exPlane : Params 2 1 where
  A := .const !![1, 1; 0, 1]
  b := .const ![0, 1]
  Q := .const 1
  C := .const !![1, 1]
  d := .const ![3]
  R := .const 1
  mu0 := ![0, 0]
  S0 := 1

/-- The default selection: the covariances and the initial mean. -/
def defaultVars : EmVar → Bool
  | .transitionCovariance | .observationCovariance | .initialStateMean
  | .initialStateCovariance => true
  | _ => false

/-- The hypotheses of `C05_em_monotone_sequence_partial` hold for `exPlane` with the default
selection and for a data set with a masked row. -/
example : ∃ os : List (Obs 1), os ≠ [] ∧ (∃ o ∈ os, o.missing) ∧ exPlane.DefinedFor os.length ∧
    exPlane.EmInvariant defaultVars ∧ exPlane.R.IsConst ∧ exPlane.PD os.length ∧
    (defaultVars .observationCovariance = true →
      defaultVars .observationMatrices = false ∧ KeepsObsCov exPlane os) := by
  refine ⟨[⟨![2], ![false]⟩, ⟨![0], ![true]⟩, ⟨![5], ![false]⟩], by simp,
    ⟨⟨![0], ![true]⟩, by simp, 0, rfl⟩,
    definedFor_iff_covers.mpr ⟨trivial, trivial, trivial, trivial, trivial, trivial⟩, ?_, ⟨1, rfl⟩,
    ?_, fun _ => ⟨rfl, ⟨0, by simp, fun j => ?_, fun C hC y hy => ?_⟩⟩⟩
  · exact ⟨fun _ => ⟨_, rfl⟩, fun _ => ⟨_, rfl⟩, fun _ => ⟨_, rfl⟩, fun _ => ⟨_, rfl⟩,
      fun _ => ⟨_, rfl⟩, fun _ => ⟨_, rfl⟩⟩
  · refine ⟨fun t _ Q hQ => ?_, fun t _ R hR => ?_, PosDef.one⟩
    · cases hQ; exact PosDef.one
    · cases hR; exact PosDef.one
  · fin_cases j; rfl
  · cases hC
    have := congrFun hy 0
    ext i
    fin_cases i
    simpa [Matrix.mulVec, dotProduct] using this

/-- `exPlane` with everything selected meets the hypotheses of `C06_maximiser_partial`, with
`Weighed` for every parameter. -/
example (os : List (Obs 1)) (hos : os ≠ []) : ∃ p' ss, kfEm exPlane os 1 (fun _ => true) = .ok p' ∧
    emStats exPlane os = .ok ss ∧ exPlane.PD os.length ∧ ∀ v, Weighed exPlane p' v := by
  have hc : exPlane.Covers os.length := ⟨trivial, trivial, trivial, trivial, trivial, trivial⟩
  obtain ⟨p', h, -⟩ := C23_em_succeeds hos (definedFor_iff_covers.mpr hc) 1 (fun _ => true)
  refine ⟨p', _, h, emStats_eq hos hc, ?_, fun v => ?_⟩
  · refine ⟨fun t _ Q hQ => ?_, fun t _ R hR => ?_, PosDef.one⟩
    · cases hQ; exact PosDef.one
    · cases hR; exact PosDef.one
  · obtain ⟨-, -, -, e⟩ := emStep_of_kfEm h
    cases v <;> first | trivial | exact ⟨_, rfl⟩ | exact ⟨_, e.R⟩ | exact ⟨_, e.Q⟩

end Verif
