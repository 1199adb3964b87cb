import Verif.Props.RoundedCholesky
import Verif.Props.RoundedEm
import Verif.Props.Bierman
import Verif.Proofs.RoundedBierman
import Verif.Proofs.UnscentedTransform

/-!
# C94: rounding errors in `BiermanKalmanFilter`

The results of `BiermanKalmanFilter` differ from the exact ones by at most a constant times the size
`u` of the errors.  Moreover, however large the errors, an observation never makes a variance
negative.  For `KalmanFilter` this is false.
-/

open Matrix Topology

namespace Verif

variable {n m : ℕ} {c : ℕ → ℝ} {u : ℝ}

theorem Params.PosDef.pdAt {p : Params n m} (h : p.PosDef) (T : ℕ) : p.PD T := by
  obtain ⟨⟨Q, hQ, hQp⟩, ⟨R, hR, hRp⟩, hS⟩ := h
  exact ⟨fun t _ Q' h' => by rw [hQ] at h'; cases h'; exact hQp,
    fun t _ R' h' => by rw [hR] at h'; cases h'; exact hRp, hS⟩

theorem Params.PD.posDef {p : Params n m} {T : ℕ} (h : p.PD (T + 1)) (h1 : 1 ≤ T)
    (hQ : p.Q.IsConst) (hR : p.R.IsConst) : p.PosDef := by
  obtain ⟨Q, hQ⟩ := hQ
  obtain ⟨R, hR⟩ := hR
  exact ⟨⟨Q, hQ, h.Q 0 (by omega) Q (by rw [hQ]; rfl)⟩,
    ⟨R, hR, h.R 0 (by omega) R (by rw [hR]; rfl)⟩, h.S0⟩

/-! ### The results -/

/-- **C94.** `filter`, if all three covariances are positive definite: for errors up to some `u₀` the
call raises no exception, and the computed means and covariances differ from the exact posterior
moments by at most `K u`, where `K` and `u₀` depend on the model and the data only. -/
theorem C94_filter (c : ℕ → ℝ) (hn : 0 < n) {p : Params n m} {os : List (Obs m)} (hne : os ≠ [])
    (hdef : p.DefinedFor os.length) (hp : p.PosDef) :
    ∃ K u₀ : ℝ, 0 < u₀ ∧ ∀ u, 0 ≤ u → u ≤ u₀ → ∀ ar : ArithEL c u,
      ∃ l l', flBierFilter ar p os = .ok l ∧ kfFilter p os = .ok l' ∧ WithinErr (K * u) l l' := by
  have hc := definedFor_iff_covers.mp hdef
  obtain ⟨g, st, hok, hst, hk⟩ := near_flBierRows (F := smallErr (ArithEL c))
    (ar := fun x : (u : ℝ) × ArithEL c u => x.2) smallErr_tendsto hn (PNear.refl p) hp hc
  obtain ⟨K, u₀, hu₀, h⟩ := exists_const_rows (X := ArithEL c) os.length
    (f := fun t x => ((st x t).filtMean, (st x t).filtCov))
    (a := fun t => ((p.fn.kf (obsFn os) t).filtMean, (p.fn.kf (obsFn os) t).filtCov))
    (fun t ht => (hk t ht).filtMean) (fun t ht => (hk t ht).filtCov)
  obtain ⟨u₁, hu₁, hok⟩ := smallErr_eventually hok
  refine ⟨K, min u₀ u₁, lt_min hu₀ hu₁, fun u h0 hu ar => ⟨_, _, ?_, kfFilter_eq hc,
    h u h0 (hu.trans (min_le_left _ _)) ar⟩⟩
  simp only [flBierFilter, hok u h0 (hu.trans (min_le_right _ _)) ar, bind, Except.bind, pure,
    Except.pure, flBierRows_of (List.length_pos_iff.mpr hne) (hst ⟨u, ar⟩), List.map_map]
  rfl

/-- **C94.** Likewise for `smooth`. -/
theorem C94_smooth (c : ℕ → ℝ) (hn : 0 < n) {p : Params n m} {os : List (Obs m)} (hne : os ≠ [])
    (hdef : p.DefinedFor os.length) (hp : p.PosDef) :
    ∃ K u₀ : ℝ, 0 < u₀ ∧ ∀ u, 0 ≤ u → u ≤ u₀ → ∀ ar : ArithEL c u,
      ∃ l l', flBierSmooth ar p os = .ok l ∧ kfSmooth p os = .ok l' ∧ WithinErr (K * u) l l' := by
  have hc := definedFor_iff_covers.mp hdef
  have hP := (hp.pdAt os.length).fn hc
  obtain ⟨T, hT⟩ : ∃ T, os.length = T + 1 :=
    ⟨os.length - 1, by have := List.length_pos_iff.mpr hne; omega⟩
  obtain ⟨g, st, hok, hst, hk⟩ := near_flBierRows (F := smallErr (ArithEL c))
    (ar := fun x : (u : ℝ) × ArithEL c u => x.2) smallErr_tendsto hn (PNear.refl p) hp hc
  have hsm := fun t (ht : t < os.length) => near_stSmoothFl (F := smallErr (ArithEL c))
    (br := fun x => x.2.toArith) (st := st)
    smallErr_tendsto p.fn (obsFn os) (os.length - 1) (os.length - 1 - t)
    (fun t ht => hk t (by omega))
    (fun t ht _ => (hP.filt (obsFn os) (show t + 1 < os.length by omega)).1.det_pos.ne'.isUnit)
    (by omega)
  obtain ⟨K, u₀, hu₀, h⟩ := exists_const_rows (X := ArithEL c) os.length
    (f := fun t x =>
      ((stSmoothFl x.2.toArith p.fn.A (st x) (os.length - 1) t).mean,
       (stSmoothFl x.2.toArith p.fn.A (st x) (os.length - 1) t).cov))
    (a := fun t => ((p.fn.ks (obsFn os) (os.length - 1) t).mean,
      (p.fn.ks (obsFn os) (os.length - 1) t).cov))
    (fun t ht => (hsm t ht).1) (fun t ht => (hsm t ht).2)
  obtain ⟨u₁, hu₁, hok⟩ := smallErr_eventually hok
  refine ⟨K, min u₀ u₁, lt_min hu₀ hu₁, fun u h0 hu ar => ⟨_, _, ?_, kfSmooth_eq hne hc,
    h u h0 (hu.trans (min_le_left _ _)) ar⟩⟩
  have hA : p.A.Covers T := by have := hc.A; rwa [hT] at this
  have hs := flSmoothFull_eq (ar := ar.toArith) (p := p) (st ⟨u, ar⟩) T hA
  have e := hst ⟨u, ar⟩
  simp only [hT] at e
  simp only [flBierSmooth, hok u h0 (hu.trans (min_le_right _ _)) ar, bind, Except.bind, pure,
    Except.pure, flBierRows_of (Nat.succ_pos T) e, hT, hs, List.map_map]
  rfl

theorem near_flBierLoglik {ι : Type} {F : Filter ι} {w : ι → ℝ} {ar : ∀ i, ArithEL c (w i)}
    (hw : Filter.Tendsto w F (𝓝 0)) (hn : 0 < n) {f : ι → Params n m} {p : Params n m}
    (hp : PNear F w f p) (hpd : p.PosDef) {os : List (Obs m)} (hne : os ≠ [])
    (hc : p.Covers os.length) :
    ∃ (v : ι → ℝ) (L : ℝ), kfLoglik p os = .ok L ∧
      (∀ᶠ i in F, flBierLoglik (ar i) (f i) os = .ok (v i)) ∧ Ow F w v L := by
  have hP := (hpd.pdAt os.length).fn hc
  obtain ⟨R, hR, -⟩ := hpd.R
  obtain ⟨g, st, hok, hst, hk⟩ := near_flBierRows (ar := ar) hw hn hp hpd hc
  obtain ⟨v, L, hL, h1, hv⟩ := nearP_loglikLoop (br := fun i => (ar i).toArithL) hw hp hc hR hk
    fun t ht _ => Matrix.PosDef.posSemidef_add (posSemidef_conj' (hP.filt _ ht).1.posSemidef _)
      (hP.R t ht)
  refine ⟨v, L, hL, (hok.and h1).mono fun i hi => ?_, hv⟩
  obtain ⟨h2, ls, h3, h4⟩ := hi
  simp only [flBierLoglik, h2, bind, Except.bind, pure, Except.pure,
    flBierRows_of (List.length_pos_iff.mpr hne) (hst i), h3]
  exact congrArg Except.ok h4

/-- **C94.** Likewise for `loglikelihood`. -/
theorem C94_loglik (c : ℕ → ℝ) (hn : 0 < n) {p : Params n m} {os : List (Obs m)} (hne : os ≠ [])
    (hdef : p.DefinedFor os.length) (hp : p.PosDef) :
    ∃ K u₀ : ℝ, 0 < u₀ ∧ ∀ u, 0 ≤ u → u ≤ u₀ → ∀ ar : ArithEL c u,
      ∃ x L, flBierLoglik ar p os = .ok x ∧ kfLoglik p os = .ok L ∧ |x - L| ≤ K * u := by
  have hc := definedFor_iff_covers.mp hdef
  obtain ⟨v, L, hL, hok, hv⟩ := near_flBierLoglik (F := smallErr (ArithEL c))
    (ar := fun x : (u : ℝ) × ArithEL c u => x.2) smallErr_tendsto hn (PNear.refl p) hp hne hc
  obtain ⟨K, hK⟩ := hv.bound
  obtain ⟨u₀, hu₀, h⟩ := smallErr_eventually (hok.and hK)
  refine ⟨K, u₀, hu₀, fun u h0 hu ar => ?_⟩
  obtain ⟨h1, h4⟩ := h u h0 hu ar
  refine ⟨v ⟨u, ar⟩, L, h1, hL, ?_⟩
  rw [Real.norm_eq_abs, Real.norm_eq_abs, abs_of_nonneg h0] at h4
  exact h4

/-! ### `em` -/

theorem near_flBierEmLoop {ι : Type} {F : Filter ι} {w : ι → ℝ} {ar : ∀ i, ArithEL c (w i)}
    (hw : Filter.Tendsto w F (𝓝 0)) (hn : 0 < n) {given : Params n m} {vars : EmVar → Bool}
    {os : List (Obs m)} (hne : os ≠ []) (hg : given.Covers os.length)
    (hA : vars .transitionMatrices = true → 2 ≤ os.length)
    (hC : vars .observationMatrices = true → ∃ o ∈ os, ¬ o.missing) (k : ℕ)
    {f : ι → Params n m} {p : Params n m} (hp : PNear F w f p) (hc : p.Covers os.length)
    (hpd : ∀ j < k, ∀ q, emLoop given vars os j p = .ok q → q.PosDef) :
    EvNear F (PNear F w) (fun i => flBierEmLoop (ar i) given vars os k (f i))
      (emLoop given vars os k p) := by
  induction k generalizing f p with
  | zero => exact .pure hp
  | succ k ih =>
    have hp0 := hpd 0 (by omega) p rfl
    have hP := (hp0.pdAt os.length).fn hc
    obtain ⟨p', e1, c1, -⟩ := emIter_ok (vars := vars) hne hc hg
    refine (near_flBierStats hw hn hp hp0 hne hc hP).bind fun ss ss' hss hs => ?_
    obtain ⟨r1, r2⟩ := em_sums_regular hne hc hP hss
    have e2 : emStep given vars p ss' os = .ok p' := by
      rw [hss] at e1; exact e1
    refine ((near_flEmStep (er := fun i => (ar i).toArithE) hw given vars hp hs os
      (fun e => r1 (hC e)) (fun e => r2 (hA e))).ev e2).bind fun g q hq hgq => ?_
    obtain rfl : p' = q := by rw [e2] at hq; cases hq; rfl
    refine ih hgq c1 fun j hj q' hq' => hpd (j + 1) (by omega) q' ?_
    rw [emLoop_succ, e1]
    exact hq'

theorem isConst_Q_of_kfEm {p q : Params n m} {os : List (Obs m)} {k : ℕ} {vars : EmVar → Bool}
    (h : kfEm p os k vars = .ok q) (hp : p.Q.IsConst) : q.Q.IsConst := by
  induction k generalizing q with
  | zero => cases h; exact hp
  | succ k ih =>
    rw [C23_em_add p os vars k 1] at h
    cases h1 : kfEm p os k vars with
    | error e => rw [h1] at h; cases h
    | ok p1 =>
      rw [h1] at h
      obtain ⟨-, -, -, e⟩ := emStep_of_kfEm h
      have e := e.Q
      split at e
      · exact ⟨_, e⟩
      · rw [e]; exact ih h1

/-- The covariances of every iterate, if that of the observation noise is positive definite. -/
theorem kfEm_posDef_of_R {p : Params n m} {os : List (Obs m)} (hlen : 2 ≤ os.length)
    (hdef : p.DefinedFor os.length) (hp : p.PosDef) (vars : EmVar → Bool) (k : ℕ)
    (hR : vars .observationCovariance = true → ∀ j, 0 < j → j < k →
      ∀ q R, kfEm p os j vars = .ok q → q.R = .const R → R.PosDef) :
    ∀ j < k, ∀ q, kfEm p os j vars = .ok q → q.PosDef := by
  have hne : os ≠ [] := by rintro rfl; simp at hlen
  have hpd : ∀ j < k, ∀ q, kfEm p os j vars = .ok q → q.PD os.length := by
    intro j
    induction j with
    | zero => intro _ q hq; cases hq; exact hp.pdAt _
    | succ j ih =>
      intro hj q hq
      obtain ⟨q0, h0, -⟩ := C23_em_succeeds hne hdef j vars
      have h1 := hq
      rw [C23_em_add p os vars j 1, h0] at h1
      exact C24_em_covariances_posDef (ih (by omega) q0 h0) h1
        fun hv R eR => hR hv (j + 1) (by omega) hj q R hq eR
  obtain ⟨Q, hQ, -⟩ := hp.Q
  obtain ⟨R, hR', -⟩ := hp.R
  intro j hj q hq
  have h := hpd j hj q hq
  obtain ⟨T, hT⟩ : ∃ T, os.length = T + 1 := ⟨os.length - 1, by omega⟩
  rw [hT] at h
  exact h.posDef (by omega) (isConst_Q_of_kfEm hq ⟨Q, hQ⟩) (isConst_R_of_kfEm hq ⟨R, hR'⟩)

/-- **C94.** `em` with any selection of parameters and any number of iterations, from constant
positive definite covariances and at least two rows: for errors up to some `u₀` it succeeds, and all
parameters differ from those of an exact `KalmanFilter.em` by at most `K u`, where `K` and `u₀`
depend on the model, the data and the number of iterations only.  Assumed: a row that is not masked
if the observation matrix is estimated; and that the estimates of the observation covariance from
which a further iteration starts are positive definite (the other covariances always are). -/
theorem C94_em (c : ℕ → ℝ) (hn : 0 < n) {p : Params n m} {os : List (Obs m)}
    (hlen : 2 ≤ os.length) (hdef : p.DefinedFor os.length) (hp : p.PosDef) (vars : EmVar → Bool)
    (k : ℕ) (hC : vars .observationMatrices = true → ∃ o ∈ os, ¬ o.missing)
    (hR : vars .observationCovariance = true → ∀ j, 0 < j → j < k →
      ∀ q R, kfEm p os j vars = .ok q → q.R = .const R → R.PosDef) :
    ∃ K u₀ : ℝ, 0 < u₀ ∧ ∀ u, 0 ≤ u → u ≤ u₀ → ∀ ar : ArithEL c u,
      ∃ q q', flBierEm ar p os k vars = .ok q ∧ kfEm p os k vars = .ok q' ∧
        q.WithinErr (K * u) q' := by
  have hc := definedFor_iff_covers.mp hdef
  have hne : os ≠ [] := by rintro rfl; simp at hlen
  obtain ⟨q', hq', -⟩ := C23_em_succeeds hne hdef k vars
  obtain ⟨v, g, hv, hg, hgq⟩ := near_flBierEmLoop
    (ar := fun x : (u : ℝ) × ArithEL c u => x.2) smallErr_tendsto hn hne hc
    (fun _ => hlen) hC k (PNear.refl p) hc (kfEm_posDef_of_R hlen hdef hp vars k hR)
  have e : emLoop p vars os k p = .ok q' := hq'
  rw [e] at hv
  cases hv
  obtain ⟨K, u₀, h0, h⟩ := small_of_pnear hgq
  obtain ⟨u₁, hu₁, hok⟩ := smallErr_eventually hg
  exact ⟨K, min u₀ u₁, lt_min h0 hu₁, fun u hu hu' ar => ⟨g ⟨u, ar⟩, q',
    hok u hu (hu'.trans (min_le_right _ _)) ar, hq', h u hu (hu'.trans (min_le_left _ _)) ar⟩⟩

/-- **C94, the likelihood does not get worse but for rounding.**  Where `loglikelihood` of the exact
iterates does not decrease (C05), the computed `loglikelihood` of the computed parameters after
`k + 1` iterations is at most `K u` below that of the computed parameters after `k`.  Nothing is
assumed of the computed parameters. -/
theorem C94_em_nearly_monotone (c : ℕ → ℝ) (hn : 0 < n) {p : Params n m} {os : List (Obs m)}
    (hlen : 2 ≤ os.length) (hdef : p.DefinedFor os.length) (hp : p.PosDef) (vars : EmVar → Bool)
    (k : ℕ) (hinv : p.EmInvariant vars)
    (hC : vars .observationMatrices = true → ∃ o ∈ os, ¬ o.missing)
    (hrank : vars .observationCovariance = true →
      vars .observationMatrices = false ∧ KeepsObsCov p os) :
    ∃ K u₀ : ℝ, 0 < u₀ ∧ ∀ u, 0 ≤ u → u ≤ u₀ → ∀ ar : ArithEL c u,
      ∃ q q' l l', flBierEm ar p os k vars = .ok q ∧
        flBierEm ar p os (k + 1) vars = .ok q' ∧ flBierLoglik ar q os = .ok l ∧
        flBierLoglik ar q' os = .ok l' ∧ l - K * u ≤ l' := by
  have hc := definedFor_iff_covers.mp hdef
  have hne : os ≠ [] := by rintro rfl; simp at hlen
  have hRc : p.R.IsConst := hp.R.imp fun _ h => h.1
  have hQc : p.Q.IsConst := hp.Q.imp fun _ h => h.1
  have hpd := kfEm_posDef_all hne hdef (hp.pdAt _) hrank
  have hall : ∀ j q, kfEm p os j vars = .ok q → q.PosDef := fun j q hq => by
    obtain ⟨q', h1, h2⟩ := hpd j
    rw [hq] at h1
    cases h1
    obtain ⟨T, hT⟩ : ∃ T, os.length = T + 1 := ⟨os.length - 1, by omega⟩
    rw [hT] at h2
    exact h2.posDef (by omega) (isConst_Q_of_kfEm hq hQc) (isConst_R_of_kfEm hq hRc)
  obtain ⟨L, hmono, hL⟩ := C05_em_monotone_sequence_partial hne hdef hinv hRc (hp.pdAt _) hrank
  have key : ∀ j, ∃ (g : (u : ℝ) × ArithEL c u → Params n m) (v : (u : ℝ) × ArithEL c u → ℝ),
      (∀ᶠ x in smallErr (ArithEL c), flBierEm x.2 p os j vars = .ok (g x)) ∧
      (∀ᶠ x in smallErr (ArithEL c), flBierLoglik x.2 (g x) os = .ok (v x)) ∧
      Ow (smallErr (ArithEL c)) (fun x => x.1) v (L j) := by
    intro j
    obtain ⟨q, h1, -, h3⟩ := hL j
    obtain ⟨q1, g, hq1, hg, hgq⟩ := near_flBierEmLoop
      (ar := fun x : (u : ℝ) × ArithEL c u => x.2) smallErr_tendsto hn hne hc
      (fun _ => hlen) hC j (PNear.refl p) hc fun i _ q hq => hall i q hq
    have e : emLoop p vars os j p = .ok q := h1
    rw [e] at hq1
    cases hq1
    obtain ⟨q0, e0, d0⟩ := C23_em_succeeds hne hdef j vars
    rw [h1] at e0
    cases e0
    have hcq := definedFor_iff_covers.mp d0
    obtain ⟨v, L', hL', hok, hv⟩ := near_flBierLoglik
      (ar := fun x : (u : ℝ) × ArithEL c u => x.2) smallErr_tendsto hn hgq (hall j q h1) hne hcq
    rw [h3] at hL'
    cases hL'
    exact ⟨g, v, hg, hok, hv⟩
  obtain ⟨g, v, hg, hok, hv⟩ := key k
  obtain ⟨g', v', hg', hok', hv'⟩ := key (k + 1)
  obtain ⟨K, hK⟩ := (hv.sub hv').bound
  obtain ⟨u₀, hu₀, h⟩ := smallErr_eventually (((hg.and hg').and (hok.and hok')).and hK)
  refine ⟨K, u₀, hu₀, fun u h0 hu ar => ?_⟩
  obtain ⟨⟨⟨h1, h2⟩, h3, h4⟩, h5⟩ := h u h0 hu ar
  refine ⟨_, _, _, _, h1, h2, h3, h4, ?_⟩
  rw [Real.norm_eq_abs, Real.norm_eq_abs, abs_of_nonneg h0] at h5
  have h6 := (abs_le.mp h5).2
  have h7 := hmono (Nat.le_succ k)
  simp only [Nat.succ_eq_add_one] at h7
  linarith

/-! ### However large the errors -/

/-- Arithmetic that never gets a sign wrong where no cancellation can happen, as floats: products and
quotients have the right sign or are zero, sums of positive numbers are positive, and sums of products
of which none is negative (none is positive) are not negative (not positive). -/
structure ArithEL.SignSafe (ar : ArithEL c u) : Prop where
  mulr_nonneg : ∀ x y, 0 ≤ x * y → 0 ≤ ar.mulr x y
  divr_nonneg : ∀ x y, 0 ≤ x → 0 < y → 0 ≤ ar.divr x y
  add_nonneg : ∀ x y, 0 ≤ x → 0 ≤ y → 0 ≤ ar.add x y
  add_pos : ∀ x y, 0 < x → 0 ≤ y → 0 < ar.add x y
  dot_nonneg : ∀ k x y, (∀ i, 0 ≤ x i * y i) → 0 ≤ ar.dot k x y
  dot_nonpos : ∀ k x y, (∀ i, x i * y i ≤ 0) → ar.dot k x y ≤ 0

namespace ArithEL.SignSafe

variable {ar : ArithEL c u}

/-- A number times the inner product of which only one term is not zero. -/
theorem one_term (h : ar.SignSafe) {k : ℕ} (x y : Vec k) (q : Fin k) {z : ℝ}
    (h0 : ∀ i, i ≠ q → x i * y i = 0) (hz : 0 ≤ x q * y q * z) : 0 ≤ ar.dot k x y * z := by
  have hsign : ∀ s : ℝ, (∀ i, 0 ≤ s * (x i * y i)) ∨ s * (x q * y q) < 0 := fun s => by
    by_cases hs : s * (x q * y q) < 0
    · exact .inr hs
    · refine .inl fun i => ?_
      by_cases hi : i = q
      · subst hi; linarith
      · rw [h0 i hi, mul_zero]
  rcases lt_trichotomy (x q * y q) 0 with hq | hq | hq
  · have hz' : z ≤ 0 := by
      by_contra hc
      exact absurd hz (not_le.mpr (mul_neg_of_neg_of_pos hq (not_le.mp hc)))
    have := h.dot_nonpos k x y fun i => by
      rcases hsign (-1) with h | h
      · have := h i; linarith
      · linarith
    exact mul_nonneg_of_nonpos_of_nonpos this hz'
  · have h1 : ∀ i, x i * y i = 0 := fun i => by
      by_cases hi : i = q
      · rw [hi, hq]
      · exact h0 i hi
    have h2 := h.dot_nonneg k x y fun i => (h1 i).ge
    have h3 := h.dot_nonpos k x y fun i => (h1 i).le
    rw [le_antisymm h3 h2, zero_mul]
  · have hz' : 0 ≤ z := by
      by_contra hc
      exact absurd hz (not_le.mpr (mul_neg_of_pos_of_neg hq (not_le.mp hc)))
    have := h.dot_nonneg k x y fun i => by
      rcases hsign 1 with h | h
      · have := h i; linarith
      · linarith
    exact mul_nonneg this hz'

theorem reconstruct_nonneg (h : ar.SignSafe) {a : UDU n} (hD : ∀ i, 0 ≤ a.D i) (i : Fin n) :
    0 ≤ a.flReconstruct ar i i := by
  refine h.dot_nonneg _ _ _ fun q => h.one_term _ _ q (fun r hr => ?_) ?_
  · rw [diagonal_apply_ne _ hr, mul_zero]
  · rw [diagonal_apply_eq, transpose_apply]
    nlinarith [mul_nonneg (mul_self_nonneg (a.U i q)) (hD q)]

theorem correctSingle_nonneg (h : ar.SignSafe) {a : UDU n} (hD : ∀ i, 0 ≤ a.D i) (x : Vec n)
    {R : ℝ} (hR : 0 < R) (i : Fin n) : 0 ≤ (flCorrectSingle ar a x R).1.D i := by
  let f : Vec n := fun j => ar.dot n x fun i => a.U i j
  let g := ar.mulV (diagonal a.D) f
  have hgf : ∀ j, 0 ≤ arr1 g j * arr1 f j := fun j => by
    by_cases hj : j < n
    · simp only [arr1, hj, dif_pos]
      refine h.one_term _ _ ⟨j, hj⟩ (fun r hr => ?_) ?_
      · rw [diagonal_apply_ne' _ hr, zero_mul]
      · rw [diagonal_apply_eq, mul_assoc]
        exact mul_nonneg (hD _) (mul_self_nonneg _)
    · simp [arr1, hj]
  have hDa : ∀ j, 0 ≤ arr1 a.D j := fun j => by
    by_cases hj : j < n
    · simp only [arr1, hj, dif_pos]; exact hD _
    · simp [arr1, hj]
  have hg0 : 0 < ar.add R (ar.mulr (arr1 g 0) (arr1 f 0)) :=
    h.add_pos _ _ hR (h.mulr_nonneg _ _ (hgf 0))
  have key : ∀ (k : ℕ) (s : SingleState), (∀ j ≤ 0, 0 < s.gamma j) → (∀ j, 0 ≤ s.D j) →
      (∀ j ≤ k, 0 < ((List.range k).foldl (flSingleBody ar (arr2 a.U) (arr1 a.D) (arr1 f)
        (arr1 g)) s).gamma j) ∧
      ∀ j, 0 ≤ ((List.range k).foldl (flSingleBody ar (arr2 a.U) (arr1 a.D) (arr1 f)
        (arr1 g)) s).D j := by
    intro k s h1 h2
    induction k with
    | zero => exact ⟨h1, h2⟩
    | succ k ih =>
      rw [List.range_succ, List.foldl_append]
      simp only [List.foldl_cons, List.foldl_nil]
      set s' := (List.range k).foldl (flSingleBody ar (arr2 a.U) (arr1 a.D) (arr1 f)
        (arr1 g)) s with hs'
      have hnew : 0 < ar.add (s'.gamma k) (ar.mulr (arr1 g (k + 1)) (arr1 f (k + 1))) :=
        h.add_pos _ _ (ih.1 k le_rfl) (h.mulr_nonneg _ _ (hgf _))
      refine ⟨fun j hj => ?_, fun j => ?_⟩
      · simp only [flSingleBody, Arr1.set, Nat.add_sub_cancel]
        split_ifs with e
        · exact hnew
        · exact ih.1 j (by omega)
      · simp only [flSingleBody, Arr1.set, Nat.add_sub_cancel]
        have hk : ¬ k = k + 1 := by omega
        rw [if_neg hk, if_pos trivial]
        by_cases e : j = k + 1
        · rw [if_pos e]
          exact h.divr_nonneg _ _ (h.mulr_nonneg _ _ (mul_nonneg (hDa _) (ih.1 k le_rfl).le)) hnew
        · rw [if_neg e]
          exact ih.2 j
  refine (key (n - 1) _ (fun j hj => ?_) fun j => ?_).2 i
  · obtain rfl : j = 0 := by omega
    simpa [Arr1.set] using hg0
  · simp only [Arr1.set]
    split_ifs with e
    · exact h.divr_nonneg _ _ (h.mulr_nonneg _ _ (mul_nonneg (hDa _) hR.le)) (by simpa using hg0)
    · exact le_rfl

theorem correct_nonneg (h : ar.SignSafe) (C : Mat m n) (d : Vec m) (mean : Vec n) {a : UDU n}
    (hD : ∀ i, 0 ≤ a.D i) (o : Obs m) : ∀ i, 0 ≤ (flBierCorrect ar C 1 d mean a o).2.D i := by
  have key : ∀ (ls : List (Fin m)) (s : Vec n × UDU n), (∀ i, 0 ≤ s.2.D i) →
      ∀ i, 0 ≤ (ls.foldl (flBierCorrectOne ar C 1 d o.val) s).2.D i := by
    intro ls
    induction ls with
    | nil => exact fun s hs => hs
    | cons q ls ih =>
      exact fun s hs => ih _ fun i => h.correctSingle_nonneg hs _ (by simp) i
  rw [flBierCorrect]
  split_ifs
  · exact hD
  · exact key _ (mean, a) hD

end ArithEL.SignSafe

/-- Every row is corrected from its prediction. -/
theorem flBierLoop_row {ar : ArithEL c u} {p : Params n m} {C : TV (Mat m n)} {d : TV (Vec m)}
    {S0 : UDU n} (P : BStep n → Prop)
    (h0 : ∀ (C : Mat m n) (d : Vec m) (o : Obs m), P ⟨p.mu0, S0, (flBierCorrect ar C 1 d p.mu0 S0 o).1,
      (flBierCorrect ar C 1 d p.mu0 S0 o).2⟩)
    (h1 : ∀ s A Q b (C : Mat m n) (d : Vec m) (o : Obs m) x, P s → p.Q = .const Q →
      flBierPredict ar A Q b s.filtMean s.filtCov = .ok x →
      P ⟨x.1, x.2, (flBierCorrect ar C 1 d x.1 x.2 o).1, (flBierCorrect ar C 1 d x.1 x.2 o).2⟩)
    {os : List (Obs m)} {t : ℕ} {prev : Option (BStep n)} {ss : List (BStep n)}
    (hprev : ∀ s, prev = some s → P s) (h : flBierLoop ar p C d S0 t prev os = .ok ss) :
    ∀ s ∈ ss, P s := by
  induction os generalizing t prev ss with
  | nil => cases h; simp
  | cons o os ih =>
    rw [flBierLoop] at h
    obtain ⟨s, hs, h⟩ := ok_bind_iff.mp h
    obtain ⟨rest, hrest, h⟩ := ok_bind_iff.mp h
    cases h
    have hP : P s := by
      cases prev with
      | none =>
        simp only [flBierStep] at hs
        obtain ⟨x, e, hs⟩ := ok_bind_iff.mp hs
        cases e
        obtain ⟨C', -, hs⟩ := ok_bind_iff.mp hs
        obtain ⟨d', -, hs⟩ := ok_bind_iff.mp hs
        cases hs
        exact h0 _ _ _
      | some s0 =>
        simp only [flBierStep] at hs
        obtain ⟨A, -, hs⟩ := ok_bind_iff.mp hs
        obtain ⟨b, -, hs⟩ := ok_bind_iff.mp hs
        cases hQ : p.Q with
        | seq l => rw [hQ] at hs; cases hs
        | const Q =>
          rw [hQ] at hs
          obtain ⟨Q', e, hs⟩ := ok_bind_iff.mp hs
          cases e
          obtain ⟨x, hx, hs⟩ := ok_bind_iff.mp hs
          obtain ⟨C', -, hs⟩ := ok_bind_iff.mp hs
          obtain ⟨d', -, hs⟩ := ok_bind_iff.mp hs
          cases hs
          exact h1 s0 A Q b C' d' o x (hprev s0 rfl) hQ hx
    intro s' hs'
    rcases List.mem_cons.mp hs' with rfl | hs'
    · exact hP
    · exact ih (fun s1 e => by cases e; exact hP) hrest s' hs'

/-- **C94.** However large the errors, and whatever the model and the data: at every time at which
the factor `D` of the predicted covariance has no negative entry, neither has that of the filtered
covariance, and `filter` returns no negative variance. -/
theorem C94_correct {ar : ArithEL c u} (har : ar.SignSafe) {p : Params n m} {os : List (Obs m)}
    {ss : List (BStep n)} (h : flBierFull ar p os = .ok ss) :
    ∀ s ∈ ss, (∀ i, 0 ≤ s.predCov.D i) →
      (∀ i, 0 ≤ s.filtCov.D i) ∧ ∀ i, 0 ≤ s.filtCov.flReconstruct ar i i := by
  rw [flBierFull] at h
  obtain ⟨S0, -, h⟩ := ok_bind_iff.mp h
  obtain ⟨r, -, h⟩ := ok_bind_iff.mp h
  refine flBierLoop_row _ (fun C d o hD => ?_) (fun s A Q b C d o x _ _ _ hD => ?_)
    (fun s e => by cases e) h
  · have := har.correct_nonneg C d p.mu0 hD o
    exact ⟨this, har.reconstruct_nonneg this⟩
  · have := har.correct_nonneg C d x.1 hD o
    exact ⟨this, har.reconstruct_nonneg this⟩

theorem flUdu_one {ar : ArithEL c u} {M : Mat 1 1} {a : UDU 1} (h : flUdu ar M = .ok a) :
    ∀ i, a.D i = M 0 0 := by
  rw [flUdu] at h
  split_ifs at h with h1
  · cases h
    intro i
    fin_cases i
    simp [vec1, flUduLoop, Arr1.set, arr2]

/-- **C94.** One-dimensional states: however large the errors, and whatever the data, `filter` returns
no negative variance if the two variances of the state given by the user are not negative. -/
theorem C94_one_dimensional {ar : ArithEL c u} (har : ar.SignSafe) {p : Params 1 m}
    {os : List (Obs m)} (hS : 0 ≤ p.S0 0 0) (hQ : ∀ Q, p.Q = .const Q → 0 ≤ Q 0 0)
    {l : List (Vec 1 × Mat 1 1)} (h : flBierFilter ar p os = .ok l) : ∀ x ∈ l, 0 ≤ x.2 0 0 := by
  rw [flBierFilter] at h
  obtain ⟨ss, hss, h⟩ := ok_bind_iff.mp h
  obtain ⟨rows, hrows, h⟩ := ok_bind_iff.mp h
  cases h
  have hrows : rows = ss.map (BStep.flStep ar m) := by
    cases ss with
    | nil => cases hrows
    | cons s ss => cases hrows; rfl
  rw [hrows, List.map_map]
  intro x hx
  obtain ⟨s, hs, rfl⟩ := List.mem_map.mp hx
  refine har.reconstruct_nonneg ?_ 0
  rw [flBierFull] at hss
  obtain ⟨S0, hS0, hss⟩ := ok_bind_iff.mp hss
  obtain ⟨r, -, hss⟩ := ok_bind_iff.mp hss
  refine flBierLoop_row (fun s => ∀ i, 0 ≤ s.filtCov.D i) (fun C d o => ?_)
    (fun s A Q b C d o x hs hq hx => ?_) (fun s e => by cases e) hss s hs
  · exact har.correct_nonneg C d p.mu0 (fun i => by rw [flUdu_one hS0]; exact hS) o
  · refine har.correct_nonneg C d x.1 ?_ o
    rw [flBierPredict] at hx
    obtain ⟨a, ha, hx⟩ := ok_bind_iff.mp hx
    cases hx
    intro i
    rw [flUdu_one ha]
    refine har.add_nonneg _ _ (har.dot_nonneg _ _ _ fun q => ?_) (hQ Q hq)
    obtain rfl : q = 0 := Subsingleton.elim _ _
    refine har.one_term _ _ 0 (fun r hr => absurd (Subsingleton.elim r 0) hr) ?_
    rw [transpose_apply]
    nlinarith [mul_nonneg (mul_self_nonneg (A 0 0)) (har.reconstruct_nonneg hs 0)]

/-! ### The same for `KalmanFilter` is false -/

/-- Inner products wrong by the factor `s`, everything else exact. -/
noncomputable def scaledArithEL (svd : SvdRoutine) {u s : ℝ} (hu : 0 ≤ u) (hs : |s - 1| ≤ u) :
    ArithEL (fun k => (k : ℝ) + 1) u where
  toArithL := scaledArithL svd hu hs
  divr x y := x / y
  divr_err x y _ := by simp only [sub_self, abs_zero]; positivity

theorem scaledArithEL_signSafe (svd : SvdRoutine) {u s : ℝ} (hu : 0 ≤ u) (hs : |s - 1| ≤ u)
    (h0 : 0 ≤ s) : (scaledArithEL svd hu hs).SignSafe where
  mulr_nonneg _ _ h := h
  divr_nonneg _ _ h1 h2 := div_nonneg h1 h2.le
  add_nonneg _ _ h1 h2 := add_nonneg h1 h2
  add_pos _ _ h1 h2 := add_pos_of_pos_of_nonneg h1 h2
  dot_nonneg _ _ _ h := mul_nonneg h0 (Finset.sum_nonneg fun i _ => h i)
  dot_nonpos _ _ _ h := mul_nonpos_of_nonneg_of_nonpos h0 (Finset.sum_nonpos fun i _ => h i)

/-- **C94**, the same for `KalmanFilter` is false: for every `u < 1`, however small, there is an
arithmetic with errors up to `u` that never gets a sign wrong, and a model with positive variances for
which `KalmanFilter.filter` returns a negative variance.  `BiermanKalmanFilter.filter` in the same
arithmetic does not. -/
theorem C94_standard_negative : ∃ c : ℕ → ℝ, ∀ u, 0 < u → u < 1 →
    ∃ (ar : ArithEL c u) (p : Params 1 1) (os : List (Obs 1)),
      p.PosDef ∧ p.DefinedFor os.length ∧ ar.SignSafe ∧
      (∃ l, flFilter ar.toArith p os = .ok l ∧ ∃ x ∈ l, x.2 0 0 < 0) ∧
      ∃ l, flBierFilter ar p os = .ok l ∧ l.length = os.length ∧ ∀ x ∈ l, 0 ≤ x.2 0 0 := by
  obtain ⟨svd⟩ := exists_svdRoutine
  refine ⟨fun k => (k : ℝ) + 1, fun u hu hu1 => ?_⟩
  have hs : |1 + u - 1| ≤ u := by rw [add_sub_cancel_left, abs_of_nonneg hu.le]
  have hsafe := scaledArithEL_signSafe svd hu.le hs (by linarith)
  refine ⟨scaledArithEL svd hu.le hs, oneSensor u, [⟨fun _ => 0, fun _ => false⟩],
    oneSensor_posDef hu, definedFor_iff_covers.mpr ⟨trivial, trivial, trivial, trivial, trivial,
      trivial⟩, hsafe, oneSensor_negative svd hu hu1 hs, ?_⟩
  have hm : ∃ l, flBierFilter (scaledArithEL svd hu.le hs) (oneSensor u)
      [⟨fun _ => 0, fun _ => false⟩] = .ok l ∧ l.length = 1 := by
    obtain ⟨X, hX, -⟩ := cholesky_of_posDef (A := (diagonal fun _ => u : Mat 1 1))
      (PosDef.diagonal fun _ => hu)
    have hX' : (scaledArithEL svd hu.le hs).chol 1 (diagonal fun _ => u) = .ok X := hX
    have hcl : FlAllCloseT (scaledArithEL svd hu.le hs) (diagonal fun _ => 1 : Mat 1 1) := by
      intro i j
      have e : (scaledArithEL svd hu.le hs).sub ((diagonal fun _ => 1 : Mat 1 1) i j)
          ((diagonal fun _ => 1 : Mat 1 1)ᵀ i j) = 0 := by
        rw [diagonal_transpose]; exact sub_self _
      rw [e, abs_zero]
      exact add_nonneg (by norm_num) (mul_nonneg (by norm_num) (abs_nonneg _))
    obtain ⟨a, ha⟩ : ∃ a, flUdu (scaledArithEL svd hu.le hs) (diagonal fun _ => 1 : Mat 1 1)
        = .ok a := by
      rw [flUdu, if_pos hcl, if_neg one_ne_zero]
      exact ⟨_, rfl⟩
    simp only [flBierFilter, flBierRows, flBierFull, flDecorrelate, oneSensor, hX', ha, bind, Except.bind,
      flBierLoop, flBierStep, lastDims, TV.map, pure, Except.pure, List.map_cons, List.map_nil]
    exact ⟨_, rfl, rfl⟩
  obtain ⟨l, hl, hlen⟩ := hm
  exact ⟨l, hl, hlen, C94_one_dimensional hsafe (by simp [oneSensor])
    (fun Q hQ => by cases hQ; simp) hl⟩

/-! ### Cases that meet the hypotheses -/

/-- There are such arithmetics, with errors. -/
example : ∃ c : ℕ → ℝ, ∀ u, 0 ≤ u → u ≤ 1 → ∃ ar : ArithEL c u,
    ar.SignSafe ∧ ∀ x y : Vec 1, ar.dot 1 x y = (1 - u) * (x ⬝ᵥ y) := by
  obtain ⟨svd⟩ := exists_svdRoutine
  exact ⟨_, fun u hu hu1 => ⟨scaledArithEL svd hu (abs_one_sub_sub_one hu),
    scaledArithEL_signSafe svd hu _ (by linarith), fun x y => rfl⟩⟩

/-- A model with three observations, one of them missing, as in the theorems. -/
example : exPosDef.DefinedFor 3 ∧ exPosDef.PosDef ∧
    ([⟨![1], fun _ => false⟩, ⟨![7], fun _ => true⟩, ⟨![2], fun _ => false⟩] :
      List (Obs 1)).length = 3 :=
  ⟨definedFor_iff_covers.mpr ⟨le_refl 2, trivial, trivial, trivial, trivial, trivial⟩,
    exPosDef_posDef, rfl⟩

/-- A time-varying model and three observations, one of them missing. -/
example (c : ℕ → ℝ) : ∃ K u₀ : ℝ, 0 < u₀ ∧ ∀ u, 0 ≤ u → u ≤ u₀ → ∀ ar : ArithEL c u,
    ∃ l l', flBierFilter ar exPosDef exThree = .ok l ∧ kfFilter exPosDef exThree = .ok l' ∧
      WithinErr (K * u) l l' :=
  C94_filter c (by norm_num) (by simp [exThree])
    (definedFor_iff_covers.mpr ⟨le_refl 2, trivial, trivial, trivial, trivial, trivial⟩)
    exPosDef_posDef

theorem exPlane_posDef' : exPlane.PosDef :=
  ⟨⟨_, rfl, PosDef.one⟩, ⟨_, rfl, PosDef.one⟩, PosDef.one⟩

/-- One iteration with everything selected. -/
example (c : ℕ → ℝ) : ∃ K u₀ : ℝ, 0 < u₀ ∧ ∀ u, 0 ≤ u → u ≤ u₀ → ∀ ar : ArithEL c u,
    ∃ q q', flBierEm ar exPlane exThree 1 (fun _ => true) = .ok q ∧
      kfEm exPlane exThree 1 (fun _ => true) = .ok q' ∧ q.WithinErr (K * u) q' :=
  C94_em (p := exPlane) c (by norm_num) (by simp [exThree])
    (definedFor_iff_covers.mpr ⟨trivial, trivial, trivial, trivial, trivial, trivial⟩)
    exPlane_posDef' _ 1
    (fun _ => ⟨⟨![2], ![false]⟩, by simp [exThree], by simp [Obs.missing]⟩)
    fun _ j h0 h1 => by omega

/-- Ten iterations with the default selection. -/
example (c : ℕ → ℝ) : ∃ K u₀ : ℝ, 0 < u₀ ∧ ∀ u, 0 ≤ u → u ≤ u₀ → ∀ ar : ArithEL c u,
    ∃ q q' l l', flBierEm ar exPlane exThree 9 defaultVars = .ok q ∧
      flBierEm ar exPlane exThree 10 defaultVars = .ok q' ∧
      flBierLoglik ar q exThree = .ok l ∧ flBierLoglik ar q' exThree = .ok l' ∧
      l - K * u ≤ l' :=
  C94_em_nearly_monotone (p := exPlane) c (by norm_num) (by simp [exThree])
    (definedFor_iff_covers.mpr ⟨trivial, trivial, trivial, trivial, trivial, trivial⟩)
    exPlane_posDef' defaultVars 9
    ⟨fun _ => ⟨_, rfl⟩, fun _ => ⟨_, rfl⟩, fun _ => ⟨_, rfl⟩, fun _ => ⟨_, rfl⟩,
      fun _ => ⟨_, rfl⟩, fun _ => ⟨_, rfl⟩⟩ (fun h => by cases h)
    fun _ => ⟨rfl, exThree_keeps⟩

end Verif
