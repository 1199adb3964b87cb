import Verif.Props.RoundedBierman
import Verif.Proofs.RoundedCholeskyEm

/-!
# C96: rounding errors in `CholeskyKalmanFilter.em`

All parameters that `em` computes differ from the exact ones by at most a constant times the size `u`
of the errors, and the computed log likelihood never falls by more than a constant times `u`.
-/

open Matrix Topology

namespace Verif

variable {n m : ℕ} {c : ℕ → ℝ} {u : ℝ}

theorem near_flCholLoglik {ι : Type} {F : Filter ι} {w : ι → ℝ} {ar : ∀ i, ArithC c (w i)}
    (hw : Filter.Tendsto w F (𝓝 0)) {f : ι → Params n m} {p : Params n m}
    (hp : PNear F w f p) (hpd : p.PosDef) {os : List (Obs m)} (hc : p.Covers os.length) :
    ∃ (v : ι → ℝ) (L : ℝ), kfLoglik p os = .ok L ∧
      (∀ᶠ i in F, flCholLoglik (ar i) (f i) os = .ok (v i)) ∧ Ow F w v L := by
  have hP := (hpd.pdAt os.length).fn hc
  obtain ⟨R, hR, -⟩ := hpd.R
  obtain ⟨st, hok, hk⟩ := nearP_flCholFull (br := ar) hw hp hc hpd ((hpd.psd os.length).fn hc)
  obtain ⟨v, L, hL, h1, hv⟩ := nearP_loglikLoop (br := fun i => (ar i).toArithL) hw hp hc hR
    (st := fun i t => (st i t).flStep (ar i) m) hk
    fun t ht _ => Matrix.PosDef.posSemidef_add (posSemidef_conj' (hP.filt _ ht).1.posSemidef _)
      (hP.R t ht)
  refine ⟨v, L, hL, (hok.and h1).mono fun i hi => ?_, hv⟩
  obtain ⟨h2, ls, h3, h4⟩ := hi
  simp only [flCholLoglik, h2, bind, Except.bind, pure, Except.pure, List.map_map]
  have e : (CStep.flStep (ar i) m ∘ st i) = fun t => (st i t).flStep (ar i) m := rfl
  simp only [e, h3]
  exact congrArg Except.ok h4

theorem near_flCholEmLoop {ι : Type} {F : Filter ι} {w : ι → ℝ} {ar : ∀ i, ArithCE c (w i)}
    (hw : Filter.Tendsto w F (𝓝 0)) {given : Params n m} {vars : EmVar → Bool}
    {os : List (Obs m)} (hne : os ≠ []) (hg : given.Covers os.length)
    (hA : vars .transitionMatrices = true → 2 ≤ os.length)
    (hC : vars .observationMatrices = true → ∃ o ∈ os, ¬ o.missing) (k : ℕ)
    {f : ι → Params n m} {p : Params n m} (hp : PNear F w f p) (hc : p.Covers os.length)
    (hpd : ∀ j < k, ∀ q, emLoop given vars os j p = .ok q → q.PosDef) :
    EvNear F (PNear F w) (fun i => flCholEmLoop (ar i) given vars os k (f i))
      (emLoop given vars os k p) := by
  induction k generalizing f p with
  | zero => exact .pure hp
  | succ k ih =>
    have hp0 := hpd 0 (by omega) p rfl
    have hP := (hp0.pdAt os.length).fn hc
    obtain ⟨p', e1, c1, -⟩ := emIter_ok (vars := vars) hne hc hg
    refine (near_flCholStats hw hp hp0 hne hc hP ((hp0.psd os.length).fn hc)).bind fun ss ss' hss hs => ?_
    obtain ⟨r1, r2⟩ := em_sums_regular hne hc hP hss
    have e2 : emStep given vars p ss' os = .ok p' := by
      rw [hss] at e1; exact e1
    refine ((near_flEmStep (er := fun i => (ar i).toArithE) hw given vars hp hs os
      (fun e => r1 (hC e)) (fun e => r2 (hA e))).ev e2).bind fun g q hq hgq => ?_
    obtain rfl : p' = q := by rw [e2] at hq; cases hq; rfl
    refine ih hgq c1 fun j hj q' hq' => hpd (j + 1) (by omega) q' ?_
    rw [emLoop_succ, e1]
    exact hq'

/-- **C96.** `em` with any selection of parameters and any number of iterations, from constant
positive definite covariances and at least two rows: for errors up to some `u₀` it succeeds, and all
parameters differ from those of an exact `KalmanFilter.em` by at most `K u`, where `K` and `u₀`
depend on the model, the data and the number of iterations only.  Assumed: a row that is not masked
if the observation matrix is estimated; and that the estimates of the observation covariance from
which a further iteration starts are positive definite (the other covariances always are). -/
theorem C96_em (c : ℕ → ℝ) {p : Params n m} {os : List (Obs m)}
    (hlen : 2 ≤ os.length) (hdef : p.DefinedFor os.length) (hp : p.PosDef) (vars : EmVar → Bool)
    (k : ℕ) (hC : vars .observationMatrices = true → ∃ o ∈ os, ¬ o.missing)
    (hR : vars .observationCovariance = true → ∀ j, 0 < j → j < k →
      ∀ q R, kfEm p os j vars = .ok q → q.R = .const R → R.PosDef) :
    ∃ K u₀ : ℝ, 0 < u₀ ∧ ∀ u, 0 ≤ u → u ≤ u₀ → ∀ ar : ArithCE c u,
      ∃ q q', flCholEm ar p os k vars = .ok q ∧ kfEm p os k vars = .ok q' ∧
        q.WithinErr (K * u) q' := by
  have hc := definedFor_iff_covers.mp hdef
  have hne : os ≠ [] := by rintro rfl; simp at hlen
  obtain ⟨q', hq', -⟩ := C23_em_succeeds hne hdef k vars
  obtain ⟨v, g, hv, hg, hgq⟩ := near_flCholEmLoop
    (ar := fun x : (u : ℝ) × ArithCE c u => x.2) smallErr_tendsto hne hc
    (fun _ => hlen) hC k (PNear.refl p) hc (kfEm_posDef_of_R hlen hdef hp vars k hR)
  have e : emLoop p vars os k p = .ok q' := hq'
  rw [e] at hv
  cases hv
  obtain ⟨K, u₀, h0, h⟩ := small_of_pnear hgq
  obtain ⟨u₁, hu₁, hok⟩ := smallErr_eventually hg
  exact ⟨K, min u₀ u₁, lt_min h0 hu₁, fun u hu hu' ar => ⟨g ⟨u, ar⟩, q',
    hok u hu (hu'.trans (min_le_right _ _)) ar, hq', h u hu (hu'.trans (min_le_left _ _)) ar⟩⟩

/-- **C96, the likelihood does not get worse but for rounding.**  Where `loglikelihood` of the exact
iterates does not decrease (C05), the computed `loglikelihood` of the computed parameters after
`k + 1` iterations is at most `K u` below that of the computed parameters after `k`.  Nothing is
assumed of the computed parameters. -/
theorem C96_em_nearly_monotone (c : ℕ → ℝ) {p : Params n m} {os : List (Obs m)}
    (hlen : 2 ≤ os.length) (hdef : p.DefinedFor os.length) (hp : p.PosDef) (vars : EmVar → Bool)
    (k : ℕ) (hinv : p.EmInvariant vars)
    (hC : vars .observationMatrices = true → ∃ o ∈ os, ¬ o.missing)
    (hrank : vars .observationCovariance = true →
      vars .observationMatrices = false ∧ KeepsObsCov p os) :
    ∃ K u₀ : ℝ, 0 < u₀ ∧ ∀ u, 0 ≤ u → u ≤ u₀ → ∀ ar : ArithCE c u,
      ∃ q q' l l', flCholEm ar p os k vars = .ok q ∧
        flCholEm ar p os (k + 1) vars = .ok q' ∧ flCholLoglik ar.toArithC q os = .ok l ∧
        flCholLoglik ar.toArithC q' os = .ok l' ∧ l - K * u ≤ l' := by
  have hc := definedFor_iff_covers.mp hdef
  have hne : os ≠ [] := by rintro rfl; simp at hlen
  have hRc : p.R.IsConst := hp.R.imp fun _ h => h.1
  have hQc : p.Q.IsConst := hp.Q.imp fun _ h => h.1
  have hpd := kfEm_posDef_all hne hdef (hp.pdAt _) hrank
  have hall : ∀ j q, kfEm p os j vars = .ok q → q.PosDef := fun j q hq => by
    obtain ⟨q', h1, h2⟩ := hpd j
    rw [hq] at h1
    cases h1
    obtain ⟨T, hT⟩ : ∃ T, os.length = T + 1 := ⟨os.length - 1, by omega⟩
    rw [hT] at h2
    exact h2.posDef (by omega) (isConst_Q_of_kfEm hq hQc) (isConst_R_of_kfEm hq hRc)
  obtain ⟨L, hmono, hL⟩ := C05_em_monotone_sequence_partial hne hdef hinv hRc (hp.pdAt _) hrank
  have key : ∀ j, ∃ (g : (u : ℝ) × ArithCE c u → Params n m) (v : (u : ℝ) × ArithCE c u → ℝ),
      (∀ᶠ x in smallErr (ArithCE c), flCholEm x.2 p os j vars = .ok (g x)) ∧
      (∀ᶠ x in smallErr (ArithCE c), flCholLoglik x.2.toArithC (g x) os = .ok (v x)) ∧
      Ow (smallErr (ArithCE c)) (fun x => x.1) v (L j) := by
    intro j
    obtain ⟨q, h1, -, h3⟩ := hL j
    obtain ⟨q1, g, hq1, hg, hgq⟩ := near_flCholEmLoop
      (ar := fun x : (u : ℝ) × ArithCE c u => x.2) smallErr_tendsto hne hc
      (fun _ => hlen) hC j (PNear.refl p) hc fun i _ q hq => hall i q hq
    have e : emLoop p vars os j p = .ok q := h1
    rw [e] at hq1
    cases hq1
    obtain ⟨q0, e0, d0⟩ := C23_em_succeeds hne hdef j vars
    rw [h1] at e0
    cases e0
    have hcq := definedFor_iff_covers.mp d0
    obtain ⟨v, L', hL', hok, hv⟩ := near_flCholLoglik
      (ar := fun x : (u : ℝ) × ArithCE c u => x.2.toArithC) smallErr_tendsto hgq (hall j q h1) hcq
    rw [h3] at hL'
    cases hL'
    exact ⟨g, v, hg, hok, hv⟩
  obtain ⟨g, v, hg, hok, hv⟩ := key k
  obtain ⟨g', v', hg', hok', hv'⟩ := key (k + 1)
  obtain ⟨K, hK⟩ := (hv.sub hv').bound
  obtain ⟨u₀, hu₀, h⟩ := smallErr_eventually (((hg.and hg').and (hok.and hok')).and hK)
  refine ⟨K, u₀, hu₀, fun u h0 hu ar => ?_⟩
  obtain ⟨⟨⟨h1, h2⟩, h3, h4⟩, h5⟩ := h u h0 hu ar
  refine ⟨_, _, _, _, h1, h2, h3, h4, ?_⟩
  rw [Real.norm_eq_abs, Real.norm_eq_abs, abs_of_nonneg h0] at h5
  have h6 := (abs_le.mp h5).2
  have h7 := hmono (Nat.le_succ k)
  simp only [Nat.succ_eq_add_one] at h7
  linarith

/-! ### Examples -/

/-- Inner products wrong by the factor `s`, everything else exact. -/
noncomputable def scaledArithCE (svd : SvdRoutine) (qr : QR) {u s : ℝ} (hu : 0 ≤ u)
    (hs : |s - 1| ≤ u) : ArithCE (fun k => (k : ℝ) + 1) u where
  toArithC := scaledArithC svd qr hu hs
  divr x y := x / y
  divr_err x y _ := by simp only [sub_self, abs_zero]; positivity

/-- There are arithmetics with errors. -/
example : ∃ c : ℕ → ℝ, ∀ u, 0 ≤ u → ∃ ar : ArithCE c u,
    ∀ k x y, ar.dot k x y = (1 - u) * (x ⬝ᵥ y) := by
  obtain ⟨svd⟩ := exists_svdRoutine
  obtain ⟨qr⟩ := exists_QR
  exact ⟨_, fun u hu => ⟨scaledArithCE svd qr hu (abs_one_sub_sub_one hu), fun _ _ _ => rfl⟩⟩

/-- One iteration with everything selected. -/
example (c : ℕ → ℝ) : ∃ K u₀ : ℝ, 0 < u₀ ∧ ∀ u, 0 ≤ u → u ≤ u₀ → ∀ ar : ArithCE c u,
    ∃ q q', flCholEm ar exPlane exThree 1 (fun _ => true) = .ok q ∧
      kfEm exPlane exThree 1 (fun _ => true) = .ok q' ∧ q.WithinErr (K * u) q' :=
  C96_em (p := exPlane) c (by simp [exThree])
    (definedFor_iff_covers.mpr ⟨trivial, trivial, trivial, trivial, trivial, trivial⟩)
    exPlane_posDef' _ 1
    (fun _ => ⟨⟨![2], ![false]⟩, by simp [exThree], by simp [Obs.missing]⟩)
    fun _ j h0 h1 => by omega

/-- Ten iterations with the default selection. -/
example (c : ℕ → ℝ) : ∃ K u₀ : ℝ, 0 < u₀ ∧ ∀ u, 0 ≤ u → u ≤ u₀ → ∀ ar : ArithCE c u,
    ∃ q q' l l', flCholEm ar exPlane exThree 9 defaultVars = .ok q ∧
      flCholEm ar exPlane exThree 10 defaultVars = .ok q' ∧
      flCholLoglik ar.toArithC q exThree = .ok l ∧ flCholLoglik ar.toArithC q' exThree = .ok l' ∧
      l - K * u ≤ l' :=
  C96_em_nearly_monotone (p := exPlane) c (by simp [exThree])
    (definedFor_iff_covers.mpr ⟨trivial, trivial, trivial, trivial, trivial, trivial⟩)
    exPlane_posDef' defaultVars 9
    ⟨fun _ => ⟨_, rfl⟩, fun _ => ⟨_, rfl⟩, fun _ => ⟨_, rfl⟩, fun _ => ⟨_, rfl⟩,
      fun _ => ⟨_, rfl⟩, fun _ => ⟨_, rfl⟩⟩ (fun h => by cases h)
    fun _ => ⟨rfl, exThree_keeps⟩

end Verif
