import Verif.Props.RoundedLoglik
import Verif.Proofs.RoundedCholesky

/-!
# C80: rounding errors in `CholeskyKalmanFilter`

The results of `CholeskyKalmanFilter` differ from the exact ones by at most a constant times the size
`u` of the errors.  Moreover, however large the errors, the covariances that `filter` returns have no
negative variances and are near a positive semidefinite matrix.  For `KalmanFilter` this is false.
-/

open Matrix Topology

namespace Verif

variable {n m : ℕ} {c : ℕ → ℝ} {u : ℝ}

theorem Params.PosDef.psd {p : Params n m} (h : p.PosDef) (T : ℕ) : p.PSD T := by
  obtain ⟨⟨Q, hQ, hQp⟩, ⟨R, hR, hRp⟩, hS⟩ := h
  exact ⟨fun t _ Q' h' => by rw [hQ] at h'; cases h'; exact hQp.posSemidef,
    fun t _ R' h' => by rw [hR] at h'; cases h'; exact hRp.posSemidef, hS.posSemidef⟩

/-- **C80.** `filter`, if all three covariances are positive definite: for errors up to some `u₀` the
call raises no exception, and the computed means and covariances differ from the exact posterior
moments by at most `K u`, where `K` and `u₀` depend on the model and the data only. -/
theorem C80_filter (c : ℕ → ℝ) {p : Params n m} {os : List (Obs m)}
    (hdef : p.DefinedFor os.length) (hp : p.PosDef) :
    ∃ K u₀ : ℝ, 0 < u₀ ∧ ∀ u, 0 ≤ u → u ≤ u₀ → ∀ ar : ArithC c u,
      ∃ l l', flCholFilter ar p os = .ok l ∧ kfFilter p os = .ok l' ∧ WithinErr (K * u) l l' := by
  have hc := definedFor_iff_covers.mp hdef
  obtain ⟨st, hok, hk⟩ := near_flCholFull (F := smallErr (ArithC c)) (br := fun x => x.2)
    smallErr_tendsto hc hp ((hp.psd _).fn hc)
  obtain ⟨K, u₀, hu₀, h⟩ := exists_const_rows (X := ArithC c) os.length
    (f := fun t x => ((st x t).filtMean, flReconstruct x.2 (st x t).filtCov2))
    (a := fun t => ((p.fn.kf (obsFn os) t).filtMean, (p.fn.kf (obsFn os) t).filtCov))
    (fun t ht => (hk t ht).filtMean) (fun t ht => (hk t ht).filtCov)
  obtain ⟨u₁, hu₁, hok⟩ := smallErr_eventually hok
  refine ⟨K, min u₀ u₁, lt_min hu₀ hu₁, fun u h0 hu ar => ⟨_, _, ?_, kfFilter_eq hc,
    h u h0 (hu.trans (min_le_left _ _)) ar⟩⟩
  simp only [flCholFilter, hok u h0 (hu.trans (min_le_right _ _)) ar, bind, Except.bind, pure,
    Except.pure, List.map_map]
  rfl

/-- **C80.** Likewise for `smooth`. -/
theorem C80_smooth (c : ℕ → ℝ) {p : Params n m} {os : List (Obs m)} (hne : os ≠ [])
    (hdef : p.DefinedFor os.length) (hp : p.PosDef) :
    ∃ K u₀ : ℝ, 0 < u₀ ∧ ∀ u, 0 ≤ u → u ≤ u₀ → ∀ ar : ArithC c u,
      ∃ l l', flCholSmooth ar p os = .ok l ∧ kfSmooth p os = .ok l' ∧ WithinErr (K * u) l l' := by
  have hc := definedFor_iff_covers.mp hdef
  have hP := (hp.psd os.length).fn hc
  obtain ⟨T, hT⟩ : ∃ T, os.length = T + 1 :=
    ⟨os.length - 1, by have := List.length_pos_iff.mpr hne; omega⟩
  obtain ⟨st, hok, hk⟩ := near_flCholFull (F := smallErr (ArithC c)) (br := fun x => x.2)
    smallErr_tendsto hc hp hP
  have hV : ∀ t, t < os.length - 1 → IsUnit (p.fn.kf (obsFn os) (t + 1)).predCov.det := by
    intro t ht
    obtain ⟨Q, hQ, hQp⟩ := hp.Q
    have hQt : p.fn.Q t = Q := by simp [Params.fn, hQ, TV.get]
    have h1 : (p.fn.A t * ((p.fn.kf (obsFn os) t).filtCov * (p.fn.A t)ᵀ)).PosSemidef := by
      rw [← Matrix.mul_assoc]
      exact (hP.filt (t := t) (by omega) _).mul_mul_conjTranspose_same (p.fn.A t)
    exact (Matrix.PosDef.posSemidef_add h1 (by rw [hQt]; exact hQp)).det_pos.ne'.isUnit
  have hsm := fun t (ht : t < os.length) => near_stSmoothFl (F := smallErr (ArithC c))
    (br := fun x => x.2.toArith) (st := fun x t => (st x t).flStep x.2 m)
    smallErr_tendsto p.fn (obsFn os) (os.length - 1) (os.length - 1 - t)
    (fun t ht => hk t (by omega)) (fun t ht _ => hV t ht) (by omega)
  obtain ⟨K, u₀, hu₀, h⟩ := exists_const_rows (X := ArithC c) os.length
    (f := fun t x =>
      ((stSmoothFl x.2.toArith p.fn.A (fun t => (st x t).flStep x.2 m) (os.length - 1) t).mean,
       (stSmoothFl x.2.toArith p.fn.A (fun t => (st x t).flStep x.2 m) (os.length - 1) t).cov))
    (a := fun t => ((p.fn.ks (obsFn os) (os.length - 1) t).mean,
      (p.fn.ks (obsFn os) (os.length - 1) t).cov))
    (fun t ht => (hsm t ht).1) (fun t ht => (hsm t ht).2)
  obtain ⟨u₁, hu₁, hok⟩ := smallErr_eventually hok
  refine ⟨K, min u₀ u₁, lt_min hu₀ hu₁, fun u h0 hu ar => ⟨_, _, ?_, kfSmooth_eq hne hc,
    h u h0 (hu.trans (min_le_left _ _)) ar⟩⟩
  have hA : p.A.Covers T := by have := hc.A; rwa [hT] at this
  have hs := flSmoothFull_eq (ar := ar.toArith) (p := p)
    (fun t => (st ⟨u, ar⟩ t).flStep ar m) T hA
  simp only [flCholSmooth, hok u h0 (hu.trans (min_le_right _ _)) ar, bind, Except.bind, pure,
    Except.pure, List.map_map, Function.comp_def, hT, hs]
  rfl

/-- **C80.** Likewise for `loglikelihood`. -/
theorem C80_loglik (c : ℕ → ℝ) {p : Params n m} {os : List (Obs m)}
    (hdef : p.DefinedFor os.length) (hp : p.PosDef) :
    ∃ K u₀ : ℝ, 0 < u₀ ∧ ∀ u, 0 ≤ u → u ≤ u₀ → ∀ ar : ArithC c u,
      ∃ x L, flCholLoglik ar p os = .ok x ∧ kfLoglik p os = .ok L ∧ |x - L| ≤ K * u := by
  have hc := definedFor_iff_covers.mp hdef
  have hP := (hp.psd os.length).fn hc
  obtain ⟨R, hR, hRp⟩ := hp.R
  have hRt : ∀ t, (p.fn.R t).PosDef := fun t => by
    have : p.fn.R t = R := by simp [Params.fn, hR, TV.get]
    rw [this]
    exact hRp
  obtain ⟨st, hok, hk⟩ := near_flCholFull (F := smallErr (ArithC c)) (br := fun x => x.2)
    smallErr_tendsto hc hp hP
  obtain ⟨v, L, hL, hv1, hv⟩ := ow_loglikLoop (F := smallErr (ArithC c))
    (br := fun x => x.2.toArithL) (st := fun x t => (st x t).flStep x.2 m)
    smallErr_tendsto hc hR hk
    (fun t ht _ => Matrix.PosDef.posSemidef_add
      ((hP.pred ht _).mul_mul_conjTranspose_same (p.fn.C t)) (hRt t))
  obtain ⟨K, hK⟩ := hv.bound
  obtain ⟨u₀, hu₀, h⟩ := smallErr_eventually ((hok.and hv1).and hK)
  refine ⟨K, u₀, hu₀, fun u h0 hu ar => ?_⟩
  obtain ⟨⟨h1, ls, h2, h3⟩, h4⟩ := h u h0 hu ar
  refine ⟨v ⟨u, ar⟩, L, ?_, hL, ?_⟩
  · simp only [flCholLoglik, h1, bind, Except.bind, pure, Except.pure, List.map_map,
      Function.comp_def, h2]
    exact congrArg Except.ok h3
  · rw [Real.norm_eq_abs, Real.norm_eq_abs, abs_of_nonneg h0] at h4
    exact h4

/-- **C80.** However large the errors, and whatever the model and the data: if inner products of a
vector with itself are computed without a negative result, `filter` returns no negative variance, and
if inner products do not depend on the order of their arguments, it returns symmetric matrices. -/
theorem C80_variances (ar : ArithC c u) {p : Params n m} {os : List (Obs m)}
    {l : List (Vec n × Mat n n)} (h : flCholFilter ar p os = .ok l) :
    ((∀ k x, 0 ≤ ar.dot k x x) → ∀ x ∈ l, ∀ i, 0 ≤ x.2 i i) ∧
    ((∀ k x y, ar.dot k x y = ar.dot k y x) → ∀ x ∈ l, x.2ᵀ = x.2) := by
  rw [flCholFilter] at h
  cases hf : flCholFull ar p os with
  | error e => rw [hf] at h; cases h
  | ok ss =>
    rw [hf] at h
    cases h
    refine ⟨fun hd x hx i => ?_, fun hd x hx => ?_⟩ <;>
      obtain ⟨s, -, rfl⟩ := List.mem_map.mp hx
    · exact hd n (s.filtCov2 i)
    · ext i j
      exact hd n _ _

/-- **C80.** However large the errors: as in exact arithmetic (C29) covariances that vary with time are
refused, no method goes on with one of the members.  Varying transition covariances are refused with
`ValueError`; so are varying observation covariances, unless the factorisation of the transition
covariance fails before. -/
theorem C80_time_varying (ar : ArithC c u) {p : Params n m} (os : List (Obs m)) :
    ((∃ l, p.Q = .seq l) → flCholFilter ar p os = .error .valueError ∧
      flCholSmooth ar p os = .error .valueError ∧ flCholLoglik ar p os = .error .valueError) ∧
    ((∃ l, p.R = .seq l) → ∀ Q Q2, p.Q = .const Q → ar.chol n Q = .ok Q2 →
      flCholFilter ar p os = .error .valueError ∧
      flCholSmooth ar p os = .error .valueError ∧ flCholLoglik ar p os = .error .valueError) := by
  have key : flCholFull ar p os = .error .valueError → flCholFilter ar p os = .error .valueError ∧
      flCholSmooth ar p os = .error .valueError ∧ flCholLoglik ar p os = .error .valueError := by
    intro h
    refine ⟨?_, ?_, ?_⟩
    · rw [flCholFilter, h]; rfl
    · rw [flCholSmooth, h]; rfl
    · rw [flCholLoglik, h]; rfl
  constructor
  · rintro ⟨l, hQ⟩
    refine key ?_
    rw [flCholFull, hQ]; rfl
  · rintro ⟨l, hR⟩ Q Q2 hQ hc
    refine key ?_
    rw [flCholFull, hQ, hR, flCholParam, hc]; rfl

/-- **C80.** However large the errors, and whatever the model and the data: every covariance that
`filter` returns differs from a positive semidefinite matrix `W` by rounding errors of a single inner
product. -/
theorem C80_psd (ar : ArithC c u) {p : Params n m} {os : List (Obs m)}
    {l : List (Vec n × Mat n n)} (h : flCholFilter ar p os = .ok l) :
    ∀ x ∈ l, ∃ W : Mat n n, W.PosSemidef ∧
      ∀ i j, |x.2 i j - W i j| ≤ c n * u * ((W i i + W j j) / 2 + 1) := by
  rw [flCholFilter] at h
  cases hf : flCholFull ar p os with
  | error e => rw [hf] at h; cases h
  | ok ss =>
    rw [hf] at h
    cases h
    intro x hx
    obtain ⟨s, -, rfl⟩ := List.mem_map.mp hx
    refine ⟨s.filtCov2 * (s.filtCov2)ᵀ, ?_, fun i j => ?_⟩
    · have := posSemidef_self_mul_conjTranspose s.filtCov2
      rwa [conjTranspose_eq_transpose_of_trivial] at this
    · have h0 : 0 ≤ c n * u := by
        have := ar.dot_err n 0 0
        simp only [Pi.zero_apply, abs_zero, mul_zero, Finset.sum_const_zero, zero_add,
          mul_one] at this
        exact (abs_nonneg _).trans this
      refine (ar.dot_err n (s.filtCov2 i) (s.filtCov2 j)).trans ?_
      refine mul_le_mul_of_nonneg_left ?_ h0
      have h1 : ∑ q, |s.filtCov2 i q| * |s.filtCov2 j q|
          ≤ ∑ q, (s.filtCov2 i q * s.filtCov2 i q + s.filtCov2 j q * s.filtCov2 j q) / 2 :=
        Finset.sum_le_sum fun q _ => by
          nlinarith [sq_nonneg (|s.filtCov2 i q| - |s.filtCov2 j q|),
            abs_mul_abs_self (s.filtCov2 i q), abs_mul_abs_self (s.filtCov2 j q)]
      have h2 : ∑ q, (s.filtCov2 i q * s.filtCov2 i q + s.filtCov2 j q * s.filtCov2 j q) / 2
          = ((s.filtCov2 * (s.filtCov2)ᵀ) i i + (s.filtCov2 * (s.filtCov2)ᵀ) j j) / 2 := by
        simp only [Matrix.mul_apply, transpose_apply]
        rw [← Finset.sum_add_distrib, Finset.sum_div]
      linarith

/-! ### The same for `KalmanFilter` is false -/

/-- Inner products wrong by the factor `s`, with exact triangular factors. -/
noncomputable def scaledArithC (svd : SvdRoutine) (qr : QR) {u s : ℝ} (hu : 0 ≤ u)
    (hs : |s - 1| ≤ u) : ArithC (fun k => (k : ℝ) + 1) u where
  toArithL := scaledArithL svd hu hs
  qr := qr.r
  qr_upper := qr.upper
  qr_err N L A h := by
    refine ⟨0, fun i j => ?_, by rw [add_zero]; exact qr.gram N L A h⟩
    have := sumAbs_nonneg A
    simp only [Matrix.zero_apply, abs_zero]
    positivity

/-- A quantity with variance one, observed with the variance `r`. -/
noncomputable def oneSensor (r : ℝ) : Params 1 1 where
  A := .const (diagonal fun _ => 1)
  b := .const fun _ => 0
  Q := .const (diagonal fun _ => 1)
  C := .const (diagonal fun _ => 1)
  d := .const fun _ => 0
  R := .const (diagonal fun _ => r)
  mu0 := fun _ => 0
  S0 := diagonal fun _ => 1

theorem oneSensor_posDef {r : ℝ} (hr : 0 < r) : (oneSensor r).PosDef :=
  ⟨⟨_, rfl, PosDef.diagonal fun _ => one_pos⟩, ⟨_, rfl, PosDef.diagonal fun _ => hr⟩,
    PosDef.diagonal fun _ => one_pos⟩

theorem oneSensor_negative (svd : SvdRoutine) {u : ℝ} (hu : 0 < u) (hu1 : u < 1)
    (hs : |1 + u - 1| ≤ u) :
    ∃ l, flFilter (scaledArith svd hu.le hs) (oneSensor u) [⟨fun _ => 0, fun _ => false⟩] = .ok l ∧
      ∃ x ∈ l, x.2 0 0 < 0 := by
  have hm : ¬ (⟨fun _ => 0, fun _ => false⟩ : Obs 1).missing := by simp [Obs.missing]
  have hadd : ∀ a b : ℝ, (scaledArith svd hu.le hs).madd (diagonal fun _ : Fin 1 => a)
      (diagonal fun _ : Fin 1 => b) = diagonal fun _ : Fin 1 => a + b := fun a b => by
    ext i j
    fin_cases i; fin_cases j
    simp [Arith.madd, scaledArith]
  have hpos : 0 < (1 + u) * (1 * ((1 + u) * (1 * 1))) + u := by positivity
  simp only [flFilter, flFull, flLoop, flStep, oneSensor, lastDims, bind, Except.bind, pure,
    Except.pure, flCorrect, hm, not_false_eq_true, if_true, diagonal_transpose, scaled_mul,
    hadd, scaled_pinv svd hu.le hs hu1 hpos, List.map_cons, List.map_nil]
  refine ⟨_, rfl, _, List.mem_singleton_self _, ?_⟩
  show (1 : ℝ) - (1 + u) * ((1 + u) * (1 * ((1 + u) * (1 * ((1 + u) * (1 * ((1 + u) * (1 * 1)))
    + u)⁻¹))) * ((1 + u) * (1 * 1))) < 0
  have h1 : 1 + 2 * u < (1 + u) ^ 2 := by nlinarith
  rw [sub_neg]
  have e2 : (1 + u) * ((1 + u) * (1 * ((1 + u) * (1 * ((1 + u) * (1 * ((1 + u) * (1 * 1)))
    + u)⁻¹))) * ((1 + u) * (1 * 1))) = (1 + u) ^ 4 / ((1 + u) * (1 * ((1 + u) * (1 * 1))) + u) := by
    field_simp
  rw [e2, lt_div_iff₀ hpos]
  nlinarith [sq_nonneg ((1 + u) ^ 2 - 1)]

/-- **C80**, the same for `KalmanFilter` is false: for every `u < 1`, however small, there is an
arithmetic with errors up to `u`, in which no inner product of a vector with itself is negative, and a
model with positive definite covariances for which `KalmanFilter.filter` returns a negative
variance.  `CholeskyKalmanFilter.filter` in the same arithmetic does not. -/
theorem C80_standard_negative : ∃ c : ℕ → ℝ, ∀ u, 0 < u → u < 1 →
    ∃ (ar : ArithC c u) (p : Params 1 1) (os : List (Obs 1)),
      p.PosDef ∧ p.DefinedFor os.length ∧ (∀ k x, 0 ≤ ar.dot k x x) ∧
      (∃ l, flFilter ar.toArith p os = .ok l ∧ ∃ x ∈ l, x.2 0 0 < 0) ∧
      ∃ l, flCholFilter ar p os = .ok l ∧ l.length = os.length ∧ ∀ x ∈ l, 0 ≤ x.2 0 0 := by
  obtain ⟨svd⟩ := exists_svdRoutine
  obtain ⟨qr⟩ := exists_QR
  refine ⟨fun k => (k : ℝ) + 1, fun u hu hu1 => ?_⟩
  have hs : |1 + u - 1| ≤ u := by rw [add_sub_cancel_left, abs_of_nonneg hu.le]
  have hr : 0 < u := hu
  have hdot : ∀ k x, 0 ≤ (scaledArithC svd qr hu.le hs).dot k x x := fun k x =>
    mul_nonneg (by linarith) (Finset.sum_nonneg fun i _ => mul_self_nonneg _)
  refine ⟨scaledArithC svd qr hu.le hs, oneSensor u, [⟨fun _ => 0, fun _ => false⟩],
    oneSensor_posDef hr, definedFor_iff_covers.mpr ⟨trivial, trivial, trivial, trivial, trivial,
      trivial⟩, hdot, ?_, ?_⟩
  · exact oneSensor_negative svd hu hu1 hs
  · have hm : ∃ l, flCholFilter (scaledArithC svd qr hu.le hs) (oneSensor u)
        [⟨fun _ => 0, fun _ => false⟩] = .ok l ∧ l.length = 1 := by
      obtain ⟨X, hX, -⟩ := cholesky_of_posDef (A := (diagonal fun _ => u : Mat 1 1))
        (PosDef.diagonal fun _ => hr)
      obtain ⟨Y, hY, -⟩ := cholesky_of_posDef (A := (diagonal fun _ => 1 : Mat 1 1))
        (PosDef.diagonal fun _ => one_pos)
      have hX' : (scaledArithC svd qr hu.le hs).chol 1 (diagonal fun _ => u) = .ok X := hX
      have hY' : (scaledArithC svd qr hu.le hs).chol 1 (diagonal fun _ => 1) = .ok Y := hY
      simp only [flCholFilter, flCholFull, flCholParam, oneSensor, hX', hY', bind, Except.bind,
        flCholLoop, flCholStep, lastDims, pure, Except.pure, List.map_cons, List.map_nil]
      exact ⟨_, rfl, rfl⟩
    obtain ⟨l, hl, hlen⟩ := hm
    exact ⟨l, hl, hlen, fun x hx => (C80_variances _ hl).1 hdot x hx 0⟩

/-! ### Cases that meet the hypotheses -/

/-- There are such arithmetics, with errors, with symmetric and positive inner products. -/
example : ∃ c : ℕ → ℝ, ∀ u, 0 ≤ u → u ≤ 1 → ∃ ar : ArithC c u,
    (∀ x y : Vec 1, ar.dot 1 x y = (1 - u) * (x ⬝ᵥ y)) ∧ (∀ k x, 0 ≤ ar.dot k x x) ∧
    ∀ k x y, ar.dot k x y = ar.dot k y x := by
  obtain ⟨svd⟩ := exists_svdRoutine
  obtain ⟨qr⟩ := exists_QR
  exact ⟨_, fun u hu hu1 => ⟨scaledArithC svd qr hu (abs_one_sub_sub_one hu), fun x y => rfl,
    fun k x => mul_nonneg (by linarith) (Finset.sum_nonneg fun i _ => mul_self_nonneg _),
    fun k x y => congrArg _ (dotProduct_comm x y)⟩⟩

/-- A model with three observations, one of them missing, as in the theorems. -/
example : exPosDef.DefinedFor 3 ∧ exPosDef.PosDef ∧
    ([⟨![1], fun _ => false⟩, ⟨![7], fun _ => true⟩, ⟨![2], fun _ => false⟩] :
      List (Obs 1)).length = 3 :=
  ⟨definedFor_iff_covers.mpr ⟨le_refl 2, trivial, trivial, trivial, trivial, trivial⟩,
    exPosDef_posDef, rfl⟩

end Verif
