import Verif.Props.Rounded
import Verif.Proofs.RoundedLoglik
import Verif.Props.CutOff
import Verif.Props.Cholesky

/-!
# C79: rounding errors, `loglikelihood`, and the condition on the noise
-/

open Matrix Topology

namespace Verif

variable {n m k : ℕ}

/-- **C79.** `loglikelihood`, if the observation noise has a constant positive definite covariance:
for errors up to some `u₀` the call raises no exception and the result differs from the exact one by
at most `K u`, where `K` and `u₀` depend on the model and the data only. -/
theorem C79_loglik (c : ℕ → ℝ) {p : Params n m} {os : List (Obs m)}
    (hdef : p.DefinedFor os.length) (hpsd : p.PSD os.length) {R : Mat m m} (hR : p.R = .const R)
    (hRpd : R.PosDef) :
    ∃ K u₀ : ℝ, 0 < u₀ ∧ ∀ u, 0 ≤ u → u ≤ u₀ → ∀ ar : ArithL c u,
      ∃ x L, flLoglik ar p os = .ok x ∧ kfLoglik p os = .ok L ∧ |x - L| ≤ K * u := by
  have hc := definedFor_iff_covers.mp hdef
  have hP := hpsd.fn hc
  let F : Filter ((u : ℝ) × ArithL c u) := Filter.comap Sigma.fst (𝓝 0)
  have hw : Filter.Tendsto (fun x : (u : ℝ) × ArithL c u => x.1) F (𝓝 0) := Filter.tendsto_comap
  have hRt : ∀ t, (p.fn.R t).PosDef := fun t => by
    have : p.fn.R t = R := by simp [Params.fn, hR, TV.get]
    rw [this]
    exact hRpd
  obtain ⟨v, L, hL, hok, hv⟩ := ow_loglik (F := F) (br := fun x => x.2) hw hc hR
    (fun t ht => near_kfFl (br := fun x => x.2.toArith) hw _ _ t fun s hs _ =>
      obs_det_unit hP (by omega) (hRt s) _)
    (fun t ht _ => Matrix.PosDef.posSemidef_add
      ((hP.pred ht _).mul_mul_conjTranspose_same (p.fn.C t)) (hRt t))
  obtain ⟨K, hK⟩ := hv.bound
  have hall := hok.and hK
  rw [Filter.eventually_comap, Metric.eventually_nhds_iff] at hall
  obtain ⟨e, he, hall⟩ := hall
  refine ⟨K, e / 2, by linarith, fun u hu0 hu ar => ?_⟩
  have := hall (y := u) (by rw [Real.dist_eq, sub_zero, abs_of_nonneg hu0]; linarith) ⟨u, ar⟩ rfl
  refine ⟨_, L, this.1, hL, ?_⟩
  have h2 := this.2
  rw [Real.norm_eq_abs, Real.norm_eq_abs, abs_of_nonneg hu0] at h2
  exact h2

/-! ### Arithmetic in which products are too small -/

theorem abs_dot_le (x y : Vec k) : |x ⬝ᵥ y| ≤ ∑ i, |x i| * |y i| :=
  (Finset.abs_sum_le_sum_abs _ _).trans (Finset.sum_le_sum fun i _ => (abs_mul _ _).le)

/-- Arithmetic in which all inner products are wrong by the factor `s`, and nothing else has an
error. -/
noncomputable def scaledArith (svd : SvdRoutine) {u s : ℝ} (hu : 0 ≤ u) (hs : |s - 1| ≤ u) :
    Arith (fun k => (k : ℝ) + 1) u where
  add x y := x + y
  sub x y := x - y
  dot _ x y := s * (x ⬝ᵥ y)
  pinv := svd.pinv u
  add_err x y := by simp only [sub_self, abs_zero]; positivity
  sub_err x y := by simp only [sub_self, abs_zero]; positivity
  dot_err k x y := by
    have h1 := abs_dot_le x y
    have h2 : s * (x ⬝ᵥ y) - x ⬝ᵥ y = (s - 1) * (x ⬝ᵥ y) := by ring
    have h3 : 0 ≤ ∑ i, |x i| * |y i| := Finset.sum_nonneg fun i _ => by positivity
    rw [h2, abs_mul]
    have h4 := mul_le_mul hs h1 (abs_nonneg _) hu
    have h5 : 0 ≤ (k : ℝ) * u * (∑ i, |x i| * |y i| + 1) := by positivity
    nlinarith
  pinv_err k M := by
    refine ⟨0, k * u, (svd.run k M).1, (svd.run k M).2.1, (svd.run k M).2.2, fun i j => ?_,
      by positivity, by nlinarith, ?_, fun i j => ?_⟩
    · have := sumAbs_nonneg M
      simp only [Matrix.zero_apply, abs_zero]
      positivity
    · rw [add_zero]; exact svd.correct k M
    · have := sumAbs_nonneg (svdPinv (k * u) (svd.run k M).1 (svd.run k M).2.1 (svd.run k M).2.2)
      have e : svd.pinv u k M = svdPinv (k * u) (svd.run k M).1 (svd.run k M).2.1
        (svd.run k M).2.2 := rfl
      rw [e, sub_self, abs_zero]
      positivity

/-- The same, with exact elementary operations in `loglikelihood`. -/
noncomputable def scaledArithL (svd : SvdRoutine) {u s : ℝ} (hu : 0 ≤ u) (hs : |s - 1| ≤ u) :
    ArithL (fun k => (k : ℝ) + 1) u where
  toArith := scaledArith svd hu hs
  mulr x y := x * y
  sq x := x ^ 2
  log := Real.log
  sum _ x := ∑ i, x i
  npPi := Real.pi
  chol _ := cholesky
  solve _ L b := L⁻¹ *ᵥ b
  mulr_err x y := by simp only [sub_self, abs_zero]; positivity
  sq_err x := by simp only [sub_self, abs_zero]; positivity
  log_err x _ := by simp only [sub_self, abs_zero]; positivity
  sum_err k x := by
    have : 0 ≤ ∑ i, |x i| := Finset.sum_nonneg fun i _ => abs_nonneg _
    simp only [sub_self, abs_zero]
    positivity
  pi_err := by
    have := Real.pi_pos
    simp only [sub_self, abs_zero]
    positivity
  chol_err k M := by
    have h0 := sumAbs_nonneg M
    have hE : ∀ i j : Fin k, |(0 : Mat k k) i j| ≤ ((k : ℝ) + 1) * u * (sumAbs M + 1) := fun i j => by
      simp only [Matrix.zero_apply, abs_zero]; positivity
    unfold cholesky
    split_ifs with h
    · exact ⟨0, hE, by rw [add_zero]; exact h.choose_spec⟩
    · refine ⟨rfl, 0, transpose_zero, hE, fun hp => h ?_⟩
      rw [add_zero] at hp
      exact exists_isCholesky _ hp
  solve_err k L b hL := by
    have h0 := sumAbs_nonneg L
    refine ⟨0, fun i j => ?_, ?_⟩
    · simp only [Matrix.zero_apply, abs_zero]; positivity
    · rw [add_zero, mulVec_mulVec, mul_nonsing_inv _ hL.isUnit, one_mulVec]

theorem abs_one_sub_sub_one {u : ℝ} (hu : 0 ≤ u) : |1 - u - 1| ≤ u := by
  rw [show 1 - u - 1 = -u by ring, abs_neg, abs_of_nonneg hu]

/-- Inner products too small by the factor `1 - u`. -/
noncomputable abbrev lowArith (svd : SvdRoutine) {u : ℝ} (hu : 0 ≤ u) :
    Arith (fun k => (k : ℝ) + 1) u := scaledArith svd hu (abs_one_sub_sub_one hu)

theorem scaled_mul (svd : SvdRoutine) {u s : ℝ} (hu : 0 ≤ u) (hs : |s - 1| ≤ u) (a b : ℝ) :
    (scaledArith svd hu hs).mul (diagonal fun _ : Fin 1 => a) (diagonal fun _ : Fin 1 => b)
      = diagonal fun _ : Fin 1 => s * (a * b) := by
  ext i j
  fin_cases i; fin_cases j
  simp [Arith.mul, scaledArith, dotProduct]

theorem scaled_mulV (svd : SvdRoutine) {u s : ℝ} (hu : 0 ≤ u) (hs : |s - 1| ≤ u) (a b : ℝ) :
    (scaledArith svd hu hs).mulV (diagonal fun _ : Fin 1 => a) (fun _ : Fin 1 => b)
      = fun _ : Fin 1 => s * (a * b) := by
  ext i
  fin_cases i
  simp [Arith.mulV, scaledArith, dotProduct]

theorem scaled_pinv (svd : SvdRoutine) {u s : ℝ} (hu : 0 ≤ u) (hs : |s - 1| ≤ u) (h1 : u < 1) {a : ℝ} (ha : 0 < a) :
    (scaledArith svd hu hs).pinv 1 (diagonal fun _ : Fin 1 => a) = diagonal fun _ : Fin 1 => a⁻¹ := by
  show svd.pinv u 1 _ = _
  rw [pinv_diagonal svd u fun _ => ha.le]
  congr 1
  funext i
  have : maxSingular (fun _ : Fin 1 => a) = a := by
    simp [maxSingular, ha.le]
  rw [this, if_pos]
  push_cast
  nlinarith

theorem low_correct (svd : SvdRoutine) {u : ℝ} (hu : 0 ≤ u) (h1 : u < 1) {v : ℝ} (hv : 0 < v)
    (x z : ℝ) :
    flCorrect (lowArith svd hu) (diagonal fun _ : Fin 1 => 1) (diagonal fun _ : Fin 1 => 0)
      (fun _ => 0) (fun _ => x) (diagonal fun _ => v) ⟨fun _ => z, fun _ => false⟩
    = (diagonal fun _ => 1, fun _ => x + (1 - u) * (z - (1 - u) * x),
        diagonal fun _ => v * (1 - (1 - u) ^ 2)) := by
  have hu1 : 0 < 1 - u := by linarith
  have hpos : 0 < (1 - u) * (1 * ((1 - u) * (v * 1))) := by positivity
  have hadd : ∀ a b : ℝ, (lowArith svd hu).madd (diagonal fun _ : Fin 1 => a)
      (diagonal fun _ : Fin 1 => b) = diagonal fun _ : Fin 1 => a + b := fun a b => by
    ext i j
    fin_cases i; fin_cases j
    simp [Arith.madd, scaledArith]
  have hsub : ∀ a b : ℝ, (lowArith svd hu).msub (diagonal fun _ : Fin 1 => a)
      (diagonal fun _ : Fin 1 => b) = diagonal fun _ : Fin 1 => a - b := fun a b => by
    ext i j
    fin_cases i; fin_cases j
    simp [Arith.msub, scaledArith]
  have hm : ¬ (⟨fun _ => z, fun _ => false⟩ : Obs 1).missing := by simp [Obs.missing]
  simp only [flCorrect, hm, not_false_eq_true, if_true, diagonal_transpose, scaled_mul, scaled_mulV,
    hadd, hsub, add_zero, scaled_pinv svd hu _ h1 hpos]
  have e : (1 - u) * (v * ((1 - u) * (1 * ((1 - u) * (1 * ((1 - u) * (v * 1))))⁻¹))) = 1 := by
    field_simp
  rw [e]
  refine Prod.ext rfl (Prod.ext ?_ ?_)
  · have hd : (lowArith svd hu).vsub (fun _ : Fin 1 => z) ((lowArith svd hu).vadd
        (fun _ : Fin 1 => (1 - u) * (1 * x)) fun _ => 0) = fun _ => z - (1 - u) * x := by
      funext i
      simp [Arith.vadd, Arith.vsub, scaledArith]
    rw [hd, scaled_mulV]
    funext i
    simp [Arith.vadd, scaledArith]
  · show diagonal _ = diagonal _
    congr 1
    funext i
    ring

/-- A constant quantity observed without noise. -/
noncomputable def noNoise : Params 1 1 where
  A := .const (diagonal fun _ => 1)
  b := .const fun _ => 0
  Q := .const (diagonal fun _ => 0)
  C := .const (diagonal fun _ => 1)
  d := .const fun _ => 0
  R := .const (diagonal fun _ => 0)
  mu0 := fun _ => 0
  S0 := diagonal fun _ => 1

/-- **C79**, the condition on the noise cannot be dropped: for a sensor without noise there are data
such that for every `u`, however small, there is an arithmetic with errors up to `u` in which `filter`
is wrong by at least one half. -/
theorem C79_needs_noise : ∃ (c : ℕ → ℝ) (p : Params 1 1) (os : List (Obs 1)),
    p.DefinedFor os.length ∧ p.PSD os.length ∧
    ∀ u, 0 < u → u ≤ 1 / 2 → ∃ (ar : Arith c u) (l l' : List (Vec 1 × Mat 1 1)),
      flFilter ar p os = .ok l ∧ kfFilter p os = .ok l' ∧ ∀ e, WithinErr e l l' → 1 / 2 ≤ e := by
  obtain ⟨svd⟩ := exists_svdRoutine
  refine ⟨fun k => (k : ℝ) + 1, noNoise,
    [⟨fun _ => 0, fun _ => false⟩, ⟨fun _ => 1, fun _ => false⟩],
    definedFor_iff_covers.mpr ⟨trivial, trivial, trivial, trivial, trivial, trivial⟩,
    ⟨fun t _ Q h => ?_, fun t _ R h => ?_, ?_⟩, fun u hu hu2 => ?_⟩
  · cases h; exact PosSemidef.diagonal fun i => le_refl _
  · cases h; exact PosSemidef.diagonal fun i => le_refl _
  · exact PosSemidef.diagonal fun i => zero_le_one
  have h1 : u < 1 := by linarith
  have hv : 0 < (1 - u) ^ 2 * (1 - (1 - u) ^ 2) := by
    have : 0 < 1 - u := by linarith
    have : 0 < 1 - (1 - u) ^ 2 := by nlinarith
    positivity
  refine ⟨lowArith svd hu.le, [(fun _ => 0, diagonal fun _ => 1 - (1 - u) ^ 2),
    (fun _ => 1 - u, diagonal fun _ => (1 - u) ^ 2 * (1 - (1 - u) ^ 2) * (1 - (1 - u) ^ 2))],
    [(fun _ => 0, 0), (fun _ => 0, 0)], ?_, ?_, ?_⟩
  · have hp : flPredict (lowArith svd hu.le) (diagonal fun _ => 1) (diagonal fun _ => 0)
        (fun _ => 0) (fun _ => 0) (diagonal fun _ => 1 - (1 - u) ^ 2)
        = ((fun _ => 0 : Vec 1), diagonal fun _ => (1 - u) ^ 2 * (1 - (1 - u) ^ 2)) := by
      rw [flPredict, diagonal_transpose, scaled_mul, scaled_mul, scaled_mulV]
      refine Prod.ext ?_ ?_
      · funext i; simp [Arith.vadd, scaledArith]
      · ext i j
        fin_cases i; fin_cases j
        simp [Arith.madd, scaledArith]
        ring
    have c0 := low_correct svd hu.le h1 one_pos 0 0
    have c1 := low_correct svd hu.le h1 hv 0 1
    simp only [one_mul, mul_zero, sub_zero, zero_add, mul_one] at c0 c1
    simp only [flFilter, flFull, flLoop, flStep, noNoise, lastDims, bind, Except.bind, pure,
      Except.pure, c0, hp, c1, List.map_cons, List.map_nil]
  · have hm : ∀ z : Vec 1, ¬ (⟨z, fun _ => false⟩ : Obs 1).missing := by simp [Obs.missing]
    have h0 : (fun _ => 0 : Vec 1) = 0 := rfl
    have hd : diagonal (0 : Vec 1) = 0 := diagonal_zero
    simp only [kfFilter, filterFull, filterLoop, filterStep, noNoise, lastDims, bind, Except.bind,
      pure, Except.pure, filterCorrect, filterPredict, hm, not_false_eq_true, if_true,
      diagonal_one, hd, h0, transpose_one, Matrix.one_mul, Matrix.mul_one, mulVec_zero,
      add_zero, pinv_eq_inv (A := (1 : Mat 1 1)) (by simp), inv_one, sub_self, pinv_zero,
      Matrix.zero_mul, zero_mulVec, List.map_cons, List.map_nil]
  · intro e h
    obtain ⟨-, h⟩ := List.forall₂_cons.mp h
    obtain ⟨h, -⟩ := List.forall₂_cons.mp h
    have := h.1 0
    simp only [sub_zero] at this
    rw [abs_of_nonneg (by linarith)] at this
    linarith

/-! ### Cases that meet the hypotheses -/

/-- There are such arithmetics, exact and inexact. -/
example : ∃ c : ℕ → ℝ, ∀ u, 0 ≤ u → ∃ ar : ArithL c u, ∀ x y : Vec 1,
    ar.dot 1 x y = (1 - u) * (x ⬝ᵥ y) := by
  obtain ⟨svd⟩ := exists_svdRoutine
  exact ⟨_, fun u hu => ⟨scaledArithL svd hu (abs_one_sub_sub_one hu), fun x y => rfl⟩⟩

/-- A model with three observations, one of them missing, as in the theorems. -/
example : exPosDef.DefinedFor 3 ∧ exPosDef.PSD 3 ∧ (∃ R, exPosDef.R = .const R ∧ R.PosDef) ∧
    (∀ t R, lastDims exPosDef.R t = .ok R → R.PosDef) ∧
    (∀ t Q, lastDims exPosDef.Q t = .ok Q → Q.PosDef) ∧
    ([⟨![1], fun _ => false⟩, ⟨![7], fun _ => true⟩, ⟨![2], fun _ => false⟩] :
      List (Obs 1)).length = 3 := by
  obtain ⟨⟨Q, hQ, hQp⟩, ⟨R, hR, hRp⟩, hS⟩ := exPosDef_posDef
  have h1 : ∀ t R, lastDims exPosDef.R t = .ok R → R.PosDef := fun t R' h => by
    rw [hR] at h; cases h; exact hRp
  have h2 : ∀ t Q, lastDims exPosDef.Q t = .ok Q → Q.PosDef := fun t Q' h => by
    rw [hQ] at h; cases h; exact hQp
  exact ⟨definedFor_iff_covers.mpr ⟨le_refl 2, trivial, trivial, trivial, trivial, trivial⟩,
    ⟨fun t _ Q h => (h2 t Q h).posSemidef, fun t _ R h => (h1 t R h).posSemidef, hS.posSemidef⟩,
    ⟨R, hR, hRp⟩, h1, h2, rfl⟩

end Verif
