import Verif.Proofs.RoundedSteps

/-!
# Runs of any length with rounding errors
-/

open Matrix
open scoped MatrixOrder

namespace Verif

variable {n m k l : ℕ} {c : ℕ → ℝ}

/-! ### Entries -/

theorem abs_mul_entry {r : ℕ} {M : Mat k l} {N : Mat l r} {α β : ℝ} (hα : 0 ≤ α)
    (hM : ∀ a b, |M a b| ≤ α) (hN : ∀ a b, |N a b| ≤ β) (a : Fin k) (b : Fin r) :
    |(M * N) a b| ≤ l * (α * β) := by
  rw [Matrix.mul_apply]
  calc |∑ j, M a j * N j b| ≤ ∑ j, |M a j * N j b| := Finset.abs_sum_le_sum_abs _ _
    _ ≤ ∑ _j : Fin l, α * β := Finset.sum_le_sum fun j _ => by
        rw [abs_mul]; exact mul_le_mul (hM a j) (hN j b) (abs_nonneg _) hα
    _ = l * (α * β) := by
        rw [Finset.sum_const, Finset.card_univ, Fintype.card_fin, nsmul_eq_mul]

theorem abs_mulVec_entry {M : Mat k l} {v : Vec l} {α β : ℝ} (hα : 0 ≤ α)
    (hM : ∀ a b, |M a b| ≤ α) (hv : ∀ a, |v a| ≤ β) (a : Fin k) :
    |(M *ᵥ v) a| ≤ l * (α * β) := by
  rw [mulVec, dotProduct]
  calc |∑ j, M a j * v j| ≤ ∑ j, |M a j * v j| := Finset.abs_sum_le_sum_abs _ _
    _ ≤ ∑ _j : Fin l, α * β := Finset.sum_le_sum fun j _ => by
        rw [abs_mul]; exact mul_le_mul (hM a j) (hv j) (abs_nonneg _) hα
    _ = l * (α * β) := by
        rw [Finset.sum_const, Finset.card_univ, Fintype.card_fin, nsmul_eq_mul]

theorem abs_conj_entry {A E : Mat n n} {α β : ℝ} (hα : 0 ≤ α) (hβ : 0 ≤ β)
    (hA : ∀ a b, |A a b| ≤ α) (hE : ∀ a b, |E a b| ≤ β) (a b : Fin n) :
    |(A * E * Aᵀ) a b| ≤ n * (n * (α * β) * α) :=
  abs_mul_entry (by positivity) (abs_mul_entry hα hA hE) (fun i j => hA j i) a b

/-- The entries of a covariance matrix are at most its largest variance. -/
theorem abs_entry_le_of_diag {S : Mat n n} (hS : S.PosSemidef) {β : ℝ} (h : ∀ a, S a a ≤ β)
    (a b : Fin n) : |S a b| ≤ β := by
  obtain ⟨hs, hp⟩ := posSemidef_iff_real.mp hS
  have e : S b a = S a b := by
    have := congrFun (congrFun hs a) b
    simpa using this
  have h1 := hp (Pi.single a 1 + Pi.single b 1)
  have h2 := hp (Pi.single a 1 - Pi.single b 1)
  simp only [mulVec_add, mulVec_sub, dotProduct_add, dotProduct_sub, add_dotProduct,
    sub_dotProduct, single_one_dotProduct, mulVec_single_one, Matrix.col_apply] at h1 h2
  rw [abs_le]
  constructor <;> linarith [h a, h b]

theorem le_smul_one_of_diag {S : Mat n n} (hS : S.PosSemidef) {β : ℝ} (h : ∀ a, S a a ≤ β) :
    S ≤ (n * β) • (1 : Mat n n) := by
  refine (le_trace_smul (Matrix.nonneg_iff_posSemidef.mpr hS)).trans ?_
  refine smul_le_smul' (Matrix.nonneg_iff_posSemidef.mpr Matrix.PosSemidef.one) ?_
  calc S.trace = ∑ a, S a a := rfl
    _ ≤ ∑ _a : Fin n, β := Finset.sum_le_sum fun a _ => h a
    _ = n * β := by rw [Finset.sum_const, Finset.card_univ, Fintype.card_fin, nsmul_eq_mul]

theorem AtLeast.le {q : ℝ} {S : Mat n n} (h : AtLeast q S) (hS : S.PosSemidef) :
    q • (1 : Mat n n) ≤ S := by
  rw [Matrix.le_iff, posSemidef_iff_real]
  refine ⟨?_, fun v => ?_⟩
  · rw [transpose_sub, symm_of_posSemidef hS, transpose_smul, transpose_one]
  · rw [sub_mulVec, smul_mulVec, one_mulVec, dotProduct_sub, dotProduct_smul, smul_eq_mul]
    linarith [h v]

/-! ### Exact runs with bounded parameters, data and variances -/

/-- Parameters, data and filtered variances are bounded by `κ`; the transition noise is at least `q`,
the observation noise at least `r`. -/
structure PFun.Within (P : PFun n m) (z : ℕ → Obs m) (T : ℕ) (κ q r : ℝ) : Prop where
  A : ∀ t, t + 1 < T → ∀ a b, |P.A t a b| ≤ κ
  b : ∀ t, t + 1 < T → ∀ a, |P.b t a| ≤ κ
  Q : ∀ t, t + 1 < T → ∀ a b, |P.Q t a b| ≤ κ
  Qlow : ∀ t, t + 1 < T → AtLeast q (P.Q t)
  C : ∀ t, t < T → ∀ a b, |P.C t a b| ≤ κ
  d : ∀ t, t < T → ∀ a, |P.d t a| ≤ κ
  R : ∀ t, t < T → ∀ a b, |P.R t a b| ≤ κ
  Rlow : ∀ t, t < T → AtLeast r (P.R t)
  mu0 : ∀ a, |P.mu0 a| ≤ κ
  S0 : ∀ a b, |P.S0 a b| ≤ κ
  obs : ∀ t, t < T → ¬ (z t).missing → ∀ a, |(z t).val a| ≤ κ
  var : ∀ t, t < T → ∀ a, (P.kf z t).filtCov a a ≤ κ

/-- What follows for the exact run. -/
structure PFun.Tame (P : PFun n m) (z : ℕ → Obs m) (T : ℕ) (B ρ q r : ℝ) : Prop where
  A : ∀ t, t + 1 < T → ∀ a b, |P.A t a b| ≤ B
  b : ∀ t, t + 1 < T → ∀ a, |P.b t a| ≤ B
  Q : ∀ t, t + 1 < T → ∀ a b, |P.Q t a b| ≤ B
  C : ∀ t, t < T → ∀ a b, |P.C t a b| ≤ B
  d : ∀ t, t < T → ∀ a, |P.d t a| ≤ B
  R : ∀ t, t < T → ∀ a b, |P.R t a b| ≤ B
  Rlow : ∀ t, t < T → AtLeast r (P.R t)
  obs : ∀ t, t < T → ¬ (z t).missing → ∀ a, |(z t).val a| ≤ B
  predCov : ∀ t, t < T → ∀ a b, |(P.kf z t).predCov a b| ≤ B
  filtCov : ∀ t, t < T → ∀ a b, |(P.kf z t).filtCov a b| ≤ B
  predMean : ∀ t, t < T → ∀ a, |(P.kf z t).predMean a| ≤ B
  filtMean : ∀ t, t < T → ∀ a, |(P.kf z t).filtMean a| ≤ B
  low : ∀ t, t + 1 < T → AtLeast q (P.kf z (t + 1)).predCov
  rate : ∀ t, t + 1 < T →
    P.A t * (P.kf z t).filtCov * (P.A t)ᵀ ≤ ρ ^ 2 • (P.kf z (t + 1)).predCov

/-- The matrix by which the correction multiplies errors of the prediction. -/
noncomputable def PFun.loopG (P : PFun n m) (z : ℕ → Obs m) (t : ℕ) : Mat n n :=
  if (z t).missing then 1 else 1 - gain (P.kf z t).predCov (P.R t) (P.C t) * P.C t

theorem PFun.loopG_le {P : PFun n m} {T : ℕ} (hP : P.PSD T) (z : ℕ → Obs m) {t : ℕ} (ht : t < T) :
    P.loopG z t * (P.kf z t).predCov * (P.loopG z t)ᵀ ≤ (P.kf z t).filtCov := by
  unfold PFun.loopG
  split_ifs with hm
  · rw [(P.kf_missing z hm).2.2]; simp
  · rw [(P.kf_observed z hm).2.2]
    exact closed_loop_le (hP.filt_nonneg z ht).1 (Matrix.nonneg_iff_posSemidef.mpr (hP.R t ht)) _

theorem gain_entry {κ β r : ℝ} (hκ : 0 ≤ κ) (hβ : 0 ≤ β) (hr : 0 < r) {P : Mat n n} {R : Mat m m}
    {C : Mat m n} (hP : P.PosSemidef) (hPβ : ∀ a b, |P a b| ≤ β) (hC : ∀ a b, |C a b| ≤ κ)
    (hR : AtLeast r R) (a : Fin n) (b : Fin m) :
    |gain P R C a b| ≤ m * (n * (β * κ) * r⁻¹) :=
  abs_mul_entry (by positivity) (abs_mul_entry hβ hPβ (fun i j => hC j i))
    ((hR.add_left (posSemidef_conj' hP C)).pinv_le hr) a b

theorem exists_tame (n m : ℕ) (κ : ℝ) {q r : ℝ} (hq : 0 < q) (hr : 0 < r) :
    ∃ B ρ : ℝ, 1 ≤ B ∧ 0 ≤ ρ ∧ ρ < 1 ∧ ∀ (P : PFun n m) (z : ℕ → Obs m) (T : ℕ), P.PSD T →
      P.Within z T κ q r → P.Tame z T B ρ q r := by
  -- all bounds
  obtain ⟨κ1, hκ1⟩ : ∃ x : ℝ, x = max κ 1 := ⟨_, rfl⟩
  have k0 : (0 : ℝ) ≤ κ1 := by rw [hκ1]; exact le_trans zero_le_one (le_max_right _ _)
  have kκ : κ ≤ κ1 := by rw [hκ1]; exact le_max_left _ _
  obtain ⟨β, hβ⟩ : ∃ x : ℝ, x = n * (n * (κ1 * κ1) * κ1) + κ1 := ⟨_, rfl⟩
  have β0 : 0 ≤ β := by rw [hβ]; positivity
  have κβ : κ1 ≤ β := by rw [hβ]; exact le_add_of_nonneg_left (by positivity)
  obtain ⟨ρ, hρ0, hρ1, hrate⟩ := exists_rate (q := q) (β := max (n * β) q) hq (le_max_right _ _)
  obtain ⟨g, hg⟩ : ∃ x : ℝ, x = m * (n * (β * κ1) * r⁻¹) := ⟨_, rfl⟩
  have g0 : 0 ≤ g := by rw [hg]; positivity
  -- part of the mean that does not come from the mean before
  obtain ⟨M0, hM0⟩ : ∃ x : ℝ, x = n * (κ1 * (m * (g * (κ1 + κ1)))) + κ1 := ⟨_, rfl⟩
  have M00 : 0 ≤ M0 := by rw [hM0]; positivity
  -- mean at time one
  obtain ⟨M1, hM1⟩ : ∃ x : ℝ, x = n * (κ1 * ((1 + m * (g * κ1)) * (n * κ1) + m * (g * (κ1 + κ1)))) + κ1 := ⟨_, rfl⟩
  have M10 : 0 ≤ M1 := by rw [hM1]; positivity
  have hsq := Real.sqrt_pos.mpr hq
  obtain ⟨L, hL⟩ : ∃ x : ℝ, x = n * M1 / √q + n * M0 / √q / (1 - ρ) := ⟨_, rfl⟩
  have h1ρ : 0 < 1 - ρ := by linarith
  have L0 : 0 ≤ L := by rw [hL]; positivity
  have hLstep : ρ * L + n * M0 / √q ≤ L := by
    have : n * M0 / √q ≤ (1 - ρ) * L := by
      rw [hL, mul_add, mul_div_cancel₀ _ h1ρ.ne']
      exact le_add_of_nonneg_left (by positivity)
    linarith
  have hL1 : n * M1 / √q ≤ L := by rw [hL]; exact le_add_of_nonneg_right (by positivity)
  obtain ⟨X, hX⟩ : ∃ x : ℝ, x = κ1 + L * √β := ⟨_, rfl⟩
  have X0 : 0 ≤ X := by rw [hX]; positivity
  obtain ⟨Y, hY⟩ : ∃ x : ℝ, x = (1 + m * (g * κ1)) * (n * X) + m * (g * (κ1 + κ1)) + X := ⟨_, rfl⟩
  have Y0 : 0 ≤ Y := by rw [hY]; positivity
  refine ⟨β + X + Y + 1, ρ, by linarith, hρ0, hρ1, fun P z T hP hW => ?_⟩
  have up : ∀ {x : ℝ}, x ≤ κ → x ≤ β + X + Y + 1 := fun {x} h => by linarith
  have hf : ∀ t, t < T → ∀ a b, |(P.kf z t).filtCov a b| ≤ κ1 := fun t ht =>
    abs_entry_le_of_diag (hP.filt ht z) fun a => (hW.var t ht a).trans kκ
  have hA : ∀ t, t + 1 < T → ∀ a b, |P.A t a b| ≤ κ1 := fun t ht a b => (hW.A t ht a b).trans kκ
  have hp : ∀ t, t < T → ∀ a b, |(P.kf z t).predCov a b| ≤ β := by
    intro t ht a b
    cases t with
    | zero => exact ((hW.S0 a b).trans kκ).trans κβ
    | succ t =>
      rw [(P.kf_pred_succ z t).2, hβ]
      refine (abs_add_le _ _).trans (add_le_add ?_ ((hW.Q t ht a b).trans kκ))
      exact abs_conj_entry k0 k0 (hA t ht) (hf t (by omega)) a b
  have hlow : ∀ t, t + 1 < T → AtLeast q (P.kf z (t + 1)).predCov := by
    intro t ht
    rw [(P.kf_pred_succ z t).2]
    exact (hW.Qlow t ht).add_left (posSemidef_conj' (hP.filt (by omega) z) _)
  have hrt : ∀ t, t + 1 < T →
      P.A t * (P.kf z t).filtCov * (P.A t)ᵀ ≤ ρ ^ 2 • (P.kf z (t + 1)).predCov := by
    intro t ht
    have h1 : (P.kf z (t + 1)).predCov ≤ (max (n * β) q) • (1 : Mat n n) :=
      (le_smul_one_of_diag (hP.pred ht z) fun a => (le_abs_self _).trans (hp _ ht a a)).trans
        (smul_le_smul' (Matrix.nonneg_iff_posSemidef.mpr Matrix.PosSemidef.one) (le_max_left _ _))
    have h2 := hrate ((hW.Qlow t ht).le (hP.Q t ht)) h1
    rw [(P.kf_pred_succ z t).2] at h2 ⊢
    exact pred_le h2
  -- the gain and the matrix of the closed loop
  have hgain : ∀ t, t < T → ∀ a b, |gain (P.kf z t).predCov (P.R t) (P.C t) a b| ≤ g :=
    fun t ht => by
      rw [hg]
      exact gain_entry k0 β0 hr (hP.pred ht z) (hp t ht)
        (fun a b => (hW.C t ht a b).trans kκ) (hW.Rlow t ht)
  -- the corrected mean
  have hcorr : ∀ t, t < T → ∃ γ : Vec n, (∀ a, |γ a| ≤ m * (g * (κ1 + κ1))) ∧
      (P.kf z t).filtMean = P.loopG z t *ᵥ (P.kf z t).predMean + γ := by
    intro t ht
    by_cases hm : (z t).missing
    · refine ⟨0, fun a => by simp only [Pi.zero_apply, abs_zero]; positivity, ?_⟩
      rw [PFun.loopG, if_pos hm, (P.kf_missing z hm).2.1, one_mulVec, add_zero]
    · refine ⟨gain (P.kf z t).predCov (P.R t) (P.C t) *ᵥ ((z t).val - P.d t),
        abs_mulVec_entry g0 (hgain t ht) fun a => ?_, ?_⟩
      · exact (abs_sub _ _).trans (add_le_add ((hW.obs t ht hm a).trans kκ)
          ((hW.d t ht a).trans kκ))
      · rw [PFun.loopG, if_neg hm, (P.kf_observed z hm).2.1]
        simp only [sub_mulVec, one_mulVec, mulVec_sub, mulVec_add, mulVec_mulVec]
        abel
  have hG : ∀ t, t < T → ∀ a b, |P.loopG z t a b| ≤ 1 + m * (g * κ1) := by
    intro t ht a b
    have h1 : |(1 : Mat n n) a b| ≤ 1 := by
      by_cases hab : a = b
      · rw [hab, one_apply_eq, abs_one]
      · rw [one_apply_ne hab, abs_zero]; exact zero_le_one
    unfold PFun.loopG
    split_ifs with hm
    · exact h1.trans (le_add_of_nonneg_right (by positivity))
    · rw [Matrix.sub_apply]
      exact (abs_sub _ _).trans (add_le_add h1 (abs_mul_entry g0 (hgain t ht)
        (fun a b => (hW.C t ht a b).trans kκ) a b))
  -- the predicted means in units of the covariance
  have hdom : ∀ t, t + 1 < T → DomV L (P.kf z (t + 1)).predMean (P.kf z (t + 1)).predCov := by
    intro t
    induction t with
    | zero =>
      intro ht
      refine (domV_of_entries hq (hlow 0 ht) M10 fun a => ?_).weaken hL1
      rw [(P.kf_pred_succ z 0).1, hM1]
      refine (abs_add_le _ _).trans (add_le_add ?_ ((hW.b 0 ht a).trans kκ))
      refine abs_mulVec_entry k0 (hA 0 ht) (fun a => ?_) a
      obtain ⟨γ, hγ, e⟩ := hcorr 0 (by omega)
      rw [e]
      refine (abs_add_le _ _).trans (add_le_add ?_ (hγ a))
      refine (abs_mulVec_entry (by positivity) (hG 0 (by omega))
        (fun a => (hW.mu0 a).trans kκ) a).trans (le_of_eq ?_)
      ring
    | succ t ih =>
      intro ht
      obtain ⟨γ, hγ, e⟩ := hcorr (t + 1) (by omega)
      have h1 := ((ih (by omega)).map (P.loopG z (t + 1))).mono (ρ := 1)
        (S' := (P.kf z (t + 1)).filtCov) L0 zero_le_one (by
        rw [one_pow, one_smul]; exact PFun.loopG_le hP z (t := t + 1) (Nat.lt_of_succ_lt ht))
      rw [one_mul] at h1
      have h2 := (h1.map (P.A (t + 1))).mono (S' := (P.kf z (t + 1 + 1)).predCov) L0 hρ0
        (hrt (t + 1) ht)
      have h3 : DomV (n * M0 / √q) (P.A (t + 1) *ᵥ γ + P.b (t + 1))
          (P.kf z (t + 1 + 1)).predCov := by
        refine domV_of_entries hq (hlow (t + 1) ht) M00 fun a => ?_
        rw [hM0]
        exact (abs_add_le _ _).trans (add_le_add (abs_mulVec_entry k0 (hA _ ht) hγ a)
          ((hW.b _ ht a).trans kκ))
      have h4 := (h2.add h3).weaken hLstep
      rw [(P.kf_pred_succ z (t + 1)).1, e, mulVec_add, add_assoc]
      exact h4
  have hpm : ∀ t, t < T → ∀ a, |(P.kf z t).predMean a| ≤ X := by
    intro t ht a
    rw [hX]
    cases t with
    | zero => exact ((hW.mu0 a).trans kκ).trans (le_add_of_nonneg_right (by positivity))
    | succ t =>
      exact ((hdom t ht).entry L0 a ((le_abs_self _).trans (hp _ ht a a))).trans
        (le_add_of_nonneg_left k0)
  have hfm : ∀ t, t < T → ∀ a, |(P.kf z t).filtMean a| ≤ Y := by
    intro t ht a
    obtain ⟨γ, hγ, e⟩ := hcorr t ht
    rw [e]
    refine ((abs_add_le _ _).trans (add_le_add (abs_mulVec_entry (by positivity) (hG t ht)
      (hpm t ht) a) (hγ a))).trans ?_
    rw [hY]
    have : (n : ℝ) * ((1 + m * (g * κ1)) * X) = (1 + m * (g * κ1)) * (n * X) := by ring
    linarith
  exact ⟨fun t ht a b => up (hW.A t ht a b), fun t ht a => up (hW.b t ht a),
    fun t ht a b => up (hW.Q t ht a b), fun t ht a b => up (hW.C t ht a b),
    fun t ht a => up (hW.d t ht a), fun t ht a b => up (hW.R t ht a b), hW.Rlow,
    fun t ht hm a => up (hW.obs t ht hm a),
    fun t ht a b => (hp t ht a b).trans (by linarith),
    fun t ht a b => (hf t ht a b).trans (by linarith),
    fun t ht a => (hpm t ht a).trans (by linarith),
    fun t ht a => (hfm t ht a).trans (by linarith), hlow, hrt⟩

/-! ### Errors of the computed run -/

/-- Errors of the computed predicted moments. -/
noncomputable def PFun.errM {u : ℝ} (ar : Arith c u) (P : PFun n m) (z : ℕ → Obs m) (t : ℕ) :
    Vec n := (P.kfFl ar z t).predMean - (P.kf z t).predMean

/-- Errors of the computed predicted moments. -/
noncomputable def PFun.errC {u : ℝ} (ar : Arith c u) (P : PFun n m) (z : ℕ → Obs m) (t : ℕ) :
    Mat n n := (P.kfFl ar z t).predCov - (P.kf z t).predCov

theorem PFun.kfFl_correct {u : ℝ} (ar : Arith c u) (P : PFun n m) (z : ℕ → Obs m) (t : ℕ) :
    (P.kfFl ar z t).filtMean = (flCorrect ar (P.C t) (P.R t) (P.d t) (P.kfFl ar z t).predMean
      (P.kfFl ar z t).predCov (z t)).2.1 ∧
    (P.kfFl ar z t).filtCov = (flCorrect ar (P.C t) (P.R t) (P.d t) (P.kfFl ar z t).predMean
      (P.kfFl ar z t).predCov (z t)).2.2 := by
  cases t <;> exact ⟨rfl, rfl⟩

theorem PFun.kfFl_pred_succ {u : ℝ} (ar : Arith c u) (P : PFun n m) (z : ℕ → Obs m) (t : ℕ) :
    ((P.kfFl ar z (t + 1)).predMean, (P.kfFl ar z (t + 1)).predCov)
      = flPredict ar (P.A t) (P.Q t) (P.b t) (P.kfFl ar z t).filtMean (P.kfFl ar z t).filtCov := rfl

/-- What one step does to the errors: constants `D`, threshold `δ`. -/
structure StepErr (D δ : ℝ) {u : ℝ} (ar : Arith c u) (P : PFun n m) (z : ℕ → Obs m) (t : ℕ) :
    Prop where
  correct : u + sumAbs (P.errC ar z t) + ∑ a, |P.errM ar z t a| ≤ δ → ∃ (g : Mat n n) (γ : Vec n),
    (∀ a b, |g a b| ≤ D * (u + sumAbs (P.errC ar z t) ^ 2)) ∧
    (∀ a, |γ a| ≤ D * (u + sumAbs (P.errC ar z t))) ∧
    (P.kfFl ar z t).filtCov - (P.kf z t).filtCov
      = P.loopG z t * P.errC ar z t * (P.loopG z t)ᵀ + g ∧
    (P.kfFl ar z t).filtMean - (P.kf z t).filtMean = P.loopG z t *ᵥ P.errM ar z t + γ

theorem exists_stepErr (c : ℕ → ℝ) (n m : ℕ) (B ρ q : ℝ) {r : ℝ} (hr : 0 < r) :
    ∃ D δ : ℝ, 0 < D ∧ 0 < δ ∧ ∀ (P : PFun n m) (z : ℕ → Obs m) (T : ℕ), P.PSD T →
      P.Tame z T B ρ q r → ∀ u, 0 ≤ u → ∀ ar : Arith c u, ∀ t, t < T → StepErr D δ ar P z t := by
  obtain ⟨D, δ, hD, hδ, h⟩ := exists_correct_const c n m B hr
  refine ⟨D, δ, hD, hδ, fun P z T hP hT u hu ar t ht => ⟨fun hs => ?_⟩⟩
  have e1 : (P.kf z t).predMean + P.errM ar z t = (P.kfFl ar z t).predMean := by
    rw [PFun.errM]; abel
  have e2 : (P.kf z t).predCov + P.errC ar z t = (P.kfFl ar z t).predCov := by
    rw [PFun.errC]; abel
  obtain ⟨f1, f2⟩ := P.kfFl_correct ar z t
  by_cases hm : (z t).missing
  · refine ⟨0, 0, fun a b => ?_, fun a => ?_, ?_, ?_⟩
    · rw [Matrix.zero_apply, abs_zero]; have := sq_nonneg (sumAbs (P.errC ar z t)); positivity
    · rw [Pi.zero_apply, abs_zero]; have := sumAbs_nonneg (P.errC ar z t); positivity
    · rw [PFun.loopG, if_pos hm, f2, (P.kf_missing z hm).2.2]
      simp [flCorrect, hm, PFun.errC]
    · rw [PFun.loopG, if_pos hm, f1, (P.kf_missing z hm).2.1]
      simp [flCorrect, hm, PFun.errM]
  · obtain ⟨h1, h2⟩ := h ⟨u, ar, P.C t, P.R t, P.d t, (P.kf z t).predMean, (P.kf z t).predCov,
      P.errM ar z t, P.errC ar z t, z t⟩
      ⟨hu, hT.C t ht, hT.R t ht, hT.d t ht, hT.predMean t ht, hT.predCov t ht, hT.obs t ht hm, hm,
        hP.pred ht z, hP.R t ht, hT.Rlow t ht⟩ hs
    refine ⟨_, _, h1, h2, ?_, ?_⟩
    · simp only [CorrIdx.covRest, e1, e2]
      rw [PFun.loopG, if_neg hm, f2, (P.kf_observed z hm).2.2, filterCorrect_gain hm]
      dsimp only
      abel
    · simp only [CorrIdx.meanRest, e1, e2]
      rw [PFun.loopG, if_neg hm, f1, (P.kf_observed z hm).2.1, filterCorrect_gain hm]
      dsimp only
      abel

/-- The errors of the computed moments are at most a constant times `u`, where the constant does not
depend on the length of the run. -/
theorem exists_run_const (c : ℕ → ℝ) (n m : ℕ) (B : ℝ) {ρ q r : ℝ} (hB : 1 ≤ B) (hρ0 : 0 ≤ ρ)
    (hρ1 : ρ < 1) (hq : 0 < q) (hr : 0 < r) :
    ∃ K u₀ : ℝ, 0 < K ∧ 0 < u₀ ∧ ∀ (P : PFun n m) (z : ℕ → Obs m) (T : ℕ), P.PSD T →
      P.Tame z T B ρ q r → ∀ u, 0 ≤ u → u ≤ u₀ → ∀ ar : Arith c u, ∀ t, t < T →
        (∀ a, |(P.kfFl ar z t).predMean a - (P.kf z t).predMean a| ≤ K * u) ∧
        (∀ a b, |(P.kfFl ar z t).predCov a b - (P.kf z t).predCov a b| ≤ K * u) ∧
        (∀ a, |(P.kfFl ar z t).filtMean a - (P.kf z t).filtMean a| ≤ K * u) ∧
        (∀ a b, |(P.kfFl ar z t).filtCov a b - (P.kf z t).filtCov a b| ≤ K * u) := by
  have B0 : 0 ≤ B := zero_le_one.trans hB
  obtain ⟨D, δ, hD, hδ, hstep⟩ := exists_stepErr c n m B ρ q hr
  obtain ⟨D', δ', hD', hδ', hpred⟩ := exists_predict_const c n (2 * B)
  have hsq := Real.sqrt_pos.mpr hq
  have hsB := Real.sqrt_nonneg B
  have h1ρ : 0 < 1 - ρ := by linarith
  have h1ρ2 : 0 < 1 - ρ ^ 2 := by nlinarith
  -- remainder of the covariance, in units of the covariance
  obtain ⟨M, hM⟩ : ∃ x : ℝ, x = n * n * (n * (n * (B * (2 * D)) * B) + D') / q := ⟨_, rfl⟩
  have M0 : 0 ≤ M := by rw [hM]; positivity
  obtain ⟨L, hL⟩ : ∃ x : ℝ, x = M / (1 - ρ ^ 2) := ⟨_, rfl⟩
  have L0 : 0 ≤ L := by rw [hL]; positivity
  have hLs : ρ ^ 2 * L + M = L := by
    have : (1 - ρ ^ 2) * L = M := by rw [hL, mul_div_cancel₀ _ h1ρ2.ne']
    linarith
  obtain ⟨L1, hL1⟩ : ∃ x : ℝ, x = n * n * (L * B) := ⟨_, rfl⟩
  have L10 : 0 ≤ L1 := by rw [hL1]; positivity
  obtain ⟨N, hN⟩ : ∃ x : ℝ, x = n * (n * (B * (D * (1 + L1))) + D') / √q := ⟨_, rfl⟩
  have N0 : 0 ≤ N := by rw [hN]; positivity
  obtain ⟨L', hL'⟩ : ∃ x : ℝ, x = N / (1 - ρ) := ⟨_, rfl⟩
  have L'0 : 0 ≤ L' := by rw [hL']; positivity
  have hLs' : ρ * L' + N = L' := by
    have : (1 - ρ) * L' = N := by rw [hL', mul_div_cancel₀ _ h1ρ.ne']
    linarith
  obtain ⟨L2, hL2⟩ : ∃ x : ℝ, x = n * (L' * √B) := ⟨_, rfl⟩
  have L20 : 0 ≤ L2 := by rw [hL2]; positivity
  obtain ⟨K, hK⟩ : ∃ x : ℝ, x = L * B + 2 * D + L' * √B + D * (1 + L1) := ⟨_, rfl⟩
  have K0 : 0 < K := by rw [hK]; positivity
  refine ⟨K, min (min (1 / (L1 ^ 2 + 1)) (δ / (1 + L1 + L2))) (min δ' (B / K)), K0,
    lt_min (lt_min (by positivity) (by positivity)) (lt_min hδ' (by positivity)),
    fun P z T hP hT u hu hu₀ ar => ?_⟩
  have u1 : L1 ^ 2 * u ≤ 1 := by
    have : u ≤ 1 / (L1 ^ 2 + 1) := hu₀.trans ((min_le_left _ _).trans (min_le_left _ _))
    rw [le_div_iff₀ (by positivity)] at this
    nlinarith
  have u2 : (1 + L1 + L2) * u ≤ δ := by
    have : u ≤ δ / (1 + L1 + L2) := hu₀.trans ((min_le_left _ _).trans (min_le_right _ _))
    rw [le_div_iff₀ (by positivity)] at this
    linarith
  have u3 : u ≤ δ' := hu₀.trans ((min_le_right _ _).trans (min_le_left _ _))
  have u4 : K * u ≤ B := by
    have : u ≤ B / K := hu₀.trans ((min_le_right _ _).trans (min_le_right _ _))
    rw [le_div_iff₀ K0] at this
    linarith
  have hpc : ∀ t, t < T → ∀ a, (P.kf z t).predCov a a ≤ B := fun t ht a =>
    (le_abs_self _).trans (hT.predCov t ht a a)
  have hfc : ∀ t, t < T → ∀ a, (P.kf z t).filtCov a a ≤ B := fun t ht a =>
    (le_abs_self _).trans (hT.filtCov t ht a a)
  -- from the predicted to the filtered moments
  have corr : ∀ t, t < T → DomM (L * u) (P.errC ar z t) (P.kf z t).predCov →
      DomV (L' * u) (P.errM ar z t) (P.kf z t).predCov →
      (∀ a b, |P.errC ar z t a b| ≤ K * u) ∧ (∀ a, |P.errM ar z t a| ≤ K * u) ∧
      (∀ a b, |((P.kfFl ar z t).filtCov - (P.kf z t).filtCov) a b| ≤ K * u) ∧
      (∀ a, |((P.kfFl ar z t).filtMean - (P.kf z t).filtMean) a| ≤ K * u) ∧
      ∃ (g : Mat n n) (γ : Vec n), (∀ a b, |g a b| ≤ 2 * D * u) ∧
        (∀ a, |γ a| ≤ D * (1 + L1) * u) ∧
        DomM (L * u) (P.loopG z t * P.errC ar z t * (P.loopG z t)ᵀ) (P.kf z t).filtCov ∧
        DomV (L' * u) (P.loopG z t *ᵥ P.errM ar z t) (P.kf z t).filtCov ∧
        (P.kfFl ar z t).filtCov - (P.kf z t).filtCov
          = P.loopG z t * P.errC ar z t * (P.loopG z t)ᵀ + g ∧
        (P.kfFl ar z t).filtMean - (P.kf z t).filtMean = P.loopG z t *ᵥ P.errM ar z t + γ := by
    intro t ht hc hm
    have Lu : 0 ≤ L * u := mul_nonneg L0 hu
    have L'u : 0 ≤ L' * u := mul_nonneg L'0 hu
    have b1 : ∀ a b, |P.errC ar z t a b| ≤ L * u * B := hc.entry Lu B0 (hpc t ht)
    have b2 : ∀ a, |P.errM ar z t a| ≤ L' * u * √B := fun a => hm.entry L'u a (hpc t ht a)
    have s1 : sumAbs (P.errC ar z t) ≤ L1 * u := by
      refine (sumAbs_le b1).trans (le_of_eq ?_)
      rw [hL1]; ring
    have s2 : ∑ a, |P.errM ar z t a| ≤ L2 * u := by
      calc ∑ a, |P.errM ar z t a| ≤ ∑ _a : Fin n, L' * u * √B := Finset.sum_le_sum fun a _ => b2 a
        _ = L2 * u := by
          rw [Finset.sum_const, Finset.card_univ, Fintype.card_fin, nsmul_eq_mul, hL2]; ring
    obtain ⟨g, γ, hg, hγ, e1, e2⟩ := (hstep P z T hP hT u hu ar t ht).correct (by
      have : (1 + L1 + L2) * u = u + L1 * u + L2 * u := by ring
      linarith)
    have hg' : ∀ a b, |g a b| ≤ 2 * D * u := fun a b => (hg a b).trans (by
      have h0 := sumAbs_nonneg (P.errC ar z t)
      have h1 : sumAbs (P.errC ar z t) ^ 2 ≤ u := by
        calc sumAbs (P.errC ar z t) ^ 2 ≤ (L1 * u) ^ 2 := pow_le_pow_left₀ h0 s1 2
          _ = L1 ^ 2 * u * u := by ring
          _ ≤ 1 * u := mul_le_mul_of_nonneg_right u1 hu
          _ = u := one_mul u
      nlinarith)
    have hγ' : ∀ a, |γ a| ≤ D * (1 + L1) * u := fun a => (hγ a).trans (by
      have := mul_le_mul_of_nonneg_left s1 hD.le
      nlinarith)
    have d1 := (hc.map (P.loopG z t)).mono (ρ := 1) (S' := (P.kf z t).filtCov) Lu zero_le_one
      (by rw [one_pow, one_smul]; exact PFun.loopG_le hP z ht)
    rw [one_pow, one_mul] at d1
    have d2 := (hm.map (P.loopG z t)).mono (ρ := 1) (S' := (P.kf z t).filtCov) L'u zero_le_one
      (by rw [one_pow, one_smul]; exact PFun.loopG_le hP z ht)
    rw [one_mul] at d2
    have k1 : 0 ≤ L * B * u := by positivity
    have k2 : 0 ≤ L' * √B * u := by positivity
    have k3 : 0 ≤ D * (1 + L1) * u := by positivity
    have k4 : 0 ≤ D * u := by positivity
    have kk : K * u = L * B * u + 2 * (D * u) + L' * √B * u + D * (1 + L1) * u := by rw [hK]; ring
    refine ⟨fun a b => (b1 a b).trans ?_, fun a => (b2 a).trans ?_, fun a b => ?_, fun a => ?_,
      g, γ, hg', hγ', d1, d2, e1, e2⟩
    · rw [kk]; linarith
    · rw [kk]; linarith
    · rw [e1]
      have h1 := d1.entry Lu B0 (hfc t ht) a b
      refine (abs_add_le _ _).trans ((add_le_add h1 (hg' a b)).trans ?_)
      rw [kk]; linarith
    · rw [e2]
      have h1 := d2.entry L'u a (hfc t ht a)
      refine (abs_add_le _ _).trans ((add_le_add h1 (hγ' a)).trans ?_)
      rw [kk]; linarith
  -- the induction over time
  have dom : ∀ t, t < T → DomM (L * u) (P.errC ar z t) (P.kf z t).predCov ∧
      DomV (L' * u) (P.errM ar z t) (P.kf z t).predCov := by
    intro t
    induction t with
    | zero =>
      intro _
      have z1 : P.errC ar z 0 = 0 := sub_self _
      have z2 : P.errM ar z 0 = 0 := sub_self _
      rw [z1, z2]
      exact ⟨(domM_zero _).weaken (mul_nonneg L0 hu), (domV_zero _).weaken (mul_nonneg L'0 hu)⟩
    | succ t ih =>
      intro ht
      have Lu : 0 ≤ L * u := mul_nonneg L0 hu
      have L'u : 0 ≤ L' * u := mul_nonneg L'0 hu
      obtain ⟨ih1, ih2⟩ := ih (by omega)
      obtain ⟨-, -, f1, f2, g, γ, hg, hγ, d1, d2, e1, e2⟩ := corr t (by omega) ih1 ih2
      have n1 : ∀ a b, |(P.kfFl ar z t).filtCov a b| ≤ 2 * B := fun a b => by
        have h1 := f1 a b
        have h2 := hT.filtCov t (by omega) a b
        rw [Matrix.sub_apply] at h1
        rw [abs_le] at h1 h2 ⊢
        constructor <;> linarith [h1.1, h1.2, h2.1, h2.2]
      have n2 : ∀ a, |(P.kfFl ar z t).filtMean a| ≤ 2 * B := fun a => by
        have h1 := f2 a
        have h2 := hT.filtMean t (by omega) a
        rw [Pi.sub_apply] at h1
        rw [abs_le] at h1 h2 ⊢
        constructor <;> linarith [h1.1, h1.2, h2.1, h2.2]
      obtain ⟨p1, p2⟩ := hpred ⟨u, ar, P.A t, P.Q t, P.b t, (P.kfFl ar z t).filtMean,
        (P.kfFl ar z t).filtCov⟩ ⟨hu, fun a b => (hT.A t ht a b).trans (by linarith),
          fun a b => (hT.Q t ht a b).trans (by linarith),
          fun a => (hT.b t ht a).trans (by linarith), n2, n1⟩ u3
      constructor
      · have e : P.errC ar z (t + 1)
            = P.A t * (P.loopG z t * P.errC ar z t * (P.loopG z t)ᵀ) * (P.A t)ᵀ
              + (P.A t * g * (P.A t)ᵀ + ((P.kfFl ar z (t + 1)).predCov
                - (filterPredict (P.A t) (P.Q t) (P.b t) (P.kfFl ar z t).filtMean
                  (P.kfFl ar z t).filtCov).2)) := by
          rw [PFun.errC, (P.kf_pred_succ z t).2, ← add_assoc, ← Matrix.add_mul, ← Matrix.mul_add,
            ← e1, filterPredict]
          simp only [Matrix.mul_sub, Matrix.sub_mul, Matrix.mul_assoc]
          abel
        rw [e]
        have h1 := (d1.map (P.A t)).mono (S' := (P.kf z (t + 1)).predCov) Lu hρ0 (hT.rate t ht)
        have h2 : DomM (M * u) (P.A t * g * (P.A t)ᵀ + ((P.kfFl ar z (t + 1)).predCov
                - (filterPredict (P.A t) (P.Q t) (P.b t) (P.kfFl ar z t).filtMean
                  (P.kfFl ar z t).filtCov).2)) (P.kf z (t + 1)).predCov := by
          have := domM_of_entries (E := P.A t * g * (P.A t)ᵀ + ((P.kfFl ar z (t + 1)).predCov
                - (filterPredict (P.A t) (P.Q t) (P.b t) (P.kfFl ar z t).filtMean
                  (P.kfFl ar z t).filtCov).2)) hq (hT.low t ht)
            (κ := (n * (n * (B * (2 * D)) * B) + D') * u) (by positivity) (fun a b => by
              refine (abs_add_le _ _).trans ((add_le_add (abs_conj_entry B0 (by positivity)
                (hT.A t ht) hg a b) (p1 a b)).trans (le_of_eq ?_))
              ring)
          refine this.weaken (le_of_eq ?_)
          rw [hM]; ring
        refine (h1.add h2).weaken (le_of_eq ?_)
        linear_combination u * hLs
      · have e : P.errM ar z (t + 1) = P.A t *ᵥ (P.loopG z t *ᵥ P.errM ar z t)
              + (P.A t *ᵥ γ + ((P.kfFl ar z (t + 1)).predMean
                - (filterPredict (P.A t) (P.Q t) (P.b t) (P.kfFl ar z t).filtMean
                  (P.kfFl ar z t).filtCov).1)) := by
          rw [PFun.errM, (P.kf_pred_succ z t).1, ← add_assoc, ← mulVec_add, ← e2, filterPredict]
          simp only [mulVec_sub]
          abel
        rw [e]
        have h1 := (d2.map (P.A t)).mono (S' := (P.kf z (t + 1)).predCov) L'u hρ0 (hT.rate t ht)
        have h2 : DomV (N * u) (P.A t *ᵥ γ + ((P.kfFl ar z (t + 1)).predMean
                - (filterPredict (P.A t) (P.Q t) (P.b t) (P.kfFl ar z t).filtMean
                  (P.kfFl ar z t).filtCov).1)) (P.kf z (t + 1)).predCov := by
          have := domV_of_entries (d := P.A t *ᵥ γ + ((P.kfFl ar z (t + 1)).predMean
                - (filterPredict (P.A t) (P.Q t) (P.b t) (P.kfFl ar z t).filtMean
                  (P.kfFl ar z t).filtCov).1)) hq (hT.low t ht)
            (κ := (n * (B * (D * (1 + L1))) + D') * u) (by positivity) (fun a => by
              refine (abs_add_le _ _).trans ((add_le_add (abs_mulVec_entry B0
                (hT.A t ht) hγ a) (p2 a)).trans (le_of_eq ?_))
              ring)
          refine this.weaken (le_of_eq ?_)
          rw [hN]; ring
        refine (h1.add h2).weaken (le_of_eq ?_)
        linear_combination u * hLs'
  intro t ht
  obtain ⟨h1, h2⟩ := dom t ht
  obtain ⟨a1, a2, a3, a4, -⟩ := corr t ht h1 h2
  exact ⟨a2, a1, a4, a3⟩

end Verif
