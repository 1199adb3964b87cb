import Verif.Proofs.RoundedUniform
import Verif.Proofs.RoundedLoglik
import Mathlib.Analysis.SpecialFunctions.Log.Basic

/-!
# `loglikelihood` with rounding errors, for runs of any length
-/

open Matrix Topology
open scoped MatrixOrder

namespace Verif

variable {n m k l : ℕ} {c : ℕ → ℝ} {ι : Type*} {F : Filter ι} {w : ι → ℝ}

/-! ### Numbers -/

/-- `f` differs from the bounded `g` by errors of the size of `w`. -/
structure NearR (F : Filter ι) (w f g : ι → ℝ) : Prop where
  diff : Ow F w (fun i => f i - g i) 0
  bdd : Bdd F g

theorem NearR.refl {f : ι → ℝ} (h : Bdd F f) : NearR F w f f :=
  ⟨by simpa only [sub_self] using ow_const (F := F) (w := w) (0 : ℝ), h⟩

theorem nearR_const (a : ℝ) : NearR F w (fun _ => a) (fun _ => a) := .refl (bdd_const a)

theorem NearR.bdd_left (hw : Filter.Tendsto w F (𝓝 0)) {f g : ι → ℝ} (h : NearR F w f g) : Bdd F f := by
  have := (h.diff.bdd hw).add h.bdd
  simpa using this

theorem NearR.trans {f g h : ι → ℝ} (h1 : Ow F w (fun i => f i - g i) 0) (h2 : NearR F w g h) :
    NearR F w f h := by
  refine ⟨?_, h2.bdd⟩
  have := h1.add h2.diff
  rw [add_zero] at this
  exact this.congr_left fun i => by ring

theorem NearR.congr {f g f' g' : ι → ℝ} (h : NearR F w f g) (hf : ∀ᶠ i in F, f i = f' i)
    (hg : ∀ᶠ i in F, g i = g' i) : NearR F w f' g' :=
  ⟨h.diff.congr_ev (by filter_upwards [hf, hg] with i h1 h2; rw [h1, h2]), h.bdd.congr' hg⟩

theorem NearR.add {f g f' g' : ι → ℝ} (h : NearR F w f g) (h' : NearR F w f' g') :
    NearR F w (fun i => f i + f' i) (fun i => g i + g' i) := by
  refine ⟨?_, h.bdd.add h'.bdd⟩
  have := h.diff.add h'.diff
  rw [add_zero] at this
  exact this.congr_left fun i => by ring

theorem NearR.mul (hw : Filter.Tendsto w F (𝓝 0)) {f g f' g' : ι → ℝ} (h : NearR F w f g)
    (h' : NearR F w f' g') : NearR F w (fun i => f i * f' i) (fun i => g i * g' i) := by
  refine ⟨?_, h.bdd.mul h'.bdd⟩
  have := (ow_zero_mul h.diff (h'.bdd_left hw)).add (ow_zero_mul h'.diff h.bdd)
  rw [add_zero] at this
  exact this.congr_left fun i => by ring

theorem NearR.sum {κ : Type*} {s : Finset κ} {f g : κ → ι → ℝ} (h : ∀ j ∈ s, NearR F w (f j) (g j)) :
    NearR F w (fun i => ∑ j ∈ s, f j i) (fun i => ∑ j ∈ s, g j i) := by
  refine ⟨?_, Bdd.sum fun j hj => (h j hj).bdd⟩
  have := Ow.sum (F := F) (w := w) (a := fun _ => (0 : ℝ)) fun j hj => (h j hj).diff
  rw [Finset.sum_const_zero] at this
  exact this.congr_left fun i => by simp only [Finset.sum_sub_distrib]

theorem NearR.prod (hw : Filter.Tendsto w F (𝓝 0)) {κ : Type*} {s : Finset κ} {f g : κ → ι → ℝ}
    (h : ∀ j ∈ s, NearR F w (f j) (g j)) :
    NearR F w (fun i => ∏ j ∈ s, f j i) (fun i => ∏ j ∈ s, g j i) := by
  classical
  induction s using Finset.induction_on with
  | empty => simpa using nearR_const (F := F) (w := w) 1
  | insert j s hj ih =>
    simp only [Finset.prod_insert hj]
    exact (h j (Finset.mem_insert_self _ _)).mul hw (ih fun i hi => h i (Finset.mem_insert_of_mem hi))

theorem NearM.entry {f g : ι → Mat k l} (h : NearM F w f g) (p : Fin k) (q : Fin l) :
    NearR F w (fun i => f i p q) (fun i => g i p q) := ⟨h.diff p q, h.bdd p q⟩

theorem NearV.entry {f g : ι → Vec k} (h : NearV F w f g) (p : Fin k) :
    NearR F w (fun i => f i p) (fun i => g i p) := ⟨h.diff p, h.bdd p⟩

theorem NearM.det (hw : Filter.Tendsto w F (𝓝 0)) {f g : ι → Mat k k} (h : NearM F w f g) :
    NearR F w (fun i => (f i).det) (fun i => (g i).det) := by
  simp only [Matrix.det_apply']
  exact NearR.sum fun σ _ => (nearR_const _).mul hw (NearR.prod hw fun j _ => h.entry _ _)

/-- Bounds that hold from some point on. -/
theorem Bdd.exists_bound {f : ι → ℝ} (h : Bdd F f) : ∃ B : ℝ, 0 < B ∧ ∀ᶠ i in F, |f i| ≤ B := by
  obtain ⟨B, hB, hb⟩ := Asymptotics.IsBigO.exists_pos h
  exact ⟨B, hB, hb.bound.mono fun i hi => by simpa using hi⟩

/-- The logarithm, away from zero. -/
theorem NearR.log (hw : Filter.Tendsto w F (𝓝 0)) {f g : ι → ℝ} (h : NearR F w f g)
    (hg : ∀ᶠ i in F, 0 < g i) (hinv : Bdd F fun i => (g i)⁻¹) :
    NearR F w (fun i => Real.log (f i)) (fun i => Real.log (g i)) ∧ ∀ᶠ i in F, 0 < f i := by
  obtain ⟨B, hB, hb⟩ := hinv.exists_bound
  have h0 : Filter.Tendsto (fun i => f i - g i) F (𝓝 0) := h.diff.tendsto hw
  have hsmall : ∀ᶠ i in F, |f i - g i| < 1 / (2 * B) := by
    have := h0.abs
    rw [abs_zero] at this
    exact this.eventually (gt_mem_nhds (by positivity))
  have hlow : ∀ᶠ i in F, 1 / B ≤ g i ∧ 1 / (2 * B) < f i := by
    filter_upwards [hg, hb, hsmall] with i h1 h2 h3
    have h4 : 1 / B ≤ g i := by
      rw [abs_of_pos (inv_pos.mpr h1)] at h2
      rw [div_le_iff₀ hB]
      have := mul_le_mul_of_nonneg_left h2 h1.le
      rwa [mul_inv_cancel₀ h1.ne'] at this
    refine ⟨h4, ?_⟩
    have h5 := (abs_lt.mp h3).1
    have h6 : 1 / B = 2 * (1 / (2 * B)) := by field_simp
    linarith
  refine ⟨⟨?_, ?_⟩, hlow.mono fun i hi => lt_trans (by positivity) hi.2⟩
  · have hO : Asymptotics.IsBigO F (fun i => Real.log (f i) - Real.log (g i)) (fun i => f i - g i) := by
      refine Asymptotics.IsBigO.of_bound (2 * B) ?_
      filter_upwards [hlow] with i ⟨h1, h2⟩
      have g0 : 0 < g i := lt_of_lt_of_le (by positivity) h1
      have f0 : 0 < f i := lt_trans (by positivity) h2
      have key : ∀ {a b : ℝ}, 0 < a → 0 < b → 1 / (2 * B) ≤ b →
          Real.log a - Real.log b ≤ 2 * B * |a - b| := by
        intro a b ha hb' hle
        rw [← Real.log_div ha.ne' hb'.ne']
        have e1 := Real.log_le_sub_one_of_pos (div_pos ha hb')
        have e2 : a / b - 1 = (a - b) / b := by field_simp
        rw [e2] at e1
        refine e1.trans ((div_le_div_of_nonneg_right (le_abs_self _) hb'.le).trans ?_)
        rw [div_le_iff₀ hb']
        have h3 : 1 ≤ 2 * B * b := by
          rw [div_le_iff₀ (by positivity)] at hle
          linarith
        have := mul_le_mul_of_nonneg_left h3 (abs_nonneg (a - b))
        linarith
      rw [Real.norm_eq_abs, Real.norm_eq_abs, abs_le]
      have e1 := key f0 g0 (by
        refine le_trans ?_ h1
        exact one_div_le_one_div_of_le hB (by linarith))
      have e2 := key g0 f0 h2.le
      rw [abs_sub_comm] at e2
      constructor <;> linarith
    have : Ow F w (fun i => f i - g i) 0 := h.diff
    simp only [Ow, sub_zero] at this ⊢
    exact hO.trans this
  · refine Bdd.of_le (h.bdd.abs.add hinv.abs) ?_
    filter_upwards [hg] with i hi
    have h1 := Real.log_le_sub_one_of_pos hi
    have h2 := Real.log_le_sub_one_of_pos (inv_pos.mpr hi)
    rw [Real.log_inv] at h2
    have h3 := inv_pos.mpr hi
    rw [abs_of_pos hi, abs_of_pos h3, abs_of_pos (add_pos hi h3), abs_le]
    constructor <;> linarith

/-! ### The log density -/

theorem AtLeast.posDef_near {r : ℝ} {S N : Mat k k} (hS : AtLeast r S) (hN : Nᵀ = N)
    (h : sumAbs (N - S) < r) : N.PosDef := by
  refine PosDef.of_dotProduct_mulVec_pos ?_ fun v hv => ?_
  · rw [Matrix.IsHermitian, conjTranspose_eq_transpose_of_trivial]; exact hN
  · rw [star_trivial]
    have hvv := dot_self_pos hv
    have h1 : v ⬝ᵥ (N *ᵥ v) = v ⬝ᵥ (S *ᵥ v) + v ⬝ᵥ ((N - S) *ᵥ v) := by
      rw [sub_mulVec, dotProduct_sub]; ring
    have h2 := (abs_le.mp (abs_form_le (N - S) v)).1
    have h5 := mul_lt_mul_of_pos_right h hvv
    rw [h1]
    linarith [hS v]

/-- Bounded covariance matrices whose variances are at least `r` in all directions. -/
structure Covs (F : Filter ι) (r : ℝ) (S : ι → Mat k k) : Prop where
  pos : 0 < r
  symm : ∀ᶠ i in F, (S i)ᵀ = S i
  low : ∀ᶠ i in F, AtLeast r (S i)
  bdd : BddM F S

theorem Covs.posDef {r : ℝ} {S : ι → Mat k k} (h : Covs F r S) : ∀ᶠ i in F, (S i).PosDef := by
  filter_upwards [h.symm, h.low] with i h1 h2
  exact h2.posDef_near h1 (by rw [sub_self]; simpa [sumAbs] using h.pos)

theorem Covs.bdd_pinv {r : ℝ} {S : ι → Mat k k} (h : Covs F r S) : BddM F fun i => pinv (S i) :=
  fun p q => Asymptotics.IsBigO.of_bound r⁻¹ (h.low.mono fun i hi => by
    simpa using hi.pinv_le h.pos p q)

theorem Covs.log_det (hw : Filter.Tendsto w F (𝓝 0)) {r : ℝ} {S N : ι → Mat k k} (h : Covs F r S)
    (hN : NearM F w N S) :
    NearR F w (fun i => Real.log (N i).det) (fun i => Real.log (S i).det) := by
  refine ((hN.det hw).log hw (h.posDef.mono fun i hi => hi.det_pos) ?_).1
  refine ((NearM.refl (w := w) h.bdd_pinv).det hw).bdd.congr' (h.posDef.mono fun i hi => ?_)
  rw [pinv_eq_inv hi.det_pos.ne'.isUnit, det_nonsing_inv, Ring.inverse_eq_inv']

theorem nearM_mirror {M S : ι → Mat k k} (h : NearM F w M S) (hS : ∀ᶠ i in F, (S i)ᵀ = S i) :
    NearM F w (fun i => mirrorLower (M i)) S := by
  refine ⟨fun p q => ?_, h.bdd⟩
  by_cases hpq : q ≤ p
  · simpa [mirrorLower, hpq] using h.diff p q
  · refine (h.diff q p).congr_ev (hS.mono fun i hi => ?_)
    have e : S i q p = S i p q := congrFun (congrFun hi p) q
    simp [mirrorLower, hpq, e]

theorem nearR_of_err (hw : Filter.Tendsto w F (𝓝 0)) {f g h B : ι → ℝ} {K : ℝ} (hg : NearR F w g h)
    (hB : Bdd F B) (he : ∀ᶠ i in F, |f i - g i| ≤ K * w i * (B i + 1)) : NearR F w f h :=
  NearR.trans (ow_of_err' (K := K) (g := fun _ => 0) (ow_const 0) hB (he.mono fun i hi => by
    rw [sub_zero]; exact hi)) hg

variable {br : ∀ i, ArithL c (w i)}

theorem nearU_chol (hw : Filter.Tendsto w F (𝓝 0)) {r : ℝ} {M S : ι → Mat k k} (hM : NearM F w M S)
    (hS : Covs F r S) :
    ∃ L N : ι → Mat k k, (∀ᶠ i in F, (br i).chol k (M i) = .ok (L i)) ∧
      (∀ᶠ i in F, IsCholesky (N i) (L i)) ∧ NearM F w N S := by
  have hex : ∀ i, ∃ (L N : Mat k k), (∀ p q, |N p q - mirrorLower (M i) p q|
      ≤ c k * w i * (sumAbs (M i) + 1)) ∧
      (((br i).chol k (M i) = .ok L ∧ IsCholesky N L) ∨ (Nᵀ = N ∧ ¬ N.PosDef)) := by
    intro i
    have h := (br i).chol_err k (M i)
    cases e : (br i).chol k (M i) with
    | ok L =>
      rw [e] at h
      obtain ⟨E, hE, hL⟩ := h
      refine ⟨L, mirrorLower (M i) + E, fun p q => ?_, .inl ⟨rfl, hL⟩⟩
      rw [Matrix.add_apply, add_sub_cancel_left]
      exact hE p q
    | error e' =>
      rw [e] at h
      obtain ⟨-, E, hEt, hE, hN⟩ := h
      refine ⟨1, mirrorLower (M i) + E, fun p q => ?_, .inr ⟨?_, hN⟩⟩
      · rw [Matrix.add_apply, add_sub_cancel_left]
        exact hE p q
      · rw [transpose_add, mirrorLower_symm, hEt]
  choose L N hN hL using hex
  have hmir := nearM_mirror hM hS.symm
  have hNO : NearM F w N S :=
    ⟨fun p q => (nearR_of_err hw (hmir.entry p q) (hM.bdd_left hw).sumAbs
      (Filter.Eventually.of_forall fun i => hN i p q)).diff, hM.bdd⟩
  have hev : ∀ᶠ i in F, sumAbs (N i - S i) < r := by
    have h0 : Filter.Tendsto (fun i => sumAbs (N i - S i)) F (𝓝 (sumAbs (0 : Mat k k))) :=
      tends_sumAbs (hNO.diff.tendsto hw)
    have hz : sumAbs (0 : Mat k k) = 0 := by simp [sumAbs]
    rw [hz] at h0
    exact h0.eventually (gt_mem_nhds hS.pos)
  have hgood : ∀ᶠ i in F, (br i).chol k (M i) = .ok (L i) ∧ IsCholesky (N i) (L i) := by
    filter_upwards [hev, hS.low] with i hi h2
    rcases hL i with h | ⟨h1, h3⟩
    · exact h
    · exact absurd (h2.posDef_near h1 hi) h3
  exact ⟨L, N, hgood.mono fun _ h => h.1, hgood.mono fun _ h => h.2, hNO⟩

theorem bddM_factor {L N : ι → Mat k k} (hL : ∀ᶠ i in F, IsCholesky (N i) (L i)) (hN : BddM F N) :
    BddM F L := by
  intro p q
  refine Bdd.of_le ((hN p p).add (bdd_const 1)) ?_
  filter_upwards [hL] with i hi
  have h1 := hi.diag_sq p q
  have h2 : 0 ≤ N i p p := (sq_nonneg _).trans h1
  rw [abs_of_nonneg (by linarith : 0 ≤ N i p p + 1)]
  have h3 := sq_abs (L i p q)
  nlinarith [abs_nonneg (L i p q)]

theorem bdd_log_diag {L N : ι → Mat k k} (hL : ∀ᶠ i in F, IsCholesky (N i) (L i)) (hN : BddM F N)
    (hld : Bdd F fun i => Real.log (N i).det) (p : Fin k) : Bdd F fun i => Real.log (L i p p) := by
  have hB : Bdd F fun i => (∑ q, |L i q q|) + |Real.log (N i).det| :=
    (Bdd.sum fun q _ => (bddM_factor hL hN q q).abs).add hld.abs
  refine Bdd.of_le hB ?_
  filter_upwards [hL] with i hi
  have hlog : ∀ q, Real.log (L i q q) ≤ |L i q q| := fun q => by
    have := Real.log_le_sub_one_of_pos (hi.diag_pos q)
    have := le_abs_self (L i q q)
    linarith
  have hsum := hi.logDet
  have hsplit : ∑ q, Real.log (L i q q)
      = Real.log (L i p p) + ∑ q ∈ Finset.univ.erase p, Real.log (L i q q) :=
    (Finset.add_sum_erase _ _ (Finset.mem_univ p)).symm
  have hrest : ∑ q ∈ Finset.univ.erase p, Real.log (L i q q) ≤ ∑ q, |L i q q| :=
    (Finset.sum_le_sum fun q _ => hlog q).trans
      (Finset.sum_le_sum_of_subset_of_nonneg (Finset.subset_univ _) fun _ _ _ => abs_nonneg _)
  have hall : |L i p p| ≤ ∑ q, |L i q q| :=
    Finset.single_le_sum (f := fun q => |L i q q|) (fun _ _ => abs_nonneg _) (Finset.mem_univ p)
  have h0 : 0 ≤ ∑ q, |L i q q| := Finset.sum_nonneg fun _ _ => abs_nonneg _
  rw [abs_of_nonneg (add_nonneg h0 (abs_nonneg _)), abs_le]
  have h1 := neg_abs_le (Real.log (N i).det)
  have h2 := abs_nonneg (Real.log (N i).det)
  have h3 := hlog p
  constructor <;> linarith

theorem NearR.fl_mulr (hw : Filter.Tendsto w F (𝓝 0)) {f g f' g' : ι → ℝ} (h : NearR F w f g)
    (h' : NearR F w f' g') : NearR F w (fun i => (br i).mulr (f i) (f' i)) (fun i => g i * g' i) :=
  nearR_of_err hw (K := 1) (h.mul hw h') ((h.mul hw h').bdd_left hw).abs
    (Filter.Eventually.of_forall fun i => by rw [one_mul]; exact (br i).mulr_err _ _)

theorem NearR.fl_add (hw : Filter.Tendsto w F (𝓝 0)) {f g f' g' : ι → ℝ} (h : NearR F w f g)
    (h' : NearR F w f' g') : NearR F w (fun i => (br i).add (f i) (f' i)) (fun i => g i + g' i) :=
  nearR_of_err hw (K := 1) (h.add h') ((h.add h').bdd_left hw).abs
    (Filter.Eventually.of_forall fun i => by rw [one_mul]; exact (br i).add_err _ _)

/-- A computed sum of bounded numbers whose exact sum is near `g`. -/
theorem NearR.fl_sum (hw : Filter.Tendsto w F (𝓝 0)) {f : ι → Vec k} {g : ι → ℝ}
    (h : NearR F w (fun i => ∑ p, f i p) g) (hb : BddV F f) :
    NearR F w (fun i => (br i).sum k (f i)) g :=
  nearR_of_err hw h (Bdd.sum (s := Finset.univ) fun p _ => (hb p).abs)
    (Filter.Eventually.of_forall fun i => (br i).sum_err k _)

theorem near_logDet (hw : Filter.Tendsto w F (𝓝 0)) {r : ℝ} {L N S : ι → Mat k k}
    (hL : ∀ᶠ i in F, IsCholesky (N i) (L i)) (hN : NearM F w N S) (hS : Covs F r S) :
    NearR F w (fun i => (br i).mulr 2 ((br i).sum k fun p => (br i).log (L i p p)))
      (fun i => Real.log (S i).det) := by
  have hld := hS.log_det hw hN
  have hbl := fun p => bdd_log_diag hL (hN.bdd_left hw) (hld.bdd_left hw) p
  have h0 : NearR F w (fun i => ∑ p, Real.log (L i p p)) (fun i => 1 / 2 * Real.log (S i).det) :=
    ((nearR_const (1 / 2)).mul hw hld).congr (hL.mono fun i hi => by rw [← hi.logDet]; ring)
      (Filter.Eventually.of_forall fun i => rfl)
  have hlogerr : ∀ p, Ow F w (fun i => (br i).log (L i p p) - Real.log (L i p p)) 0 := fun p =>
    ow_of_err' (K := 1) (ow_const 0) (hbl p).abs (hL.mono fun i hi => by
      rw [sub_zero, one_mul]
      exact (br i).log_err _ (hi.diag_pos p))
  have h1 : NearR F w (fun i => ∑ p, (br i).log (L i p p)) (fun i => 1 / 2 * Real.log (S i).det) := by
    refine NearR.trans ?_ h0
    have := Ow.sum (s := Finset.univ) fun p _ => hlogerr p
    rw [Finset.sum_const_zero] at this
    exact this.congr_left fun i => by simp only [Finset.sum_sub_distrib]
  have hb2 : BddV F fun i => (fun p => (br i).log (L i p p) : Vec k) := fun p => by
    have := ((hlogerr p).bdd hw).add (hbl p)
    simpa using this
  refine (NearR.fl_mulr (br := br) hw (nearR_const 2) (h1.fl_sum (br := br) hw hb2)).congr
    (Filter.Eventually.of_forall fun i => rfl) (Filter.Eventually.of_forall fun i => ?_)
  ring

theorem near_quad (hw : Filter.Tendsto w F (𝓝 0)) {r : ℝ} {L N S : ι → Mat k k}
    (hL : ∀ᶠ i in F, IsCholesky (N i) (L i)) (hN : NearM F w N S) (hS : Covs F r S) {b b' : ι → Vec k}
    (hb : NearV F w b b') :
    NearR F w (fun i => (br i).sum k fun p => (br i).sq ((br i).solve k (L i) (b i) p))
      (fun i => b' i ⬝ᵥ (pinv (S i) *ᵥ b' i)) := by
  classical
  have hex : ∀ i, ∃ G : Mat k k, (L i).det ≠ 0 →
      (∀ p q, |G p q| ≤ c k * w i * (sumAbs (L i) + 1)) ∧
      (L i + G) *ᵥ (br i).solve k (L i) (b i) = b i := by
    intro i
    by_cases h : (L i).det ≠ 0
    · obtain ⟨G, hG⟩ := (br i).solve_err k (L i) (b i) h
      exact ⟨G, fun _ => hG⟩
    · exact ⟨0, fun h' => absurd h' h⟩
  choose G hG using hex
  have hLb : BddM F L := bddM_factor hL (hN.bdd_left hw)
  have hGO : OwM F w G 0 := fun p q => ow_of_err' (K := c k) (g := fun _ => 0) (ow_const 0) hLb.sumAbs
    (hL.mono fun i hi => by rw [sub_zero]; exact (hG i hi.det_ne_zero).1 p q)
  have nH : NearM F w (fun i => L i + G i) L :=
    ⟨hGO.congr_ev (Filter.Eventually.of_forall fun i => by rw [add_sub_cancel_left]), hLb⟩
  have hW : NearM F w (fun i => (L i + G i) * (L i + G i)ᵀ) S := by
    refine NearM.trans (g := N) ?_ hN
    exact (nH.mul hw nH.transpose).diff.congr_ev (hL.mono fun i hi => by rw [hi.mul_transpose])
  obtain ⟨hPO, hdet⟩ := hW.pinv hw (hS.posDef.mono fun i hi => hi.det_pos.ne'.isUnit) hS.bdd_pinv
  have h0 : NearR F w (fun i => ∑ p, ((br i).solve k (L i) (b i) p) ^ 2)
      (fun i => b' i ⬝ᵥ (pinv (S i) *ᵥ b' i)) := by
    have h1 : NearR F w (fun i => b i ⬝ᵥ (pinv ((L i + G i) * (L i + G i)ᵀ) *ᵥ b i))
        (fun i => b' i ⬝ᵥ (pinv (S i) *ᵥ b' i)) :=
      NearR.sum fun p _ => (hb.entry p).mul hw ((hPO.mulVec hw hb).entry p)
    refine h1.congr ?_ (Filter.Eventually.of_forall fun i => rfl)
    filter_upwards [hL, hdet] with i hi hd
    have hx := (hG i hi.det_ne_zero).2
    generalize (br i).solve k (L i) (b i) = x at hx ⊢
    generalize hH : L i + G i = H at hx hd ⊢
    have hHd : IsUnit H.det := by
      rw [det_mul, det_transpose] at hd
      exact isUnit_of_mul_isUnit_left hd
    rw [pinv_eq_inv hd, ← hx, Matrix.mul_inv_rev, mulVec_mulVec, Matrix.mul_assoc,
      nonsing_inv_mul _ hHd, Matrix.mul_one, dotProduct_mulVec, ← mulVec_transpose,
      ← transpose_nonsing_inv, transpose_transpose, mulVec_mulVec, nonsing_inv_mul _ hHd,
      one_mulVec]
    simp [dotProduct, sq]
  have hsq : ∀ p, Bdd F fun i => ((br i).solve k (L i) (b i) p) ^ 2 := fun p =>
    (h0.bdd_left hw).of_le (Filter.Eventually.of_forall fun i => by
      rw [abs_of_nonneg (sq_nonneg _),
        abs_of_nonneg (Finset.sum_nonneg fun _ _ => sq_nonneg _)]
      exact Finset.single_le_sum (f := fun p => ((br i).solve k (L i) (b i) p) ^ 2)
        (fun _ _ => sq_nonneg _) (Finset.mem_univ p))
  have herr : ∀ p, Ow F w (fun i => (br i).sq ((br i).solve k (L i) (b i) p)
      - ((br i).solve k (L i) (b i) p) ^ 2) 0 := fun p =>
    ow_of_err' (K := 1) (ow_const 0) (hsq p) (Filter.Eventually.of_forall fun i => by
      rw [sub_zero, one_mul]; exact (br i).sq_err _)
  have h1 : NearR F w (fun i => ∑ p, (br i).sq ((br i).solve k (L i) (b i) p))
      (fun i => b' i ⬝ᵥ (pinv (S i) *ᵥ b' i)) := by
    refine NearR.trans ?_ h0
    have := Ow.sum (s := Finset.univ) fun p _ => herr p
    rw [Finset.sum_const_zero] at this
    exact this.congr_left fun i => by simp only [Finset.sum_sub_distrib]
  have hb2 : BddV F fun i => (fun p => (br i).sq ((br i).solve k (L i) (b i) p) : Vec k) := fun p => by
    have := ((herr p).bdd hw).add (hsq p)
    simpa using this
  exact h1.fl_sum (br := br) hw hb2

/-- The log density, as computed. -/
theorem near_logMvn (hw : Filter.Tendsto w F (𝓝 0)) {r : ℝ} {M S : ι → Mat k k} (hM : NearM F w M S)
    (hS : Covs F r S) {x : ι → Vec k} (hx : BddV F x) {mu mu' : ι → Vec k} (hmu : NearV F w mu mu') :
    ∃ v : ι → ℝ, (∀ᶠ i in F, flLogMvn (br i) (x i) (mu i) (M i) = .ok (v i)) ∧
      NearR F w v fun i => -(1 / 2) * ((x i - mu' i) ⬝ᵥ ((S i)⁻¹ *ᵥ (x i - mu' i))
        + k * Real.log (2 * Real.pi) + Real.log (S i).det) := by
  obtain ⟨L, N, hok, hL, hN⟩ := nearU_chol (br := br) hw hM hS
  have hpi : NearR F w (fun i => (br i).npPi) (fun _ => Real.pi) :=
    nearR_of_err hw (K := 1) (nearR_const Real.pi) (bdd_const Real.pi)
      (Filter.Eventually.of_forall fun i => by rw [one_mul]; exact (br i).pi_err)
  have h2pi := NearR.fl_mulr (br := br) hw (nearR_const 2) hpi
  obtain ⟨h1, hpos⟩ := h2pi.log hw (Filter.Eventually.of_forall fun i => by positivity)
    (bdd_const (2 * Real.pi)⁻¹)
  have hlog : NearR F w (fun i => (br i).log ((br i).mulr 2 (br i).npPi))
      (fun _ => Real.log (2 * Real.pi)) :=
    nearR_of_err hw (K := 1) h1 (h1.bdd_left hw).abs (hpos.mono fun i hi => by
      rw [one_mul]; exact (br i).log_err _ hi)
  have hquad := near_quad (br := br) hw hL hN hS
    ((NearV.refl (w := w) hx).fl_sub (br := fun i => (br i).toArith) hw hmu)
  have hdet := near_logDet (br := br) hw hL hN hS
  refine ⟨fun i => (br i).mulr (-0.5) ((br i).add ((br i).add
      ((br i).sum k fun p => (br i).sq ((br i).solve k (L i) ((br i).vsub (x i) (mu i)) p))
      ((br i).mulr k ((br i).log ((br i).mulr 2 (br i).npPi))))
      ((br i).mulr 2 ((br i).sum k fun p => (br i).log (L i p p)))), ?_, ?_⟩
  · filter_upwards [hok] with i hi
    simp only [flLogMvn, hi, bind, Except.bind, pure, Except.pure]
  · refine (NearR.fl_mulr (br := br) hw (nearR_const (-0.5)) (NearR.fl_add (br := br) hw
      (NearR.fl_add (br := br) hw hquad
        (NearR.fl_mulr (br := br) hw (nearR_const (k : ℝ)) hlog)) hdet)).congr
      (Filter.Eventually.of_forall fun i => rfl) (hS.posDef.mono fun i hi => ?_)
    rw [pinv_eq_inv hi.det_pos.ne'.isUnit]
    norm_num

/-! ### One term -/

/-- Data of one term: exact predicted moments, and the computed ones (with a prime). -/
structure TermIdx (c : ℕ → ℝ) (n m : ℕ) where
  u : ℝ
  ar : ArithL c u
  C : Mat m n
  R : Mat m m
  d : Vec m
  x : Vec n
  P : Mat n n
  x' : Vec n
  P' : Mat n n
  z : Vec m

/-- The data are bounded by `B`, the errors of the filter by `K u`. -/
structure TermIdx.Ok (B K r : ℝ) (i : TermIdx c n m) : Prop where
  u0 : 0 ≤ i.u
  C : ∀ a b, |i.C a b| ≤ B
  R : ∀ a b, |i.R a b| ≤ B
  d : ∀ a, |i.d a| ≤ B
  x : ∀ a, |i.x a| ≤ B
  P : ∀ a b, |i.P a b| ≤ B
  z : ∀ a, |i.z a| ≤ B
  ex : ∀ a, |i.x' a - i.x a| ≤ K * i.u
  eP : ∀ a b, |i.P' a b - i.P a b| ≤ K * i.u
  psd : i.P.PosSemidef
  Rpsd : i.R.PosSemidef
  Rlow : AtLeast r i.R

/-- The covariance of the observation. -/
def TermIdx.S (i : TermIdx c n m) : Mat m m := i.C * (i.P * i.Cᵀ) + i.R

/-- The exact term. -/
noncomputable def TermIdx.exact (i : TermIdx c n m) : ℝ :=
  -(1 / 2) * ((i.z - (i.C *ᵥ i.x + i.d)) ⬝ᵥ (i.S⁻¹ *ᵥ (i.z - (i.C *ᵥ i.x + i.d)))
    + m * Real.log (2 * Real.pi) + Real.log i.S.det)

theorem TermIdx.Ok.S_low {B K r : ℝ} {i : TermIdx c n m} (h : i.Ok B K r) :
    i.Sᵀ = i.S ∧ AtLeast r i.S := by
  have hp : (i.C * (i.P * i.Cᵀ)).PosSemidef := by
    rw [← Matrix.mul_assoc]
    exact h.psd.mul_mul_conjTranspose_same i.C
  exact ⟨symm_of_posSemidef (hp.add h.Rpsd), h.Rlow.add_left hp⟩

theorem exists_term_const (c : ℕ → ℝ) (n m : ℕ) (B K : ℝ) {r : ℝ} (hr : 0 < r) :
    ∃ D δ : ℝ, 0 < D ∧ 0 < δ ∧ ∀ i : TermIdx c n m, i.Ok B K r → i.u ≤ δ →
      ∃ v, flLogMvn i.ar i.z (i.ar.vadd (i.ar.mulV i.C i.x') i.d)
          (i.ar.madd (i.ar.mul i.C (i.ar.mul i.P' i.Cᵀ)) i.R) = .ok v ∧
        |v - i.exact| ≤ D * i.u ∧ |i.exact| ≤ D := by
  set T : Set (TermIdx c n m) := {i | i.Ok B K r} with hT
  set F := smallIn T TermIdx.u with hF
  have hmem : ∀ᶠ i in F, i.Ok B K r := smallIn_mem T _
  have hw : Filter.Tendsto (fun i : TermIdx c n m => i.u) F (𝓝 0) := smallIn_tendsto T _
  have nC : NearM F TermIdx.u (fun i => i.C) (fun i => i.C) := .refl (bddM_smallIn fun i hi => hi.C)
  have nR : NearM F TermIdx.u (fun i => i.R) (fun i => i.R) := .refl (bddM_smallIn fun i hi => hi.R)
  have nd : NearV F TermIdx.u (fun i => i.d) (fun i => i.d) := .refl (bddV_smallIn fun i hi => hi.d)
  have nx : NearV F TermIdx.u (fun i => i.x') (fun i => i.x) :=
    ⟨fun a => Asymptotics.IsBigO.of_bound K (hmem.mono fun i hi => by
      rw [Real.norm_eq_abs, Real.norm_eq_abs, abs_of_nonneg hi.u0, Pi.zero_apply, sub_zero]
      exact hi.ex a), bddV_smallIn fun i hi => hi.x⟩
  have nP : NearM F TermIdx.u (fun i => i.P') (fun i => i.P) :=
    ⟨fun a b => Asymptotics.IsBigO.of_bound K (hmem.mono fun i hi => by
      rw [Real.norm_eq_abs, Real.norm_eq_abs, abs_of_nonneg hi.u0, Matrix.zero_apply, sub_zero]
      exact hi.eP a b), bddM_smallIn fun i hi => hi.P⟩
  have nS := (nC.fl_mul (br := fun i => i.ar.toArith) hw
    (nP.fl_mul (br := fun i => i.ar.toArith) hw nC.transpose)).fl_add (br := fun i => i.ar.toArith) hw nR
  have nmu := (nC.fl_mulV (br := fun i => i.ar.toArith) hw nx).fl_add (br := fun i => i.ar.toArith) hw nd
  have hS : Covs F r (fun i : TermIdx c n m => i.C * (i.P * i.Cᵀ) + i.R) :=
    ⟨hr, hmem.mono fun i hi => hi.S_low.1, hmem.mono fun i hi => hi.S_low.2, nS.bdd⟩
  obtain ⟨v, hok, hv⟩ := near_logMvn (br := fun i : TermIdx c n m => i.ar) hw nS hS
    (bddV_smallIn fun i hi => hi.z) nmu
  obtain ⟨D₁, δ₁, hD₁, hδ₁, h1⟩ := smallIn_bound (κ := Unit) (f := fun _ i => v i - i.exact)
    (fun _ => hv.diff)
  obtain ⟨D₂, hD₂, h2⟩ := hv.bdd.exists_bound
  obtain ⟨δ₂, hδ₂, h3⟩ := smallIn_eventually (hok.and h2)
  refine ⟨max D₁ D₂, min δ₁ δ₂, lt_max_of_lt_left hD₁, lt_min hδ₁ hδ₂, fun i hi hs => ?_⟩
  have e1 := h1 i hi (by rw [abs_of_nonneg hi.u0]; exact hs.trans (min_le_left _ _)) ()
  obtain ⟨e2, e3⟩ := h3 i hi (by rw [abs_of_nonneg hi.u0]; exact hs.trans (min_le_right _ _))
  rw [abs_of_nonneg hi.u0] at e1
  exact ⟨v i, e2, e1.trans (mul_le_mul_of_nonneg_right (le_max_left _ _) hi.u0),
    e3.trans (le_max_right _ _)⟩

/-! ### The sum -/

/-- `loglikelihood`, as computed, if the predicted moments have errors up to `K u`. -/
theorem exists_loglik_const (c : ℕ → ℝ) (n m : ℕ) (B K : ℝ) {r : ℝ} (hr : 0 < r) :
    ∃ D δ : ℝ, 0 < D ∧ 0 < δ ∧ ∀ (p : Params n m) (os : List (Obs m)) (ρ q : ℝ) (R : Mat m m),
      p.Covers os.length → p.R = .const R → p.fn.PSD os.length →
      p.fn.Tame (obsFn os) os.length B ρ q r → ∀ u, 0 ≤ u → u ≤ δ → u ≤ 1 → ∀ ar : ArithL c u,
      (∀ t, t < os.length →
        (∀ a, |(p.fn.kfFl ar.toArith (obsFn os) t).predMean a
          - (p.fn.kf (obsFn os) t).predMean a| ≤ K * u) ∧
        ∀ a b, |(p.fn.kfFl ar.toArith (obsFn os) t).predCov a b
          - (p.fn.kf (obsFn os) t).predCov a b| ≤ K * u) →
      ∃ x L, flLoglik ar p os = .ok x ∧ kfLoglik p os = .ok L ∧
        |x - L| ≤ D * u * (os.length + |c os.length| * (os.length + 1)) := by
  obtain ⟨D, δ, hD, hδ, hterm⟩ := exists_term_const c n m B K hr
  refine ⟨2 * D + 1, δ, by positivity, hδ, fun p os ρ q R hc hR hP hT u hu0 hu hu1 ar herr => ?_⟩
  let S : ℕ → Mat m m := fun t =>
    p.fn.C t * ((p.fn.kf (obsFn os) t).predCov * (p.fn.C t)ᵀ) + p.fn.R t
  let ℓ : ℕ → Vec m → Vec m → ℝ := fun t x y => -(1 / 2) * ((x - y) ⬝ᵥ ((S t)⁻¹ *ᵥ (x - y))
    + m * Real.log (2 * Real.pi) + Real.log (S t).det)
  have hRt : ∀ t, p.fn.R t = R := fun t => by simp [Params.fn, hR, TV.get]
  have hex : ∀ t, ∃ v : ℝ, t < os.length →
      flLoglikStep ar p t (p.fn.kfFl ar.toArith (obsFn os) t) (obsFn os t) = .ok v ∧
      |v - p.fn.lterm ℓ (obsFn os) t| ≤ D * u ∧ |p.fn.lterm ℓ (obsFn os) t| ≤ D := by
    intro t
    by_cases ht : t < os.length
    · by_cases ho : (obsFn os t).missing
      · refine ⟨0, fun _ => ⟨?_, ?_, ?_⟩⟩
        · simp [flLoglikStep, ho, pure, Except.pure]
        · simp only [PFun.lterm, ho, if_true, sub_self, abs_zero]; positivity
        · simp only [PFun.lterm, ho, if_true, abs_zero]; exact hD.le
      · obtain ⟨e1, e2⟩ := herr t ht
        obtain ⟨v, h1, h2, h3⟩ := hterm ⟨u, ar, p.fn.C t, p.fn.R t, p.fn.d t,
          (p.fn.kf (obsFn os) t).predMean, (p.fn.kf (obsFn os) t).predCov,
          (p.fn.kfFl ar.toArith (obsFn os) t).predMean, (p.fn.kfFl ar.toArith (obsFn os) t).predCov,
          (obsFn os t).val⟩
          ⟨hu0, hT.C t ht, hT.R t ht, hT.d t ht, hT.predMean t ht, hT.predCov t ht,
            hT.obs t ht ho, e1, e2, hP.pred ht _, hP.R t ht, hT.Rlow t ht⟩ hu
        refine ⟨v, fun _ => ⟨?_, ?_, ?_⟩⟩
        · simp only [flLoglikStep, ho, not_false_eq_true, if_true]
          rw [lastDims_eq_ok (hc.C.mono (by omega)), lastDims_eq_ok (hc.d.mono (by omega)), hR]
          simp only [bind, Except.bind, pure, Except.pure]
          rw [hRt] at h1
          exact h1
        · simp only [PFun.lterm, ho, if_false]
          exact h2
        · simp only [PFun.lterm, ho, if_false]
          exact h3
    · exact ⟨0, fun h => absurd h ht⟩
  choose v hv using hex
  have hexact : kfLoglik p os
      = .ok (∑ t ∈ Finset.range os.length, p.fn.lterm ℓ (obsFn os) t) := by
    refine kfLoglik_pure hc hR fun t ht ho x y => ?_
    have hpd : (p.fn.C t * (p.fn.kf (obsFn os) t).predCov * (p.fn.C t)ᵀ + p.fn.R t).PosDef := by
      have hp : (p.fn.C t * (p.fn.kf (obsFn os) t).predCov * (p.fn.C t)ᵀ).PosSemidef :=
        (hP.pred ht _).mul_mul_conjTranspose_same (p.fn.C t)
      exact ((hT.Rlow t ht).add_left hp).posDef_near
        (symm_of_posSemidef (hp.add (hP.R t ht))) (by rw [sub_self]; simpa [sumAbs] using hr)
    obtain ⟨ℓ', h1, -, h2, -⟩ := logMvn_posDef hpd
    rw [h1 x y, h2 x y]
    simp only [ℓ, S, Matrix.mul_assoc]
  have hl := flLoglikLoop_pure (ar := ar) (p := p) v os
    ((List.range os.length).map (p.fn.kfFl ar.toArith (obsFn os))) 0 (by simp)
    (fun t h1 h2 => by
      simp only [List.getElem_map, List.getElem_range, zero_add]
      rw [← obsFn_eq h2]
      exact (hv t h2).1)
  refine ⟨ar.sum os.length fun t => v t, _, ?_, hexact, ?_⟩
  · simp only [flLoglik, flFull_obsFn hc, bind, Except.bind, hl, pure, Except.pure]
    exact congrArg _ (sum_list_eq ar (by simp))
  · have h1 := ar.sum_err os.length fun t => v t
    have h2 : |∑ t : Fin os.length, v t - ∑ t ∈ Finset.range os.length, p.fn.lterm ℓ (obsFn os) t|
        ≤ os.length * (D * u) := by
      rw [← Fin.sum_univ_eq_sum_range (fun t => p.fn.lterm ℓ (obsFn os) t), ← Finset.sum_sub_distrib]
      refine (Finset.abs_sum_le_sum_abs _ _).trans
        ((Finset.sum_le_sum fun (t : Fin os.length) _ => (hv (t : ℕ) t.2).2.1).trans (le_of_eq ?_))
      rw [Finset.sum_const, Finset.card_univ, Fintype.card_fin, nsmul_eq_mul]
    have h3 : ∑ t : Fin os.length, |v t| ≤ os.length * (2 * D) := by
      refine (Finset.sum_le_sum (f := fun t : Fin os.length => |v t|) (g := fun _ => 2 * D) fun t _ => ?_).trans (le_of_eq ?_)
      · obtain ⟨-, e1, e2⟩ := hv t t.2
        have e3 := abs_add_le (v t - p.fn.lterm ℓ (obsFn os) t) (p.fn.lterm ℓ (obsFn os) t)
        rw [sub_add_cancel] at e3
        have e4 := mul_le_mul_of_nonneg_left hu1 hD.le
        linarith
      · rw [Finset.sum_const, Finset.card_univ, Fintype.card_fin, nsmul_eq_mul]
    have h4 : c os.length * u * (∑ t : Fin os.length, |v t| + 1)
        ≤ |c os.length| * u * (os.length * (2 * D) + 1) := by
      have e0 : 0 ≤ ∑ t : Fin os.length, |v t| := Finset.sum_nonneg fun _ _ => abs_nonneg _
      refine mul_le_mul (mul_le_mul_of_nonneg_right (le_abs_self _) hu0) (by linarith)
        (by linarith) (by positivity)
    have h5 := abs_sub_le (ar.sum os.length fun t => v t) (∑ t : Fin os.length, v t)
      (∑ t ∈ Finset.range os.length, p.fn.lterm ℓ (obsFn os) t)
    have hn : (0 : ℝ) ≤ os.length := Nat.cast_nonneg _
    have hk := abs_nonneg (c os.length)
    have a1 : 0 ≤ (os.length : ℝ) * (D * u) := by positivity
    have a2 : 0 ≤ (os.length : ℝ) * u := by positivity
    have a3 : 0 ≤ |c os.length| * u * os.length := by positivity
    have a4 : 0 ≤ |c os.length| * u * D := by positivity
    calc _ ≤ |c os.length| * u * (os.length * (2 * D) + 1) + os.length * (D * u) := by linarith
      _ ≤ _ := by linarith

end Verif
