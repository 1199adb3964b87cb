import Verif.Proofs.LeastSquares
import Mathlib.Algebra.QuadraticDiscriminant

/-!
# Lemmas on error bounds without probabilities (C88)
-/

open Matrix

namespace Verif

variable {n m : ℕ}

theorem dot_sq_le_weighted {k : ℕ} {S : Mat k k} (h : S.PosDef) (v e : Vec k) :
    (v ⬝ᵥ e) ^ 2 ≤ (v ⬝ᵥ (S *ᵥ v)) * weighted S e := by
  have hu : IsUnit S.det := h.det_pos.ne'.isUnit
  have hs : Sᵀ = S := symm_of_posSemidef h.posSemidef
  obtain ⟨u, hue⟩ : ∃ u, u = S⁻¹ *ᵥ e := ⟨_, rfl⟩
  have he : e = S *ᵥ u := by rw [hue, mulVec_mulVec, mul_nonsing_inv _ hu, one_mulVec]
  have hw : weighted S e = u ⬝ᵥ (S *ᵥ u) := by rw [weighted, ← hue, he, dotProduct_comm]
  have hc : u ⬝ᵥ (S *ᵥ v) = v ⬝ᵥ (S *ᵥ u) := by
    rw [dotProduct_mulVec, ← mulVec_transpose, hs, dotProduct_comm]
  have hq : ∀ a : ℝ, 0 ≤ (v ⬝ᵥ (S *ᵥ v)) * (a * a) + (-2 * (v ⬝ᵥ (S *ᵥ u))) * a
      + u ⬝ᵥ (S *ᵥ u) := by
    intro a
    have := (posSemidef_iff_real.mp h.posSemidef).2 (a • v - u)
    simp only [mulVec_sub, mulVec_smul, sub_dotProduct, dotProduct_sub, smul_dotProduct,
      dotProduct_smul, smul_eq_mul, hc] at this
    linarith
  have := discrim_le_zero hq
  rw [discrim] at this
  rw [hw, he]
  nlinarith

theorem sq_add_le_mul {α β a b c d : ℝ} (ha : 0 ≤ a) (hb : 0 ≤ b) (hc : 0 ≤ c) (hd : 0 ≤ d)
    (h1 : α ^ 2 ≤ a * c) (h2 : β ^ 2 ≤ b * d) : (α + β) ^ 2 ≤ (a + b) * (c + d) := by
  have h3 : (2 * (α * β)) ^ 2 ≤ (a * d + b * c) ^ 2 := by
    have : α ^ 2 * β ^ 2 ≤ a * c * (b * d) :=
      mul_le_mul h1 h2 (sq_nonneg _) (mul_nonneg ha hc)
    nlinarith [sq_nonneg (a * d - b * c)]
  have h4 := abs_le_of_sq_le_sq h3 (by positivity)
  nlinarith [le_abs_self (2 * (α * β)), h4]

/-- How far the state at `s` is from what the state at `s + 1` and the rows up to `s` predict. -/
noncomputable def PFun.backRes (P : PFun n m) (z : ℕ → Obs m) (x : ℕ → Vec n) (s : ℕ) : Vec n :=
  x s - ((P.kf z s).filtMean + Verif.gain (P.kf z s).filtCov (P.Q s) (P.A s)
    *ᵥ (x (s + 1) - (P.A s *ᵥ (P.kf z s).filtMean + P.b s)))

/-- What separates the states `t … T` from the best ones. -/
noncomputable def PFun.tailGap (P : PFun n m) (z : ℕ → Obs m) (T t : ℕ) (x : ℕ → Vec n) : ℝ :=
  weighted (P.kf z T).filtCov (x T - (P.kf z T).filtMean)
    + ∑ s ∈ Finset.Ico t T, weighted (P.backCov z s) (P.backRes z x s)

theorem PFun.PD.tailGap_nonneg {P : PFun n m} {T t : ℕ} (h : P.PD (T + 1)) (z : ℕ → Obs m)
    (x : ℕ → Vec n) : 0 ≤ P.tailGap z T t x :=
  add_nonneg (weighted_nonneg (h.filt z (show T < T + 1 by omega)).2 _)
    (Finset.sum_nonneg fun s hs => weighted_nonneg
      (h.back z (by have := (Finset.mem_Ico.mp hs).2; omega)) _)

theorem PFun.tailGap_succ (P : PFun n m) {T t : ℕ} (ht : t < T) (z : ℕ → Obs m)
    (x : ℕ → Vec n) : P.tailGap z T t x
      = P.tailGap z T (t + 1) x + weighted (P.backCov z t) (P.backRes z x t) := by
  rw [PFun.tailGap, PFun.tailGap, Finset.sum_eq_sum_Ico_succ_bot ht]
  ring

theorem PFun.dev_succ (P : PFun n m) {T t : ℕ} (ht : t < T) (z : ℕ → Obs m) (x : ℕ → Vec n) :
    x t - (P.ks z T t).mean = Verif.gain (P.kf z t).filtCov (P.Q t) (P.A t)
      *ᵥ (x (t + 1) - (P.ks z T (t + 1)).mean) + P.backRes z x t := by
  rw [P.ks_lt' z ht, PFun.backRes]
  simp only [mulVec_sub]
  abel

theorem PFun.PD.quad_succ {P : PFun n m} {T t : ℕ} (h : P.PD (T + 1)) (ht : t < T) (z : ℕ → Obs m)
    (v : Vec n) : v ⬝ᵥ ((P.ks z T t).cov *ᵥ v)
      = ((Verif.gain (P.kf z t).filtCov (P.Q t) (P.A t))ᵀ *ᵥ v) ⬝ᵥ ((P.ks z T (t + 1)).cov
          *ᵥ ((Verif.gain (P.kf z t).filtCov (P.Q t) (P.A t))ᵀ *ᵥ v))
        + v ⬝ᵥ (P.backCov z t *ᵥ v) := by
  have e : (P.ks z T t).cov = Verif.gain (P.kf z t).filtCov (P.Q t) (P.A t)
      * (P.ks z T (t + 1)).cov * (Verif.gain (P.kf z t).filtCov (P.Q t) (P.A t))ᵀ
      + P.backCov z t := by
    rw [h.psd.ks_cov_eq ht z, PFun.backCov, P.ks_lt' z ht]
  rw [e, add_mulVec, dotProduct_add, ← mulVec_mulVec, ← mulVec_mulVec, dotProduct_mulVec v,
    ← mulVec_transpose]

theorem dot_mulVec_left (G : Mat n n) (v w : Vec n) : v ⬝ᵥ (G *ᵥ w) = (Gᵀ *ᵥ v) ⬝ᵥ w := by
  rw [dotProduct_mulVec, ← mulVec_transpose]

/-- No trajectory is further from the smoothed mean, in reported standard deviations, than it is
worse than the best one. -/
theorem PFun.PD.tail_bound {P : PFun n m} {T t : ℕ} (h : P.PD (T + 1)) (ht : t ≤ T) (z : ℕ → Obs m)
    (x : ℕ → Vec n) (v : Vec n) : (v ⬝ᵥ (x t - (P.ks z T t).mean)) ^ 2
      ≤ (v ⬝ᵥ ((P.ks z T t).cov *ᵥ v)) * P.tailGap z T t x := by
  obtain ⟨j, hj⟩ : ∃ j, T = t + j := ⟨T - t, by omega⟩
  induction j generalizing t v with
  | zero =>
    obtain rfl : T = t := by omega
    rw [P.ks_last, PFun.tailGap, Finset.Ico_self, Finset.sum_empty, add_zero]
    exact dot_sq_le_weighted (h.filt z (by omega)).2 v _
  | succ j ih =>
    have ht' : t < T := by omega
    rw [P.dev_succ ht' z, dotProduct_add, dot_mulVec_left, h.quad_succ ht', P.tailGap_succ ht']
    refine sq_add_le_mul ((posSemidef_iff_real.mp (h.smooth z (by omega)).posSemidef).2 _)
      ((posSemidef_iff_real.mp (h.back z (by omega)).posSemidef).2 _) (h.tailGap_nonneg z x)
      (weighted_nonneg (h.back z (by omega)) _) (ih (by omega) _ (by omega))
      (dot_sq_le_weighted (h.back z (by omega)) v _)

theorem weighted_mulVec {k : ℕ} {S : Mat k k} (h : S.PosDef) (v : Vec k) :
    weighted S (S *ᵥ v) = v ⬝ᵥ (S *ᵥ v) := by
  rw [weighted, mulVec_mulVec, nonsing_inv_mul _ h.det_pos.ne'.isUnit, one_mulVec,
    dotProduct_comm]

/-- The bound is attained, by a trajectory with prescribed states from `t` on. -/
theorem PFun.PD.tail_attained {P : PFun n m} {T t : ℕ} (h : P.PD (T + 1)) (ht : t ≤ T)
    (z : ℕ → Obs m) (v : Vec n) : ∃ x : ℕ → Vec n,
      v ⬝ᵥ (x t - (P.ks z T t).mean) = v ⬝ᵥ ((P.ks z T t).cov *ᵥ v) ∧
      P.tailGap z T t x = v ⬝ᵥ ((P.ks z T t).cov *ᵥ v) := by
  obtain ⟨j, hj⟩ : ∃ j, T = t + j := ⟨T - t, by omega⟩
  induction j generalizing t v with
  | zero =>
    obtain rfl : T = t := by omega
    refine ⟨fun _ => (P.kf z T).filtMean + (P.kf z T).filtCov *ᵥ v, ?_, ?_⟩
    · rw [P.ks_last, add_sub_cancel_left]
    · rw [P.ks_last, PFun.tailGap, Finset.Ico_self, Finset.sum_empty, add_zero,
        add_sub_cancel_left, weighted_mulVec (h.filt z (by omega)).2]
  | succ j ih =>
    have ht' : t < T := by omega
    have hB := h.back z (t := t) (by omega)
    obtain ⟨y, y1, y2⟩ := ih (t := t + 1) (by omega)
      ((Verif.gain (P.kf z t).filtCov (P.Q t) (P.A t))ᵀ *ᵥ v) (by omega)
    obtain ⟨x, hx⟩ : ∃ x, x = Function.update y t ((P.kf z t).filtMean
        + Verif.gain (P.kf z t).filtCov (P.Q t) (P.A t)
          *ᵥ (y (t + 1) - (P.A t *ᵥ (P.kf z t).filtMean + P.b t)) + P.backCov z t *ᵥ v) :=
      ⟨_, rfl⟩
    have hne : ∀ s, s ≠ t → x s = y s := fun s hs => by rw [hx, Function.update_of_ne hs]
    have hr : P.backRes z x t = P.backCov z t *ᵥ v := by
      rw [PFun.backRes, hne (t + 1) (by omega), hx, Function.update_self]
      abel
    have hg : P.tailGap z T (t + 1) x = P.tailGap z T (t + 1) y := by
      rw [PFun.tailGap, PFun.tailGap, hne T (by omega)]
      congr 1
      refine Finset.sum_congr rfl fun s hs => ?_
      have := (Finset.mem_Ico.mp hs).1
      rw [PFun.backRes, PFun.backRes, hne s (by omega), hne (s + 1) (by omega)]
    refine ⟨x, ?_, ?_⟩
    · rw [P.dev_succ ht' z, dotProduct_add, dot_mulVec_left, hne (t + 1) (by omega), y1, hr,
        h.quad_succ ht']
    · rw [P.tailGap_succ ht', hg, y2, hr, weighted_mulVec hB, h.quad_succ ht']

/-- States before `t` can be completed at no cost. -/
theorem PFun.head_free (P : PFun n m) {T t : ℕ} (ht : t ≤ T) (z : ℕ → Obs m)
    (y : ℕ → Vec n) : ∃ x : ℕ → Vec n, (∀ s, t ≤ s → x s = y s) ∧
      P.tailGap z T 0 x = P.tailGap z T t y := by
  induction t generalizing y with
  | zero => exact ⟨y, fun _ _ => rfl, rfl⟩
  | succ t ih =>
    obtain ⟨w, hw⟩ : ∃ w, w = Function.update y t ((P.kf z t).filtMean
        + Verif.gain (P.kf z t).filtCov (P.Q t) (P.A t)
          *ᵥ (y (t + 1) - (P.A t *ᵥ (P.kf z t).filtMean + P.b t))) := ⟨_, rfl⟩
    have hne : ∀ s, s ≠ t → w s = y s := fun s hs => by rw [hw, Function.update_of_ne hs]
    have hr : P.backRes z w t = 0 := by
      rw [PFun.backRes, hne (t + 1) (by omega), hw, Function.update_self, sub_self]
    obtain ⟨x, x1, x2⟩ := ih (by omega) w
    refine ⟨x, fun s hs => by rw [x1 s (by omega), hne s (by omega)], ?_⟩
    rw [x2, P.tailGap_succ (by omega), hr]
    have h0 : weighted (P.backCov z t) (0 : Vec n) = 0 := by simp [weighted]
    rw [h0, add_zero, PFun.tailGap, PFun.tailGap, hne T (by omega)]
    congr 1
    refine Finset.sum_congr rfl fun s hs => ?_
    have := (Finset.mem_Ico.mp hs).1
    rw [PFun.backRes, PFun.backRes, hne s (by omega), hne (s + 1) (by omega)]

/-- The misfit of a trajectory exceeds the least one by the gap. -/
theorem misfit_gap {p : Params n m} {os : List (Obs m)} {T : ℕ} (hT : os.length = T + 1)
    (hc : p.Covers os.length) (hpd : p.PD os.length) (x s : ℕ → Vec n)
    (hs : ∀ t ≤ T, s t = (p.fn.ks (obsFn os) T t).mean) :
    misfit p os x - misfit p os s = p.fn.tailGap (obsFn os) T 0 x := by
  have hP := hpd.fn hc
  rw [hT] at hP
  obtain ⟨K, hK⟩ := logJoint_misfit p os
  have hfac : ∀ y, logJoint p os y = p.fn.predLL (obsFn os) T
      + (logN (y T) (p.fn.kf (obsFn os) T).filtMean (p.fn.kf (obsFn os) T).filtCov
        + ∑ s ∈ Finset.range T, p.fn.backTerm (obsFn os) s (y (s + 1)) (y s)) := by
    intro y
    rw [logJoint_eq hc, ← hP.factor (obsFn os) y (show T < T + 1 by omega), hT,
      Nat.add_sub_cancel]
    rfl
  have ex := hfac x
  have es := hfac s
  rw [hP.gap] at ex es
  rw [(hP.gap_zero (obsFn os) s).2.mpr hs] at es
  rw [hK] at ex es
  rw [PFun.tailGap, ← Finset.range_eq_Ico]
  simp only [PFun.backRes]
  linarith

theorem PFun.PD.tailGap_mono {P : PFun n m} {T t : ℕ} (h : P.PD (T + 1)) (ht : t ≤ T)
    (z : ℕ → Obs m) (x : ℕ → Vec n) : P.tailGap z T t x ≤ P.tailGap z T 0 x := by
  rw [PFun.tailGap, PFun.tailGap]
  refine add_le_add le_rfl (Finset.sum_le_sum_of_subset_of_nonneg
    (Finset.Ico_subset_Ico (by omega) le_rfl) fun s hs _ => weighted_nonneg
      (h.back z (by have := (Finset.mem_Ico.mp hs).2; omega)) _)

theorem misfit_nonneg {p : Params n m} {os : List (Obs m)} (hc : p.Covers os.length)
    (hpd : p.PD os.length) (x : ℕ → Vec n) : 0 ≤ misfit p os x := by
  have hP := hpd.fn hc
  rw [misfit]
  refine add_nonneg (add_nonneg (weighted_nonneg hpd.S0 _) (Finset.sum_nonneg fun t ht => ?_))
    (Finset.sum_nonneg fun t _ => ?_)
  · rw [Finset.mem_range] at ht
    rw [TV.at_eq_get (hc.Q.mono (by omega))]
    exact weighted_nonneg (hP.Q t (by omega)) _
  · split
    · exact le_rfl
    · rw [TV.at_eq_get (hc.R.mono (show (t : ℕ) + 1 ≤ _ by omega))]
      exact weighted_nonneg (hP.R t t.2) _

end Verif
