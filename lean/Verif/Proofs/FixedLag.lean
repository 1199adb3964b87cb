import Verif.Spec.FixedLag
import Verif.Proofs.Rows

/-!
# Lemmas for C113: fixed-lag smoothing by a filter that keeps past states
-/

open Matrix

namespace Verif

variable {n m N : ℕ}

/-- Gain of the smoother at time `t`. -/
noncomputable def PFun.lagGain (P : PFun n m) (z : ℕ → Obs m) (t : ℕ) : Mat n n :=
  Verif.gain (P.kf z t).filtCov (P.Q t) (P.A t)

/-- Product of the gains at times `s … s + k - 1`. -/
noncomputable def PFun.gainProd (P : PFun n m) (z : ℕ → Obs m) (s : ℕ) : ℕ → Mat n n
  | 0 => 1
  | k + 1 => P.gainProd z s k * P.lagGain z (s + k)

theorem PFun.gainProd_left (P : PFun n m) (z : ℕ → Obs m) (s k : ℕ) :
    P.gainProd z s (k + 1) = P.lagGain z s * P.gainProd z (s + 1) k := by
  induction k with
  | zero => simp [PFun.gainProd]
  | succ k ih =>
    rw [PFun.gainProd, ih, PFun.gainProd, Matrix.mul_assoc, show s + 1 + k = s + (k + 1) by omega]

/-- What one more row changes in the smoothed moments `k` times before the last one. -/
theorem PFun.ks_succ_diff (P : PFun n m) (z : ℕ → Obs m) (k : ℕ) : ∀ s,
    (P.ks z (s + k + 1) s).mean = (P.ks z (s + k) s).mean + P.gainProd z s (k + 1)
        *ᵥ ((P.kf z (s + k + 1)).filtMean - (P.kf z (s + k + 1)).predMean) ∧
    (P.ks z (s + k + 1) s).cov = (P.ks z (s + k) s).cov + P.gainProd z s (k + 1)
        * ((P.kf z (s + k + 1)).filtCov - (P.kf z (s + k + 1)).predCov)
        * (P.gainProd z s (k + 1))ᵀ := by
  induction k with
  | zero =>
    intro s
    simp only [Nat.add_zero]
    rw [P.ks_lt' z (show s < s + 1 by omega), P.ks_last, P.ks_last, (P.kf_pred_succ z s).1,
      (P.kf_pred_succ z s).2]
    simp [PFun.gainProd, PFun.lagGain]
  | succ k ih =>
    intro s
    obtain ⟨a, b⟩ := ih (s + 1)
    rw [show s + 1 + k = s + (k + 1) by omega] at a b
    rw [P.gainProd_left z s (k + 1), P.ks_lt' z (show s < s + (k + 1) + 1 by omega),
      P.ks_lt' z (show s < s + (k + 1) by omega)]
    simp only [a, b, PFun.lagGain]
    constructor
    · rw [add_sub_right_comm, mulVec_add, mulVec_mulVec]
      abel
    · rw [add_sub_right_comm, Matrix.mul_add, Matrix.add_mul, transpose_mul]
      simp only [Matrix.mul_assoc]
      abel

/-- `P'` keeps the last `L` states of `P`; `W i` selects the state `i` times ago. -/
structure PFun.Keeps (P : PFun n m) (P' : PFun N m) (W : ℕ → Mat n N) (L T : ℕ) : Prop where
  A0 : ∀ t, t + 1 < T → W 0 * P'.A t = P.A t * W 0
  As : ∀ t, t + 1 < T → ∀ i, i < L → W (i + 1) * P'.A t = W i
  b0 : ∀ t, t + 1 < T → W 0 *ᵥ P'.b t = P.b t
  bs : ∀ t, t + 1 < T → ∀ i, i < L → W (i + 1) *ᵥ P'.b t = 0
  Q0 : ∀ t, t + 1 < T → W 0 * P'.Q t * (W 0)ᵀ = P.Q t
  Qs : ∀ t, t + 1 < T → ∀ i, i < L → W (i + 1) * P'.Q t = 0
  Qs' : ∀ t, t + 1 < T → ∀ i, i < L → P'.Q t * (W (i + 1))ᵀ = 0
  C : ∀ t, t < T → P'.C t = P.C t * W 0
  d : ∀ t, t < T → P'.d t = P.d t
  R : ∀ t, t < T → P'.R t = P.R t
  mu0 : W 0 *ᵥ P'.mu0 = P.mu0
  S0 : W 0 * P'.S0 * (W 0)ᵀ = P.S0

section keeps
variable {P : PFun n m} {P' : PFun N m} {W : ℕ → Mat n N} {L T : ℕ} {z : ℕ → Obs m}

/-- The correction of a part of the state whose covariance with the newest state is `H` times the
covariance of the newest state. -/
theorem PFun.Keeps.corr (h : P.Keeps P' W L T) {t : ℕ} (ht : t < T)
    (e1 : W 0 *ᵥ (P'.kf z t).predMean = (P.kf z t).predMean)
    (e2 : W 0 * (P'.kf z t).predCov * (W 0)ᵀ = (P.kf z t).predCov) {i : ℕ} {H : Mat n n}
    (hX : W i * (P'.kf z t).predCov * (W 0)ᵀ = H * (P.kf z t).predCov)
    (hY : W 0 * (P'.kf z t).predCov * (W i)ᵀ = (P.kf z t).predCov * Hᵀ) :
    W i *ᵥ (P'.kf z t).filtMean = W i *ᵥ (P'.kf z t).predMean
        + H *ᵥ ((P.kf z t).filtMean - (P.kf z t).predMean) ∧
    W i * (P'.kf z t).filtCov * (W i)ᵀ = W i * (P'.kf z t).predCov * (W i)ᵀ
        + H * ((P.kf z t).filtCov - (P.kf z t).predCov) * Hᵀ ∧
    W i * (P'.kf z t).filtCov * (W 0)ᵀ = H * (P.kf z t).filtCov ∧
    W 0 * (P'.kf z t).filtCov * (W i)ᵀ = (P.kf z t).filtCov * Hᵀ := by
  by_cases hm : (z t).missing
  · rw [(P.kf_missing z hm).2.1, (P.kf_missing z hm).2.2, (P'.kf_missing z hm).2.1,
      (P'.kf_missing z hm).2.2]
    simp [hX, hY]
  · obtain ⟨-, f, g⟩ := P.kf_observed z hm
    obtain ⟨-, f', g'⟩ := P'.kf_observed z hm
    have hS : P'.C t * (P'.kf z t).predCov * (P'.C t)ᵀ + P'.R t
        = P.C t * (P.kf z t).predCov * (P.C t)ᵀ + P.R t := by
      rw [h.C t ht, h.R t ht, transpose_mul, ← e2]
      simp only [Matrix.mul_assoc]
    have hG : ∀ (j : ℕ) (J : Mat n n), W j * (P'.kf z t).predCov * (W 0)ᵀ = J * (P.kf z t).predCov →
        W j * Verif.gain (P'.kf z t).predCov (P'.R t) (P'.C t)
          = J * Verif.gain (P.kf z t).predCov (P.R t) (P.C t) := by
      intro j J hJ
      rw [Verif.gain, Verif.gain, hS, h.C t ht, transpose_mul, ← Matrix.mul_assoc, ← Matrix.mul_assoc,
        ← Matrix.mul_assoc, hJ]
      simp only [Matrix.mul_assoc]
    have hGi := hG i H hX
    have hG0 := hG 0 1 (by rw [e2, Matrix.one_mul])
    rw [Matrix.one_mul] at hG0
    have hv : P'.C t *ᵥ (P'.kf z t).predMean + P'.d t = P.C t *ᵥ (P.kf z t).predMean + P.d t := by
      rw [h.C t ht, h.d t ht, ← mulVec_mulVec, e1]
    have hC : ∀ j (X : Mat n n), W 0 * (P'.kf z t).predCov * (W j)ᵀ = X →
        P'.C t * (P'.kf z t).predCov * (W j)ᵀ = P.C t * X := by
      intro j X hX
      rw [h.C t ht, ← hX]
      simp only [Matrix.mul_assoc]
    have split : ∀ j l, W j * ((P'.kf z t).predCov - Verif.gain (P'.kf z t).predCov (P'.R t) (P'.C t)
          * P'.C t * (P'.kf z t).predCov) * (W l)ᵀ
        = W j * (P'.kf z t).predCov * (W l)ᵀ - W j * Verif.gain (P'.kf z t).predCov (P'.R t) (P'.C t)
          * (P'.C t * (P'.kf z t).predCov * (W l)ᵀ) := by
      intro j l
      rw [Matrix.mul_sub, Matrix.sub_mul]
      simp only [Matrix.mul_assoc]
    refine ⟨?_, ?_, ?_, ?_⟩
    · rw [f', hv, mulVec_add, mulVec_mulVec, hGi, f, add_sub_cancel_left, mulVec_mulVec]
    · rw [g', split, hGi, hC i _ hY, g, sub_sub_cancel_left, sub_eq_add_neg]
      congr 1
      simp only [Matrix.mul_neg, Matrix.neg_mul, Matrix.mul_assoc]
    · rw [g', split, hGi, hC 0 _ e2, hX, g, Matrix.mul_sub]
      simp only [Matrix.mul_assoc]
    · rw [g', split, hG0, hC i _ hY, hY, g, Matrix.sub_mul]
      simp only [Matrix.mul_assoc]

/-- Prediction of the parts of the state. -/
theorem PFun.Keeps.pred (h : P.Keeps P' W L T) {t : ℕ} (ht : t + 1 < T) :
    W 0 *ᵥ (P'.kf z (t + 1)).predMean = P.A t *ᵥ (W 0 *ᵥ (P'.kf z t).filtMean) + P.b t ∧
    W 0 * (P'.kf z (t + 1)).predCov * (W 0)ᵀ
      = P.A t * (W 0 * (P'.kf z t).filtCov * (W 0)ᵀ) * (P.A t)ᵀ + P.Q t ∧
    ∀ i, i < L → W (i + 1) *ᵥ (P'.kf z (t + 1)).predMean = W i *ᵥ (P'.kf z t).filtMean ∧
      W (i + 1) * (P'.kf z (t + 1)).predCov * (W (i + 1))ᵀ = W i * (P'.kf z t).filtCov * (W i)ᵀ ∧
      W (i + 1) * (P'.kf z (t + 1)).predCov * (W 0)ᵀ
        = W i * (P'.kf z t).filtCov * (W 0)ᵀ * (P.A t)ᵀ ∧
      W 0 * (P'.kf z (t + 1)).predCov * (W (i + 1))ᵀ
        = P.A t * (W 0 * (P'.kf z t).filtCov * (W i)ᵀ) := by
  have hA := h.A0 t ht
  have hA' : (P'.A t)ᵀ * (W 0)ᵀ = (W 0)ᵀ * (P.A t)ᵀ := by
    rw [← transpose_mul, hA, transpose_mul]
  have split : ∀ j l, W j * (P'.A t * (P'.kf z t).filtCov * (P'.A t)ᵀ + P'.Q t) * (W l)ᵀ
      = W j * P'.A t * (P'.kf z t).filtCov * ((P'.A t)ᵀ * (W l)ᵀ) + W j * P'.Q t * (W l)ᵀ := by
    intro j l
    rw [Matrix.mul_add, Matrix.add_mul]
    simp only [Matrix.mul_assoc]
  rw [(P'.kf_pred_succ z t).1, (P'.kf_pred_succ z t).2]
  refine ⟨?_, ?_, fun i hi => ?_⟩
  · rw [mulVec_add, mulVec_mulVec, hA, h.b0 t ht, mulVec_mulVec]
  · rw [split, hA, hA', h.Q0 t ht]
    simp only [Matrix.mul_assoc]
  · have hB := h.As t ht i hi
    have hB' : (P'.A t)ᵀ * (W (i + 1))ᵀ = (W i)ᵀ := by rw [← transpose_mul, hB]
    refine ⟨?_, ?_, ?_, ?_⟩
    · rw [mulVec_add, mulVec_mulVec, hB, h.bs t ht i hi, add_zero]
    · rw [split, hB, hB', h.Qs t ht i hi, Matrix.zero_mul, add_zero]
    · rw [split, hB, hA', h.Qs t ht i hi, Matrix.zero_mul, add_zero]
      simp only [Matrix.mul_assoc]
    · rw [split, hA, hB', Matrix.mul_assoc (W 0) (P'.Q t), h.Qs' t ht i hi, Matrix.mul_zero, add_zero]
      simp only [Matrix.mul_assoc]

/-- The predicted newest part is that of `P`, provided the filtered one is. -/
theorem PFun.Keeps.newest (h : P.Keeps P' W L T) {t : ℕ} (ht : t < T) :
    W 0 *ᵥ (P'.kf z t).predMean = (P.kf z t).predMean ∧
      W 0 * (P'.kf z t).predCov * (W 0)ᵀ = (P.kf z t).predCov := by
  induction t with
  | zero => exact ⟨h.mu0, h.S0⟩
  | succ t ih =>
    obtain ⟨i1, i2⟩ := ih (by omega)
    obtain ⟨c1, c2, -, -⟩ := h.corr (i := 0) (H := 1) (z := z) (by omega) i1 i2
      (by rw [i2, Matrix.one_mul]) (by rw [i2, transpose_one, Matrix.mul_one])
    rw [one_mulVec, i1, add_sub_cancel] at c1
    rw [Matrix.one_mul, transpose_one, Matrix.mul_one, i2, add_sub_cancel] at c2
    obtain ⟨p1, p2, -⟩ := h.pred (z := z) ht
    rw [p1, p2, c1, c2, (P.kf_pred_succ z t).1, (P.kf_pred_succ z t).2]
    exact ⟨rfl, rfl⟩

/-- The filter of `P'` knows the smoothed moments of `P` at the last `L` times. -/
theorem PFun.Keeps.lag (h : P.Keeps P' W L T) (hP : P.PSD T) (t : ℕ) : ∀ s i, s + i = t → t < T →
    i ≤ L →
    W i *ᵥ (P'.kf z t).filtMean = (P.ks z t s).mean ∧
    W i * (P'.kf z t).filtCov * (W i)ᵀ = (P.ks z t s).cov ∧
    W i * (P'.kf z t).filtCov * (W 0)ᵀ = P.gainProd z s i * (P.kf z t).filtCov ∧
    W 0 * (P'.kf z t).filtCov * (W i)ᵀ = (P.kf z t).filtCov * (P.gainProd z s i)ᵀ := by
  have base : ∀ t, t < T →
      W 0 *ᵥ (P'.kf z t).filtMean = (P.ks z t t).mean ∧
      W 0 * (P'.kf z t).filtCov * (W 0)ᵀ = (P.ks z t t).cov ∧
      W 0 * (P'.kf z t).filtCov * (W 0)ᵀ = P.gainProd z t 0 * (P.kf z t).filtCov ∧
      W 0 * (P'.kf z t).filtCov * (W 0)ᵀ = (P.kf z t).filtCov * (P.gainProd z t 0)ᵀ := by
    intro t ht
    obtain ⟨i1, i2⟩ := h.newest (z := z) ht
    obtain ⟨c1, c2, -, -⟩ := h.corr (i := 0) (H := 1) (z := z) ht i1 i2
      (by rw [i2, Matrix.one_mul]) (by rw [i2, transpose_one, Matrix.mul_one])
    rw [one_mulVec, i1, add_sub_cancel] at c1
    rw [Matrix.one_mul, transpose_one, Matrix.mul_one, i2, add_sub_cancel] at c2
    rw [c1, c2, P.ks_last, PFun.gainProd, Matrix.one_mul, transpose_one, Matrix.mul_one]
    exact ⟨rfl, rfl, rfl, rfl⟩
  induction t with
  | zero =>
    intro s i hsi ht hi
    obtain rfl : s = 0 := by omega
    obtain rfl : i = 0 := by omega
    exact base 0 ht
  | succ t ih =>
    intro s i hsi ht hi
    cases i with
    | zero =>
      obtain rfl : s = t + 1 := by omega
      exact base _ ht
    | succ i =>
      obtain rfl : s + i = t := by omega
      obtain ⟨a, b, c, d⟩ := ih s i rfl (by omega) (by omega)
      obtain ⟨i1, i2⟩ := h.newest (z := z) ht
      obtain ⟨-, -, p⟩ := h.pred (z := z) ht
      obtain ⟨pm, pz, px, py⟩ := p i (by omega)
      have hpsd := hP.filt (show s + i < T by omega) z
      have hg := gain_mul (P.A (s + i)) hpsd (hP.Q (s + i) ht)
      have hX : W (i + 1) * (P'.kf z (s + i + 1)).predCov * (W 0)ᵀ
          = P.gainProd z s (i + 1) * (P.kf z (s + i + 1)).predCov := by
        rw [px, c, PFun.gainProd, PFun.lagGain, Matrix.mul_assoc, ← hg, (P.kf_pred_succ z (s + i)).2]
        simp only [Matrix.mul_assoc]
      have hg' := congrArg Matrix.transpose hg
      rw [transpose_mul, transpose_mul, transpose_transpose, symm_of_posSemidef hpsd,
        symm_of_posSemidef (innov_posSemidef (P.A (s + i)) hpsd (hP.Q (s + i) ht))] at hg'
      have hY : W 0 * (P'.kf z (s + i + 1)).predCov * (W (i + 1))ᵀ
          = (P.kf z (s + i + 1)).predCov * (P.gainProd z s (i + 1))ᵀ := by
        rw [py, d, PFun.gainProd, PFun.lagGain, transpose_mul, ← Matrix.mul_assoc, ← hg',
          (P.kf_pred_succ z (s + i)).2, Matrix.mul_assoc]
      obtain ⟨c1, c2, c3, c4⟩ := h.corr (z := z) ht i1 i2 hX hY
      obtain ⟨d1, d2⟩ := P.ks_succ_diff z i s
      rw [d1, d2, c1, c2, pm, pz, a, b]
      exact ⟨rfl, rfl, c3, c4⟩

end keeps

end Verif
