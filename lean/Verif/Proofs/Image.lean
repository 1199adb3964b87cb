import Verif.Spec.Image
import Verif.Proofs.FixedLag

/-!
# Lemmas for C117: linear images of models
-/

open Matrix

namespace Verif

variable {n m k : ℕ}

/-- `P'` describes `E_t x_t + e_t`, where `P` describes `x_t`. -/
structure PFun.Image (P : PFun n m) (P' : PFun k m) (E : ℕ → Mat k n) (e : ℕ → Vec k) (T : ℕ) :
    Prop where
  A : ∀ t, t + 1 < T → P'.A t * E t = E (t + 1) * P.A t
  b : ∀ t, t + 1 < T → P'.A t *ᵥ e t + P'.b t = E (t + 1) *ᵥ P.b t + e (t + 1)
  Q : ∀ t, t + 1 < T → P'.Q t = E (t + 1) * P.Q t * (E (t + 1))ᵀ
  C : ∀ t, t < T → P'.C t * E t = P.C t
  d : ∀ t, t < T → P'.C t *ᵥ e t + P'.d t = P.d t
  R : ∀ t, t < T → P'.R t = P.R t
  mu0 : P'.mu0 = E 0 *ᵥ P.mu0 + e 0
  S0 : P'.S0 = E 0 * P.S0 * (E 0)ᵀ

section
variable {P : PFun n m} {P' : PFun k m} {E : ℕ → Mat k n} {e : ℕ → Vec k} {T : ℕ} {z : ℕ → Obs m}

/-- The correction in both models, with the same innovation and precision. -/
theorem PFun.Image.corr (h : P.Image P' E e T) {t : ℕ} (ht : t < T)
    (e1 : (P'.kf z t).predMean = E t *ᵥ (P.kf z t).predMean + e t)
    (e2 : (P'.kf z t).predCov = E t * (P.kf z t).predCov * (E t)ᵀ) :
    ∃ (w : Vec m) (N : Mat m m),
      (P.kf z t).filtMean = (P.kf z t).predMean + ((P.kf z t).predCov * (P.C t)ᵀ) *ᵥ w ∧
      (P.kf z t).filtCov = (P.kf z t).predCov
        - (P.kf z t).predCov * (P.C t)ᵀ * N * (P.C t * (P.kf z t).predCov) ∧
      (P'.kf z t).filtMean = (P'.kf z t).predMean + ((P'.kf z t).predCov * (P'.C t)ᵀ) *ᵥ w ∧
      (P'.kf z t).filtCov = (P'.kf z t).predCov
        - (P'.kf z t).predCov * (P'.C t)ᵀ * N * (P'.C t * (P'.kf z t).predCov) := by
  by_cases hm : (z t).missing
  · refine ⟨0, 0, ?_, ?_, ?_, ?_⟩
    · rw [(P.kf_missing z hm).2.1, mulVec_zero, add_zero]
    · rw [(P.kf_missing z hm).2.2, Matrix.mul_zero, Matrix.zero_mul, sub_zero]
    · rw [(P'.kf_missing z hm).2.1, mulVec_zero, add_zero]
    · rw [(P'.kf_missing z hm).2.2, Matrix.mul_zero, Matrix.zero_mul, sub_zero]
  · obtain ⟨-, f, g⟩ := P.kf_observed z hm
    obtain ⟨-, f', g'⟩ := P'.kf_observed z hm
    have hS : P'.C t * (P'.kf z t).predCov * (P'.C t)ᵀ + P'.R t
        = P.C t * (P.kf z t).predCov * (P.C t)ᵀ + P.R t := by
      rw [h.R t ht, ← h.C t ht, transpose_mul, e2]
      simp only [Matrix.mul_assoc]
    have hv : P'.C t *ᵥ (P'.kf z t).predMean + P'.d t = P.C t *ᵥ (P.kf z t).predMean + P.d t := by
      rw [← h.d t ht, ← h.C t ht, e1, mulVec_add, mulVec_mulVec, add_assoc]
    refine ⟨pinv (P.C t * (P.kf z t).predCov * (P.C t)ᵀ + P.R t)
      *ᵥ ((z t).val - (P.C t *ᵥ (P.kf z t).predMean + P.d t)),
      pinv (P.C t * (P.kf z t).predCov * (P.C t)ᵀ + P.R t), ?_, ?_, ?_, ?_⟩
    · rw [f, Verif.gain, mulVec_mulVec]
    · rw [g, Verif.gain]
      simp only [Matrix.mul_assoc]
    · rw [f', Verif.gain, hS, hv, mulVec_mulVec]
    · rw [g', Verif.gain, hS]
      simp only [Matrix.mul_assoc]

theorem PFun.Image.filt_of_pred (h : P.Image P' E e T) {t : ℕ} (ht : t < T)
    (e1 : (P'.kf z t).predMean = E t *ᵥ (P.kf z t).predMean + e t)
    (e2 : (P'.kf z t).predCov = E t * (P.kf z t).predCov * (E t)ᵀ) :
    (P'.kf z t).filtMean = E t *ᵥ (P.kf z t).filtMean + e t ∧
    (P'.kf z t).filtCov = E t * (P.kf z t).filtCov * (E t)ᵀ := by
  obtain ⟨w, N, a, b, a', b'⟩ := h.corr ht e1 e2
  have hC' : (E t)ᵀ * (P'.C t)ᵀ = (P.C t)ᵀ := by rw [← h.C t ht, transpose_mul]
  have x1 : (P'.kf z t).predCov * (P'.C t)ᵀ = E t * ((P.kf z t).predCov * (P.C t)ᵀ) := by
    rw [e2, Matrix.mul_assoc, hC', Matrix.mul_assoc]
  have x2 : P'.C t * (P'.kf z t).predCov = P.C t * (P.kf z t).predCov * (E t)ᵀ := by
    rw [e2, ← h.C t ht]
    simp only [Matrix.mul_assoc]
  constructor
  · rw [a', a, x1, e1, mulVec_add, mulVec_mulVec]
    abel
  · rw [b', b, x1, x2, e2, Matrix.mul_sub, Matrix.sub_mul]
    simp only [Matrix.mul_assoc]

theorem PFun.Image.kf (h : P.Image P' E e T) (t : ℕ) : t < T →
    ((P'.kf z t).predMean = E t *ᵥ (P.kf z t).predMean + e t ∧
      (P'.kf z t).predCov = E t * (P.kf z t).predCov * (E t)ᵀ) ∧
    (P'.kf z t).filtMean = E t *ᵥ (P.kf z t).filtMean + e t ∧
    (P'.kf z t).filtCov = E t * (P.kf z t).filtCov * (E t)ᵀ := by
  induction t with
  | zero =>
    intro ht
    have p : (P'.kf z 0).predMean = E 0 *ᵥ (P.kf z 0).predMean + e 0 ∧
        (P'.kf z 0).predCov = E 0 * (P.kf z 0).predCov * (E 0)ᵀ := ⟨h.mu0, h.S0⟩
    exact ⟨p, h.filt_of_pred ht p.1 p.2⟩
  | succ t ih =>
    intro ht
    obtain ⟨-, f1, f2⟩ := ih (by omega)
    have p : (P'.kf z (t + 1)).predMean = E (t + 1) *ᵥ (P.kf z (t + 1)).predMean + e (t + 1) ∧
        (P'.kf z (t + 1)).predCov = E (t + 1) * (P.kf z (t + 1)).predCov * (E (t + 1))ᵀ := by
      rw [(P.kf_pred_succ z t).1, (P.kf_pred_succ z t).2, (P'.kf_pred_succ z t).1,
        (P'.kf_pred_succ z t).2, f1, f2]
      constructor
      · rw [mulVec_add, add_assoc, h.b t ht, mulVec_mulVec, h.A t ht, mulVec_add, mulVec_mulVec,
          add_assoc]
      · have hA' : (E t)ᵀ * (P'.A t)ᵀ = (P.A t)ᵀ * (E (t + 1))ᵀ := by
          rw [← transpose_mul, h.A t ht, transpose_mul]
        rw [h.Q t ht, Matrix.mul_add, Matrix.add_mul]
        congr 1
        calc P'.A t * (E t * (P.kf z t).filtCov * (E t)ᵀ) * (P'.A t)ᵀ
            = (P'.A t * E t) * (P.kf z t).filtCov * ((E t)ᵀ * (P'.A t)ᵀ) := by
              simp only [Matrix.mul_assoc]
          _ = _ := by rw [h.A t ht, hA']; simp only [Matrix.mul_assoc]
    exact ⟨p, h.filt_of_pred ht p.1 p.2⟩

theorem PFun.Image.psd (h : P.Image P' E e T) (hP : P.PSD T) : P'.PSD T where
  Q t ht := by rw [h.Q t ht]; exact posSemidef_conj' (hP.Q t ht) _
  R t ht := by rw [h.R t ht]; exact hP.R t ht
  S0 := by rw [h.S0]; exact posSemidef_conj' hP.S0 _

/-- Products of the gains of the smoother, applied to the covariances of both models. -/
theorem PFun.Image.gains (h : P.Image P' E e T) (hP : P.PSD T) (s j : ℕ) : s + j < T →
    P'.gainProd z s j * (P'.kf z (s + j)).filtCov
      = E s * (P.gainProd z s j * (P.kf z (s + j)).filtCov) * (E (s + j))ᵀ ∧
    (∀ i, j = i + 1 → P'.gainProd z s j * (P'.kf z (s + j)).predCov
      = E s * (P.gainProd z s j * (P.kf z (s + j)).predCov) * (E (s + j))ᵀ) := by
  induction j with
  | zero =>
    intro hs
    refine ⟨?_, fun i hi => by omega⟩
    obtain ⟨-, -, f⟩ := h.kf (z := z) s hs
    simp only [PFun.gainProd, Matrix.one_mul, Nat.add_zero, f]
  | succ j ih =>
    intro hs
    obtain ⟨ih, -⟩ := ih (by omega)
    have hs' : s + j + 1 < T := hs
    obtain ⟨⟨p1, p2⟩, -, -⟩ := h.kf (z := z) (s + j + 1) hs'
    have g := gain_mul (P.A (s + j)) (hP.filt (show s + j < T by omega) z) (hP.Q (s + j) hs')
    have hP' := h.psd hP
    have g' := gain_mul (P'.A (s + j)) (hP'.filt (show s + j < T by omega) z) (hP'.Q (s + j) hs')
    rw [← (P.kf_pred_succ z (s + j)).2] at g
    rw [← (P'.kf_pred_succ z (s + j)).2] at g'
    have hA' : (E (s + j))ᵀ * (P'.A (s + j))ᵀ = (P.A (s + j))ᵀ * (E (s + j + 1))ᵀ := by
      rw [← transpose_mul, h.A _ hs', transpose_mul]
    have key : P'.gainProd z s (j + 1) * (P'.kf z (s + j + 1)).predCov
        = E s * (P.gainProd z s (j + 1) * (P.kf z (s + j + 1)).predCov) * (E (s + j + 1))ᵀ := by
      rw [PFun.gainProd, PFun.gainProd, PFun.lagGain, PFun.lagGain, Matrix.mul_assoc, g',
        ← Matrix.mul_assoc, ih, Matrix.mul_assoc (P.gainProd z s j), g]
      simp only [Matrix.mul_assoc, hA']
    refine ⟨?_, fun _ _ => key⟩
    obtain ⟨w, N, -, b, -, b'⟩ := h.corr hs' p1 p2
    have hC' : (E (s + j + 1))ᵀ * (P'.C (s + j + 1))ᵀ = (P.C (s + j + 1))ᵀ := by
      rw [← h.C _ hs', transpose_mul]
    have x2 : P'.C (s + j + 1) * (P'.kf z (s + j + 1)).predCov
        = P.C (s + j + 1) * (P.kf z (s + j + 1)).predCov * (E (s + j + 1))ᵀ := by
      rw [p2, ← h.C _ hs']
      simp only [Matrix.mul_assoc]
    change P'.gainProd z s (j + 1) * (P'.kf z (s + j + 1)).filtCov
      = E s * (P.gainProd z s (j + 1) * (P.kf z (s + j + 1)).filtCov) * (E (s + j + 1))ᵀ
    rw [b', b, x2]
    calc P'.gainProd z s (j + 1) * ((P'.kf z (s + j + 1)).predCov
          - (P'.kf z (s + j + 1)).predCov * (P'.C (s + j + 1))ᵀ * N
            * (P.C (s + j + 1) * (P.kf z (s + j + 1)).predCov * (E (s + j + 1))ᵀ))
        = P'.gainProd z s (j + 1) * (P'.kf z (s + j + 1)).predCov
          - (P'.gainProd z s (j + 1) * (P'.kf z (s + j + 1)).predCov) * (P'.C (s + j + 1))ᵀ * N
            * (P.C (s + j + 1) * (P.kf z (s + j + 1)).predCov * (E (s + j + 1))ᵀ) := by
          rw [Matrix.mul_sub]; simp only [Matrix.mul_assoc]
      _ = _ := by
          rw [key, Matrix.mul_sub, Matrix.mul_sub, Matrix.sub_mul]
          congr 1
          rw [Matrix.mul_assoc (E s * _) (E (s + j + 1))ᵀ, hC']
          simp only [Matrix.mul_assoc]

/-- The smoothed moments of the image are the images of the smoothed moments. -/
theorem PFun.Image.ks (h : P.Image P' E e T) (hP : P.PSD T) (s j : ℕ) : s + j < T →
    (P'.ks z (s + j) s).mean = E s *ᵥ (P.ks z (s + j) s).mean + e s ∧
    (P'.ks z (s + j) s).cov = E s * (P.ks z (s + j) s).cov * (E s)ᵀ := by
  induction j with
  | zero =>
    intro hs
    obtain ⟨-, f1, f2⟩ := h.kf (z := z) s hs
    simp only [Nat.add_zero, PFun.ks_last]
    exact ⟨f1, f2⟩
  | succ j ih =>
    intro hs
    have hs' : s + j + 1 < T := hs
    obtain ⟨i1, i2⟩ := ih (by omega)
    obtain ⟨⟨p1, p2⟩, -, -⟩ := h.kf (z := z) (s + j + 1) hs'
    obtain ⟨w, N, a, b, a', b'⟩ := h.corr hs' p1 p2
    have key : P'.gainProd z s (j + 1) * (P'.kf z (s + j + 1)).predCov
        = E s * (P.gainProd z s (j + 1) * (P.kf z (s + j + 1)).predCov) * (E (s + j + 1))ᵀ :=
      (h.gains (z := z) hP s (j + 1) hs).2 j rfl
    have hC' : (E (s + j + 1))ᵀ * (P'.C (s + j + 1))ᵀ = (P.C (s + j + 1))ᵀ := by
      rw [← h.C _ hs', transpose_mul]
    have k1 : P'.gainProd z s (j + 1) * ((P'.kf z (s + j + 1)).predCov * (P'.C (s + j + 1))ᵀ)
        = E s * (P.gainProd z s (j + 1) * ((P.kf z (s + j + 1)).predCov * (P.C (s + j + 1))ᵀ)) := by
      rw [← Matrix.mul_assoc, key, Matrix.mul_assoc, hC']
      simp only [Matrix.mul_assoc]
    have y := symm_of_posSemidef (hP.pred hs' z)
    have y' := symm_of_posSemidef ((h.psd hP).pred hs' z)
    have k2 := congrArg Matrix.transpose k1
    simp only [transpose_mul, transpose_transpose, y, y'] at k2
    obtain ⟨c1, c2⟩ := P.ks_succ_diff z j s
    obtain ⟨c1', c2'⟩ := P'.ks_succ_diff z j s
    change (P'.ks z (s + j + 1) s).mean = E s *ᵥ (P.ks z (s + j + 1) s).mean + e s ∧
      (P'.ks z (s + j + 1) s).cov = E s * (P.ks z (s + j + 1) s).cov * (E s)ᵀ
    rw [c1, c2, c1', c2', a, b, a', b', i1, i2]
    constructor
    · rw [add_sub_cancel_left, add_sub_cancel_left, mulVec_mulVec, k1, mulVec_add, mulVec_mulVec,
        mulVec_mulVec, Matrix.mul_assoc]
      abel
    · rw [sub_sub_cancel_left, sub_sub_cancel_left, Matrix.mul_add, Matrix.add_mul]
      congr 1
      simp only [Matrix.mul_neg, Matrix.neg_mul]
      congr 1
      calc P'.gainProd z s (j + 1) * ((P'.kf z (s + j + 1)).predCov * (P'.C (s + j + 1))ᵀ * N
            * (P'.C (s + j + 1) * (P'.kf z (s + j + 1)).predCov)) * (P'.gainProd z s (j + 1))ᵀ
          = (P'.gainProd z s (j + 1) * ((P'.kf z (s + j + 1)).predCov * (P'.C (s + j + 1))ᵀ)) * N
            * (P'.C (s + j + 1) * (P'.kf z (s + j + 1)).predCov * (P'.gainProd z s (j + 1))ᵀ) := by
            simp only [Matrix.mul_assoc]
        _ = _ := by
            rw [k1, k2]
            simp only [Matrix.mul_assoc]

end

end Verif
