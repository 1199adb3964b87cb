import Verif.Linalg.Smooth
import Verif.Proofs.EmMonotone

/-!
# Smooth dependence of filter, smoother and likelihood on parameters and data
-/

open Matrix Filter Topology

namespace Verif

variable {n m : ℕ} {E : Type*} [NormedAddCommGroup E] [NormedSpace ℝ E] {r : WithTop ℕ∞} {x : E}

/-- Parameters (functions of time) that depend smoothly on `θ`. -/
structure PFun.SmoothFam (r : WithTop ℕ∞) (P : E → PFun n m) (x : E) (T : ℕ) : Prop where
  A : ∀ t, t + 1 < T → SmoothM r (fun θ => (P θ).A t) x
  b : ∀ t, t + 1 < T → SmoothV r (fun θ => (P θ).b t) x
  Q : ∀ t, t + 1 < T → SmoothM r (fun θ => (P θ).Q t) x
  C : ∀ t, t < T → SmoothM r (fun θ => (P θ).C t) x
  d : ∀ t, t < T → SmoothV r (fun θ => (P θ).d t) x
  R : ∀ t, t < T → SmoothM r (fun θ => (P θ).R t) x
  mu0 : SmoothV r (fun θ => (P θ).mu0) x
  S0 : SmoothM r (fun θ => (P θ).S0) x

/-- Observations that depend smoothly on `θ`, with a mask that does not. -/
def SmoothObs (r : WithTop ℕ∞) (z : E → ℕ → Obs m) (x : E) (T : ℕ) : Prop :=
  ∀ t, t < T → (∀ θ, (z θ t).missing) ∨
    ((∀ θ, ¬ (z θ t).missing) ∧ SmoothV r (fun θ => (z θ t).val) x)

section
variable {P : E → PFun n m} {z : E → ℕ → Obs m} {T : ℕ}

/-- The innovation covariance is invertible at the unmasked rows. -/
def RegularAt (P : PFun n m) (z : ℕ → Obs m) (T : ℕ) : Prop :=
  ∀ t, t < T → ¬ (z t).missing → (P.C t * (P.kf z t).predCov * (P.C t)ᵀ + P.R t).det ≠ 0

structure SmoothStep (r : WithTop ℕ∞) (s : E → Step n m) (x : E) : Prop where
  predMean : SmoothV r (fun θ => (s θ).predMean) x
  predCov : SmoothM r (fun θ => (s θ).predCov) x
  filtMean : SmoothV r (fun θ => (s θ).filtMean) x
  filtCov : SmoothM r (fun θ => (s θ).filtCov) x

theorem PFun.SmoothFam.correct (h : PFun.SmoothFam r P x T) (hz : SmoothObs r z x T)
    (hr : RegularAt (P x) (z x) T) {t : ℕ} (ht : t < T)
    (h1 : SmoothV r (fun θ => ((P θ).kf (z θ) t).predMean) x)
    (h2 : SmoothM r (fun θ => ((P θ).kf (z θ) t).predCov) x) :
    SmoothStep r (fun θ => (P θ).kf (z θ) t) x := by
  rcases hz t ht with hm | ⟨hm, hv⟩
  · refine ⟨h1, h2, ?_, ?_⟩
    · simp only [fun θ => ((P θ).kf_missing (z θ) (hm θ)).2.1]; exact h1
    · simp only [fun θ => ((P θ).kf_missing (z θ) (hm θ)).2.2]; exact h2
  · have hG := h2.gain (h.R t ht) (h.C t ht) (hr t ht (hm x))
    refine ⟨h1, h2, ?_, ?_⟩
    · simp only [fun θ => ((P θ).kf_observed (z θ) (hm θ)).2.1]
      exact h1.add (hG.mulVec (hv.sub (((h.C t ht).mulVec h1).add (h.d t ht))))
    · simp only [fun θ => ((P θ).kf_observed (z θ) (hm θ)).2.2]
      exact h2.sub ((hG.mul (h.C t ht)).mul h2)

theorem PFun.SmoothFam.kf (h : PFun.SmoothFam r P x T) (hz : SmoothObs r z x T)
    (hr : RegularAt (P x) (z x) T) {t : ℕ} (ht : t < T) :
    SmoothStep r (fun θ => (P θ).kf (z θ) t) x := by
  induction t with
  | zero => exact h.correct hz hr ht h.mu0 h.S0
  | succ t ih =>
    have i := ih (by omega)
    refine h.correct hz hr ht ?_ ?_
    · simp only [fun θ => ((P θ).kf_pred_succ (z θ) t).1]
      exact ((h.A t ht).mulVec i.filtMean).add (h.b t ht)
    · simp only [fun θ => ((P θ).kf_pred_succ (z θ) t).2]
      exact (((h.A t ht).mul i.filtCov).mul (h.A t ht).transpose).add (h.Q t ht)

structure SmoothSStep (r : WithTop ℕ∞) (s : E → SStep n) (x : E) : Prop where
  mean : SmoothV r (fun θ => (s θ).mean) x
  cov : SmoothM r (fun θ => (s θ).cov) x
  gain : SmoothM r (fun θ => (s θ).gain) x

theorem PFun.SmoothFam.ks (h : PFun.SmoothFam r P x (T + 1)) (hz : SmoothObs r z x (T + 1))
    (hr : RegularAt (P x) (z x) (T + 1))
    (hp : ∀ t, t < T → ((P x).kf (z x) (t + 1)).predCov.det ≠ 0) {t : ℕ} (ht : t ≤ T) :
    SmoothSStep r (fun θ => (P θ).ks (z θ) T t) x := by
  obtain ⟨j, rfl⟩ : ∃ j, T = t + j := ⟨T - t, by omega⟩
  clear ht
  induction j generalizing t with
  | zero =>
    have i := h.kf hz hr (show t < t + 0 + 1 by omega)
    simp only [Nat.add_zero]
    refine ⟨?_, ?_, ?_⟩ <;> simp only [PFun.ks_last]
    · exact i.filtMean
    · exact i.filtCov
    · exact SmoothM.const _
  | succ j ih =>
    have hlt : t < t + (j + 1) := by omega
    have i := h.kf hz hr (show t < t + (j + 1) + 1 by omega)
    have e : t + (j + 1) = t + 1 + j := by omega
    have k : SmoothSStep r (fun θ => (P θ).ks (z θ) (t + (j + 1)) (t + 1)) x := by
      rw [e] at h hz hr hp ⊢
      exact ih h hz hr hp
    have hd : ((P x).A t * ((P x).kf (z x) t).filtCov * ((P x).A t)ᵀ + (P x).Q t).det ≠ 0 := by
      rw [← ((P x).kf_pred_succ (z x) t).2]; exact hp t hlt
    have hG := i.filtCov.gain (h.Q t (by omega)) (h.A t (by omega)) hd
    have hA := h.A t (by omega)
    simp only [fun θ => (P θ).ks_lt' (z θ) hlt]
    exact ⟨i.filtMean.add (hG.mulVec (k.mean.sub ((hA.mulVec i.filtMean).add (h.b t (by omega))))),
      i.filtCov.add ((hG.mul (k.cov.sub (((hA.mul i.filtCov).mul hA.transpose).add
        (h.Q t (by omega))))).mul hG.transpose), hG⟩

theorem SmoothV.logN {k : ℕ} {y c : E → Vec k} {S : E → Mat k k} (hy : SmoothV r y x)
    (hc : SmoothV r c x) (hS : SmoothM r S x) (hd : (S x).det ≠ 0) :
    ContDiffAt ℝ r (fun θ => Verif.logN (y θ) (c θ) (S θ)) x := by
  simp only [Verif.logN]
  exact contDiffAt_const.mul ((contDiffAt_const.add (hS.log_det hd)).add
    ((hy.sub hc).dotProduct ((hS.inv hd).mulVec (hy.sub hc))))

theorem SmoothM.expLogN {k : ℕ} {S M : E → Mat k k} (hS : SmoothM r S x) (hM : SmoothM r M x)
    (hd : (S x).det ≠ 0) : ContDiffAt ℝ r (fun θ => Verif.expLogN (S θ) (M θ)) x := by
  simp only [Verif.expLogN]
  exact contDiffAt_const.mul ((contDiffAt_const.add (hS.log_det hd)).add
    ((hS.inv hd).mul hM).trace)

theorem PFun.SmoothFam.predLL (h : PFun.SmoothFam r P x (T + 1)) (hz : SmoothObs r z x (T + 1))
    (hr : RegularAt (P x) (z x) (T + 1)) : ContDiffAt ℝ r (fun θ => (P θ).predLL (z θ) T) x := by
  simp only [PFun.predLL]
  refine ContDiffAt.sum fun t ht => ?_
  have ht : t < T + 1 := Finset.mem_range.mp ht
  have i := h.kf hz hr ht
  rcases hz t ht with hm | ⟨hm, hv⟩
  · simp only [fun θ => Obs.w_missing (hm θ), zero_mul]
    exact contDiffAt_const
  · simp only [fun θ => Obs.w_observed (hm θ), one_mul]
    exact hv.logN (((h.C t ht).mulVec i.predMean).add (h.d t ht))
      ((((h.C t ht).mul i.predCov).mul (h.C t ht).transpose).add (h.R t ht)) (hr t ht (hm x))

/-- The expected complete-data log-likelihood for fixed statistics. -/
theorem PFun.SmoothFam.eJoint (h : PFun.SmoothFam r P x (T + 1)) (hP : (P x).PD (T + 1))
    (f : ℕ → EmStats n) (g : ℕ → Obs m) :
    ContDiffAt ℝ r (fun θ => eJoint f g T (P θ)) x := by
  simp only [Verif.eJoint]
  refine (ContDiffAt.add ?_ ?_).add ?_
  · refine h.S0.expLogN ?_ hP.S0.det_pos.ne'
    simp only [initTerm]
    have hs := (SmoothV.const (r := r) (x := x) (f 0).mean).sub h.mu0
    exact (SmoothM.const _).add (hs.vecMulVec hs)
  · simp only [eTrans]
    refine ContDiffAt.sum fun t ht => ?_
    have ht := Finset.mem_range.mp ht
    have hA := h.A t (by omega)
    refine (h.Q t (by omega)).expLogN ?_ (hP.Q t (by omega)).det_pos.ne'
    simp only [transTerm]
    have hs := ((SmoothV.const (r := r) (x := x) (f (t + 1)).mean).sub
      (hA.mulVec (SmoothV.const (f t).mean))).sub (h.b t (by omega))
    have hp := (SmoothM.const (r := r) (x := x) (f (t + 1)).pair).mul hA.transpose
    exact ((((hs.vecMulVec hs).add (hA.mul ((SmoothM.const (f t).cov).mul hA.transpose))).add
      (SmoothM.const _)).sub hp).sub hp.transpose
  · simp only [eObs]
    refine ContDiffAt.sum fun t ht => ?_
    have ht := Finset.mem_range.mp ht
    refine contDiffAt_const.mul ((h.R t ht).expLogN ?_ (hP.R t ht).det_pos.ne')
    simp only [obsTerm]
    have hC := h.C t ht
    have hs := ((SmoothV.const (r := r) (x := x) (g t).val).sub
      (hC.mulVec (SmoothV.const (f t).mean))).sub (h.d t ht)
    exact (hs.vecMulVec hs).add (hC.mul ((SmoothM.const (f t).cov).mul hC.transpose))

end

theorem PFun.PD.regular {P : PFun n m} {T : ℕ} (h : P.PD T) (z : ℕ → Obs m) : RegularAt P z T :=
  fun t ht _ => (posDef_conj_add (h.filt z ht).1.posSemidef (h.R t ht) _).det_pos.ne'

end Verif
