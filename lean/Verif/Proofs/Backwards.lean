import Verif.Spec.Backwards
import Verif.Proofs.LeaveOneOutLoglik
import Verif.Proofs.LeastSquares

/-!
# Lemmas for C116: running a model backwards in time
-/

open Matrix

namespace Verif

variable {n m : ℕ}

/-- The same at the level of functions of time; `T` is the last time. -/
structure PFun.Rev (P P' : PFun n m) (T : ℕ) (mv : ℕ → Vec n) (V : ℕ → Mat n n) : Prop where
  mv0 : mv 0 = P.mu0
  V0 : V 0 = P.S0
  mvs : ∀ t, t < T → mv (t + 1) = P.A t *ᵥ mv t + P.b t
  Vs : ∀ t, t < T → V (t + 1) = P.A t * V t * (P.A t)ᵀ + P.Q t
  mu0 : P'.mu0 = mv T
  S0 : P'.S0 = V T
  A : ∀ s t, s + t + 1 = T → P'.A s * V (t + 1) = V t * (P.A t)ᵀ
  b : ∀ s t, s + t + 1 = T → P'.b s = mv t - P'.A s *ᵥ mv (t + 1)
  Q : ∀ s t, s + t + 1 = T → P'.Q s = V t - P'.A s * P.A t * V t
  C : ∀ s t, s + t = T → P'.C s = P.C t
  d : ∀ s t, s + t = T → P'.d s = P.d t
  R : ∀ s t, s + t = T → P'.R s = P.R t

/-- Log density of a trajectory up to time `T` together with the rows. -/
noncomputable def PFun.joint (P : PFun n m) (z : ℕ → Obs m) (T : ℕ) (x : ℕ → Vec n) : ℝ :=
  logN (x 0) P.mu0 P.S0
    + ∑ s ∈ Finset.range T, logN (x (s + 1)) (P.A s *ᵥ x s + P.b s) (P.Q s)
    + ∑ s ∈ Finset.range (T + 1), (z s).w * logN (z s).val (P.C s *ᵥ x s + P.d s) (P.R s)

/-- The smoothed means are the most likely trajectory, and the only one. -/
theorem PFun.PD.joint_max {P : PFun n m} {T : ℕ} (h : P.PD (T + 1)) (z : ℕ → Obs m)
    (x : ℕ → Vec n) : P.joint z T x ≤ P.joint z T (fun t => (P.ks z T t).mean) ∧
      (P.joint z T (fun t => (P.ks z T t).mean) ≤ P.joint z T x →
        ∀ t ≤ T, x t = (P.ks z T t).mean) := by
  have hf : ∀ y, P.joint z T y = _ := fun y => h.factor z y (show T < T + 1 by omega)
  generalize hσ : (fun t => (P.ks z T t).mean) = σ
  have ex := hf x
  have es := hf σ
  rw [h.gap] at ex es
  obtain ⟨gx, gx0⟩ := h.gap_zero z x
  have gs0 := (h.gap_zero z σ).2.mpr fun _ _ => by rw [← hσ]
  rw [gs0] at es
  refine ⟨by rw [ex, es]; linarith, fun hx => gx0.mp ?_⟩
  rw [ex, es] at hx
  linarith

theorem PFun.joint_congr (P : PFun n m) (z : ℕ → Obs m) {T : ℕ} {x y : ℕ → Vec n}
    (h : ∀ t ≤ T, x t = y t) : P.joint z T x = P.joint z T y := by
  rw [PFun.joint, PFun.joint, h 0 (Nat.zero_le _)]
  have e1 : ∀ s ∈ Finset.range T, logN (x (s + 1)) (P.A s *ᵥ x s + P.b s) (P.Q s)
      = logN (y (s + 1)) (P.A s *ᵥ y s + P.b s) (P.Q s) := fun s hs => by
    have := Finset.mem_range.mp hs
    rw [h s (by omega), h (s + 1) (by omega)]
  have e2 : ∀ s ∈ Finset.range (T + 1),
      (z s).w * logN (z s).val (P.C s *ᵥ x s + P.d s) (P.R s)
        = (z s).w * logN (z s).val (P.C s *ᵥ y s + P.d s) (P.R s) := fun s hs => by
    have := Finset.mem_range.mp hs
    rw [h s (by omega)]
  rw [Finset.sum_congr rfl e1, Finset.sum_congr rfl e2]

section
variable {P P' : PFun n m} {T : ℕ} {mv : ℕ → Vec n} {V : ℕ → Mat n n}

theorem PFun.Rev.posDef (h : P.Rev P' T mv V) (hP : P.PD (T + 1)) : ∀ t ≤ T, (V t).PosDef := by
  intro t
  induction t with
  | zero => intro _; rw [h.V0]; exact hP.S0
  | succ t ih =>
    intro ht
    rw [h.Vs t ht]
    exact posDef_conj_add (ih (by omega)).posSemidef (hP.Q t (by omega)) _

theorem PFun.Rev.gain (h : P.Rev P' T mv V) (hP : P.PD (T + 1)) {s t : ℕ} (ht : s + t + 1 = T) :
    Verif.gain (V t) (P.Q t) (P.A t) = P'.A s := by
  have u : IsUnit (V (t + 1)).det := (h.posDef hP (t + 1) (by omega)).det_pos.ne'.isUnit
  rw [Verif.gain, ← h.Vs t (by omega), pinv_eq_inv u, ← h.A s t ht,
    mul_nonsing_inv_cancel_right _ _ u]

theorem PFun.Rev.pd (h : P.Rev P' T mv V) (hP : P.PD (T + 1)) : P'.PD (T + 1) where
  Q s hs := by
    obtain ⟨t, ht⟩ : ∃ t, s + t + 1 = T := ⟨T - 1 - s, by omega⟩
    rw [h.Q s t ht, ← h.gain hP ht]
    exact updated_posDef (h.posDef hP t (by omega)) (hP.Q t (by omega)) _
  R s hs := by
    rw [h.R s (T - s) (by omega)]
    exact hP.R _ (by omega)
  S0 := by rw [h.S0]; exact h.posDef hP T le_rfl

theorem PFun.Rev.joint (h : P.Rev P' T mv V) (hP : P.PD (T + 1)) (z : ℕ → Obs m) (x : ℕ → Vec n) :
    P'.joint (fun s => z (T - s)) T (fun s => x (T - s)) = P.joint z T x := by
  have step : ∀ k ≤ T, logN (x 0) P.mu0 P.S0
      + ∑ t ∈ Finset.range k, logN (x (t + 1)) (P.A t *ᵥ x t + P.b t) (P.Q t)
      = logN (x k) (mv k) (V k) + ∑ t ∈ Finset.range k,
        logN (x t) (P'.A (T - 1 - t) *ᵥ x (t + 1) + P'.b (T - 1 - t)) (P'.Q (T - 1 - t)) := by
    intro k
    induction k with
    | zero => intro _; simp [h.mv0, h.V0]
    | succ k ih =>
      intro hk
      have e := bayes_logN (h.posDef hP k (by omega)) (hP.Q k (by omega)) (P.A k) (P.b k) (mv k) (x k)
        (x (k + 1))
      have hs : T - 1 - k + k + 1 = T := by omega
      rw [h.gain hP hs, ← h.mvs k (by omega), ← h.Vs k (by omega), ← h.Q _ k hs,
        show mv k + P'.A (T - 1 - k) *ᵥ (x (k + 1) - mv (k + 1))
          = P'.A (T - 1 - k) *ᵥ x (k + 1) + P'.b (T - 1 - k) by
            rw [h.b _ k hs, mulVec_sub]; abel] at e
      rw [Finset.sum_range_succ, Finset.sum_range_succ]
      have := ih (by omega)
      linarith
  have e1 : ∑ s ∈ Finset.range T, logN (x (T - (s + 1))) (P'.A s *ᵥ x (T - s) + P'.b s) (P'.Q s)
      = ∑ t ∈ Finset.range T,
        logN (x t) (P'.A (T - 1 - t) *ᵥ x (t + 1) + P'.b (T - 1 - t)) (P'.Q (T - 1 - t)) := by
    rw [← Finset.sum_range_reflect]
    refine Finset.sum_congr rfl fun t ht => ?_
    have := Finset.mem_range.mp ht
    rw [show T - (T - 1 - t + 1) = t by omega, show T - (T - 1 - t) = t + 1 by omega]
  have e2 : ∑ s ∈ Finset.range (T + 1), (z (T - s)).w
        * logN (z (T - s)).val (P'.C s *ᵥ x (T - s) + P'.d s) (P'.R s)
      = ∑ s ∈ Finset.range (T + 1), (z s).w * logN (z s).val (P.C s *ᵥ x s + P.d s) (P.R s) := by
    rw [← Finset.sum_range_reflect]
    refine Finset.sum_congr rfl fun t ht => ?_
    have := Finset.mem_range.mp ht
    rw [show T + 1 - 1 - t = T - t by omega, show T - (T - t) = t by omega,
      h.C (T - t) t (by omega), h.d (T - t) t (by omega), h.R (T - t) t (by omega)]
  rw [PFun.joint, PFun.joint, step T le_rfl]
  simp only [e1, e2, h.mu0, h.S0, Nat.sub_zero]

/-- The means backwards. -/
theorem PFun.Rev.mean (h : P.Rev P' T mv V) (hP : P.PD (T + 1)) (z : ℕ → Obs m) {s t : ℕ}
    (ht : s + t = T) : (P'.ks (fun s => z (T - s)) T s).mean = (P.ks z T t).mean := by
  have a := ((h.pd hP).joint_max (fun s => z (T - s)) fun s => (P.ks z T (T - s)).mean).2
  have e := h.joint hP z fun t => (P.ks z T t).mean
  have hx : P'.joint (fun s => z (T - s)) T (fun s => (P'.ks (fun s => z (T - s)) T s).mean)
      ≤ P'.joint (fun s => z (T - s)) T (fun s => (P.ks z T (T - s)).mean) := by
    rw [e]
    have e' := h.joint hP z fun t => (P'.ks (fun s => z (T - s)) T (T - t)).mean
    have c : P'.joint (fun s => z (T - s)) T (fun s => (P'.ks (fun s => z (T - s)) T s).mean)
        = P'.joint (fun s => z (T - s)) T
          (fun s => (P'.ks (fun s => z (T - s)) T (T - (T - s))).mean) :=
      P'.joint_congr _ fun t ht => by rw [show T - (T - t) = t by omega]
    rw [c, e']
    exact (hP.joint_max z _).1
  have := a hx s (by omega)
  rw [← this, show T - s = t by omega]

end

end Verif
