import Verif.Spec.LeastSquares
import Verif.Proofs.EmMonotone
import Verif.Proofs.EmJoint

/-!
# Lemmas on the least-squares criterion (C59)
-/

open Matrix

namespace Verif

variable {n m : ℕ}

/-- The log density of a trajectory is, up to a constant, minus half its misfit. -/
theorem logJoint_misfit (p : Params n m) (os : List (Obs m)) :
    ∃ K : ℝ, ∀ x, logJoint p os x = K - misfit p os x / 2 := by
  refine ⟨-(1 / 2) * (n * Real.log (2 * Real.pi) + Real.log p.S0.det)
    + ∑ t ∈ Finset.range (os.length - 1),
      -(1 / 2) * (n * Real.log (2 * Real.pi) + Real.log (p.Q.at t).det)
    + ∑ t : Fin os.length, if (∃ j, os[t].mask j = true) then 0
        else -(1 / 2) * (m * Real.log (2 * Real.pi) + Real.log (p.R.at t).det), fun x => ?_⟩
  have h1 : ∀ {k : ℕ} (x c : Vec k) (S : Mat k k), logN x c S
      = -(1 / 2) * (k * Real.log (2 * Real.pi) + Real.log S.det) - weighted S (x - c) / 2 := by
    intro k x c S
    rw [logN, weighted]
    ring
  have h2 : ∀ t : Fin os.length, (if (∃ j, os[t].mask j = true) then (0 : ℝ)
        else logN os[t].val (p.C.at t *ᵥ x t + p.d.at t) (p.R.at t))
      = (if (∃ j, os[t].mask j = true) then 0
        else -(1 / 2) * (m * Real.log (2 * Real.pi) + Real.log (p.R.at t).det))
        - (if (∃ j, os[t].mask j = true) then 0
          else weighted (p.R.at t) (os[t].val - (p.C.at t *ᵥ x t + p.d.at t))) / 2 := by
    intro t
    split
    · simp
    · exact h1 _ _ _
  simp only [logJoint, misfit]
  rw [Finset.sum_congr rfl fun t _ => h2 t, Finset.sum_congr rfl fun t _ => h1 _ _ (p.Q.at t), h1,
    Finset.sum_sub_distrib, Finset.sum_sub_distrib, ← Finset.sum_div, ← Finset.sum_div]
  ring

theorem weighted_nonneg {k : ℕ} {S : Mat k k} (h : S.PosDef) (e : Vec k) : 0 ≤ weighted S e := by
  rw [weighted]
  exact (posSemidef_iff_real.mp h.inv.posSemidef).2 e

theorem weighted_zero_iff {k : ℕ} {S : Mat k k} (h : S.PosDef) (e : Vec k) :
    weighted S e = 0 ↔ e = 0 := by
  refine ⟨fun he => ?_, fun he => by simp [weighted, he]⟩
  by_contra hne
  have := h.inv.dotProduct_mulVec_pos hne
  rw [star_trivial] at this
  rw [weighted] at he
  exact this.ne' he

/-- What separates a trajectory from the best one. -/
theorem PFun.PD.gap {P : PFun n m} {T : ℕ} (h : P.PD (T + 1)) (z : ℕ → Obs m) (x : ℕ → Vec n) :
    logN (x T) (P.kf z T).filtMean (P.kf z T).filtCov
        + ∑ s ∈ Finset.range T, P.backTerm z s (x (s + 1)) (x s)
      = logN (P.kf z T).filtMean (P.kf z T).filtMean (P.kf z T).filtCov
        + ∑ s ∈ Finset.range T, P.backTerm z s (P.ks z T (s + 1)).mean (P.ks z T s).mean
        - (weighted (P.kf z T).filtCov (x T - (P.kf z T).filtMean)
          + ∑ s ∈ Finset.range T, weighted (P.backCov z s) (x s - ((P.kf z s).filtMean
            + Verif.gain (P.kf z s).filtCov (P.Q s) (P.A s)
              *ᵥ (x (s + 1) - (P.A s *ᵥ (P.kf z s).filtMean + P.b s))))) / 2 := by
  have h1 : ∀ {k : ℕ} (x c : Vec k) (S : Mat k k), logN x c S = logN c c S
      - weighted S (x - c) / 2 := by
    intro k x c S
    rw [logN, logN, weighted, sub_self, zero_dotProduct]
    ring
  have h2 : ∀ s, ∀ y y' w : Vec n, w = (P.kf z s).filtMean
      + Verif.gain (P.kf z s).filtCov (P.Q s) (P.A s)
        *ᵥ (y - (P.A s *ᵥ (P.kf z s).filtMean + P.b s)) →
      P.backTerm z s y w = logN y' y' (P.backCov z s) := by
    intro s y y' w hw
    rw [PFun.backTerm, ← hw, logN, logN, sub_self, sub_self]
  have h3 : ∑ s ∈ Finset.range T, P.backTerm z s (x (s + 1)) (x s)
      = ∑ s ∈ Finset.range T, (P.backTerm z s (P.ks z T (s + 1)).mean (P.ks z T s).mean
        - weighted (P.backCov z s) (x s - ((P.kf z s).filtMean
            + Verif.gain (P.kf z s).filtCov (P.Q s) (P.A s)
              *ᵥ (x (s + 1) - (P.A s *ᵥ (P.kf z s).filtMean + P.b s)))) / 2) := by
    refine Finset.sum_congr rfl fun s hs => ?_
    rw [h2 s (P.ks z T (s + 1)).mean _ (P.ks z T s).mean
      (by rw [P.ks_lt' z (Finset.mem_range.mp hs)])]
    rw [PFun.backTerm]
    exact h1 _ _ _
  rw [h3, h1 (x T), Finset.sum_sub_distrib, ← Finset.sum_div]
  ring

/-- Uniqueness: the last state and the backward recursion determine the trajectory. -/
theorem PFun.PD.gap_zero {P : PFun n m} {T : ℕ} (h : P.PD (T + 1)) (z : ℕ → Obs m) (x : ℕ → Vec n) :
    0 ≤ weighted (P.kf z T).filtCov (x T - (P.kf z T).filtMean)
          + ∑ s ∈ Finset.range T, weighted (P.backCov z s) (x s - ((P.kf z s).filtMean
            + Verif.gain (P.kf z s).filtCov (P.Q s) (P.A s)
              *ᵥ (x (s + 1) - (P.A s *ᵥ (P.kf z s).filtMean + P.b s)))) ∧
    (weighted (P.kf z T).filtCov (x T - (P.kf z T).filtMean)
          + ∑ s ∈ Finset.range T, weighted (P.backCov z s) (x s - ((P.kf z s).filtMean
            + Verif.gain (P.kf z s).filtCov (P.Q s) (P.A s)
              *ᵥ (x (s + 1) - (P.A s *ᵥ (P.kf z s).filtMean + P.b s)))) = 0 ↔
      ∀ t ≤ T, x t = (P.ks z T t).mean) := by
  have hF := (h.filt z (show T < T + 1 by omega)).2
  have n0 := weighted_nonneg hF (x T - (P.kf z T).filtMean)
  have n1 : ∀ s ∈ Finset.range T, 0 ≤ weighted (P.backCov z s) (x s - ((P.kf z s).filtMean
            + Verif.gain (P.kf z s).filtCov (P.Q s) (P.A s)
              *ᵥ (x (s + 1) - (P.A s *ᵥ (P.kf z s).filtMean + P.b s)))) := fun s hs =>
    weighted_nonneg (h.back z (by have := Finset.mem_range.mp hs; omega)) _
  refine ⟨add_nonneg n0 (Finset.sum_nonneg n1), ⟨fun h0 => ?_, fun h0 => ?_⟩⟩
  · obtain ⟨e0, e1⟩ := (add_eq_zero_iff_of_nonneg n0 (Finset.sum_nonneg n1)).mp h0
    rw [weighted_zero_iff hF, sub_eq_zero] at e0
    rw [Finset.sum_eq_zero_iff_of_nonneg n1] at e1
    have key : ∀ j ≤ T, x (T - j) = (P.ks z T (T - j)).mean := by
      intro j
      induction j with
      | zero => intro _; simp [e0, P.ks_last]
      | succ j ih =>
        intro hj
        have hlt : T - (j + 1) < T := by omega
        have e := e1 (T - (j + 1)) (Finset.mem_range.mpr hlt)
        rw [weighted_zero_iff (h.back z (by omega)), sub_eq_zero] at e
        have hs : T - (j + 1) + 1 = T - j := by omega
        rw [e, P.ks_lt' z hlt, hs, ih (by omega)]
    intro t ht
    have := key (T - t) (by omega)
    rwa [show T - (T - t) = t by omega] at this
  · rw [h0 T le_rfl, P.ks_last, sub_self]
    rw [Finset.sum_eq_zero fun s hs => ?_]
    · simp [weighted]
    · have hlt := Finset.mem_range.mp hs
      rw [h0 s hlt.le, h0 (s + 1) hlt, P.ks_lt' z hlt, sub_self]
      simp [weighted]

end Verif
