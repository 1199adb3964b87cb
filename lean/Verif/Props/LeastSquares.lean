import Verif.Proofs.LeastSquares
import Verif.Props.EmMonotone
import Verif.Props.Structure

/-!
# C59: smoothed means solve the weighted least-squares problem
-/

open Matrix

namespace Verif

variable {n m : ℕ}

/-- **C59.** For positive definite covariances (varying or not) and any data and mask, the means
that `smooth` returns are the one trajectory with the least misfit, and hence the most likely
trajectory given the data. -/
theorem C59_smooth_least_squares {p : Params n m} {os : List (Obs m)} (hpd : p.PD os.length)
    {out : List (Vec n × Mat n n)} (hs : kfSmooth p os = .ok out) {s : ℕ → Vec n}
    (hout : ∀ t, t < os.length → ∃ cov, out[t]? = some (s t, cov)) (x : ℕ → Vec n) :
    misfit p os s ≤ misfit p os x ∧ logJoint p os x ≤ logJoint p os s ∧
    (misfit p os x ≤ misfit p os s → ∀ t, t < os.length → x t = s t) := by
  obtain ⟨hne, hc, rfl⟩ := kfSmooth_ok hs
  obtain ⟨T, hT⟩ : ∃ T, os.length = T + 1 :=
    ⟨os.length - 1, by have := List.length_pos_iff.mpr hne; omega⟩
  have hP := hpd.fn hc
  rw [hT] at hP
  have hsm : ∀ t ≤ T, s t = (p.fn.ks (obsFn os) T t).mean := by
    intro t ht
    obtain ⟨cov, hcov⟩ := hout t (by omega)
    rw [List.getElem?_map, List.getElem?_range (by omega), Option.map_some, Option.some.injEq,
      Prod.mk.injEq, hT, Nat.add_sub_cancel] at hcov
    exact hcov.1.symm
  obtain ⟨K, hK⟩ := logJoint_misfit p os
  have hfac : ∀ y, logJoint p os y = p.fn.predLL (obsFn os) T
      + (logN (y T) (p.fn.kf (obsFn os) T).filtMean (p.fn.kf (obsFn os) T).filtCov
        + ∑ s ∈ Finset.range T, p.fn.backTerm (obsFn os) s (y (s + 1)) (y s)) := by
    intro y
    rw [logJoint_eq hc, ← hP.factor (obsFn os) y (show T < T + 1 by omega), hT,
      Nat.add_sub_cancel]
    rfl
  have ex := hfac x
  have es := hfac s
  rw [hP.gap] at ex es
  obtain ⟨gx, gx0⟩ := hP.gap_zero (obsFn os) x
  have gs0 := (hP.gap_zero (obsFn os) s).2.mpr hsm
  rw [gs0] at es
  rw [hK] at ex es
  have hle : misfit p os s ≤ misfit p os x := by linarith
  refine ⟨hle, by rw [hK, hK]; linarith, fun hx t ht => ?_⟩
  have := gx0.mp (by linarith)
  rw [this t (by omega), hsm t (by omega)]

/-- **C59.** The mean that `filter` returns at `t` is where the trajectory with the least misfit to
the rows `0 … t` ends. -/
theorem C59_filter_least_squares {p : Params n m} {os : List (Obs m)} (hpd : p.PD os.length)
    {out : List (Vec n × Mat n n)} (hf : kfFilter p os = .ok out) {t : ℕ} (ht : t < os.length)
    {mean : Vec n} {cov : Mat n n} (hout : out[t]? = some (mean, cov)) {x : ℕ → Vec n}
    (hx : ∀ y, misfit p (os.take (t + 1)) x ≤ misfit p (os.take (t + 1)) y) : x t = mean := by
  have hne : os ≠ [] := by rintro rfl; simp at ht
  have hc : p.Covers os.length := by
    rw [kfFilter] at hf
    cases h : filterFull p os with
    | error e => rw [h] at hf; cases hf
    | ok l => exact (filterFull_ok_iff.mp ⟨l, h⟩).resolve_left hne
  have hlen : (os.take (t + 1)).length = t + 1 := by simp; omega
  have hne' : os.take (t + 1) ≠ [] := by rw [← List.length_pos_iff]; omega
  have hc' : p.Covers (os.take (t + 1)).length := hc.mono (by omega)
  have hpd' : p.PD (os.take (t + 1)).length :=
    ⟨fun s hs => hpd.Q s (by omega), fun s hs => hpd.R s (by omega), hpd.S0⟩
  obtain ⟨sm, hsm⟩ : ∃ sm, kfSmooth p (os.take (t + 1)) = .ok sm := ⟨_, kfSmooth_eq hne' hc'⟩
  obtain ⟨-, -, hsm'⟩ := kfSmooth_ok hsm
  let s : ℕ → Vec n := fun i => (p.fn.ks (obsFn (os.take (t + 1))) t i).mean
  have key := (C59_smooth_least_squares hpd' hsm (s := s) (fun i hi => ⟨_, by
    rw [hsm']
    rw [List.getElem?_map, List.getElem?_range hi, Option.map_some, hlen, Nat.add_sub_cancel]⟩) x).2.2 (hx s) t (by omega)
  rw [key]
  rw [kfFilter_ok hf] at hout
  simp only [List.getElem?_map, List.getElem?_range ht, Option.map_some, Option.some.injEq,
    Prod.mk.injEq] at hout
  rw [← hout.1]
  simp only [s, p.fn.ks_last]
  have : ∀ i ≤ t, obsFn (os.take (t + 1)) i = obsFn os i := by
    intro i hi
    rw [obsFn_eq (by omega), obsFn_eq (by omega), List.getElem_take]
  rw [p.fn.kf_congr fun i hi => by rw [this i hi]; exact Obs.Sim.refl _]

/-- A case with a masked row that meets the hypotheses of both theorems. -/
example : ∃ os : List (Obs 1), (∃ o ∈ os, o.missing) ∧ exPlane.PD os.length ∧
    ∃ out f, kfSmooth exPlane os = .ok out ∧ kfFilter exPlane os = .ok f ∧
      (∃ s : ℕ → Vec 2, ∀ t, t < os.length → ∃ cov, out[t]? = some (s t, cov)) ∧
      ∃ x, ∀ y, misfit exPlane (os.take 2) x ≤ misfit exPlane (os.take 2) y := by
  have hc : ∀ T, exPlane.Covers T := fun T => ⟨trivial, trivial, trivial, trivial, trivial, trivial⟩
  have hpd : ∀ T, exPlane.PD T := by
    refine fun T => ⟨fun t _ Q hQ => ?_, fun t _ R hR => ?_, PosDef.one⟩
    · cases hQ; exact PosDef.one
    · cases hR; exact PosDef.one
  have hmin : ∀ os : List (Obs 1), os ≠ [] → ∃ out, kfSmooth exPlane os = .ok out ∧
      ∃ s : ℕ → Vec 2, ∀ t, t < os.length → ∃ cov, out[t]? = some (s t, cov) := by
    intro os hne
    refine ⟨_, kfSmooth_eq hne (hc _), fun i => (exPlane.fn.ks (obsFn os) (os.length - 1) i).mean,
      fun i hi => ⟨_, by
        rw [List.getElem?_map, List.getElem?_range hi, Option.map_some]⟩⟩
  let os : List (Obs 1) := [⟨![2], ![false]⟩, ⟨![0], ![true]⟩, ⟨![5], ![false]⟩]
  have hne : os ≠ [] := by simp [os]
  obtain ⟨out, e, s, hs⟩ := hmin os hne
  obtain ⟨out', e', s', hs'⟩ := hmin (os.take 2) (by simp [os])
  exact ⟨os, ⟨⟨![0], ![true]⟩, by simp [os], 0, rfl⟩, hpd _, out, _, e, kfFilter_eq (hc _),
    ⟨s, hs⟩, s', fun y => (C59_smooth_least_squares (hpd _) e' hs' y).1⟩

end Verif
