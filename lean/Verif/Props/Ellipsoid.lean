import Verif.Proofs.Ellipsoid
import Verif.Props.LeastSquares

/-!
# C88: guaranteed error bounds, without probabilities
-/

open Matrix

namespace Verif

variable {n m : ℕ}

/-- **C88** for `smooth`.  Positive definite covariances (varying or not), any data and mask; `s` are
the returned means.  In every direction `v` a trajectory `x` is, at every row, at most as many reported
standard deviations from the returned mean as the square root of what its misfit exceeds the least
misfit by (and hence at most the square root of its own misfit).  For every row and direction some
trajectory attains the bound. -/
theorem C88_smooth {p : Params n m} {os : List (Obs m)} (hpd : p.PD os.length)
    {out : List (Vec n × Mat n n)} (hs : kfSmooth p os = .ok out) {s : ℕ → Vec n}
    {V : ℕ → Mat n n} (hout : ∀ t, t < os.length → out[t]? = some (s t, V t))
    {t : ℕ} (ht : t < os.length) (v : Vec n) :
    (∀ x : ℕ → Vec n,
      (v ⬝ᵥ (x t - s t)) ^ 2 ≤ (v ⬝ᵥ (V t *ᵥ v)) * (misfit p os x - misfit p os s) ∧
      (v ⬝ᵥ (x t - s t)) ^ 2 ≤ (v ⬝ᵥ (V t *ᵥ v)) * misfit p os x) ∧
    ∃ x : ℕ → Vec n, misfit p os x - misfit p os s = v ⬝ᵥ (V t *ᵥ v) ∧
      (v ⬝ᵥ (x t - s t)) ^ 2 = (v ⬝ᵥ (V t *ᵥ v)) * (misfit p os x - misfit p os s) := by
  obtain ⟨hne, hc, rfl⟩ := kfSmooth_ok hs
  obtain ⟨T, hT⟩ : ∃ T, os.length = T + 1 :=
    ⟨os.length - 1, by have := List.length_pos_iff.mpr hne; omega⟩
  have hP := hpd.fn hc
  rw [hT] at hP
  have hrow : ∀ t ≤ T, s t = (p.fn.ks (obsFn os) T t).mean ∧
      V t = (p.fn.ks (obsFn os) T t).cov := by
    intro t ht
    have hcov := hout t (by omega)
    rw [List.getElem?_map, List.getElem?_range (by omega), Option.map_some, Option.some.injEq,
      Prod.mk.injEq, hT, Nat.add_sub_cancel] at hcov
    exact ⟨hcov.1.symm, hcov.2.symm⟩
  have hgap := fun x => misfit_gap hT hc hpd x s fun t ht => (hrow t ht).1
  have ht' : t ≤ T := by omega
  have hq : 0 ≤ v ⬝ᵥ (V t *ᵥ v) := by
    rw [(hrow t ht').2]
    exact (posSemidef_iff_real.mp (hP.psd.smooth ht' _)).2 v
  refine ⟨fun x => ?_, ?_⟩
  · have hb : (v ⬝ᵥ (x t - s t)) ^ 2
        ≤ (v ⬝ᵥ (V t *ᵥ v)) * (misfit p os x - misfit p os s) := by
      have h1 := hP.tail_bound ht' (obsFn os) x v
      rw [← (hrow t ht').1, ← (hrow t ht').2] at h1
      refine h1.trans (mul_le_mul_of_nonneg_left ?_ hq)
      rw [hgap]
      exact hP.tailGap_mono ht' _ x
    refine ⟨hb, hb.trans (mul_le_mul_of_nonneg_left ?_ hq)⟩
    have := misfit_nonneg hc hpd s
    linarith
  · obtain ⟨y, y1, y2⟩ := hP.tail_attained ht' (obsFn os) v
    obtain ⟨x, x1, x2⟩ := p.fn.head_free ht' (obsFn os) y
    rw [← (hrow t ht').1, ← (hrow t ht').2] at y1
    rw [← (hrow t ht').2] at y2
    have e : misfit p os x - misfit p os s = v ⬝ᵥ (V t *ᵥ v) := by rw [hgap, x2, y2]
    exact ⟨x, e, by rw [e, x1 t le_rfl, y1, pow_two]⟩

/-- **C88** for `filter`: the same about row `t`, with the misfit to the rows `0 … t`. -/
theorem C88_filter {p : Params n m} {os : List (Obs m)} (hpd : p.PD os.length)
    {out : List (Vec n × Mat n n)} (hf : kfFilter p os = .ok out) {t : ℕ} (ht : t < os.length)
    {mean : Vec n} {cov : Mat n n} (hout : out[t]? = some (mean, cov)) (v : Vec n) :
    ∃ s : ℕ → Vec n, s t = mean ∧
      (∀ y, misfit p (os.take (t + 1)) s ≤ misfit p (os.take (t + 1)) y) ∧
      (∀ x : ℕ → Vec n,
        (v ⬝ᵥ (x t - mean)) ^ 2 ≤ (v ⬝ᵥ (cov *ᵥ v))
          * (misfit p (os.take (t + 1)) x - misfit p (os.take (t + 1)) s) ∧
        (v ⬝ᵥ (x t - mean)) ^ 2 ≤ (v ⬝ᵥ (cov *ᵥ v)) * misfit p (os.take (t + 1)) x) ∧
      ∃ x : ℕ → Vec n,
        misfit p (os.take (t + 1)) x - misfit p (os.take (t + 1)) s = v ⬝ᵥ (cov *ᵥ v) ∧
        (v ⬝ᵥ (x t - mean)) ^ 2 = (v ⬝ᵥ (cov *ᵥ v))
          * (misfit p (os.take (t + 1)) x - misfit p (os.take (t + 1)) s) := by
  have hne : os ≠ [] := by rintro rfl; simp at ht
  have hc : p.Covers os.length := by
    rw [kfFilter] at hf
    cases h : filterFull p os with
    | error e => rw [h] at hf; cases hf
    | ok l => exact (filterFull_ok_iff.mp ⟨l, h⟩).resolve_left hne
  have hlen : (os.take (t + 1)).length = t + 1 := by simp; omega
  have hne' : os.take (t + 1) ≠ [] := by rw [← List.length_pos_iff]; omega
  have hc' : p.Covers (os.take (t + 1)).length := hc.mono (by omega)
  have hpd' : p.PD (os.take (t + 1)).length :=
    ⟨fun s hs => hpd.Q s (by omega), fun s hs => hpd.R s (by omega), hpd.S0⟩
  have hsm := kfSmooth_eq hne' hc'
  have hrows : ∀ i, i < (os.take (t + 1)).length →
      ((List.range (os.take (t + 1)).length).map fun i =>
        ((p.fn.ks (obsFn (os.take (t + 1))) ((os.take (t + 1)).length - 1) i).mean,
          (p.fn.ks (obsFn (os.take (t + 1))) ((os.take (t + 1)).length - 1) i).cov))[i]?
      = some ((p.fn.ks (obsFn (os.take (t + 1))) ((os.take (t + 1)).length - 1) i).mean,
          (p.fn.ks (obsFn (os.take (t + 1))) ((os.take (t + 1)).length - 1) i).cov) := by
    intro i hi
    rw [List.getElem?_map, List.getElem?_range hi, Option.map_some]
  have key := C88_smooth hpd' hsm hrows (t := t) (by omega) v
  have best := fun y => (C59_smooth_least_squares hpd' hsm (fun i hi => ⟨_, hrows i hi⟩) y).1
  have hsim : p.fn.kf (obsFn (os.take (t + 1))) t = p.fn.kf (obsFn os) t :=
    p.fn.kf_congr fun i hi => by
      rw [obsFn_eq (by omega), obsFn_eq (by omega), List.getElem_take]
      exact Obs.Sim.refl _
  rw [kfFilter_ok hf] at hout
  simp only [List.getElem?_map, List.getElem?_range ht, Option.map_some, Option.some.injEq,
    Prod.mk.injEq] at hout
  have e1 : (p.fn.ks (obsFn (os.take (t + 1))) ((os.take (t + 1)).length - 1) t).mean = mean := by
    rw [hlen, Nat.add_sub_cancel, p.fn.ks_last, hsim, ← hout.1]
  have e2 : (p.fn.ks (obsFn (os.take (t + 1))) ((os.take (t + 1)).length - 1) t).cov = cov := by
    rw [hlen, Nat.add_sub_cancel, p.fn.ks_last, hsim, ← hout.2]
  rw [e1, e2] at key
  exact ⟨_, e1, best, key⟩

/-- A case with a masked row that meets the hypotheses of both theorems; the bounds are not
empty: the reported variance of the first component is positive. -/
example : ∃ os : List (Obs 1), (∃ o ∈ os, o.missing) ∧ exPlane.PD os.length ∧
    ∃ (out f : List (Vec 2 × Mat 2 2)) (s : ℕ → Vec 2) (V : ℕ → Mat 2 2),
      kfSmooth exPlane os = .ok out ∧ kfFilter exPlane os = .ok f ∧
      (∀ t, t < os.length → out[t]? = some (s t, V t)) ∧
      (∀ t, t < os.length → 0 < ![(1 : ℝ), 0] ⬝ᵥ (V t *ᵥ ![1, 0])) := by
  have hc : ∀ T, exPlane.Covers T := fun T => ⟨trivial, trivial, trivial, trivial, trivial, trivial⟩
  have hpd : ∀ T, exPlane.PD T := by
    refine fun T => ⟨fun t _ Q hQ => ?_, fun t _ R hR => ?_, PosDef.one⟩
    · cases hQ; exact PosDef.one
    · cases hR; exact PosDef.one
  let os : List (Obs 1) := [⟨![2], ![false]⟩, ⟨![0], ![true]⟩, ⟨![5], ![false]⟩]
  have hne : os ≠ [] := by simp [os]
  refine ⟨os, ⟨⟨![0], ![true]⟩, by simp [os], 0, rfl⟩, hpd _, _, _,
    fun i => (exPlane.fn.ks (obsFn os) (os.length - 1) i).mean,
    fun i => (exPlane.fn.ks (obsFn os) (os.length - 1) i).cov, kfSmooth_eq hne (hc _),
    kfFilter_eq (hc _), fun t ht => ?_, fun t ht => ?_⟩
  · rw [List.getElem?_map, List.getElem?_range ht, Option.map_some]
  · have h := ((hpd 3).fn (hc 3)).smooth (T := 2) (obsFn os) (t := t)
      (by simp only [os, List.length_cons, List.length_nil] at ht; omega)
    have := h.dotProduct_mulVec_pos (x := ![(1 : ℝ), 0])
      (fun h0 => by simpa using congrFun h0 0)
    rwa [star_trivial] at this

end Verif
