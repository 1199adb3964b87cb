import Verif.Spec.Rounded
import Verif.Proofs.Rounded
import Verif.Props.Posterior

/-!
# C79: rounding errors

In arithmetic with relative errors up to `u` in every operation the results of `filter` and `smooth`
differ from the exact ones (those the other theorems are about) by at most a constant times `u`.
-/

open Matrix Topology

namespace Verif

variable {n m : ℕ} {c : ℕ → ℝ}

/-- All arithmetics with constants `c`. -/
abbrev AnyArith (c : ℕ → ℝ) := (u : ℝ) × Arith c u

/-- Errors going to zero. -/
def smallErr (X : ℝ → Type) : Filter ((u : ℝ) × X u) := Filter.comap Sigma.fst (𝓝 0)

theorem smallErr_tendsto {X : ℝ → Type} :
    Filter.Tendsto (fun x : (u : ℝ) × X u => x.1) (smallErr X) (𝓝 0) :=
  Filter.tendsto_comap

/-- What holds eventually holds for all errors up to some bound. -/
theorem smallErr_eventually {X : ℝ → Type} {q : (u : ℝ) × X u → Prop}
    (h : ∀ᶠ x in smallErr X, q x) :
    ∃ u₀ : ℝ, 0 < u₀ ∧ ∀ u, 0 ≤ u → u ≤ u₀ → ∀ ar : X u, q ⟨u, ar⟩ := by
  rw [smallErr, Filter.eventually_comap, Metric.eventually_nhds_iff] at h
  obtain ⟨e, he, h⟩ := h
  refine ⟨e / 2, by linarith, fun u hu0 hu ar => ?_⟩
  exact h (y := u) (by rw [Real.dist_eq, sub_zero, abs_of_nonneg hu0]; linarith) ⟨u, ar⟩ rfl

/-- One constant for finitely many quantities. -/
theorem exists_const {X : ℝ → Type} {κ : Type} (s : Finset κ) {f : κ → (u : ℝ) × X u → ℝ}
    {a : κ → ℝ} (h : ∀ j ∈ s, Ow (smallErr X) (fun x => x.1) (f j) (a j)) :
    ∃ K u₀ : ℝ, 0 < u₀ ∧ ∀ u, 0 ≤ u → u ≤ u₀ → ∀ ar : X u, ∀ j ∈ s,
      |f j ⟨u, ar⟩ - a j| ≤ K * u := by
  have h1 : Asymptotics.IsBigO (smallErr X) (fun x => ∑ j ∈ s, |f j x - a j|)
      (fun x : (u : ℝ) × X u => x.1) := by
    have := Asymptotics.IsBigO.sum (s := s) (A := fun j x => |f j x - a j|)
      (g := fun x : (u : ℝ) × X u => x.1) (l := smallErr X) (fun j hj => (h j hj).norm_left)
    refine this.congr_left fun i => ?_
    rw [Finset.sum_apply]
  obtain ⟨K, hK⟩ := h1.bound
  obtain ⟨u₀, hu₀, hK⟩ := smallErr_eventually hK
  refine ⟨K, u₀, hu₀, fun u hu0 hu ar j hj => ?_⟩
  have := hK u hu0 hu ar
  rw [Real.norm_eq_abs, Real.norm_eq_abs, abs_of_nonneg hu0,
    abs_of_nonneg (Finset.sum_nonneg fun _ _ => abs_nonneg _)] at this
  exact (Finset.single_le_sum (f := fun j => |f j ⟨u, ar⟩ - a j|) (fun _ _ => abs_nonneg _)
    hj).trans this

theorem obs_det_unit {P : PFun n m} {T : ℕ} (h : P.PSD T) {t : ℕ} (ht : t < T)
    (hR : (P.R t).PosDef) (z : ℕ → Obs m) :
    IsUnit (P.C t * ((P.kf z t).predCov * (P.C t)ᵀ) + P.R t).det := by
  have h1 : (P.C t * ((P.kf z t).predCov * (P.C t)ᵀ)).PosSemidef := by
    rw [← Matrix.mul_assoc]
    exact (h.pred ht z).mul_mul_conjTranspose_same (P.C t)
  exact (Matrix.PosDef.posSemidef_add h1 hR).det_pos.ne'.isUnit

/-- One constant for all entries of all rows. -/
theorem exists_const_rows {X : ℝ → Type} (T : ℕ) {f : ℕ → (u : ℝ) × X u → Vec n × Mat n n}
    {a : ℕ → Vec n × Mat n n}
    (h1 : ∀ t, t < T → OwV (smallErr X) (fun x => x.1) (fun x => (f t x).1) (a t).1)
    (h2 : ∀ t, t < T → OwM (smallErr X) (fun x => x.1) (fun x => (f t x).2) (a t).2) :
    ∃ K u₀ : ℝ, 0 < u₀ ∧ ∀ u, 0 ≤ u → u ≤ u₀ → ∀ ar : X u,
      WithinErr (K * u) ((List.range T).map fun t => f t ⟨u, ar⟩) ((List.range T).map a) := by
  obtain ⟨K, u₀, hu₀, hK⟩ := exists_const (X := X)
    (Finset.range T ×ˢ (Finset.univ : Finset (Fin n ⊕ Fin n × Fin n)))
    (f := fun j x => Sum.elim (fun i => (f j.1 x).1 i) (fun q => (f j.1 x).2 q.1 q.2) j.2)
    (a := fun j => Sum.elim (fun i => (a j.1).1 i) (fun q => (a j.1).2 q.1 q.2) j.2) (by
      rintro ⟨t, i | q⟩ hj
      · exact h1 t (by simpa using hj) i
      · exact h2 t (by simpa using hj) q.1 q.2)
  refine ⟨K, u₀, hu₀, fun u h0 hu ar => ?_⟩
  rw [WithinErr, List.forall₂_map_left_iff, List.forall₂_map_right_iff, List.forall₂_same]
  intro t ht
  have ht' : t ∈ Finset.range T := by simpa using ht
  exact ⟨fun i => hK u h0 hu ar ⟨t, .inl i⟩ (by simpa using ht'),
    fun i j => hK u h0 hu ar ⟨t, .inr (i, j)⟩ (by simpa using ht')⟩

/-- **C79.** `filter`, if the observation noise has a positive definite covariance at all times with
an observation: for errors up to some `u₀` the computed means and covariances differ from the exact
ones by at most `K u`, where `K` and `u₀` depend on the model and the data only. -/
theorem C79_filter (c : ℕ → ℝ) {p : Params n m} {os : List (Obs m)}
    (hdef : p.DefinedFor os.length) (hpsd : p.PSD os.length)
    (hR : ∀ t o, os[t]? = some o → ¬ o.missing → ∀ R, lastDims p.R t = .ok R → R.PosDef) :
    ∃ K u₀ : ℝ, 0 < u₀ ∧ ∀ u, 0 ≤ u → u ≤ u₀ → ∀ ar : Arith c u,
      ∃ l l', flFilter ar p os = .ok l ∧ kfFilter p os = .ok l' ∧ WithinErr (K * u) l l' := by
  have hc := definedFor_iff_covers.mp hdef
  have hP := hpsd.fn hc
  have hk : ∀ t, t < os.length → FlNear (smallErr (Arith c)) (fun x : AnyArith c => x.1)
      (fun x => p.fn.kfFl x.2 (obsFn os) t) (p.fn.kf (obsFn os) t) := by
    intro t ht
    refine near_kfFl smallErr_tendsto _ _ t fun s hs ho => ?_
    have hs' : s < os.length := by omega
    refine obs_det_unit hP hs' ?_ _
    rw [obsFn_eq hs'] at ho
    exact hR s _ (List.getElem?_eq_getElem hs') ho _ (lastDims_eq_ok (hc.R.mono hs'))
  obtain ⟨K, u₀, hu₀, h⟩ := exists_const_rows (X := Arith c) os.length
    (f := fun t x => ((p.fn.kfFl x.2 (obsFn os) t).filtMean, (p.fn.kfFl x.2 (obsFn os) t).filtCov))
    (a := fun t => ((p.fn.kf (obsFn os) t).filtMean, (p.fn.kf (obsFn os) t).filtCov))
    (fun t ht => (hk t ht).filtMean) (fun t ht => (hk t ht).filtCov)
  exact ⟨K, u₀, hu₀, fun u h0 hu ar => ⟨_, _, flFilter_eq hc, kfFilter_eq hc, h u h0 hu ar⟩⟩

/-- **C79.** `smooth`, if moreover the transition noise has positive definite covariances. -/
theorem C79_smooth (c : ℕ → ℝ) {p : Params n m} {os : List (Obs m)} (hne : os ≠ [])
    (hdef : p.DefinedFor os.length) (hpsd : p.PSD os.length)
    (hR : ∀ t o, os[t]? = some o → ¬ o.missing → ∀ R, lastDims p.R t = .ok R → R.PosDef)
    (hQ : ∀ t, t + 1 < os.length → ∀ Q, lastDims p.Q t = .ok Q → Q.PosDef) :
    ∃ K u₀ : ℝ, 0 < u₀ ∧ ∀ u, 0 ≤ u → u ≤ u₀ → ∀ ar : Arith c u,
      ∃ l l', flSmooth ar p os = .ok l ∧ kfSmooth p os = .ok l' ∧ WithinErr (K * u) l l' := by
  have hc := definedFor_iff_covers.mp hdef
  have hP := hpsd.fn hc
  have hpos := List.length_pos_iff.mpr hne
  have hk : ∀ t, t < os.length → FlNear (smallErr (Arith c)) (fun x : AnyArith c => x.1)
      (fun x => p.fn.kfFl x.2 (obsFn os) t) (p.fn.kf (obsFn os) t) := by
    intro t ht
    refine near_kfFl smallErr_tendsto _ _ t fun s hs ho => ?_
    have hs' : s < os.length := by omega
    refine obs_det_unit hP hs' ?_ _
    rw [obsFn_eq hs'] at ho
    exact hR s _ (List.getElem?_eq_getElem hs') ho _ (lastDims_eq_ok (hc.R.mono hs'))
  have hV : ∀ t, t < os.length - 1 → IsUnit (p.fn.kf (obsFn os) (t + 1)).predCov.det := by
    intro t ht
    have h1 : (p.fn.A t * ((p.fn.kf (obsFn os) t).filtCov * (p.fn.A t)ᵀ)).PosSemidef := by
      rw [← Matrix.mul_assoc]
      exact (hP.filt (t := t) (by omega) _).mul_mul_conjTranspose_same (p.fn.A t)
    exact (Matrix.PosDef.posSemidef_add h1 (hQ t (by omega) _
      (lastDims_eq_ok (hc.Q.mono (by omega))))).det_pos.ne'.isUnit
  obtain ⟨K, u₀, hu₀, h⟩ := exists_const_rows (X := Arith c) os.length
    (f := fun t x => ((p.fn.ksFl x.2 (obsFn os) (os.length - 1) t).mean,
      (p.fn.ksFl x.2 (obsFn os) (os.length - 1) t).cov))
    (a := fun t => ((p.fn.ks (obsFn os) (os.length - 1) t).mean,
      (p.fn.ks (obsFn os) (os.length - 1) t).cov))
    (fun t ht => (near_stSmoothFl smallErr_tendsto _ _ _ _ (fun t ht => hk t (by omega))
      (fun t ht _ => hV t ht) (by omega)).1)
    (fun t ht => (near_stSmoothFl smallErr_tendsto _ _ _ _ (fun t ht => hk t (by omega))
      (fun t ht _ => hV t ht) (by omega)).2)
  exact ⟨K, u₀, hu₀, fun u h0 hu ar =>
    ⟨_, _, flSmooth_eq hne hc, kfSmooth_eq hne hc, h u h0 hu ar⟩⟩

end Verif
