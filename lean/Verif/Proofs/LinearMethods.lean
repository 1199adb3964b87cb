import Verif.Spec.LinearMethods
import Verif.Proofs.UnscentedFrontend
import Verif.Props.Frontend

/-!
# Proofs about calls of the three linear classes
-/

open Matrix

namespace Verif

variable {n m : ℕ}

/-! ### Arrays -/

theorem MatArg.toMats {dflt : Mat n m} {d : NDArray} (hd : d.toMats n m = some (.const dflt))
    {arg : Option NDArray} {M : TV (Mat n m)} (h : MatArg dflt arg M) :
    ((arg.map array2d).getD d).toMats n m = some M := by
  cases h with
  | omitted => exact hd
  | number hn hm a M hs hM =>
    subst hn hm
    simp only [Option.map_some, Option.getD_some, array2d, hs, NDArray.toMats, if_true, dropIdx]
    congr 2
    ext i j
    simp [hM]
  | row hn a M hs hM =>
    subst hn
    simp only [Option.map_some, Option.getD_some, array2d, hs, NDArray.toMats, if_true, dropIdx]
    congr 2
    ext i j
    simp [hM]
  | matrix a M hs hM =>
    simp only [Option.map_some, Option.getD_some, array2d, hs, NDArray.toMats, if_true]
    congr 2
    ext i j
    simp [hM]
  | sequence a l hs hM =>
    have : ¬ ([l.length, n, m] = [n, m]) := fun h => by simpa using congrArg List.length h
    simp only [Option.map_some, Option.getD_some, array2d, hs, NDArray.toMats, if_neg this,
      and_self, if_true]
    congr 2
    refine List.ext_getElem (by simp) fun t h1 h2 => ?_
    ext i j
    simp [hM]

theorem VecArg.toVecs {arg : Option NDArray} {v : TV (Vec n)} (h : VecArg arg v) :
    ((arg.map array1d).getD (ndZeros n)).toVecs n = some v := by
  cases h with
  | omitted => simp only [Option.map_none, Option.getD_none, NDArray.toVecs, ndZeros, if_true]; rfl
  | number hn a v hs hv =>
    subst hn
    simp only [Option.map_some, Option.getD_some, array1d, hs, NDArray.toVecs, if_true, dropIdx]
    congr 2
    funext i
    simp [hv]
  | vector a v hs hv =>
    simp only [Option.map_some, Option.getD_some, array1d, hs, NDArray.toVecs, if_true]
    congr 2
    funext i
    simp [hv]
  | sequence a l hs hv =>
    have : ¬ ([l.length, n] = [n]) := fun h => by simpa using congrArg List.length h
    simp only [Option.map_some, Option.getD_some, array1d, hs, NDArray.toVecs, if_neg this, if_true]
    congr 2
    refine List.ext_getElem (by simp) fun t h1 h2 => ?_
    funext i
    simp [hv]

theorem toMat_of_toMats {a : NDArray} {M : Mat n m} (h : a.toMats n m = some (.const M)) :
    a.toMat n m = some M := by
  simp only [NDArray.toMats] at h
  split at h
  next hs => simp only [NDArray.toMat, if_pos hs]; simpa using h
  next hs =>
    split at h
    · split at h <;> simp at h
    · simp at h

theorem toVec_of_toVecs {a : NDArray} {v : Vec n} (h : a.toVecs n = some (.const v)) :
    a.toVec n = some v := by
  simp only [NDArray.toVecs] at h
  split at h
  next hs => simp only [NDArray.toVec, if_pos hs]; simpa using h
  next hs =>
    split at h
    · split at h <;> simp at h
    · simp at h

theorem ndEye_toMats_eyeMat (n m : ℕ) : (ndEye n m).toMats n m = some (.const (eyeMat n m)) := by
  simp only [NDArray.toMats, ndEye, if_true]
  congr 2
  ext i j
  simp [eyeMat]

/-- Lengths of the last two axes. -/
theorem MatArg.axes {dflt : Mat n m} {x : NDArray} {M : TV (Mat n m)}
    (h : MatArg dflt (some x) M) : axisLen x 1 = n ∧ axisLen x 0 = m := by
  cases h with
  | number hn hm a M hs hM => simp [axisLen, hs, hn, hm]
  | row hn a M hs hM => simp [axisLen, hs, hn]
  | matrix a M hs hM => simp [axisLen, hs]
  | sequence a l hs hM => simp [axisLen, hs]

theorem VecArg.axis {x : NDArray} {v : TV (Vec n)} (h : VecArg (some x) v) : axisLen x 0 = n := by
  cases h with
  | number hn a v hs hv => simp [axisLen, hs, hn]
  | vector a v hs hv => simp [axisLen, hs]
  | sequence a l hs hv => simp [axisLen, hs]

/-! ### Constructor and parameters -/

theorem KFArgs.Means.stateDim {a : KFArgs} {p : Params n m} (h : a.Means p) :
    a.StateDim n ∧ (a.NoStateDim → n = 1) := by
  refine ⟨⟨?_, ?_, ?_, ?_, ?_, ?_, h.dimState⟩, fun ⟨h1, h2, h3, h4, h5, h6, h7⟩ =>
    h.noState h1 h2 h3 h4 h5 h6 h7⟩
  · intro x hx; exact (hx ▸ h.A).axes.1
  · intro x hx; exact (hx ▸ h.b).axis
  · intro x hx; exact (hx ▸ h.Q).axes.1
  · intro x hx; exact (hx ▸ h.mu0).axis
  · intro x hx; exact (hx ▸ h.S0).axes.1
  · intro x hx; exact (hx ▸ h.C).axes.2

theorem KFArgs.Means.obsDim {a : KFArgs} {p : Params n m} (h : a.Means p) :
    a.ObsDim m ∧ (a.NoObsDim → m = 1) := by
  refine ⟨⟨?_, ?_, ?_, h.dimObs⟩, fun ⟨h1, h2, h3, h4⟩ => h.noObs h1 h2 h3 h4⟩
  · intro x hx; exact (hx ▸ h.C).axes.1
  · intro x hx; exact (hx ▸ h.d).axis
  · intro x hx; exact (hx ▸ h.R).axes.1

theorem KFArgs.Means.init {a : KFArgs} {p : Params n m} (h : a.Means p) :
    KF.init a = .ok (a.object n m) := by
  simp only [KF.init, bind, (stateDim_iff a n).mpr h.stateDim, (obsDim_iff a m).mpr h.obsDim,
    Except.bind]
  rfl

theorem KFArgs.Means.initialize {a : KFArgs} {p : Params n m} (h : a.Means p) :
    ∃ r, (a.object n m).initialize = .ok r ∧ r.typed n m = some p := by
  refine ⟨_, C26_parameters _ (seedValid_ok h.seed), ?_⟩
  have e1 := h.A.toMats (ndEye_toMats_eyeMat n n)
  have e2 := h.b.toVecs
  have e3 := h.Q.toMats (ndEye_toMats_eyeMat n n)
  have e4 := h.C.toMats (ndEye_toMats_eyeMat m n)
  have e5 := h.d.toVecs
  have e6 := h.R.toMats (ndEye_toMats_eyeMat m m)
  have e7 := toVec_of_toVecs h.mu0.toVecs
  have e8 := toMat_of_toMats (h.S0.toMats (ndEye_toMats_eyeMat n n))
  simp only [KF.resolvedSpec, KFArgs.object, Resolved.typed, e1, e2, e3, e4, e5, e6, e7, e8, bind,
    Option.bind, pure]

theorem KFArgs.Means.params {a : KFArgs} {p : Params n m} (h : a.Means p) :
    (a.object n m).params = some (.ok p) := by
  obtain ⟨r, h1, h2⟩ := h.initialize
  simp only [KF.params, h1]
  exact congrArg (Option.map Except.ok) h2

theorem DataArg.parse {X : MArray} {os : List (Obs m)} (h : DataArg X os) :
    (parseObservations X).shape.drop 1 = [m] ∧ (parseObservations X).rows m = os := by
  cases h with
  | rows h => rw [h.parse]; exact ⟨by simp [h.shape], h.rows⟩
  | numbers hm hne hs hx =>
    subst hm
    have hlen : 1 ≤ os.length := List.length_pos_iff.mpr hne
    obtain ⟨h1, h2⟩ := C28_sequence hs hlen
    refine ⟨by simp [h1], List.ext_getElem (by simp [MArray.rows, h1]) fun t ht1 ht2 => ?_⟩
    simp only [MArray.rows, List.getElem_map, List.getElem_range]
    have e := h2 t ht2
    have g := hx t ht2
    rcases ho : os[t] with ⟨v, k⟩
    rw [ho] at g
    congr 1
    · funext j
      rw [Subsingleton.elim j 0]
      exact e.1.trans (g 0).1
    · funext j
      rw [Subsingleton.elim j 0]
      exact e.2.trans (g 0).2

theorem KFArgs.Means.prepare {a : KFArgs} {p : Params n m} (h : a.Means p) {X : MArray}
    {os : List (Obs m)} (hX : DataArg X os) :
    (a.object n m).prepare X = some (.ok (p, os)) := by
  obtain ⟨r, h1, h2⟩ := h.initialize
  obtain ⟨h3, h4⟩ := hX.parse
  simp only [KF.prepare, h1]
  have : r.typed (a.object n m).nDimState (a.object n m).nDimObs = some p := h2
  simp only [this]
  exact (if_pos h3).trans (congrArg (fun x => some (Except.ok (p, x))) h4)

/-! ### Attributes written by `em` -/

theorem MatArg.ofMats (dflt : Mat n m) (M : TV (Mat n m)) : MatArg dflt (some (ndOfMats M)) M := by
  cases M with
  | const M => exact .matrix _ _ rfl fun i j => by simp [ndOfMats, ndOfMat]
  | seq l =>
    refine .sequence _ _ (by simp [ndOfMats, ndStack]) fun t h i j => ?_
    simp [ndOfMats, ndStack, h, ndOfMat]

theorem VecArg.ofVecs (v : TV (Vec n)) : VecArg (some (ndOfVecs v)) v := by
  cases v with
  | const M => exact .vector _ _ rfl fun i => by simp [ndOfVecs, ndOfVec]
  | seq l =>
    refine .sequence _ _ (by simp [ndOfVecs, ndStack]) fun t h i => ?_
    simp [ndOfVecs, ndStack, h, ndOfVec]

/-- Arguments that stand for given parameters, the rest as in `a`. -/
def KFArgs.withParams (a : KFArgs) (p : Params n m) : KFArgs :=
  { a with
    A := some (ndOfMats p.A)
    C := some (ndOfMats p.C)
    Q := some (ndOfMats p.Q)
    R := some (ndOfMats p.R)
    b := some (ndOfVecs p.b)
    d := some (ndOfVecs p.d)
    mu0 := some (ndOfVec p.mu0)
    S0 := some (ndOfMat p.S0) }

theorem KFArgs.Means.withParams {a : KFArgs} {p : Params n m} (h : a.Means p) (p' : Params n m) :
    (a.withParams p').Means p' :=
  ⟨h.dimState, h.dimObs, (fun h => nomatch h), (fun h => nomatch h), .ofMats _ _, .ofVecs _,
    .ofMats _ _, .ofMats _ _, .ofVecs _, .ofMats _ _, .ofVecs (.const p'.mu0),
    .ofMats _ (.const p'.S0), h.seed⟩

end Verif
