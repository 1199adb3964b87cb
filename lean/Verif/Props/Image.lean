import Verif.Proofs.Image
import Verif.Props.FixedLag
import Verif.Props.Symmetry
import Verif.Spec.Beside
import Verif.Proofs.Beside

/-!
# C117: linear images of models
-/

open Matrix

namespace Verif

variable {n m k : ℕ}

theorem ImageOf.fn {p : Params n m} {p' : Params k m} {T : ℕ} {E : ℕ → Mat k n} {e : ℕ → Vec k}
    (h : ImageOf p p' T E e) (hc : p.Covers T) : p'.Covers T ∧ p.fn.Image p'.fn E e T := by
  have hd := definedFor_iff_covers.mpr hc
  have hcov : p'.Covers T := by
    rw [← definedFor_iff_covers]
    refine ⟨fun t ht => ?_, fun t ht => ?_, fun t ht => ?_, fun t ht => ?_, fun t ht => ?_, ?_⟩
    · obtain ⟨A, hA⟩ := hd.A t ht
      obtain ⟨b, hb⟩ := hd.b t ht
      obtain ⟨A', b', h1, h2, -⟩ := h.trans t ht A b hA hb
      exact ⟨_, h1⟩
    · obtain ⟨A, hA⟩ := hd.A t ht
      obtain ⟨b, hb⟩ := hd.b t ht
      obtain ⟨A', b', h1, h2, -⟩ := h.trans t ht A b hA hb
      exact ⟨_, h2⟩
    · obtain ⟨Q, hQ⟩ := hd.Q t ht
      exact ⟨_, h.noise t ht Q hQ⟩
    · obtain ⟨C, hC⟩ := hd.C t ht
      obtain ⟨d, hd'⟩ := hd.d t ht
      obtain ⟨C', d', h1, h2, -⟩ := h.emit t ht C d hC hd'
      exact ⟨_, h1⟩
    · obtain ⟨C, hC⟩ := hd.C t ht
      obtain ⟨d, hd'⟩ := hd.d t ht
      obtain ⟨C', d', h1, h2, -⟩ := h.emit t ht C d hC hd'
      exact ⟨_, h2⟩
    · rw [h.obsNoise]; exact hd.R
  refine ⟨hcov, ?_⟩
  have kT : ∀ t, t + 1 < T → p'.fn.A t * E t = E (t + 1) * p.fn.A t ∧
      p'.fn.A t *ᵥ e t + p'.fn.b t = E (t + 1) *ᵥ p.fn.b t + e (t + 1) := by
    intro t ht
    obtain ⟨A', b', h1, h2, h3⟩ := h.trans t ht _ _ (lastDims_eq_ok (hc.A.mono (by omega)))
      (lastDims_eq_ok (hc.b.mono (by omega)))
    have e1 := (lastDims_ok_get h1).1
    have e2 := (lastDims_ok_get h2).1
    subst e1 e2
    refine affine_ext fun x => ?_
    have := h3 x
    rw [mulVec_add, mulVec_mulVec, add_assoc, mulVec_add, mulVec_mulVec, add_assoc] at this
    exact this
  have kC : ∀ t, t < T → p'.fn.C t * E t = p.fn.C t ∧ p'.fn.C t *ᵥ e t + p'.fn.d t = p.fn.d t := by
    intro t ht
    obtain ⟨C', d', h1, h2, h3⟩ := h.emit t ht _ _ (lastDims_eq_ok (hc.C.mono (by omega)))
      (lastDims_eq_ok (hc.d.mono (by omega)))
    have e1 := (lastDims_ok_get h1).1
    have e2 := (lastDims_ok_get h2).1
    subst e1 e2
    refine affine_ext fun x => ?_
    have := h3 x
    rw [mulVec_add, mulVec_mulVec, add_assoc] at this
    exact this
  refine ⟨fun t ht => (kT t ht).1, fun t ht => (kT t ht).2, fun t ht => ?_, fun t ht => (kC t ht).1,
    fun t ht => (kC t ht).2, fun t _ => ?_, h.init.1, h.init.2⟩
  · have := h.noise t ht _ (lastDims_eq_ok (hc.Q.mono (by omega)))
    exact ((lastDims_ok_get this).1).symm
  · simp only [Params.fn, h.obsNoise]

/-- **C117, filter.** The results for the image of a model are the images of the results. -/
theorem C117_filter (p : Params n m) (p' : Params k m) (os : List (Obs m)) {E : ℕ → Mat k n}
    {e : ℕ → Vec k} (h : ImageOf p p' os.length E e) {out : List (Vec n × Mat n n)}
    (hf : kfFilter p os = .ok out) :
    kfFilter p' os = .ok (out.mapIdx fun t r => (E t *ᵥ r.1 + e t, E t * r.2 * (E t)ᵀ)) := by
  obtain rfl := kfFilter_ok hf
  rcases kfFilter_ok_covers hf with rfl | hc
  · rfl
  obtain ⟨hc', hi⟩ := h.fn hc
  rw [kfFilter_eq hc']
  congr 1
  refine List.ext_getElem (by simp) fun t h1 h2 => ?_
  simp only [List.length_map, List.length_range] at h1
  simp only [List.getElem_map, List.getElem_range, List.getElem_mapIdx]
  obtain ⟨-, f1, f2⟩ := hi.kf (z := obsFn os) t h1
  rw [f1, f2]

/-- **C117, smooth.** Likewise, with positive semidefinite covariances. -/
theorem C117_smooth (p : Params n m) (p' : Params k m) (os : List (Obs m)) {E : ℕ → Mat k n}
    {e : ℕ → Vec k} (h : ImageOf p p' os.length E e) (hpsd : p.PSD os.length)
    {out : List (Vec n × Mat n n)} (hs : kfSmooth p os = .ok out) :
    kfSmooth p' os = .ok (out.mapIdx fun t r => (E t *ᵥ r.1 + e t, E t * r.2 * (E t)ᵀ)) := by
  obtain ⟨hne, hc, rfl⟩ := kfSmooth_ok hs
  obtain ⟨hc', hi⟩ := h.fn hc
  rw [kfSmooth_eq hne hc']
  congr 1
  refine List.ext_getElem (by simp) fun t h1 h2 => ?_
  simp only [List.length_map, List.length_range] at h1
  simp only [List.getElem_map, List.getElem_range, List.getElem_mapIdx]
  have hj : t + (os.length - 1 - t) = os.length - 1 := by omega
  obtain ⟨f1, f2⟩ := hi.ks (z := obsFn os) (hpsd.fn hc) t (os.length - 1 - t) (by omega)
  rw [hj] at f1 f2
  rw [f1, f2]

/-- **C117, loglikelihood.** The log likelihood of the data (or the exception) is the same. -/
theorem C117_loglikelihood (p : Params n m) (p' : Params k m) (os : List (Obs m)) {E : ℕ → Mat k n}
    {e : ℕ → Vec k} (h : ImageOf p p' os.length E e) (hd : p.DefinedFor os.length) :
    kfLoglik p' os = kfLoglik p os := by
  have hc := definedFor_iff_covers.mp hd
  obtain ⟨hc', hi⟩ := h.fn hc
  have key := loglikLoop_congr (p := p) (p' := p') os os 0
    ((List.range os.length).map (p.fn.kf (obsFn os)))
    ((List.range os.length).map (p'.fn.kf (obsFn os))) (fun _ => 0) (by simp) (by simp) rfl ?_
  · rw [kfLoglik, kfLoglik, filterFull_obsFn hc, filterFull_obsFn hc']
    simp only [bind, Except.bind, key]
    cases loglikLoop p 0 ((List.range os.length).map (p.fn.kf (obsFn os))) os with
    | error e => rfl
    | ok l =>
      have : ∀ l : List ℝ, List.zipWith (· + ·) l ((List.range l.length).map fun _ => (0:ℝ)) = l := by
        intro l
        apply List.ext_getElem <;> simp
      simp only [Except.map, this]
  · intro i h1 h2 h3 h4
    have hid : ∀ r : Res ℝ, r.map (· + 0) = r := by
      intro r; cases r <;> simp [Except.map]
    rw [hid]
    simp only [List.getElem_map, List.getElem_range, zero_add, loglikStep]
    by_cases hmi : os[i].missing
    · simp [hmi]
    · simp only [hmi, not_false_eq_true, if_true]
      rw [lastDims_eq_ok (hc.C.mono (by omega)), lastDims_eq_ok (hc.d.mono (by omega)),
        lastDims_eq_ok (hc'.C.mono (by omega)), lastDims_eq_ok (hc'.d.mono (by omega)), h.obsNoise]
      obtain ⟨⟨i1, i2⟩, -⟩ := hi.kf (z := obsFn os) i h3
      have eC : p'.C.get i * E i = p.C.get i := hi.C i h3
      have ed : p'.C.get i *ᵥ e i + p'.d.get i = p.d.get i := hi.d i h3
      have e1 : p'.C.get i *ᵥ (p'.fn.kf (obsFn os) i).predMean + p'.d.get i
          = p.C.get i *ᵥ (p.fn.kf (obsFn os) i).predMean + p.d.get i := by
        rw [← ed, ← eC, i1, mulVec_add, mulVec_mulVec, add_assoc]
      have e2 : p'.C.get i * ((p'.fn.kf (obsFn os) i).predCov * (p'.C.get i)ᵀ)
          = p.C.get i * ((p.fn.kf (obsFn os) i).predCov * (p.C.get i)ᵀ) := by
        rw [← eC, transpose_mul, i2]
        simp only [Matrix.mul_assoc]
      simp only [bind, Except.bind, e1, e2]

/-! ### Offsets as a state -/

/-- The matrix that adds a component 0. -/
def addZero (n : ℕ) : Mat (n + 1) n :=
  Matrix.of fun i j => Fin.append (fun a => (1 : Mat n n) a j) (fun _ => 0) i

theorem addZero_mulVec (x : Vec n) : addZero n *ᵥ x = stackVec x 0 := by
  ext i
  refine Fin.addCases (fun a => ?_) (fun a => ?_) i
  · simp [addZero, stackVec, mulVec, dotProduct, Matrix.one_apply]
  · simp [addZero, stackVec, mulVec, dotProduct]

theorem addZero_conj (M : Mat n n) : addZero n * M * (addZero n)ᵀ = blocks M (0 : Mat 1 1) := by
  ext i j
  refine Fin.addCases (fun a => ?_) (fun a => ?_) i <;>
    refine Fin.addCases (fun b => ?_) (fun b => ?_) j <;>
    simp [addZero, blocks, Matrix.mul_apply, Matrix.one_apply]

theorem stack_add_zero (x : Vec n) : stackVec x 0 + stackVec 0 ![1] = stackVec x ![(1 : ℝ)] := by
  ext i
  refine Fin.addCases (fun a => ?_) (fun a => ?_) i <;> simp [stackVec]

theorem OffsetsAsState.image {p : Params n m} {p' : Params (n + 1) m} {T : ℕ}
    (h : OffsetsAsState p p' T) :
    ImageOf p p' T (fun _ => addZero n) (fun _ => stackVec 0 ![1]) where
  trans t ht A b hA hb := by
    obtain ⟨A', h1, h2⟩ := h.trans t ht A b hA hb
    refine ⟨A', 0, h1, by rw [h.offsets.1]; rfl, fun x => ?_⟩
    rw [addZero_mulVec, addZero_mulVec, stack_add_zero, stack_add_zero, h2, add_zero]
  noise t ht Q hQ := by rw [h.noise t ht Q hQ, addZero_conj]
  emit t ht C d hC hd := by
    obtain ⟨C', h1, h2⟩ := h.emit t ht C d hC hd
    refine ⟨C', 0, h1, by rw [h.offsets.2]; rfl, fun x => ?_⟩
    rw [addZero_mulVec, stack_add_zero, h2, add_zero]
  obsNoise := h.obsNoise
  init := by rw [h.init.1, h.init.2, addZero_mulVec, stack_add_zero, addZero_conj]; exact ⟨rfl, rfl⟩

/-- **C117, offsets.** Offsets may be given as a further state that is known to be 1: `filter` and
`smooth` return the same means with a 1 appended, covariances with a row and a column of zeros
appended, and the log likelihood is the same. -/
theorem C117_offsets_as_state (p : Params n m) (p' : Params (n + 1) m) (os : List (Obs m))
    (h : OffsetsAsState p p' os.length) :
    (∀ out, kfFilter p os = .ok out →
      kfFilter p' os = .ok (out.map fun r => (stackVec r.1 ![1], blocks r.2 (0 : Mat 1 1)))) ∧
    (p.PSD os.length → ∀ out, kfSmooth p os = .ok out →
      kfSmooth p' os = .ok (out.map fun r => (stackVec r.1 ![1], blocks r.2 (0 : Mat 1 1)))) ∧
    (p.DefinedFor os.length → kfLoglik p' os = kfLoglik p os) := by
  have e : ∀ out : List (Vec n × Mat n n),
      (out.mapIdx fun _ r => (addZero n *ᵥ r.1 + stackVec 0 ![1], addZero n * r.2 * (addZero n)ᵀ))
        = out.map fun r => (stackVec r.1 ![1], blocks r.2 (0 : Mat 1 1)) := by
    intro out
    refine List.ext_getElem (by simp) fun t h1 h2 => ?_
    simp only [List.getElem_mapIdx, List.getElem_map, addZero_mulVec, stack_add_zero, addZero_conj]
  refine ⟨fun out ho => ?_, fun hp out ho => ?_, C117_loglikelihood p p' os h.image⟩
  · rw [C117_filter p p' os h.image ho, e]
  · rw [C117_smooth p p' os h.image hp ho, e]

/-! ### Examples -/

/-- A walk with drift 3. -/
noncomputable def exSteadyDrift : Params 1 1 where
  A := .const 1
  b := .const ![3]
  Q := .const 1
  C := .const 1
  d := .const ![5]
  R := .const 1
  mu0 := ![7]
  S0 := 1

/-- The same with the drift in the transition matrix. -/
noncomputable def exDriftCarried : Params (1 + 1) 1 where
  A := .const !![1, 3; 0, 1]
  b := .const 0
  Q := .const (blocks 1 0)
  C := .const !![1, 5]
  d := .const 0
  R := .const 1
  mu0 := stackVec ![7] ![1]
  S0 := blocks 1 0

/-- The hypotheses of `C117_offsets_as_state` hold for these, for runs of any length. -/
example (T : ℕ) : OffsetsAsState exSteadyDrift exDriftCarried T ∧ exSteadyDrift.PSD T ∧ exSteadyDrift.DefinedFor T := by
  refine ⟨⟨?_, ?_, ?_, rfl, ⟨rfl, rfl⟩, ⟨rfl, rfl⟩⟩, ⟨?_, ?_, PosSemidef.one⟩,
    ⟨fun _ _ => ⟨_, rfl⟩, fun _ _ => ⟨_, rfl⟩, fun _ _ => ⟨_, rfl⟩, fun _ _ => ⟨_, rfl⟩,
      fun _ _ => ⟨_, rfl⟩, fun _ _ => ⟨_, rfl⟩⟩⟩
  · rintro t - _ _ ⟨⟩ ⟨⟩
    refine ⟨_, rfl, fun x => ?_⟩
    rw [one_mulVec]
    ext i
    fin_cases i
    · change (!![1, 3; 0, 1] : Mat 2 2) 0 ⬝ᵥ ![x 0, 1] = x 0 + 3
      simp [dotProduct]
    · change (!![1, 3; 0, 1] : Mat 2 2) 1 ⬝ᵥ ![x 0, 1] = 1
      simp [dotProduct]
  · rintro t - _ _ ⟨⟩ ⟨⟩
    refine ⟨_, rfl, fun x => ?_⟩
    rw [one_mulVec]
    ext i
    fin_cases i
    change (!![1, 5] : Mat 1 2) 0 ⬝ᵥ ![x 0, 1] = x 0 + 5
    simp [dotProduct]
  · rintro t - _ ⟨⟩; rfl
  · rintro t - _ ⟨⟩; exact PosSemidef.one
  · rintro t - _ ⟨⟩; exact PosSemidef.one

/-- A walk beside a component that nobody reads and that follows it. -/
noncomputable def exFollower : Params 2 1 where
  A := .const !![1, 0; 1, 0]
  b := .const 0
  Q := .const 1
  C := .const !![1, 0]
  d := .const 0
  R := .const 1
  mu0 := 0
  S0 := 1

/-- The hypotheses of the other theorems hold for an image with fewer components: `exNoisyStep`, the
first component of `exFollower`. -/
noncomputable def exNoisyStep : Params 1 1 where
  A := .const 1
  b := .const 0
  Q := .const 1
  C := .const 1
  d := .const 0
  R := .const 1
  mu0 := 0
  S0 := 1

example (T : ℕ) : ImageOf exFollower exNoisyStep T (fun _ => !![1, 0]) (fun _ => 0) ∧
    exFollower.PSD T ∧ exFollower.DefinedFor T := by
  have e1 : (!![1, 0] : Mat 1 2) * (1 : Mat 2 2) * (!![1, 0] : Mat 1 2)ᵀ = 1 := by
    ext i j
    fin_cases i; fin_cases j
    simp [Matrix.mul_apply]
  refine ⟨⟨?_, ?_, ?_, rfl, ?_, e1.symm⟩, ⟨?_, ?_, PosSemidef.one⟩,
    ⟨fun _ _ => ⟨_, rfl⟩, fun _ _ => ⟨_, rfl⟩, fun _ _ => ⟨_, rfl⟩, fun _ _ => ⟨_, rfl⟩,
      fun _ _ => ⟨_, rfl⟩, fun _ _ => ⟨_, rfl⟩⟩⟩
  · rintro t - _ _ ⟨⟩ ⟨⟩
    refine ⟨_, _, rfl, rfl, fun x => ?_⟩
    ext i
    fin_cases i
    simp [mulVec, dotProduct, Fin.sum_univ_two]
  · rintro t - _ ⟨⟩
    rw [e1]; rfl
  · rintro t - _ _ ⟨⟩ ⟨⟩
    refine ⟨_, _, rfl, rfl, fun x => ?_⟩
    rw [one_mulVec, add_zero]
  · simp [exNoisyStep, exFollower]
  · rintro t - _ ⟨⟩; exact PosSemidef.one
  · rintro t - _ ⟨⟩; exact PosSemidef.one

end Verif
