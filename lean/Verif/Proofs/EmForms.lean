import Verif.Proofs.EmPure

/-!
# Closed forms of the M-step functions
-/

open Matrix

namespace Verif

variable {n m : ℕ}

/-- Indicator of an unmasked row. -/
noncomputable def Obs.w (o : Obs m) : ℝ := if o.missing then 0 else 1

theorem Obs.w_missing {o : Obs m} (h : o.missing) : o.w = 0 := by simp [Obs.w, h]
theorem Obs.w_observed {o : Obs m} (h : ¬ o.missing) : o.w = 1 := by simp [Obs.w, h]
theorem Obs.w_nonneg (o : Obs m) : 0 ≤ o.w := by rw [Obs.w]; split <;> norm_num

/-- Number of unmasked rows among the first `T`. -/
noncomputable def obsCount (g : ℕ → Obs m) (T : ℕ) : ℕ :=
  ((Finset.range T).filter fun t => ¬ (g t).missing).card

theorem obsCount_eq (g : ℕ → Obs m) (T : ℕ) :
    (obsCount g T : ℝ) = ∑ t ∈ Finset.range T, (g t).w := by
  rw [obsCount, Finset.card_filter]
  push_cast
  refine Finset.sum_congr rfl fun t _ => ?_
  by_cases h : (g t).missing <;> simp [Obs.w, h]

theorem map_range_succ {α : Type*} (f : ℕ → α) (k t : ℕ) :
    ((List.range (k + 1)).map fun i => f (t + i))
      = f t :: (List.range k).map fun i => f (t + 1 + i) := by
  rw [List.range_succ_eq_map, List.map_cons, List.map_map]
  simp only [add_zero, List.cons.injEq, true_and]
  apply List.map_congr_left
  intro i _
  simp only [Function.comp]
  congr 1
  omega

theorem sum_range_shift {M : Type*} [AddCommMonoid M] (f : ℕ → M) (k t : ℕ) :
    ∑ i ∈ Finset.range (k + 1), f (t + i) = f t + ∑ i ∈ Finset.range k, f (t + 1 + i) := by
  rw [Finset.sum_range_succ', add_comm, add_zero]
  congr 1
  refine Finset.sum_congr rfl fun i _ => ?_
  congr 1
  omega

theorem list_eq_map_obsFn (os : List (Obs m)) : os = (List.range os.length).map (obsFn os) := by
  apply List.ext_getElem
  · simp
  · intro i h1 h2
    simp [obsFn_eq h1]

variable (f : ℕ → EmStats n) (g : ℕ → Obs m)

theorem emObsMatLoop_eq {d : TV (Vec m)} (k t : ℕ) (hd : d.Covers (t + k)) (r1 : Mat m n)
    (r2 : Mat n n) :
    emObsMatLoop d t ((List.range k).map fun i => f (t + i)) ((List.range k).map fun i => g (t + i))
      r1 r2 = .ok
      (r1 + ∑ i ∈ Finset.range k, (g (t + i)).w •
        vecMulVec ((g (t + i)).val - d.get (t + i)) (f (t + i)).mean,
       r2 + ∑ i ∈ Finset.range k, (g (t + i)).w •
        ((f (t + i)).cov + vecMulVec (f (t + i)).mean (f (t + i)).mean)) := by
  induction k generalizing t r1 r2 with
  | zero => simp [emObsMatLoop, pure, Except.pure]
  | succ k ih =>
    rw [map_range_succ, map_range_succ, emObsMatLoop]
    rw [sum_range_shift (fun i => (g i).w • vecMulVec ((g i).val - d.get i) (f i).mean),
      sum_range_shift (fun i => (g i).w • ((f i).cov + vecMulVec (f i).mean (f i).mean))]
    have hi := fun a b => ih (t + 1) (by rwa [show t + 1 + k = t + (k + 1) by omega]) a b
    by_cases hm : (g t).missing
    · simp only [hm, not_true_eq_false, if_false, hi, Obs.w_missing hm, zero_smul, zero_add]
    · simp only [hm, not_false_eq_true, if_true, lastDims_eq_ok (hd.mono (show t + 1 ≤ t + (k + 1) by omega)),
        bind, Except.bind, hi, Obs.w_observed hm, one_smul]
      refine congrArg Except.ok (Prod.ext ?_ ?_) <;> simp only <;> abel

theorem emObsMat_eq {d : TV (Vec m)} (T : ℕ) (hd : d.Covers T) :
    emObsMat d ((List.range T).map f) ((List.range T).map g) = .ok
      ((∑ t ∈ Finset.range T, (g t).w • vecMulVec ((g t).val - d.get t) (f t).mean) *
        pinv (∑ t ∈ Finset.range T, (g t).w •
          ((f t).cov + vecMulVec (f t).mean (f t).mean))) := by
  have := emObsMatLoop_eq f g (d := d) T 0 (by simpa using hd) 0 0
  simp only [zero_add] at this
  rw [emObsMat, this]
  rfl

theorem emObsCovLoop_eq {C : TV (Mat m n)} {d : TV (Vec m)} (k t : ℕ) (hC : C.Covers (t + k))
    (hd : d.Covers (t + k)) (r : Mat m m) (c : ℕ) :
    emObsCovLoop C d t ((List.range k).map fun i => f (t + i))
      ((List.range k).map fun i => g (t + i)) r c = .ok
      (r + ∑ i ∈ Finset.range k, (g (t + i)).w •
        (vecMulVec ((g (t + i)).val - C.get (t + i) *ᵥ (f (t + i)).mean - d.get (t + i))
          ((g (t + i)).val - C.get (t + i) *ᵥ (f (t + i)).mean - d.get (t + i))
          + C.get (t + i) * ((f (t + i)).cov * (C.get (t + i))ᵀ)),
       c + obsCount (fun i => g (t + i)) k) := by
  induction k generalizing t r c with
  | zero => simp [emObsCovLoop, pure, Except.pure, obsCount]
  | succ k ih =>
    rw [map_range_succ, map_range_succ, emObsCovLoop]
    rw [sum_range_shift (fun i => (g i).w • (vecMulVec ((g i).val - C.get i *ᵥ (f i).mean - d.get i)
          ((g i).val - C.get i *ᵥ (f i).mean - d.get i) + C.get i * ((f i).cov * (C.get i)ᵀ)))]
    have hi := fun a b => ih (t + 1) (by rwa [show t + 1 + k = t + (k + 1) by omega])
      (by rwa [show t + 1 + k = t + (k + 1) by omega]) a b
    have hcount : obsCount (fun i => g (t + i)) (k + 1)
        = (if (g t).missing then 0 else 1) + obsCount (fun i => g (t + 1 + i)) k := by
      have : (obsCount (fun i => g (t + i)) (k + 1) : ℝ)
          = ((if (g t).missing then 0 else 1) + obsCount (fun i => g (t + 1 + i)) k : ℕ) := by
        push_cast
        rw [obsCount_eq, obsCount_eq, sum_range_shift (fun i => (g i).w)]
        simp only [Obs.w]
      exact_mod_cast this
    rw [hcount]
    by_cases hm : (g t).missing
    · simp only [hm, not_true_eq_false, if_false, hi, Obs.w_missing hm, zero_smul, zero_add, if_true]
    · simp only [hm, not_false_eq_true, if_true, lastDims_eq_ok (hd.mono (show t + 1 ≤ t + (k + 1) by omega)),
        lastDims_eq_ok (hC.mono (show t + 1 ≤ t + (k + 1) by omega)),
        bind, Except.bind, hi, Obs.w_observed hm, one_smul, if_false]
      refine congrArg Except.ok (Prod.ext ?_ ?_) <;> simp only <;> abel

/-- Sum of the expected squared emission errors. -/
noncomputable def obsScatter (C : ℕ → Mat m n) (d : ℕ → Vec m) (T : ℕ) : Mat m m :=
  ∑ t ∈ Finset.range T, (g t).w •
    (vecMulVec ((g t).val - C t *ᵥ (f t).mean - d t) ((g t).val - C t *ᵥ (f t).mean - d t)
      + C t * ((f t).cov * (C t)ᵀ))

theorem emObsCov_eq {C : TV (Mat m n)} {d : TV (Vec m)} (T : ℕ) (hC : C.Covers T)
    (hd : d.Covers T) :
    emObsCov C d ((List.range T).map f) ((List.range T).map g) = .ok
      (if obsCount g T > 0 then (1 / (obsCount g T : ℝ)) • obsScatter f g C.get d.get T
        else obsScatter f g C.get d.get T) := by
  have := emObsCovLoop_eq f g (d := d) (C := C) T 0 (by simpa using hC) (by simpa using hd) 0 0
  simp only [zero_add] at this
  rw [emObsCov, this]
  simp only [bind, Except.bind, pure, Except.pure, obsScatter]
  have e : obsCount (fun i => g i) T = obsCount g T := rfl
  rw [e]
  norm_num
  split <;> rfl

theorem emTransMatLoop_eq {b : TV (Vec n)} (k t : ℕ) (hb : b.Covers (t + k)) (r1 r2 : Mat n n) :
    emTransMatLoop b (t + 1) (f t) ((List.range k).map fun i => f (t + 1 + i)) r1 r2 = .ok
      (r1 + ∑ i ∈ Finset.range k, ((f (t + i + 1)).pair
        + vecMulVec (f (t + i + 1)).mean (f (t + i)).mean
        - vecMulVec (b.get (t + i)) (f (t + i)).mean),
       r2 + ∑ i ∈ Finset.range k, ((f (t + i)).cov
        + vecMulVec (f (t + i)).mean (f (t + i)).mean)) := by
  induction k generalizing t r1 r2 with
  | zero => simp [emTransMatLoop, pure, Except.pure]
  | succ k ih =>
    rw [map_range_succ, emTransMatLoop, Nat.add_sub_cancel]
    rw [sum_range_shift (fun i => (f (i + 1)).pair + vecMulVec (f (i + 1)).mean (f i).mean
        - vecMulVec (b.get i) (f i).mean),
      sum_range_shift (fun i => (f i).cov + vecMulVec (f i).mean (f i).mean)]
    simp only [lastDims_eq_ok (hb.mono (show t + 1 ≤ t + (k + 1) by omega)), bind, Except.bind,
      ih (t + 1) (by rwa [show t + 1 + k = t + (k + 1) by omega])]
    refine congrArg Except.ok (Prod.ext ?_ ?_) <;> simp only <;> abel

theorem emTransMat_eq {b : TV (Vec n)} (T : ℕ) (hb : b.Covers T) :
    emTransMat b ((List.range (T + 1)).map f) = .ok
      ((∑ t ∈ Finset.range T, ((f (t + 1)).pair + vecMulVec (f (t + 1)).mean (f t).mean
        - vecMulVec (b.get t) (f t).mean)) *
       pinv (∑ t ∈ Finset.range T, ((f t).cov + vecMulVec (f t).mean (f t).mean))) := by
  have h0 := map_range_succ f T 0
  simp only [zero_add] at h0
  have := emTransMatLoop_eq f (b := b) T 0 (by simpa using hb) 0 0
  simp only [zero_add] at this
  rw [h0, emTransMat, this]
  rfl

/-- Sum of the expected squared transition errors. -/
noncomputable def transScatter (A : ℕ → Mat n n) (b : ℕ → Vec n) (T : ℕ) : Mat n n :=
  ∑ t ∈ Finset.range T,
    (vecMulVec ((f (t + 1)).mean - A t *ᵥ (f t).mean - b t)
        ((f (t + 1)).mean - A t *ᵥ (f t).mean - b t)
      + A t * ((f t).cov * (A t)ᵀ) + (f (t + 1)).cov - (f (t + 1)).pair * (A t)ᵀ
      - ((f (t + 1)).pair * (A t)ᵀ)ᵀ)

theorem emTransCovLoop_eq {A : TV (Mat n n)} {b : TV (Vec n)} (k t : ℕ) (hA : A.Covers (t + k))
    (hb : b.Covers (t + k)) (r : Mat n n) :
    emTransCovLoop A b t (f t) ((List.range k).map fun i => f (t + 1 + i)) r = .ok
      (r + ∑ i ∈ Finset.range k,
      (vecMulVec ((f (t + i + 1)).mean - A.get (t + i) *ᵥ (f (t + i)).mean - b.get (t + i))
        ((f (t + i + 1)).mean - A.get (t + i) *ᵥ (f (t + i)).mean - b.get (t + i))
      + A.get (t + i) * ((f (t + i)).cov * (A.get (t + i))ᵀ) + (f (t + i + 1)).cov
      - (f (t + i + 1)).pair * (A.get (t + i))ᵀ
      - ((f (t + i + 1)).pair * (A.get (t + i))ᵀ)ᵀ)) := by
  induction k generalizing t r with
  | zero => simp [emTransCovLoop, pure, Except.pure]
  | succ k ih =>
    rw [map_range_succ, emTransCovLoop]
    rw [sum_range_shift (fun i =>
      (vecMulVec ((f (i + 1)).mean - A.get i *ᵥ (f i).mean - b.get i)
        ((f (i + 1)).mean - A.get i *ᵥ (f i).mean - b.get i)
      + A.get i * ((f i).cov * (A.get i)ᵀ) + (f (i + 1)).cov
      - (f (i + 1)).pair * (A.get i)ᵀ - ((f (i + 1)).pair * (A.get i)ᵀ)ᵀ))]
    simp only [lastDims_eq_ok (hb.mono (show t + 1 ≤ t + (k + 1) by omega)),
      lastDims_eq_ok (hA.mono (show t + 1 ≤ t + (k + 1) by omega)), bind, Except.bind,
      ih (t + 1) (by rwa [show t + 1 + k = t + (k + 1) by omega])
        (by rwa [show t + 1 + k = t + (k + 1) by omega])]
    rw [← add_assoc r]

theorem emTransCov_eq {A : TV (Mat n n)} {b : TV (Vec n)} (T : ℕ) (hA : A.Covers T)
    (hb : b.Covers T) :
    emTransCov A b ((List.range (T + 1)).map f) = .ok
      (if T > 0 then (1 / (T : ℝ)) • transScatter f A.get b.get T
        else transScatter f A.get b.get T) := by
  have h0 := map_range_succ f T 0
  simp only [zero_add] at h0
  have := emTransCovLoop_eq f (b := b) (A := A) T 0 (by simpa using hA) (by simpa using hb) 0
  simp only [zero_add] at this
  rw [h0, emTransCov, this]
  simp only [bind, Except.bind, pure, Except.pure, transScatter, List.length_cons, List.length_map,
    List.length_range]
  push_cast
  rw [add_sub_cancel_right]
  by_cases hT : T > 0
  · rw [if_pos (by omega), if_pos hT]; norm_num
  · rw [if_neg (by omega), if_neg hT]

theorem emInit_eq (mu : Vec n) (T : ℕ) :
    emInitMean ((List.range (T + 1)).map f) = .ok (f 0).mean ∧
    emInitCov mu ((List.range (T + 1)).map f)
      = .ok ((f 0).cov + vecMulVec ((f 0).mean - mu) ((f 0).mean - mu)) := by
  have h0 := map_range_succ f T 0
  simp only [zero_add] at h0
  rw [h0]
  refine ⟨rfl, ?_⟩
  simp only [emInitCov, pure, Except.pure]
  congr 1
  simp only [sub_vecMulVec, vecMulVec_sub]
  abel

theorem emTransOffLoop_eq {A : TV (Mat n n)} (k t : ℕ) (hA : A.Covers (t + k)) (r : Vec n) :
    emTransOffLoop A (t + 1) (f t) ((List.range k).map fun i => f (t + 1 + i)) r = .ok
      (r + ∑ i ∈ Finset.range k, ((f (t + i + 1)).mean - A.get (t + i) *ᵥ (f (t + i)).mean)) := by
  induction k generalizing t r with
  | zero => simp [emTransOffLoop, pure, Except.pure]
  | succ k ih =>
    rw [map_range_succ, emTransOffLoop, Nat.add_sub_cancel]
    rw [sum_range_shift (fun i => (f (i + 1)).mean - A.get i *ᵥ (f i).mean)]
    simp only [lastDims_eq_ok (hA.mono (show t + 1 ≤ t + (k + 1) by omega)), bind, Except.bind,
      ih (t + 1) (by rwa [show t + 1 + k = t + (k + 1) by omega])]
    rw [← add_assoc r]

theorem emTransOff_eq {A : TV (Mat n n)} (T : ℕ) (hA : A.Covers T) :
    emTransOff A ((List.range (T + 1)).map f) = .ok
      (if T > 0 then (1 / (T : ℝ)) • ∑ t ∈ Finset.range T, ((f (t + 1)).mean - A.get t *ᵥ (f t).mean)
        else 0) := by
  have h0 := map_range_succ f T 0
  simp only [zero_add] at h0
  have := emTransOffLoop_eq f (A := A) T 0 (by simpa using hA) 0
  simp only [zero_add] at this
  rw [h0, emTransOff, this]
  simp only [bind, Except.bind, pure, Except.pure, List.length_cons, List.length_map,
    List.length_range]
  push_cast
  rw [add_sub_cancel_right]
  by_cases hT : T > 0
  · rw [if_pos (by omega), if_pos hT]; norm_num
  · rw [if_neg (by omega), if_neg hT]

theorem emObsOffLoop_eq {C : TV (Mat m n)} (k t : ℕ) (hC : C.Covers (t + k)) (r : Vec m) (c : ℕ) :
    emObsOffLoop C t ((List.range k).map fun i => f (t + i))
      ((List.range k).map fun i => g (t + i)) r c = .ok
      (r + ∑ i ∈ Finset.range k, (g (t + i)).w •
        ((g (t + i)).val - C.get (t + i) *ᵥ (f (t + i)).mean),
       c + obsCount (fun i => g (t + i)) k) := by
  induction k generalizing t r c with
  | zero => simp [emObsOffLoop, pure, Except.pure, obsCount]
  | succ k ih =>
    rw [map_range_succ, map_range_succ, emObsOffLoop]
    rw [sum_range_shift (fun i => (g i).w • ((g i).val - C.get i *ᵥ (f i).mean))]
    have hi := fun a b => ih (t + 1) (by rwa [show t + 1 + k = t + (k + 1) by omega]) a b
    have hcount : obsCount (fun i => g (t + i)) (k + 1)
        = (if (g t).missing then 0 else 1) + obsCount (fun i => g (t + 1 + i)) k := by
      have : (obsCount (fun i => g (t + i)) (k + 1) : ℝ)
          = ((if (g t).missing then 0 else 1) + obsCount (fun i => g (t + 1 + i)) k : ℕ) := by
        push_cast
        rw [obsCount_eq, obsCount_eq, sum_range_shift (fun i => (g i).w)]
        simp only [Obs.w]
      exact_mod_cast this
    rw [hcount]
    by_cases hm : (g t).missing
    · simp only [hm, not_true_eq_false, if_false, hi, Obs.w_missing hm, zero_smul, zero_add, if_true]
    · simp only [hm, not_false_eq_true, if_true,
        lastDims_eq_ok (hC.mono (show t + 1 ≤ t + (k + 1) by omega)),
        bind, Except.bind, hi, Obs.w_observed hm, one_smul, if_false]
      refine congrArg Except.ok (Prod.ext ?_ ?_) <;> simp only <;> abel

theorem emObsOff_eq {C : TV (Mat m n)} (T : ℕ) (hC : C.Covers T) :
    emObsOff C ((List.range T).map f) ((List.range T).map g) = .ok
      (if obsCount g T > 0 then (1 / (obsCount g T : ℝ)) •
          ∑ t ∈ Finset.range T, (g t).w • ((g t).val - C.get t *ᵥ (f t).mean)
        else ∑ t ∈ Finset.range T, (g t).w • ((g t).val - C.get t *ᵥ (f t).mean)) := by
  have := emObsOffLoop_eq f g (C := C) T 0 (by simpa using hC) 0 0
  simp only [zero_add] at this
  rw [emObsOff, this]
  simp only [bind, Except.bind, pure, Except.pure]
  have e : obsCount (fun i => g i) T = obsCount g T := rfl
  rw [e]
  norm_num
  split <;> rfl

end Verif
