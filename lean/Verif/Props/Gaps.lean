import Verif.Proofs.Gaps
import Verif.Props.Posterior

/-!
# C71: a missing row can be left out of the model
-/

open Matrix

namespace Verif

variable {n m : ℕ}

/-- **C71 (filter).** If row `k` of the observations is missing, then filtering the other rows with
the model without step `k` gives the same rows except row `k`. -/
theorem C71_gap_filter (p p' : Params n m) (os : List (Obs m)) (k : ℕ) {o : Obs m}
    (hk : os[k]? = some o) (hm : o.missing) (h : WithoutStep p p' k os.length)
    (out : List (Vec n × Mat n n)) (ho : kfFilter p os = .ok out) :
    kfFilter p' (os.eraseIdx k) = .ok (out.eraseIdx k) := by
  obtain ⟨hlt, rfl⟩ := List.getElem?_eq_some_iff.mp hk
  have hc := kfFilter_covers ho (by rintro rfl; simp at hlt)
  obtain ⟨hc', hf⟩ := h.fn hc
  have hl : (os.eraseIdx k).length = os.length - 1 := List.length_eraseIdx_of_lt hlt
  rw [kfFilter_ok ho, kfFilter_eq (by rwa [hl]), map_range_eraseIdx _ hlt, hl]
  congr 1
  refine List.map_congr_left fun t ht => ?_
  rw [hf.kf (z := obsFn os) (by rwa [obsFn_eq hlt]) (fun t _ => obsFn_eraseIdx os k t)
    (by have := List.mem_range.mp ht; omega)]

/-- **C71 (smoother).** If row `k` of at least two observations is missing, then smoothing the other
rows with the model without step `k` gives the same rows except row `k`. -/
theorem C71_gap_smooth (p p' : Params n m) (os : List (Obs m)) (k : ℕ) {o : Obs m}
    (hk : os[k]? = some o) (hm : o.missing) (h : WithoutStep p p' k os.length)
    (hp : p.PSD os.length) (h2 : 2 ≤ os.length)
    (out : List (Vec n × Mat n n)) (ho : kfSmooth p os = .ok out) :
    kfSmooth p' (os.eraseIdx k) = .ok (out.eraseIdx k) := by
  obtain ⟨hlt, rfl⟩ := List.getElem?_eq_some_iff.mp hk
  obtain ⟨-, hc, e⟩ := kfSmooth_ok ho
  obtain ⟨hc', hf⟩ := h.fn hc
  have hl : (os.eraseIdx k).length = os.length - 1 := List.length_eraseIdx_of_lt hlt
  obtain ⟨T, hT⟩ : ∃ T, os.length = T + 2 := ⟨os.length - 2, by omega⟩
  have hP := hp.fn hc
  rw [e, kfSmooth_eq (by intro e; rw [e] at hl; simp at hl; omega) (by rwa [hl]),
    map_range_eraseIdx _ hlt, hl]
  congr 1
  refine List.map_congr_left fun t ht => ?_
  have ht' := List.mem_range.mp ht
  rw [hT] at hf hP
  obtain ⟨e1, e2⟩ := hf.ks (z := obsFn os) (z' := obsFn (os.eraseIdx k)) hP
    (by rwa [obsFn_eq hlt]) (by omega) (fun t _ => obsFn_eraseIdx os k t) (t := t) (by omega)
  rw [show os.length - 1 - 1 = T by omega, show os.length - 1 = T + 1 by omega, e1, e2]

/-- **C71 (log likelihood).** A missing row that is left out together with its time step does not
change the log likelihood. -/
theorem C71_gap_loglik (p p' : Params n m) (os : List (Obs m)) (k : ℕ) {o : Obs m}
    (hk : os[k]? = some o) (hm : o.missing) (h : WithoutStep p p' k os.length) (R : Mat m m)
    (hR : p.R = .const R) (hR' : p'.R = .const R)
    (out : List (Vec n × Mat n n)) (ho : kfFilter p os = .ok out) :
    kfLoglik p' (os.eraseIdx k) = kfLoglik p os := by
  obtain ⟨hlt, rfl⟩ := List.getElem?_eq_some_iff.mp hk
  have hc := kfFilter_covers ho (by rintro rfl; simp at hlt)
  obtain ⟨hc', hf⟩ := h.fn hc
  have hl : (os.eraseIdx k).length = os.length - 1 := List.length_eraseIdx_of_lt hlt
  have e : filterFull p' (os.eraseIdx k)
      = .ok (((List.range os.length).map (p.fn.kf (obsFn os))).eraseIdx k) := by
    rw [filterFull_obsFn (by rwa [hl]), map_range_eraseIdx _ hlt, hl]
    congr 1
    refine List.map_congr_left fun t ht => ?_
    exact hf.kf (z := obsFn os) (by rwa [obsFn_eq hlt]) (fun t _ => obsFn_eraseIdx os k t)
      (by have := List.mem_range.mp ht; omega)
  simp only [kfLoglik, e, filterFull_obsFn hc]
  refine loglikLoop_erase k 0 _ os (by simp) ?_ ?_ ?_
  · intro i s o hi _ ho
    obtain ⟨hi', -⟩ := List.getElem?_eq_some_iff.mp ho
    simp only [loglikStep, Nat.zero_add, h.C.1 i hi (by omega), h.d.1 i hi (by omega), hR, hR']
  · intro i s o hi _ ho
    obtain ⟨hi', -⟩ := List.getElem?_eq_some_iff.mp ho
    simp only [loglikStep, Nat.zero_add, h.C.2 i hi (by omega), h.d.2 i hi (by omega), hR, hR']
  · intro o ho
    rw [List.getElem?_eq_getElem hlt] at ho
    cases ho
    exact hm

/-- The hypothesis can be met for all parameters that cover the run and all `k`. -/
example (p : Params n m) (T k : ℕ) (hc : p.Covers T) : ∃ p', WithoutStep p p' k T :=
  exists_withoutStep hc k

/-- A model with constant parameters without the middle one of three steps: the first transition is
composed of two. -/
example : WithoutStep (n := 2) (m := 1)
    ⟨.const !![1, 1; 0, 1], .const ![0, 1], .const 1, .const !![1, 0], .const 0, .const 1, 0, 1⟩
    ⟨.const !![1, 2; 0, 1], .const ![1, 2], .const !![3, 1; 1, 2], .const !![1, 0], .const 0,
      .const 1, 0, 1⟩ 1 3 := by
  refine ⟨⟨fun _ _ _ => rfl, fun _ _ _ => rfl⟩, ⟨fun _ _ _ => rfl, fun _ _ _ => rfl⟩,
    ⟨fun _ _ _ => rfl, fun _ _ _ => rfl⟩, fun t h => by omega, fun t h h' => by omega, ?_,
    fun h => by omega, fun _ => ⟨rfl, rfl⟩⟩
  intro j _ _ A₁ b₁ Q₁ A₂ b₂ Q₂ h1 h2 h3 h4 h5 h6
  cases h1; cases h2; cases h3; cases h4; cases h5; cases h6
  refine ⟨congrArg Except.ok ?_, congrArg Except.ok ?_, congrArg Except.ok ?_⟩
  · ext i j
    fin_cases i <;> fin_cases j <;> norm_num [Matrix.mul_apply, Fin.sum_univ_succ]
  · ext i
    fin_cases i <;> norm_num [Matrix.mulVec, dotProduct, Fin.sum_univ_succ]
  · ext i j
    fin_cases i <;> fin_cases j <;>
      norm_num [Matrix.mul_apply, Matrix.vecMul, dotProduct, Fin.sum_univ_succ, Matrix.one_apply,
        Matrix.transpose_apply]

end Verif
