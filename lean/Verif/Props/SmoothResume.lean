import Verif.Proofs.Runs
import Verif.Proofs.Rows
import Verif.Props.Structure

/-!
# C13: smoothing in parts
-/

open Matrix

namespace Verif

variable {n m : ℕ}

theorem TV.drop_get {α : Type} [Inhabited α] (p : TV α) (k t : ℕ) :
    (p.drop k).get t = p.get (k + t) := by
  cases p with
  | const a => rfl
  | seq l => simp [TV.drop, TV.get, List.getD_eq_getElem?_getD, List.getElem?_drop]

/-- The filter of the resumed model. -/
theorem resume_kf (p : Params n m) (z : ℕ → Obs m) (k t : ℕ) :
    (p.resume k (p.fn.kf z k).predMean (p.fn.kf z k).predCov).fn.kf (fun i => z (k + i)) t
      = p.fn.kf z (k + t) := by
  induction t with
  | zero =>
    rw [Nat.add_zero, p.fn.kf_correct z k]
    simp only [PFun.kf, PFun.correct, Params.fn, Params.resume, TV.drop_get, Nat.add_zero]
  | succ t ih =>
    rw [PFun.kf, ih, ← Nat.add_assoc]
    simp only [PFun.kf, PFun.next, PFun.correct, Params.fn, Params.resume, TV.drop_get, Nat.add_assoc]

/-- The smoother of the resumed model. -/
theorem resume_ks (p : Params n m) (z : ℕ → Obs m) (k T : ℕ) (j : ℕ) : ∀ t, t + j = T →
    (p.resume k (p.fn.kf z k).predMean (p.fn.kf z k).predCov).fn.ks (fun i => z (k + i)) T t
      = p.fn.ks z (k + T) (k + t) := by
  induction j with
  | zero =>
    rintro t rfl
    rw [Nat.add_zero, PFun.ks_last, PFun.ks_last, resume_kf]
  | succ j ih =>
    intro t ht
    have e := ih (t + 1) (by omega)
    rw [PFun.ks_lt' _ _ (show t < T by omega), PFun.ks_lt' _ _ (show k + t < k + T by omega), e,
      resume_kf]
    simp only [Params.fn, Params.resume, TV.drop_get, Nat.add_assoc]

theorem Params.Covers.resume {p : Params n m} {k T : ℕ} (h : p.Covers (k + T)) (mu : Vec n)
    (S : Mat n n) : (p.resume k mu S).Covers T := by
  have key : ∀ {α : Type} {q : TV α} {a : ℕ}, q.Covers (k + a) → (q.drop k).Covers a := by
    intro α q a hq
    cases q with
    | const _ => trivial
    | seq l =>
      simp only [TV.Covers, TV.drop, List.length_drop] at hq ⊢
      omega
  rcases Nat.eq_zero_or_pos T with rfl | hT
  · exact ⟨TV.covers_zero _, TV.covers_zero _, TV.covers_zero _, TV.covers_zero _, TV.covers_zero _,
      TV.covers_zero _⟩
  · exact ⟨key (h.A.mono (by omega)), key (h.b.mono (by omega)), key (h.Q.mono (by omega)),
      key h.C, key h.d, key h.R⟩

/-- **C13, smooth.** The later rows of `smooth` on `xs ++ ys` are those of `smooth` on `ys` alone, for
the model that starts from the prediction made from the last filtered moments of `xs`. -/
theorem C13_smooth_resume (p : Params n m) (xs ys : List (Obs m)) (hy : ys ≠ [])
    (out : List (Vec n × Mat n n)) (hx : kfFilter p xs = .ok out)
    (mean : Vec n) (cov : Mat n n) (hlast : out.getLast? = some (mean, cov))
    (A Q : Mat n n) (b : Vec n) (hA : lastDims p.A (xs.length - 1) = .ok A)
    (hQ : lastDims p.Q (xs.length - 1) = .ok Q) (hb : lastDims p.b (xs.length - 1) = .ok b)
    (s : List (Vec n × Mat n n)) (hs : kfSmooth p (xs ++ ys) = .ok s) :
    kfSmooth (p.resume xs.length (A *ᵥ mean + b) (A * cov * Aᵀ + Q)) ys = .ok (s.drop xs.length) := by
  obtain ⟨-, hc, rfl⟩ := kfSmooth_ok hs
  have hf := kfFilter_ok hx
  subst hf
  obtain ⟨k, hk⟩ : ∃ k, xs.length = k + 1 := by
    cases xs with
    | nil => simp at hlast
    | cons x xs => exact ⟨_, rfl⟩
  obtain ⟨T, hT⟩ : ∃ T, ys.length = T + 1 :=
    ⟨ys.length - 1, by have := List.length_pos_iff.mpr hy; omega⟩
  rw [hk, List.range_succ, List.map_append, List.map_singleton, List.getLast?_concat,
    Option.some.injEq, Prod.mk.injEq] at hlast
  obtain ⟨rfl, rfl⟩ := hlast
  rw [hk, Nat.add_sub_cancel] at hA hQ hb
  have eA : A = p.fn.A k := (lastDims_ok_get hA).1
  have eQ : Q = p.fn.Q k := (lastDims_ok_get hQ).1
  have eb : b = p.fn.b k := (lastDims_ok_get hb).1
  have hz : ∀ i ≤ k, (obsFn xs i).Sim (obsFn (xs ++ ys) i) := fun i hi => by
    rw [obsFn_eq (by omega), obsFn_eq (by rw [List.length_append]; omega),
      List.getElem_append_left (by omega)]
    exact ⟨Iff.rfl, fun _ => rfl⟩
  have hlen : (xs ++ ys).length = k + 1 + (T + 1) := by rw [List.length_append, hk, hT]
  have e1 : A *ᵥ (p.fn.kf (obsFn xs) k).filtMean + b
      = (p.fn.kf (obsFn (xs ++ ys)) (k + 1)).predMean := by
    rw [(p.fn.kf_pred_succ _ k).1, p.fn.kf_congr hz, eA, eb]
  have e2 : A * (p.fn.kf (obsFn xs) k).filtCov * Aᵀ + Q
      = (p.fn.kf (obsFn (xs ++ ys)) (k + 1)).predCov := by
    rw [(p.fn.kf_pred_succ _ k).2, p.fn.kf_congr hz, eA, eQ]
  have hzy : obsFn ys = fun i => obsFn (xs ++ ys) (k + 1 + i) := by
    funext i
    rw [← hk, obsFn, obsFn, List.getD_eq_getElem?_getD, List.getD_eq_getElem?_getD,
      List.getElem?_append_right (by omega), Nat.add_sub_cancel_left]
  rw [e1, e2, hk, kfSmooth_eq hy (by
    rw [hT]; exact Params.Covers.resume (by rw [← hlen]; exact hc) _ _), hT, Nat.add_sub_cancel, hzy]
  congr 1
  refine List.ext_getElem (by simp [hk, hT]) fun t h1 h2 => ?_
  simp only [List.length_map, List.length_range] at h1
  simp only [List.getElem_drop, List.getElem_map, List.getElem_range]
  rw [resume_ks p (obsFn (xs ++ ys)) (k + 1) T (T - t) t (by omega), hlen,
    show k + 1 + (T + 1) - 1 = k + 1 + T by omega]

/-- **C13, smooth, the earlier rows.** What comes after `xs` reaches the smoothed rows of `xs` only
through the first later row of `smooth`: if two continuations, of any lengths, give the same smoothed
mean and covariance there, then they give the same for all rows of `xs`. -/
theorem C13_smooth_interface (p : Params n m) (xs ys ys' : List (Obs m))
    (s s' : List (Vec n × Mat n n)) (hs : kfSmooth p (xs ++ ys) = .ok s)
    (hs' : kfSmooth p (xs ++ ys') = .ok s') (hy : ys ≠ []) (hy' : ys' ≠ [])
    (h : s[xs.length]? = s'[xs.length]?) : s.take xs.length = s'.take xs.length := by
  obtain ⟨-, hc, rfl⟩ := kfSmooth_ok hs
  obtain ⟨-, hc', rfl⟩ := kfSmooth_ok hs'
  obtain ⟨T, hT⟩ : ∃ T, ys.length = T + 1 :=
    ⟨ys.length - 1, by have := List.length_pos_iff.mpr hy; omega⟩
  obtain ⟨T', hT'⟩ : ∃ T', ys'.length = T' + 1 :=
    ⟨ys'.length - 1, by have := List.length_pos_iff.mpr hy'; omega⟩
  have l1 : (xs ++ ys).length = xs.length + T + 1 := by rw [List.length_append, hT]; omega
  have l2 : (xs ++ ys').length = xs.length + T' + 1 := by rw [List.length_append, hT']; omega
  simp only [l1, l2, Nat.add_sub_cancel] at h ⊢
  rw [List.getElem?_map, List.getElem?_map, List.getElem?_range (by omega),
    List.getElem?_range (by omega), Option.map_some, Option.map_some, Option.some.injEq,
    Prod.mk.injEq] at h
  have hz : ∀ t < xs.length, p.fn.kf (obsFn (xs ++ ys)) t = p.fn.kf (obsFn (xs ++ ys')) t :=
    fun t ht => p.fn.kf_congr fun i hi => by
      rw [obsFn_eq (by rw [List.length_append]; omega), obsFn_eq (by rw [List.length_append]; omega),
        List.getElem_append_left (by omega), List.getElem_append_left (by omega)]
      exact ⟨Iff.rfl, fun _ => rfl⟩
  have key : ∀ j t, t + j = xs.length →
      (p.fn.ks (obsFn (xs ++ ys)) (xs.length + T) t).mean
        = (p.fn.ks (obsFn (xs ++ ys')) (xs.length + T') t).mean ∧
      (p.fn.ks (obsFn (xs ++ ys)) (xs.length + T) t).cov
        = (p.fn.ks (obsFn (xs ++ ys')) (xs.length + T') t).cov := by
    intro j
    induction j with
    | zero => rintro t rfl; exact h
    | succ j ih =>
      intro t ht
      obtain ⟨a, b⟩ := ih (t + 1) (by omega)
      rw [PFun.ks_lt' _ _ (show t < xs.length + T by omega),
        PFun.ks_lt' _ _ (show t < xs.length + T' by omega), hz t (by omega)]
      simp only [a, b, and_self]
  refine List.ext_getElem (by simp; omega) fun t h1 h2 => ?_
  simp only [List.length_take, List.length_map, List.length_range] at h1
  simp only [List.getElem_take, List.getElem_map, List.getElem_range]
  obtain ⟨a, b⟩ := key (xs.length - t) t (by omega)
  rw [a, b]

/-- The hypotheses are met by `exParams`, two observations and a third. -/
example : ∃ out mean cov s, kfFilter exParams [⟨![1], fun _ => false⟩, ⟨![2], fun _ => true⟩] = .ok out ∧
    out.getLast? = some (mean, cov) ∧
    kfSmooth exParams ([⟨![1], fun _ => false⟩, ⟨![2], fun _ => true⟩]
      ++ [⟨![4], fun _ => false⟩]) = .ok s :=
  ⟨_, _, _, _, kfFilter_eq ((definedFor_iff_covers.mp exParams_definedFor).mono (by simp)), rfl,
    kfSmooth_eq (by simp) (definedFor_iff_covers.mp exParams_definedFor)⟩

/-- Two continuations of different lengths that meet the hypothesis of `C13_smooth_interface`: one
more row, and the same row followed by a masked one. -/
example (p : Params n m) (x y o : Obs m) (ho : o.missing) (hd : p.DefinedFor 3) :
    ∃ s s', kfSmooth p ([x] ++ [y]) = .ok s ∧ kfSmooth p ([x] ++ [y, o]) = .ok s' ∧
      s[1]? = s'[1]? := by
  have hc := definedFor_iff_covers.mp hd
  refine ⟨_, _, kfSmooth_eq (by simp) (hc.mono (by simp)), kfSmooth_eq (by simp) hc, ?_⟩
  have h1 : p.fn.kf (obsFn ([x] ++ [y])) 1 = p.fn.kf (obsFn ([x] ++ [y, o])) 1 :=
    p.fn.kf_congr fun i hi => by
      match i, hi with
      | 0, _ => exact ⟨Iff.rfl, fun _ => rfl⟩
      | 1, _ => exact ⟨Iff.rfl, fun _ => rfl⟩
  obtain ⟨-, a, b⟩ := p.fn.kf_missing (obsFn ([x] ++ [y, o])) (t := 2) ho
  have e := p.fn.ks_lt' (obsFn ([x] ++ [y, o])) (show 1 < 2 by omega)
  rw [PFun.ks_last, a, b, (p.fn.kf_pred_succ _ 1).1, (p.fn.kf_pred_succ _ 1).2] at e
  simp only [sub_self, mulVec_zero, add_zero, Matrix.mul_zero, Matrix.zero_mul] at e
  show some ((p.fn.ks (obsFn ([x] ++ [y])) 1 1).mean, (p.fn.ks (obsFn ([x] ++ [y])) 1 1).cov)
    = some ((p.fn.ks (obsFn ([x] ++ [y, o])) 2 1).mean, (p.fn.ks (obsFn ([x] ++ [y, o])) 2 1).cov)
  rw [e, PFun.ks_last, h1]

end Verif
