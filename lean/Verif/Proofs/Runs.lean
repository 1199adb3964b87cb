import Verif.Proofs.EmPure
import Verif.Proofs.Process

/-!
# Lemmas on runs: concatenation, agreement of parameters, indistinguishable data
-/

open Matrix

namespace Verif

variable {n m : ℕ} {α : Type}

theorem lastDims_drop (p : TV α) (k t : ℕ) : lastDims (p.drop k) t = lastDims p (k + t) := by
  cases p with
  | const a => rfl
  | seq l => simp [TV.drop, lastDims, List.getElem?_drop]

theorem filterStep_resume (p : Params n m) (k t : ℕ) (mu : Vec n) (S : Mat n n) (s : Step n m)
    (o : Obs m) :
    filterStep p (k + (t + 1)) (some s) o = filterStep (p.resume k mu S) (t + 1) (some s) o := by
  simp only [filterStep, Params.resume, lastDims_drop, Nat.add_sub_cancel]
  rw [show k + (t + 1) - 1 = k + t by omega]

theorem filterLoop_resume (p : Params n m) (k t : ℕ) (mu : Vec n) (S : Mat n n) (s : Step n m)
    (os : List (Obs m)) :
    filterLoop p (k + (t + 1)) (some s) os
      = filterLoop (p.resume k mu S) (t + 1) (some s) os := by
  induction os generalizing t s with
  | nil => rfl
  | cons o os ih =>
    rw [filterLoop, filterLoop, filterStep_resume p k t mu S]
    congr 1
    funext s'
    rw [show k + (t + 1) + 1 = k + (t + 1 + 1) by omega, ih]

theorem filterStep_resume_zero (p : Params n m) (k : ℕ) (s : Step n m) (o : Obs m)
    {A Q : Mat n n} {b : Vec n} (hA : lastDims p.A (k - 1) = .ok A)
    (hQ : lastDims p.Q (k - 1) = .ok Q) (hb : lastDims p.b (k - 1) = .ok b) :
    filterStep p k (some s) o = filterStep
      (p.resume k (A *ᵥ s.filtMean + b) (A * s.filtCov * Aᵀ + Q)) 0 none o := by
  simp only [filterStep, Params.resume, lastDims_drop, hA, hQ, hb, filterPredict, bind,
    Except.bind, pure, Except.pure, Nat.add_zero, Matrix.mul_assoc]

/-- Continue from a row as a new filter. -/
theorem filterLoop_restart (p : Params n m) (k : ℕ) (s : Step n m) (os : List (Obs m))
    {A Q : Mat n n} {b : Vec n} (hA : lastDims p.A (k - 1) = .ok A)
    (hQ : lastDims p.Q (k - 1) = .ok Q) (hb : lastDims p.b (k - 1) = .ok b) :
    filterLoop p k (some s) os = filterFull
      (p.resume k (A *ᵥ s.filtMean + b) (A * s.filtCov * Aᵀ + Q)) os := by
  cases os with
  | nil => rfl
  | cons o os =>
    rw [filterFull, filterLoop, filterLoop, filterStep_resume_zero p k s o hA hQ hb]
    congr 1
    funext s'
    have := filterLoop_resume p k 0 (A *ᵥ s.filtMean + b) (A * s.filtCov * Aᵀ + Q) s' os
    rw [← this]

theorem filterLoop_append (p : Params n m) (t : ℕ) (prev : Option (Step n m))
    (xs ys : List (Obs m)) (l : List (Step n m)) (h : filterLoop p t prev xs = .ok l) :
    filterLoop p t prev (xs ++ ys)
      = (filterLoop p (t + xs.length) (l.getLast?.or prev) ys).map (l ++ ·) := by
  induction xs generalizing t prev l with
  | nil =>
    cases h
    simp only [List.nil_append, List.length_nil, Nat.add_zero, List.getLast?_nil, Option.none_or]
    cases filterLoop p t prev ys <;> rfl
  | cons x xs ih =>
    rw [filterLoop] at h
    rw [List.cons_append, filterLoop]
    cases hs : filterStep p t prev x with
    | error e => rw [hs] at h; cases h
    | ok s =>
      rw [hs] at h
      simp only [bind, Except.bind] at h ⊢
      cases hl : filterLoop p (t + 1) (some s) xs with
      | error e => rw [hl] at h; cases h
      | ok l' =>
        rw [hl] at h
        simp only [pure, Except.pure, Except.ok.injEq] at h
        subst h
        rw [ih (t + 1) (some s) l' hl]
        have e1 : (s :: l').getLast?.or prev = l'.getLast?.or (some s) := by
          cases l' with
          | nil => rfl
          | cons a l' => simp [List.getLast?_cons_cons, List.getLast?_eq_some_getLast]
        rw [e1, show t + (x :: xs).length = t + 1 + xs.length by simp; omega]
        cases filterLoop p (t + 1 + xs.length) (l'.getLast?.or (some s)) ys <;> rfl

/-- Agreement of two parameter sets on the times a run needs. -/
structure Params.Agree (p p' : Params n m) (T : ℕ) : Prop where
  A : ∀ t, t + 1 < T → lastDims p.A t = lastDims p'.A t
  b : ∀ t, t + 1 < T → lastDims p.b t = lastDims p'.b t
  Q : ∀ t, t + 1 < T → lastDims p.Q t = lastDims p'.Q t
  C : ∀ t, t < T → lastDims p.C t = lastDims p'.C t
  d : ∀ t, t < T → lastDims p.d t = lastDims p'.d t
  R : ∀ t, t < T → lastDims p.R t = lastDims p'.R t
  mu0 : p.mu0 = p'.mu0
  S0 : p.S0 = p'.S0

theorem filterStep_agree {p p' : Params n m} {T : ℕ} (h : p.Agree p' T) {t : ℕ} (ht : t < T)
    (prev : Option (Step n m)) (hprev : prev.isSome → 0 < t) (o : Obs m) :
    filterStep p t prev o = filterStep p' t prev o := by
  cases prev with
  | none =>
    simp only [filterStep, h.C t ht, h.d t ht, h.R t ht, h.mu0, h.S0]
  | some s =>
    have := hprev rfl
    simp only [filterStep, h.C t ht, h.d t ht, h.R t ht, h.A (t - 1) (by omega),
      h.b (t - 1) (by omega), h.Q (t - 1) (by omega)]

theorem filterLoop_agree {p p' : Params n m} {T : ℕ} (h : p.Agree p' T) (os : List (Obs m))
    {t : ℕ} (ht : t + os.length ≤ T) (prev : Option (Step n m)) (hprev : prev.isSome → 0 < t) :
    filterLoop p t prev os = filterLoop p' t prev os := by
  induction os generalizing t prev with
  | nil => rfl
  | cons o os ih =>
    rw [List.length_cons] at ht
    rw [filterLoop, filterLoop, filterStep_agree h (by omega) prev hprev]
    congr 1
    funext s
    rw [ih (t := t + 1) (by omega) (some s) (fun _ => Nat.succ_pos t)]

theorem filterFull_agree {p p' : Params n m} {os : List (Obs m)} (h : p.Agree p' os.length) :
    filterFull p os = filterFull p' os :=
  filterLoop_agree h os (by simp) none (fun h => by cases h)

theorem kfFilter_agree {p p' : Params n m} {os : List (Obs m)} (h : p.Agree p' os.length) :
    kfFilter p os = kfFilter p' os := by
  rw [kfFilter, kfFilter, filterFull_agree h]

theorem filterLoop_length {p : Params n m} {os : List (Obs m)} {t : ℕ}
    {prev : Option (Step n m)} {l : List (Step n m)} (h : filterLoop p t prev os = .ok l) :
    l.length = os.length := by
  induction os generalizing t prev l with
  | nil => cases h; rfl
  | cons o os ih =>
    rw [filterLoop] at h
    cases hs : filterStep p t prev o with
    | error e => rw [hs] at h; cases h
    | ok s =>
      rw [hs] at h
      simp only [bind, Except.bind] at h
      cases hl : filterLoop p (t + 1) (some s) os with
      | error e => rw [hl] at h; cases h
      | ok l' =>
        rw [hl] at h
        simp only [pure, Except.pure, Except.ok.injEq] at h
        subst h
        simp [ih hl]

theorem smoothLoop_agree {A A' : TV (Mat n n)} (rest : List (Step n m)) (t : ℕ) (s : Step n m)
    (h : ∀ i, i < t + rest.length → lastDims A i = lastDims A' i) :
    smoothLoop A t s rest = smoothLoop A' t s rest := by
  induction rest generalizing t s with
  | nil => rfl
  | cons s' rest ih =>
    rw [List.length_cons] at h
    rw [smoothLoop, smoothLoop, ih (t + 1) s' fun i hi => h i (by omega), h t (by omega)]

theorem kfSmooth_agree {p p' : Params n m} {os : List (Obs m)} (h : p.Agree p' os.length) :
    kfSmooth p os = kfSmooth p' os := by
  rw [kfSmooth, kfSmooth, filterFull_agree h]
  cases hf : filterFull p' os with
  | error e => rfl
  | ok l =>
    simp only [bind, Except.bind]
    have hl := filterLoop_length hf
    cases l with
    | nil => rfl
    | cons s l =>
      rw [List.length_cons] at hl
      simp only [smoothFull]
      rw [smoothLoop_agree l 0 s fun i hi => h.A i (by omega)]

/-! ### Indistinguishable data -/

theorem filterStep_sim (p : Params n m) (t : ℕ) (prev : Option (Step n m)) {o o' : Obs m}
    (h : o.Sim o') : filterStep p t prev o = filterStep p t prev o' := by
  simp only [filterStep, filterCorrect_sim h]

theorem filterLoop_sim (p : Params n m) {os os' : List (Obs m)} (h : SameData os os') (t : ℕ)
    (prev : Option (Step n m)) : filterLoop p t prev os = filterLoop p t prev os' := by
  induction h generalizing t prev with
  | nil => rfl
  | cons h1 _ ih =>
    rw [filterLoop, filterLoop, filterStep_sim p t prev h1]
    congr 1
    funext s
    rw [ih]

theorem filterFull_sim (p : Params n m) {os os' : List (Obs m)} (h : SameData os os') :
    filterFull p os = filterFull p os' := filterLoop_sim p h 0 none

theorem loglikLoop_sim (p : Params n m) {os os' : List (Obs m)} (h : SameData os os') (t : ℕ)
    (ss : List (Step n m)) : loglikLoop p t ss os = loglikLoop p t ss os' := by
  induction h generalizing t ss with
  | nil => rfl
  | @cons o o' os os' h1 _ ih =>
    cases ss with
    | nil => rfl
    | cons s ss =>
      rw [loglikLoop, loglikLoop, ih (t + 1) ss]
      congr 1
      by_cases hm : o.missing
      · have hm' : o'.missing := h1.1.mp hm
        simp [loglikStep, hm, hm']
      · have hm' : ¬ o'.missing := mt h1.1.mpr hm
        simp [loglikStep, hm, hm', h1.2 hm]

theorem emObsMatLoop_sim (d : TV (Vec m)) {os os' : List (Obs m)} (h : SameData os os') (t : ℕ)
    (ss : List (EmStats n)) (r1 : Mat m n) (r2 : Mat n n) :
    emObsMatLoop d t ss os r1 r2 = emObsMatLoop d t ss os' r1 r2 := by
  induction h generalizing t ss r1 r2 with
  | nil => rfl
  | @cons o o' os os' h1 _ ih =>
    cases ss with
    | nil => rfl
    | cons s ss =>
      rw [emObsMatLoop, emObsMatLoop]
      by_cases hm : o.missing
      · have hm' : o'.missing := h1.1.mp hm
        simp only [hm, hm', not_true_eq_false, if_false, ih]
      · have hm' : ¬ o'.missing := mt h1.1.mpr hm
        simp only [hm, hm', not_false_eq_true, if_true, ih, h1.2 hm]

theorem emObsCovLoop_sim (C : TV (Mat m n)) (d : TV (Vec m)) {os os' : List (Obs m)}
    (h : SameData os os') (t : ℕ) (ss : List (EmStats n)) (r : Mat m m) (k : ℕ) :
    emObsCovLoop C d t ss os r k = emObsCovLoop C d t ss os' r k := by
  induction h generalizing t ss r k with
  | nil => rfl
  | @cons o o' os os' h1 _ ih =>
    cases ss with
    | nil => rfl
    | cons s ss =>
      rw [emObsCovLoop, emObsCovLoop]
      by_cases hm : o.missing
      · have hm' : o'.missing := h1.1.mp hm
        simp only [hm, hm', not_true_eq_false, if_false, ih]
      · have hm' : ¬ o'.missing := mt h1.1.mpr hm
        simp only [hm, hm', not_false_eq_true, if_true, ih, h1.2 hm]

theorem emObsOffLoop_sim (C : TV (Mat m n)) {os os' : List (Obs m)}
    (h : SameData os os') (t : ℕ) (ss : List (EmStats n)) (r : Vec m) (k : ℕ) :
    emObsOffLoop C t ss os r k = emObsOffLoop C t ss os' r k := by
  induction h generalizing t ss r k with
  | nil => rfl
  | @cons o o' os os' h1 _ ih =>
    cases ss with
    | nil => rfl
    | cons s ss =>
      rw [emObsOffLoop, emObsOffLoop]
      by_cases hm : o.missing
      · have hm' : o'.missing := h1.1.mp hm
        simp only [hm, hm', not_true_eq_false, if_false, ih]
      · have hm' : ¬ o'.missing := mt h1.1.mpr hm
        simp only [hm, hm', not_false_eq_true, if_true, ih, h1.2 hm]

theorem emStep_sim (g old : Params n m) (vars : EmVar → Bool) (ss : List (EmStats n))
    {os os' : List (Obs m)} (h : SameData os os') :
    emStep g vars old ss os = emStep g vars old ss os' := by
  simp only [emStep, emObsMat, emObsCov, emObsOff, emObsMatLoop_sim _ h, emObsCovLoop_sim _ _ h,
    emObsOffLoop_sim _ h]

theorem emLoop_sim (g : Params n m) (vars : EmVar → Bool) {os os' : List (Obs m)}
    (h : SameData os os') (k : ℕ) (p : Params n m) :
    emLoop g vars os k p = emLoop g vars os' k p := by
  induction k generalizing p with
  | zero => rfl
  | succ k ih =>
    rw [emLoop, emLoop]
    simp only [emStats, filterFull_sim p h, emStep_sim _ _ _ _ h, ih]

end Verif
