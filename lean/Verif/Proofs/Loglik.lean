import Verif.Proofs.Runs

/-!
# Lemmas on the log-likelihood loop
-/

open Matrix

namespace Verif

variable {n m : ℕ}

theorem TV.drop_R_match (R : TV (Mat m m)) (k : ℕ) :
    (match R.drop k with
      | .const R => (pure R : Res (Mat m m))
      | .seq _ => .error .valueError)
    = match R with
      | .const R => pure R
      | .seq _ => .error .valueError := by
  cases R <;> rfl

theorem loglikStep_resume (p : Params n m) (k t : ℕ) (mu : Vec n) (S : Mat n n) (s : Step n m)
    (o : Obs m) : loglikStep p (k + t) s o = loglikStep (p.resume k mu S) t s o := by
  simp only [loglikStep, Params.resume, lastDims_drop]
  rcases p.R with R | l <;> rfl

theorem loglikLoop_resume (p : Params n m) (k t : ℕ) (mu : Vec n) (S : Mat n n)
    (ss : List (Step n m)) (os : List (Obs m)) :
    loglikLoop p (k + t) ss os = loglikLoop (p.resume k mu S) t ss os := by
  induction os generalizing t ss with
  | nil => cases ss <;> rfl
  | cons o os ih =>
    cases ss with
    | nil => rfl
    | cons s ss =>
      rw [loglikLoop, loglikLoop, loglikStep_resume p k t mu S, Nat.add_assoc, ih]

theorem loglikLoop_append (p : Params n m) (t : ℕ) (ss ss' : List (Step n m))
    (xs ys : List (Obs m)) (hl : ss.length = xs.length) (l : List ℝ)
    (h : loglikLoop p t ss xs = .ok l) :
    loglikLoop p t (ss ++ ss') (xs ++ ys)
      = (loglikLoop p (t + xs.length) ss' ys).map (l ++ ·) := by
  induction xs generalizing t ss l with
  | nil =>
    rw [List.length_nil, List.length_eq_zero_iff] at hl
    subst hl
    cases h
    simp only [List.nil_append, List.length_nil, Nat.add_zero]
    cases loglikLoop p t ss' ys <;> rfl
  | cons x xs ih =>
    cases ss with
    | nil => simp at hl
    | cons s ss =>
      rw [loglikLoop] at h
      rw [List.cons_append, List.cons_append, loglikLoop]
      cases hs : loglikStep p t s x with
      | error e => rw [hs] at h; cases h
      | ok v =>
        rw [hs] at h
        simp only [bind, Except.bind] at h ⊢
        cases hl' : loglikLoop p (t + 1) ss xs with
        | error e => rw [hl'] at h; cases h
        | ok l' =>
          rw [hl'] at h
          simp only [pure, Except.pure, Except.ok.injEq] at h
          subst h
          rw [ih (t + 1) ss (by simpa using hl) l' hl',
            show t + (x :: xs).length = t + 1 + xs.length by simp; omega]
          cases loglikLoop p (t + 1 + xs.length) ss' ys <;> rfl

theorem loglikLoop_length {p : Params n m} {t : ℕ} {ss : List (Step n m)} {xs : List (Obs m)}
    (hl : ss.length = xs.length) {l : List ℝ} (h : loglikLoop p t ss xs = .ok l) :
    l.length = xs.length ∧
      ∀ i (hi : i < xs.length) (hi' : i < ss.length), ∃ v, l[i]? = some v ∧
        loglikStep p (t + i) ss[i] xs[i] = .ok v := by
  induction xs generalizing t ss l with
  | nil =>
    rw [List.length_nil, List.length_eq_zero_iff] at hl
    subst hl
    cases h
    exact ⟨rfl, fun i hi => by simp at hi⟩
  | cons x xs ih =>
    cases ss with
    | nil => simp at hl
    | cons s ss =>
      rw [loglikLoop] at h
      cases hs : loglikStep p t s x with
      | error e => rw [hs] at h; cases h
      | ok v =>
        rw [hs] at h
        simp only [bind, Except.bind] at h
        cases hl' : loglikLoop p (t + 1) ss xs with
        | error e => rw [hl'] at h; cases h
        | ok l' =>
          rw [hl'] at h
          simp only [pure, Except.pure, Except.ok.injEq] at h
          subst h
          obtain ⟨h1, h2⟩ := ih (by simpa using hl) hl'
          refine ⟨by simp [h1], fun i hi hi' => ?_⟩
          cases i with
          | zero => exact ⟨v, rfl, by simpa using hs⟩
          | succ i =>
            obtain ⟨w, hw, hw'⟩ := h2 i (by simpa using hi) (by simpa using hi')
            refine ⟨w, by simpa using hw, ?_⟩
            rw [show t + (i + 1) = t + 1 + i by omega]
            simpa using hw'

theorem loglikLoop_missing {p : Params n m} {xs : List (Obs m)} (h : ∀ o ∈ xs, o.missing) :
    ∀ (t : ℕ) (ss : List (Step n m)), ss.length = xs.length →
      loglikLoop p t ss xs = .ok (List.replicate xs.length 0) := by
  induction xs with
  | nil => intro t ss hl; cases ss <;> rfl
  | cons x xs ih =>
    intro t ss hl
    cases ss with
    | nil => simp at hl
    | cons s ss =>
      have hx := h x (by simp)
      rw [loglikLoop, ih (fun o ho => h o (by simp [ho])) (t + 1) ss (by simpa using hl)]
      simp only [loglikStep, hx, not_true_eq_false, if_false]
      rfl

theorem loglikLoop_agree {p p' : Params n m} (hR : p.R = p'.R) (os : List (Obs m)) (t : ℕ)
    (hC : ∀ i, i < t + os.length → lastDims p.C i = lastDims p'.C i)
    (hd : ∀ i, i < t + os.length → lastDims p.d i = lastDims p'.d i)
    (ss : List (Step n m)) : loglikLoop p t ss os = loglikLoop p' t ss os := by
  induction os generalizing t ss with
  | nil => cases ss <;> rfl
  | cons o os ih =>
    rw [List.length_cons] at hC hd
    cases ss with
    | nil => rfl
    | cons s ss =>
      rw [loglikLoop, loglikLoop, ih (t + 1) (fun i hi => hC i (by omega))
        (fun i hi => hd i (by omega)), loglikStep, loglikStep, hC t (by omega), hd t (by omega), hR]

theorem TV.Repeats.lastDims {α : Type} {p p' : TV α} {k t : ℕ} (h : p.Repeats p' k) (ht : t < k) :
    lastDims p t = lastDims p' t := by
  rcases h with rfl | ⟨a, k', hk, rfl, rfl⟩
  · rfl
  · simp [Verif.lastDims, show t < k' by omega]

theorem TV.SameUpTo.lastDims {α : Type} {p p' : TV α} {k t : ℕ} (h : p.SameUpTo p' k)
    (ht : t < k) : lastDims p t = lastDims p' t := by
  rcases h with rfl | ⟨l, l', rfl, rfl, h⟩
  · rfl
  · have : l[t]? = l'[t]? := by
      have := congrArg (fun x => x[t]?) h
      simpa [List.getElem?_take, ht] using this
    simp [Verif.lastDims, this]

theorem TV.covers_iff_atLeast {α : Type} {p : TV α} {k : ℕ} : p.Covers k ↔ p.AtLeast k := by
  cases p with
  | const a => simp [TV.Covers, TV.AtLeast]
  | seq l => simp [TV.Covers, TV.AtLeast]

theorem argOrDefault_supplied {α : Type} {arg : Option α} {q : TV α} {t : ℕ} {a : α}
    (h : Supplied arg q t) (ha : Verif.lastDims q t = .ok a) : argOrDefault arg q = .ok a := by
  rcases h with ⟨a', rfl, h⟩ | ⟨rfl, a', rfl⟩
  · rw [h] at ha; cases ha; rfl
  · cases ha; rfl

/-- A zero observation matrix makes the row irrelevant. -/
theorem filterStep_zero {p : Params n m} {t : ℕ} (hC : Verif.lastDims p.C t = .ok 0)
    (prev : Option (Step n m)) (o o' : Obs m) :
    filterStep p t prev o = filterStep p t prev o' := by
  have key : ∀ (R : Mat m m) (d : Vec m) (mean : Vec n) (cov : Mat n n) (o : Obs m),
      filterCorrect (0 : Mat m n) R d mean cov o = (0, mean, cov) := by
    intro R d mean cov o
    by_cases h : o.missing
    · exact filterCorrect_missing h
    · rw [filterCorrect_gain h]; simp [gain]
  simp only [filterStep, hC, bind, Except.bind, key]

theorem filterLoop_set {p : Params n m} (os : List (Obs m)) {t k : ℕ}
    (hC : Verif.lastDims p.C (t + k) = .ok 0) (prev : Option (Step n m)) (o' : Obs m) :
    filterLoop p t prev os = filterLoop p t prev (os.set k o') := by
  induction os generalizing t k prev with
  | nil => rfl
  | cons o os ih =>
    cases k with
    | zero =>
      rw [List.set_cons_zero, filterLoop, filterLoop, filterStep_zero (t := t) hC prev o o']
    | succ k =>
      rw [List.set_cons_succ, filterLoop, filterLoop]
      congr 1
      funext s
      rw [ih (t := t + 1) (k := k) (by rw [← hC]; congr 1; omega)]

/-- Law of a variable that is conditionally Gaussian given a constant. -/
theorem CondGauss.law_const {Ω H : Type*} [MeasurableSpace Ω] [MeasurableSpace H] {ι : Type*}
    [Fintype ι] [DecidableEq ι] {μ : MeasureTheory.Measure Ω}
    [MeasureTheory.IsProbabilityMeasure μ] {X : Ω → ι → ℝ} {Y : Ω → H}
    {f : H → ι → ℝ} {S : Matrix ι ι ℝ} (h : CondGauss μ X Y f S) {y₀ : H} (hY : ∀ ω, Y ω = y₀) :
    μ.map X = gauss (f y₀) S := by
  have hf := h.measf
  have hX := h.measX
  have hY' : Y = fun _ => y₀ := funext hY
  subst hY'
  have := congrArg (fun ν => ν.map Prod.snd) h.law
  simp only [MeasureTheory.Measure.map_const, MeasureTheory.measure_univ, one_smul] at this
  rw [MeasureTheory.Measure.map_map (by fun_prop) (by fun_prop),
    MeasureTheory.Measure.dirac_prod,
    MeasureTheory.Measure.map_map (by fun_prop) (by fun_prop),
    MeasureTheory.Measure.map_map (by fun_prop) (by fun_prop)] at this
  rw [gauss_eq_map h.psd (f y₀)]
  exact this

end Verif
