import Verif.Spec.Machine
import Verif.Proofs.Runs
import Verif.Proofs.UnscentedTransform

/-!
# Lemmas on `KalmanFilter` on the numbers of a machine
-/

namespace Verif.Machine

variable {M : Machine} {n m : ℕ}

/-! ### Concatenation -/

theorem step_resume (p : M.Par n m) (k t : ℕ) (mu : M.V n) (S : M.A n n) (s : M.St n m)
    (o : M.Row m) :
    M.step p (k + (t + 1)) (some s) o = M.step (p.resume k mu S) (t + 1) (some s) o := by
  simp only [step, Par.resume, lastDims_drop, Nat.add_sub_cancel]
  rw [show k + (t + 1) - 1 = k + t by omega]

theorem loop_resume (p : M.Par n m) (k t : ℕ) (mu : M.V n) (S : M.A n n) (s : M.St n m)
    (os : List (M.Row m)) :
    M.loop p (k + (t + 1)) (some s) os = M.loop (p.resume k mu S) (t + 1) (some s) os := by
  induction os generalizing t s with
  | nil => rfl
  | cons o os ih =>
    rw [loop, loop, step_resume p k t mu S]
    congr 1
    funext s'
    rw [show k + (t + 1) + 1 = k + (t + 1 + 1) by omega, ih]

theorem step_resume_zero (p : M.Par n m) (k : ℕ) (s : M.St n m) (o : M.Row m)
    {A Q : M.A n n} {b : M.V n} (hA : lastDims p.A (k - 1) = .ok A)
    (hQ : lastDims p.Q (k - 1) = .ok Q) (hb : lastDims p.b (k - 1) = .ok b) :
    M.step p k (some s) o = M.step
      (p.resume k (M.predict A Q b s.filtMean s.filtCov).1
        (M.predict A Q b s.filtMean s.filtCov).2) 0 none o := by
  simp only [step, Par.resume, lastDims_drop, hA, hQ, hb, bind,
    Except.bind, pure, Except.pure, Nat.add_zero]

theorem loop_restart (p : M.Par n m) (k : ℕ) (s : M.St n m) (os : List (M.Row m))
    {A Q : M.A n n} {b : M.V n} (hA : lastDims p.A (k - 1) = .ok A)
    (hQ : lastDims p.Q (k - 1) = .ok Q) (hb : lastDims p.b (k - 1) = .ok b) :
    M.loop p k (some s) os = M.full
      (p.resume k (M.predict A Q b s.filtMean s.filtCov).1
        (M.predict A Q b s.filtMean s.filtCov).2) os := by
  cases os with
  | nil => rfl
  | cons o os =>
    rw [full, loop, loop, step_resume_zero p k s o hA hQ hb]
    congr 1
    funext s'
    rw [← loop_resume p k 0]

theorem loop_append (p : M.Par n m) (t : ℕ) (prev : Option (M.St n m))
    (xs ys : List (M.Row m)) :
    M.loop p t prev (xs ++ ys) = (do
      let l ← M.loop p t prev xs
      let l' ← M.loop p (t + xs.length) (l.getLast?.or prev) ys
      pure (l ++ l')) := by
  induction xs generalizing t prev with
  | nil =>
    simp only [loop, List.nil_append, List.length_nil, Nat.add_zero, Pure.pure, Except.pure,
      Bind.bind, Except.bind, List.getLast?_nil, Option.none_or]
    cases M.loop p t prev ys <;> rfl
  | cons x xs ih =>
    simp only [List.cons_append, loop]
    cases hs : M.step p t prev x with
    | error e => rfl
    | ok s =>
      simp only [Bind.bind, Except.bind, ih (t + 1) (some s)]
      cases hl : M.loop p (t + 1) (some s) xs with
      | error e => rfl
      | ok l' =>
        simp only [Pure.pure, Except.pure]
        have e1 : (s :: l').getLast?.or prev = l'.getLast?.or (some s) := by
          cases l' with
          | nil => rfl
          | cons a l' => simp [List.getLast?_cons_cons, List.getLast?_eq_some_getLast]
        rw [e1, show t + (x :: xs).length = t + 1 + xs.length by simp; omega]
        cases M.loop p (t + 1 + xs.length) (l'.getLast?.or (some s)) ys <;> rfl

theorem loop_length {p : M.Par n m} {os : List (M.Row m)} {t : ℕ} {prev : Option (M.St n m)}
    {l : List (M.St n m)} (h : M.loop p t prev os = .ok l) : l.length = os.length := by
  induction os generalizing t prev l with
  | nil => cases h; rfl
  | cons o os ih =>
    rw [loop] at h
    obtain ⟨s, -, h⟩ := ok_bind_iff.mp h
    obtain ⟨l', hl, h⟩ := ok_bind_iff.mp h
    cases h
    simp [ih hl]

theorem filter_ok {p : M.Par n m} {os : List (M.Row m)} {out : List (M.V n × M.A n n)}
    (h : M.filter p os = .ok out) :
    ∃ l, M.full p os = .ok l ∧ out = l.map fun s => (s.filtMean, s.filtCov) := by
  rw [filter] at h
  obtain ⟨l, hl, h⟩ := ok_bind_iff.mp h
  cases h
  exact ⟨l, hl, rfl⟩

/-! ### Online -/

theorem argOrDefault_supplied {α : Type} {arg : Option α} {param : TV α} {t : ℕ}
    (h : Supplied arg param t) : ∃ a, argOrDefault arg param = .ok a ∧ lastDims param t = .ok a := by
  rcases h with ⟨a, rfl, h⟩ | ⟨rfl, a, rfl⟩
  · exact ⟨a, rfl, h⟩
  · exact ⟨a, rfl, rfl⟩

theorem update_eq {p : M.Par n m} {t : ℕ} {a : M.Args n m} (ha : a.For p t) (s : M.St n m)
    (o : M.Row m) :
    M.update p s.filtMean s.filtCov (some o) a
      = (M.step p (t + 1) (some s) o).map fun s' => (s'.filtMean, s'.filtCov) := by
  obtain ⟨A, hA, hA'⟩ := argOrDefault_supplied ha.A
  obtain ⟨b, hb, hb'⟩ := argOrDefault_supplied ha.b
  obtain ⟨Q, hQ, hQ'⟩ := argOrDefault_supplied ha.Q
  obtain ⟨C, hC, hC'⟩ := argOrDefault_supplied ha.C
  obtain ⟨d, hd, hd'⟩ := argOrDefault_supplied ha.d
  obtain ⟨R, hR, hR'⟩ := argOrDefault_supplied ha.R
  simp only [update, step, hA, hb, hQ, hC, hd, hR, hA', hb', hQ', hC', hd', hR',
    Nat.add_sub_cancel, Bind.bind, Except.bind, Pure.pure, Except.pure]
  cases M.correct C R d _ _ o <;> rfl

theorem calls_eq {p : M.Par n m} {a : ℕ → M.Args n m} (os : List (M.Row m)) (t : ℕ)
    (ha : ∀ i, i < t + os.length → (a i).For p i) (s : M.St n m) :
    calls p a t (s.filtMean, s.filtCov) os
      = (M.loop p (t + 1) (some s) os).map (List.map fun s' => (s'.filtMean, s'.filtCov)) := by
  induction os generalizing t s with
  | nil => rfl
  | cons o os ih =>
    rw [List.length_cons] at ha
    rw [calls, loop]
    simp only [update_eq (ha t (by omega))]
    cases M.step p (t + 1) (some s) o with
    | error e => rfl
    | ok s' =>
      simp only [Except.map, Bind.bind, Except.bind, ih (t + 1) (fun i hi => ha i (by omega)) s']
      cases M.loop p (t + 1 + 1) (some s') os <;> rfl

/-! ### Indistinguishable data -/

theorem correct_sim {o o' : M.Row m} (h : o.Sim o') (C : M.A m n) (R : M.A m m) (d : M.V m)
    (mean : M.V n) (cov : M.A n n) :
    M.correct C R d mean cov o = M.correct C R d mean cov o' := by
  by_cases hm : o.missing
  · have hm' : o'.missing := h.1.mp hm
    simp only [correct, hm, hm', not_true_eq_false, if_false]
  · have hm' : ¬ o'.missing := mt h.1.mpr hm
    simp only [correct, hm, hm', not_false_eq_true, if_true, h.2 hm]

theorem loop_sim (p : M.Par n m) {os os' : List (M.Row m)} (h : List.Forall₂ Row.Sim os os')
    (t : ℕ) (prev : Option (M.St n m)) : M.loop p t prev os = M.loop p t prev os' := by
  induction h generalizing t prev with
  | nil => rfl
  | cons h1 _ ih => simp only [loop, step, correct_sim h1, ih]

theorem full_sim (p : M.Par n m) {os os' : List (M.Row m)} (h : List.Forall₂ Row.Sim os os') :
    M.full p os = M.full p os' := loop_sim p h 0 none

theorem loglikLoop_sim (p : M.Par n m) {os os' : List (M.Row m)}
    (h : List.Forall₂ Row.Sim os os') (t : ℕ) (ss : List (M.St n m)) :
    M.loglikLoop p t ss os = M.loglikLoop p t ss os' := by
  induction h generalizing t ss with
  | nil => rfl
  | @cons o o' os os' h1 _ ih =>
    cases ss with
    | nil => rfl
    | cons s ss =>
      rw [loglikLoop, loglikLoop, ih (t + 1) ss]
      congr 1
      by_cases hm : o.missing
      · have hm' : o'.missing := h1.1.mp hm
        simp [loglikStep, hm, hm']
      · have hm' : ¬ o'.missing := mt h1.1.mpr hm
        simp [loglikStep, hm, hm', h1.2 hm]

theorem obsMatLoop_sim (d : TV (M.V m)) {os os' : List (M.Row m)}
    (h : List.Forall₂ Row.Sim os os') (t : ℕ) (ss : List (M.Stats n)) (r1 : M.A m n)
    (r2 : M.A n n) : M.obsMatLoop d t ss os r1 r2 = M.obsMatLoop d t ss os' r1 r2 := by
  induction h generalizing t ss r1 r2 with
  | nil => rfl
  | @cons o o' os os' h1 _ ih =>
    cases ss with
    | nil => rfl
    | cons s ss =>
      rw [obsMatLoop, obsMatLoop]
      by_cases hm : o.missing
      · have hm' : o'.missing := h1.1.mp hm
        simp only [hm, hm', not_true_eq_false, if_false, ih]
      · have hm' : ¬ o'.missing := mt h1.1.mpr hm
        simp only [hm, hm', not_false_eq_true, if_true, ih, h1.2 hm]

theorem obsCovLoop_sim (C : TV (M.A m n)) (d : TV (M.V m)) {os os' : List (M.Row m)}
    (h : List.Forall₂ Row.Sim os os') (t : ℕ) (ss : List (M.Stats n)) (r : M.A m m) (k : ℕ) :
    M.obsCovLoop C d t ss os r k = M.obsCovLoop C d t ss os' r k := by
  induction h generalizing t ss r k with
  | nil => rfl
  | @cons o o' os os' h1 _ ih =>
    cases ss with
    | nil => rfl
    | cons s ss =>
      rw [obsCovLoop, obsCovLoop]
      by_cases hm : o.missing
      · have hm' : o'.missing := h1.1.mp hm
        simp only [hm, hm', not_true_eq_false, if_false, ih]
      · have hm' : ¬ o'.missing := mt h1.1.mpr hm
        simp only [hm, hm', not_false_eq_true, if_true, ih, h1.2 hm]

theorem obsOffLoop_sim (C : TV (M.A m n)) {os os' : List (M.Row m)}
    (h : List.Forall₂ Row.Sim os os') (t : ℕ) (ss : List (M.Stats n)) (r : M.V m) (k : ℕ) :
    M.obsOffLoop C t ss os r k = M.obsOffLoop C t ss os' r k := by
  induction h generalizing t ss r k with
  | nil => rfl
  | @cons o o' os os' h1 _ ih =>
    cases ss with
    | nil => rfl
    | cons s ss =>
      rw [obsOffLoop, obsOffLoop]
      by_cases hm : o.missing
      · have hm' : o'.missing := h1.1.mp hm
        simp only [hm, hm', not_true_eq_false, if_false, ih]
      · have hm' : ¬ o'.missing := mt h1.1.mpr hm
        simp only [hm, hm', not_false_eq_true, if_true, ih, h1.2 hm]

theorem emLoop_sim (g : M.Par n m) (vars : EmVar → Bool) {os os' : List (M.Row m)}
    (h : List.Forall₂ Row.Sim os os') (k : ℕ) (p : M.Par n m) :
    M.emLoop g vars os k p = M.emLoop g vars os' k p := by
  induction k generalizing p with
  | zero => rfl
  | succ k ih =>
    simp only [emLoop, stats, full_sim p h, emStep, obsMat, obsCov, obsOff, obsMatLoop_sim _ h,
      obsCovLoop_sim _ _ h, obsOffLoop_sim _ h, ih]

/-! ### Covariances -/

/-- The parts of a row that are not means. -/
def St.covs (s : M.St n m) : M.A n n × M.A n m × M.A n n := (s.predCov, s.gain, s.filtCov)

theorem correct_covs {o o' : M.Row m} (h : o.missing ↔ o'.missing) (C : M.A m n) (R : M.A m m)
    (d d' : M.V m) (mean mean' : M.V n) (cov : M.A n n) :
    (M.correct C R d mean cov o).map (fun c => (c.1, c.2.2))
      = (M.correct C R d' mean' cov o').map (fun c => (c.1, c.2.2)) := by
  by_cases hm : o.missing
  · have hm' := h.mp hm
    simp only [correct, hm, hm', not_true_eq_false, if_false]
    rfl
  · have hm' := mt h.mpr hm
    simp only [correct, hm, hm', not_false_eq_true, if_true, Bind.bind, Except.bind]
    cases M.pinv m _ <;> rfl

theorem map_eq_map_iff {α β γ : Type} {f : α → γ} {g : β → γ} {x : Res α} {y : Res β} :
    x.map f = y.map g ↔ (∃ e, x = .error e ∧ y = .error e) ∨
      ∃ a b, x = .ok a ∧ y = .ok b ∧ f a = g b := by
  cases x <;> cases y <;> simp [Except.map, eq_comm]

theorem lastDims_same {α : Type} {p p' : TV α} (h : p.SameTimes p') (t : ℕ) :
    (∃ e, lastDims p t = .error e ∧ lastDims p' t = .error e) ∨
      ∃ a a', lastDims p t = .ok a ∧ lastDims p' t = .ok a' := by
  have herr : ∀ (q : TV α) e, lastDims q t = .error e → e = .indexError := by
    intro q e he
    cases q with
    | const a => cases he
    | seq l =>
      simp only [lastDims] at he
      split at he
      · cases he
      · cases he; rfl
  cases e1 : lastDims p t with
  | error e =>
    cases e2 : lastDims p' t with
    | error e' => exact .inl ⟨e, rfl, by rw [herr p e e1, herr p' e' e2]⟩
    | ok a' =>
      obtain ⟨a, ha⟩ := (h t).mpr ⟨a', e2⟩
      rw [ha] at e1; cases e1
  | ok a =>
    obtain ⟨a', ha'⟩ := (h t).mp ⟨a, e1⟩
    exact .inr ⟨a, a', rfl, ha'⟩

theorem step_covs {p p' : M.Par n m} (hpp : p.SameCovs p') (t : ℕ) {prev prev' : Option (M.St n m)}
    (hp : prev.map St.covs = prev'.map St.covs) {o o' : M.Row m} (h : o.missing ↔ o'.missing) :
    (M.step p t prev o).map St.covs = (M.step p' t prev' o').map St.covs := by
  have key : ∀ x x' : M.V n × M.A n n, x.2 = x'.2 →
      (do
        let C ← lastDims p.C t
        let R ← lastDims p.R t
        let d ← lastDims p.d t
        let c ← M.correct C R d x.1 x.2 o
        (pure ⟨x.1, x.2, c.1, c.2.1, c.2.2⟩ : Res (M.St n m))).map St.covs
      = (do
        let C ← lastDims p'.C t
        let R ← lastDims p'.R t
        let d ← lastDims p'.d t
        let c ← M.correct C R d x'.1 x'.2 o'
        (pure ⟨x'.1, x'.2, c.1, c.2.1, c.2.2⟩ : Res (M.St n m))).map St.covs := by
    rintro ⟨x, S⟩ ⟨x', S'⟩ (rfl : S = S')
    rw [hpp.C, hpp.R]
    cases lastDims p'.C t with
    | error e => rfl
    | ok C =>
    cases lastDims p'.R t with
    | error e => rfl
    | ok R =>
    rcases lastDims_same hpp.d t with ⟨e, e1, e2⟩ | ⟨d, d', e1, e2⟩
    · rw [e1, e2]; rfl
    rw [e1, e2]
    simp only [Bind.bind, Except.bind]
    rcases map_eq_map_iff.mp (correct_covs h C R d d' x x' S) with ⟨e, e1, e2⟩ | ⟨c, c', e1, e2, e3⟩
    · rw [e1, e2]
    · rw [e1, e2]
      simp only [Prod.mk.injEq] at e3
      simp [Pure.pure, Except.pure, Except.map, St.covs, e3.1, e3.2]
  cases prev with
  | none =>
    cases prev' with
    | none => exact key _ _ hpp.S0
    | some s => cases hp
  | some s =>
    cases prev' with
    | none => cases hp
    | some s' =>
      simp only [Option.map_some, Option.some.injEq, St.covs, Prod.mk.injEq] at hp
      simp only [step]
      rw [hpp.A, hpp.Q]
      cases lastDims p'.A (t - 1) with
      | error e => rfl
      | ok A =>
      cases lastDims p'.Q (t - 1) with
      | error e => rfl
      | ok Q =>
      rcases lastDims_same hpp.b (t - 1) with ⟨e, e1, e2⟩ | ⟨b, b', e1, e2⟩
      · rw [e1, e2]; rfl
      rw [e1, e2]
      exact key _ _ (by simp only [predict, hp.2.2])

theorem loop_covs {p p' : M.Par n m} (hpp : p.SameCovs p') {os os' : List (M.Row m)}
    (h : List.Forall₂ (fun o o' : M.Row m => (o.missing ↔ o'.missing)) os os') (t : ℕ)
    {prev prev' : Option (M.St n m)} (hp : prev.map St.covs = prev'.map St.covs) :
    (M.loop p t prev os).map (List.map St.covs) = (M.loop p' t prev' os').map (List.map St.covs) := by
  induction h generalizing t prev prev' with
  | nil => rfl
  | @cons o o' os os' h1 _ ih =>
    simp only [loop]
    rcases map_eq_map_iff.mp (step_covs hpp t hp h1) with ⟨e, e1, e2⟩ | ⟨s, s', e1, e2, e3⟩
    · rw [e1, e2]; rfl
    · rw [e1, e2]
      simp only [Bind.bind, Except.bind]
      have hp' : (some s).map St.covs = (some s').map St.covs := by simp [e3]
      rcases map_eq_map_iff.mp (ih (t + 1) hp') with ⟨e, e4, e5⟩ | ⟨l, l', e4, e5, e6⟩
      · rw [e4, e5]
      · rw [e4, e5]
        simp [Pure.pure, Except.pure, Except.map, e3, e6]

theorem smoothUpdate_covs (A : M.A n n) (x x' : M.V n) (S : M.A n n) (y y' : M.V n) (P : M.A n n)
    (z z' : M.V n) (N : M.A n n) :
    (M.smoothUpdate A x S y P z N).map (fun s => (s.cov, s.gain))
      = (M.smoothUpdate A x' S y' P z' N).map (fun s => (s.cov, s.gain)) := by
  simp only [smoothUpdate]
  cases M.pinv n P <;> rfl

/-- The parts of a row of `_smooth` that are not means. -/
def SSt.covs (s : M.SSt n) : M.A n n × M.A n n := (s.cov, s.gain)

theorem smoothLoop_covs (A : TV (M.A n n)) (rest rest' : List (M.St n m)) (t : ℕ) (s s' : M.St n m)
    (h : s.covs = s'.covs) (hr : rest.map St.covs = rest'.map St.covs) :
    (M.smoothLoop A t s rest).map (fun r => (r.1.covs, r.2.map SSt.covs))
      = (M.smoothLoop A t s' rest').map (fun r => (r.1.covs, r.2.map SSt.covs)) := by
  induction rest generalizing t s s' rest' with
  | nil =>
    cases rest' with
    | nil =>
      simp only [St.covs, Prod.mk.injEq] at h
      simp [smoothLoop, Pure.pure, Except.pure, Except.map, SSt.covs, h.2.2]
    | cons => cases hr
  | cons a rest ih =>
    cases rest' with
    | nil => cases hr
    | cons a' rest' =>
      simp only [List.map_cons, List.cons.injEq] at hr
      simp only [smoothLoop]
      rcases map_eq_map_iff.mp (ih rest' (t + 1) a a' hr.1 hr.2) with
        ⟨e, e1, e2⟩ | ⟨r, r', e1, e2, e3⟩
      · rw [e1, e2]; rfl
      · rw [e1, e2]
        simp only [Bind.bind, Except.bind]
        cases lastDims A t with
        | error e => rfl
        | ok At =>
          simp only [St.covs, SSt.covs, Prod.mk.injEq] at h hr e3
          have e := smoothUpdate_covs At s.filtMean s'.filtMean s'.filtCov a.predMean a'.predMean
            a'.predCov r.1.mean r'.1.mean r'.1.cov
          rw [h.2.2, hr.1.1, e3.1.1]
          rcases map_eq_map_iff.mp e with ⟨e, e4, e5⟩ | ⟨w, w', e4, e5, e6⟩
          · simp only [e4, e5]
          · simp only [e4, e5]
            simp only [Prod.mk.injEq] at e6
            simp [Pure.pure, Except.pure, Except.map, SSt.covs, e6.1, e6.2, e3.1.1, e3.1.2, e3.2]

/-! ### The last row -/

theorem smoothLoop_last (A : TV (M.A n n)) (rest : List (M.St n m)) (t : ℕ) (s : M.St n m)
    {r : M.SSt n × List (M.SSt n)} (h : M.smoothLoop A t s rest = .ok r) :
    r.2.length = rest.length ∧
      ((r.1 :: r.2).map fun x => (x.mean, x.cov)).getLast?
        = ((s :: rest).map fun x => (x.filtMean, x.filtCov)).getLast? := by
  induction rest generalizing t s r with
  | nil => cases h; exact ⟨rfl, rfl⟩
  | cons a rest ih =>
    simp only [smoothLoop] at h
    obtain ⟨q, hq, h⟩ := ok_bind_iff.mp h
    obtain ⟨At, -, h⟩ := ok_bind_iff.mp h
    obtain ⟨u, -, h⟩ := ok_bind_iff.mp h
    cases h
    obtain ⟨h1, h2⟩ := ih (t + 1) a hq
    refine ⟨by simp [h1], ?_⟩
    simp only [List.map_cons, List.getLast?_cons_cons] at h2 ⊢
    exact h2

/-! ### Agreement of parameters -/

/-- Agreement of two parameter sets on the times a run needs. -/
structure Par.Agree (p p' : M.Par n m) (T : ℕ) : Prop where
  A : ∀ t, t + 1 < T → lastDims p.A t = lastDims p'.A t
  b : ∀ t, t + 1 < T → lastDims p.b t = lastDims p'.b t
  Q : ∀ t, t + 1 < T → lastDims p.Q t = lastDims p'.Q t
  C : ∀ t, t < T → lastDims p.C t = lastDims p'.C t
  d : ∀ t, t < T → lastDims p.d t = lastDims p'.d t
  R : ∀ t, t < T → lastDims p.R t = lastDims p'.R t
  mu0 : p.mu0 = p'.mu0
  S0 : p.S0 = p'.S0

theorem step_agree {p p' : M.Par n m} {T : ℕ} (h : p.Agree p' T) {t : ℕ} (ht : t < T)
    (prev : Option (M.St n m)) (hprev : prev.isSome → 0 < t) (o : M.Row m) :
    M.step p t prev o = M.step p' t prev o := by
  cases prev with
  | none =>
    simp only [step, h.C t ht, h.d t ht, h.R t ht, h.mu0, h.S0]
  | some s =>
    have := hprev rfl
    simp only [step, h.C t ht, h.d t ht, h.R t ht, h.A (t - 1) (by omega),
      h.b (t - 1) (by omega), h.Q (t - 1) (by omega)]

theorem loop_agree {p p' : M.Par n m} {T : ℕ} (h : p.Agree p' T) (os : List (M.Row m))
    {t : ℕ} (ht : t + os.length ≤ T) (prev : Option (M.St n m)) (hprev : prev.isSome → 0 < t) :
    M.loop p t prev os = M.loop p' t prev os := by
  induction os generalizing t prev with
  | nil => rfl
  | cons o os ih =>
    rw [List.length_cons] at ht
    rw [loop, loop, step_agree h (by omega) prev hprev]
    congr 1
    funext s
    rw [ih (t := t + 1) (by omega) (some s) (fun _ => Nat.succ_pos t)]

theorem full_agree {p p' : M.Par n m} {os : List (M.Row m)} (h : p.Agree p' os.length) :
    M.full p os = M.full p' os :=
  loop_agree h os (by simp) none (fun h => by cases h)

theorem smoothLoop_agree {A A' : TV (M.A n n)} (rest : List (M.St n m)) (t : ℕ) (s : M.St n m)
    (h : ∀ i, i < t + rest.length → lastDims A i = lastDims A' i) :
    M.smoothLoop A t s rest = M.smoothLoop A' t s rest := by
  induction rest generalizing t s with
  | nil => rfl
  | cons s' rest ih =>
    rw [List.length_cons] at h
    rw [smoothLoop, smoothLoop, ih (t + 1) s' fun i hi => h i (by omega), h t (by omega)]

theorem smooth_agree {p p' : M.Par n m} {os : List (M.Row m)} (h : p.Agree p' os.length) :
    M.smooth p os = M.smooth p' os := by
  rw [smooth, smooth, full_agree h]
  cases hf : M.full p' os with
  | error e => rfl
  | ok l =>
    simp only [Bind.bind, Except.bind]
    have hl := loop_length hf
    cases l with
    | nil => rfl
    | cons s l =>
      rw [List.length_cons] at hl
      simp only [smoothFull]
      rw [smoothLoop_agree l 0 s fun i hi => h.A i (by omega)]

/-! ### em -/

theorem emPick_ok_false {α : Type} {est : Res α} {g v : α}
    (h : emPick false est g = .ok v) : v = g := by
  simp only [emPick, Bool.false_eq_true, if_false, Pure.pure, Except.pure, Except.ok.injEq] at h
  exact h.symm

theorem emStep_agreeOff {g old q : M.Par n m} {vars : EmVar → Bool} {ss : List (M.Stats n)}
    {os : List (M.Row m)} (h : M.emStep g vars old ss os = .ok q) : g.AgreeOff vars q := by
  rw [emStep] at h
  obtain ⟨C, hC, h⟩ := ok_bind_iff.mp h
  obtain ⟨R, hR, h⟩ := ok_bind_iff.mp h
  obtain ⟨A, hA, h⟩ := ok_bind_iff.mp h
  obtain ⟨Q, hQ, h⟩ := ok_bind_iff.mp h
  obtain ⟨mu, hmu, h⟩ := ok_bind_iff.mp h
  obtain ⟨S, hS, h⟩ := ok_bind_iff.mp h
  obtain ⟨b, hb, h⟩ := ok_bind_iff.mp h
  obtain ⟨d, hd, h⟩ := ok_bind_iff.mp h
  cases h
  constructor <;> intro e
  · rw [e] at hA; exact emPick_ok_false hA
  · rw [e] at hb; exact emPick_ok_false hb
  · rw [e] at hQ; exact emPick_ok_false hQ
  · rw [e] at hC; exact emPick_ok_false hC
  · rw [e] at hd; exact emPick_ok_false hd
  · rw [e] at hR; exact emPick_ok_false hR
  · rw [e] at hmu; exact emPick_ok_false hmu
  · rw [e] at hS; exact emPick_ok_false hS

theorem emPick_given {α : Type} {sel : Bool} {g g' : α} (h : sel = false → g' = g) (est : Res α) :
    emPick sel est g = emPick sel est g' := by
  cases sel
  · rw [h rfl]
  · rfl

theorem emStep_given {g g' : M.Par n m} {vars : EmVar → Bool} (h : g.AgreeOff vars g')
    (old : M.Par n m) (ss : List (M.Stats n)) (os : List (M.Row m)) :
    M.emStep g vars old ss os = M.emStep g' vars old ss os := by
  simp only [emStep, emPick_given h.A, emPick_given h.b, emPick_given h.Q, emPick_given h.C,
    emPick_given h.d, emPick_given h.R, emPick_given h.mu0, emPick_given h.S0]

theorem emLoop_given {g g' : M.Par n m} {vars : EmVar → Bool} (h : g.AgreeOff vars g')
    (os : List (M.Row m)) (k : ℕ) (p : M.Par n m) :
    M.emLoop g vars os k p = M.emLoop g' vars os k p := by
  induction k generalizing p with
  | zero => rfl
  | succ k ih => simp only [emLoop, emStep_given h, ih]

theorem emLoop_agreeOff {g p q : M.Par n m} {vars : EmVar → Bool} {os : List (M.Row m)} {k : ℕ}
    (hp : g.AgreeOff vars p) (h : M.emLoop g vars os k p = .ok q) : g.AgreeOff vars q := by
  induction k generalizing p with
  | zero => cases h; exact hp
  | succ k ih =>
    rw [emLoop] at h
    obtain ⟨ss, -, h⟩ := ok_bind_iff.mp h
    obtain ⟨p', hp', h⟩ := ok_bind_iff.mp h
    exact ih (emStep_agreeOff hp') h

theorem emLoop_add (g : M.Par n m) (vars : EmVar → Bool) (os : List (M.Row m)) (a b : ℕ)
    (p : M.Par n m) :
    M.emLoop g vars os (a + b) p = M.emLoop g vars os a p >>= fun p' => M.emLoop g vars os b p' := by
  induction a generalizing p with
  | zero => rw [Nat.zero_add]; rfl
  | succ a ih =>
    rw [show a + 1 + b = (a + b) + 1 by omega, emLoop, emLoop]
    simp only [ih, bind_assoc]

end Verif.Machine
