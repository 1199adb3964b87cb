import Verif.Spec.MachineSqrt
import Verif.Proofs.Machine
import Verif.Proofs.MachineUnscented

/-!
# Lemmas on the square root filters on the numbers of a machine
-/

namespace Verif

variable {n m : ℕ}

namespace UMachine

/-- Two loops whose steps agree up to what `φ` and `φ'` keep. -/
theorem run_map_eq {σ τ γ ο ο' : Type} {step : ℕ → Option σ → ο → Res σ}
    {step' : ℕ → Option τ → ο' → Res τ} {φ : σ → γ} {φ' : τ → γ} {R : ο → ο' → Prop}
    (h : ∀ t prev prev' o o', prev.map φ = prev'.map φ' → R o o' →
      (step t prev o).map φ = (step' t prev' o').map φ')
    {os : List ο} {os' : List ο'} (ho : List.Forall₂ R os os') (t : ℕ) (prev : Option σ)
    (prev' : Option τ) (hp : prev.map φ = prev'.map φ') :
    (run step t prev os).map (List.map φ) = (run step' t prev' os').map (List.map φ') := by
  induction ho generalizing t prev prev' with
  | nil => rfl
  | @cons o o' os os' h1 _ ih =>
    simp only [run]
    rcases Machine.map_eq_map_iff.mp (h t prev prev' o o' hp h1) with
      ⟨e, e1, e2⟩ | ⟨s, s', e1, e2, e3⟩
    · rw [e1, e2]; rfl
    · rw [e1, e2]
      simp only [Bind.bind, Except.bind]
      rcases Machine.map_eq_map_iff.mp (ih (t + 1) (some s) (some s') (by simp [e3])) with
        ⟨e, e4, e5⟩ | ⟨l, l', e4, e5, e6⟩
      · rw [e4, e5]; rfl
      · rw [e4, e5]
        simp [Pure.pure, Except.pure, Except.map, e3, e6]

/-- Two loops with the same steps at the times that occur. -/
theorem run_times' {σ ο : Type} {step step' : ℕ → Option σ → ο → Res σ} {T : ℕ} (os : List ο)
    (t : ℕ) (prev : Option σ) (ht : t + os.length ≤ T) (hp : prev.isSome → 0 < t)
    (h : ∀ t prev o, t < T → (prev.isSome → 0 < t) → step t prev o = step' t prev o) :
    run step t prev os = run step' t prev os := by
  induction os generalizing t prev with
  | nil => rfl
  | cons o os ih =>
    rw [List.length_cons] at ht
    rw [run, run, h t prev o (by omega) hp]
    cases step' t prev o with
    | error e => rfl
    | ok s => simp only [Bind.bind, Except.bind, ih (t + 1) (some s) (by omega) (by simp)]

end UMachine

namespace Machine

variable {M : Machine}

theorem smoothFull_covs (A : TV (M.A n n)) {l l' : List (M.St n m)}
    (h : l.map St.covs = l'.map St.covs) :
    (M.smoothFull A l).map (List.map SSt.cov) = (M.smoothFull A l').map (List.map SSt.cov) := by
  cases l with
  | nil =>
    cases l' with
    | nil => rfl
    | cons => cases h
  | cons s l =>
    cases l' with
    | nil => cases h
    | cons s' l' =>
      simp only [List.map_cons, List.cons.injEq] at h
      simp only [smoothFull]
      rcases map_eq_map_iff.mp (smoothLoop_covs A l l' 0 s s' h.1 h.2) with
        ⟨e, e4, e5⟩ | ⟨r, r', e4, e5, e6⟩
      · rw [e4, e5]
      · rw [e4, e5]
        simp only [Prod.mk.injEq, SSt.covs] at e6
        have := congrArg (List.map Prod.fst) e6.2
        simp only [List.map_map] at this
        simp only [Bind.bind, Except.bind, Pure.pure, Except.pure, Except.map, List.map_cons, e6.1.1]
        exact congrArg (fun x => Except.ok (r'.1.cov :: x)) this

theorem smoothFull_last {A : TV (M.A n n)} {l : List (M.St n m)} {sm : List (M.SSt n)}
    (h : M.smoothFull A l = .ok sm) :
    sm.length = l.length ∧ sm ≠ [] ∧
      (sm.map fun x => (x.mean, x.cov)).getLast? = (l.map fun x => (x.filtMean, x.filtCov)).getLast? := by
  cases l with
  | nil => cases h
  | cons s l =>
    simp only [smoothFull] at h
    obtain ⟨r, hr, h⟩ := ok_bind_iff.mp h
    cases h
    obtain ⟨h1, h2⟩ := smoothLoop_last A l 0 s hr
    exact ⟨by simp [h1], by simp, h2⟩

theorem smoothFull_agree {A A' : TV (M.A n n)} {l : List (M.St n m)}
    (h : ∀ i, i + 1 < l.length → lastDims A i = lastDims A' i) :
    M.smoothFull A l = M.smoothFull A' l := by
  cases l with
  | nil => rfl
  | cons s l =>
    rw [List.length_cons] at h
    simp only [smoothFull, smoothLoop_agree l 0 s fun i hi => h i (by omega)]

theorem emStep_sim (g : M.Par n m) (vars : EmVar → Bool) {os os' : List (M.Row m)}
    (h : List.Forall₂ Row.Sim os os') (p : M.Par n m) (ss : List (M.Stats n)) :
    M.emStep g vars p ss os = M.emStep g vars p ss os' := by
  simp only [emStep, obsMat, obsCov, obsOff, obsMatLoop_sim _ h, obsCovLoop_sim _ _ h,
    obsOffLoop_sim _ h]

end Machine

namespace SMachine

variable {M : SMachine}

/-! ### Cholesky -/

theorem cholCorrect_sim {o o' : M.Row m} (h : Machine.Row.Sim o o') (C : M.A m n) (R2 : M.A m m)
    (d : M.V m) (mean : M.V n) (cov2 : M.A n n) :
    cholCorrect C R2 d mean cov2 o = cholCorrect C R2 d mean cov2 o' := by
  by_cases hm : o.missing
  · have hm' : o'.missing := h.1.mp hm
    simp only [cholCorrect, hm, hm', not_true_eq_false, if_false]
  · have hm' : ¬ o'.missing := mt h.1.mpr hm
    have hv : o.val = o'.val := h.2 hm
    simp only [cholCorrect, hm, hm', not_false_eq_true, if_true, hv]

theorem cholStep_sim (p : M.Par n m) (Q2 : M.A n n) (R2 : M.A m m) (S2 : M.A n n) (t : ℕ)
    (prev : Option (M.CSt n)) (o o' : M.Row m) (h : Machine.Row.Sim o o') :
    cholStep p Q2 R2 S2 t prev o = cholStep p Q2 R2 S2 t prev o' := by
  simp only [cholStep, cholCorrect_sim h]

theorem cholRows_sim (p : M.Par n m) {os os' : List (M.Row m)}
    (h : List.Forall₂ Machine.Row.Sim os os') : cholRows p os = cholRows p os' := by
  simp only [cholRows, cholFull, UMachine.run_congr (cholStep_sim p _ _ _) h 0 none]

theorem cholEmLoop_sim (g : M.Par n m) (vars : EmVar → Bool) {os os' : List (M.Row m)}
    (h : List.Forall₂ Machine.Row.Sim os os') (k : ℕ) (p : M.Par n m) :
    cholEmLoop g vars os k p = cholEmLoop g vars os' k p := by
  induction k generalizing p with
  | zero => rfl
  | succ k ih => simp only [cholEmLoop, cholRows_sim p h, Machine.emStep_sim g vars h, ih]

/-- The square roots of a row. -/
def CSt.covs (s : M.CSt n) : M.A n n × M.A n n := (s.predCov2, s.filtCov2)

theorem cholCorrect_covs {o o' : M.Row m} (h : o.missing ↔ o'.missing) (C : M.A m n)
    (R2 : M.A m m) (d d' : M.V m) (mean mean' : M.V n) (cov2 : M.A n n) :
    (cholCorrect C R2 d mean cov2 o).map Prod.snd
      = (cholCorrect C R2 d' mean' cov2 o').map Prod.snd := by
  by_cases hm : o.missing
  · have hm' := h.mp hm
    simp only [cholCorrect, hm, hm', not_true_eq_false, if_false]
    rfl
  · have hm' := mt h.mpr hm
    simp only [cholCorrect, hm, hm', not_false_eq_true, if_true, Bind.bind, Except.bind]
    cases M.qr (m + n) (m + n) (cholCorrectM C R2 cov2) with
    | error e => rfl
    | ok S =>
      simp only
      cases M.pinv m _ <;> rfl

theorem cholPredict_covs (A Q2 : M.A n n) (b b' : M.V n) (mean mean' : M.V n) (cov2 : M.A n n) :
    (cholPredict A Q2 b mean cov2).map Prod.snd = (cholPredict A Q2 b' mean' cov2).map Prod.snd := by
  simp only [cholPredict, Bind.bind, Except.bind]
  cases M.qr (n + n) n _ <;> rfl

theorem cholStep_covs {p p' : M.Par n m} (hpp : p.SameCovs p') (Q2 : M.A n n) (R2 : M.A m m)
    (S2 : M.A n n) (t : ℕ) (prev prev' : Option (M.CSt n)) (o o' : M.Row m)
    (hp : prev.map CSt.covs = prev'.map CSt.covs) (h : o.missing ↔ o'.missing) :
    (cholStep p Q2 R2 S2 t prev o).map CSt.covs = (cholStep p' Q2 R2 S2 t prev' o').map CSt.covs := by
  have key : ∀ x x' : M.V n × M.A n n, x.2 = x'.2 →
      (do
        let C ← lastDims p.C t
        let d ← lastDims p.d t
        let c ← cholCorrect C R2 d x.1 x.2 o
        (pure ⟨x.1, x.2, c.1, c.2⟩ : Res (M.CSt n))).map CSt.covs
      = (do
        let C ← lastDims p'.C t
        let d ← lastDims p'.d t
        let c ← cholCorrect C R2 d x'.1 x'.2 o'
        (pure ⟨x'.1, x'.2, c.1, c.2⟩ : Res (M.CSt n))).map CSt.covs := by
    rintro ⟨x, S⟩ ⟨x', S'⟩ (rfl : S = S')
    rw [hpp.C]
    cases lastDims p'.C t with
    | error e => rfl
    | ok C =>
      rcases Machine.lastDims_same hpp.d t with ⟨e, e1, e2⟩ | ⟨d, d', e1, e2⟩
      · rw [e1, e2]; rfl
      · rw [e1, e2]
        simp only [Bind.bind, Except.bind]
        rcases Machine.map_eq_map_iff.mp (cholCorrect_covs h C R2 d d' x x' S) with
          ⟨e, e3, e4⟩ | ⟨c, c', e3, e4, e5⟩
        · rw [e3, e4]
        · rw [e3, e4]
          simp [Pure.pure, Except.pure, Except.map, CSt.covs, e5]
  cases prev with
  | none =>
    cases prev' with
    | some => cases hp
    | none => exact key (p.mu0, S2) (p'.mu0, S2) rfl
  | some s =>
    cases prev' with
    | none => cases hp
    | some s' =>
      have hs : s.filtCov2 = s'.filtCov2 := by
        simp only [Option.map_some, Option.some.injEq, CSt.covs, Prod.mk.injEq] at hp
        exact hp.2
      simp only [cholStep, hpp.A]
      cases lastDims p'.A (t - 1) with
      | error e => rfl
      | ok A =>
        rcases Machine.lastDims_same hpp.b (t - 1) with ⟨e, e1, e2⟩ | ⟨b, b', e1, e2⟩
        · rw [e1, e2]; rfl
        · rw [e1, e2, hs]
          rcases Machine.map_eq_map_iff.mp
            (cholPredict_covs A Q2 b b' s.filtMean s'.filtMean s'.filtCov2) with
            ⟨e, e3, e4⟩ | ⟨c, c', e3, e4, e5⟩
          · simp only [Bind.bind, Except.bind, e3, e4]
          · have := key c c' e5
            simp only [Bind.bind, Except.bind] at this ⊢
            simp only [e3, e4]
            exact this

theorem cholRows_covs {p p' : M.Par n m} (hpp : p.SameCovs p') {os os' : List (M.Row m)}
    (h : List.Forall₂ (fun o o' : M.Row m => (o.missing ↔ o'.missing)) os os') :
    (cholRows p os).map (List.map Machine.St.covs)
      = (cholRows p' os').map (List.map Machine.St.covs) := by
  simp only [cholRows, cholFull, hpp.Q, hpp.R, hpp.S0]
  cases cholParam p'.Q with
  | error e => rfl
  | ok Q2 =>
  cases cholParam p'.R with
  | error e => rfl
  | ok R2 =>
  cases M.cholL n p'.S0 with
  | error e => rfl
  | ok S2 =>
    simp only [Bind.bind, Except.bind]
    rcases Machine.map_eq_map_iff.mp (UMachine.run_map_eq (φ := CSt.covs) (φ' := CSt.covs)
      (cholStep_covs hpp Q2 R2 S2) h 0 none none rfl) with ⟨e, e1, e2⟩ | ⟨l, l', e1, e2, e3⟩
    · rw [e1, e2]
    · rw [e1, e2]
      have := congrArg (List.map fun c : M.A n n × M.A n n =>
        (reconstruct c.1, (M.zeros : M.A n m), reconstruct c.2)) e3
      simp only [List.map_map] at this
      simp only [Pure.pure, Except.pure, Except.map, List.map_map]
      exact congrArg Except.ok this

theorem cholFull_length {p : M.Par n m} {os : List (M.Row m)} {l : List (M.CSt n)}
    (h : cholFull p os = .ok l) : l.length = os.length := by
  rw [cholFull] at h
  obtain ⟨Q2, -, h⟩ := ok_bind_iff.mp h
  obtain ⟨R2, -, h⟩ := ok_bind_iff.mp h
  obtain ⟨S2, -, h⟩ := ok_bind_iff.mp h
  exact UMachine.run_length h

theorem cholRows_length {p : M.Par n m} {os : List (M.Row m)} {l : List (M.St n m)}
    (h : cholRows p os = .ok l) : l.length = os.length := by
  rw [cholRows] at h
  obtain ⟨r, hr, h⟩ := ok_bind_iff.mp h
  cases h
  rw [List.length_map, cholFull_length hr]

theorem cholFull_take {p : M.Par n m} {xs ys : List (M.Row m)} {l : List (M.CSt n)}
    (h : cholFull p (xs ++ ys) = .ok l) : cholFull p xs = .ok (l.take xs.length) := by
  rw [cholFull] at h ⊢
  obtain ⟨Q2, e1, h⟩ := ok_bind_iff.mp h
  obtain ⟨R2, e2, h⟩ := ok_bind_iff.mp h
  obtain ⟨S2, e3, h⟩ := ok_bind_iff.mp h
  simp only [e1, e2, e3, Bind.bind, Except.bind]
  exact UMachine.run_take h

theorem cholFull_error {p : M.Par n m} {xs : List (M.Row m)} (ys : List (M.Row m)) {e : Err}
    (h : cholFull p xs = .error e) : cholFull p (xs ++ ys) = .error e := by
  simp only [cholFull, Bind.bind, Except.bind] at h ⊢
  cases e1 : cholParam p.Q with
  | error e' => rw [e1] at h; exact h
  | ok Q2 =>
  cases e2 : cholParam p.R with
  | error e' => simp only [e1, e2] at h ⊢; exact h
  | ok R2 =>
  cases e3 : M.cholL n p.S0 with
  | error e' => simp only [e1, e2, e3] at h ⊢; exact h
  | ok S2 =>
    simp only [e1, e2, e3] at h ⊢
    exact UMachine.run_error ys h

/-- The parameters agree at the times that occur. -/
structure AgreeTimes (p p' : M.Par n m) (T : ℕ) : Prop where
  A : ∀ t, t + 1 < T → lastDims p.A t = lastDims p'.A t
  b : ∀ t, t + 1 < T → lastDims p.b t = lastDims p'.b t
  C : ∀ t, t < T → lastDims p.C t = lastDims p'.C t
  d : ∀ t, t < T → lastDims p.d t = lastDims p'.d t
  Q : p.Q = p'.Q
  R : p.R = p'.R
  mu0 : p.mu0 = p'.mu0
  S0 : p.S0 = p'.S0

theorem cholRows_agree {p p' : M.Par n m} {os : List (M.Row m)} (h : AgreeTimes p p' os.length) :
    cholRows p os = cholRows p' os := by
  have e : ∀ Q2 R2 S2, UMachine.run (cholStep p Q2 R2 S2) 0 none os
      = UMachine.run (cholStep p' Q2 R2 S2) 0 none os := fun Q2 R2 S2 =>
    UMachine.run_times' (T := os.length) os 0 none (by simp) (fun h => by cases h)
      fun t prev o ht hp => by
        cases prev with
        | none => simp only [cholStep, h.mu0, h.C t ht, h.d t ht]
        | some s =>
          have : 0 < t := hp rfl
          simp only [cholStep, h.A (t - 1) (by omega), h.b (t - 1) (by omega), h.C t ht, h.d t ht]
  simp only [cholRows, cholFull, h.Q, h.R, h.S0, e]

theorem cholEmLoop_given {g g' : M.Par n m} {vars : EmVar → Bool} (h : g.AgreeOff vars g')
    (os : List (M.Row m)) (k : ℕ) (p : M.Par n m) :
    cholEmLoop g vars os k p = cholEmLoop g' vars os k p := by
  induction k generalizing p with
  | zero => rfl
  | succ k ih => simp only [cholEmLoop, Machine.emStep_given h, ih]

theorem cholEmLoop_agreeOff {g p q : M.Par n m} {vars : EmVar → Bool} {os : List (M.Row m)} {k : ℕ}
    (hp : g.AgreeOff vars p) (h : cholEmLoop g vars os k p = .ok q) : g.AgreeOff vars q := by
  induction k generalizing p with
  | zero => cases h; exact hp
  | succ k ih =>
    rw [cholEmLoop] at h
    obtain ⟨rows, -, h⟩ := ok_bind_iff.mp h
    obtain ⟨ss, -, h⟩ := ok_bind_iff.mp h
    obtain ⟨p', hp', h⟩ := ok_bind_iff.mp h
    exact ih (Machine.emStep_agreeOff hp') h

theorem cholEmLoop_add (g : M.Par n m) (vars : EmVar → Bool) (os : List (M.Row m)) (a b : ℕ)
    (p : M.Par n m) :
    cholEmLoop g vars os (a + b) p
      = cholEmLoop g vars os a p >>= fun p' => cholEmLoop g vars os b p' := by
  induction a generalizing p with
  | zero => rw [Nat.zero_add]; rfl
  | succ a ih =>
    rw [show a + 1 + b = (a + b) + 1 by omega, cholEmLoop, cholEmLoop]
    simp only [ih, bind_assoc]

/-! ### Bierman -/

theorem dotRows_length (inv : M.A m m) (l : List (M.V m)) : (dotRows inv l).length = l.length := by
  rw [dotRows, List.length_ofFn]

theorem dotRowsMasked_length (inv : M.A m m) (os : List (M.Row m)) :
    (dotRowsMasked inv os).length = os.length := by
  simp [dotRowsMasked, dotRows_length]

theorem dotRowsMasked_getElem (inv : M.A m m) (os : List (M.Row m)) (j : ℕ)
    (h : j < (dotRowsMasked inv os).length) (h' : j < os.length) :
    (dotRowsMasked inv os)[j] = ⟨(dotRows inv (os.map (·.val)))[j]'(by
      rw [dotRows_length, List.length_map]; exact h'), os[j].mask⟩ := by
  simp [dotRowsMasked]

theorem dotRows_getElem (inv : M.A m m) (l : List (M.V m)) (j : ℕ) (h : j < (dotRows inv l).length)
    (h' : j < l.length) : (dotRows inv l)[j] = fun i =>
      M.dotM m m l.length inv (fun i j => l.get j i) i ⟨j, h'⟩ := by
  simp [dotRows]

theorem bierCorrect_sim {o o' : M.Row m} (h : Machine.Row.Sim o o') (C : M.A m n) (R : M.A m m)
    (d : M.V m) (mean : M.V n) (cov : M.UD n) :
    bierCorrect C R d mean cov o = bierCorrect C R d mean cov o' := by
  by_cases hm : o.missing
  · have hm' : o'.missing := h.1.mp hm
    simp only [bierCorrect, hm, hm', not_true_eq_false, if_false]
  · have hm' : ¬ o'.missing := mt h.1.mpr hm
    have hv : o.val = o'.val := h.2 hm
    simp only [bierCorrect, hm, hm', not_false_eq_true, if_true, hv]

theorem bierStep_sim (p : M.Par n m) (C : TV (M.A m n)) (d : TV (M.V m)) (S0 : M.UD n) (t : ℕ)
    (prev : Option (M.BSt n)) (o o' : M.Row m) (h : Machine.Row.Sim o o') :
    bierStep p C d S0 t prev o = bierStep p C d S0 t prev o' := by
  simp only [bierStep, bierCorrect_sim h]

theorem dotRowsMasked_sim (hc : M.ColumnWise) (inv : M.A m m) {os os' : List (M.Row m)}
    (h : List.Forall₂ Machine.Row.Sim os os') :
    List.Forall₂ Machine.Row.Sim (dotRowsMasked inv os) (dotRowsMasked inv os') := by
  rw [List.forall₂_iff_get] at h ⊢
  refine ⟨by rw [dotRowsMasked_length, dotRowsMasked_length, h.1], fun j h1 h2 => ?_⟩
  rw [dotRowsMasked_length] at h1 h2
  have hs := h.2 j h1 h2
  simp only [List.get_eq_getElem] at hs ⊢
  rw [dotRowsMasked_getElem inv os j _ h1, dotRowsMasked_getElem inv os' j _ h2]
  refine ⟨hs.1, fun hm => ?_⟩
  have hv := hs.2 hm
  dsimp only
  rw [dotRows_getElem inv _ j _ (by simpa using h1), dotRows_getElem inv _ j _ (by simpa using h2)]
  funext i
  refine hc _ _ _ _ _ _ _ _ _ (fun i => ?_) i
  simp [hv]

theorem dotRowsMasked_append (hc : M.ColumnWise) (inv : M.A m m) (xs ys : List (M.Row m)) :
    ∃ ys', dotRowsMasked inv (xs ++ ys) = dotRowsMasked inv xs ++ ys' := by
  refine ⟨(dotRowsMasked inv (xs ++ ys)).drop xs.length, ?_⟩
  have : dotRowsMasked inv xs = (dotRowsMasked inv (xs ++ ys)).take xs.length := by
    refine List.ext_getElem (by simp [dotRowsMasked_length]) fun j h1 h2 => ?_
    rw [dotRowsMasked_length] at h1
    rw [List.getElem_take, dotRowsMasked_getElem inv xs j _ h1,
      dotRowsMasked_getElem inv (xs ++ ys) j _ (by simp; omega)]
    congr 1
    · rw [dotRows_getElem inv _ j _ (by simpa using h1),
        dotRows_getElem inv _ j _ (by simp; omega)]
      funext i
      refine hc _ _ _ _ _ _ _ _ _ (fun i => ?_) i
      simp [List.getElem_append_left h1]
    · rw [List.getElem_append_left h1]
  rw [this, List.take_append_drop]

theorem dotRowsMasked_missing (inv inv' : M.A m m) {os os' : List (M.Row m)}
    (h : List.Forall₂ (fun o o' : M.Row m => (o.missing ↔ o'.missing)) os os') :
    List.Forall₂ (fun o o' : M.Row m => (o.missing ↔ o'.missing)) (dotRowsMasked inv os)
      (dotRowsMasked inv' os') := by
  rw [List.forall₂_iff_get] at h ⊢
  refine ⟨by rw [dotRowsMasked_length, dotRowsMasked_length, h.1], fun j h1 h2 => ?_⟩
  rw [dotRowsMasked_length] at h1 h2
  have hs := h.2 j h1 h2
  simp only [List.get_eq_getElem] at hs ⊢
  rw [dotRowsMasked_getElem inv os j _ h1, dotRowsMasked_getElem inv' os' j _ h2]
  exact hs

theorem dotOffsets_sameTimes (inv : M.A m m) {d d' : TV (M.V m)} (h : d.SameTimes d') :
    (dotOffsets inv d).SameTimes (dotOffsets inv d') := by
  have key : ∀ (d : TV (M.V m)) t, (∃ a, lastDims (dotOffsets inv d) t = .ok a) ↔
      ∃ a, lastDims d t = .ok a := by
    intro d t
    cases d with
    | const d => exact ⟨fun _ => ⟨_, rfl⟩, fun _ => ⟨_, rfl⟩⟩
    | seq l =>
      by_cases ht : t < l.length
      · have h1 : (dotRows inv l)[t]? = some ((dotRows inv l)[t]'(by rw [dotRows_length]; exact ht)) :=
          List.getElem?_eq_getElem _
        have h2 : l[t]? = some l[t] := List.getElem?_eq_getElem _
        simp only [dotOffsets, lastDims, h1, h2]
        exact ⟨fun _ => ⟨_, rfl⟩, fun _ => ⟨_, rfl⟩⟩
      · have h1 : (dotRows inv l)[t]? = none :=
          List.getElem?_eq_none (by rw [dotRows_length]; omega)
        have h2 : l[t]? = none := List.getElem?_eq_none (by omega)
        simp only [dotOffsets, lastDims, h1, h2]
  intro t
  rw [key, key]
  exact h t

/-- The factors of a row. -/
def BSt.covs (s : M.BSt n) : M.UD n × M.UD n := (s.predCov, s.filtCov)

theorem bierCorrect_covs {o o' : M.Row m} (h : o.missing ↔ o'.missing) (C : M.A m n) (R : M.A m m)
    (d d' : M.V m) (mean mean' : M.V n) (cov : M.UD n) :
    (bierCorrect C R d mean cov o).2 = (bierCorrect C R d' mean' cov o').2 := by
  by_cases hm : o.missing
  · have hm' := h.mp hm
    simp only [bierCorrect, hm, hm', not_true_eq_false, if_false]
  · have hm' := mt h.mpr hm
    simp only [bierCorrect, hm, hm', not_false_eq_true, if_true]
    generalize List.finRange m = l
    induction l generalizing mean mean' cov with
    | nil => rfl
    | cons i l ih =>
      rw [List.foldl_cons, List.foldl_cons]
      exact ih _ _ _

theorem bierPredict_covs (A Q : M.A n n) (b b' : M.V n) (mean mean' : M.V n) (cov : M.UD n) :
    (bierPredict A Q b mean cov).map Prod.snd = (bierPredict A Q b' mean' cov).map Prod.snd := by
  simp only [bierPredict, Bind.bind, Except.bind]
  cases udu id _ <;> rfl

theorem bierStep_covs {p p' : M.Par n m} (hpp : p.SameCovs p') (C : TV (M.A m n))
    {d d' : TV (M.V m)} (hd : d.SameTimes d') (S0 : M.UD n) (t : ℕ) (prev prev' : Option (M.BSt n))
    (o o' : M.Row m) (hp : prev.map BSt.covs = prev'.map BSt.covs) (h : o.missing ↔ o'.missing) :
    (bierStep p C d S0 t prev o).map BSt.covs = (bierStep p' C d' S0 t prev' o').map BSt.covs := by
  have key : ∀ x x' : M.V n × M.UD n, x.2 = x'.2 →
      (do
        let C ← lastDims C t
        let d ← lastDims d t
        let c := bierCorrect C eye d x.1 x.2 o
        (pure ⟨x.1, x.2, c.1, c.2⟩ : Res (M.BSt n))).map BSt.covs
      = (do
        let C ← lastDims C t
        let d ← lastDims d' t
        let c := bierCorrect C eye d x'.1 x'.2 o'
        (pure ⟨x'.1, x'.2, c.1, c.2⟩ : Res (M.BSt n))).map BSt.covs := by
    rintro ⟨x, S⟩ ⟨x', S'⟩ (rfl : S = S')
    cases lastDims C t with
    | error e => rfl
    | ok C =>
      rcases Machine.lastDims_same hd t with ⟨e, e1, e2⟩ | ⟨d, d', e1, e2⟩
      · rw [e1, e2]; rfl
      · rw [e1, e2]
        simp only [Bind.bind, Except.bind, Pure.pure, Except.pure, Except.map, BSt.covs]
        rw [bierCorrect_covs h C eye d d' x x' S]
  cases prev with
  | none =>
    cases prev' with
    | some => cases hp
    | none => exact key (p.mu0, S0) (p'.mu0, S0) rfl
  | some s =>
    cases prev' with
    | none => cases hp
    | some s' =>
      have hs : s.filtCov = s'.filtCov := by
        simp only [Option.map_some, Option.some.injEq, BSt.covs, Prod.mk.injEq] at hp
        exact hp.2
      simp only [bierStep, hpp.A, hpp.Q]
      cases lastDims p'.A (t - 1) with
      | error e => rfl
      | ok A =>
        rcases Machine.lastDims_same hpp.b (t - 1) with ⟨e, e1, e2⟩ | ⟨b, b', e1, e2⟩
        · rw [e1, e2]; rfl
        · rw [e1, e2, hs]
          cases p'.Q with
          | seq => rfl
          | const Q =>
            rcases Machine.map_eq_map_iff.mp
              (bierPredict_covs A Q b b' s.filtMean s'.filtMean s'.filtCov) with
              ⟨e, e3, e4⟩ | ⟨c, c', e3, e4, e5⟩
            · simp only [Bind.bind, Except.bind, Pure.pure, Except.pure, e3, e4]
            · have := key c c' e5
              simp only [Bind.bind, Except.bind, Pure.pure, Except.pure] at this ⊢
              simp only [e3, e4]
              exact this

theorem bierRows_of_full {store : M.F → M.F} {p p' : M.Par n m} {os os' : List (M.Row m)}
    (h : (bierFull store p os).map (List.map BSt.covs)
      = (bierFull store p' os').map (List.map BSt.covs)) :
    (bierRows store p os).map (List.map Machine.St.covs)
      = (bierRows store p' os').map (List.map Machine.St.covs) := by
  simp only [bierRows]
  rcases Machine.map_eq_map_iff.mp h with ⟨e, e1, e2⟩ | ⟨l, l', e1, e2, e3⟩
  · rw [e1, e2]
  · rw [e1, e2]
    have := congrArg (List.map fun c : M.UD n × M.UD n =>
      (c.1.reconstruct, (M.zeros : M.A n m), c.2.reconstruct)) e3
    simp only [List.map_map] at this
    cases l with
    | nil =>
      cases l' with
      | nil => rfl
      | cons => cases e3
    | cons s l =>
      cases l' with
      | nil => cases e3
      | cons s' l' =>
        simp only [Bind.bind, Except.bind, Pure.pure, Except.pure, Except.map, List.map_map]
        exact congrArg Except.ok this

theorem bierRows_covs (store : M.F → M.F) {p p' : M.Par n m} (hpp : p.SameCovs p')
    {os os' : List (M.Row m)}
    (h : List.Forall₂ (fun o o' : M.Row m => (o.missing ↔ o'.missing)) os os') :
    (bierRows store p os).map (List.map Machine.St.covs)
      = (bierRows store p' os').map (List.map Machine.St.covs) := by
  refine bierRows_of_full ?_
  simp only [bierFull, decorrelate, hpp.R, hpp.S0, hpp.C]
  cases udu store p'.S0 with
  | error e => rfl
  | ok S =>
  cases cholParam p'.R with
  | error e => rfl
  | ok R2 =>
  cases e : M.pinv m R2 with
  | error e => simp only [Bind.bind, Except.bind, e]
  | ok inv =>
    simp only [Bind.bind, Except.bind, Pure.pure, Except.pure, e]
    exact UMachine.run_map_eq (φ := BSt.covs) (φ' := BSt.covs)
      (bierStep_covs hpp _ (dotOffsets_sameTimes inv hpp.d) S) (dotRowsMasked_missing inv inv h)
      0 none none rfl

theorem bierRows_sim (hc : M.ColumnWise) (store : M.F → M.F) (p : M.Par n m)
    {os os' : List (M.Row m)} (h : List.Forall₂ Machine.Row.Sim os os') :
    bierRows store p os = bierRows store p os' := by
  have : bierFull store p os = bierFull store p os' := by
    simp only [bierFull, decorrelate]
    cases udu store p.S0 with
    | error e => rfl
    | ok S =>
    cases cholParam p.R with
    | error e => rfl
    | ok R2 =>
    cases e : M.pinv m R2 with
    | error e => simp only [Bind.bind, Except.bind, e]
    | ok inv =>
      simp only [Bind.bind, Except.bind, Pure.pure, Except.pure, e]
      exact UMachine.run_congr (bierStep_sim p _ _ S) (dotRowsMasked_sim hc inv h) 0 none
  rw [bierRows, bierRows, this]

theorem bierFull_length {store : M.F → M.F} {p : M.Par n m} {os : List (M.Row m)}
    {l : List (M.BSt n)} (h : bierFull store p os = .ok l) : l.length = os.length := by
  rw [bierFull] at h
  obtain ⟨S0, -, h⟩ := ok_bind_iff.mp h
  obtain ⟨r, hr, h⟩ := ok_bind_iff.mp h
  rw [decorrelate] at hr
  obtain ⟨R2, -, hr⟩ := ok_bind_iff.mp hr
  obtain ⟨inv, -, hr⟩ := ok_bind_iff.mp hr
  cases hr
  rw [UMachine.run_length h, dotRowsMasked_length]

theorem bierRows_ok {store : M.F → M.F} {p : M.Par n m} {os : List (M.Row m)}
    {l : List (M.St n m)} (h : bierRows store p os = .ok l) :
    ∃ s, bierFull store p os = .ok s ∧ l = s.map (BSt.st m) ∧ s ≠ [] := by
  rw [bierRows] at h
  obtain ⟨s, hs, h⟩ := ok_bind_iff.mp h
  cases s with
  | nil => cases h
  | cons a s => cases h; exact ⟨_, hs, rfl, by simp⟩

theorem bierRows_length {store : M.F → M.F} {p : M.Par n m} {os : List (M.Row m)}
    {l : List (M.St n m)} (h : bierRows store p os = .ok l) : l.length = os.length := by
  obtain ⟨s, hs, rfl, -⟩ := bierRows_ok h
  rw [List.length_map, bierFull_length hs]

theorem bierRows_nil (store : M.F → M.F) (p : M.Par n m) (l : List (M.St n m)) :
    bierRows store p [] ≠ .ok l := by
  intro h
  obtain ⟨s, hs, -, hne⟩ := bierRows_ok h
  exact hne (List.length_eq_zero_iff.mp (bierFull_length hs))

theorem bierFull_take (hc : M.ColumnWise) {store : M.F → M.F} {p : M.Par n m}
    {xs ys : List (M.Row m)} {l : List (M.BSt n)} (h : bierFull store p (xs ++ ys) = .ok l) :
    bierFull store p xs = .ok (l.take xs.length) := by
  rw [bierFull] at h ⊢
  obtain ⟨S0, e1, h⟩ := ok_bind_iff.mp h
  obtain ⟨r, hr, h⟩ := ok_bind_iff.mp h
  rw [decorrelate] at hr ⊢
  obtain ⟨R2, e2, hr⟩ := ok_bind_iff.mp hr
  obtain ⟨inv, e3, hr⟩ := ok_bind_iff.mp hr
  cases hr
  obtain ⟨ys', hy⟩ := dotRowsMasked_append hc inv xs ys
  rw [hy] at h
  have := UMachine.run_take h
  rw [dotRowsMasked_length] at this
  simp only [e1, e2, Bind.bind, Except.bind, Pure.pure, Except.pure]
  simp only [e3]
  exact this

theorem bierFull_error (hc : M.ColumnWise) {store : M.F → M.F} {p : M.Par n m}
    {xs : List (M.Row m)} (ys : List (M.Row m)) {e : Err} (h : bierFull store p xs = .error e) :
    bierFull store p (xs ++ ys) = .error e := by
  simp only [bierFull, decorrelate, Bind.bind, Except.bind] at h ⊢
  cases e1 : udu store p.S0 with
  | error e' => rw [e1] at h; exact h
  | ok S =>
  cases e2 : cholParam p.R with
  | error e' => simp only [e1, e2] at h ⊢; exact h
  | ok R2 =>
  cases e3 : M.pinv m R2 with
  | error e' => simp only [e1, e2, e3] at h ⊢; exact h
  | ok inv =>
    obtain ⟨ys', hy⟩ := dotRowsMasked_append hc inv xs ys
    simp only [e1, e2, e3, Pure.pure, Except.pure, hy] at h ⊢
    exact UMachine.run_error ys' h

theorem lastDims_map {α β : Type} (f : α → β) (p : TV α) (t : ℕ) :
    lastDims (p.map f) t = (lastDims p t).map f := by
  cases p with
  | const a => rfl
  | seq l =>
    simp only [TV.map, lastDims, List.getElem?_map]
    cases l[t]? <;> rfl

/-- The parameters agree at the times that occur, and the observation offsets are given the same
way. -/
structure AgreeTimesB (p p' : M.Par n m) (T : ℕ) : Prop where
  A : ∀ t, t + 1 < T → lastDims p.A t = lastDims p'.A t
  b : ∀ t, t + 1 < T → lastDims p.b t = lastDims p'.b t
  C : ∀ t, t < T → lastDims p.C t = lastDims p'.C t
  d : p.d = p'.d
  Q : p.Q = p'.Q
  R : p.R = p'.R
  mu0 : p.mu0 = p'.mu0
  S0 : p.S0 = p'.S0

theorem bierRows_agree (store : M.F → M.F) {p p' : M.Par n m} {os : List (M.Row m)}
    (h : AgreeTimesB p p' os.length) : bierRows store p os = bierRows store p' os := by
  have e : ∀ (inv : M.A m m) d S (os' : List (M.Row m)), os'.length = os.length →
      UMachine.run (bierStep p (p.C.map fun X => M.dotM m m n inv X) d S) 0 none os'
      = UMachine.run (bierStep p' (p'.C.map fun X => M.dotM m m n inv X) d S) 0 none os' :=
    fun inv d S os' hl =>
      UMachine.run_times' (T := os.length) os' 0 none (by simp [hl]) (fun h => by cases h)
        fun t prev o ht hp => by
          cases prev with
          | none => simp only [bierStep, h.mu0, lastDims_map, h.C t ht]
          | some s =>
            have : 0 < t := hp rfl
            simp only [bierStep, h.A (t - 1) (by omega), h.b (t - 1) (by omega), lastDims_map,
              h.C t ht, h.Q]
  have : bierFull store p os = bierFull store p' os := by
    simp only [bierFull, decorrelate, h.R, h.S0, h.d]
    cases udu store p'.S0 with
    | error e => rfl
    | ok S =>
    cases cholParam p'.R with
    | error e => rfl
    | ok R2 =>
    cases e' : M.pinv m R2 with
    | error e => simp only [Bind.bind, Except.bind, e']
    | ok inv =>
      simp only [Bind.bind, Except.bind, Pure.pure, Except.pure, e']
      exact e inv _ S _ (dotRowsMasked_length inv os)
  rw [bierRows, bierRows, this]

theorem bierEmLoop_sim (hc : M.ColumnWise) (store : M.F → M.F) (g : M.Par n m)
    (vars : EmVar → Bool) {os os' : List (M.Row m)} (h : List.Forall₂ Machine.Row.Sim os os')
    (k : ℕ) (p : M.Par n m) :
    bierEmLoop store g vars os k p = bierEmLoop store g vars os' k p := by
  induction k generalizing p store with
  | zero => rfl
  | succ k ih => simp only [bierEmLoop, bierRows_sim hc store p h, Machine.emStep_sim g vars h, ih]

theorem bierEmLoop_given (store : M.F → M.F) {g g' : M.Par n m} {vars : EmVar → Bool}
    (h : g.AgreeOff vars g') (os : List (M.Row m)) (k : ℕ) (p : M.Par n m) :
    bierEmLoop store g vars os k p = bierEmLoop store g' vars os k p := by
  induction k generalizing p store with
  | zero => rfl
  | succ k ih => simp only [bierEmLoop, Machine.emStep_given h, ih]

theorem bierEmLoop_agreeOff {store : M.F → M.F} {g p q : M.Par n m} {vars : EmVar → Bool}
    {os : List (M.Row m)} {k : ℕ} (hp : g.AgreeOff vars p)
    (h : bierEmLoop store g vars os k p = .ok q) : g.AgreeOff vars q := by
  induction k generalizing p store with
  | zero => cases h; exact hp
  | succ k ih =>
    rw [bierEmLoop] at h
    obtain ⟨rows, -, h⟩ := ok_bind_iff.mp h
    obtain ⟨ss, -, h⟩ := ok_bind_iff.mp h
    obtain ⟨p', hp', h⟩ := ok_bind_iff.mp h
    exact ih (Machine.emStep_agreeOff hp') h

theorem bierEmLoop_add (store : M.F → M.F) (g : M.Par n m) (vars : EmVar → Bool)
    (os : List (M.Row m)) (a b : ℕ) (p : M.Par n m) :
    bierEmLoop store g vars os (a + b) p
      = bierEmLoop store g vars os a p >>= fun p' =>
        bierEmLoop (if 0 < a ∧ vars .initialStateCovariance then id else store) g vars os b p' := by
  induction a generalizing p store with
  | zero => simp only [Nat.zero_add, lt_irrefl, false_and, if_false]; rfl
  | succ a ih =>
    rw [show a + 1 + b = (a + b) + 1 by omega, bierEmLoop, bierEmLoop]
    have : ∀ st : M.F → M.F, (if 0 < a ∧ vars .initialStateCovariance = true then id
        else if vars .initialStateCovariance = true then id else st)
        = if 0 < a + 1 ∧ vars .initialStateCovariance = true then id else st := by
      intro st
      cases vars .initialStateCovariance <;> simp
    simp only [ih, bind_assoc, this]

/-! ### Unscented -/

theorem sqUnscentedCorrect_sim {o o' : M.Row m} (h : Machine.Row.Sim o o') (cross : M.A n m)
    (pred : M.Mom n) (obs : M.Mom m) :
    sqUnscentedCorrect cross pred obs o = sqUnscentedCorrect cross pred obs o' := by
  by_cases hm : o.missing
  · have hm' : o'.missing := h.1.mp hm
    simp only [sqUnscentedCorrect, hm, hm', not_true_eq_false, if_false]
  · have hm' : ¬ o'.missing := mt h.1.mpr hm
    have hv : o.val = o'.val := h.2 hm
    simp only [sqUnscentedCorrect, hm, hm', not_false_eq_true, if_true, hv]

theorem sqCorrect_sim {N : ℕ} {o o' : M.Row m} (h : Machine.Row.Sim o o') (g : M.V n → Res (M.V m))
    (pred : M.Mom n) (pts : M.Pts N n) (R2 : M.A m m) :
    sqCorrect g pred pts o R2 = sqCorrect g pred pts o' R2 := by
  simp only [sqCorrect, sqUnscentedCorrect_sim h]

theorem sqStep_sim (p : M.UPar n m) (Q2 : M.A n n) (R2 : M.A m m) (t : ℕ) (prev : Option (M.Mom n))
    (o o' : M.Row m) (h : Machine.Row.Sim o o') :
    sqStep p Q2 R2 t prev o = sqStep p Q2 R2 t prev o' := by
  cases prev <;> simp only [sqStep, sqCorrect_sim h]

theorem sqFull_sim (p : M.UPar n m) {os os' : List (M.Row m)}
    (h : List.Forall₂ Machine.Row.Sim os os') : sqFull p os = sqFull p os' := by
  simp only [sqFull, UMachine.run_congr (sqStep_sim p _ _) h 0 none]

theorem sqFull_length {p : M.UPar n m} {os : List (M.Row m)} {l : List (M.Mom n)}
    (h : sqFull p os = .ok l) : l.length = os.length := by
  rw [sqFull] at h
  obtain ⟨Q2, -, h⟩ := ok_bind_iff.mp h
  obtain ⟨R2, -, h⟩ := ok_bind_iff.mp h
  exact UMachine.run_length h

theorem sqFull_take {p : M.UPar n m} {xs ys : List (M.Row m)} {l : List (M.Mom n)}
    (h : sqFull p (xs ++ ys) = .ok l) : sqFull p xs = .ok (l.take xs.length) := by
  rw [sqFull] at h ⊢
  obtain ⟨Q2, e1, h⟩ := ok_bind_iff.mp h
  obtain ⟨R2, e2, h⟩ := ok_bind_iff.mp h
  simp only [e1, e2, Bind.bind, Except.bind]
  exact UMachine.run_take h

theorem sqFull_error {p : M.UPar n m} {xs : List (M.Row m)} (ys : List (M.Row m)) {e : Err}
    (h : sqFull p xs = .error e) : sqFull p (xs ++ ys) = .error e := by
  simp only [sqFull, Bind.bind, Except.bind] at h ⊢
  cases e1 : M.chol n p.Q with
  | error e' => rw [e1] at h; exact h
  | ok Q2 =>
  cases e2 : M.chol m p.R with
  | error e' => simp only [e1, e2] at h ⊢; exact h
  | ok R2 =>
    simp only [e1, e2] at h ⊢
    exact UMachine.run_error ys h

theorem sqFull_agree {p p' : M.UPar n m} {os : List (M.Row m)}
    (hf : UMachine.AgreeBefore p.f p'.f (os.length - 1)) (hg : UMachine.AgreeBefore p.g p'.g os.length)
    (hQ : p.Q = p'.Q) (hR : p.R = p'.R) (hm : p.mu0 = p'.mu0) (hS : p.S0 = p'.S0) :
    sqFull p os = sqFull p' os := by
  have e : ∀ Q2 R2, UMachine.run (sqStep p Q2 R2) 0 none os
      = UMachine.run (sqStep p' Q2 R2) 0 none os := fun Q2 R2 =>
    UMachine.run_times' (T := os.length) os 0 none (by simp) (fun h => by cases h)
      fun t prev o ht hp => by
        cases prev with
        | none => simp only [sqStep, hm, hS, hg t ht]
        | some s =>
          have : 0 < t := hp rfl
          simp only [sqStep, hf (t - 1) (by omega), hg t ht]
  simp only [sqFull, hQ, hR, e]

end SMachine

end Verif
