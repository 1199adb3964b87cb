import Verif.Proofs.MachineSqrtOnline
import Verif.Proofs.MachineSqrtExact
import Verif.Props.MachineUnscented

/-!
# C100: what holds bit for bit in the square root filters

`CholeskyKalmanFilter`, `BiermanKalmanFilter` and the square root `AdditiveUnscentedKalmanFilter` on
the numbers of any machine, with any operations.  Equations between results are equations between all
their bits, and include the exception if one is raised.

`BiermanKalmanFilter` decorrelates all observations with one product of matrices, so what it
computes for one row can depend on the other rows through the way the library computes the product;
`Machine.ColumnWise` says that it does not.
-/

namespace Verif

open SMachine

variable {M : SMachine} {n m : ℕ}

/-- **C100.** Filtering a prefix of the observations gives the prefix of the results, and if
filtering the prefix raises then filtering all observations raises the same. -/
theorem C100_causal (xs ys : List (M.Row m)) :
    (∀ p : M.Par n m,
      (∀ out, SMachine.cholFilter p (xs ++ ys) = .ok out →
        SMachine.cholFilter p xs = .ok (out.take xs.length)) ∧
      ∀ e, SMachine.cholFilter p xs = .error e → SMachine.cholFilter p (xs ++ ys) = .error e) ∧
    (M.ColumnWise → xs ≠ [] → ∀ (store : M.F → M.F) (p : M.Par n m),
      (∀ out, SMachine.bierFilter store p (xs ++ ys) = .ok out →
        SMachine.bierFilter store p xs = .ok (out.take xs.length)) ∧
      ∀ e, SMachine.bierFilter store p xs = .error e →
        SMachine.bierFilter store p (xs ++ ys) = .error e) ∧
    (∀ p : M.UPar n m,
      (∀ out, SMachine.sqFilter p (xs ++ ys) = .ok out →
        SMachine.sqFilter p xs = .ok (out.take xs.length)) ∧
      ∀ e, SMachine.sqFilter p xs = .error e → SMachine.sqFilter p (xs ++ ys) = .error e) := by
  refine ⟨fun p => ⟨fun out h => ?_, fun e h => ?_⟩, fun hc hx store p =>
    ⟨fun out h => ?_, fun e h => ?_⟩, fun p => ⟨fun out h => ?_, fun e h => ?_⟩⟩
  · rw [SMachine.cholFilter, cholRows] at h ⊢
    obtain ⟨r, hr, h⟩ := ok_bind_iff.mp h
    obtain ⟨l, hl, hr⟩ := ok_bind_iff.mp hr
    cases hr
    cases h
    rw [cholFull_take hl]
    simp only [Bind.bind, Except.bind, Pure.pure, Except.pure, List.map_take]
  · rw [SMachine.cholFilter, cholRows] at h ⊢
    cases hl : SMachine.cholFull p xs with
    | ok l => rw [hl] at h; cases h
    | error e' =>
      rw [hl] at h
      rw [cholFull_error ys hl]
      exact h
  · rw [SMachine.bierFilter] at h ⊢
    obtain ⟨r, hr, h⟩ := ok_bind_iff.mp h
    cases h
    obtain ⟨l, hl, rfl, -⟩ := bierRows_ok hr
    have ht := bierFull_take hc hl
    have hlen := bierFull_length ht
    rw [SMachine.bierRows, ht]
    cases hs : l.take xs.length with
    | nil =>
      rw [hs] at hlen
      exact absurd (List.length_eq_zero_iff.mp hlen.symm) hx
    | cons s l' =>
      rw [← List.map_take, ← List.map_take, hs]
      rfl
  · rw [SMachine.bierFilter, SMachine.bierRows] at h ⊢
    cases hl : SMachine.bierFull store p xs with
    | ok l =>
      rw [hl] at h
      have hlen := bierFull_length hl
      cases l with
      | nil => exact absurd (List.length_eq_zero_iff.mp hlen.symm) hx
      | cons s l => cases h
    | error e' =>
      rw [hl] at h
      rw [bierFull_error hc ys hl]
      exact h
  · rw [SMachine.sqFilter] at h ⊢
    obtain ⟨l, hl, h⟩ := ok_bind_iff.mp h
    cases h
    rw [sqFull_take hl]
    simp only [Bind.bind, Except.bind, Pure.pure, Except.pure, List.map_take]
  · rw [SMachine.sqFilter] at h ⊢
    cases hl : SMachine.sqFull p xs with
    | ok l => rw [hl] at h; cases h
    | error e' =>
      rw [hl] at h
      rw [sqFull_error ys hl]
      exact h

/-- **C100.** Values in rows with a masked component have no influence on anything
`CholeskyKalmanFilter` computes, and `filter_update` without an observation is `filter_update` with
any row with a masked component. -/
theorem C100_cholesky_masked_values (p : M.Par n m) (os os' : List (M.Row m))
    (h : List.Forall₂ Machine.Row.Sim os os') :
    SMachine.cholFilter p os = SMachine.cholFilter p os' ∧
    SMachine.cholSmooth p os = SMachine.cholSmooth p os' ∧
    SMachine.cholLoglik p os = SMachine.cholLoglik p os' ∧
    (∀ k vars, SMachine.cholEm p os k vars = SMachine.cholEm p os' k vars) ∧
    (∀ o o' : M.Row m, Machine.Row.Sim o o' → ∀ mean cov a,
      SMachine.cholUpdate p mean cov (some o) a = SMachine.cholUpdate p mean cov (some o') a) ∧
    ∀ o : M.Row m, (∃ i, o.mask i = true) → ∀ mean cov a,
      SMachine.cholUpdate p mean cov none a = SMachine.cholUpdate p mean cov (some o) a := by
  have hr := cholRows_sim p h
  refine ⟨by rw [SMachine.cholFilter, SMachine.cholFilter, hr],
    by rw [SMachine.cholSmooth, SMachine.cholSmooth, hr], ?_, fun k vars => cholEmLoop_sim p vars h k p,
    fun o o' ho mean cov a => ?_, fun o ⟨i, hi⟩ mean cov a => ?_⟩
  · simp only [SMachine.cholLoglik, hr, Machine.loglikLoop_sim p h]
  · simp only [SMachine.cholUpdate, UMachine.observed, cholCorrect_sim ho]
  · have hs : Machine.Row.Sim (UMachine.observed (M := M.toUMachine) none) o :=
      ⟨⟨fun _ => ⟨i, hi⟩, fun _ => ⟨i, rfl⟩⟩, fun h => absurd ⟨i, rfl⟩ h⟩
    simp only [SMachine.cholUpdate, cholCorrect_sim hs]
    rfl

/-- **C100.** The same for `BiermanKalmanFilter`, if products of matrices are computed column by
column; for `filter_update` on any machine. -/
theorem C100_bierman_masked_values (store : M.F → M.F) (p : M.Par n m) (os os' : List (M.Row m))
    (h : List.Forall₂ Machine.Row.Sim os os') :
    (M.ColumnWise → SMachine.bierFilter store p os = SMachine.bierFilter store p os' ∧
      SMachine.bierSmooth store p os = SMachine.bierSmooth store p os' ∧
      SMachine.bierLoglik store p os = SMachine.bierLoglik store p os' ∧
      ∀ k vars, SMachine.bierEm store p os k vars = SMachine.bierEm store p os' k vars) ∧
    (∀ o o' : M.Row m, Machine.Row.Sim o o' → ∀ mean cov a,
      SMachine.bierUpdate store p mean cov (some o) a
        = SMachine.bierUpdate store p mean cov (some o') a) ∧
    ∀ o : M.Row m, (∃ i, o.mask i = true) → ∀ mean cov a,
      SMachine.bierUpdate store p mean cov none a
        = SMachine.bierUpdate store p mean cov (some o) a := by
  have key : ∀ {o o' : M.Row m}, Machine.Row.Sim o o' → ∀ inv : M.A m m,
      Machine.Row.Sim (⟨M.dotV m m inv o.val, o.mask⟩ : M.Row m) ⟨M.dotV m m inv o'.val, o'.mask⟩ :=
    fun ho inv => ⟨ho.1, fun hm => congrArg (M.dotV m m inv) (ho.2 hm)⟩
  refine ⟨fun hc => ?_, fun o o' ho mean cov a => ?_, fun o ⟨i, hi⟩ mean cov a => ?_⟩
  · have hr := bierRows_sim hc store p h
    refine ⟨by rw [SMachine.bierFilter, SMachine.bierFilter, hr],
      by rw [SMachine.bierSmooth, SMachine.bierSmooth, hr], ?_,
      fun k vars => bierEmLoop_sim hc store p vars h k p⟩
    simp only [SMachine.bierLoglik, hr, Machine.loglikLoop_sim p h]
  · simp only [SMachine.bierUpdate, UMachine.observed, bierCorrect_sim (key ho _)]
  · have hs : Machine.Row.Sim (UMachine.observed (M := M.toUMachine) none) o :=
      ⟨⟨fun _ => ⟨i, hi⟩, fun _ => ⟨i, rfl⟩⟩, fun h => absurd ⟨i, rfl⟩ h⟩
    simp only [SMachine.bierUpdate, bierCorrect_sim (key hs _)]
    rfl

/-- **C100.** The same for the square root `AdditiveUnscentedKalmanFilter`. -/
theorem C100_unscented_masked_values (p : M.UPar n m) (os os' : List (M.Row m))
    (h : List.Forall₂ Machine.Row.Sim os os') :
    SMachine.sqFilter p os = SMachine.sqFilter p os' ∧
    SMachine.sqSmooth p os = SMachine.sqSmooth p os' ∧
    (∀ o o' : M.Row m, Machine.Row.Sim o o' → ∀ x a,
      SMachine.sqUpdate p x (some o) a = SMachine.sqUpdate p x (some o') a) ∧
    ∀ o : M.Row m, (∃ i, o.mask i = true) → ∀ x a,
      SMachine.sqUpdate p x none a = SMachine.sqUpdate p x (some o) a := by
  have hr := sqFull_sim p h
  refine ⟨by rw [SMachine.sqFilter, SMachine.sqFilter, hr],
    by rw [SMachine.sqSmooth, SMachine.sqSmooth, hr],
    fun o o' ho x a => ?_, fun o ⟨i, hi⟩ x a => ?_⟩
  · simp only [SMachine.sqUpdate, UMachine.observed, sqCorrect_sim ho]
  · have hs : Machine.Row.Sim (UMachine.observed (M := M.toUMachine) none) o :=
      ⟨⟨fun _ => ⟨i, hi⟩, fun _ => ⟨i, rfl⟩⟩, fun h => absurd ⟨i, rfl⟩ h⟩
    simp only [SMachine.sqUpdate, sqCorrect_sim hs]
    rfl

/-- **C100.** The covariances that the two linear classes return depend on the data only through the
set of masked rows: neither the values nor the offsets nor the initial mean enter (they do not even
decide whether an exception is raised).  Nothing is assumed about products of matrices. -/
theorem C100_covariances (p p' : M.Par n m) (os os' : List (M.Row m)) (hp : p.SameCovs p')
    (h : List.Forall₂ (fun o o' : M.Row m => (o.missing ↔ o'.missing)) os os')
    (store : M.F → M.F) :
    ((SMachine.cholFilter p os).map (List.map Prod.snd)
        = (SMachine.cholFilter p' os').map (List.map Prod.snd) ∧
      (SMachine.cholSmooth p os).map (List.map Prod.snd)
        = (SMachine.cholSmooth p' os').map (List.map Prod.snd)) ∧
    ((SMachine.bierFilter store p os).map (List.map Prod.snd)
        = (SMachine.bierFilter store p' os').map (List.map Prod.snd) ∧
      (SMachine.bierSmooth store p os).map (List.map Prod.snd)
        = (SMachine.bierSmooth store p' os').map (List.map Prod.snd)) := by
  have key : ∀ r r' : Res (List (M.St n m)),
      r.map (List.map Machine.St.covs) = r'.map (List.map Machine.St.covs) →
      ((r >>= fun rows => pure (rows.map fun s => (s.filtMean, s.filtCov)) :
          Res (List (M.V n × M.A n n))).map (List.map Prod.snd)
        = (r' >>= fun rows => pure (rows.map fun s => (s.filtMean, s.filtCov)) :
          Res (List (M.V n × M.A n n))).map (List.map Prod.snd)) ∧
      ((r >>= fun rows => M.smoothFull p.A rows >>= fun sm =>
          pure (sm.map fun s => (s.mean, s.cov)) :
          Res (List (M.V n × M.A n n))).map (List.map Prod.snd)
        = (r' >>= fun rows => M.smoothFull p'.A rows >>= fun sm =>
          pure (sm.map fun s => (s.mean, s.cov)) :
          Res (List (M.V n × M.A n n))).map (List.map Prod.snd)) := by
    intro r r' hr
    rcases Machine.map_eq_map_iff.mp hr with ⟨e, rfl, rfl⟩ | ⟨l, l', rfl, rfl, e3⟩
    · exact ⟨rfl, rfl⟩
    · constructor
      · have := congrArg (List.map fun c : M.A n n × M.A n m × M.A n n => c.2.2) e3
        simp only [List.map_map] at this
        simp only [Bind.bind, Except.bind, Pure.pure, Except.pure, Except.map, List.map_map]
        exact congrArg Except.ok this
      · have hs := Machine.smoothFull_covs p'.A e3
        simp only [Bind.bind, Except.bind, hp.A]
        rcases Machine.map_eq_map_iff.mp hs with ⟨e, e1, e2⟩ | ⟨sm, sm', e1, e2, e4⟩
        · rw [e1, e2]
        · rw [e1, e2]
          simp only [Pure.pure, Except.pure, Except.map, List.map_map]
          exact congrArg Except.ok e4
  exact ⟨key _ _ (cholRows_covs hp h), key _ _ (bierRows_covs store hp h)⟩

/-- **C100.** `smooth` returns as many rows as there are observations, and the last one is the last
row of `filter`. -/
theorem C100_last_row (os : List (M.Row m)) :
    (∀ (p : M.Par n m) s, SMachine.cholSmooth p os = .ok s → ∃ f, SMachine.cholFilter p os = .ok f ∧
      s.length = os.length ∧ f.length = os.length ∧ s ≠ [] ∧ s.getLast? = f.getLast?) ∧
    (∀ (store : M.F → M.F) (p : M.Par n m) s, SMachine.bierSmooth store p os = .ok s →
      ∃ f, SMachine.bierFilter store p os = .ok f ∧
      s.length = os.length ∧ f.length = os.length ∧ s ≠ [] ∧ s.getLast? = f.getLast?) ∧
    (∀ (p : M.UPar n m) s, SMachine.sqSmooth p os = .ok s → ∃ f, SMachine.sqFilter p os = .ok f ∧
      s.length = os.length ∧ f.length = os.length ∧ s ≠ [] ∧ s.getLast? = f.getLast?) := by
  have key : ∀ (A : TV (M.A n n)) (r : Res (List (M.St n m))) s,
      (∀ l, r = .ok l → l.length = os.length) →
      (r >>= fun rows => M.smoothFull A rows >>= fun sm =>
          pure (sm.map fun s => (s.mean, s.cov)) : Res (List (M.V n × M.A n n))) = .ok s →
      ∃ f, (r >>= fun rows => pure (rows.map fun s => (s.filtMean, s.filtCov)) :
          Res (List (M.V n × M.A n n))) = .ok f ∧
      s.length = os.length ∧ f.length = os.length ∧ s ≠ [] ∧ s.getLast? = f.getLast? := by
    intro A r s hl h
    cases r with
    | error e => cases h
    | ok l =>
    replace h : (M.smoothFull A l >>= fun sm => pure (sm.map fun s => (s.mean, s.cov)) :
      Res (List (M.V n × M.A n n))) = .ok s := h
    obtain ⟨sm, hsm, h⟩ := ok_bind_iff.mp h
    cases h
    obtain ⟨h1, h2, h3⟩ := Machine.smoothFull_last hsm
    exact ⟨_, rfl, by rw [List.length_map, h1, hl l rfl], by rw [List.length_map, hl l rfl],
      by simpa using h2, h3⟩
  refine ⟨fun p s h => key p.A _ s (fun l => cholRows_length) h,
    fun store p s h => key p.A _ s (fun l => bierRows_length) h, fun p s h => ?_⟩
  rw [SMachine.sqSmooth] at h
  obtain ⟨l, hl, h⟩ := ok_bind_iff.mp h
  obtain ⟨Q2, -, h⟩ := ok_bind_iff.mp h
  obtain ⟨l', hl', h⟩ := ok_bind_iff.mp h
  cases h
  obtain ⟨h1, h2, h3⟩ := backFull_last hl'
  have hlen := sqFull_length hl
  refine ⟨l.map unroot, by rw [SMachine.sqFilter, hl]; rfl, by rw [List.length_map]; omega,
    by rw [List.length_map]; omega, ?_, by rw [List.getLast?_map, List.getLast?_map, h1]⟩
  cases l' with
  | nil =>
    cases l with
    | nil => cases hl'
    | cons => simp at h2
  | cons => simp

/-- **C100.** Without observations `CholeskyKalmanFilter.filter` returns nothing (if the covariances
can be factorised), and no method of `BiermanKalmanFilter` that needs the covariances of a run
returns. -/
theorem C100_no_rows (store : M.F → M.F) (p : M.Par n m) :
    (∀ out, SMachine.cholFilter p [] = .ok out → out = []) ∧
    (∀ out, SMachine.cholSmooth p [] ≠ .ok out) ∧
    (∀ out, SMachine.bierFilter store p [] ≠ .ok out) ∧
    (∀ out, SMachine.bierSmooth store p [] ≠ .ok out) ∧
    (∀ x, SMachine.bierLoglik store p [] ≠ .ok x) ∧
    ∀ k vars p', SMachine.bierEm store p [] (k + 1) vars ≠ .ok p' := by
  refine ⟨fun out h => ?_, fun out h => ?_, fun out h => ?_, fun out h => ?_, fun x h => ?_,
    fun k vars p' h => ?_⟩
  · obtain ⟨l, hl, h⟩ := ok_bind_iff.mp h
    cases h
    have := cholRows_length hl
    rw [List.length_eq_zero_iff.mp this]
    rfl
  · obtain ⟨l, hl, h⟩ := ok_bind_iff.mp h
    obtain ⟨sm, hsm, h⟩ := ok_bind_iff.mp h
    have := cholRows_length hl
    rw [List.length_eq_zero_iff.mp this] at hsm
    cases hsm
  · obtain ⟨l, hl, h⟩ := ok_bind_iff.mp h
    exact bierRows_nil _ _ _ hl
  · obtain ⟨l, hl, h⟩ := ok_bind_iff.mp h
    exact bierRows_nil _ _ _ hl
  · obtain ⟨l, hl, h⟩ := ok_bind_iff.mp h
    exact bierRows_nil _ _ _ hl
  · rw [SMachine.bierEm, SMachine.bierEmLoop] at h
    obtain ⟨l, hl, h⟩ := ok_bind_iff.mp h
    exact bierRows_nil _ _ _ hl

/-- **C100.** A constant parameter given once, and the same parameter repeated for every time step,
give the same results (`CholeskyKalmanFilter`; its covariances cannot vary in time). -/
theorem C100_cholesky_constant_equals_repeated (p p' : M.Par n m) (os : List (M.Row m))
    (hA : p.A.Repeats p'.A (os.length - 1)) (hb : p.b.Repeats p'.b (os.length - 1))
    (hC : p.C.Repeats p'.C os.length) (hd : p.d.Repeats p'.d os.length)
    (hQ : p.Q = p'.Q) (hR : p.R = p'.R) (hmu : p.mu0 = p'.mu0) (hS : p.S0 = p'.S0) :
    SMachine.cholFilter p os = SMachine.cholFilter p' os ∧
    SMachine.cholSmooth p os = SMachine.cholSmooth p' os := by
  have hr : SMachine.cholRows p os = SMachine.cholRows p' os := cholRows_agree
    ⟨fun t ht => hA.lastDims (by omega), fun t ht => hb.lastDims (by omega),
     fun t ht => hC.lastDims ht, fun t ht => hd.lastDims ht, hQ, hR, hmu, hS⟩
  refine ⟨by rw [SMachine.cholFilter, SMachine.cholFilter, hr], ?_⟩
  rw [SMachine.cholSmooth, SMachine.cholSmooth, hr]
  cases hl : SMachine.cholRows p' os with
  | error e => rfl
  | ok l =>
    have := cholRows_length hl
    simp only [Bind.bind, Except.bind]
    rw [Machine.smoothFull_agree fun i hi => hA.lastDims (by omega)]

/-- **C100.** The same for `BiermanKalmanFilter`, for all parameters but the observation offsets
(repeated offsets are decorrelated with one product of matrices, a single one with a product of a
matrix and a vector). -/
theorem C100_bierman_constant_equals_repeated (store : M.F → M.F) (p p' : M.Par n m)
    (os : List (M.Row m))
    (hA : p.A.Repeats p'.A (os.length - 1)) (hb : p.b.Repeats p'.b (os.length - 1))
    (hC : p.C.Repeats p'.C os.length) (hd : p.d = p'.d)
    (hQ : p.Q = p'.Q) (hR : p.R = p'.R) (hmu : p.mu0 = p'.mu0) (hS : p.S0 = p'.S0) :
    SMachine.bierFilter store p os = SMachine.bierFilter store p' os ∧
    SMachine.bierSmooth store p os = SMachine.bierSmooth store p' os := by
  have hr : SMachine.bierRows store p os = SMachine.bierRows store p' os := bierRows_agree store
    ⟨fun t ht => hA.lastDims (by omega), fun t ht => hb.lastDims (by omega),
     fun t ht => hC.lastDims ht, hd, hQ, hR, hmu, hS⟩
  refine ⟨by rw [SMachine.bierFilter, SMachine.bierFilter, hr], ?_⟩
  rw [SMachine.bierSmooth, SMachine.bierSmooth, hr]
  cases hl : SMachine.bierRows store p' os with
  | error e => rfl
  | ok l =>
    have := bierRows_length hl
    simp only [Bind.bind, Except.bind]
    rw [Machine.smoothFull_agree fun i hi => hA.lastDims (by omega)]

/-- **C100.** Only the functions of the times that occur matter: lists of functions that agree at
these times (for example a single function, and the same function repeated) give the same. -/
theorem C100_functions_in_use (os : List (M.Row m)) (p p' : M.UPar n m)
    (hf : UMachine.AgreeBefore p.f p'.f (os.length - 1)) (hg : UMachine.AgreeBefore p.g p'.g os.length)
    (hQ : p.Q = p'.Q) (hR : p.R = p'.R) (hm : p.mu0 = p'.mu0) (hS : p.S0 = p'.S0) :
    SMachine.sqFilter p os = SMachine.sqFilter p' os ∧
    SMachine.sqSmooth p os = SMachine.sqSmooth p' os := by
  have hr : SMachine.sqFull p os = SMachine.sqFull p' os := sqFull_agree hf hg hQ hR hm hS
  refine ⟨by rw [SMachine.sqFilter, SMachine.sqFilter, hr], ?_⟩
  rw [SMachine.sqSmooth, SMachine.sqSmooth, hr, hQ]
  cases hl : SMachine.sqFull p' os with
  | error e => rfl
  | ok l =>
    have hlen := sqFull_length hl
    simp only [Bind.bind, Except.bind]
    cases M.chol n p'.Q with
    | error e => rfl
    | ok Q2 =>
      simp only
      rw [UMachine.backFull_times l fun t s s' ht => ?_]
      simp only [SMachine.sqSmoothStep, hf t (by omega)]

/-- **C100.** `em` changes no parameter outside `em_vars`. -/
theorem C100_em_only_selected {p p' : M.Par n m} {os : List (M.Row m)} {k : ℕ}
    {vars : EmVar → Bool} :
    (SMachine.cholEm p os k vars = .ok p' → p.AgreeOff vars p') ∧
    ∀ store : M.F → M.F, SMachine.bierEm store p os k vars = .ok p' → p.AgreeOff vars p' :=
  ⟨cholEmLoop_agreeOff ⟨fun _ => rfl, fun _ => rfl, fun _ => rfl, fun _ => rfl, fun _ => rfl,
    fun _ => rfl, fun _ => rfl, fun _ => rfl⟩, fun _ => bierEmLoop_agreeOff ⟨fun _ => rfl,
    fun _ => rfl, fun _ => rfl, fun _ => rfl, fun _ => rfl, fun _ => rfl, fun _ => rfl,
    fun _ => rfl⟩⟩

/-- **C100.** `em` with `a + b` iterations is `em` with `a` iterations followed by a second call
with `b` iterations, also when one of the calls raises.  (In `BiermanKalmanFilter` an
`initial_state_covariance` of integers is stored as floats once it has been estimated.) -/
theorem C100_em_add (p : M.Par n m) (os : List (M.Row m)) (vars : EmVar → Bool) (a b : ℕ) :
    (SMachine.cholEm p os (a + b) vars
      = SMachine.cholEm p os a vars >>= fun p' => SMachine.cholEm p' os b vars) ∧
    ∀ store : M.F → M.F, SMachine.bierEm store p os (a + b) vars
      = SMachine.bierEm store p os a vars >>= fun p' =>
        SMachine.bierEm (if 0 < a ∧ vars .initialStateCovariance then id else store) p' os b vars := by
  constructor
  · rw [SMachine.cholEm, cholEmLoop_add]
    cases h : SMachine.cholEmLoop p vars os a p with
    | error e => simp only [SMachine.cholEm, h]; rfl
    | ok p' =>
      simp only [SMachine.cholEm, h, Bind.bind, Except.bind]
      exact cholEmLoop_given (C100_em_only_selected.1 h) os b p'
  · intro store
    rw [SMachine.bierEm, bierEmLoop_add]
    cases h : SMachine.bierEmLoop store p vars os a p with
    | error e => simp only [SMachine.bierEm, h]; rfl
    | ok p' =>
      simp only [SMachine.bierEm, h, Bind.bind, Except.bind]
      exact bierEmLoop_given _ (C100_em_only_selected.2 store h) os b p'

/-- **C100.** `filter_update` factorises the covariance it is given; `filter` goes on with the factor
it has.  If factorising the last covariance that `filter` returned gives the factor that `filter`
had, then `filter_update` continues the run bit for bit (`CholeskyKalmanFilter`). -/
theorem C100_cholesky_online (p : M.Par n m) (xs : List (M.Row m)) (l : List (M.CSt n)) (s : M.CSt n)
    (h : SMachine.cholFull p xs = .ok l) (hs : l.getLast? = some s)
    (hc : M.cholL n (SMachine.reconstruct s.filtCov2) = .ok s.filtCov2)
    (a : M.toMachine.Args n m) (ha : a.For p (xs.length - 1)) :
    ∃ out, SMachine.cholFilter p xs = .ok out ∧
      out.getLast? = some (s.filtMean, SMachine.reconstruct s.filtCov2) ∧
      ∀ o, SMachine.cholFilter p (xs ++ [o])
        = (SMachine.cholUpdate p s.filtMean (SMachine.reconstruct s.filtCov2) (some o) a).map
          fun r => out ++ [r] := by
  refine ⟨l.map fun s => (s.filtMean, SMachine.reconstruct s.filtCov2), ?_, ?_,
    cholFilter_append h hs ha hc⟩
  · rw [SMachine.cholFilter, SMachine.cholRows, h]
    simp only [Bind.bind, Except.bind, Pure.pure, Except.pure, List.map_map]
    rfl
  · rw [List.getLast?_map, hs]
    rfl

/-- **C100.** The same for `BiermanKalmanFilter`, if products of matrices are computed column by
column, each as a product with a vector. -/
theorem C100_bierman_online (hcw : M.ColumnWise) (h1 : M.SingleColumn) (store store' : M.F → M.F)
    (p : M.Par n m) (hQ : p.Q.IsConst) (xs : List (M.Row m)) (l : List (M.BSt n)) (s : M.BSt n)
    (h : SMachine.bierFull store p xs = .ok l) (hs : l.getLast? = some s)
    (hc : SMachine.udu store' s.filtCov.reconstruct = .ok s.filtCov)
    (a : M.toMachine.Args n m) (ha : a.For p (xs.length - 1)) :
    ∃ out, SMachine.bierFilter store p xs = .ok out ∧
      out.getLast? = some (s.filtMean, s.filtCov.reconstruct) ∧
      ∀ o, SMachine.bierFilter store p (xs ++ [o])
        = (SMachine.bierUpdate store' p s.filtMean s.filtCov.reconstruct (some o) a).map
          fun r => out ++ [r] := by
  refine ⟨l.map fun s => (s.filtMean, s.filtCov.reconstruct), ?_, ?_,
    bierFilter_append hcw h1 hQ h hs ha hc⟩
  · rw [SMachine.bierFilter, SMachine.bierRows, h]
    cases l with
    | nil => cases hs
    | cons s0 l =>
      simp only [Bind.bind, Except.bind, Pure.pure, Except.pure, List.map_map]
      rfl
  · rw [List.getLast?_map, hs]
    rfl

/-- **C100.** The same for the square root `AdditiveUnscentedKalmanFilter`. -/
theorem C100_unscented_online (p : M.UPar n m) (xs : List (M.Row m)) (l : List (M.Mom n))
    (s : M.Mom n) (h : SMachine.sqFull p xs = .ok l) (hs : l.getLast? = some s)
    (hc : M.chol n (SMachine.unroot s).cov = .ok s.cov)
    (a : M.UArgs n m) (ha : a.For p (xs.length - 1)) :
    ∃ out, SMachine.sqFilter p xs = .ok out ∧ out.getLast? = some (SMachine.unroot s) ∧
      ∀ o, SMachine.sqFilter p (xs ++ [o])
        = (SMachine.sqUpdate p (SMachine.unroot s) (some o) a).map fun r => out ++ [r] := by
  refine ⟨l.map SMachine.unroot, ?_, ?_, sqFilter_append h hs ha hc⟩
  · rw [SMachine.sqFilter, h]
    rfl
  · rw [List.getLast?_map, hs]
    rfl

/-! ### A library that treats the columns at the edge differently -/

/-- A machine on which an entry of a product of matrices depends on the number of columns. -/
def edge : SMachine where
  F := ℤ
  zero := 0
  one := 1
  count k := k
  add x y := x + y
  sub x y := x - y
  mul x y := x * y
  div x _ := x
  dotV _ _ _ _ := fun _ => 1
  dotM _ _ r _ _ := fun _ _ => r
  pinv _ X := .ok X
  logpdf _ _ _ _ := .ok 0
  sum l := l.sum
  three := 3
  half := 0
  sqrt _ := 1
  chol _ X := .ok X
  cholL _ X := .ok X
  qr _ _ X := .ok X
  lstsq _ _ _ _ _ := .ok fun _ _ => 0
  dotVM _ _ _ _ := fun _ => 1
  dot _ _ _ := 0
  allClose _ _ := true
  positive x := decide (x > 0)
  negative x := decide (x < 0)
  square x := x * x
  abs x := |x|
  sign x := x.sign
  minusOne := -1

/-- One state, one sensor, all matrices one. -/
def exEdge : edge.Par 1 1 :=
  ⟨.const fun _ _ => (1 : ℤ), .const fun _ => (0 : ℤ), .const fun _ _ => (1 : ℤ),
    .const fun _ _ => (1 : ℤ), .const fun _ => (0 : ℤ), .const fun _ _ => (1 : ℤ),
    fun _ => (0 : ℤ), fun _ _ => (1 : ℤ)⟩

/-- An observation without mask. -/
def exEdgeRow : edge.Row 1 := ⟨fun _ => (5 : ℤ), fun _ => false⟩

/-- **C100.** Without column by column products, what `BiermanKalmanFilter.filter` returns for the
first observation can change when a second one is added: the hypothesis of `C100_causal` is
needed.  (The same run of `CholeskyKalmanFilter` does not change.) -/
theorem C100_bierman_not_causal :
    ∃ (p : edge.Par 1 1) (o : edge.Row 1), (∃ x, SMachine.bierFilter id p [o] = .ok [x] ∧
      ∀ y z, SMachine.bierFilter id p [o, o] = .ok [y, z] → x.1 0 ≠ y.1 0) ∧
    ∃ y z, SMachine.bierFilter id p [o, o] = .ok [y, z] := by
  refine ⟨exEdge, exEdgeRow, ⟨_, rfl, fun y z h => ?_⟩, _, _, rfl⟩
  cases h
  show ¬ (0 : ℤ) = 1
  decide

/-! ### Exact arithmetic is one of the machines -/

/-- **C100.** On the reals with exact operations and any QR routine the functions are those of
`Model/Cholesky`, `Model/Bierman` and, wherever the latter model does not meet a division by zero,
`Model/SqrtUnscented`; products of matrices are column by column. -/
theorem C100_machines (qr : QR) (p : Params n m) (u : UParams n m) (os : List (Obs m))
    (store : ℝ → ℝ) :
    (SMachine.cholFilter (ExactS.par qr p) (os.map (ExactS.row qr)) = cholFilter qr p os ∧
     SMachine.cholSmooth (ExactS.par qr p) (os.map (ExactS.row qr)) = cholSmooth qr p os ∧
     SMachine.cholLoglik (ExactS.par qr p) (os.map (ExactS.row qr)) = cholLoglik qr p os ∧
     (∀ mean cov o a, SMachine.cholUpdate (ExactS.par qr p) (ExactS.vx qr mean) (ExactS.mx qr cov)
        (o.map (ExactS.row qr)) (ExactS.args qr a)
       = (cholUpdate qr p mean cov o a).map fun r => (r.1, r.2 0)) ∧
     ∀ k vars, SMachine.cholEm (ExactS.par qr p) (os.map (ExactS.row qr)) k vars
       = (cholEm qr p os k vars).map (ExactS.par qr)) ∧
    (SMachine.bierFilter (M := exactSMachine qr) store (ExactS.par qr p) (os.map (ExactS.row qr))
        = bierFilter store p os ∧
     SMachine.bierSmooth (M := exactSMachine qr) store (ExactS.par qr p) (os.map (ExactS.row qr))
        = bierSmooth store p os ∧
     SMachine.bierLoglik (M := exactSMachine qr) store (ExactS.par qr p) (os.map (ExactS.row qr))
        = bierLoglik store p os ∧
     (∀ mean cov o a, SMachine.bierUpdate (M := exactSMachine qr) store (ExactS.par qr p)
        (ExactS.vx qr mean) (ExactS.mx qr cov) (o.map (ExactS.row qr)) (ExactS.args qr a)
       = (bierUpdate store p mean cov o a).map fun r => (r.1, r.2 0)) ∧
     ∀ k vars, SMachine.bierEm (M := exactSMachine qr) store (ExactS.par qr p)
        (os.map (ExactS.row qr)) k vars = (bierEm store p os k vars).map (ExactS.par qr)) ∧
    ((∀ out, sqFilter qr u os = .ok out →
        SMachine.sqFilter (ExactS.upar qr u) (os.map (ExactS.row qr)) = .ok (out.map (ExactS.mom qr))) ∧
     (∀ out, sqSmooth qr u os = .ok out →
        SMachine.sqSmooth (ExactS.upar qr u) (os.map (ExactS.row qr)) = .ok (out.map (ExactS.mom qr))) ∧
     ∀ x o a y, sqUpdate qr u x o a = .ok y → SMachine.sqUpdate (ExactS.upar qr u) (ExactS.mom qr x)
        (o.map (ExactS.row qr)) (ExactS.uargs qr a) = .ok (ExactS.mom qr y)) ∧
    (exactSMachine qr).ColumnWise ∧ (exactSMachine qr).SingleColumn := by
  refine ⟨⟨ExactS.cholFilter_eq qr p os, ExactS.cholSmooth_eq qr p os, ExactS.cholLoglik_eq qr p os,
      ExactS.cholUpdate_eq qr p, ExactS.cholEm_eq qr p os⟩,
    ⟨ExactS.bierFilter_eq qr store p os, ExactS.bierSmooth_eq qr store p os,
      ExactS.bierLoglik_eq qr store p os, ExactS.bierUpdate_eq qr store p,
      ExactS.bierEm_eq qr store p os⟩,
    ⟨fun out => ExactS.sqFilter_ok qr, fun out => ExactS.sqSmooth_ok qr,
      fun x o a y => ExactS.sqUpdate_ok qr⟩, ?_, ?_⟩
  · intro k l r r' X Y Y' j j' h i
    show ∑ q, X i q * Y q j = ∑ q, X i q * Y' q j'
    exact Finset.sum_congr rfl fun q _ => by rw [h q]
  · intro k l X Y i
    rfl

/-! ### The hypotheses can be met -/

/-- `x > 0` -/
def floatPos (x : Float) : Bool := x > 0

/-- `x < 0` -/
def floatNeg (x : Float) : Bool := x < 0

/-- Scalar product, from left to right. -/
def floatDot {k : ℕ} (x y : Fin k → Float) : Float :=
  (List.ofFn fun i => x i * y i).foldl (· + ·) 0

/-- `np.sign` -/
def floatSign (x : Float) : Float := if floatPos x then 1 else if floatNeg x then -1 else 0

/-- The 64-bit floats.  The factorisations are written out for matrices with one column and raise for
others. -/
def sfloats : SMachine where
  toUMachine := ufloats
  cholL k X := ufloats.chol k X
  qr k l X := if l = 1 then
      .ok fun i j => if (i : ℕ) = 0 then
        Float.sqrt (floatDot (fun q => X q j) fun q => X q j) else (0 : Float)
    else .error .linAlgError
  lstsq a b c _ _ := .error .linAlgError
  dotVM k l x X := fun j => floatDot x fun i => X i j
  dot k x y := floatDot x y
  allClose _ _ := true
  positive := floatPos
  negative := floatNeg
  square (x : Float) := x * x
  abs (x : Float) := x.abs
  sign := floatSign
  minusOne := (-1 : Float)

/-- On this machine products of matrices are computed column by column, each as a product with a
vector. -/
example : sfloats.ColumnWise ∧ sfloats.SingleColumn := by
  refine ⟨fun k l r r' X Y Y' j j' h i => ?_, fun k l X Y i => rfl⟩
  show floatDot (X i) (fun q => Y q j) = floatDot (X i) fun q => Y' q j'
  rw [show (fun q => Y q j) = fun q => Y' q j' from funext h]

/-- As `edge`, but all products are computed column by column. -/
def edge1 : SMachine := { edge with dotM := fun _ _ _ _ _ _ _ => (1 : ℤ) }

/-- As `exEdge`. -/
def exEdge1 : edge1.Par 1 1 :=
  ⟨.const fun _ _ => (1 : ℤ), .const fun _ => (0 : ℤ), .const fun _ _ => (1 : ℤ),
    .const fun _ _ => (1 : ℤ), .const fun _ => (0 : ℤ), .const fun _ _ => (1 : ℤ),
    fun _ => (0 : ℤ), fun _ _ => (1 : ℤ)⟩

/-- The hypotheses of `C100_cholesky_online` and `C100_bierman_online`, for a run of one observation
(not masked). -/
example : edge1.ColumnWise ∧ edge1.SingleColumn ∧ exEdge1.Q.IsConst ∧
    ({} : edge1.toMachine.Args 1 1).For exEdge1 0 ∧
    (∃ l s, SMachine.cholFull exEdge1 [⟨fun _ => (5 : ℤ), fun _ => false⟩] = .ok l ∧
      l.getLast? = some s ∧ edge1.cholL 1 (SMachine.reconstruct s.filtCov2) = .ok s.filtCov2) ∧
    ∃ l s, SMachine.bierFull (M := edge1) id exEdge1 [⟨fun _ => (5 : ℤ), fun _ => false⟩] = .ok l ∧
      l.getLast? = some s ∧ SMachine.udu id s.filtCov.reconstruct = .ok s.filtCov := by
  refine ⟨fun k l r r' X Y Y' j j' h i => rfl, fun k l X Y i => rfl, ⟨_, rfl⟩,
    ⟨.inr ⟨rfl, _, rfl⟩, .inr ⟨rfl, _, rfl⟩, .inr ⟨rfl, _, rfl⟩, .inr ⟨rfl, _, rfl⟩,
      .inr ⟨rfl, _, rfl⟩, .inr ⟨rfl, _, rfl⟩⟩, ⟨_, _, rfl, rfl, ?_⟩, _, _, rfl, rfl, ?_⟩
  · refine congrArg Except.ok ?_
    funext i j
    fin_cases i
    fin_cases j
    rfl
  · refine congrArg Except.ok (congrArg₂ SMachine.UD.mk ?_ ?_)
    · funext i j
      fin_cases i
      fin_cases j
      rfl
    · funext i
      fin_cases i
      rfl

/-- A run of the square root unscented filter that ends, and whose last factor is the one that
`filter_update` finds. -/
example : ∃ (p : edge1.UPar 1 1) (l : List (edge1.Mom 1)) (s : edge1.Mom 1),
    ({} : edge1.UArgs 1 1).For p 0 ∧
    SMachine.sqFull p [⟨fun _ => (5 : ℤ), fun _ => true⟩] = .ok l ∧ l.getLast? = some s ∧
    edge1.chol 1 (SMachine.unroot s).cov = .ok s.cov := by
  refine ⟨⟨.flat [fun x => .ok x], .flat [fun x => .ok x], fun _ _ => (1 : ℤ), fun _ _ => (1 : ℤ),
    fun _ => (2 : ℤ), fun _ _ => (1 : ℤ)⟩, _, _, ⟨.inr ⟨rfl, _, rfl⟩, .inl rfl,
    .inr ⟨rfl, _, rfl⟩, .inl rfl⟩, rfl, rfl, ?_⟩
  refine congrArg Except.ok ?_
  funext i j
  fin_cases i
  fin_cases j
  show (1 : ℤ) = 1
  rfl

end Verif
