import Verif.Proofs.MachineUnscentedExact
import Verif.Props.Machine

/-!
# C97: what holds bit for bit in the unscented filters

`UnscentedKalmanFilter` and `AdditiveUnscentedKalmanFilter` on the numbers of any machine, with any
operations, with any transition and observation functions, which may raise.  Equations between
results are equations between all their bits, and include the exception if one is raised.
-/

namespace Verif

open UMachine

variable {M : UMachine} {n m : ℕ}

/-- **C97.** Filtering a prefix of the observations gives the prefix of the results, and if
filtering the prefix raises then filtering all observations raises the same. -/
theorem C97_causal (xs ys : List (M.Row m)) :
    (∀ (p : M.UPar n m),
      (∀ out, UMachine.aukfFilter p (xs ++ ys) = .ok out → UMachine.aukfFilter p xs = .ok (out.take xs.length)) ∧
      ∀ e, UMachine.aukfFilter p xs = .error e → UMachine.aukfFilter p (xs ++ ys) = .error e) ∧
    (∀ (p : M.GPar n m),
      (∀ out, UMachine.ukfFilter p (xs ++ ys) = .ok out → UMachine.ukfFilter p xs = .ok (out.take xs.length)) ∧
      ∀ e, UMachine.ukfFilter p xs = .error e → UMachine.ukfFilter p (xs ++ ys) = .error e) :=
  ⟨fun _ => ⟨fun _ h => run_take h, fun _ h => run_error ys h⟩,
    fun _ => ⟨fun _ h => run_take h, fun _ h => run_error ys h⟩⟩

/-- **C97.** A program that filters the first observation with `filter` and each further one with
`filter_update` gets what `filter` gives on all observations, or the same exception
(`AdditiveUnscentedKalmanFilter`). -/
theorem C97_additive_online_equals_batch (p : M.UPar n m) (a : ℕ → M.UArgs n m) (o : M.Row m)
    (os : List (M.Row m)) (ha : ∀ t, t < os.length → (a t).For p t) :
    (∀ r, UMachine.aukfFilter p [o] = .ok [r] → UMachine.aukfFilter p (o :: os)
      = (calls (fun t x o => UMachine.aukfUpdate p x (some o) (a t)) 0 r os).map (r :: ·)) ∧
    (∀ e, UMachine.aukfFilter p [o] = .error e → UMachine.aukfFilter p (o :: os) = .error e) ∧
    (∀ out, UMachine.aukfFilter p [o] = .ok out → ∃ r, out = [r]) :=
  run_online o os fun t x o ht => aukfStep_update (ha t ht) x o

/-- **C97.** The same for `UnscentedKalmanFilter`. -/
theorem C97_general_online_equals_batch (p : M.GPar n m) (a : ℕ → M.GArgs n m) (o : M.Row m)
    (os : List (M.Row m)) (ha : ∀ t, t < os.length → (a t).For p t) :
    (∀ r, UMachine.ukfFilter p [o] = .ok [r] → UMachine.ukfFilter p (o :: os)
      = (calls (fun t x o => UMachine.ukfUpdate p x (some o) (a t)) 0 r os).map (r :: ·)) ∧
    (∀ e, UMachine.ukfFilter p [o] = .error e → UMachine.ukfFilter p (o :: os) = .error e) ∧
    (∀ out, UMachine.ukfFilter p [o] = .ok out → ∃ r, out = [r]) :=
  run_online o os fun t x o ht => ukfStep_update (ha t ht) x o

/-- **C97.** Values in rows with a masked component have no influence, and `filter_update` without
an observation is `filter_update` with any row with a masked component. -/
theorem C97_masked_values (os os' : List (M.Row m)) (h : List.Forall₂ Machine.Row.Sim os os') :
    (∀ p : M.UPar n m, UMachine.aukfFilter p os = UMachine.aukfFilter p os' ∧ UMachine.aukfSmooth p os = UMachine.aukfSmooth p os' ∧
      (∀ o o' : M.Row m, Machine.Row.Sim o o' → ∀ x a,
        UMachine.aukfUpdate p x (some o) a = UMachine.aukfUpdate p x (some o') a) ∧
      ∀ o : M.Row m, (∃ i, o.mask i = true) → ∀ x a,
        UMachine.aukfUpdate p x none a = UMachine.aukfUpdate p x (some o) a) ∧
    (∀ p : M.GPar n m, UMachine.ukfFilter p os = UMachine.ukfFilter p os' ∧ UMachine.ukfSmooth p os = UMachine.ukfSmooth p os' ∧
      (∀ o o' : M.Row m, Machine.Row.Sim o o' → ∀ x a,
        UMachine.ukfUpdate p x (some o) a = UMachine.ukfUpdate p x (some o') a) ∧
      ∀ o : M.Row m, (∃ i, o.mask i = true) → ∀ x a,
        UMachine.ukfUpdate p x none a = UMachine.ukfUpdate p x (some o) a) := by
  have hn : ∀ o : M.Row m, (∃ i, o.mask i = true) → Machine.Row.Sim (observed (M := M) none) o :=
    fun o ⟨i, hi⟩ => ⟨⟨fun _ => ⟨i, hi⟩, fun _ => ⟨i, rfl⟩⟩, fun h => absurd ⟨i, rfl⟩ h⟩
  refine ⟨fun p => ?_, fun p => ?_⟩
  · have hf : UMachine.aukfFilter p os = UMachine.aukfFilter p os' := run_congr (UMachine.aukfStep_sim p) h 0 none
    refine ⟨hf, by rw [UMachine.aukfSmooth, UMachine.aukfSmooth, hf], fun o o' ho x a => ?_, fun o ho x a => ?_⟩
    · simp only [UMachine.aukfUpdate, observed, UMachine.ufCorrect_sim ho]
    · simp only [UMachine.aukfUpdate, UMachine.ufCorrect_sim (hn o ho)]
      rfl
  · have hf : UMachine.ukfFilter p os = UMachine.ukfFilter p os' := run_congr (UMachine.ukfStep_sim p) h 0 none
    refine ⟨hf, by rw [UMachine.ukfSmooth, UMachine.ukfSmooth, hf], fun o o' ho x a => ?_, fun o ho x a => ?_⟩
    · simp only [UMachine.ukfUpdate, observed, UMachine.ufCorrect₂_sim ho]
    · simp only [UMachine.ukfUpdate, UMachine.ufCorrect₂_sim (hn o ho)]
      rfl

/-- **C97.** `smooth` returns as many rows as there are observations, and the last one is the last
row of `filter`; without observations it raises `IndexError`. -/
theorem C97_last_row (os : List (M.Row m)) :
    (∀ p : M.UPar n m, (∀ out, UMachine.aukfSmooth p os = .ok out → ∃ l, UMachine.aukfFilter p os = .ok l ∧
      out.getLast? = l.getLast? ∧ out.length = os.length ∧ l.length = os.length) ∧
      UMachine.aukfSmooth p [] = .error .indexError) ∧
    (∀ p : M.GPar n m, (∀ out, UMachine.ukfSmooth p os = .ok out → ∃ l, UMachine.ukfFilter p os = .ok l ∧
      out.getLast? = l.getLast? ∧ out.length = os.length ∧ l.length = os.length) ∧
      UMachine.ukfSmooth p [] = .error .indexError) := by
  refine ⟨fun p => ⟨fun out h => ?_, rfl⟩, fun p => ⟨fun out h => ?_, rfl⟩⟩
  · obtain ⟨l, hl, h⟩ := ok_bind_iff.mp h
    obtain ⟨h1, h2, -⟩ := backFull_last h
    have := run_length hl
    exact ⟨l, hl, h1, by omega, this⟩
  · obtain ⟨l, hl, h⟩ := ok_bind_iff.mp h
    obtain ⟨h1, h2, -⟩ := backFull_last h
    have := run_length hl
    exact ⟨l, hl, h1, by omega, this⟩

/-- **C97.** Only the functions of the times that occur matter: lists of functions that agree at
these times (for example a single function, and the same function repeated) give the same. -/
theorem C97_functions_in_use (os : List (M.Row m)) :
    (∀ p p' : M.UPar n m, AgreeBefore p.f p'.f (os.length - 1) → AgreeBefore p.g p'.g os.length →
      p.Q = p'.Q → p.R = p'.R → p.mu0 = p'.mu0 → p.S0 = p'.S0 →
      UMachine.aukfFilter p os = UMachine.aukfFilter p' os ∧ UMachine.aukfSmooth p os = UMachine.aukfSmooth p' os) ∧
    (∀ p p' : M.GPar n m, AgreeBefore p.f p'.f (os.length - 1) → AgreeBefore p.g p'.g os.length →
      p.Q = p'.Q → p.R = p'.R → p.mu0 = p'.mu0 → p.S0 = p'.S0 →
      UMachine.ukfFilter p os = UMachine.ukfFilter p' os ∧ UMachine.ukfSmooth p os = UMachine.ukfSmooth p' os) := by
  constructor
  · intro p p' hf hg hQ hR hm hS
    have h1 : UMachine.aukfFilter p os = UMachine.aukfFilter p' os := by
      cases os with
      | nil => rfl
      | cons o os =>
        rw [UMachine.aukfFilter, UMachine.aukfFilter, run, run]
        have e0 : UMachine.aukfStep p 0 none o = UMachine.aukfStep p' 0 none o := by
          simp only [UMachine.aukfStep, hg 0 (by simp), hR, hm, hS]
        rw [e0]
        cases UMachine.aukfStep p' 0 none o with
        | error e => rfl
        | ok s =>
          simp only [Bind.bind, Except.bind]
          have : ∀ (os' : List (M.Row m)) (t : ℕ) (x : M.Mom n), t + os'.length ≤ os.length →
              run (UMachine.aukfStep p) (t + 1) (some x) os' = run (UMachine.aukfStep p') (t + 1) (some x) os' := by
            intro os'
            induction os' with
            | nil => intros; rfl
            | cons o' os' ih =>
              intro t x ht
              rw [List.length_cons] at ht
              have e : UMachine.aukfStep p (t + 1) (some x) o' = UMachine.aukfStep p' (t + 1) (some x) o' := by
                simp only [UMachine.aukfStep, hg (t + 1) (by rw [List.length_cons]; omega), hR, hQ,
                  Option.getD_some, Nat.add_sub_cancel,
                  hf t (by rw [List.length_cons]; omega)]
              rw [run, run, e]
              cases UMachine.aukfStep p' (t + 1) (some x) o' with
              | error e => rfl
              | ok y => simp only [Bind.bind, Except.bind, ih (t + 1) y (by omega)]
          rw [this os 0 s (by omega)]
    refine ⟨h1, ?_⟩
    rw [UMachine.aukfSmooth, UMachine.aukfSmooth, h1]
    cases hl : UMachine.aukfFilter p' os with
    | error e => rfl
    | ok l =>
      refine backFull_times l fun t s s' ht => ?_
      have := run_length hl
      simp only [UMachine.aukfSmoothStep, hf t (by omega), hQ]
  · intro p p' hf hg hQ hR hm hS
    have h1 : UMachine.ukfFilter p os = UMachine.ukfFilter p' os := by
      cases os with
      | nil => rfl
      | cons o os =>
        rw [UMachine.ukfFilter, UMachine.ukfFilter, run, run]
        have e0 : UMachine.ukfStep p 0 none o = UMachine.ukfStep p' 0 none o := by
          simp only [UMachine.ukfStep, hg 0 (by simp), hR, hQ, hm, hS]
        rw [e0]
        cases UMachine.ukfStep p' 0 none o with
        | error e => rfl
        | ok s =>
          simp only [Bind.bind, Except.bind]
          have : ∀ (os' : List (M.Row m)) (t : ℕ) (x : M.Mom n), t + os'.length ≤ os.length →
              run (UMachine.ukfStep p) (t + 1) (some x) os' = run (UMachine.ukfStep p') (t + 1) (some x) os' := by
            intro os'
            induction os' with
            | nil => intros; rfl
            | cons o' os' ih =>
              intro t x ht
              rw [List.length_cons] at ht
              have e : UMachine.ukfStep p (t + 1) (some x) o' = UMachine.ukfStep p' (t + 1) (some x) o' := by
                simp only [UMachine.ukfStep, hg (t + 1) (by rw [List.length_cons]; omega), hR, hQ,
                  Option.getD_some, Nat.add_sub_cancel,
                  hf t (by rw [List.length_cons]; omega)]
              rw [run, run, e]
              cases UMachine.ukfStep p' (t + 1) (some x) o' with
              | error e => rfl
              | ok y => simp only [Bind.bind, Except.bind, ih (t + 1) y (by omega)]
          rw [this os 0 s (by omega)]
    refine ⟨h1, ?_⟩
    rw [UMachine.ukfSmooth, UMachine.ukfSmooth, h1]
    cases hl : UMachine.ukfFilter p' os with
    | error e => rfl
    | ok l =>
      refine backFull_times l fun t s s' ht => ?_
      have := run_length hl
      simp only [UMachine.ukfSmoothStep, hf t (by omega), hQ]

/-! ### Exceptions -/

/-- **C97.** An exception of `filter` or `smooth` is one that `cholesky`, `pinv` or a user's
function raised, or there is no function for a time that occurs.  In particular, if none of these
raises then `filter` and (with at least one observation) `smooth` return. -/
theorem C97_exceptions {E : Err → Prop} (hc : ∀ k X, RaisesOnly E (M.chol k X))
    (hi : ∀ k X, RaisesOnly E (M.pinv k X)) (os : List (M.Row m)) :
    (∀ p : M.UPar n m,
      (∀ t, t + 1 < os.length → RaisesOnly E (p.f.at t) ∧
        ∀ f, p.f.at t = .ok f → ∀ x, RaisesOnly E (f x)) →
      (∀ t, t < os.length → RaisesOnly E (p.g.at t) ∧
        ∀ g, p.g.at t = .ok g → ∀ x, RaisesOnly E (g x)) →
      RaisesOnly E (UMachine.aukfFilter p os) ∧ (os ≠ [] → RaisesOnly E (UMachine.aukfSmooth p os))) ∧
    (∀ p : M.GPar n m,
      (∀ t, t + 1 < os.length → RaisesOnly E (p.f.at t) ∧
        ∀ f, p.f.at t = .ok f → ∀ x w, RaisesOnly E (f x w)) →
      (∀ t, t < os.length → RaisesOnly E (p.g.at t) ∧
        ∀ g, p.g.at t = .ok g → ∀ x v, RaisesOnly E (g x v)) →
      RaisesOnly E (UMachine.ukfFilter p os) ∧ (os ≠ [] → RaisesOnly E (UMachine.ukfSmooth p os))) := by
  constructor
  · intro p hf hg
    have h1 : RaisesOnly E (UMachine.aukfFilter p os) := by
      have h0 : ∀ o, os ≠ [] → RaisesOnly E (UMachine.aukfStep p 0 none o) := fun o ho =>
        raisesOnly_aukfStep hc hi o (fun h => absurd rfl h)
          (hg 0 (List.length_pos_iff.mpr ho))
      cases os with
      | nil => exact .pure _
      | cons o os =>
        rw [UMachine.aukfFilter, run]
        refine (h0 o (by simp)).bind fun s _ => RaisesOnly.bind ?_ fun _ _ => .pure _
        refine run_raises os 1 (some s) (fun i prev o hi' _ => ?_) (by simp)
        refine raisesOnly_aukfStep hc hi o (fun _ => ?_) (hg (1 + i) (by simp; omega))
        rw [show 1 + i - 1 = i by omega]
        exact hf i (by simp; omega)
    refine ⟨h1, fun ho => h1.bind fun l hl => ?_⟩
    have hlen := run_length hl
    refine raisesOnly_backFull (fun h => ho ?_) fun t s s' ht => ?_
    · rw [h] at hlen
      exact List.length_eq_zero_iff.mp hlen.symm
    · obtain ⟨h2, h3⟩ := hf t (by omega)
      exact (raisesOnly_moments2points hc _).bind fun pts _ => h2.bind fun f hf' =>
        (raisesOnly_through _ (h3 f hf')).bind fun q _ => raisesOnly_ufSmooth hi _ _ _ _ _
  · intro p hf hg
    have h1 : RaisesOnly E (UMachine.ukfFilter p os) := by
      have h0 : ∀ o, os ≠ [] → RaisesOnly E (UMachine.ukfStep p 0 none o) := fun o ho =>
        raisesOnly_ukfStep hc hi o (fun h => absurd rfl h)
          (hg 0 (List.length_pos_iff.mpr ho))
      cases os with
      | nil => exact .pure _
      | cons o os =>
        rw [UMachine.ukfFilter, run]
        refine (h0 o (by simp)).bind fun s _ => RaisesOnly.bind ?_ fun _ _ => .pure _
        refine run_raises os 1 (some s) (fun i prev o hi' _ => ?_) (by simp)
        refine raisesOnly_ukfStep hc hi o (fun _ => ?_) (hg (1 + i) (by simp; omega))
        rw [show 1 + i - 1 = i by omega]
        exact hf i (by simp; omega)
    refine ⟨h1, fun ho => h1.bind fun l hl => ?_⟩
    have hlen := run_length hl
    refine raisesOnly_backFull (fun h => ho ?_) fun t s s' ht => ?_
    · rw [h] at hlen
      exact List.length_eq_zero_iff.mp hlen.symm
    · obtain ⟨h2, h3⟩ := hf t (by omega)
      exact ((raisesOnly_moments2points hc _).bind fun _ _ => .pure _).bind fun pts _ =>
        h2.bind fun f hf' =>
        (raisesOnly_through₂ _ _ (h3 f hf')).bind fun q _ => raisesOnly_ufSmooth hi _ _ _ _ _

/-- **C97.** The observation function is called for masked rows too: if it raises on every
argument then `filter` does not return, whatever is masked. -/
theorem C97_masked_rows_call_observation_function (o : M.Row m) (xs ys : List (M.Row m)) :
    (∀ (p : M.UPar n m) (g : M.V n → Res (M.V m)), p.g.at xs.length = .ok g →
      (∀ x, ∃ e, g x = .error e) → ∀ out, UMachine.aukfFilter p (xs ++ o :: ys) ≠ .ok out) ∧
    (∀ (p : M.GPar n m) (g : M.V n → M.V m → Res (M.V m)), p.g.at xs.length = .ok g →
      (∀ x v, ∃ e, g x v = .error e) → ∀ out, UMachine.ukfFilter p (xs ++ o :: ys) ≠ .ok out) := by
  have key : ∀ {step : ℕ → Option (M.Mom n) → M.Row m → Res (M.Mom n)},
      (∀ prev x, step xs.length prev o ≠ .ok x) →
      ∀ out, run step 0 none (xs ++ o :: ys) ≠ .ok out := by
    intro step h out ho
    rw [run_append] at ho
    obtain ⟨l, -, ho⟩ := ok_bind_iff.mp ho
    rw [run, Nat.zero_add] at ho
    cases hs : step xs.length (l.getLast?.or none) o with
    | error e => rw [hs] at ho; cases ho
    | ok x => exact h _ _ hs
  constructor
  · intro p g hg hr
    have hcorr : ∀ {N : ℕ} (pred : M.Mom n) (pts : M.Pts (N + 1) n) x,
        UMachine.ufCorrect g pred pts o p.R ≠ .ok x := by
      intro N pred pts x h
      obtain ⟨e, he⟩ := hr (pts.points 0)
      rw [UMachine.ufCorrect, Pts.through, comprehension, he] at h
      cases h
    refine key fun prev x h => ?_
    rw [UMachine.aukfStep] at h
    obtain ⟨pts, -, h⟩ := ok_bind_iff.mp h
    cases prev with
    | none =>
      rw [hg] at h
      exact hcorr _ _ _ h
    | some s =>
      obtain ⟨f, -, h⟩ := ok_bind_iff.mp h
      obtain ⟨q, -, h⟩ := ok_bind_iff.mp h
      obtain ⟨pts', -, h⟩ := ok_bind_iff.mp h
      rw [hg] at h
      exact hcorr _ _ _ h
  · intro p g hg hr
    have hcorr : ∀ {N : ℕ} (pred : M.Mom n) (pts : M.Pts (N + 1) n) w x,
        UMachine.ufCorrect₂ g pred pts o w ≠ .ok x := by
      intro N pred pts w x h
      obtain ⟨e, he⟩ := hr (pts.points 0) (w.points 0)
      rw [UMachine.ufCorrect₂, Pts.through₂, comprehension, he] at h
      cases h
    refine key fun prev x h => ?_
    rw [UMachine.ukfStep] at h
    obtain ⟨pts, -, h⟩ := ok_bind_iff.mp h
    cases prev with
    | none =>
      rw [hg] at h
      exact hcorr _ _ _ _ h
    | some s =>
      obtain ⟨f, -, h⟩ := ok_bind_iff.mp h
      obtain ⟨q, -, h⟩ := ok_bind_iff.mp h
      rw [hg] at h
      exact hcorr _ _ _ _ h

/-! ### Machines -/

/-- **C97.** Exact arithmetic and every arithmetic with rounding errors are machines: on them the
functions of this file are those of `Model/Unscented` and `Model/RoundedUnscented`. -/
theorem C97_machines (p : UParams n m) (q : GParams n m) (os : List (Obs m)) :
    ((UMachine.aukfFilter (ExactU.upar p) (os.map ExactU.urow)
        = (Verif.aukfFilter p os).map (List.map ExactU.mom) ∧
      UMachine.aukfSmooth (ExactU.upar p) (os.map ExactU.urow)
        = (Verif.aukfSmooth p os).map (List.map ExactU.mom) ∧
      ∀ x o a, UMachine.aukfUpdate (ExactU.upar p) (ExactU.mom x) (o.map ExactU.urow) (ExactU.uargs a)
        = (Verif.aukfUpdate p x o a).map ExactU.mom) ∧
     (UMachine.ukfFilter (ExactU.gpar q) (os.map ExactU.urow)
        = (Verif.ukfFilter q os).map (List.map ExactU.mom) ∧
      UMachine.ukfSmooth (ExactU.gpar q) (os.map ExactU.urow)
        = (Verif.ukfSmooth q os).map (List.map ExactU.mom) ∧
      ∀ x o a, UMachine.ukfUpdate (ExactU.gpar q) (ExactU.mom x) (o.map ExactU.urow) (ExactU.gargs a)
        = (Verif.ukfUpdate q x o a).map ExactU.mom)) ∧
    (∀ {c : ℕ → ℝ} {u : ℝ} (ar : ArithU c u),
      UMachine.aukfFilter (RoundedU.upar ar p) (os.map (RoundedU.urow ar))
        = (flAukfFilter ar p os).map (List.map (RoundedU.mom ar)) ∧
      UMachine.aukfSmooth (RoundedU.upar ar p) (os.map (RoundedU.urow ar))
        = (flAukfSmooth ar p os).map (List.map (RoundedU.mom ar)) ∧
      UMachine.ukfFilter (RoundedU.gpar ar q) (os.map (RoundedU.urow ar))
        = (flUkfFilter ar q os).map (List.map (RoundedU.mom ar)) ∧
      UMachine.ukfSmooth (RoundedU.gpar ar q) (os.map (RoundedU.urow ar))
        = (flUkfSmooth ar q os).map (List.map (RoundedU.mom ar))) :=
  ⟨⟨⟨ExactU.aukfFilter_eq p os, ExactU.aukfSmooth_eq p os, ExactU.aukfUpdate_eq p⟩,
    ExactU.ukfFilter_eq q os, ExactU.ukfSmooth_eq q os, ExactU.ukfUpdate_eq q⟩,
   fun ar => ⟨RoundedU.aukfFilter_eq ar p os, RoundedU.aukfSmooth_eq ar p os,
    RoundedU.ukfFilter_eq ar q os, RoundedU.ukfSmooth_eq ar q os⟩⟩

/-! ### The hypotheses can be met -/

/-- A finite positive float. -/
def posFloat (x : Float) : Bool := x.isFinite && decide (0 < x)

/-- A float that is not negative. -/
def nonnegFloat (x : Float) : Bool := decide (0 ≤ x)

/-- The 64-bit floats.  `cholesky` is written out for matrices with one row and raises for others,
for negative numbers, and for `nan` and infinity. -/
def ufloats : UMachine where
  toMachine := floats
  three := (3 : Float)
  half := (0.5 : Float)
  sqrt x := Float.sqrt x
  chol k X := if h : k = 1 then
      if posFloat (X ⟨0, by omega⟩ ⟨0, by omega⟩) then
        .ok fun i j => Float.sqrt (X i j)
      else .error .linAlgError
    else .error .linAlgError

/-- A pendulum with an observation function that raises `ValueError` outside its domain; two
transition functions. -/
def exUfloats : ufloats.UPar 1 1 :=
  ⟨.nested [[fun x => .ok fun i => Float.sin (x i)], [fun x => .ok fun i => Float.cos (x i)]],
    .flat [fun x => if nonnegFloat (x 0) then .ok fun i => Float.sqrt (x i) else .error .valueError],
    fun _ _ => (1 : Float), fun _ _ => (1 : Float), fun _ => (0 : Float), fun _ _ => (1 : Float)⟩

/-- Arguments as `C97_additive_online_equals_batch` requires: the transition function is passed, all
others are omitted. -/
example : ∃ a : ℕ → ufloats.UArgs 1 1, ∀ t, t < 2 → (a t).For exUfloats t := by
  refine ⟨fun t => { f := some (if t = 0 then fun x => .ok fun i => Float.sin (x i) else
    fun x => .ok fun i => Float.cos (x i)) }, fun t ht => ⟨.inl ⟨_, rfl, ?_⟩, .inl rfl,
    .inr ⟨rfl, _, rfl⟩, .inl rfl⟩⟩
  match t, ht with
  | 0, _ => rfl
  | 1, _ => rfl

/-- Arguments as `C97_general_online_equals_batch` requires. -/
example (p : ufloats.GPar 1 1) (f : ufloats.V 1 → ufloats.V 1 → Res (ufloats.V 1))
    (g : ufloats.V 1 → ufloats.V 1 → Res (ufloats.V 1)) (hf : p.f = .flat [f])
    (hg : p.g = .flat [g]) (t : ℕ) : ({} : ufloats.GArgs 1 1).For p t :=
  ⟨.inr ⟨rfl, f, hf⟩, .inl rfl, .inr ⟨rfl, g, hg⟩, .inl rfl⟩

/-- A single function and the same function repeated agree at the times that occur. -/
example {α : Type} (f : α) (T : ℕ) :
    AgreeBefore (.flat [f]) (.nested (List.replicate T [f])) T := by
  intro t ht
  simp [Fns.at, List.getElem?_replicate, ht, first]

/-- On this machine the linear algebra raises `LinAlgError` and `ValueError` only, and so do the
functions of `exUfloats` for two observations. -/
example : (∀ k X, RaisesOnly (fun e => e = .linAlgError ∨ e = .valueError) (ufloats.chol k X)) ∧
    (∀ k X, RaisesOnly (fun e => e = .linAlgError ∨ e = .valueError) (ufloats.pinv k X)) ∧
    ∀ t, t < 3 → RaisesOnly (fun e => e = .linAlgError ∨ e = .valueError) (exUfloats.g.at t) ∧
      ∀ g, exUfloats.g.at t = .ok g → ∀ x,
        RaisesOnly (fun e => e = .linAlgError ∨ e = .valueError) (g x) := by
  refine ⟨fun k X e he => ?_, fun k X e he => ?_, fun t _ => ⟨fun e he => ?_, fun g hg x e he => ?_⟩⟩
  · simp only [ufloats] at he
    split_ifs at he <;> cases he <;> exact .inl rfl
  · simp only [ufloats, floats] at he
    split_ifs at he <;> cases he <;> first | exact .inl rfl | exact .inr rfl
  · cases he
  · cases hg
    simp only at he
    split_ifs at he <;> cases he
    exact .inr rfl

/-- An observation function that always raises, on a masked row. -/
example : ∃ (p : ufloats.UPar 1 1) (o : ufloats.Row 1) (g : ufloats.V 1 → Res (ufloats.V 1)),
    (∃ i, o.mask i = true) ∧ p.g.at 0 = .ok g ∧ ∀ x, ∃ e, g x = .error e :=
  ⟨{ exUfloats with g := .flat [fun _ => .error .valueError] },
    ⟨fun _ => (0 : Float), fun _ => true⟩, fun _ => .error .valueError, ⟨0, rfl⟩, rfl,
    fun _ => ⟨_, rfl⟩⟩

end Verif
