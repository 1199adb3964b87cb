import Verif.Spec.MachineUnscented
import Verif.Proofs.Loops
import Verif.Proofs.Machine
import Verif.Proofs.UnscentedTransform

/-!
# Lemmas on unscented filters on the numbers of a machine
-/

namespace Verif.UMachine

variable {M : UMachine} {n m k l N : ℕ} {σ ο : Type}

/-! ### Loops -/

theorem run_append {step : ℕ → Option σ → ο → Res σ} (xs ys : List ο) (t : ℕ) (prev : Option σ) :
    run step t prev (xs ++ ys) = run step t prev xs >>= fun l =>
      (run step (t + xs.length) (l.getLast?.or prev) ys).map (l ++ ·) := by
  induction xs generalizing t prev with
  | nil =>
    simp only [List.nil_append, run, List.length_nil, add_zero, pure, Except.pure, bind,
      Except.bind, List.getLast?_nil, Option.none_or]
    cases run step t prev ys <;> rfl
  | cons o os ih =>
    simp only [List.cons_append, run]
    cases step t prev o with
    | error e => rfl
    | ok s =>
      simp only [bind, Except.bind, ih]
      cases run step (t + 1) (some s) os with
      | error e => rfl
      | ok l =>
        simp only [bind, Except.bind, pure, Except.pure, List.length_cons,
          show t + 1 + os.length = t + (os.length + 1) by omega]
        have e : (s :: l).getLast?.or prev = l.getLast?.or (some s) := by
          cases l with
          | nil => rfl
          | cons a l => simp [List.getLast?_cons]
        rw [e]
        cases run step (t + (os.length + 1)) _ ys <;> rfl

theorem run_length {step : ℕ → Option σ → ο → Res σ} {os : List ο} {t : ℕ} {prev : Option σ}
    {l : List σ} (h : run step t prev os = .ok l) : l.length = os.length := by
  induction os generalizing t prev l with
  | nil => cases h; rfl
  | cons o os ih =>
    rw [run] at h
    obtain ⟨s, -, h⟩ := ok_bind_iff.mp h
    obtain ⟨r, hr, h⟩ := ok_bind_iff.mp h
    cases h
    simp [ih hr]

theorem run_congr {step : ℕ → Option σ → ο → Res σ} {R : ο → ο → Prop}
    (hs : ∀ t prev o o', R o o' → step t prev o = step t prev o') {os os' : List ο}
    (h : List.Forall₂ R os os') (t : ℕ) (prev : Option σ) :
    run step t prev os = run step t prev os' := by
  induction h generalizing t prev with
  | nil => rfl
  | cons hr _ ih => simp only [run, hs t prev _ _ hr, ih]

theorem run_times {step step' : ℕ → Option σ → ο → Res σ} (os : List ο) (t : ℕ) (prev : Option σ)
    (h : ∀ i prev o, i < os.length → step (t + i) prev o = step' (t + i) prev o) :
    run step t prev os = run step' t prev os := by
  induction os generalizing t prev with
  | nil => rfl
  | cons o os ih =>
    have h0 := h 0 prev o (by simp)
    rw [add_zero] at h0
    have h1 : ∀ s, run step (t + 1) (some s) os = run step' (t + 1) (some s) os := fun s =>
      ih (t + 1) (some s) fun i prev o hi => by
        have := h (i + 1) prev o (by simp; omega)
        rwa [show t + (i + 1) = t + 1 + i by omega] at this
    simp only [run, h0, h1]

theorem run_take {step : ℕ → Option σ → ο → Res σ} {xs ys : List ο} {l : List σ}
    (h : run step 0 none (xs ++ ys) = .ok l) : run step 0 none xs = .ok (l.take xs.length) := by
  rw [run_append] at h
  obtain ⟨l1, h1, h⟩ := ok_bind_iff.mp h
  cases h2 : run step (0 + xs.length) (l1.getLast?.or none) ys with
  | error e => rw [h2] at h; cases h
  | ok l2 =>
    rw [h2] at h
    cases h
    rw [h1, ← run_length h1, List.take_left]

theorem run_error {step : ℕ → Option σ → ο → Res σ} {xs : List ο} (ys : List ο) {e : Err}
    (h : run step 0 none xs = .error e) : run step 0 none (xs ++ ys) = .error e := by
  rw [run_append, h]
  rfl

/-- A loop whose steps after the first are calls of `update`. -/
theorem run_calls {step : ℕ → Option σ → ο → Res σ} {update : ℕ → σ → ο → Res σ} (os : List ο)
    (t : ℕ) (s : σ) (h : ∀ i s o, i < os.length →
      step (t + i + 1) (some s) o = update (t + i) s o) :
    run step (t + 1) (some s) os = calls update t s os := by
  induction os generalizing t s with
  | nil => rfl
  | cons o os ih =>
    have h0 := h 0 s o (by simp)
    rw [add_zero] at h0
    have h1 := fun s' => ih (t + 1) s' fun i s o hi => by
      have := h (i + 1) s o (by simp; omega)
      rwa [show t + (i + 1) = t + 1 + i by omega] at this
    rw [run, calls, h0]
    cases update t s o with
    | error e => rfl
    | ok s' =>
      simp only [bind, Except.bind, h1]
      cases calls update (t + 1) s' os <;> rfl

theorem run_online {step : ℕ → Option σ → ο → Res σ} {update : ℕ → σ → ο → Res σ} (o : ο)
    (os : List ο) (h : ∀ t s o, t < os.length → step (t + 1) (some s) o = update t s o) :
    (∀ r, run step 0 none [o] = .ok [r] →
      run step 0 none (o :: os) = (calls update 0 r os).map (r :: ·)) ∧
    (∀ e, run step 0 none [o] = .error e → run step 0 none (o :: os) = .error e) ∧
    (∀ out, run step 0 none [o] = .ok out → ∃ r, out = [r]) := by
  refine ⟨fun r hr => ?_, fun e he => run_error (xs := [o]) os he, fun out ho => ?_⟩
  · rw [show o :: os = [o] ++ os from rfl, run_append, hr]
    simp only [bind, Except.bind, List.getLast?_singleton, Option.some_or, List.length_singleton]
    rw [run_calls os 0 r fun i s o hi => by simpa using h i s o hi]
    cases calls update 0 r os <;> rfl
  · have := run_length ho
    match out, this with
    | [r], _ => exact ⟨r, rfl⟩

theorem run_raises {step : ℕ → Option σ → ο → Res σ} {E : Err → Prop} (os : List ο) (t : ℕ)
    (prev : Option σ) (h : ∀ i prev o, i < os.length → (i + t ≠ 0 → prev ≠ none) →
      RaisesOnly E (step (t + i) prev o))
    (hp : t ≠ 0 → prev ≠ none) : RaisesOnly E (run step t prev os) := by
  induction os generalizing t prev with
  | nil => intro e he; cases he
  | cons o os ih =>
    intro e he
    rw [run] at he
    have h0 := h 0 prev o (by simp) (fun h => hp (by omega))
    rw [add_zero] at h0
    cases hs : step t prev o with
    | error e' =>
      rw [hs] at he
      cases he
      exact h0 _ hs
    | ok s =>
      rw [hs] at he
      simp only [bind, Except.bind] at he
      cases hr : run step (t + 1) (some s) os with
      | error e' =>
        rw [hr] at he
        cases he
        refine ih (t + 1) (some s) (fun i prev o hi hpr => ?_) (by simp) _ hr
        have := h (i + 1) prev o (by simp; omega) (fun _ => hpr (by omega))
        rwa [show t + (i + 1) = t + 1 + i by omega] at this
      | ok l =>
        rw [hr] at he
        cases he

theorem RaisesOnly.bind {α β : Type} {E : Err → Prop} {r : Res α} {f : α → Res β}
    (h : RaisesOnly E r) (hf : ∀ a, r = .ok a → RaisesOnly E (f a)) : RaisesOnly E (r >>= f) := by
  cases r with
  | error e =>
    intro e' he
    cases he
    exact h _ rfl
  | ok a => exact hf a rfl

theorem RaisesOnly.pure {α : Type} {E : Err → Prop} (a : α) :
    RaisesOnly E (Pure.pure a : Res α) := by
  intro e he
  cases he

theorem raisesOnly_comprehension {α : Type} {E : Err → Prop} :
    ∀ {N : ℕ} (f : Fin N → Res α), (∀ i, RaisesOnly E (f i)) → RaisesOnly E (comprehension f)
  | 0, _, _ => .pure _
  | _ + 1, f, h => by
    rw [comprehension]
    exact (h 0).bind fun a _ => (raisesOnly_comprehension _ fun i => h i.succ).bind fun _ _ => .pure _

theorem backFull_times {step step' : ℕ → σ → σ → Res σ} (l : List σ)
    (h : ∀ t s s', t + 1 < l.length → step t s s' = step' t s s') :
    backFull step l = backFull step' l := by
  have key : ∀ (rest : List σ) (t : ℕ) (s : σ),
      (∀ i x y, i < rest.length → step (t + i) x y = step' (t + i) x y) →
      backLoop step t s rest = backLoop step' t s rest := by
    intro rest
    induction rest with
    | nil => intros; rfl
    | cons a rest ih =>
      intro t s h
      rw [backLoop, backLoop, ih (t + 1) a fun i x y hi => by
        have := h (i + 1) x y (by simp; omega)
        rwa [show t + (i + 1) = t + 1 + i by omega] at this]
      cases backLoop step' (t + 1) a rest with
      | error e => rfl
      | ok r =>
        simp only [Bind.bind, Except.bind]
        have := h 0 s r.1 (by simp)
        rw [add_zero] at this
        rw [this]
  cases l with
  | nil => rfl
  | cons s rest =>
    rw [backFull, backFull, key rest 0 s fun i x y hi => by
      simpa using h i x y (by simp; omega)]

/-! ### Steps -/

theorem missing_iff_of_sim {o o' : M.Row m} (h : Machine.Row.Sim o o') :
    o.missing ↔ o'.missing := h.1

theorem unscentedCorrect_sim {o o' : M.Row m} (h : Machine.Row.Sim o o') (cross : M.A n m)
    (pred : M.Mom n) (obs : M.Mom m) :
    unscentedCorrect cross pred obs o = unscentedCorrect cross pred obs o' := by
  by_cases ho : o.missing
  · have ho' := (missing_iff_of_sim h).mp ho
    simp only [unscentedCorrect, ho, ho', not_true_eq_false, if_false]
  · have ho' : ¬ o'.missing := fun h' => ho ((missing_iff_of_sim h).mpr h')
    have hv : o.val = o'.val := h.2 ho
    simp only [unscentedCorrect, ho, ho', not_false_eq_true, if_true, hv]

theorem ufCorrect_sim {o o' : M.Row m} (h : Machine.Row.Sim o o') (g : M.V n → Res (M.V m))
    (pred : M.Mom n) (pts : M.Pts N n) (R : M.A m m) :
    ufCorrect g pred pts o R = ufCorrect g pred pts o' R := by
  simp only [ufCorrect, finish, unscentedCorrect_sim h]

theorem ufCorrect₂_sim {o o' : M.Row m} (h : Machine.Row.Sim o o')
    (g : M.V n → M.V m → Res (M.V m)) (pred : M.Mom n) (pts : M.Pts N n) (w : M.Pts N m) :
    ufCorrect₂ g pred pts o w = ufCorrect₂ g pred pts o' w := by
  simp only [ufCorrect₂, finish, unscentedCorrect_sim h]

theorem aukfStep_sim (p : M.UPar n m) (t : ℕ) (prev : Option (M.Mom n)) (o o' : M.Row m)
    (h : Machine.Row.Sim o o') : aukfStep p t prev o = aukfStep p t prev o' := by
  cases prev <;> simp only [aukfStep, ufCorrect_sim h]

theorem ukfStep_sim (p : M.GPar n m) (t : ℕ) (prev : Option (M.Mom n)) (o o' : M.Row m)
    (h : Machine.Row.Sim o o') : ukfStep p t prev o = ukfStep p t prev o' := by
  cases prev <;> simp only [ukfStep, ufCorrect₂_sim h]

theorem supplied {α : Type} {arg : Option α} {fns : Fns α} {t : ℕ}
    (h : FnSupplied arg fns t) : ∃ f, defaultFunction arg fns = .ok f ∧ fns.at t = .ok f := by
  rcases h with ⟨f, rfl, h⟩ | ⟨rfl, f, rfl⟩
  · refine ⟨f, ?_, h⟩
    cases fns <;> rfl
  · exact ⟨f, rfl, rfl⟩

theorem getD_supplied {α : Type} {a : Option α} {x : α} (h : a = none ∨ a = some x) :
    a.getD x = x := by
  rcases h with h | h <;> rw [h] <;> rfl

theorem aukfStep_update {p : M.UPar n m} {a : M.UArgs n m} {t : ℕ} (h : a.For p t) (x : M.Mom n)
    (o : M.Row m) : aukfStep p (t + 1) (some x) o = aukfUpdate p x (some o) a := by
  obtain ⟨f, hf1, hf2⟩ := supplied h.f
  obtain ⟨g, hg1, hg2⟩ := supplied h.g
  simp only [aukfStep, aukfUpdate, hf1, hg1, hg2, Nat.add_sub_cancel, hf2, getD_supplied h.Q,
    getD_supplied h.R, Bind.bind, Except.bind, Option.getD_some, observed]

theorem ukfStep_update {p : M.GPar n m} {a : M.GArgs n m} {t : ℕ} (h : a.For p t) (x : M.Mom n)
    (o : M.Row m) : ukfStep p (t + 1) (some x) o = ukfUpdate p x (some o) a := by
  obtain ⟨f, hf1, hf2⟩ := supplied h.f
  obtain ⟨g, hg1, hg2⟩ := supplied h.g
  simp only [ukfStep, ukfUpdate, hf1, hg1, hg2, Nat.add_sub_cancel, hf2, getD_supplied h.Q,
    getD_supplied h.R, Bind.bind, Except.bind, Option.getD_some, observed]

/-! ### Exceptions -/

section
variable {E : Err → Prop} (hc : ∀ k X, RaisesOnly E (M.chol k X))
  (hi : ∀ k X, RaisesOnly E (M.pinv k X))
include hc

theorem raisesOnly_moments2points (x : M.Mom n) : RaisesOnly E (moments2points x) :=
  (hc _ _).bind fun _ _ => .pure _

omit hc in
theorem raisesOnly_through (s : M.Pts N k) {f : M.V k → Res (M.V l)} (h : ∀ x, RaisesOnly E (f x)) :
    RaisesOnly E (s.through f) :=
  (raisesOnly_comprehension _ fun _ => h _).bind fun _ _ => .pure _

omit hc in
theorem raisesOnly_through₂ {q : ℕ} (s : M.Pts N k) (w : M.Pts N q)
    {f : M.V k → M.V q → Res (M.V l)} (h : ∀ x y, RaisesOnly E (f x y)) :
    RaisesOnly E (s.through₂ w f) :=
  (raisesOnly_comprehension _ fun _ => h _ _).bind fun _ _ => .pure _

include hi

omit hc in
theorem raisesOnly_finish (pred : M.Mom n) (pts : M.Pts N n) (q : M.Pts N m)
    (noise : Option (M.A m m)) (o : M.Row m) : RaisesOnly E (finish pred pts q noise o) := by
  rw [finish, unscentedCorrect]
  split_ifs
  · exact .pure _
  · exact (hi _ _).bind fun _ _ => .pure _

omit hc in
theorem raisesOnly_ufSmooth (filt : M.Mom n) (pts ptsPred : M.Pts N n) (pred next : M.Mom n) :
    RaisesOnly E (ufSmooth filt pts ptsPred pred next) :=
  (hi _ _).bind fun _ _ => .pure _

theorem raisesOnly_aukfStep {p : M.UPar n m} {t : ℕ} {prev : Option (M.Mom n)} (o : M.Row m)
    (hf : prev ≠ none → RaisesOnly E (p.f.at (t - 1)) ∧ ∀ f, p.f.at (t - 1) = .ok f →
      ∀ x, RaisesOnly E (f x))
    (hg : RaisesOnly E (p.g.at t) ∧ ∀ g, p.g.at t = .ok g → ∀ x, RaisesOnly E (g x)) :
    RaisesOnly E (aukfStep p t prev o) := by
  have key : ∀ g, p.g.at t = .ok g → ∀ {N : ℕ} (pred : M.Mom n) (pts : M.Pts N n),
      RaisesOnly E (ufCorrect g pred pts o p.R) := fun g hg' N pred pts =>
    (raisesOnly_through _ (hg.2 g hg')).bind fun _ _ => raisesOnly_finish hi _ _ _ _ _
  cases prev with
  | none =>
    exact (raisesOnly_moments2points hc _).bind fun pts _ => hg.1.bind fun g hg' => key g hg' _ _
  | some s =>
    obtain ⟨h1, h2⟩ := hf (by simp)
    exact (raisesOnly_moments2points hc _).bind fun pts _ => h1.bind fun f hf' =>
      (raisesOnly_through _ (h2 f hf')).bind fun q _ =>
        (raisesOnly_moments2points hc _).bind fun pts' _ => hg.1.bind fun g hg' => key g hg' _ _

theorem raisesOnly_ukfStep {p : M.GPar n m} {t : ℕ} {prev : Option (M.Mom n)} (o : M.Row m)
    (hf : prev ≠ none → RaisesOnly E (p.f.at (t - 1)) ∧ ∀ f, p.f.at (t - 1) = .ok f →
      ∀ x w, RaisesOnly E (f x w))
    (hg : RaisesOnly E (p.g.at t) ∧ ∀ g, p.g.at t = .ok g → ∀ x v, RaisesOnly E (g x v)) :
    RaisesOnly E (ukfStep p t prev o) := by
  have key : ∀ g, p.g.at t = .ok g → ∀ {N : ℕ} (pred : M.Mom n) (pts : M.Pts N n) (w : M.Pts N m),
      RaisesOnly E (ufCorrect₂ g pred pts o w) := fun g hg' N pred pts w =>
    (raisesOnly_through₂ _ _ (hg.2 g hg')).bind fun _ _ => raisesOnly_finish hi _ _ _ _ _
  cases prev with
  | none =>
    exact ((raisesOnly_moments2points hc _).bind fun _ _ => .pure _).bind fun pts _ =>
      hg.1.bind fun g hg' => key g hg' _ _ _
  | some s =>
    obtain ⟨h1, h2⟩ := hf (by simp)
    exact ((raisesOnly_moments2points hc _).bind fun _ _ => .pure _).bind fun pts _ =>
      h1.bind fun f hf' => (raisesOnly_through₂ _ _ (h2 f hf')).bind fun q _ =>
        hg.1.bind fun g hg' => key g hg' _ _ _

end

theorem raisesOnly_backFull {step : ℕ → σ → σ → Res σ} {E : Err → Prop} {l : List σ} (hl : l ≠ [])
    (h : ∀ t s s', t + 1 < l.length → RaisesOnly E (step t s s')) :
    RaisesOnly E (backFull step l) := by
  have key : ∀ (rest : List σ) (t : ℕ) (s : σ),
      (∀ i x y, i < rest.length → RaisesOnly E (step (t + i) x y)) →
      RaisesOnly E (backLoop step t s rest) := by
    intro rest
    induction rest with
    | nil => intro t s _; exact .pure _
    | cons a rest ih =>
      intro t s h
      rw [backLoop]
      refine (ih (t + 1) a fun i x y hi => ?_).bind fun r _ => ?_
      · have := h (i + 1) x y (by simp; omega)
        rwa [show t + (i + 1) = t + 1 + i by omega] at this
      · have := h 0 s r.1 (by simp)
        rw [add_zero] at this
        exact this.bind fun _ _ => .pure _
  cases l with
  | nil => exact absurd rfl hl
  | cons s rest =>
    rw [backFull]
    exact (key rest 0 s fun i x y hi => by simpa using h i x y (by simp; omega)).bind
      fun _ _ => .pure _

end Verif.UMachine
