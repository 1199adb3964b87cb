import Verif.Model.Unscented

/-!
# Loops of filters and smoothers as functions of time
-/

namespace Verif

variable {m : ℕ} {σ : Type}

theorem runLoop_some {step : ℕ → Option σ → Obs m → Res σ} (S : ℕ → σ) (os : List (Obs m)) (t : ℕ)
    (h : ∀ i (hi : i < os.length), step (t + 1 + i) (some (S (t + i))) os[i] = .ok (S (t + 1 + i))) :
    runLoop step (t + 1) (some (S t)) os
      = .ok ((List.range os.length).map fun i => S (t + 1 + i)) := by
  induction os generalizing t with
  | nil => rfl
  | cons o os ih =>
    have h0 := h 0 (by simp)
    simp only [add_zero, List.getElem_cons_zero] at h0
    have := ih (t + 1) fun i hi => by
      have := h (i + 1) (by simpa using hi)
      rw [← add_assoc, add_right_comm, ← add_assoc, add_right_comm t i 1] at this
      simpa using this
    rw [runLoop, h0]
    simp only [bind, Except.bind, this, pure, Except.pure, List.length_cons]
    congr 1
    rw [List.range_succ_eq_map, List.map_cons, List.map_map]
    simp only [add_zero, List.cons.injEq, true_and]
    apply List.map_congr_left
    intro i _
    simp only [Function.comp]
    congr 1
    omega

/-- A run in which every step gives the row `S t`. -/
theorem runLoop_eq {step : ℕ → Option σ → Obs m → Res σ} (S : ℕ → σ) (os : List (Obs m))
    (h0 : ∀ h : 0 < os.length, step 0 none os[0] = .ok (S 0))
    (h : ∀ t (ht : t + 1 < os.length), step (t + 1) (some (S t)) os[t + 1] = .ok (S (t + 1))) :
    runLoop step 0 none os = .ok ((List.range os.length).map S) := by
  cases os with
  | nil => rfl
  | cons o os =>
    have h0' := h0 (by simp)
    simp only [List.getElem_cons_zero] at h0'
    rw [runLoop, h0']
    have := runLoop_some (step := step) S os 0 fun i hi => by
      have := h i (by simpa using hi)
      rw [show 0 + 1 + i = i + 1 by omega, show 0 + i = i by omega]
      simpa using this
    simp only [bind, Except.bind, zero_add] at this ⊢
    rw [this]
    simp only [pure, Except.pure, List.length_cons]
    congr 1
    rw [List.range_succ_eq_map, List.map_cons, List.map_map]
    simp only [List.cons.injEq, true_and]
    apply List.map_congr_left
    intro i _
    simp only [Function.comp, add_comm 1 i]

theorem backLoop_eq {step : ℕ → σ → σ → Res σ} (F S : ℕ → σ) (k t T : ℕ) (hT : T = t + k)
    (hl : S T = F T) (h : ∀ t, t < T → step t (F t) (S (t + 1)) = .ok (S t)) :
    backLoop step t (F t) ((List.range k).map fun i => F (t + 1 + i))
      = .ok (S t, (List.range k).map fun i => S (t + 1 + i)) := by
  induction k generalizing t with
  | zero =>
    simp only [add_zero] at hT
    subst hT
    simp [backLoop, hl, pure, Except.pure]
  | succ k ih =>
    have := ih (t + 1) (by omega)
    rw [List.range_succ_eq_map, List.map_cons, List.map_map, backLoop]
    have e : ((List.range k).map ((fun i => F (t + 1 + i)) ∘ Nat.succ))
        = (List.range k).map fun i => F (t + 1 + 1 + i) := by
      apply List.map_congr_left
      intro i _
      simp only [Function.comp]
      congr 1
      omega
    rw [e]
    simp only [add_zero]
    rw [this]
    simp only [bind, Except.bind, pure, Except.pure, h t (by omega)]
    congr 2
    rw [List.map_cons, List.map_map]
    simp only [add_zero, List.cons.injEq, true_and]
    apply List.map_congr_left
    intro i _
    simp only [Function.comp]
    congr 1
    omega

theorem backFull_eq {step : ℕ → σ → σ → Res σ} (F S : ℕ → σ) (T : ℕ)
    (hl : S T = F T) (h : ∀ t, t < T → step t (F t) (S (t + 1)) = .ok (S t)) :
    backFull step ((List.range (T + 1)).map F) = .ok ((List.range (T + 1)).map S) := by
  rw [List.range_succ_eq_map, List.map_cons, List.map_map, backFull]
  have := backLoop_eq F S T 0 T (by omega) hl h
  have e : (List.range T).map (F ∘ Nat.succ) = (List.range T).map fun i => F (0 + 1 + i) := by
    apply List.map_congr_left
    intro i _
    simp only [Function.comp]
    congr 1
    omega
  rw [e, this]
  simp only [bind, Except.bind, pure, Except.pure, List.map_cons, List.map_map]
  congr 2
  apply List.map_congr_left
  intro i _
  simp only [Function.comp]
  congr 1
  omega

/-- Rows of a run are prefixes of the rows of a longer run. -/
theorem runLoop_append {step : ℕ → Option σ → Obs m → Res σ} (os os' : List (Obs m)) (t : ℕ)
    (prev : Option σ) :
    runLoop step t prev (os ++ os')
      = runLoop step t prev os >>= fun l =>
          (runLoop step (t + os.length) (match l.getLast? with | some s => some s | none => prev) os').map
            fun l' => l ++ l' := by
  induction os generalizing t prev with
  | nil =>
    simp only [List.nil_append, runLoop, List.length_nil, add_zero, pure, Except.pure, bind,
      Except.bind, List.getLast?_nil]
    cases runLoop step t prev os' <;> rfl
  | cons o os ih =>
    simp only [List.cons_append, runLoop]
    cases step t prev o with
    | error e => rfl
    | ok s =>
      simp only [bind, Except.bind, ih]
      cases runLoop step (t + 1) (some s) os with
      | error e => rfl
      | ok l =>
        simp only [bind, Except.bind, pure, Except.pure, List.length_cons,
          show t + 1 + os.length = t + (os.length + 1) by omega]
        have e : (match (s :: l).getLast? with | some s => some s | none => prev)
            = (match l.getLast? with | some s => some s | none => some s) := by
          cases l with
          | nil => rfl
          | cons a l => simp [List.getLast?_cons_cons, List.getLast?_cons]
        rw [e]
        cases runLoop step (t + (os.length + 1)) _ os' <;> rfl

theorem runLoop_length {step : ℕ → Option σ → Obs m → Res σ} {os : List (Obs m)} {t : ℕ}
    {prev : Option σ} {l : List σ} (h : runLoop step t prev os = .ok l) : l.length = os.length := by
  induction os generalizing t prev l with
  | nil => cases h; rfl
  | cons o os ih =>
    rw [runLoop] at h
    cases hs : step t prev o with
    | error e => rw [hs] at h; cases h
    | ok s =>
      rw [hs] at h
      simp only [bind, Except.bind] at h
      cases hl : runLoop step (t + 1) (some s) os with
      | error e => rw [hl] at h; cases h
      | ok l' =>
        rw [hl] at h
        cases h
        simp [ih hl]

theorem runLoop_congr {step : ℕ → Option σ → Obs m → Res σ} {R : Obs m → Obs m → Prop}
    (hs : ∀ t prev o o', R o o' → step t prev o = step t prev o') {os os' : List (Obs m)}
    (h : List.Forall₂ R os os') (t : ℕ) (prev : Option σ) :
    runLoop step t prev os = runLoop step t prev os' := by
  induction h generalizing t prev with
  | nil => rfl
  | cons hr _ ih => simp only [runLoop, hs t prev _ _ hr, ih]

theorem backLoop_last {step : ℕ → σ → σ → Res σ} {rest : List σ} {t : ℕ} {s : σ}
    {r : σ × List σ} (h : backLoop step t s rest = .ok r) :
    (r.1 :: r.2).getLast? = (s :: rest).getLast? ∧ r.2.length = rest.length := by
  induction rest generalizing t s r with
  | nil => cases h; exact ⟨rfl, rfl⟩
  | cons s' rest ih =>
    rw [backLoop] at h
    cases hb : backLoop step (t + 1) s' rest with
    | error e => rw [hb] at h; cases h
    | ok q =>
      rw [hb] at h
      simp only [bind, Except.bind] at h
      cases hs : step t s q.1 with
      | error e => rw [hs] at h; cases h
      | ok x =>
        rw [hs] at h
        cases h
        obtain ⟨h1, h2⟩ := ih hb
        refine ⟨?_, by simp [h2]⟩
        rw [List.getLast?_cons_cons, h1, List.getLast?_cons_cons]

theorem backFull_last {step : ℕ → σ → σ → Res σ} {l l' : List σ} (h : backFull step l = .ok l') :
    l'.getLast? = l.getLast? ∧ l'.length = l.length ∧ l ≠ [] := by
  cases l with
  | nil => cases h
  | cons s rest =>
    rw [backFull] at h
    cases hb : backLoop step 0 s rest with
    | error e => rw [hb] at h; cases h
    | ok q =>
      rw [hb] at h
      cases h
      obtain ⟨h1, h2⟩ := backLoop_last hb
      exact ⟨h1, by simp [h2], by simp⟩

/-- A prefix of the observations gives a prefix of the rows. -/
theorem runLoop_take {step : ℕ → Option σ → Obs m → Res σ} {os os' : List (Obs m)} {t : ℕ}
    {prev : Option σ} {l : List σ} (h : runLoop step t prev (os ++ os') = .ok l) :
    runLoop step t prev os = .ok (l.take os.length) := by
  rw [runLoop_append] at h
  cases hr : runLoop step t prev os with
  | error e => rw [hr] at h; cases h
  | ok l₁ =>
    rw [hr] at h
    simp only [bind, Except.bind] at h
    generalize runLoop step (t + os.length) _ os' = r at h
    cases r with
    | error e => cases h
    | ok l₂ =>
      cases h
      rw [← runLoop_length hr, List.take_left]

/-- One more observation. -/
theorem runLoop_snoc {step : ℕ → Option σ → Obs m → Res σ} {os : List (Obs m)} {l : List σ} {s : σ}
    (h : runLoop step 0 none os = .ok (l ++ [s])) (o : Obs m) :
    runLoop step 0 none (os ++ [o])
      = (step os.length (some s) o).map fun s' => l ++ [s] ++ [s'] := by
  rw [runLoop_append, h]
  simp only [bind, Except.bind, List.getLast?_append, List.getLast?_singleton, Option.some_or,
    zero_add, runLoop]
  cases step os.length (some s) o <;> rfl

end Verif
