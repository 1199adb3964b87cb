import Verif.Spec.Session
import Verif.Proofs.LinearMethods
import Verif.Proofs.EmLoop

/-!
# Lemmas about what `em` leaves behind
-/

namespace Verif

variable {n m : ℕ}

/-- The loops of the three classes under one name. -/
noncomputable def runOf (cls : KFClass) (qr : QR) (given : Params n m) (vars : EmVar → Bool)
    (os : List (Obs m)) (k : ℕ) (store : ℝ → ℝ) (p : Params n m) : Res (Params n m) :=
  match cls with
  | .standard => emLoop given vars os k p
  | .cholesky => cholEmLoop qr given vars os k p
  | .bierman => bierEmLoop store given vars os k p

theorem iterations_eq_runOf (cls : KFClass) (qr : QR) (store : ℝ → ℝ) (p : Params n m)
    (os : List (Obs m)) (vars : EmVar → Bool) (k : ℕ) :
    cls.iterations qr store p os vars k = runOf cls qr p vars os k store p := by
  cases cls <;> rfl

theorem runOf_zero (cls : KFClass) (qr : QR) (given : Params n m) (vars : EmVar → Bool)
    (os : List (Obs m)) (store : ℝ → ℝ) (p : Params n m) :
    runOf cls qr given vars os 0 store p = .ok p := by
  cases cls <;> rfl

theorem runOf_succ (cls : KFClass) (qr : QR) (given : Params n m) (vars : EmVar → Bool)
    (os : List (Obs m)) (k : ℕ) (store : ℝ → ℝ) (p : Params n m) :
    runOf cls qr given vars os (k + 1) store p
      = (do
          let ss ← cls.stats qr store p os
          emStep given vars p ss os) >>= fun p' =>
        runOf cls qr given vars os k (if vars .initialStateCovariance then id else store) p' := by
  cases cls with
  | standard =>
    simp only [runOf, KFClass.stats, emLoop, bind, Except.bind]
    cases emStats p os <;> rfl
  | cholesky =>
    simp only [runOf, KFClass.stats, cholEmLoop, bind, Except.bind]
    cases cholStats qr p os <;> rfl
  | bierman =>
    simp only [runOf, KFClass.stats, bierEmLoop, bind, Except.bind]
    cases bierStats store p os <;> rfl

/-- How far the iterations get. -/
theorem emIterate_spec (cls : KFClass) (qr : QR) (given : Params n m) (vars : EmVar → Bool)
    (os : List (Obs m)) (k : ℕ) : ∀ (store : ℝ → ℝ) (p : Params n m),
    ((emIterate cls qr given vars os k store p).2 = none ∧
      runOf cls qr given vars os k store p
        = .ok (emIterate cls qr given vars os k store p).1) ∨
    ∃ j < k, ∃ e, (emIterate cls qr given vars os k store p).2 = some e ∧
      runOf cls qr given vars os j store p
        = .ok (emIterate cls qr given vars os k store p).1 ∧
      runOf cls qr given vars os (j + 1) store p = .error e := by
  induction k with
  | zero => intro store p; exact .inl ⟨rfl, runOf_zero ..⟩
  | succ k ih =>
    intro store p
    cases hr : (do
        let ss ← cls.stats qr store p os
        emStep given vars p ss os : Res (Params n m)) with
    | error e =>
      have : emIterate cls qr given vars os (k + 1) store p = (p, some e) := by
        simp only [emIterate, hr]
      rw [this]
      refine .inr ⟨0, by omega, e, rfl, runOf_zero .., ?_⟩
      rw [runOf_succ, hr]; rfl
    | ok p' =>
      have h1 : emIterate cls qr given vars os (k + 1) store p
          = emIterate cls qr given vars os k
              (if vars .initialStateCovariance then id else store) p' := by
        simp only [emIterate, hr]
      have h2 (i : ℕ) : runOf cls qr given vars os (i + 1) store p
          = runOf cls qr given vars os i
              (if vars .initialStateCovariance then id else store) p' := by
        rw [runOf_succ, hr]; rfl
      rw [h1]
      rcases ih (if vars .initialStateCovariance then id else store) p' with ⟨a, b⟩ |
        ⟨j, hj, e, a, b, c⟩
      · exact .inl ⟨a, by rw [h2]; exact b⟩
      · exact .inr ⟨j + 1, by omega, e, a, by rw [h2]; exact b, by rw [h2]; exact c⟩

/-- An exception in one iteration is the outcome of all longer runs. -/
theorem runOf_error (cls : KFClass) (qr : QR) (given : Params n m) (vars : EmVar → Bool)
    (os : List (Obs m)) {e : Err} (j : ℕ) : ∀ (k : ℕ) (store : ℝ → ℝ) (p : Params n m), j ≤ k →
    runOf cls qr given vars os j store p = .error e →
    runOf cls qr given vars os k store p = .error e := by
  induction j with
  | zero =>
    intro k store p _ h
    rw [runOf_zero] at h; cases h
  | succ j ih =>
    intro k store p hk h
    obtain ⟨k, rfl⟩ : ∃ i, k = i + 1 := ⟨k - 1, by omega⟩
    rw [runOf_succ] at h ⊢
    cases hr : (do
        let ss ← cls.stats qr store p os
        emStep given vars p ss os : Res (Params n m)) with
    | error e => rw [hr] at h; exact h
    | ok p' => rw [hr] at h; exact ih k _ p' (by omega) h

/-- The iterations stop where the specification says. -/
theorem emIterate_stops (cls : KFClass) (qr : QR) (store : ℝ → ℝ) (p : Params n m)
    (os : List (Obs m)) (vars : EmVar → Bool) (k : ℕ) :
    EmStops cls qr store p os vars k (emIterate cls qr p vars os k store p).1
      (emIterate cls qr p vars os k store p).2 := by
  rcases emIterate_spec cls qr p vars os k store p with ⟨a, b⟩ | ⟨j, hj, e, a, b, c⟩
  · rw [a]
    exact .returns (by rw [iterations_eq_runOf]; exact b)
  · rw [a]
    exact .raises j hj e (by rw [iterations_eq_runOf]; exact b)
      (by rw [iterations_eq_runOf]; exact c)

theorem iterations_error {cls : KFClass} {qr : QR} {store : ℝ → ℝ} {p : Params n m}
    {os : List (Obs m)} {vars : EmVar → Bool} {j k : ℕ} (hk : j ≤ k) {e : Err}
    (h : cls.iterations qr store p os vars j = .error e) :
    cls.iterations qr store p os vars k = .error e := by
  rw [iterations_eq_runOf] at h ⊢
  exact runOf_error cls qr p vars os j k store p hk h

/-! ### The selection -/

theorem KFArgs.selectionOf {a : KFArgs} {cls : KFClass} {arg : Option EmNames} {e : EmNames}
    (he : ChosenNames cls a.emVars arg e) {vars : EmVar → Bool} (hv : Selects e vars) :
    (a.object n m).selectionOf cls arg = .ok vars := by
  have h1 : cls = .standard → (a.object n m).emSelection arg = .ok vars := by
    intro hc
    have : arg.getD (a.object n m).emVars' = e := by
      cases he with
      | inCall h => rw [h]; rfl
      | stored h h' => rw [h]; simp [KFArgs.object, h']
      | documented h h' _ he => rw [h, he]; simp [KFArgs.object, h', documentedEmVars, defaultEmNames]
    rw [KF.emSelection, this, emSelection_eq hv]
  have h2 : cls ≠ .standard → (a.object n m).emSelectionSqrt arg = .ok vars := by
    intro hc
    have : (arg.orElse fun _ => (a.object n m).emVars) = some e := by
      cases he with
      | inCall h => rw [h]; rfl
      | stored h h' => rw [h]; simp [KFArgs.object, h']
      | documented _ _ h _ => exact absurd h hc
    rw [KF.emSelectionSqrt, this, emSelection_eq hv]
  cases cls with
  | standard => exact h1 rfl
  | cholesky => exact h2 (by simp)
  | bierman => exact h2 (by simp)

theorem chosenNames_or (cls : KFClass) (stored arg : Option EmNames) :
    (∃ e, ChosenNames cls stored arg e) ∨
      cls ≠ .standard ∧ stored = none ∧ arg = none ∧ ∀ e, ¬ ChosenNames cls stored arg e := by
  cases arg with
  | some e => exact .inl ⟨e, .inCall rfl⟩
  | none =>
    cases stored with
    | some e => exact .inl ⟨e, .stored rfl rfl⟩
    | none =>
      by_cases hc : cls = .standard
      · exact .inl ⟨_, .documented rfl rfl hc rfl⟩
      · refine .inr ⟨hc, rfl, rfl, fun e he => ?_⟩
        cases he with
        | inCall h => cases h
        | stored _ h => cases h
        | documented _ _ h _ => exact hc h

theorem KFArgs.selectionOf_withParams (a : KFArgs) (p : Params n m) (cls : KFClass)
    (arg : Option EmNames) :
    ((a.object n m).setParams p).selectionOf cls arg = (a.object n m).selectionOf cls arg := by
  cases cls <;> rfl

theorem KFArgs.setParams_object (a : KFArgs) (p : Params n m) :
    (a.object n m).setParams p = (a.withParams p).object n m := rfl

theorem KFArgs.setParams_twice (a : KFArgs) (p q : Params n m) :
    ((a.object n m).setParams p).setParams q = (a.withParams q).object n m := rfl

end Verif
