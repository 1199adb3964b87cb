import Verif.Proofs.Raising
import Verif.Props.Unscented

/-!
# C106: functions that are not defined everywhere

The functions handed to the unscented classes may raise exceptions: a logarithm of a negative number, a
table without an entry, a simulation that diverges.  The user's program should run if the functions are
defined near the estimates, and otherwise get the exception of the function.
-/

open Matrix

namespace Verif

variable {E : Type} {n m : ℕ}

/-- Any functions can be continued, so that the theorems below say something about all of them. -/
theorem C106_continuation (u : EUParams E n m) : ∃ v, u.ContinuedBy v := by
  have key : ∀ {a b : ℕ} (F : Fns (Vec a → Except E (Vec b))), ∃ G, Fns.Within Continues F G := by
    intro a b F
    have h : ∀ f : Vec a → Except E (Vec b), ∃ g, Continues f g := fun f =>
      ⟨fun x => match f x with
        | .ok y => y
        | .error _ => 0, fun x y h => by simp only [h]⟩
    choose c hc using h
    have hl : ∀ l : List (Vec a → Except E (Vec b)), List.Forall₂ Continues l (l.map c) := by
      intro l
      induction l with
      | nil => exact .nil
      | cons f l ih => exact .cons (hc f) ih
    cases F with
    | flat l => exact ⟨.flat (l.map c), hl l⟩
    | nested l =>
      refine ⟨.nested (l.map (List.map c)), ?_⟩
      induction l with
      | nil => exact .nil
      | cons f l ih => exact .cons (hl f) ih
  obtain ⟨F, hF⟩ := key u.f
  obtain ⟨G, hG⟩ := key u.g
  exact ⟨⟨F, G, u.Q, u.R, u.mu0, u.S0⟩, hF, hG, rfl, rfl, rfl, rfl⟩

/-- **C106.** `AdditiveUnscentedKalmanFilter.filter` and `smooth` return (or raise) what they would with
functions defined everywhere, or both raise one and the same exception of a function of the user; it
has been raised within `√3` standard deviations of an estimate, by the function of the time of that
estimate. -/
theorem C106_additive {u : EUParams E n m} {v : UParams n m} (h : u.ContinuedBy v) (hQ : u.Qᵀ = u.Q)
    (hR : u.Rᵀ = u.R) (hS : u.S0ᵀ = u.S0) (os : List (Obs m)) :
    (aukfFilterE u os = libE (aukfFilter v os) ∧ aukfSmoothE u os = libE (aukfSmooth v os)) ∨
      ∃ e, aukfFilterE u os = .error (.user e) ∧ aukfSmoothE u os = .error (.user e) ∧
        (u.RaisesInTransition v os e ∨ u.RaisesInObservation v os e) := by
  rcases aukfFilterE_cases h hQ hR hS os with h1 | ⟨e, h1, h2⟩
  · exact .inl ⟨h1, aukfSmoothE_eq h h1⟩
  · exact .inr ⟨e, h1, by rw [aukfSmoothE, h1]; rfl, h2⟩

/-- **C106.** Functions that are defined near the estimates need not be defined elsewhere. -/
theorem C106_additive_no_exception {u : EUParams E n m} {v : UParams n m} (h : u.ContinuedBy v)
    (hQ : u.Qᵀ = u.Q) (hR : u.Rᵀ = u.R) (hS : u.S0ᵀ = u.S0) {os : List (Obs m)}
    (hf : ∀ t l M f x, t + 1 < os.length → aukfFilter v (os.take (t + 1)) = .ok l →
      l.getLast? = some M → u.f.at t = .ok f → M.Near x → ∃ y, f x = .ok y)
    (hg : ∀ t l M g x, t < os.length → aukfFilter v (os.take t ++ [unseen m]) = .ok l →
      l.getLast? = some M → u.g.at t = .ok g → M.Near x → ∃ y, g x = .ok y) :
    aukfFilterE u os = libE (aukfFilter v os) ∧ aukfSmoothE u os = libE (aukfSmooth v os) := by
  rcases C106_additive h hQ hR hS os with h1 | ⟨e, -, -, ⟨t, l, M, f, x, h1, h2, h3, h4, h5, h6⟩ |
    ⟨t, l, M, g, x, h1, h2, h3, h4, h5, h6⟩⟩
  · exact h1
  · obtain ⟨y, hy⟩ := hf t l M f x h1 h2 h3 h4 h5
    rw [h6] at hy
    cases hy
  · obtain ⟨y, hy⟩ := hg t l M g x h1 h2 h3 h4 h5
    rw [h6] at hy
    cases hy

/-- **C106.** A transition function that is not defined at an estimate is noticed: `filter` raises an
exception of the user. -/
theorem C106_additive_transition {u : EUParams E n m} {v : UParams n m} (h : u.ContinuedBy v)
    (hQ : u.Qᵀ = u.Q) (hR : u.Rᵀ = u.R) (hS : u.S0ᵀ = u.S0) {os : List (Obs m)} {t : ℕ}
    (ht : t + 1 < os.length) {l : List (Moments n)} {M : Moments n}
    (hl : aukfFilter v (os.take (t + 1)) = .ok l) (hM : l.getLast? = some M) (hP : M.cov.PosDef)
    {f : Vec n → Except E (Vec n)} (hf : u.f.at t = .ok f) {e : E} (he : f M.mean = .error e) :
    ∃ e, aukfFilterE u os = .error (.user e) ∧ aukfSmoothE u os = .error (.user e) := by
  obtain ⟨e, h1⟩ := aukf_transition_mean h hQ hR hS ht hl hM hP hf he
  exact ⟨e, h1, by rw [aukfSmoothE, h1]; rfl⟩

/-- **C106.** An observation function that is not defined at the prediction is noticed, also if nothing
is seen of the row: the function is called before the mask is looked at. -/
theorem C106_additive_observation {u : EUParams E n m} {v : UParams n m} (h : u.ContinuedBy v)
    (hQ : u.Qᵀ = u.Q) (hR : u.Rᵀ = u.R) (hS : u.S0ᵀ = u.S0) {os : List (Obs m)} {t : ℕ}
    (ht : t < os.length) {l : List (Moments n)} {P : Moments n}
    (hl : aukfFilter v (os.take t ++ [unseen m]) = .ok l) (hP : l.getLast? = some P)
    {g : Vec n → Except E (Vec m)} (hg : u.g.at t = .ok g) {e : E} (he : g P.mean = .error e) :
    ∃ e, aukfFilterE u os = .error (.user e) ∧ aukfSmoothE u os = .error (.user e) := by
  obtain ⟨e, h1⟩ := aukf_observation_mean h hQ hR hS ht hl hP hg he
  exact ⟨e, h1, by rw [aukfSmoothE, h1]; rfl⟩

/-- **C106.** An observation function that is not defined at the initial mean makes every call with at
least one row fail, even if all rows are masked. -/
theorem C106_additive_first {u : EUParams E n m} (hQ : u.Qᵀ = u.Q) (hR : u.Rᵀ = u.R)
    (hS : u.S0.PosDef) {g : Vec n → Except E (Vec m)} (hg : u.g.at 0 = .ok g) {e : E}
    (he : g u.mu0 = .error e) {os : List (Obs m)} (hos : os ≠ []) :
    ∃ e, aukfFilterE u os = .error (.user e) ∧ aukfSmoothE u os = .error (.user e) := by
  obtain ⟨v, h⟩ := C106_continuation u
  obtain ⟨s, h1, h2⟩ := moments2points_default ⟨u.mu0, u.S0⟩ hS
  rcases h.g.entry 0 with ⟨e, e1, e2⟩ | ⟨g', G, e1, e2, -⟩
  · rw [hg] at e1; cases e1
  refine C106_additive_observation h hQ hR (symm_of_posSemidef hS.posSemidef)
    (List.length_pos_iff.mpr hos) (l := [⟨u.mu0, u.S0⟩]) (P := ⟨u.mu0, u.S0⟩) ?_ rfl hg he
  rw [List.take_zero, List.nil_append, aukfFilter, runLoop, aukfStep]
  simp only [← h.mu0, ← h.S0, Option.getD_none, h1, e2, bind, Except.bind, pure, Except.pure, ufCorrect,
    unscentedCorrect_unseen, h2.points2moments, runLoop]

/-- **C106.** With a single row no transition function is called. -/
theorem C106_additive_one_row (u : EUParams E n m) (f : Fns (Vec n → Except E (Vec n))) (o : Obs m) :
    aukfFilterE { u with f := f } [o] = aukfFilterE u [o] ∧
    aukfSmoothE { u with f := f } [o] = aukfSmoothE u [o] := by
  have h : aukfFilterE { u with f := f } [o] = aukfFilterE u [o] := rfl
  refine ⟨h, ?_⟩
  rw [aukfSmoothE, h, aukfSmoothE]
  cases hl : aukfFilterE u [o] with
  | error e => rfl
  | ok l =>
    rw [aukfFilterE, runLoopE] at hl
    obtain ⟨s, h1, h2⟩ := okE_bind_iff.mp hl
    cases h2
    rfl

/-- **C106.** `AdditiveUnscentedKalmanFilter.filter_update`: the transition function is called near the
state given, the observation function near the prediction, which is what the call returns without an
observation; the latter is called even then. -/
theorem C106_additive_filter_update {u : EUParams E n m} {v : UParams n m} (h : u.ContinuedBy v)
    {a : EUUpdateArgs E n m} {b : UUpdateArgs n m} (haf : Option.Rel Continues a.f b.f)
    (hag : Option.Rel Continues a.g b.g) (haQ : a.Q = b.Q) (haR : a.R = b.R)
    (hQ : (a.Q.getD u.Q)ᵀ = a.Q.getD u.Q) {M : Moments n} (hM : M.covᵀ = M.cov)
    (o : Option (Obs m)) :
    aukfUpdateE u M o a = libE (aukfUpdate v M o b) ∨
      ∃ e, aukfUpdateE u M o a = .error (.user e) ∧
        ((∃ f x, defaultFunction a.f u.f = .ok f ∧ M.Near x ∧ f x = .error e) ∨
          ∃ P g x, aukfUpdate v M none b = .ok P ∧ defaultFunction a.g u.g = .ok g ∧ P.Near x ∧
            g x = .error e) :=
  aukfUpdateE_cases h haf hag haQ haR hQ hM o

/-- **C106.** A function not defined at the given mean, or at the prediction, makes `filter_update` raise;
the observation function also if no observation is given. -/
theorem C106_additive_filter_update_undefined {u : EUParams E n m} {v : UParams n m}
    (h : u.ContinuedBy v) {a : EUUpdateArgs E n m} {b : UUpdateArgs n m}
    (haf : Option.Rel Continues a.f b.f) (hag : Option.Rel Continues a.g b.g) (haQ : a.Q = b.Q)
    {M P : Moments n} (hP : aukfUpdate v M none b = .ok P) {e : E}
    (he : (∃ f, defaultFunction a.f u.f = .ok f ∧ f M.mean = .error e) ∨
      ∃ g, defaultFunction a.g u.g = .ok g ∧ g P.mean = .error e) (o : Option (Obs m)) :
    ∃ e, aukfUpdateE u M o a = .error (.user e) :=
  aukfUpdateE_undefined h haf hag haQ hP he o

/-- **C106.** `UnscentedKalmanFilter.filter` and `smooth`, with noise as second argument of the
functions, which is within `√3` of its standard deviations.  The smoother calls the transition
functions where the filter has called them. -/
theorem C106_general {u : EGParams E n m} {v : GParams n m} (h : u.ContinuedBy v) (hQ : u.Qᵀ = u.Q)
    (hR : u.Rᵀ = u.R) (hS : u.S0ᵀ = u.S0) (os : List (Obs m)) :
    (ukfFilterE u os = libE (ukfFilter v os) ∧ ukfSmoothE u os = libE (ukfSmooth v os)) ∨
      ∃ e, ukfFilterE u os = .error (.user e) ∧ ukfSmoothE u os = .error (.user e) ∧
        (u.RaisesInTransition v os e ∨ u.RaisesInObservation v os e) := by
  rcases ukfFilterE_cases h hQ hR hS os with h1 | ⟨e, h1, h2⟩
  · exact .inl ⟨h1, ukfSmoothE_eq h hQ hR hS h1⟩
  · exact .inr ⟨e, h1, by rw [ukfSmoothE, h1]; rfl, h2⟩

/-- **C106.** A transition function that is not defined at an estimate and noise zero is noticed. -/
theorem C106_general_transition {u : EGParams E n m} {v : GParams n m} (h : u.ContinuedBy v)
    (hQ : u.Q.PosDef) (hR : u.R.PosDef) (hS : u.S0ᵀ = u.S0) {os : List (Obs m)} {t : ℕ}
    (ht : t + 1 < os.length) {l : List (Moments n)} {M : Moments n}
    (hl : ukfFilter v (os.take (t + 1)) = .ok l) (hM : l.getLast? = some M) (hP : M.cov.PosDef)
    {f : Vec n → Vec n → Except E (Vec n)} (hf : u.f.at t = .ok f) {e : E}
    (he : f M.mean 0 = .error e) :
    ∃ e, ukfFilterE u os = .error (.user e) ∧ ukfSmoothE u os = .error (.user e) := by
  obtain ⟨e, h1⟩ := ukf_transition_mean h hQ hR hS ht hl hM hP hf he
  exact ⟨e, h1, by rw [ukfSmoothE, h1]; rfl⟩

/-- **C106.** An observation function that is not defined at the state that follows an estimate without
noise is noticed, whatever is seen of the row. -/
theorem C106_general_observation {u : EGParams E n m} {v : GParams n m} (h : u.ContinuedBy v)
    (hQ : u.Q.PosDef) (hR : u.R.PosDef) (hS : u.S0ᵀ = u.S0) {os : List (Obs m)} {t : ℕ}
    (ht : t + 1 < os.length) {l : List (Moments n)} {M : Moments n}
    (hl : ukfFilter v (os.take (t + 1)) = .ok l) (hM : l.getLast? = some M) (hP : M.cov.PosDef)
    {F : Vec n → Vec n → Vec n} (hF : v.f.at t = .ok F)
    {g : Vec n → Vec m → Except E (Vec m)} (hg : u.g.at (t + 1) = .ok g) {e : E}
    (he : g (F M.mean 0) 0 = .error e) :
    ∃ e, ukfFilterE u os = .error (.user e) ∧ ukfSmoothE u os = .error (.user e) := by
  obtain ⟨e, h1⟩ := ukf_observation_mean h hQ hR hS ht hl hM hP hF hg he
  exact ⟨e, h1, by rw [ukfSmoothE, h1]; rfl⟩

/-- **C106.** The same for the first row. -/
theorem C106_general_first {u : EGParams E n m} (hQ : u.Q.PosDef) (hR : u.R.PosDef) (hS : u.S0.PosDef)
    {os : List (Obs m)} (hos : os ≠ []) {g : Vec n → Vec m → Except E (Vec m)}
    (hg : u.g.at 0 = .ok g) {e : E} (he : g u.mu0 0 = .error e) :
    ∃ e, ukfFilterE u os = .error (.user e) ∧ ukfSmoothE u os = .error (.user e) := by
  obtain ⟨e, h1⟩ := ukf_observation_first hQ hR hS hos hg he
  exact ⟨e, h1, by rw [ukfSmoothE, h1]; rfl⟩

/-- **C106.** `filter_update` of the general class raises if a function is not defined at the given mean,
or at the state that follows it, with noise zero. -/
theorem C106_general_filter_update_undefined {u : EGParams E n m} {v : GParams n m}
    (h : u.ContinuedBy v) {a : EGUpdateArgs E n m} {b : GUpdateArgs n m}
    (haf : Option.Rel Continues₂ a.f b.f) {M : Moments n} (hM : M.cov.PosDef)
    (hQ : (a.Q.getD u.Q).PosDef) (hR : (a.R.getD u.R).PosDef)
    {f : Vec n → Vec n → Except E (Vec n)} (hf : defaultFunction a.f u.f = .ok f)
    {F : Vec n → Vec n → Vec n} (hF : defaultFunction b.f v.f = .ok F)
    {g : Vec n → Vec m → Except E (Vec m)} (hg : defaultFunction a.g u.g = .ok g) {e : E}
    (he : f M.mean 0 = .error e ∨ g (F M.mean 0) 0 = .error e) (o : Option (Obs m)) :
    ∃ e, ukfUpdateE u M o a = .error (.user e) :=
  ukfUpdateE_undefined h haf hM hQ hR hf hF hg he o

/-- **C106.** `UnscentedKalmanFilter.filter_update`. -/
theorem C106_general_filter_update {u : EGParams E n m} {v : GParams n m} (h : u.ContinuedBy v)
    {a : EGUpdateArgs E n m} {b : GUpdateArgs n m} (haf : Option.Rel Continues₂ a.f b.f)
    (hag : Option.Rel Continues₂ a.g b.g) (haQ : a.Q = b.Q) (haR : a.R = b.R)
    (hQ : (a.Q.getD u.Q)ᵀ = a.Q.getD u.Q) (hR : (a.R.getD u.R)ᵀ = a.R.getD u.R)
    {M : Moments n} (hM : M.covᵀ = M.cov) (o : Option (Obs m)) :
    ukfUpdateE u M o a = libE (ukfUpdate v M o b) ∨
      ∃ e, ukfUpdateE u M o a = .error (.user e) ∧
        ∃ x w, M.Near x ∧ (⟨0, a.Q.getD u.Q⟩ : Moments n).Near w ∧
        ((∃ f, defaultFunction a.f u.f = .ok f ∧ f x w = .error e) ∨
          ∃ F g z, defaultFunction b.f v.f = .ok F ∧ defaultFunction a.g u.g = .ok g ∧
            (⟨0, a.R.getD u.R⟩ : Moments m).Near z ∧ g (F x w) z = .error e) :=
  ukfUpdateE_cases h haf hag haQ haR hQ hR hM o

/-- **C106.** The square root class, with any covariances and any QR decomposition: the results are
those of functions defined everywhere, or `filter` and `smooth` raise the same exception, one of a
function of a time of the data. -/
theorem C106_sqrt (qr : QR) {u : EUParams E n m} {v : UParams n m} (h : u.ContinuedBy v)
    (os : List (Obs m)) :
    (sqFilterE qr u os = libE (sqFilter qr v os) ∧ sqSmoothE qr u os = libE (sqSmooth qr v os)) ∨
      ∃ e, sqFilterE qr u os = .error (.user e) ∧ sqSmoothE qr u os = .error (.user e) ∧
        ((∃ t f x, t + 1 < os.length ∧ u.f.at t = .ok f ∧ f x = .error e) ∨
          ∃ t g x, t < os.length ∧ u.g.at t = .ok g ∧ g x = .error e) := by
  rcases sqFullE_cases qr h os with h1 | ⟨e, h1, h2⟩
  · refine .inl ⟨?_, sqSmoothE_eq qr h h1⟩
    rw [sqFilterE, sqFilter, h1]
    cases sqFull qr v os <;> rfl
  · exact .inr ⟨e, by rw [sqFilterE, h1]; rfl, by rw [sqSmoothE, h1]; rfl, h2⟩

/-- **C106.** `filter_update` of the square root class. -/
theorem C106_sqrt_filter_update (qr : QR) {u : EUParams E n m} {v : UParams n m} (h : u.ContinuedBy v)
    {a : EUUpdateArgs E n m} {b : UUpdateArgs n m} (haf : Option.Rel Continues a.f b.f)
    (hag : Option.Rel Continues a.g b.g) (haQ : a.Q = b.Q) (haR : a.R = b.R) (M : Moments n)
    (o : Option (Obs m)) :
    sqUpdateE qr u M o a = libE (sqUpdate qr v M o b) ∨
      ∃ e, sqUpdateE qr u M o a = .error (.user e) ∧
        ((∃ f x, defaultFunction a.f u.f = .ok f ∧ f x = .error e) ∨
          ∃ g x, defaultFunction a.g u.g = .ok g ∧ g x = .error e) :=
  sqUpdateE_cases qr h haf hag haQ haR M o

/-! ### Examples -/

/-- A function that is defined for positive numbers only, like `math.log`. -/
noncomputable def logE (x : Vec 1) : Except String (Vec 1) :=
  open Classical in if 0 < x 0 then .ok ![Real.log (x 0)] else .error "math domain error"

theorem logE_continues : Continues logE fun x => ![Real.log (x 0)] := by
  intro x y h
  rw [logE] at h
  split at h
  · cases h; rfl
  · cases h

/-- A random walk of which the logarithm is observed. -/
noncomputable def logWalk (mu : ℝ) : EUParams String 1 1 :=
  ⟨.flat [fun x => .ok x], .flat [logE], 1, 1, ![mu], 1⟩

/-- Far from zero there is no exception: the logarithm is not asked for negative numbers. -/
example (o : Obs 1) : ∃ v, (logWalk 10).ContinuedBy v ∧
    aukfFilterE (logWalk 10) [o] = libE (aukfFilter v [o]) := by
  let v : UParams 1 1 := ⟨.flat [fun x => x], .flat [fun x => ![Real.log (x 0)]], 1, 1, ![10], 1⟩
  have hv : (logWalk 10).ContinuedBy v :=
    ⟨.cons (fun x y h => by cases h; rfl) .nil, .cons logE_continues .nil, rfl, rfl, rfl, rfl⟩
  refine ⟨v, hv, (C106_additive_no_exception hv (by simp [logWalk]) (by simp [logWalk])
    (by simp [logWalk]) (fun t l M f x ht => by simp at ht) ?_).1⟩
  intro t l M g x ht hl hM hg hx
  obtain rfl : t = 0 := by simpa using ht
  cases hg
  have hs : aukfFilter v ([] ++ [unseen 1]) = .ok [⟨![10], 1⟩] := by
    obtain ⟨s, h1, h2⟩ := moments2points_default (⟨![10], 1⟩ : Moments 1) Matrix.PosDef.one
    rw [List.nil_append, aukfFilter, runLoop, aukfStep]
    simp only [v, Option.getD_none, h1, Fns.at, first, bind, Except.bind, pure, Except.pure, ufCorrect,
      unscentedCorrect_unseen, h2.points2moments, runLoop]
  rw [List.take_zero, hs] at hl
  cases hl
  cases hM
  have := hx 1
  simp [dotProduct] at this
  have h0 : 0 < x 0 := by nlinarith
  exact ⟨_, by rw [logE, if_pos h0]⟩

/-- With a negative initial mean every call fails. -/
example (o : Obs 1) : ∃ e, aukfFilterE (logWalk (-1)) [o, unseen 1] = .error (.user e) := by
  have h : logE ![-1] = .error "math domain error" := by
    rw [logE, if_neg (by norm_num)]
  obtain ⟨e, h1, -⟩ := C106_additive_first (u := logWalk (-1)) (by simp [logWalk]) (by simp [logWalk])
    Matrix.PosDef.one (g := logE) rfl h (os := [o, unseen 1]) (by simp)
  exact ⟨e, h1⟩

end Verif
