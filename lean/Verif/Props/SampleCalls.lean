import Verif.Proofs.SampleCalls
import Verif.Props.Sample
import Verif.Props.LinearMethods

/-!
# C77: which random numbers a call of `sample` uses
-/

open Matrix

namespace Verif

variable {n m : ℕ} {σ : Type}

/-- **C77.** From the user's arrays to the sample, `KalmanFilter` (and the square-root classes, which
inherit the method): with the generator the call is entitled to, the result is that of the sampling
algorithm on the parameters the arguments stand for, from the current state of this generator. -/
theorem C77_kalman (rng : Rng σ) (fresh : ℕ → σ) {a : KFArgs} {p : Params n m} (h : a.Means p)
    (T : ℕ) (initial : Option (Vec n)) (arg : Option Seed) {g : RngRef}
    (hg : seedMeaning (callSeed arg a.randomState) = some g) (w : World σ) :
    ∃ s, SampleCall.run rng fresh w (.kf (a.object n m) T initial arg)
      = some (⟨(n, m), kfSample rng p T initial (w.get fresh g)⟩, w.put g s) := by
  obtain ⟨r, h1, h2⟩ := h.initialize
  have h2' : r.typed (a.object n m).nDimState (a.object n m).nDimObs = some p := h2
  have hc : chooseRng arg (a.object n m).randomState = .ok g := chooseRng_iff.mpr hg
  refine ⟨(kfSampleRun rng p T initial (w.get fresh g)).2, ?_⟩
  simp only [SampleCall.run, h1, h2', Option.map_some, hc, withRng]
  rw [← kfSampleRun_fst]
  rfl

/-- **C77.** The same for `UnscentedKalmanFilter`. -/
theorem C77_unscented (rng : Rng σ) (fresh : ℕ → σ) {a : UArgs PyFun₂} {p : GParams n m}
    (h : a.MeansGen p) (T : ℕ) (initial : Option (Vec n)) (arg : Option Seed) {g : RngRef}
    (hg : seedMeaning (callSeed arg a.randomState) = some g) (w : World σ) :
    ∃ s, SampleCall.run rng fresh w (.ukf (a.object n m) T initial arg)
      = some (⟨(n, m), ukfSample rng p T initial (w.get fresh g)⟩, w.put g s) := by
  have hc : chooseRng arg (a.object n m).randomState = .ok g := chooseRng_iff.mpr hg
  refine ⟨(ukfSampleRun rng p T initial (w.get fresh g)).2, ?_⟩
  simp only [SampleCall.run]
  rw [uInitialize_eq pyAdd (a.object n m) (seedValid_ok h.seed)]
  have e := h.typed
  simp only [UArgs.object] at e hc ⊢
  rw [e]
  simp only [Option.map_some, hc, withRng]
  rw [← ukfSampleRun_fst]

/-- **C77.** The same for `AdditiveUnscentedKalmanFilter`, in both forms. -/
theorem C77_additive (rng : Rng σ) (fresh : ℕ → σ) {a : UArgs PyFun₁} {p : UParams n m}
    (h : a.MeansAdd p) (T : ℕ) (initial : Option (Vec n)) (arg : Option Seed) {g : RngRef}
    (hg : seedMeaning (callSeed arg a.randomState) = some g) (w : World σ) :
    ∃ s, SampleCall.run rng fresh w (.aukf (a.object n m) T initial arg)
      = some (⟨(n, m), aukfSample rng p T initial (w.get fresh g)⟩, w.put g s) := by
  have hc : chooseRng arg (a.object n m).randomState = .ok g := chooseRng_iff.mpr hg
  refine ⟨(aukfSampleRun rng p T initial (w.get fresh g)).2, ?_⟩
  simp only [SampleCall.run]
  rw [uInitialize_eq pyId (a.object n m) (seedValid_ok h.seed)]
  have e := h.typed
  simp only [UArgs.object] at e hc ⊢
  rw [e]
  simp only [Option.map_some, hc, withRng]
  rw [← aukfSampleRun_fst]

/-- **C77.** A call with an integer seed (its own, or that of the object) returns the same whenever
it is made, and leaves all generators as they are. -/
theorem C77_integer_seed (rng : Rng σ) (fresh : ℕ → σ) (c : SampleCall) {k : ℕ}
    (hc : c.generator = some (.seeded k)) {w : World σ} {r : SampleResult} {w' : World σ}
    (h : c.run rng fresh w = some (r, w')) : ∀ v, c.run rng fresh v = some (r, v) := by
  rcases c.run_cases rng fresh with h1 | ⟨r1, h1⟩ | ⟨g, d, f, hg, h1⟩
  · rw [h1] at h; cases h
  · rw [h1] at h; cases h; exact h1
  · rw [hc] at hg
    cases hg
    rw [h1] at h
    cases h
    exact h1

/-- **C77.** In any sequence of calls, on any objects, two equal calls with an integer seed have the
same result, whatever happens between them. -/
theorem C77_reproducible (rng : Rng σ) (fresh : ℕ → σ) (calls : List SampleCall) {c : SampleCall}
    {k : ℕ} (hc : c.generator = some (.seeded k)) :
    ∀ {w w' : World σ} {out : List SampleResult},
    sampleSession rng fresh calls w = some (out, w') →
    ∀ i j : ℕ, calls[i]? = some c → calls[j]? = some c → out[i]? = out[j]? := by
  have key : ∀ (calls : List SampleCall) {w w' : World σ} {out : List SampleResult},
      sampleSession rng fresh calls w = some (out, w') → ∀ i : ℕ, calls[i]? = some c →
      ∃ r, out[i]? = some r ∧ ∀ v, c.run rng fresh v = some (r, v) := by
    intro calls
    induction calls with
    | nil => intro w w' out _ i hi; simp at hi
    | cons c0 cs ih =>
      intro w w' out h i hi
      simp only [sampleSession] at h
      cases h0 : c0.run rng fresh w with
      | none => rw [h0] at h; cases h
      | some r0 =>
        rw [h0] at h
        cases h1 : sampleSession rng fresh cs r0.2 with
        | none => simp [h1] at h
        | some q =>
          simp only [Option.bind_some, h1, Option.map_some] at h
          cases h
          cases i with
          | zero =>
            simp only [List.getElem?_cons_zero, Option.some.injEq] at hi
            subst hi
            exact ⟨r0.1, rfl, C77_integer_seed rng fresh c0 hc (w := w) (w' := r0.2) h0⟩
          | succ i => exact ih h1 i (by simpa using hi)
  intro w w' out h i j hi hj
  obtain ⟨r, h1, h2⟩ := key calls h i hi
  obtain ⟨r', h1', h2'⟩ := key calls h j hj
  have := (h2 w).symm.trans (h2' w)
  rw [h1, h1']
  simp only [Option.some.injEq, Prod.mk.injEq] at this
  rw [this.1]

/-- **C77.** Generators do not interfere.  Of any sequence of calls on any objects, those entitled to
one of the generators that live on (the global one, or a `RandomState` of the user) have the results
they have when made alone, in the same order, from any state of the other generators; and they leave
their generator in the same state. -/
theorem C77_no_interference (rng : Rng σ) (fresh : ℕ → σ) {g : RngRef} (hg : ∀ k, g ≠ .seeded k)
    (calls : List SampleCall) :
    ∀ {w v w' : World σ} {out : List SampleResult}, w.get fresh g = v.get fresh g →
    sampleSession rng fresh calls w = some (out, w') →
    ∃ v', sampleSession rng fresh (calls.filter fun c => decide (c.generator = some g)) v
        = some (resultsOf g calls out, v') ∧ w'.get fresh g = v'.get fresh g := by
  induction calls with
  | nil =>
    intro w v w' out hw h
    cases h
    exact ⟨v, rfl, hw⟩
  | cons c cs ih =>
    intro w v w' out hw h
    simp only [sampleSession] at h
    cases h0 : c.run rng fresh w with
    | none => rw [h0] at h; cases h
    | some r0 =>
      rw [h0] at h
      cases h1 : sampleSession rng fresh cs r0.2 with
      | none => simp [h1] at h
      | some q =>
        simp only [Option.bind_some, h1, Option.map_some] at h
        cases h
        by_cases hc : c.generator = some g
        · have hkey : ∃ v1, c.run rng fresh v = some (r0.1, v1) ∧
              r0.2.get fresh g = v1.get fresh g := by
            rcases c.run_cases rng fresh with h2 | ⟨r1, h2⟩ | ⟨g', d, f, hg', h2⟩
            · rw [h2] at h0; cases h0
            · rw [h2] at h0; cases h0
              exact ⟨v, h2 v, hw⟩
            · rw [hc] at hg'
              cases hg'
              rw [h2] at h0; cases h0
              refine ⟨v.put g (f (v.get fresh g)).2, by rw [h2, hw], ?_⟩
              rw [World.get_put_self fresh w hg, World.get_put_self fresh v hg, hw]
          obtain ⟨v1, e1, e2⟩ := hkey
          obtain ⟨v', e3, e4⟩ := ih e2 h1
          refine ⟨v', ?_, e4⟩
          rw [List.filter_cons_of_pos (by simpa using hc)]
          simp only [sampleSession, e1, Option.bind_some, e3, Option.map_some]
          simp [resultsOf, hc]
        · have hkey : r0.2.get fresh g = w.get fresh g := by
            rcases c.run_cases rng fresh with h2 | ⟨r1, h2⟩ | ⟨g', d, f, hg', h2⟩
            · rw [h2] at h0; cases h0
            · rw [h2] at h0; cases h0; rfl
            · rw [h2] at h0; cases h0
              exact World.get_put_ne fresh w (fun e => hc (by rw [hg', e])) _
          obtain ⟨v', e3, e4⟩ := ih (hkey.trans hw) h1
          refine ⟨v', ?_, e4⟩
          rw [List.filter_cons_of_neg (by simpa using hc), e3]
          simp [resultsOf, hc]

/-- **C77.** A longer sample begins with the shorter one: the same call with more time steps, from
the same state of the generators. -/
theorem C77_prefix (rng : Rng σ) (fresh : ℕ → σ) (c : SampleCall) (w : World σ) (j : ℕ)
    {d : ℕ × ℕ} {l : List (Vec d.1 × Vec d.2)} {w' : World σ}
    (h : (c.steps (c.length + j)).run rng fresh w = some (⟨d, .ok l⟩, w')) :
    ∃ w'', c.run rng fresh w = some (⟨d, .ok (l.take c.length)⟩, w'') := by
  have key {d' : ℕ × ℕ} (T : ℕ) (long short : σ → Res (List (Vec d'.1 × Vec d'.2)) × σ)
      (hp : ∀ s, PrefixOf T (long s).1 (short s).1) (r : Res RngRef)
      (h : withRng fresh w r long = (⟨d, .ok l⟩, w')) :
      ∃ w'', withRng fresh w r short = (⟨d, .ok (l.take T)⟩, w'') := by
    cases r with
    | error e => simp [withRng] at h; obtain ⟨⟨rfl, h⟩, -⟩ := h; cases h
    | ok g =>
      simp only [withRng, Prod.mk.injEq, Sigma.mk.injEq] at h
      obtain ⟨⟨rfl, h⟩, -⟩ := h
      have := hp (w.get fresh g) l (eq_of_heq h)
      exact ⟨w.put g (short (w.get fresh g)).2, by simp only [withRng, this]⟩
  cases c with
  | kf k T i arg =>
    simp only [SampleCall.steps, SampleCall.length, SampleCall.run] at h ⊢
    cases hi : k.initialize with
    | error e =>
      simp only [hi, Option.some.injEq, Prod.mk.injEq, Sigma.mk.injEq] at h
      obtain ⟨⟨rfl, h⟩, -⟩ := h; cases h
    | ok r =>
      simp only [hi] at h ⊢
      cases hp : r.typed k.nDimState k.nDimObs with
      | none => rw [hp] at h; cases h
      | some p =>
        simp only [hp, Option.map_some, Option.some.injEq] at h ⊢
        exact key T _ _ (fun s => kfSampleRun_prefix rng p T j i s) _ h
  | ukf k T i arg =>
    simp only [SampleCall.steps, SampleCall.length, SampleCall.run] at h ⊢
    cases hi : k.initialize pyAdd with
    | error e =>
      simp only [hi, Option.some.injEq, Prod.mk.injEq, Sigma.mk.injEq] at h
      obtain ⟨⟨rfl, h⟩, -⟩ := h; cases h
    | ok r =>
      simp only [hi] at h ⊢
      cases hp : r.typedGen k.nDimState k.nDimObs with
      | none => rw [hp] at h; cases h
      | some p =>
        simp only [hp, Option.map_some, Option.some.injEq] at h ⊢
        exact key T _ _ (fun s => ukfSampleRun_prefix rng p T j i s) _ h
  | aukf k T i arg =>
    simp only [SampleCall.steps, SampleCall.length, SampleCall.run] at h ⊢
    cases hi : k.initialize pyId with
    | error e =>
      simp only [hi, Option.some.injEq, Prod.mk.injEq, Sigma.mk.injEq] at h
      obtain ⟨⟨rfl, h⟩, -⟩ := h; cases h
    | ok r =>
      simp only [hi] at h ⊢
      cases hp : r.typedAdd k.nDimState k.nDimObs with
      | none => rw [hp] at h; cases h
      | some p =>
        simp only [hp, Option.map_some, Option.some.injEq] at h ⊢
        exact key T _ _ (fun s => aukfSampleRun_prefix rng p T j i s) _ h

/-- **C77.** A call that returns makes `2 T - 1` draws for `T ≥ 1` time steps, none for `T = 0`, and one
more for the initial state unless that is given, all from the generator it is entitled to. -/
theorem C77_draws (rng : Rng σ) (fresh : ℕ → σ) (c : SampleCall) (w : World σ) {g : RngRef}
    (hg : c.generator = some g) {d : ℕ × ℕ} {l : List (Vec d.1 × Vec d.2)} {w' : World σ}
    (h : c.run rng fresh w = some (⟨d, .ok l⟩, w')) :
    ∃ s', w' = w.put g s' ∧
      Draws rng ((if c.initialGiven then 0 else 1) + (2 * c.length - 1)) (w.get fresh g) s' := by
  have key {d' : ℕ × ℕ} (k : ℕ) (run : σ → Res (List (Vec d'.1 × Vec d'.2)) × σ)
      (hp : ∀ s l s', run s = (.ok l, s') → Draws rng k s s')
      (h0 : withRng fresh w (.ok g) run = (⟨d, .ok l⟩, w')) :
      ∃ s', w' = w.put g s' ∧ Draws rng k (w.get fresh g) s' := by
    simp only [withRng, Prod.mk.injEq, Sigma.mk.injEq] at h0
    obtain ⟨⟨rfl, h0⟩, rfl⟩ := h0
    exact ⟨_, rfl, hp _ l _ (Prod.ext (eq_of_heq h0) rfl)⟩
  cases c with
  | kf k T i arg =>
    have hc : chooseRng arg k.randomState = .ok g := chooseRng_iff.mpr hg
    simp only [SampleCall.run] at h
    cases hi : k.initialize with
    | error e =>
      simp only [hi, Option.some.injEq, Prod.mk.injEq, Sigma.mk.injEq] at h
      obtain ⟨⟨rfl, h⟩, -⟩ := h; cases h
    | ok r =>
      simp only [hi] at h
      cases hp : r.typed k.nDimState k.nDimObs with
      | none => rw [hp] at h; cases h
      | some p =>
        simp only [hp, Option.map_some, Option.some.injEq, hc] at h
        exact key _ _ (fun s l s' => kfSampleRun_draws rng p T i s l s') h
  | ukf k T i arg =>
    have hc : chooseRng arg k.randomState = .ok g := chooseRng_iff.mpr hg
    simp only [SampleCall.run] at h
    cases hi : k.initialize pyAdd with
    | error e =>
      simp only [hi, Option.some.injEq, Prod.mk.injEq, Sigma.mk.injEq] at h
      obtain ⟨⟨rfl, h⟩, -⟩ := h; cases h
    | ok r =>
      simp only [hi] at h
      cases hp : r.typedGen k.nDimState k.nDimObs with
      | none => rw [hp] at h; cases h
      | some p =>
        simp only [hp, Option.map_some, Option.some.injEq, hc] at h
        exact key _ _ (fun s l s' => ukfSampleRun_draws rng p T i s l s') h
  | aukf k T i arg =>
    have hc : chooseRng arg k.randomState = .ok g := chooseRng_iff.mpr hg
    simp only [SampleCall.run] at h
    cases hi : k.initialize pyId with
    | error e =>
      simp only [hi, Option.some.injEq, Prod.mk.injEq, Sigma.mk.injEq] at h
      obtain ⟨⟨rfl, h⟩, -⟩ := h; cases h
    | ok r =>
      simp only [hi] at h
      cases hp : r.typedAdd k.nDimState k.nDimObs with
      | none => rw [hp] at h; cases h
      | some p =>
        simp only [hp, Option.map_some, Option.some.injEq, hc] at h
        exact key _ _ (fun s l s' => aukfSampleRun_draws rng p T i s l s') h

/-- **C77.** A call on a `KalmanFilter` that runs out of parameters has used up the draws of the steps
before: after an exception the generator is not put back.  `t` is the time at which the observation
parameters, or from which the transition parameters, are missing. -/
theorem C77_draws_raise_kalman (rng : Rng σ) (fresh : ℕ → σ) {a : KFArgs} {p : Params n m}
    (h : a.Means p) {T t : ℕ} (initial : Option (Vec n)) (arg : Option Seed) {g : RngRef}
    (hg : seedMeaning (callSeed arg a.randomState) = some g) (w : World σ) {e : Err}
    (hQ : ∃ Q, lastDims p.Q 0 = .ok Q) (hR : ∃ R, lastDims p.R 0 = .ok R)
    (hf : ∀ i < t, p.TransCovers i) (ho : ∀ i < t, p.ObsCovers i) :
    (t < T → p.ObsRaises t e → ∃ s',
      SampleCall.run rng fresh w (.kf (a.object n m) T initial arg)
        = some (⟨(n, m), .error e⟩, w.put g s') ∧
      Draws rng ((if initial.isSome then 0 else 1) + 2 * t) (w.get fresh g) s') ∧
    (t + 1 < T → p.ObsCovers t → p.TransRaises t e → ∃ s',
      SampleCall.run rng fresh w (.kf (a.object n m) T initial arg)
        = some (⟨(n, m), .error e⟩, w.put g s') ∧
      Draws rng ((if initial.isSome then 0 else 1) + (2 * t + 1)) (w.get fresh g) s') := by
  obtain ⟨r, h1, h2⟩ := h.initialize
  have h2' : r.typed (a.object n m).nDimState (a.object n m).nDimObs = some p := h2
  have hc : chooseRng arg (a.object n m).randomState = .ok g := chooseRng_iff.mpr hg
  have key : ∀ {k : ℕ}, (∃ s', kfSampleRun rng p T initial (w.get fresh g) = (.error e, s') ∧
      Draws rng k (w.get fresh g) s') → ∃ s',
      SampleCall.run rng fresh w (.kf (a.object n m) T initial arg)
        = some (⟨(n, m), .error e⟩, w.put g s') ∧ Draws rng k (w.get fresh g) s' := by
    rintro k ⟨s', hr, hd⟩
    refine ⟨s', ?_, hd⟩
    simp only [SampleCall.run, h1, h2', Option.map_some, hc, withRng]
    exact congrArg (fun r : Res (List (Vec n × Vec m)) × σ =>
      some ((⟨(n, m), r.1⟩ : SampleResult), w.put g r.2)) hr
  exact ⟨fun ht he => key (kfSampleRun_obs rng p ht initial _ he hf ho hQ hR),
    fun ht hot he => key (kfSampleRun_trans rng p ht initial _ he hf
      (fun i hi => (Nat.lt_or_eq_of_le hi).elim (ho i) fun h => h ▸ hot) hQ hR)⟩

/-- **C77.** The same for `UnscentedKalmanFilter`. -/
theorem C77_draws_raise_unscented (rng : Rng σ) (fresh : ℕ → σ) {a : UArgs PyFun₂} {p : GParams n m}
    (h : a.MeansGen p) {T t : ℕ} (initial : Option (Vec n)) (arg : Option Seed) {g : RngRef}
    (hg : seedMeaning (callSeed arg a.randomState) = some g) (w : World σ) {e : Err}
    (hf : ∀ i < t, ∃ f, p.f.at i = .ok f) (ho : ∀ i < t, ∃ g, p.g.at i = .ok g) :
    (t < T → p.g.at t = .error e → ∃ s',
      SampleCall.run rng fresh w (.ukf (a.object n m) T initial arg)
        = some (⟨(n, m), .error e⟩, w.put g s') ∧
      Draws rng ((if initial.isSome then 0 else 1) + 2 * t) (w.get fresh g) s') ∧
    (t + 1 < T → (∃ g, p.g.at t = .ok g) → p.f.at t = .error e → ∃ s',
      SampleCall.run rng fresh w (.ukf (a.object n m) T initial arg)
        = some (⟨(n, m), .error e⟩, w.put g s') ∧
      Draws rng ((if initial.isSome then 0 else 1) + (2 * t + 1)) (w.get fresh g) s') := by
  have hc : chooseRng arg (a.object n m).randomState = .ok g := chooseRng_iff.mpr hg
  have key : ∀ {k : ℕ}, (∃ s', ukfSampleRun rng p T initial (w.get fresh g) = (.error e, s') ∧
      Draws rng k (w.get fresh g) s') → ∃ s',
      SampleCall.run rng fresh w (.ukf (a.object n m) T initial arg)
        = some (⟨(n, m), .error e⟩, w.put g s') ∧ Draws rng k (w.get fresh g) s' := by
    rintro k ⟨s', hr, hd⟩
    refine ⟨s', ?_, hd⟩
    simp only [SampleCall.run]
    rw [uInitialize_eq pyAdd (a.object n m) (seedValid_ok h.seed)]
    have e := h.typed
    simp only [UArgs.object] at e hc ⊢
    rw [e]
    simp only [Option.map_some, hc, withRng]
    exact congrArg (fun r : Res (List (Vec n × Vec m)) × σ =>
      some ((⟨(n, m), r.1⟩ : SampleResult), w.put g r.2)) hr
  exact ⟨fun ht he => key (ukfSampleRun_obs rng p ht initial _ he hf ho),
    fun ht hot he => key (ukfSampleRun_trans rng p ht initial _ he hf
      (fun i hi => (Nat.lt_or_eq_of_le hi).elim (ho i) fun h => h ▸ hot))⟩

/-- **C77.** The same for the classes with additive noise. -/
theorem C77_draws_raise_additive (rng : Rng σ) (fresh : ℕ → σ) {a : UArgs PyFun₁} {p : UParams n m}
    (h : a.MeansAdd p) {T t : ℕ} (initial : Option (Vec n)) (arg : Option Seed) {g : RngRef}
    (hg : seedMeaning (callSeed arg a.randomState) = some g) (w : World σ) {e : Err}
    (hf : ∀ i < t, ∃ f, p.f.at i = .ok f) (ho : ∀ i < t, ∃ g, p.g.at i = .ok g) :
    (t < T → p.g.at t = .error e → ∃ s',
      SampleCall.run rng fresh w (.aukf (a.object n m) T initial arg)
        = some (⟨(n, m), .error e⟩, w.put g s') ∧
      Draws rng ((if initial.isSome then 0 else 1) + 2 * t) (w.get fresh g) s') ∧
    (t + 1 < T → (∃ g, p.g.at t = .ok g) → p.f.at t = .error e → ∃ s',
      SampleCall.run rng fresh w (.aukf (a.object n m) T initial arg)
        = some (⟨(n, m), .error e⟩, w.put g s') ∧
      Draws rng ((if initial.isSome then 0 else 1) + (2 * t + 1)) (w.get fresh g) s') := by
  have hc : chooseRng arg (a.object n m).randomState = .ok g := chooseRng_iff.mpr hg
  have key : ∀ {k : ℕ}, (∃ s', aukfSampleRun rng p T initial (w.get fresh g) = (.error e, s') ∧
      Draws rng k (w.get fresh g) s') → ∃ s',
      SampleCall.run rng fresh w (.aukf (a.object n m) T initial arg)
        = some (⟨(n, m), .error e⟩, w.put g s') ∧ Draws rng k (w.get fresh g) s' := by
    rintro k ⟨s', hr, hd⟩
    refine ⟨s', ?_, hd⟩
    simp only [SampleCall.run]
    rw [uInitialize_eq pyId (a.object n m) (seedValid_ok h.seed)]
    have e := h.typed
    simp only [UArgs.object] at e hc ⊢
    rw [e]
    simp only [Option.map_some, hc, withRng]
    exact congrArg (fun r : Res (List (Vec n × Vec m)) × σ =>
      some ((⟨(n, m), r.1⟩ : SampleResult), w.put g r.2)) hr
  exact ⟨fun ht he => key (aukfSampleRun_obs rng p ht initial _ he hf ho),
    fun ht hot he => key (aukfSampleRun_trans rng p ht initial _ he hf
      (fun i hi => (Nat.lt_or_eq_of_le hi).elim (ho i) fun h => h ▸ hot))⟩

/-! ### The hypotheses can be met -/

/-- A generator that counts: the `s`-th draw has all components equal to `s`. -/
def countRng : Rng ℕ := ⟨fun _ _ _ s => (fun _ => s, s + 1)⟩

/-- **C77.** Without any seed the global generator is used and advanced, although
`_default_parameters` has the entry `"random_state": 0`: two successive calls have different
results. -/
theorem C77_unseeded_differ :
    ∃ (k : KF) (r r' : SampleResult) (w : World ℕ), k.randomState = none ∧
      sampleSession countRng (fun k => k) [.kf k 1 none none, .kf k 1 none none] ⟨0, fun _ => 0⟩
        = some ([r, r'], w) ∧ r ≠ r' ∧ w.glob = 4 := by
  have hm : KFArgs.Means (n := 1) (m := 1) {}
      ⟨.const (eyeMat 1 1), .const 0, .const (eyeMat 1 1), .const (eyeMat 1 1), .const 0,
        .const (eyeMat 1 1), 0, eyeMat 1 1⟩ :=
    ⟨by simp, by simp, by simp, by simp, .omitted, .omitted, .omitted, .omitted, .omitted, .omitted,
      .omitted, .omitted, trivial⟩
  obtain ⟨r0, h1, h2⟩ := hm.initialize
  have h2' : r0.typed (KFArgs.object {} 1 1).nDimState (KFArgs.object {} 1 1).nDimObs = some _ := h2
  refine ⟨KFArgs.object {} 1 1, ⟨(1, 1), .ok [(fun _ => 0, fun _ => 1)]⟩,
    ⟨(1, 1), .ok [(fun _ => 2, fun _ => 5)]⟩, ⟨4, fun _ => 0⟩, rfl, ?_, ?_, rfl⟩
  · have e : eyeMat 1 1 = (1 : Mat 1 1) := by
      ext i j; simp [eyeMat, Matrix.one_apply, Fin.ext_iff]
    have hrun (s : ℕ) : SampleCall.run countRng (fun k => k) ⟨s, fun _ => 0⟩
        (.kf (KFArgs.object {} 1 1) 1 none none)
        = some (⟨(1, 1), .ok [(fun _ => (s : ℝ), fun _ => (s : ℝ) + (s + 1 : ℕ))]⟩,
          ⟨s + 2, fun _ => 0⟩) := by
      simp only [SampleCall.run, h1, h2', Option.map_some]
      have : chooseRng none (KFArgs.object {} 1 1).randomState = .ok .global := rfl
      simp only [this, withRng, World.get, World.put]
      have hr : kfSampleRun countRng (⟨.const (eyeMat 1 1), .const 0, .const (eyeMat 1 1),
          .const (eyeMat 1 1), .const 0, .const (eyeMat 1 1), 0, eyeMat 1 1⟩ : Params 1 1) 1 none s
          = (.ok [(fun _ => (s : ℝ), fun _ => (s : ℝ) + (s + 1 : ℕ))], s + 2) := by
        simp only [e]
        simp only [kfSampleRun, initialDraw, lastDims, countRng, sampleLoopRun]
        refine Prod.ext ?_ rfl
        refine congrArg Except.ok ?_
        simp only [List.cons.injEq, and_true, Prod.mk.injEq, true_and]
        funext i
        simp
      exact congrArg (fun r : Res (List (Vec 1 × Vec 1)) × ℕ =>
        some ((⟨(1, 1), r.1⟩ : SampleResult), (⟨r.2, fun _ => 0⟩ : World ℕ))) hr
    simp only [sampleSession, hrun, Option.bind_some, Option.map_some]
    norm_num
  · intro h
    simp only [Sigma.mk.injEq, heq_eq_eq, true_and, Except.ok.injEq, List.cons.injEq, and_true,
      Prod.mk.injEq] at h
    have := congrFun h.1 0
    norm_num at this

/-- Calls entitled to a new generator, to the user's and to the global one. -/
example (k : KF) (hk : k.randomState = some (.int 7)) (i : Option (Vec k.nDimState)) :
    (SampleCall.kf k 3 i none).generator = some (.seeded 7) ∧
    (SampleCall.kf k 3 i (some (.state 2))).generator = some (.object 2) ∧
    (SampleCall.kf k 3 i (some .npRandom)).generator = some .global := by
  simp [SampleCall.generator, hk, callSeed, seedMeaning]

/-- `C77_kalman` applies to the arguments of `exKFArgs`; a seed in the call goes before that of the
object. -/
example : seedMeaning (callSeed (some (.int 5)) exKFArgs.randomState) = some (.seeded 5) := by
  simp [callSeed, seedMeaning]

/-- A list of one transition matrix: a call for three steps raises at the second transition, after
two draws for the first time step and two for the second. -/
example : ∃ p : Params 1 1, p.TransRaises 1 .indexError ∧ (∀ i < 1, p.TransCovers i) ∧
    (∀ i, p.ObsCovers i) ∧ (∃ Q, lastDims p.Q 0 = .ok Q) ∧ ∃ R, lastDims p.R 0 = .ok R :=
  ⟨⟨.seq [1], .const 0, .const 1, .const 1, .const 0, .const 1, 0, 1⟩, .inl rfl,
    fun i hi => by
      obtain rfl : i = 0 := by omega
      exact ⟨⟨1, rfl⟩, 0, rfl⟩, fun i => ⟨⟨1, rfl⟩, 0, rfl⟩, ⟨1, rfl⟩, 1, rfl⟩

end Verif
