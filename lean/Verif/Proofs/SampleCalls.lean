import Verif.Spec.SampleCalls
import Verif.Proofs.LinearMethods
import Verif.Proofs.UnscentedFrontend

/-!
# Lemmas about the calls of `sample`
-/

open Matrix

namespace Verif

variable {n m : ℕ} {σ : Type}

/-! ### Results are those of the loops without states -/

theorem sampleLoopRun_fst (rng : Rng σ) (p : Params n m) (k : ℕ) :
    ∀ (t : ℕ) (Q : TV (Mat n n)) (R : TV (Mat m m)) (x : Vec n) (s : σ),
    (sampleLoopRun rng p k t Q R x s).1 = sampleLoop rng p k t Q R x s := by
  induction k with
  | zero => intro t Q R x s; rfl
  | succ k ih =>
    intro t Q R x s
    simp only [sampleLoopRun, sampleLoop, bind, Except.bind]
    cases lastDims p.A (t - 1) with
    | error e => rfl
    | ok A =>
      cases lastDims p.b (t - 1) with
      | error e => rfl
      | ok b =>
        cases lastDims Q (t - 1) with
        | error e => rfl
        | ok Qt =>
          cases lastDims p.C t with
          | error e => rfl
          | ok C =>
            cases lastDims p.d t with
            | error e => rfl
            | ok d =>
              cases lastDims R t with
              | error e => rfl
              | ok Rt =>
                simp only [ih]
                cases sampleLoop rng p k (t + 1) (rebind Qt) (rebind Rt)
                  (A *ᵥ x + b + (rng.normal n 0 Qt s).1)
                  (rng.normal m 0 Rt (rng.normal n 0 Qt s).2).2 <;> rfl

theorem kfSampleRun_fst (rng : Rng σ) (p : Params n m) (T : ℕ) (initial : Option (Vec n)) (s : σ) :
    (kfSampleRun rng p T initial s).1 = kfSample rng p T initial s := by
  have key (i : Vec n × σ) (k : ℕ) :
      (match lastDims p.C 0, lastDims p.d 0, lastDims p.R 0 with
        | .ok C, .ok d, .ok Rt =>
          let v := rng.normal m 0 Rt i.2
          let z := C *ᵥ i.1 + d + v.1
          let rest := sampleLoopRun rng p k 1 p.Q (rebind Rt) i.1 v.2
          (rest.1.map ((i.1, z) :: ·), rest.2)
        | .error e, _, _ => (.error e, i.2)
        | _, .error e, _ => (.error e, i.2)
        | _, _, .error e => ((.error e, i.2) : Res (List (Vec n × Vec m)) × σ)).1
      = (do
          let C ← lastDims p.C 0
          let d ← lastDims p.d 0
          let Rt ← lastDims p.R 0
          let v := rng.normal m 0 Rt i.2
          let z := C *ᵥ i.1 + d + v.1
          let rest ← sampleLoop rng p k 1 p.Q (rebind Rt) i.1 v.2
          pure ((i.1, z) :: rest)) := by
    simp only [bind, Except.bind]
    cases lastDims p.C 0 with
    | error e => rfl
    | ok C =>
      cases lastDims p.d 0 with
      | error e => rfl
      | ok d =>
        cases lastDims p.R 0 with
        | error e => rfl
        | ok Rt =>
          simp only [sampleLoopRun_fst]
          cases sampleLoop rng p k 1 p.Q (rebind Rt) i.1 (rng.normal m 0 Rt i.2).2 <;> rfl
  cases T with
  | zero => rfl
  | succ k => cases initial <;> exact key _ k

theorem ukfSampleLoopRun_fst (rng : Rng σ) (p : GParams n m) (k : ℕ) :
    ∀ (t : ℕ) (x : Vec n) (s : σ),
    (ukfSampleLoopRun rng p k t x s).1 = ukfSampleLoop rng p k t x s := by
  induction k with
  | zero => intro t x s; rfl
  | succ k ih =>
    intro t x s
    simp only [ukfSampleLoopRun, ukfSampleLoop, bind, Except.bind]
    cases p.f.at (t - 1) with
    | error e => rfl
    | ok f =>
      cases p.g.at t with
      | error e => rfl
      | ok g =>
        simp only [ih]
        cases ukfSampleLoop rng p k (t + 1) (f x (rng.normal n 0 p.Q s).1)
          (rng.normal m 0 p.R (rng.normal n 0 p.Q s).2).2 <;> rfl

theorem ukfSampleRun_fst (rng : Rng σ) (p : GParams n m) (T : ℕ) (initial : Option (Vec n))
    (s : σ) : (ukfSampleRun rng p T initial s).1 = ukfSample rng p T initial s := by
  have key (i : Vec n × σ) (k : ℕ) :
      (match p.g.at 0 with
        | .error e => ((.error e, i.2) : Res (List (Vec n × Vec m)) × σ)
        | .ok g =>
          let v := rng.normal m 0 p.R i.2
          let z := g i.1 v.1
          let rest := ukfSampleLoopRun rng p k 1 i.1 v.2
          (rest.1.map ((i.1, z) :: ·), rest.2)).1
      = (do
          let g ← p.g.at 0
          let v := rng.normal m 0 p.R i.2
          let z := g i.1 v.1
          let rest ← ukfSampleLoop rng p k 1 i.1 v.2
          pure ((i.1, z) :: rest)) := by
    simp only [bind, Except.bind]
    cases p.g.at 0 with
    | error e => rfl
    | ok g =>
      simp only [ukfSampleLoopRun_fst]
      cases ukfSampleLoop rng p k 1 i.1 (rng.normal m 0 p.R i.2).2 <;> rfl
  cases T with
  | zero => rfl
  | succ k => cases initial <;> exact key _ k

theorem aukfSampleLoopRun_fst (rng : Rng σ) (p : UParams n m) (k : ℕ) :
    ∀ (t : ℕ) (x : Vec n) (s : σ),
    (aukfSampleLoopRun rng p k t x s).1 = aukfSampleLoop rng p k t x s := by
  induction k with
  | zero => intro t x s; rfl
  | succ k ih =>
    intro t x s
    simp only [aukfSampleLoopRun, aukfSampleLoop, bind, Except.bind]
    cases p.f.at (t - 1) with
    | error e => rfl
    | ok f =>
      cases p.g.at t with
      | error e => rfl
      | ok g =>
        simp only [ih]
        cases aukfSampleLoop rng p k (t + 1) (f x + (rng.normal n 0 p.Q s).1)
          (rng.normal m 0 p.R (rng.normal n 0 p.Q s).2).2 <;> rfl

theorem aukfSampleRun_fst (rng : Rng σ) (p : UParams n m) (T : ℕ) (initial : Option (Vec n))
    (s : σ) : (aukfSampleRun rng p T initial s).1 = aukfSample rng p T initial s := by
  have key (i : Vec n × σ) (k : ℕ) :
      (match p.g.at 0 with
        | .error e => ((.error e, i.2) : Res (List (Vec n × Vec m)) × σ)
        | .ok g =>
          let v := rng.normal m 0 p.R i.2
          let z := g i.1 + v.1
          let rest := aukfSampleLoopRun rng p k 1 i.1 v.2
          (rest.1.map ((i.1, z) :: ·), rest.2)).1
      = (do
          let g ← p.g.at 0
          let v := rng.normal m 0 p.R i.2
          let z := g i.1 + v.1
          let rest ← aukfSampleLoop rng p k 1 i.1 v.2
          pure ((i.1, z) :: rest)) := by
    simp only [bind, Except.bind]
    cases p.g.at 0 with
    | error e => rfl
    | ok g =>
      simp only [aukfSampleLoopRun_fst]
      cases aukfSampleLoop rng p k 1 i.1 (rng.normal m 0 p.R i.2).2 <;> rfl
  cases T with
  | zero => rfl
  | succ k => cases initial <;> exact key _ k

/-! ### Prefixes -/

/-- A longer run starts with the shorter one. -/
def PrefixOf {α : Type} (T : ℕ) (long short : Res (List α)) : Prop :=
  ∀ l, long = .ok l → short = .ok (l.take T)

theorem PrefixOf.cons {α : Type} {T : ℕ} {long short : Res (List α)} (h : PrefixOf T long short)
    (a : α) : PrefixOf (T + 1) (long.map (a :: ·)) (short.map (a :: ·)) := by
  intro l hl
  cases hlong : long with
  | error e => rw [hlong] at hl; cases hl
  | ok l' =>
    rw [hlong] at hl
    cases hl
    rw [h l' hlong]
    rfl

theorem PrefixOf.error {α : Type} (T : ℕ) (e : Err) (short : Res (List α)) :
    PrefixOf T (.error e) short := fun _ h => nomatch h

theorem sampleLoopRun_prefix (rng : Rng σ) (p : Params n m) (j k : ℕ) :
    ∀ (t : ℕ) (Q : TV (Mat n n)) (R : TV (Mat m m)) (x : Vec n) (s : σ),
    PrefixOf k (sampleLoopRun rng p (k + j) t Q R x s).1 (sampleLoopRun rng p k t Q R x s).1 := by
  induction k with
  | zero => intro t Q R x s l _; rfl
  | succ k ih =>
    intro t Q R x s
    rw [show k + 1 + j = (k + j) + 1 by omega]
    simp only [sampleLoopRun]
    cases lastDims p.A (t - 1) with
    | error e => exact PrefixOf.error _ _ _
    | ok A =>
      cases lastDims p.b (t - 1) with
      | error e => exact PrefixOf.error _ _ _
      | ok b =>
        cases lastDims Q (t - 1) with
        | error e => exact PrefixOf.error _ _ _
        | ok Qt =>
          cases lastDims p.C t with
          | error e => exact PrefixOf.error _ _ _
          | ok C =>
            cases lastDims p.d t with
            | error e => exact PrefixOf.error _ _ _
            | ok d =>
              cases lastDims R t with
              | error e => exact PrefixOf.error _ _ _
              | ok Rt => exact PrefixOf.cons (ih _ _ _ _ _) _

theorem kfSampleRun_prefix (rng : Rng σ) (p : Params n m) (T j : ℕ) (initial : Option (Vec n))
    (s : σ) :
    PrefixOf T (kfSampleRun rng p (T + j) initial s).1 (kfSampleRun rng p T initial s).1 := by
  cases T with
  | zero => intro l _; rfl
  | succ k =>
    rw [show k + 1 + j = (k + j) + 1 by omega]
    simp only [kfSampleRun]
    cases lastDims p.C 0 with
    | error e => exact PrefixOf.error _ _ _
    | ok C =>
      cases lastDims p.d 0 with
      | error e => exact PrefixOf.error _ _ _
      | ok d =>
        cases lastDims p.R 0 with
        | error e => exact PrefixOf.error _ _ _
        | ok Rt => exact PrefixOf.cons (sampleLoopRun_prefix rng p j k _ _ _ _ _) _

theorem ukfSampleLoopRun_prefix (rng : Rng σ) (p : GParams n m) (j k : ℕ) :
    ∀ (t : ℕ) (x : Vec n) (s : σ),
    PrefixOf k (ukfSampleLoopRun rng p (k + j) t x s).1 (ukfSampleLoopRun rng p k t x s).1 := by
  induction k with
  | zero => intro t x s l _; rfl
  | succ k ih =>
    intro t x s
    rw [show k + 1 + j = (k + j) + 1 by omega]
    simp only [ukfSampleLoopRun]
    cases p.f.at (t - 1) with
    | error e => exact PrefixOf.error _ _ _
    | ok f =>
      cases p.g.at t with
      | error e => exact PrefixOf.error _ _ _
      | ok g => exact PrefixOf.cons (ih _ _ _) _

theorem ukfSampleRun_prefix (rng : Rng σ) (p : GParams n m) (T j : ℕ) (initial : Option (Vec n))
    (s : σ) :
    PrefixOf T (ukfSampleRun rng p (T + j) initial s).1 (ukfSampleRun rng p T initial s).1 := by
  cases T with
  | zero => intro l _; rfl
  | succ k =>
    rw [show k + 1 + j = (k + j) + 1 by omega]
    simp only [ukfSampleRun]
    cases p.g.at 0 with
    | error e => exact PrefixOf.error _ _ _
    | ok g => exact PrefixOf.cons (ukfSampleLoopRun_prefix rng p j k _ _ _) _

theorem aukfSampleLoopRun_prefix (rng : Rng σ) (p : UParams n m) (j k : ℕ) :
    ∀ (t : ℕ) (x : Vec n) (s : σ),
    PrefixOf k (aukfSampleLoopRun rng p (k + j) t x s).1 (aukfSampleLoopRun rng p k t x s).1 := by
  induction k with
  | zero => intro t x s l _; rfl
  | succ k ih =>
    intro t x s
    rw [show k + 1 + j = (k + j) + 1 by omega]
    simp only [aukfSampleLoopRun]
    cases p.f.at (t - 1) with
    | error e => exact PrefixOf.error _ _ _
    | ok f =>
      cases p.g.at t with
      | error e => exact PrefixOf.error _ _ _
      | ok g => exact PrefixOf.cons (ih _ _ _) _

theorem aukfSampleRun_prefix (rng : Rng σ) (p : UParams n m) (T j : ℕ) (initial : Option (Vec n))
    (s : σ) :
    PrefixOf T (aukfSampleRun rng p (T + j) initial s).1 (aukfSampleRun rng p T initial s).1 := by
  cases T with
  | zero => intro l _; rfl
  | succ k =>
    rw [show k + 1 + j = (k + j) + 1 by omega]
    simp only [aukfSampleRun]
    cases p.g.at 0 with
    | error e => exact PrefixOf.error _ _ _
    | ok g => exact PrefixOf.cons (aukfSampleLoopRun_prefix rng p j k _ _ _) _

/-! ### The generator -/

theorem checkRandomState_some {s : Seed} {g : RngRef} :
    seedMeaning (some s) = some g ↔ checkRandomState s = .ok g := by
  cases s with
  | none => simp [seedMeaning, checkRandomState]
  | npRandom => simp [seedMeaning, checkRandomState]
  | int k =>
    simp only [seedMeaning, checkRandomState]
    split <;> simp
  | state i => simp [seedMeaning, checkRandomState]
  | other => simp [seedMeaning, checkRandomState]

theorem chooseRng_iff {arg attr : Option Seed} {g : RngRef} :
    chooseRng arg attr = .ok g ↔ seedMeaning (callSeed arg attr) = some g := by
  have h0 : checkRandomState (attr.getD .none) = .ok g ↔ seedMeaning attr = some g := by
    cases attr with
    | none => simp [seedMeaning, checkRandomState]
    | some s => exact checkRandomState_some.symm
  cases arg with
  | none => exact h0
  | some s =>
    cases s with
    | none => exact h0
    | npRandom => exact (checkRandomState_some (s := .npRandom) (g := g)).symm
    | int k => exact (checkRandomState_some (s := .int k) (g := g)).symm
    | state i => exact (checkRandomState_some (s := .state i) (g := g)).symm
    | other => exact (checkRandomState_some (s := .other) (g := g)).symm

/-- What a call can do: leave the model, raise without touching a generator, or use the generator it
is entitled to. -/
theorem SampleCall.run_cases (rng : Rng σ) (fresh : ℕ → σ) (c : SampleCall) :
    (∀ w, c.run rng fresh w = none) ∨ (∃ r, ∀ w, c.run rng fresh w = some (r, w)) ∨
    ∃ (g : RngRef) (d : ℕ × ℕ) (f : σ → Res (List (Vec d.1 × Vec d.2)) × σ),
      c.generator = some g ∧
      ∀ w, c.run rng fresh w
        = some (⟨d, (f (w.get fresh g)).1⟩, w.put g (f (w.get fresh g)).2) := by
  have key (d : ℕ × ℕ) (f : σ → Res (List (Vec d.1 × Vec d.2)) × σ) (arg attr : Option Seed) :
      (∃ r, ∀ w, withRng fresh w (chooseRng arg attr) f = (r, w)) ∨
      ∃ g, seedMeaning (callSeed arg attr) = some g ∧ ∀ w, withRng fresh w (chooseRng arg attr) f
        = (⟨d, (f (w.get fresh g)).1⟩, w.put g (f (w.get fresh g)).2) := by
    cases h : chooseRng arg attr with
    | error e => exact .inl ⟨_, fun w => rfl⟩
    | ok g => exact .inr ⟨g, chooseRng_iff.mp h, fun w => rfl⟩
  cases c with
  | kf k T i arg =>
    cases h : k.initialize with
    | error e => exact .inr (.inl ⟨_, fun w => by simp only [SampleCall.run, h]; rfl⟩)
    | ok r =>
      cases hp : r.typed k.nDimState k.nDimObs with
      | none => exact .inl fun w => by simp only [SampleCall.run, h, hp]; rfl
      | some p =>
        rcases key (k.nDimState, k.nDimObs) (kfSampleRun rng p T i) arg k.randomState with
          ⟨r', h'⟩ | ⟨g, h1, h2⟩
        · exact .inr (.inl ⟨r', fun w => by
            simp only [SampleCall.run, h, hp, Option.map_some, h']⟩)
        · exact .inr (.inr ⟨g, (k.nDimState, k.nDimObs), kfSampleRun rng p T i, h1, fun w => by
            simp only [SampleCall.run, h, hp, Option.map_some, h2]⟩)
  | ukf k T i arg =>
    cases h : k.initialize pyAdd with
    | error e => exact .inr (.inl ⟨_, fun w => by simp only [SampleCall.run, h]; rfl⟩)
    | ok r =>
      cases hp : r.typedGen k.nDimState k.nDimObs with
      | none => exact .inl fun w => by simp only [SampleCall.run, h, hp]; rfl
      | some p =>
        rcases key (k.nDimState, k.nDimObs) (ukfSampleRun rng p T i) arg k.randomState with
          ⟨r', h'⟩ | ⟨g, h1, h2⟩
        · exact .inr (.inl ⟨r', fun w => by
            simp only [SampleCall.run, h, hp, Option.map_some, h']⟩)
        · exact .inr (.inr ⟨g, (k.nDimState, k.nDimObs), ukfSampleRun rng p T i, h1, fun w => by
            simp only [SampleCall.run, h, hp, Option.map_some, h2]⟩)
  | aukf k T i arg =>
    cases h : k.initialize pyId with
    | error e => exact .inr (.inl ⟨_, fun w => by simp only [SampleCall.run, h]; rfl⟩)
    | ok r =>
      cases hp : r.typedAdd k.nDimState k.nDimObs with
      | none => exact .inl fun w => by simp only [SampleCall.run, h, hp]; rfl
      | some p =>
        rcases key (k.nDimState, k.nDimObs) (aukfSampleRun rng p T i) arg k.randomState with
          ⟨r', h'⟩ | ⟨g, h1, h2⟩
        · exact .inr (.inl ⟨r', fun w => by
            simp only [SampleCall.run, h, hp, Option.map_some, h']⟩)
        · exact .inr (.inr ⟨g, (k.nDimState, k.nDimObs), aukfSampleRun rng p T i, h1, fun w => by
            simp only [SampleCall.run, h, hp, Option.map_some, h2]⟩)

theorem World.get_put_self (fresh : ℕ → σ) (w : World σ) {g : RngRef} (hg : ∀ k, g ≠ .seeded k)
    (s : σ) : (w.put g s).get fresh g = s := by
  cases g with
  | global => rfl
  | seeded k => exact absurd rfl (hg k)
  | object i => simp [World.put, World.get]

theorem World.get_put_ne (fresh : ℕ → σ) (w : World σ) {g g' : RngRef} (h : g' ≠ g) (s : σ) :
    (w.put g' s).get fresh g = w.get fresh g := by
  cases g' with
  | global => cases g <;> first | rfl | exact absurd rfl h
  | seeded k => rfl
  | object i =>
    cases g with
    | global => rfl
    | seeded k => rfl
    | object j =>
      have : j ≠ i := fun e => h (by rw [e])
      simp [World.put, World.get, this]

/-! ### Number of draws -/

theorem Draws.trans {rng : Rng σ} {j k : ℕ} {s s' s'' : σ} (h : Draws rng j s s')
    (h' : Draws rng k s' s'') : Draws rng (j + k) s s'' := by
  induction h with
  | zero => simpa using h'
  | succ d mean cov _ ih =>
    have := Draws.succ d mean cov (ih h')
    rwa [show ∀ a b : ℕ, a + b + 1 = a + 1 + b by omega] at this

theorem Draws.cast {rng : Rng σ} {j k : ℕ} {s s' : σ} (h : Draws rng j s s') (e : j = k) :
    Draws rng k s s' := e ▸ h

theorem Draws.one (rng : Rng σ) (d : ℕ) (mean : Vec d) (cov : Mat d d) (s : σ) :
    Draws rng 1 s (rng.normal d mean cov s).2 := .succ d mean cov (.zero _)

/-- Draws for the initial state. -/
theorem initialDraw_draws (rng : Rng σ) (mu0 : Vec n) (S0 : Mat n n) (initial : Option (Vec n))
    (s : σ) : Draws rng (if initial.isSome then 0 else 1) s (initialDraw rng mu0 S0 initial s).2 := by
  cases initial with
  | none => exact Draws.one rng n mu0 S0 s
  | some x => exact .zero s

theorem map_fst_ok {α β : Type} {r : Res α × σ} {f : α → β} {l : β} {s' : σ}
    (h : (r.1.map f, r.2) = (.ok l, s')) : ∃ l', r = (.ok l', s') := by
  obtain ⟨r1, r2⟩ := r
  cases r1 with
  | error e => cases h
  | ok l' => cases h; exact ⟨l', rfl⟩

theorem sampleLoopRun_draws (rng : Rng σ) (p : Params n m) (k : ℕ) :
    ∀ (t : ℕ) (Q : TV (Mat n n)) (R : TV (Mat m m)) (x : Vec n) (s : σ) (l) (s'),
    sampleLoopRun rng p k t Q R x s = (.ok l, s') → Draws rng (2 * k) s s' := by
  induction k with
  | zero => intro t Q R x s l s' h; cases h; exact .zero s
  | succ k ih =>
    intro t Q R x s l s' h
    simp only [sampleLoopRun] at h
    cases hA : lastDims p.A (t - 1) with
    | error e => rw [hA] at h; cases h
    | ok A =>
      cases hb : lastDims p.b (t - 1) with
      | error e => rw [hA, hb] at h; cases h
      | ok b =>
        cases hQ : lastDims Q (t - 1) with
        | error e => rw [hA, hb, hQ] at h; cases h
        | ok Qt =>
          cases hC : lastDims p.C t with
          | error e => rw [hA, hb, hQ, hC] at h; cases h
          | ok C =>
            cases hd : lastDims p.d t with
            | error e => rw [hA, hb, hQ, hC, hd] at h; cases h
            | ok d =>
              cases hR : lastDims R t with
              | error e => rw [hA, hb, hQ, hC, hd, hR] at h; cases h
              | ok Rt =>
                rw [hA, hb, hQ, hC, hd, hR] at h
                obtain ⟨l', h'⟩ := map_fst_ok h
                exact (Draws.succ n 0 Qt (.succ m 0 Rt (ih _ _ _ _ _ _ _ h'))).cast (by ring)

theorem kfSampleRun_draws (rng : Rng σ) (p : Params n m) (T : ℕ) (initial : Option (Vec n)) (s : σ)
    (l) (s') (h : kfSampleRun rng p T initial s = (.ok l, s')) :
    Draws rng ((if initial.isSome then 0 else 1) + (2 * T - 1)) s s' := by
  have h0 := initialDraw_draws rng p.mu0 p.S0 initial s
  cases T with
  | zero => simp only [kfSampleRun] at h; cases h; exact h0
  | succ k =>
    simp only [kfSampleRun] at h
    cases hC : lastDims p.C 0 with
    | error e => rw [hC] at h; cases h
    | ok C =>
      cases hd : lastDims p.d 0 with
      | error e => rw [hC, hd] at h; cases h
      | ok d =>
        cases hR : lastDims p.R 0 with
        | error e => rw [hC, hd, hR] at h; cases h
        | ok Rt =>
          rw [hC, hd, hR] at h
          obtain ⟨l', h'⟩ := map_fst_ok h
          exact (h0.trans (.succ m 0 Rt (sampleLoopRun_draws rng p k _ _ _ _ _ _ _ h'))).cast
            (by omega)

theorem ukfSampleLoopRun_draws (rng : Rng σ) (p : GParams n m) (k : ℕ) :
    ∀ (t : ℕ) (x : Vec n) (s : σ) (l) (s'),
    ukfSampleLoopRun rng p k t x s = (.ok l, s') → Draws rng (2 * k) s s' := by
  induction k with
  | zero => intro t x s l s' h; cases h; exact .zero s
  | succ k ih =>
    intro t x s l s' h
    simp only [ukfSampleLoopRun] at h
    cases hf : p.f.at (t - 1) with
    | error e => rw [hf] at h; cases h
    | ok f =>
      cases hg : p.g.at t with
      | error e => rw [hf, hg] at h; cases h
      | ok g =>
        rw [hf, hg] at h
        obtain ⟨l', h'⟩ := map_fst_ok h
        exact (Draws.succ n 0 p.Q (.succ m 0 p.R (ih _ _ _ _ _ h'))).cast (by ring)

theorem ukfSampleRun_draws (rng : Rng σ) (p : GParams n m) (T : ℕ) (initial : Option (Vec n))
    (s : σ) (l) (s') (h : ukfSampleRun rng p T initial s = (.ok l, s')) :
    Draws rng ((if initial.isSome then 0 else 1) + (2 * T - 1)) s s' := by
  have h0 := initialDraw_draws rng p.mu0 p.S0 initial s
  cases T with
  | zero => simp only [ukfSampleRun] at h; cases h; exact h0
  | succ k =>
    simp only [ukfSampleRun] at h
    cases hg : p.g.at 0 with
    | error e => rw [hg] at h; cases h
    | ok g =>
      rw [hg] at h
      obtain ⟨l', h'⟩ := map_fst_ok h
      exact (h0.trans (.succ m 0 p.R (ukfSampleLoopRun_draws rng p k _ _ _ _ _ h'))).cast
        (by omega)

theorem aukfSampleLoopRun_draws (rng : Rng σ) (p : UParams n m) (k : ℕ) :
    ∀ (t : ℕ) (x : Vec n) (s : σ) (l) (s'),
    aukfSampleLoopRun rng p k t x s = (.ok l, s') → Draws rng (2 * k) s s' := by
  induction k with
  | zero => intro t x s l s' h; cases h; exact .zero s
  | succ k ih =>
    intro t x s l s' h
    simp only [aukfSampleLoopRun] at h
    cases hf : p.f.at (t - 1) with
    | error e => rw [hf] at h; cases h
    | ok f =>
      cases hg : p.g.at t with
      | error e => rw [hf, hg] at h; cases h
      | ok g =>
        rw [hf, hg] at h
        obtain ⟨l', h'⟩ := map_fst_ok h
        exact (Draws.succ n 0 p.Q (.succ m 0 p.R (ih _ _ _ _ _ h'))).cast (by ring)

theorem aukfSampleRun_draws (rng : Rng σ) (p : UParams n m) (T : ℕ) (initial : Option (Vec n))
    (s : σ) (l) (s') (h : aukfSampleRun rng p T initial s = (.ok l, s')) :
    Draws rng ((if initial.isSome then 0 else 1) + (2 * T - 1)) s s' := by
  have h0 := initialDraw_draws rng p.mu0 p.S0 initial s
  cases T with
  | zero => simp only [aukfSampleRun] at h; cases h; exact h0
  | succ k =>
    simp only [aukfSampleRun] at h
    cases hg : p.g.at 0 with
    | error e => rw [hg] at h; cases h
    | ok g =>
      rw [hg] at h
      obtain ⟨l', h'⟩ := map_fst_ok h
      exact (h0.trans (.succ m 0 p.R (aukfSampleLoopRun_draws rng p k _ _ _ _ _ h'))).cast
        (by omega)

/-! ### Number of draws before an exception -/

theorem ukfSampleLoopRun_obs (rng : Rng σ) (p : GParams n m) {e : Err} (j : ℕ) :
    ∀ (k t : ℕ) (x : Vec n) (s : σ), j < k → p.g.at (t + j) = .error e →
    (∀ i ≤ j, ∃ f, p.f.at (t - 1 + i) = .ok f) → (∀ i < j, ∃ g, p.g.at (t + i) = .ok g) → 1 ≤ t →
    ∃ s', ukfSampleLoopRun rng p k t x s = (.error e, s') ∧ Draws rng (2 * j + 1) s s' := by
  induction j with
  | zero =>
    intro k t x s hk he hf _ _
    obtain ⟨k, rfl⟩ := Nat.exists_eq_succ_of_ne_zero hk.ne'
    obtain ⟨f, hf⟩ := hf 0 le_rfl
    refine ⟨(rng.normal n 0 p.Q s).2, ?_, Draws.one rng n 0 p.Q s⟩
    rw [add_zero] at he hf
    simp only [ukfSampleLoopRun, hf, he]
  | succ j ih =>
    intro k t x s hk he hf hg ht
    obtain ⟨k, rfl⟩ := Nat.exists_eq_succ_of_ne_zero (Nat.ne_zero_of_lt hk)
    obtain ⟨f, hf0⟩ := hf 0 (Nat.zero_le _)
    obtain ⟨g, hg0⟩ := hg 0 (Nat.succ_pos _)
    rw [add_zero] at hf0 hg0
    obtain ⟨s', h1, h2⟩ := ih k (t + 1) (f x (rng.normal n 0 p.Q s).1)
      (rng.normal m 0 p.R (rng.normal n 0 p.Q s).2).2 (by omega)
      (by rw [← he]; congr 1; omega)
      (fun i hi => by
        have := hf (i + 1) (by omega)
        rwa [show t - 1 + (i + 1) = t + 1 - 1 + i by omega] at this)
      (fun i hi => by
        have := hg (i + 1) (by omega)
        rwa [show t + (i + 1) = t + 1 + i by omega] at this) (by omega)
    refine ⟨s', ?_, (Draws.succ n 0 p.Q (.succ m 0 p.R h2)).cast (by ring)⟩
    simp only [ukfSampleLoopRun, hf0, hg0, h1]
    rfl

theorem ukfSampleLoopRun_trans (rng : Rng σ) (p : GParams n m) {e : Err} (j : ℕ) :
    ∀ (k t : ℕ) (x : Vec n) (s : σ), j < k → p.f.at (t - 1 + j) = .error e →
    (∀ i < j, ∃ f, p.f.at (t - 1 + i) = .ok f) → (∀ i < j, ∃ g, p.g.at (t + i) = .ok g) → 1 ≤ t →
    ∃ s', ukfSampleLoopRun rng p k t x s = (.error e, s') ∧ Draws rng (2 * j) s s' := by
  induction j with
  | zero =>
    intro k t x s hk he hf _ _
    obtain ⟨k, rfl⟩ := Nat.exists_eq_succ_of_ne_zero hk.ne'
    refine ⟨s, ?_, .zero s⟩
    rw [add_zero] at he
    simp only [ukfSampleLoopRun, he]
  | succ j ih =>
    intro k t x s hk he hf hg ht
    obtain ⟨k, rfl⟩ := Nat.exists_eq_succ_of_ne_zero (Nat.ne_zero_of_lt hk)
    obtain ⟨f, hf0⟩ := hf 0 (Nat.succ_pos _)
    obtain ⟨g, hg0⟩ := hg 0 (Nat.succ_pos _)
    rw [add_zero] at hf0 hg0
    obtain ⟨s', h1, h2⟩ := ih k (t + 1) (f x (rng.normal n 0 p.Q s).1)
      (rng.normal m 0 p.R (rng.normal n 0 p.Q s).2).2 (by omega)
      (by rw [← he]; congr 1; omega)
      (fun i hi => by
        have := hf (i + 1) (by omega)
        rwa [show t - 1 + (i + 1) = t + 1 - 1 + i by omega] at this)
      (fun i hi => by
        have := hg (i + 1) (by omega)
        rwa [show t + (i + 1) = t + 1 + i by omega] at this) (by omega)
    refine ⟨s', ?_, (Draws.succ n 0 p.Q (.succ m 0 p.R h2)).cast (by ring)⟩
    simp only [ukfSampleLoopRun, hf0, hg0, h1]
    rfl

/-- A function for the time `t` is missing in the list of observation functions. -/
theorem ukfSampleRun_obs (rng : Rng σ) (p : GParams n m) {e : Err} {T t : ℕ} (ht : t < T)
    (initial : Option (Vec n)) (s : σ) (he : p.g.at t = .error e)
    (hf : ∀ i < t, ∃ f, p.f.at i = .ok f) (hg : ∀ i < t, ∃ g, p.g.at i = .ok g) :
    ∃ s', ukfSampleRun rng p T initial s = (.error e, s') ∧
      Draws rng ((if initial.isSome then 0 else 1) + 2 * t) s s' := by
  have h0 := initialDraw_draws rng p.mu0 p.S0 initial s
  obtain ⟨k, rfl⟩ := Nat.exists_eq_succ_of_ne_zero (Nat.ne_zero_of_lt ht)
  cases t with
  | zero => exact ⟨_, by simp only [ukfSampleRun, he], h0⟩
  | succ j =>
    obtain ⟨g, hg0⟩ := hg 0 (Nat.succ_pos _)
    obtain ⟨s', h1, h2⟩ := ukfSampleLoopRun_obs rng p j k 1 (initialDraw rng p.mu0 p.S0 initial s).1
      (rng.normal m 0 p.R (initialDraw rng p.mu0 p.S0 initial s).2).2 (by omega)
      (by rw [← he]; congr 1; omega)
      (fun i hi => by simpa using hf i (by omega))
      (fun i hi => by
        have := hg (i + 1) (by omega)
        rwa [show i + 1 = 1 + i by omega] at this) le_rfl
    refine ⟨s', ?_, (h0.trans (.succ m 0 p.R h2)).cast (by ring)⟩
    simp only [ukfSampleRun, hg0, h1]
    rfl

/-- A function for the time `t` is missing in the list of transition functions. -/
theorem ukfSampleRun_trans (rng : Rng σ) (p : GParams n m) {e : Err} {T t : ℕ} (ht : t + 1 < T)
    (initial : Option (Vec n)) (s : σ) (he : p.f.at t = .error e)
    (hf : ∀ i < t, ∃ f, p.f.at i = .ok f) (hg : ∀ i ≤ t, ∃ g, p.g.at i = .ok g) :
    ∃ s', ukfSampleRun rng p T initial s = (.error e, s') ∧
      Draws rng ((if initial.isSome then 0 else 1) + (2 * t + 1)) s s' := by
  have h0 := initialDraw_draws rng p.mu0 p.S0 initial s
  obtain ⟨k, rfl⟩ := Nat.exists_eq_succ_of_ne_zero (Nat.ne_zero_of_lt ht)
  obtain ⟨g, hg0⟩ := hg 0 (Nat.zero_le _)
  obtain ⟨s', h1, h2⟩ := ukfSampleLoopRun_trans rng p t k 1 (initialDraw rng p.mu0 p.S0 initial s).1
    (rng.normal m 0 p.R (initialDraw rng p.mu0 p.S0 initial s).2).2 (by omega)
    (by rw [← he]; congr 1; omega)
    (fun i hi => by simpa using hf i (by omega))
    (fun i hi => by
      have := hg (i + 1) (by omega)
      rwa [show i + 1 = 1 + i by omega] at this) le_rfl
  refine ⟨s', ?_, (h0.trans (.succ m 0 p.R h2)).cast (by ring)⟩
  simp only [ukfSampleRun, hg0, h1]
  rfl

theorem aukfSampleLoopRun_obs (rng : Rng σ) (p : UParams n m) {e : Err} (j : ℕ) :
    ∀ (k t : ℕ) (x : Vec n) (s : σ), j < k → p.g.at (t + j) = .error e →
    (∀ i ≤ j, ∃ f, p.f.at (t - 1 + i) = .ok f) → (∀ i < j, ∃ g, p.g.at (t + i) = .ok g) → 1 ≤ t →
    ∃ s', aukfSampleLoopRun rng p k t x s = (.error e, s') ∧ Draws rng (2 * j + 1) s s' := by
  induction j with
  | zero =>
    intro k t x s hk he hf _ _
    obtain ⟨k, rfl⟩ := Nat.exists_eq_succ_of_ne_zero hk.ne'
    obtain ⟨f, hf⟩ := hf 0 le_rfl
    refine ⟨(rng.normal n 0 p.Q s).2, ?_, Draws.one rng n 0 p.Q s⟩
    rw [add_zero] at he hf
    simp only [aukfSampleLoopRun, hf, he]
  | succ j ih =>
    intro k t x s hk he hf hg ht
    obtain ⟨k, rfl⟩ := Nat.exists_eq_succ_of_ne_zero (Nat.ne_zero_of_lt hk)
    obtain ⟨f, hf0⟩ := hf 0 (Nat.zero_le _)
    obtain ⟨g, hg0⟩ := hg 0 (Nat.succ_pos _)
    rw [add_zero] at hf0 hg0
    obtain ⟨s', h1, h2⟩ := ih k (t + 1) (f x + (rng.normal n 0 p.Q s).1)
      (rng.normal m 0 p.R (rng.normal n 0 p.Q s).2).2 (by omega)
      (by rw [← he]; congr 1; omega)
      (fun i hi => by
        have := hf (i + 1) (by omega)
        rwa [show t - 1 + (i + 1) = t + 1 - 1 + i by omega] at this)
      (fun i hi => by
        have := hg (i + 1) (by omega)
        rwa [show t + (i + 1) = t + 1 + i by omega] at this) (by omega)
    refine ⟨s', ?_, (Draws.succ n 0 p.Q (.succ m 0 p.R h2)).cast (by ring)⟩
    simp only [aukfSampleLoopRun, hf0, hg0, h1]
    rfl

theorem aukfSampleLoopRun_trans (rng : Rng σ) (p : UParams n m) {e : Err} (j : ℕ) :
    ∀ (k t : ℕ) (x : Vec n) (s : σ), j < k → p.f.at (t - 1 + j) = .error e →
    (∀ i < j, ∃ f, p.f.at (t - 1 + i) = .ok f) → (∀ i < j, ∃ g, p.g.at (t + i) = .ok g) → 1 ≤ t →
    ∃ s', aukfSampleLoopRun rng p k t x s = (.error e, s') ∧ Draws rng (2 * j) s s' := by
  induction j with
  | zero =>
    intro k t x s hk he hf _ _
    obtain ⟨k, rfl⟩ := Nat.exists_eq_succ_of_ne_zero hk.ne'
    refine ⟨s, ?_, .zero s⟩
    rw [add_zero] at he
    simp only [aukfSampleLoopRun, he]
  | succ j ih =>
    intro k t x s hk he hf hg ht
    obtain ⟨k, rfl⟩ := Nat.exists_eq_succ_of_ne_zero (Nat.ne_zero_of_lt hk)
    obtain ⟨f, hf0⟩ := hf 0 (Nat.succ_pos _)
    obtain ⟨g, hg0⟩ := hg 0 (Nat.succ_pos _)
    rw [add_zero] at hf0 hg0
    obtain ⟨s', h1, h2⟩ := ih k (t + 1) (f x + (rng.normal n 0 p.Q s).1)
      (rng.normal m 0 p.R (rng.normal n 0 p.Q s).2).2 (by omega)
      (by rw [← he]; congr 1; omega)
      (fun i hi => by
        have := hf (i + 1) (by omega)
        rwa [show t - 1 + (i + 1) = t + 1 - 1 + i by omega] at this)
      (fun i hi => by
        have := hg (i + 1) (by omega)
        rwa [show t + (i + 1) = t + 1 + i by omega] at this) (by omega)
    refine ⟨s', ?_, (Draws.succ n 0 p.Q (.succ m 0 p.R h2)).cast (by ring)⟩
    simp only [aukfSampleLoopRun, hf0, hg0, h1]
    rfl

/-- A function for the time `t` is missing in the list of observation functions. -/
theorem aukfSampleRun_obs (rng : Rng σ) (p : UParams n m) {e : Err} {T t : ℕ} (ht : t < T)
    (initial : Option (Vec n)) (s : σ) (he : p.g.at t = .error e)
    (hf : ∀ i < t, ∃ f, p.f.at i = .ok f) (hg : ∀ i < t, ∃ g, p.g.at i = .ok g) :
    ∃ s', aukfSampleRun rng p T initial s = (.error e, s') ∧
      Draws rng ((if initial.isSome then 0 else 1) + 2 * t) s s' := by
  have h0 := initialDraw_draws rng p.mu0 p.S0 initial s
  obtain ⟨k, rfl⟩ := Nat.exists_eq_succ_of_ne_zero (Nat.ne_zero_of_lt ht)
  cases t with
  | zero => exact ⟨_, by simp only [aukfSampleRun, he], h0⟩
  | succ j =>
    obtain ⟨g, hg0⟩ := hg 0 (Nat.succ_pos _)
    obtain ⟨s', h1, h2⟩ := aukfSampleLoopRun_obs rng p j k 1 (initialDraw rng p.mu0 p.S0 initial s).1
      (rng.normal m 0 p.R (initialDraw rng p.mu0 p.S0 initial s).2).2 (by omega)
      (by rw [← he]; congr 1; omega)
      (fun i hi => by simpa using hf i (by omega))
      (fun i hi => by
        have := hg (i + 1) (by omega)
        rwa [show i + 1 = 1 + i by omega] at this) le_rfl
    refine ⟨s', ?_, (h0.trans (.succ m 0 p.R h2)).cast (by ring)⟩
    simp only [aukfSampleRun, hg0, h1]
    rfl

/-- A function for the time `t` is missing in the list of transition functions. -/
theorem aukfSampleRun_trans (rng : Rng σ) (p : UParams n m) {e : Err} {T t : ℕ} (ht : t + 1 < T)
    (initial : Option (Vec n)) (s : σ) (he : p.f.at t = .error e)
    (hf : ∀ i < t, ∃ f, p.f.at i = .ok f) (hg : ∀ i ≤ t, ∃ g, p.g.at i = .ok g) :
    ∃ s', aukfSampleRun rng p T initial s = (.error e, s') ∧
      Draws rng ((if initial.isSome then 0 else 1) + (2 * t + 1)) s s' := by
  have h0 := initialDraw_draws rng p.mu0 p.S0 initial s
  obtain ⟨k, rfl⟩ := Nat.exists_eq_succ_of_ne_zero (Nat.ne_zero_of_lt ht)
  obtain ⟨g, hg0⟩ := hg 0 (Nat.zero_le _)
  obtain ⟨s', h1, h2⟩ := aukfSampleLoopRun_trans rng p t k 1 (initialDraw rng p.mu0 p.S0 initial s).1
    (rng.normal m 0 p.R (initialDraw rng p.mu0 p.S0 initial s).2).2 (by omega)
    (by rw [← he]; congr 1; omega)
    (fun i hi => by simpa using hf i (by omega))
    (fun i hi => by
      have := hg (i + 1) (by omega)
      rwa [show i + 1 = 1 + i by omega] at this) le_rfl
  refine ⟨s', ?_, (h0.trans (.succ m 0 p.R h2)).cast (by ring)⟩
  simp only [aukfSampleRun, hg0, h1]
  rfl

theorem sampleLoopRun_obs (rng : Rng σ) (p : Params n m) {e : Err} (j : ℕ) :
    ∀ (k t : ℕ) (Q : TV (Mat n n)) (R : TV (Mat m m)) (x : Vec n) (s : σ), j < k →
    p.ObsRaises (t + j) e →
    (∀ i ≤ j, p.TransCovers (t - 1 + i)) → (∀ i < j, p.ObsCovers (t + i)) → 1 ≤ t →
    (∃ Qt, lastDims Q (t - 1) = .ok Qt) → (∃ Rt, lastDims R t = .ok Rt) →
    ∃ s', sampleLoopRun rng p k t Q R x s = (.error e, s') ∧ Draws rng (2 * j + 1) s s' := by
  induction j with
  | zero =>
    intro k t Q R x s hk he hf _ _ hQ hR
    obtain ⟨k, rfl⟩ := Nat.exists_eq_succ_of_ne_zero hk.ne'
    obtain ⟨Qt, hQ⟩ := hQ
    rw [add_zero] at he
    obtain ⟨⟨A, hA⟩, ⟨b, hb⟩⟩ := hf 0 le_rfl
    rw [add_zero] at hA hb
    refine ⟨(rng.normal n 0 Qt s).2, ?_, Draws.one rng n 0 Qt s⟩
    rcases he with he | ⟨⟨C, hC⟩, he⟩
    · simp only [sampleLoopRun, hA, hb, hQ, he]
    · simp only [sampleLoopRun, hA, hb, hQ, hC, he]
  | succ j ih =>
    intro k t Q R x s hk he hf hg ht hQ hR
    obtain ⟨k, rfl⟩ := Nat.exists_eq_succ_of_ne_zero (Nat.ne_zero_of_lt hk)
    obtain ⟨⟨A, hA⟩, ⟨b, hb⟩⟩ := hf 0 (by omega)
    obtain ⟨⟨C, hC⟩, ⟨d, hd⟩⟩ := hg 0 (Nat.succ_pos _)
    obtain ⟨Qt, hQ⟩ := hQ
    obtain ⟨Rt, hR⟩ := hR
    rw [add_zero] at hA hb hC hd
    obtain ⟨s', h1, h2⟩ := ih k (t + 1) (rebind Qt) (rebind Rt)
      (A *ᵥ x + b + (rng.normal n 0 Qt s).1)
      (rng.normal m 0 Rt (rng.normal n 0 Qt s).2).2 (by omega)
      (by
        rwa [show t + (j + 1) = t + 1 + j by omega] at he)
      (fun i hi => by
        have := hf (i + 1) (by omega)
        rwa [show t - 1 + (i + 1) = t + 1 - 1 + i by omega] at this)
      (fun i hi => by
        have := hg (i + 1) (by omega)
        rwa [show t + (i + 1) = t + 1 + i by omega] at this) (by omega) ⟨Qt, rfl⟩ ⟨Rt, rfl⟩
    refine ⟨s', ?_, (Draws.succ n 0 Qt (.succ m 0 Rt h2)).cast (by ring)⟩
    simp only [sampleLoopRun, hA, hb, hQ, hC, hd, hR, h1]
    rfl

theorem sampleLoopRun_trans (rng : Rng σ) (p : Params n m) {e : Err} (j : ℕ) :
    ∀ (k t : ℕ) (Q : TV (Mat n n)) (R : TV (Mat m m)) (x : Vec n) (s : σ), j < k →
    p.TransRaises (t - 1 + j) e →
    (∀ i < j, p.TransCovers (t - 1 + i)) → (∀ i < j, p.ObsCovers (t + i)) → 1 ≤ t →
    (∃ Qt, lastDims Q (t - 1) = .ok Qt) → (∃ Rt, lastDims R t = .ok Rt) →
    ∃ s', sampleLoopRun rng p k t Q R x s = (.error e, s') ∧ Draws rng (2 * j) s s' := by
  induction j with
  | zero =>
    intro k t Q R x s hk he hf _ _ hQ hR
    obtain ⟨k, rfl⟩ := Nat.exists_eq_succ_of_ne_zero hk.ne'
    obtain ⟨Qt, hQ⟩ := hQ
    rw [add_zero] at he
    refine ⟨s, ?_, .zero s⟩
    rcases he with he | ⟨⟨A, hA⟩, he⟩
    · simp only [sampleLoopRun, he]
    · simp only [sampleLoopRun, hA, he]
  | succ j ih =>
    intro k t Q R x s hk he hf hg ht hQ hR
    obtain ⟨k, rfl⟩ := Nat.exists_eq_succ_of_ne_zero (Nat.ne_zero_of_lt hk)
    obtain ⟨⟨A, hA⟩, ⟨b, hb⟩⟩ := hf 0 (by omega)
    obtain ⟨⟨C, hC⟩, ⟨d, hd⟩⟩ := hg 0 (Nat.succ_pos _)
    obtain ⟨Qt, hQ⟩ := hQ
    obtain ⟨Rt, hR⟩ := hR
    rw [add_zero] at hA hb hC hd
    obtain ⟨s', h1, h2⟩ := ih k (t + 1) (rebind Qt) (rebind Rt)
      (A *ᵥ x + b + (rng.normal n 0 Qt s).1)
      (rng.normal m 0 Rt (rng.normal n 0 Qt s).2).2 (by omega)
      (by
        rwa [show t - 1 + (j + 1) = t + 1 - 1 + j by omega] at he)
      (fun i hi => by
        have := hf (i + 1) (by omega)
        rwa [show t - 1 + (i + 1) = t + 1 - 1 + i by omega] at this)
      (fun i hi => by
        have := hg (i + 1) (by omega)
        rwa [show t + (i + 1) = t + 1 + i by omega] at this) (by omega) ⟨Qt, rfl⟩ ⟨Rt, rfl⟩
    refine ⟨s', ?_, (Draws.succ n 0 Qt (.succ m 0 Rt h2)).cast (by ring)⟩
    simp only [sampleLoopRun, hA, hb, hQ, hC, hd, hR, h1]
    rfl

/-- The parameters of the observation at time `t` cannot be read. -/
theorem kfSampleRun_obs (rng : Rng σ) (p : Params n m) {e : Err} {T t : ℕ} (ht : t < T)
    (initial : Option (Vec n)) (s : σ) (he : p.ObsRaises t e)
    (hf : ∀ i < t, p.TransCovers i) (hg : ∀ i < t, p.ObsCovers i)
    (hQ : ∃ Q, lastDims p.Q 0 = .ok Q) (hR : ∃ R, lastDims p.R 0 = .ok R) :
    ∃ s', kfSampleRun rng p T initial s = (.error e, s') ∧
      Draws rng ((if initial.isSome then 0 else 1) + 2 * t) s s' := by
  have h0 := initialDraw_draws rng p.mu0 p.S0 initial s
  obtain ⟨k, rfl⟩ := Nat.exists_eq_succ_of_ne_zero (Nat.ne_zero_of_lt ht)
  obtain ⟨R0, hR⟩ := hR
  cases t with
  | zero =>
    refine ⟨_, ?_, h0⟩
    rcases he with he | ⟨⟨C, hC⟩, he⟩
    · simp only [kfSampleRun, he]
    · simp only [kfSampleRun, hC, he]
  | succ j =>
    obtain ⟨⟨C, hC⟩, ⟨d, hd⟩⟩ := hg 0 (Nat.succ_pos _)
    obtain ⟨s', h1, h2⟩ := sampleLoopRun_obs rng p j k 1 p.Q (rebind R0)
      (initialDraw rng p.mu0 p.S0 initial s).1
      (rng.normal m 0 R0 (initialDraw rng p.mu0 p.S0 initial s).2).2 (by omega)
      (by rwa [show j + 1 = 1 + j by omega] at he)
      (fun i hi => by simpa using hf i (by omega))
      (fun i hi => by
        have := hg (i + 1) (by omega)
        rwa [show i + 1 = 1 + i by omega] at this) le_rfl hQ ⟨R0, rfl⟩
    refine ⟨s', ?_, (h0.trans (.succ m 0 R0 h2)).cast (by ring)⟩
    simp only [kfSampleRun, hC, hd, hR, h1]
    rfl

/-- The parameters of the transition from time `t` cannot be read. -/
theorem kfSampleRun_trans (rng : Rng σ) (p : Params n m) {e : Err} {T t : ℕ} (ht : t + 1 < T)
    (initial : Option (Vec n)) (s : σ) (he : p.TransRaises t e)
    (hf : ∀ i < t, p.TransCovers i) (hg : ∀ i ≤ t, p.ObsCovers i)
    (hQ : ∃ Q, lastDims p.Q 0 = .ok Q) (hR : ∃ R, lastDims p.R 0 = .ok R) :
    ∃ s', kfSampleRun rng p T initial s = (.error e, s') ∧
      Draws rng ((if initial.isSome then 0 else 1) + (2 * t + 1)) s s' := by
  have h0 := initialDraw_draws rng p.mu0 p.S0 initial s
  obtain ⟨k, rfl⟩ := Nat.exists_eq_succ_of_ne_zero (Nat.ne_zero_of_lt ht)
  obtain ⟨R0, hR⟩ := hR
  obtain ⟨⟨C, hC⟩, ⟨d, hd⟩⟩ := hg 0 (Nat.zero_le _)
  obtain ⟨s', h1, h2⟩ := sampleLoopRun_trans rng p t k 1 p.Q (rebind R0)
    (initialDraw rng p.mu0 p.S0 initial s).1
    (rng.normal m 0 R0 (initialDraw rng p.mu0 p.S0 initial s).2).2 (by omega)
    (by simpa using he)
    (fun i hi => by simpa using hf i (by omega))
    (fun i hi => by
      have := hg (i + 1) (by omega)
      rwa [show i + 1 = 1 + i by omega] at this) le_rfl hQ ⟨R0, rfl⟩
  refine ⟨s', ?_, (h0.trans (.succ m 0 R0 h2)).cast (by ring)⟩
  simp only [kfSampleRun, hC, hd, hR, h1]
  rfl

end Verif
