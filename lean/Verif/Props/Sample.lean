import Verif.Spec.Sample
import Verif.Props.Posterior

/-!
# C42, C43, C50: samples and the data set
-/

open MeasureTheory ProbabilityTheory Matrix

namespace Verif

variable {n m : ℕ} {σ : Type}

/-- States generated by the state equation from given noise. -/
def statesFrom (p : Params n m) (x0 : Vec n) (w : ℕ → Vec n) : ℕ → Vec n
  | 0 => x0
  | t + 1 => p.A.get t *ᵥ statesFrom p x0 w t + p.b.get t + w t

theorem sampleLoop_eq (rng : Rng σ) (p : Params n m) (Q : Mat n n) (R : Mat m m) (s : σ)
    (x0 : Vec n) (k : ℕ) : ∀ t, p.A.Covers (t + k) → p.b.Covers (t + k) →
      p.C.Covers (t + 1 + k) → p.d.Covers (t + 1 + k) →
    sampleLoop rng p k (t + 1) (.const Q) (.const R)
      (statesFrom p x0 (transDraw rng (fun _ => Q) (fun _ => R) s) t)
      (rng.normal m 0 R (drawState rng (fun _ => Q) (fun _ => R) s t)).2
    = .ok ((List.range k).map fun i =>
        (statesFrom p x0 (transDraw rng (fun _ => Q) (fun _ => R) s) (t + 1 + i),
         p.C.get (t + 1 + i) *ᵥ
            statesFrom p x0 (transDraw rng (fun _ => Q) (fun _ => R) s) (t + 1 + i)
          + p.d.get (t + 1 + i) + obsDraw rng (fun _ => Q) (fun _ => R) s (t + 1 + i))) := by
  induction k with
  | zero => intro t _ _ _ _; rfl
  | succ k ih =>
    intro t hA hb hC hd
    have ih' := ih (t + 1) (by convert hA using 1; omega) (by convert hb using 1; omega)
      (by convert hC using 1; omega) (by convert hd using 1; omega)
    rw [sampleLoop]
    have lQ : ∀ i, lastDims (.const Q) i = .ok Q := fun _ => rfl
    have lR : ∀ i, lastDims (.const R) i = .ok R := fun _ => rfl
    simp only [Nat.add_sub_cancel, lastDims_eq_ok (hA.mono (show t + 1 ≤ _ by omega)),
      lastDims_eq_ok (hb.mono (show t + 1 ≤ _ by omega)),
      lastDims_eq_ok (hC.mono (show t + 1 + 1 ≤ _ by omega)),
      lastDims_eq_ok (hd.mono (show t + 1 + 1 ≤ _ by omega)), lQ, lR, bind, Except.bind, rebind]
    have e1 : p.A.get t *ᵥ statesFrom p x0 (transDraw rng (fun _ => Q) (fun _ => R) s) t + p.b.get t
        + (rng.normal n 0 Q (rng.normal m 0 R (drawState rng (fun _ => Q) (fun _ => R) s t)).2).1
        = statesFrom p x0 (transDraw rng (fun _ => Q) (fun _ => R) s) (t + 1) := rfl
    have e2 : (rng.normal n 0 Q (rng.normal m 0 R (drawState rng (fun _ => Q) (fun _ => R) s t)).2).2
        = drawState rng (fun _ => Q) (fun _ => R) s (t + 1) := rfl
    rw [e1, e2, ih']
    simp only [pure, Except.pure, List.range_succ_eq_map, List.map_cons, List.map_map]
    congr 2
    refine List.map_congr_left fun i _ => ?_
    simp only [Function.comp, Nat.succ_eq_add_one]
    rw [show t + 1 + 1 + i = t + 1 + (i + 1) by omega]

theorem kfSample_succ (rng : Rng σ) (p : Params n m) (k : ℕ) (initial : Option (Vec n)) (s : σ) :
    kfSample rng p (k + 1) initial s = (do
      let C ← lastDims p.C 0
      let d ← lastDims p.d 0
      let Rt ← lastDims p.R 0
      let v := rng.normal m 0 Rt (firstDraw rng p.mu0 p.S0 initial s).2
      let z := C *ᵥ (firstDraw rng p.mu0 p.S0 initial s).1 + d + v.1
      let rest ← sampleLoop rng p k 1 p.Q (rebind Rt) (firstDraw rng p.mu0 p.S0 initial s).1 v.2
      pure (((firstDraw rng p.mu0 p.S0 initial s).1, z) :: rest)) := by
  cases initial <;> rfl

theorem aukfSample_succ (rng : Rng σ) (p : UParams n m) (k : ℕ) (initial : Option (Vec n)) (s : σ) :
    aukfSample rng p (k + 1) initial s = (do
      let g ← p.g.at 0
      let v := rng.normal m 0 p.R (firstDraw rng p.mu0 p.S0 initial s).2
      let z := g (firstDraw rng p.mu0 p.S0 initial s).1 + v.1
      let rest ← aukfSampleLoop rng p k 1 (firstDraw rng p.mu0 p.S0 initial s).1 v.2
      pure (((firstDraw rng p.mu0 p.S0 initial s).1, z) :: rest)) := by
  cases initial <;> rfl

theorem ukfSample_succ (rng : Rng σ) (p : GParams n m) (k : ℕ) (initial : Option (Vec n)) (s : σ) :
    ukfSample rng p (k + 1) initial s = (do
      let g ← p.g.at 0
      let v := rng.normal m 0 p.R (firstDraw rng p.mu0 p.S0 initial s).2
      let z := g (firstDraw rng p.mu0 p.S0 initial s).1 v.1
      let rest ← ukfSampleLoop rng p k 1 (firstDraw rng p.mu0 p.S0 initial s).1 v.2
      pure (((firstDraw rng p.mu0 p.S0 initial s).1, z) :: rest)) := by
  cases initial <;> rfl

/-- **C42.** With constant covariances, `sample` returns `T` states and observations; the first state
is the given one or a draw from the initial distribution; every other state is the transition of the
one before plus a draw with covariance `Q`, every observation is the emission of its state plus a
draw with covariance `R`, where the draws are successive draws from the generator. -/
theorem C42_state_equations (rng : Rng σ) {p : Params n m} {T : ℕ} (hdef : p.DefinedFor T)
    {Q : Mat n n} {R : Mat m m} (hQ : p.Q = .const Q) (hR : p.R = .const R)
    (initial : Option (Vec n)) (s : σ) :
    ∃ (X : ℕ → Vec n) (Z : ℕ → Vec m),
      kfSample rng p T initial s = .ok ((List.range T).map fun t => (X t, Z t)) ∧
      X 0 = (firstDraw rng p.mu0 p.S0 initial s).1 ∧
      (∀ t, t + 1 < T → ∀ A b, lastDims p.A t = .ok A → lastDims p.b t = .ok b →
        X (t + 1) = A *ᵥ X t + b + transDraw rng (fun _ => Q) (fun _ => R)
          (firstDraw rng p.mu0 p.S0 initial s).2 t) ∧
      (∀ t, t < T → ∀ C d, lastDims p.C t = .ok C → lastDims p.d t = .ok d →
        Z t = C *ᵥ X t + d + obsDraw rng (fun _ => Q) (fun _ => R)
          (firstDraw rng p.mu0 p.S0 initial s).2 t) := by
  have hc := definedFor_iff_covers.mp hdef
  set i := firstDraw rng p.mu0 p.S0 initial s with hi
  set X := statesFrom p i.1 (transDraw rng (fun _ => Q) (fun _ => R) i.2) with hX
  refine ⟨X, fun t => p.C.get t *ᵥ X t + p.d.get t + obsDraw rng (fun _ => Q) (fun _ => R) i.2 t,
    ?_, rfl, ?_, ?_⟩
  · cases T with
    | zero => rfl
    | succ k =>
      have := sampleLoop_eq rng p Q R i.2 i.1 k 0 (hc.A.mono (by omega)) (hc.b.mono (by omega))
        (hc.C.mono (by omega)) (hc.d.mono (by omega))
      have lR : lastDims (.const R) 0 = .ok R := rfl
      rw [kfSample_succ, ← hi]
      simp only [hQ, hR, lastDims_eq_ok (hc.C.mono (show 0 + 1 ≤ k + 1 by omega)),
        lastDims_eq_ok (hc.d.mono (show 0 + 1 ≤ k + 1 by omega)), lR, rebind, bind, Except.bind]
      have e' : sampleLoop rng p k 1 (.const Q) (.const R) i.1 (rng.normal m 0 R i.2).2
        = sampleLoop rng p k (0 + 1) (.const Q) (.const R)
          (statesFrom p i.1 (transDraw rng (fun _ => Q) (fun _ => R) i.2) 0)
          (rng.normal m 0 R (drawState rng (fun _ => Q) (fun _ => R) i.2 0)).2 := rfl
      rw [e', this]
      simp only [pure, Except.pure, List.range_succ_eq_map, List.map_cons, List.map_map]
      congr 2
      refine List.map_congr_left fun j _ => ?_
      simp only [Function.comp, Nat.succ_eq_add_one]
      rw [show 0 + 1 + j = j + 1 by omega]
  · intro t ht A b hA hb
    rw [(lastDims_ok_get hA).1, (lastDims_ok_get hb).1]
    rfl
  · intro t ht C d hC hd
    rw [(lastDims_ok_get hC).1, (lastDims_ok_get hd).1]

/-- **C42.** A given initial state is returned as the first state. -/
theorem C42_initial_state (rng : Rng σ) {p : Params n m} {T : ℕ} {x : Vec n} {s : σ}
    {l : List (Vec n × Vec m)} (h : kfSample rng p (T + 1) (some x) s = .ok l) :
    l.head?.map Prod.fst = some x := by
  simp only [kfSample] at h
  cases hC : lastDims p.C 0 with
  | error e => simp only [hC, bind, Except.bind] at h; cases h
  | ok C =>
    cases hd : lastDims p.d 0 with
    | error e => simp only [hC, hd, bind, Except.bind] at h; cases h
    | ok d =>
      cases hR : lastDims p.R 0 with
      | error e => simp only [hC, hd, hR, bind, Except.bind] at h; cases h
      | ok R =>
        simp only [hC, hd, hR, bind, Except.bind] at h
        split at h
        · cases h
        · cases h; rfl

/-- Names for all draws of a run of `sample` that draws its initial state. -/
def drawNoise (rng : Rng σ) (p : Params n m) (Q : Mat n n) (R : Mat m m) (s : σ) :
    (i : Noise) → Vec (i.dim n m)
  | .init => (firstDraw rng p.mu0 p.S0 none s).1
  | .trans t => transDraw rng (fun _ => Q) (fun _ => R) (firstDraw rng p.mu0 p.S0 none s).2 t
  | .obs t => obsDraw rng (fun _ => Q) (fun _ => R) (firstDraw rng p.mu0 p.S0 none s).2 t

/-- **C42.** If the generator's draws are independent and have the requested normal distributions,
samples are distributed as the model says: states and observations form a linear-Gaussian process
with the filter's parameters. (So C01 to C04 apply to filtering a sample.) -/
theorem C42_law {Ω : Type*} [MeasurableSpace Ω] {μ : Measure Ω} (rng : Rng σ) {p : Params n m}
    {T : ℕ} (hdef : p.DefinedFor T) {Q : Mat n n} {R : Mat m m} (hQ : p.Q = .const Q)
    (hR : p.R = .const R) (s : Ω → σ)
    (hmeas : ∀ i, Measurable fun ω => drawNoise rng p Q R (s ω) i)
    (hind : iIndepFun (fun i ω => drawNoise rng p Q R (s ω) i) μ)
    (hinit : μ.map (fun ω => drawNoise rng p Q R (s ω) .init) = gauss p.mu0 p.S0)
    (htrans : ∀ t, μ.map (fun ω => drawNoise rng p Q R (s ω) (.trans t)) = gauss 0 Q)
    (hobs : ∀ t, μ.map (fun ω => drawNoise rng p Q R (s ω) (.obs t)) = gauss 0 R) :
    ∃ (X : ℕ → Ω → Vec n) (Z : ℕ → Ω → Vec m),
      (∀ ω, kfSample rng p T none (s ω) = .ok ((List.range T).map fun t => (X t ω, Z t ω))) ∧
      IsLinGauss μ p T X Z (fun i ω => drawNoise rng p Q R (s ω) i) := by
  choose X Z h1 h2 h3 h4 using fun ω =>
    C42_state_equations rng hdef hQ hR (none : Option (Vec n)) (s ω)
  refine ⟨fun t ω => X ω t, fun t ω => Z ω t, h1, hmeas, hind, hinit, ?_, ?_, h2, ?_, ?_⟩
  · intro t _ Q' h
    rw [hQ] at h
    cases h
    exact htrans t
  · intro t _ R' h
    rw [hR] at h
    cases h
    exact hobs t
  · exact fun t ht A b hA hb ω => h3 ω t ht A b hA hb
  · exact fun t ht C d hC hd ω => h4 ω t ht C d hC hd

/-! ### C43 -/

theorem sampleLoop_rebind (rng : Rng σ) (p p' : Params n m) (hA : p.A = p'.A) (hb : p.b = p'.b)
    (hC : p.C = p'.C) (hd : p.d = p'.d) (k t : ℕ) (Q : TV (Mat n n)) (R : TV (Mat m m)) (x : Vec n)
    (s : σ) : sampleLoop rng p k t Q R x s = sampleLoop rng p' k t Q R x s := by
  induction k generalizing t Q R x s with
  | zero => rfl
  | succ k ih => simp only [sampleLoop, hA, hb, hC, hd, ih]

/-- **C43 (finding).** `sample` uses the first transition covariance and the first observation
covariance at all times: it behaves as if both were constant. -/
theorem C43_uses_first_covariance (rng : Rng σ) {p : Params n m} {Q : Mat n n} {R : Mat m m}
    (hQ : lastDims p.Q 0 = .ok Q) (hR : lastDims p.R 0 = .ok R) (T : ℕ) (initial : Option (Vec n))
    (s : σ) :
    kfSample rng p T initial s = kfSample rng { p with Q := .const Q, R := .const R } T initial s := by
  cases T with
  | zero => rfl
  | succ T =>
    have lQ : lastDims (.const Q) 0 = .ok Q := rfl
    have lR : ∀ i, lastDims (.const R) i = .ok R := fun _ => rfl
    simp only [kfSample_succ, hR, lR, bind, Except.bind]
    cases T with
    | zero => simp only [sampleLoop]
    | succ k =>
      simp only [sampleLoop, Nat.sub_self, hQ, lQ, lR, rebind, bind, Except.bind]
      simp only [sampleLoop_rebind rng p { p with Q := .const Q, R := .const R } rfl rfl rfl rfl]

/-- **C43 (partial).** The noise of step `t` is drawn with the covariance of step `t` if the
covariances do not vary.  Missing: varying covariances, where the claim is false. -/
theorem C43_constant_partial (rng : Rng σ) {p : Params n m} {T : ℕ} (hdef : p.DefinedFor T)
    {Q : ℕ → Mat n n} {R : ℕ → Mat m m} (hQ : p.Q = .const (Q 0)) (hR : p.R = .const (R 0))
    (hQt : ∀ t, lastDims p.Q t = .ok (Q t)) (hRt : ∀ t, lastDims p.R t = .ok (R t))
    (initial : Option (Vec n)) (s : σ) :
    ∃ (X : ℕ → Vec n) (Z : ℕ → Vec m),
      kfSample rng p T initial s = .ok ((List.range T).map fun t => (X t, Z t)) ∧
      (∀ t, t + 1 < T → ∀ A b, lastDims p.A t = .ok A → lastDims p.b t = .ok b →
        X (t + 1) = A *ᵥ X t + b + transDraw rng Q R (firstDraw rng p.mu0 p.S0 initial s).2 t) ∧
      (∀ t, t < T → ∀ C d, lastDims p.C t = .ok C → lastDims p.d t = .ok d →
        Z t = C *ᵥ X t + d + obsDraw rng Q R (firstDraw rng p.mu0 p.S0 initial s).2 t) := by
  have eQ : Q = fun _ => Q 0 := by
    funext t
    have := hQt t
    rw [hQ] at this
    exact (Except.ok.inj this).symm
  have eR : R = fun _ => R 0 := by
    funext t
    have := hRt t
    rw [hR] at this
    exact (Except.ok.inj this).symm
  obtain ⟨X, Z, h1, -, h3, h4⟩ := C42_state_equations rng hdef hQ hR initial s
  rw [eQ, eR]
  exact ⟨X, Z, h1, h3, h4⟩

/-- A generator whose draws depend on nothing but the covariance: they are its diagonal. -/
def diagRng : Rng Unit := ⟨fun _ mean cov s => (fun i => mean i + cov i i, s)⟩

/-- A scalar random walk whose transition noise is switched on after the first step. -/
noncomputable def exSwitched : Params 1 1 :=
  ⟨.const 1, .const 0, .seq [0, 1, 1], .const 1, .const 0, .const 0, 0, 0⟩

/-- **C43 (the claim fails).** With transition covariances `0, 1, 1` the second transition uses no
noise although its covariance is 1: no sequence of states and observations satisfies the state
equations with draws of the specified covariances. -/
theorem C43_fails : exSwitched.DefinedFor 3 ∧
    ¬ ∃ (X Z : ℕ → Vec 1),
      kfSample diagRng exSwitched 3 none () = .ok ((List.range 3).map fun t => (X t, Z t)) ∧
      ∀ t, t + 1 < 3 → ∀ A b, lastDims exSwitched.A t = .ok A → lastDims exSwitched.b t = .ok b →
        X (t + 1) = A *ᵥ X t + b + transDraw diagRng (fun t => exSwitched.Q.get t)
          (fun t => exSwitched.R.get t) (firstDraw diagRng exSwitched.mu0 exSwitched.S0 none ()).2 t := by
  refine ⟨definedFor_iff_covers.mpr ⟨trivial, trivial, ?_, trivial, trivial, trivial⟩, ?_⟩
  · show 2 ≤ 3
    norm_num
  · rintro ⟨X, Z, h1, h2⟩
    have e1 := congrFun (h2 0 (by norm_num) 1 0 rfl rfl) 0
    have e2 := congrFun (h2 1 (by norm_num) 1 0 rfl rfl) 0
    have r : List.range 3 = [0, 1, 2] := rfl
    simp [kfSample, sampleLoop, exSwitched, lastDims, rebind, diagRng, bind, Except.bind, pure,
      Except.pure, r] at h1
    simp [transDraw, diagRng, exSwitched, TV.get] at e1 e2
    obtain ⟨⟨h0, -⟩, ⟨h1, -⟩, h2, -⟩ := h1
    rw [← h1, ← h2] at e2
    simp at e2

/-! ### Unscented classes -/

/-- **C42.** `sample` of `AdditiveUnscentedKalmanFilter` follows the model's equations. -/
theorem C42_additive_unscented (rng : Rng σ) {p : UParams n m} {T : ℕ} {initial : Option (Vec n)}
    {s : σ} {f : ℕ → Vec n → Vec n} {g : ℕ → Vec n → Vec m}
    (hf : ∀ t, t + 1 < T → p.f.at t = .ok (f t)) (hg : ∀ t, t < T → p.g.at t = .ok (g t)) :
    ∃ (X : ℕ → Vec n) (Z : ℕ → Vec m),
      aukfSample rng p T initial s = .ok ((List.range T).map fun t => (X t, Z t)) ∧
      X 0 = (firstDraw rng p.mu0 p.S0 initial s).1 ∧
      (∀ t, t + 1 < T → X (t + 1) = f t (X t) + transDraw rng (fun _ => p.Q) (fun _ => p.R)
          (firstDraw rng p.mu0 p.S0 initial s).2 t) ∧
      (∀ t, t < T → Z t = g t (X t) + obsDraw rng (fun _ => p.Q) (fun _ => p.R)
          (firstDraw rng p.mu0 p.S0 initial s).2 t) := by
  set i := firstDraw rng p.mu0 p.S0 initial s with hi
  let X : ℕ → Vec n := fun t => Nat.rec i.1
    (fun t x => f t x + transDraw rng (fun _ => p.Q) (fun _ => p.R) i.2 t) t
  have hXs : ∀ t, X (t + 1) = f t (X t) + transDraw rng (fun _ => p.Q) (fun _ => p.R) i.2 t :=
    fun _ => rfl
  have hloop : ∀ k t, t + 1 + k ≤ T → aukfSampleLoop rng p k (t + 1) (X t)
      (rng.normal m 0 p.R (drawState rng (fun _ => p.Q) (fun _ => p.R) i.2 t)).2
      = .ok ((List.range k).map fun j => (X (t + 1 + j), g (t + 1 + j) (X (t + 1 + j))
          + obsDraw rng (fun _ => p.Q) (fun _ => p.R) i.2 (t + 1 + j))) := by
    intro k
    induction k with
    | zero => intro t _; rfl
    | succ k ih =>
      intro t ht
      rw [aukfSampleLoop]
      simp only [Nat.add_sub_cancel, hf t (by omega), hg (t + 1) (by omega), bind, Except.bind]
      have e1 : f t (X t) + (rng.normal n 0 p.Q (rng.normal m 0 p.R (drawState rng (fun _ => p.Q)
        (fun _ => p.R) i.2 t)).2).1 = X (t + 1) := rfl
      have e2 : (rng.normal n 0 p.Q (rng.normal m 0 p.R (drawState rng (fun _ => p.Q)
        (fun _ => p.R) i.2 t)).2).2 = drawState rng (fun _ => p.Q) (fun _ => p.R) i.2 (t + 1) := rfl
      rw [e1, e2, ih (t + 1) (by omega)]
      simp only [pure, Except.pure, List.range_succ_eq_map, List.map_cons, List.map_map]
      congr 2
      refine List.map_congr_left fun j _ => ?_
      simp only [Function.comp, Nat.succ_eq_add_one]
      rw [show t + 1 + 1 + j = t + 1 + (j + 1) by omega]
  refine ⟨X, fun t => g t (X t) + obsDraw rng (fun _ => p.Q) (fun _ => p.R) i.2 t, ?_, rfl,
    fun t _ => hXs t, fun t _ => rfl⟩
  cases T with
  | zero => rfl
  | succ k =>
    have := hloop k 0 (by omega)
    rw [aukfSample_succ, ← hi]
    simp only [hg 0 (by omega), bind, Except.bind]
    have e : (rng.normal m 0 p.R i.2).2 =
      (rng.normal m 0 p.R (drawState rng (fun _ => p.Q) (fun _ => p.R) i.2 0)).2 := rfl
    have e' : aukfSampleLoop rng p k 1 i.1 (rng.normal m 0 p.R i.2).2
      = aukfSampleLoop rng p k (0 + 1) (X 0) (rng.normal m 0 p.R (drawState rng (fun _ => p.Q)
        (fun _ => p.R) i.2 0)).2 := rfl
    rw [e', this]
    simp only [pure, Except.pure, List.range_succ_eq_map, List.map_cons, List.map_map]
    congr 2
    refine List.map_congr_left fun j _ => ?_
    simp only [Function.comp, Nat.succ_eq_add_one]
    rw [show 0 + 1 + j = j + 1 by omega]

/-- **C42.** `sample` of `UnscentedKalmanFilter` follows the model's equations. -/
theorem C42_unscented (rng : Rng σ) {p : GParams n m} {T : ℕ} {initial : Option (Vec n)}
    {s : σ} {f : ℕ → Vec n → Vec n → Vec n} {g : ℕ → Vec n → Vec m → Vec m}
    (hf : ∀ t, t + 1 < T → p.f.at t = .ok (f t)) (hg : ∀ t, t < T → p.g.at t = .ok (g t)) :
    ∃ (X : ℕ → Vec n) (Z : ℕ → Vec m),
      ukfSample rng p T initial s = .ok ((List.range T).map fun t => (X t, Z t)) ∧
      X 0 = (firstDraw rng p.mu0 p.S0 initial s).1 ∧
      (∀ t, t + 1 < T → X (t + 1) = f t (X t) (transDraw rng (fun _ => p.Q) (fun _ => p.R)
          (firstDraw rng p.mu0 p.S0 initial s).2 t)) ∧
      (∀ t, t < T → Z t = g t (X t) (obsDraw rng (fun _ => p.Q) (fun _ => p.R)
          (firstDraw rng p.mu0 p.S0 initial s).2 t)) := by
  set i := firstDraw rng p.mu0 p.S0 initial s with hi
  let X : ℕ → Vec n := fun t => Nat.rec i.1
    (fun t x => f t x (transDraw rng (fun _ => p.Q) (fun _ => p.R) i.2 t)) t
  have hXs : ∀ t, X (t + 1) = f t (X t) (transDraw rng (fun _ => p.Q) (fun _ => p.R) i.2 t) :=
    fun _ => rfl
  have hloop : ∀ k t, t + 1 + k ≤ T → ukfSampleLoop rng p k (t + 1) (X t)
      (rng.normal m 0 p.R (drawState rng (fun _ => p.Q) (fun _ => p.R) i.2 t)).2
      = .ok ((List.range k).map fun j => (X (t + 1 + j), g (t + 1 + j) (X (t + 1 + j))
          (obsDraw rng (fun _ => p.Q) (fun _ => p.R) i.2 (t + 1 + j)))) := by
    intro k
    induction k with
    | zero => intro t _; rfl
    | succ k ih =>
      intro t ht
      rw [ukfSampleLoop]
      simp only [Nat.add_sub_cancel, hf t (by omega), hg (t + 1) (by omega), bind, Except.bind]
      have e1 : f t (X t) (rng.normal n 0 p.Q (rng.normal m 0 p.R (drawState rng (fun _ => p.Q)
        (fun _ => p.R) i.2 t)).2).1 = X (t + 1) := rfl
      have e2 : (rng.normal n 0 p.Q (rng.normal m 0 p.R (drawState rng (fun _ => p.Q)
        (fun _ => p.R) i.2 t)).2).2 = drawState rng (fun _ => p.Q) (fun _ => p.R) i.2 (t + 1) := rfl
      rw [e1, e2, ih (t + 1) (by omega)]
      simp only [pure, Except.pure, List.range_succ_eq_map, List.map_cons, List.map_map]
      congr 2
      refine List.map_congr_left fun j _ => ?_
      simp only [Function.comp, Nat.succ_eq_add_one]
      rw [show t + 1 + 1 + j = t + 1 + (j + 1) by omega]
  refine ⟨X, fun t => g t (X t) (obsDraw rng (fun _ => p.Q) (fun _ => p.R) i.2 t), ?_, rfl,
    fun t _ => hXs t, fun t _ => rfl⟩
  cases T with
  | zero => rfl
  | succ k =>
    have := hloop k 0 (by omega)
    rw [ukfSample_succ, ← hi]
    simp only [hg 0 (by omega), bind, Except.bind]
    have e' : ukfSampleLoop rng p k 1 i.1 (rng.normal m 0 p.R i.2).2
      = ukfSampleLoop rng p k (0 + 1) (X 0) (rng.normal m 0 p.R (drawState rng (fun _ => p.Q)
        (fun _ => p.R) i.2 0)).2 := rfl
    rw [e', this]
    simp only [pure, Except.pure, List.range_succ_eq_map, List.map_cons, List.map_map]
    congr 2
    refine List.map_congr_left fun j _ => ?_
    simp only [Function.comp, Nat.succ_eq_add_one]
    rw [show 0 + 1 + j = j + 1 by omega]

/-! ### C50 -/

/-- **C50.** The observations of the robot data set are the data with one fully masked row in front;
filtering them starts with the initial moments. -/
theorem C50_padded (X : List (Vec m)) :
    padAndMask X = ⟨0, fun _ => true⟩ :: X.map fun x => ⟨x, fun _ => false⟩ := by
  have h : ∀ l : List (Vec m), (l.zip (l.map fun _ _ => false)).map
      (fun r : Vec m × (Fin m → Bool) => (⟨r.1, r.2⟩ : Obs m)) = l.map fun x => ⟨x, fun _ => false⟩ := by
    intro l
    induction l with
    | nil => rfl
    | cons a l ih => simp only [List.map_cons, List.zip_cons_cons, ih]
  simp only [padAndMask, List.map_cons, List.set_cons_zero, List.zip_cons_cons, h]

/-- **C50.** Filtering the padded data returns the initial moments in the first row. -/
theorem C50_first_row (hm : 0 < m) {p : Params n m} {X : List (Vec m)} {out : List (Vec n × Mat n n)}
    (h : kfFilter p (padAndMask X) = .ok out) : out.head? = some (p.mu0, p.S0) := by
  rw [C50_padded] at h
  have hmiss : (⟨0, fun _ => true⟩ : Obs m).missing := ⟨⟨0, hm⟩, rfl⟩
  rw [kfFilter_ok h, List.length_cons, List.range_succ_eq_map, List.map_cons, List.head?_cons]
  obtain ⟨-, h1, h2⟩ := p.fn.kf_missing (obsFn (⟨0, fun _ => true⟩ :: X.map fun x => ⟨x, fun _ => false⟩))
    (t := 0) hmiss
  rw [h1, h2]
  rfl

/-! ### The hypotheses can be met -/

/-- The draws of a run in order. -/
def noiseOf (j : ℕ) : Noise :=
  if j = 0 then .init else if j % 2 = 1 then .obs (j / 2) else .trans (j / 2 - 1)

/-- A generator that reads its draws from a table. -/
noncomputable def tableRng (n m : ℕ) : Rng (((i : Noise) → Vec (i.dim n m)) × ℕ) where
  normal k _ _ s :=
    (if h : (noiseOf s.2).dim n m = k then h ▸ s.1 (noiseOf s.2) else 0, (s.1, s.2 + 1))

theorem tableRng_normal (ω : (i : Noise) → Vec (i.dim n m)) {j : ℕ} {i : Noise} (h : noiseOf j = i)
    (mean : Vec (i.dim n m)) (cov : Mat (i.dim n m) (i.dim n m)) :
    (tableRng n m).normal (i.dim n m) mean cov (ω, j) = (ω i, (ω, j + 1)) := by
  subst h
  simp [tableRng]

theorem noiseOf_obs (t : ℕ) : noiseOf (2 * t + 1) = .obs t := by
  rw [noiseOf, if_neg (by omega), if_pos (by omega)]
  congr 1; omega

theorem noiseOf_trans (t : ℕ) : noiseOf (2 * t + 2) = .trans t := by
  rw [noiseOf, if_neg (by omega), if_neg (by omega)]
  congr 1; omega

theorem tableRng_obs (ω : (i : Noise) → Vec (i.dim n m)) (t : ℕ) (mean : Vec m) (cov : Mat m m) :
    (tableRng n m).normal m mean cov (ω, 2 * t + 1) = (ω (.obs t), (ω, 2 * t + 2)) :=
  tableRng_normal ω (noiseOf_obs t) mean cov

theorem tableRng_trans (ω : (i : Noise) → Vec (i.dim n m)) (t : ℕ) (mean : Vec n) (cov : Mat n n) :
    (tableRng n m).normal n mean cov (ω, 2 * t + 2) = (ω (.trans t), (ω, 2 * t + 3)) :=
  tableRng_normal ω (noiseOf_trans t) mean cov

theorem tableRng_init (ω : (i : Noise) → Vec (i.dim n m)) (mean : Vec n) (cov : Mat n n) :
    (tableRng n m).normal n mean cov (ω, 0) = (ω .init, (ω, 1)) :=
  tableRng_normal ω (i := .init) rfl mean cov

theorem tableRng_drawState (ω : (i : Noise) → Vec (i.dim n m)) (Q : ℕ → Mat n n) (R : ℕ → Mat m m)
    (t : ℕ) : drawState (tableRng n m) Q R (ω, 1) t = (ω, 2 * t + 1) := by
  induction t with
  | zero => rfl
  | succ t ih => rw [drawState, ih, tableRng_obs, tableRng_trans]; congr 1

theorem tableRng_drawNoise (ω : (i : Noise) → Vec (i.dim n m)) (p : Params n m) (Q : Mat n n)
    (R : Mat m m) (i : Noise) : drawNoise (tableRng n m) p Q R (ω, 0) i = ω i := by
  have h0 : firstDraw (tableRng n m) p.mu0 p.S0 none (ω, 0) = (ω .init, (ω, 1)) :=
    tableRng_init ω _ _
  cases i with
  | init => rw [drawNoise, h0]
  | trans t => rw [drawNoise, h0, transDraw, tableRng_drawState, tableRng_obs, tableRng_trans]
  | obs t => rw [drawNoise, h0, obsDraw, tableRng_drawState, tableRng_obs]

/-- For all parameters with constant covariances there are a generator and a distribution of its
first state whose draws are as `C42_law` assumes. -/
theorem exists_generator (p : Params n m) (Q : Mat n n) (R : Mat m m) :
    ∃ (σ : Type) (rng : Rng σ) (Ω : Type) (_ : MeasurableSpace Ω) (μ : Measure Ω)
      (_ : IsProbabilityMeasure μ) (s : Ω → σ),
      (∀ i, Measurable fun ω => drawNoise rng p Q R (s ω) i) ∧
      iIndepFun (fun i ω => drawNoise rng p Q R (s ω) i) μ ∧
      μ.map (fun ω => drawNoise rng p Q R (s ω) .init) = gauss p.mu0 p.S0 ∧
      (∀ t, μ.map (fun ω => drawNoise rng p Q R (s ω) (.trans t)) = gauss 0 Q) ∧
      ∀ t, μ.map (fun ω => drawNoise rng p Q R (s ω) (.obs t)) = gauss 0 R := by
  let law : (i : Noise) → Measure (Vec (i.dim n m)) := fun i =>
    match i with
    | .init => gauss p.mu0 p.S0
    | .trans t => gauss 0 Q
    | .obs t => gauss 0 R
  haveI hprob : ∀ i, IsProbabilityMeasure (law i) := by
    rintro (_ | t | t) <;> simp only [law] <;> infer_instance
  refine ⟨_, tableRng n m, (i : Noise) → Vec (i.dim n m), inferInstance, Measure.infinitePi law,
    inferInstance, fun ω => (ω, 0), ?_⟩
  simp only [tableRng_drawNoise]
  exact ⟨fun i => measurable_pi_apply i,
    iIndepFun_infinitePi (X := fun (i : Noise) (x : Vec (i.dim n m)) => x) (fun i => measurable_id),
    Measure.infinitePi_map_eval law .init, fun t => Measure.infinitePi_map_eval law (.trans t),
    fun t => Measure.infinitePi_map_eval law (.obs t)⟩

/-- Parameters of dimension 2 and 1, with covariances constant, for `C42_state_equations`. -/
example : exParams.DefinedFor 3 ∧ ∃ Q R, exParams.Q = .const Q ∧ exParams.R = .const R :=
  ⟨exParams_definedFor, _, _, rfl, rfl⟩

/-- A scalar random walk, a generator that always draws 1, and its sample. -/
example : ∃ l, kfSample diagRng (⟨.const 1, .const 0, .const 1, .const 1, .const 0, .const 1, 0, 1⟩ :
    Params 1 1) 3 none () = .ok l ∧ l.map (fun r => (r.1 0, r.2 0)) = [(1, 2), (2, 3), (3, 4)] := by
  refine ⟨_, rfl, ?_⟩
  simp [diagRng]
  norm_num

/-- Functions for all times, for the unscented classes. -/
example : ∃ p : UParams 1 1, ∀ t, p.f.at t = .ok (fun x i => Real.sin (x i)) ∧
    p.g.at t = .ok (fun x i => x i ^ 2) :=
  ⟨⟨.flat [fun x i => Real.sin (x i)], .flat [fun x i => x i ^ 2], 1, 1, 0, 1⟩, fun _ => ⟨rfl, rfl⟩⟩

/-- Filtering the padded data succeeds for constant parameters. -/
example : ∃ out, kfFilter exParams (padAndMask [![1], ![2]]) = .ok out := by
  refine ⟨_, kfFilter_eq ⟨le_refl 2, trivial, trivial, trivial, trivial, trivial⟩⟩

end Verif
