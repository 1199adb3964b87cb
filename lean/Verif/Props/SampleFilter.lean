import Verif.Props.Sample
import Verif.Props.Errors

/-!
# C74: filtering and smoothing a sample
-/

open MeasureTheory ProbabilityTheory Matrix

namespace Verif

variable {n m : ℕ} {σ : Type} {Ω : Type*} [MeasurableSpace Ω] {μ : Measure Ω}

/-- The parameters a sample follows: with a given initial state there is no uncertainty about it. -/
def Params.startingFrom (p : Params n m) : Option (Vec n) → Params n m
  | none => p
  | some x => { p with mu0 := x, S0 := 0 }

/-- Names for all draws of a run of `sample`; the first state is a draw or given. -/
def drawsOf (rng : Rng σ) (p : Params n m) (Q : Mat n n) (R : Mat m m) (initial : Option (Vec n))
    (s : σ) : (i : Noise) → Vec (i.dim n m)
  | .init => (firstDraw rng p.mu0 p.S0 initial s).1
  | .trans t => transDraw rng (fun _ => Q) (fun _ => R) (firstDraw rng p.mu0 p.S0 initial s).2 t
  | .obs t => obsDraw rng (fun _ => Q) (fun _ => R) (firstDraw rng p.mu0 p.S0 initial s).2 t

/-- The generator, started in the random state `s`, works: its draws are independent and have the
requested normal distributions. -/
structure GoodDraws (μ : Measure Ω) (rng : Rng σ) (p : Params n m) (Q : Mat n n) (R : Mat m m)
    (initial : Option (Vec n)) (s : Ω → σ) : Prop where
  meas : ∀ i, Measurable fun ω => drawsOf rng p Q R initial (s ω) i
  indep : iIndepFun (fun i ω => drawsOf rng p Q R initial (s ω) i) μ
  init : initial = none →
    μ.map (fun ω => drawsOf rng p Q R initial (s ω) .init) = gauss p.mu0 p.S0
  trans : ∀ t, μ.map (fun ω => drawsOf rng p Q R initial (s ω) (.trans t)) = gauss 0 Q
  obs : ∀ t, μ.map (fun ω => drawsOf rng p Q R initial (s ω) (.obs t)) = gauss 0 R

/-- A table of observations with the mask `mask`. -/
def maskedTable (mask : MaskPat m) (z : List (Vec m)) : List (Obs m) :=
  z.zipIdx.map fun v => ⟨v.1, mask v.2⟩

theorem maskedTable_range (mask : MaskPat m) (z : ℕ → Vec m) (T : ℕ) :
    maskedTable mask ((List.range T).map z) = (List.range T).map fun t => ⟨z t, mask t⟩ := by
  apply List.ext_getElem?
  intro i
  by_cases hi : i < T
  · simp [maskedTable, List.getElem?_range hi, List.getElem?_zipIdx]
  · rw [List.getElem?_eq_none (by simp [maskedTable]; omega),
      List.getElem?_eq_none (by simp; omega)]

theorem sample_isLinGauss [IsProbabilityMeasure μ] (rng : Rng σ) {p : Params n m} {T : ℕ}
    (hdef : p.DefinedFor T) {Q : Mat n n} {R : Mat m m} (hQ : p.Q = .const Q) (hR : p.R = .const R)
    {initial : Option (Vec n)} {s : Ω → σ} (hg : GoodDraws μ rng p Q R initial s) :
    ∃ (X : ℕ → Ω → Vec n) (Z : ℕ → Ω → Vec m),
      (∀ ω, kfSample rng p T initial (s ω) = .ok ((List.range T).map fun t => (X t ω, Z t ω))) ∧
      IsLinGauss μ (p.startingFrom initial) T X Z
        (fun i ω => drawsOf rng p Q R initial (s ω) i) := by
  choose X Z h1 h2 h3 h4 using fun ω => C42_state_equations rng hdef hQ hR initial (s ω)
  have eA : (p.startingFrom initial).A = p.A := by cases initial <;> rfl
  have eb : (p.startingFrom initial).b = p.b := by cases initial <;> rfl
  have eQ : (p.startingFrom initial).Q = p.Q := by cases initial <;> rfl
  have eC : (p.startingFrom initial).C = p.C := by cases initial <;> rfl
  have ed : (p.startingFrom initial).d = p.d := by cases initial <;> rfl
  have eR : (p.startingFrom initial).R = p.R := by cases initial <;> rfl
  refine ⟨fun t ω => X ω t, fun t ω => Z ω t, h1, hg.meas, hg.indep, ?_, ?_, ?_, h2, ?_, ?_⟩
  · cases initial with
    | none => exact hg.init rfl
    | some x =>
      show μ.map (fun _ => x) = gauss x 0
      rw [Measure.map_const, measure_univ, one_smul, gauss_zero_zero]
  · intro t _ Q' h
    rw [eQ, hQ] at h
    cases h
    exact hg.trans t
  · intro t _ R' h
    rw [eR, hR] at h
    cases h
    exact hg.obs t
  · intro t ht A b hA hb ω
    rw [eA] at hA
    rw [eb] at hb
    exact h3 ω t ht A b hA hb
  · intro t ht C d hC hd ω
    rw [eC] at hC
    rw [ed] at hd
    exact h4 ω t ht C d hC hd

theorem startingFrom_definedFor {p : Params n m} {T : ℕ} (h : p.DefinedFor T)
    (initial : Option (Vec n)) : (p.startingFrom initial).DefinedFor T := by
  cases initial with
  | none => exact h
  | some x => exact ⟨h.A, h.b, h.Q, h.C, h.d, h.R⟩

theorem startingFrom_psd {p : Params n m} {T : ℕ} (h : p.PSD T)
    (initial : Option (Vec n)) : (p.startingFrom initial).PSD T := by
  cases initial with
  | none => exact h
  | some x => exact ⟨h.Q, h.R, PosSemidef.zero⟩

/-- **C74.** Simulate with `sample`, mask some of the observations, and pass them to `filter` and
`smooth` of the same model (started from the given initial state if one was given to `sample`).  If
the generator works, then the errors of the estimates against the simulated states are centred
Gaussian with exactly the reported covariances and independent of the data, and no estimator computed
from the same observations has smaller mean square errors. -/
theorem C74_sample_calibrates [IsProbabilityMeasure μ] (rng : Rng σ) {p : Params n m} {T : ℕ}
    (hT : 0 < T) (hdef : p.DefinedFor T) (hpsd : p.PSD T) {Q : Mat n n} {R : Mat m m}
    (hQ : p.Q = .const Q) (hR : p.R = .const R) {initial : Option (Vec n)} {s : Ω → σ}
    (hg : GoodDraws μ rng p Q R initial s) (mask : MaskPat m) :
    ∃ (X : ℕ → Ω → Vec n) (Z : ℕ → Ω → Vec m) (filt smth : ℕ → Ω → Vec n)
      (filtCov smthCov : ℕ → Mat n n),
      (∀ ω, kfSample rng p T initial (s ω) = .ok ((List.range T).map fun t => (X t ω, Z t ω))) ∧
      (∀ ω, kfFilter (p.startingFrom initial)
          (maskedTable mask ((List.range T).map fun t => Z t ω))
        = .ok ((List.range T).map fun t => (filt t ω, filtCov t))) ∧
      (∀ ω, kfSmooth (p.startingFrom initial)
          (maskedTable mask ((List.range T).map fun t => Z t ω))
        = .ok ((List.range T).map fun t => (smth t ω, smthCov t))) ∧
      ∀ t, t < T →
        Honest μ (X t) (seen mask Z (t + 1)) (filt t) (filtCov t) ∧
        Optimal μ (X t) (seen mask Z (t + 1)) (filt t) (filtCov t) ∧
        Honest μ (X t) (seen mask Z T) (smth t) (smthCov t) ∧
        Optimal μ (X t) (seen mask Z T) (smth t) (smthCov t) := by
  obtain ⟨X, Z, h1, hproc⟩ := sample_isLinGauss rng hdef hQ hR hg
  have hdef' := startingFrom_definedFor hdef initial
  have hpsd' := startingFrom_psd hpsd initial
  obtain ⟨filt, fc, f1, f2⟩ := C54_filter_error hproc hdef' hpsd' mask
  obtain ⟨smth, sc, s1, s2⟩ := C54_smooth_error hproc hdef' hpsd' mask hT
  have hlen : ∀ ω, (maskedTable mask ((List.range T).map fun t => Z t ω)).length = T := by
    intro ω; simp [maskedTable]
  have hrec : ∀ ω, Records mask (fun t => Z t ω)
      (maskedTable mask ((List.range T).map fun t => Z t ω)) := by
    intro ω t ht
    have ht' : t < T := by rwa [hlen] at ht
    simp only [maskedTable_range, List.getElem_map, List.getElem_range]
    exact ⟨trivial, fun _ => trivial⟩
  have key : ∀ {out : List (Vec n × Mat n n)} {e : ℕ → Vec n} {c : ℕ → Mat n n}, out.length = T →
      (∀ t, t < T → out[t]? = some (e t, c t)) → out = (List.range T).map fun t => (e t, c t) := by
    intro out e c hl ho
    apply List.ext_getElem?
    intro i
    by_cases hi : i < T
    · rw [ho i hi]
      simp [List.getElem?_range hi]
    · rw [List.getElem?_eq_none (by omega), List.getElem?_eq_none (by simp; omega)]
  refine ⟨X, Z, filt, smth, fc, sc, h1, fun ω => ?_, fun ω => ?_, fun t ht =>
    ⟨(f2 t ht).1, (f2 t ht).2, (s2 t ht).1, (s2 t ht).2⟩⟩
  · obtain ⟨out, ho, hl, hrow⟩ := f1 ω _ (hlen ω) (hrec ω)
    rw [ho, key hl hrow]
  · obtain ⟨out, ho, hl, hrow⟩ := s1 ω _ (hlen ω) (hrec ω)
    rw [ho, key hl hrow]

theorem tableRng_drawsOf (ω : (i : Noise) → Vec (i.dim n m)) (p : Params n m) (Q : Mat n n)
    (R : Mat m m) (x : Vec n) (i : Noise) :
    drawsOf (tableRng n m) p Q R (some x) (ω, 1) i = match i with
      | .init => x
      | .trans t => ω (.trans t)
      | .obs t => ω (.obs t) := by
  have h0 : firstDraw (tableRng n m) p.mu0 p.S0 (some x) (ω, 1) = (x, (ω, 1)) := rfl
  cases i with
  | init => rw [drawsOf, h0]
  | trans t => rw [drawsOf, h0, transDraw, tableRng_drawState, tableRng_obs, tableRng_trans]
  | obs t => rw [drawsOf, h0, obsDraw, tableRng_drawState, tableRng_obs]

/-- Generators that work exist, for a drawn and for a given initial state. -/
theorem exists_goodDraws (p : Params n m) (Q : Mat n n) (R : Mat m m) (initial : Option (Vec n)) :
    ∃ (σ : Type) (rng : Rng σ) (Ω : Type) (_ : MeasurableSpace Ω) (μ : Measure Ω)
      (_ : IsProbabilityMeasure μ) (s : Ω → σ), GoodDraws μ rng p Q R initial s := by
  cases initial with
  | none =>
    obtain ⟨σ, rng, Ω, i1, μ, i2, s, h1, h2, h3, h4, h5⟩ := exists_generator p Q R
    have e : ∀ ω i, drawsOf rng p Q R none (s ω) i = drawNoise rng p Q R (s ω) i := by
      intro ω i
      cases i <;> rfl
    exact ⟨σ, rng, Ω, i1, μ, i2, s, by simpa only [e] using h1, by simpa only [e] using h2,
      fun _ => by simpa only [e] using h3, by simpa only [e] using h4, by simpa only [e] using h5⟩
  | some x =>
    let law : (i : Noise) → Measure (Vec (i.dim n m)) := fun i =>
      match i with
      | .init => gauss p.mu0 p.S0
      | .trans t => gauss 0 Q
      | .obs t => gauss 0 R
    haveI hprob : ∀ i, IsProbabilityMeasure (law i) := by
      rintro (_ | t | t) <;> simp only [law] <;> infer_instance
    let g : (i : Noise) → Vec (i.dim n m) → Vec (i.dim n m) := fun i =>
      match i with
      | .init => fun _ => x
      | .trans _ => id
      | .obs _ => id
    have hgm : ∀ i, Measurable (g i) := by
      rintro (_ | t | t)
      · exact measurable_const
      · exact measurable_id
      · exact measurable_id
    have e : ∀ (ω : (i : Noise) → Vec (i.dim n m)) i,
        drawsOf (tableRng n m) p Q R (some x) (ω, 1) i = g i (ω i) := by
      intro ω i
      rw [tableRng_drawsOf]
      cases i <;> rfl
    refine ⟨_, tableRng n m, (i : Noise) → Vec (i.dim n m), inferInstance,
      Measure.infinitePi law, inferInstance, fun ω => (ω, 1), ?_, ?_,
      (fun h => nomatch h), ?_, ?_⟩
    · intro i
      simp only [e]
      exact (hgm i).comp (measurable_pi_apply i)
    · simp only [e]
      exact iIndepFun_infinitePi (X := g) hgm
    · intro t
      simp only [e]
      exact Measure.infinitePi_map_eval law (.trans t)
    · intro t
      simp only [e]
      exact Measure.infinitePi_map_eval law (.obs t)

/-- The hypotheses of C74 can be met by a model of dimensions 2 and 1, a mask that hides the middle
row, with and without a given initial state. -/
example (initial : Option (Vec 2)) : ∃ (σ : Type) (rng : Rng σ) (Ω : Type) (_ : MeasurableSpace Ω)
    (μ : Measure Ω) (_ : IsProbabilityMeasure μ) (s : Ω → σ) (Q : Mat 2 2) (R : Mat 1 1),
    exParams.DefinedFor 3 ∧ exParams.PSD 3 ∧ exParams.Q = .const Q ∧ exParams.R = .const R ∧
    GoodDraws μ rng exParams Q R initial s := by
  obtain ⟨σ, rng, Ω, i1, μ, i2, s, h⟩ := exists_goodDraws exParams _ _ initial
  exact ⟨σ, rng, Ω, i1, μ, i2, s, _, _, exParams_definedFor, exParams_psd, rfl, rfl, h⟩

end Verif
