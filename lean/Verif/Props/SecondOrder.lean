import Verif.Proofs.SecondOrder
import Verif.Props.Posterior
import Mathlib.Probability.ProbabilityMassFunction.Integrals
import Mathlib.Probability.Distributions.Uniform

/-!
# C60, C61: disturbances of any law, wrong covariances, wrong initial mean

`SecondOrderSound` and `IsLinSystem` are specified in `Verif.Spec.SecondOrder`; the disturbances
need not be Gaussian or independent.
-/

open MeasureTheory Matrix

namespace Verif

variable {n m : ℕ} {p : Params n m} {T : ℕ}

section
variable {Ω : Type*} [MeasurableSpace Ω] {μ : Measure Ω} [IsProbabilityMeasure μ]
  {X : ℕ → Ω → Vec n} {Z : ℕ → Ω → Vec m} {u : (i : Noise) → Ω → Vec (i.dim n m)}

/-- **C60** for `filter`.  For every linear system driven by uncorrelated disturbances: the
reported covariance bounds the mean square error when the covariances passed are upper bounds, is
the mean square error when they are exact, and then no linear estimator from the same rows does
better. -/
theorem C60_filter_linear (hsys : IsLinSystem μ p T X Z u) (hdef : p.DefinedFor T)
    (hpsd : p.PSD T) (mask : MaskPat m) :
    ∃ (est : ℕ → Ω → Vec n) (cov : ℕ → Mat n n),
      (∀ ω, ∀ os : List (Obs m), os.length = T → Records mask (fun t => Z t ω) os →
        ∃ out, kfFilter p os = .ok out ∧ out.length = T ∧
          ∀ t, t < T → out[t]? = some (est t ω, cov t)) ∧
      ∀ t, t < T → SecondOrderSound μ p T u (X t) (seen mask Z (t + 1)) (est t) (cov t) := by
  have hc := definedFor_iff_covers.mp hdef
  have h := hsys.sys hc
  refine ⟨fun t ω => p.fn.filtM mask t (seen mask Z (t + 1) ω), p.fn.filtC mask, ?_,
    fun t ht => h.filt hc hpsd mask ht⟩
  intro ω os hos hrec
  refine ⟨_, kfFilter_eq (by rw [hos]; exact hc), by simp [hos], fun t ht => ?_⟩
  have hsim : ∀ i ≤ t, (obsFn os i).Sim (zOf mask (seen mask Z (t + 1) ω) i) := fun i hi =>
    hrec.sim (k := t + 1) (by omega) (by omega)
  simp only [hos, List.getElem?_map, List.getElem?_range ht, Option.map_some]
  rw [p.fn.kf_congr hsim, p.fn.filtCov_zOf]
  rfl

/-- **C60** for `smooth`; the rows the estimates use are all `T` of them. -/
theorem C60_smooth_linear (hsys : IsLinSystem μ p T X Z u) (hdef : p.DefinedFor T)
    (hpsd : p.PSD T) (mask : MaskPat m) (hT : 0 < T) :
    ∃ (est : ℕ → Ω → Vec n) (cov : ℕ → Mat n n),
      (∀ ω, ∀ os : List (Obs m), os.length = T → Records mask (fun t => Z t ω) os →
        ∃ out, kfSmooth p os = .ok out ∧ out.length = T ∧
          ∀ t, t < T → out[t]? = some (est t ω, cov t)) ∧
      ∀ t, t < T → SecondOrderSound μ p T u (X t) (seen mask Z T) (est t) (cov t) := by
  have hc := definedFor_iff_covers.mp hdef
  have h := hsys.sys hc
  refine ⟨fun t ω => p.fn.smoothM mask T t (seen mask Z T ω), p.fn.smoothC mask T, ?_,
    fun t ht => h.smooth hc hpsd mask ht⟩
  intro ω os hos hrec
  have hne : os ≠ [] := by rintro rfl; simp at hos; omega
  refine ⟨_, kfSmooth_eq hne (by rw [hos]; exact hc), by simp [hos], fun t ht => ?_⟩
  have hsim : ∀ i ≤ T - 1, (obsFn os i).Sim (zOf mask (seen mask Z T ω) i) := fun i hi =>
    hrec.sim (k := T) (by omega) (by omega)
  simp only [hos, List.getElem?_map, List.getElem?_range ht, Option.map_some]
  rw [p.fn.ks_congr hsim (by omega)]
  congr 2
  exact (p.fn.ks_cov_congr (z := zOf mask (seen mask Z T ω))
    (z' := zNil mask) (fun _ _ => Iff.rfl) (show t ≤ T - 1 by omega)).1

end

/-- **C61** for `filter`.  Two runs on the same observations, of the same parameters but for the
initial mean.  The covariances agree.  If in every direction the initial means differ by at most
`√c` standard deviations of the initial covariance, then in every direction the filtered means at
every time differ by at most `√c` reported standard deviations. -/
theorem C61_filter_initial_mean {os : List (Obs m)} (hdef : p.DefinedFor os.length)
    (hpsd : p.PSD os.length) {a : Vec n} {c : ℝ} (hc0 : 0 ≤ c)
    (ha : ∀ v, (v ⬝ᵥ (p.mu0 - a)) ^ 2 ≤ c * (v ⬝ᵥ (p.S0 *ᵥ v))) :
    ∃ out out' : List (Vec n × Mat n n), kfFilter p os = .ok out ∧ kfFilter { p with mu0 := a } os = .ok out' ∧
      out.length = os.length ∧ out'.length = os.length ∧
      ∀ (t : ℕ) (r r' : Vec n × Mat n n), out[t]? = some r → out'[t]? = some r' →
        r'.2 = r.2 ∧ ∀ v, (v ⬝ᵥ (r.1 - r'.1)) ^ 2 ≤ c * (v ⬝ᵥ (r.2 *ᵥ v)) := by
  have hc := definedFor_iff_covers.mp hdef
  have hc' : ({ p with mu0 := a } : Params n m).Covers os.length :=
    ⟨hc.A, hc.b, hc.Q, hc.C, hc.d, hc.R⟩
  refine ⟨_, _, kfFilter_eq hc, kfFilter_eq hc', by simp, by simp, fun t r r' hr hr' => ?_⟩
  obtain ⟨ht, -⟩ := List.getElem?_eq_some_iff.mp hr
  simp only [List.length_map, List.length_range] at ht
  simp only [List.getElem?_map, List.getElem?_range ht, Option.map_some, Option.some.injEq]
    at hr hr'
  subst hr hr'
  refine ⟨(p.fn.withMu_cov a _ t).2, ?_⟩
  let mask : MaskPat m := fun i => (obsFn os i).mask
  let z : ℕ → Vec m := fun i => (obsFn os i).val
  obtain ⟨L, hL, hcov⟩ := filt_coef hc hpsd mask ht
  have h1 := hL _ (restOutcome_of p.fn os.length p.mu0 z)
  have h2 := hL _ (restOutcome_of p.fn os.length a z)
  have e : (p.fn.kf (obsFn os) t).filtMean - ((p.fn.withMu a).kf (obsFn os) t).filtMean
      = L.init *ᵥ (p.mu0 - a) := by
    have h3 := L.ev_rest p.fn os.length p.mu0 a z
    rw [← h1, ← h2, sub_sub_sub_comm] at h3
    have h4 : ∀ x y : Vec n, (0 : Vec n) - 0 - (x - y) = - (x - y) := fun x y => by simp
    exact neg_injective ((h4 _ _).symm.trans h3)
  have hf : (p.fn.kf (obsFn os) t).filtCov = p.fn.filtC mask t :=
    (p.fn.kf_cov_congr (z := obsFn os) (z' := zNil mask) fun _ _ => Iff.rfl).2.2
  intro v
  simp only [hf, ← hcov]
  exact L.influence (hpsd.fn hc) hc0 ha e v

/-- **C61** for `smooth`. -/
theorem C61_smooth_initial_mean {os : List (Obs m)} (hne : os ≠ []) (hdef : p.DefinedFor os.length)
    (hpsd : p.PSD os.length) {a : Vec n} {c : ℝ} (hc0 : 0 ≤ c)
    (ha : ∀ v, (v ⬝ᵥ (p.mu0 - a)) ^ 2 ≤ c * (v ⬝ᵥ (p.S0 *ᵥ v))) :
    ∃ out out' : List (Vec n × Mat n n), kfSmooth p os = .ok out ∧ kfSmooth { p with mu0 := a } os = .ok out' ∧
      out.length = os.length ∧ out'.length = os.length ∧
      ∀ (t : ℕ) (r r' : Vec n × Mat n n), out[t]? = some r → out'[t]? = some r' →
        r'.2 = r.2 ∧ ∀ v, (v ⬝ᵥ (r.1 - r'.1)) ^ 2 ≤ c * (v ⬝ᵥ (r.2 *ᵥ v)) := by
  have hc := definedFor_iff_covers.mp hdef
  have hc' : ({ p with mu0 := a } : Params n m).Covers os.length :=
    ⟨hc.A, hc.b, hc.Q, hc.C, hc.d, hc.R⟩
  refine ⟨_, _, kfSmooth_eq hne hc, kfSmooth_eq hne hc', by simp, by simp,
    fun t r r' hr hr' => ?_⟩
  obtain ⟨ht, -⟩ := List.getElem?_eq_some_iff.mp hr
  simp only [List.length_map, List.length_range] at ht
  simp only [List.getElem?_map, List.getElem?_range ht, Option.map_some, Option.some.injEq]
    at hr hr'
  subst hr hr'
  refine ⟨p.fn.withMu_ks_cov a _ (by omega), ?_⟩
  let mask : MaskPat m := fun i => (obsFn os i).mask
  let z : ℕ → Vec m := fun i => (obsFn os i).val
  obtain ⟨L, hL, hcov⟩ := smooth_coef hc hpsd mask ht
  have h1 := hL _ (restOutcome_of p.fn os.length p.mu0 z)
  have h2 := hL _ (restOutcome_of p.fn os.length a z)
  have e : (p.fn.ks (obsFn os) (os.length - 1) t).mean
      - ((p.fn.withMu a).ks (obsFn os) (os.length - 1) t).mean = L.init *ᵥ (p.mu0 - a) := by
    have h3 := L.ev_rest p.fn os.length p.mu0 a z
    rw [← h1, ← h2, sub_sub_sub_comm] at h3
    have h4 : ∀ x y : Vec n, (0 : Vec n) - 0 - (x - y) = - (x - y) := fun x y => by simp
    exact neg_injective ((h4 _ _).symm.trans h3)
  have hf : (p.fn.ks (obsFn os) (os.length - 1) t).cov = p.fn.smoothC mask os.length t :=
    (p.fn.ks_cov_congr (z := obsFn os) (z' := zNil mask) (fun _ _ => Iff.rfl) (by omega)).1
  intro v
  simp only [hf, ← hcov]
  exact L.influence (hpsd.fn hc) hc0 ha e v

/-! ### The hypotheses can be met

Two independent random signs drive a scalar system: not Gaussian.  With the covariances 1 the
description is exact, with larger ones it is an upper bound. -/

/-- Value of a sign. -/
def sign (b : Bool) : ℝ := if b then 1 else -1

/-- A scalar random walk without process noise, observed directly. -/
def exSigns (s r : ℝ) : Params 1 1 :=
  ⟨.const !![1], .const 0, .const 0, .const !![1], .const 0, .const !![r], 0, !![s]⟩

/-- Disturbances: the first sign moves the initial state, the second the first observation. -/
def signNoise : (i : Noise) → Bool × Bool → Vec (i.dim 1 1)
  | .init => fun ω => fun _ => sign ω.1
  | .trans _ => fun _ => 0
  | .obs _ => fun ω => fun _ => sign ω.2

/-- The fair law of the two signs. -/
noncomputable def signLaw : Measure (Bool × Bool) := (PMF.uniformOfFintype (Bool × Bool)).toMeasure

instance : IsProbabilityMeasure signLaw := by unfold signLaw; infer_instance

theorem integral_signLaw (f : Bool × Bool → ℝ) :
    ∫ ω, f ω ∂signLaw
      = (f (false, false) + f (false, true) + f (true, false) + f (true, true)) / 4 := by
  rw [signLaw, PMF.integral_eq_sum]
  simp [Fintype.sum_prod_type]
  ring

theorem signs_system (s r : ℝ) :
    IsLinSystem signLaw (exSigns s r) 1 (fun _ ω _ => sign ω.1) (fun _ ω _ => sign ω.1 + sign ω.2)
      signNoise := by
  refine ⟨fun i _ a => ?_, fun i j hi hj hij a b => ?_, fun ω => ?_, fun t ht => ?_,
    fun t ht C d hC hd ω => ?_⟩
  · exact MemLp.of_bound (Measurable.of_discrete.aestronglyMeasurable) 1 (ae_of_all _ fun ω => by
      cases i <;> simp [signNoise, sign] <;> split <;> simp)
  · rw [integral_signLaw]
    cases i <;> cases j <;> simp_all [signNoise, sign, Noise.Used]
  · ext a; simp [exSigns, signNoise]
  · omega
  · cases hC; cases hd
    ext a
    fin_cases a
    simp [signNoise, sign, Matrix.mulVec, dotProduct]

theorem secondMoment_sign (i : Noise) (hi : i.Used 1) :
    secondMoment signLaw (signNoise i) = 1 ∧ ∀ a, ∫ ω, signNoise i ω a ∂signLaw = 0 := by
  cases i with
  | trans t => simp [Noise.Used] at hi
  | init =>
    refine ⟨?_, fun a => ?_⟩
    · ext a b
      obtain rfl : a = b := Subsingleton.elim (α := Fin 1) a b
      simp only [secondMoment, of_apply, integral_signLaw, one_apply_eq]
      norm_num [signNoise, sign]
    · rw [integral_signLaw]; norm_num [signNoise, sign]
  | obs t =>
    refine ⟨?_, fun a => ?_⟩
    · ext a b
      obtain rfl : a = b := Subsingleton.elim (α := Fin 1) a b
      simp only [secondMoment, of_apply, integral_signLaw, one_apply_eq]
      norm_num [signNoise, sign]
    · rw [integral_signLaw]; norm_num [signNoise, sign]

theorem one_eq' : (!![1] : Mat 1 1) = 1 := by
  ext i j; fin_cases i; fin_cases j; rfl

/-- With unit covariances the description of the two signs is exact. -/
example : IsLinSystem signLaw (exSigns 1 1) 1 (fun _ ω _ => sign ω.1)
      (fun _ ω _ => sign ω.1 + sign ω.2) signNoise ∧ (exSigns 1 1).DefinedFor 1 ∧
    (exSigns 1 1).PSD 1 ∧ (exSigns 1 1).Exact 1 signLaw signNoise ∧
    Centred 1 signLaw signNoise := by
  refine ⟨signs_system 1 1,
    definedFor_iff_covers.mpr ⟨trivial, trivial, trivial, trivial, trivial, trivial⟩,
    ⟨fun t ht => by omega, fun t _ R hR => ?_, ?_⟩, ⟨?_, fun t ht => by omega, fun t ht R hR => ?_⟩,
    fun i hi => (secondMoment_sign i hi).2⟩
  · cases hR; exact one_eq' ▸ PosSemidef.one
  · show (!![1] : Mat 1 1).PosSemidef
    exact one_eq' ▸ PosSemidef.one
  · exact (secondMoment_sign .init trivial).1.trans one_eq'.symm
  · cases hR; exact (secondMoment_sign (.obs t) ht).1.trans one_eq'.symm

/-- With larger covariances it is an upper bound, and not exact. -/
example : IsLinSystem signLaw (exSigns 2 3) 1 (fun _ ω _ => sign ω.1)
      (fun _ ω _ => sign ω.1 + sign ω.2) signNoise ∧
    (exSigns 2 3).AtLeast 1 signLaw signNoise ∧ ¬ (exSigns 2 3).Exact 1 signLaw signNoise := by
  refine ⟨signs_system 2 3, ⟨?_, fun t ht => by omega, fun t ht R hR => ?_⟩, fun h => ?_⟩
  · have h := (secondMoment_sign .init trivial).1
    have e : (exSigns 2 3).S0 - secondMoment signLaw (signNoise .init) = (1 : Mat 1 1) := by
      refine (congrArg (fun M : Mat 1 1 => !![(2 : ℝ)] - M) h).trans ?_
      ext i j; fin_cases i; fin_cases j; norm_num
    exact e ▸ PosSemidef.one
  · cases hR
    have h := (secondMoment_sign (.obs t) ht).1
    have e : (!![3] : Mat 1 1) - secondMoment signLaw (signNoise (.obs t))
        = diagonal fun _ => 2 := by
      refine (congrArg (fun M : Mat 1 1 => !![(3 : ℝ)] - M) h).trans ?_
      ext i j; fin_cases i; fin_cases j; norm_num
    exact e ▸ PosSemidef.diagonal fun _ => by norm_num
  · have := congrFun (congrFun (h.S0.symm.trans (secondMoment_sign .init trivial).1) 0) 0
    norm_num [exSigns] at this

/-- An initial mean three standard deviations off, for C61. -/
example : ∀ v : Vec 2, (v ⬝ᵥ (exParams.mu0 - ![3, 5])) ^ 2 ≤ 9 * (v ⬝ᵥ (exParams.S0 *ᵥ v)) := by
  intro v
  simp [exParams, dotProduct, Fin.sum_univ_two]
  nlinarith [sq_nonneg (v 1)]

end Verif
