import Verif.Spec.SecondOrder
import Verif.Proofs.LinearErrors
import Verif.Proofs.Errors
import Verif.Proofs.Process
import Mathlib.MeasureTheory.Function.L2Space
import Mathlib.MeasureTheory.Integral.Bochner.Basic
import Mathlib.Probability.Independence.Integration

/-!
# Second moments of linear combinations of uncorrelated disturbances
-/

open MeasureTheory ProbabilityTheory Matrix

namespace Verif

variable {n m k : ℕ} {Ω : Type*} [MeasurableSpace Ω] {μ : Measure Ω}

/-- Square-integrable random vector. -/
def L2 (μ : Measure Ω) {k : ℕ} (X : Ω → Vec k) : Prop := ∀ a, MemLp (fun ω => X ω a) 2 μ

/-- Matrix of mixed second moments. -/
noncomputable def crossMoment (μ : Measure Ω) {a b : ℕ} (X : Ω → Vec a) (Y : Ω → Vec b) : Mat a b :=
  of fun i j => ∫ ω, X ω i * Y ω j ∂μ

theorem L2.int {a b : ℕ} {X : Ω → Vec a} {Y : Ω → Vec b} (hX : L2 μ X) (hY : L2 μ Y) (i : Fin a)
    (j : Fin b) : Integrable (fun ω => X ω i * Y ω j) μ :=
  (hX i).integrable_mul (hY j)

theorem L2.add {X Y : Ω → Vec k} (hX : L2 μ X) (hY : L2 μ Y) : L2 μ (fun ω => X ω + Y ω) :=
  fun a => (hX a).add (hY a)

theorem L2.mulVec {j : ℕ} {X : Ω → Vec k} (hX : L2 μ X) (M : Mat j k) :
    L2 μ (fun ω => M *ᵥ X ω) := fun a => by
  simp only [Matrix.mulVec, dotProduct]
  exact memLp_finset_sum _ fun i _ => (hX i).const_mul _

theorem L2.sum {ι : Type*} {s : Finset ι} {X : ι → Ω → Vec k} (h : ∀ i ∈ s, L2 μ (X i)) :
    L2 μ (fun ω => ∑ i ∈ s, X i ω) := fun a => by
  simp only [Finset.sum_apply]
  exact memLp_finset_sum _ fun i hi => h i hi a

theorem L2.const [IsFiniteMeasure μ] (c : Vec k) : L2 μ (fun _ : Ω => c) :=
  fun a => memLp_const (c a)

theorem crossMoment_symm {a b : ℕ} (X : Ω → Vec a) (Y : Ω → Vec b) :
    crossMoment μ X Y = (crossMoment μ Y X)ᵀ := by
  ext i j
  simp only [crossMoment, of_apply, transpose_apply, mul_comm]

theorem crossMoment_add {a b : ℕ} {X X' : Ω → Vec a} {Y : Ω → Vec b} (hX : L2 μ X)
    (hX' : L2 μ X') (hY : L2 μ Y) :
    crossMoment μ (fun ω => X ω + X' ω) Y = crossMoment μ X Y + crossMoment μ X' Y := by
  ext i j
  simp only [crossMoment, of_apply, Matrix.add_apply, Pi.add_apply, add_mul]
  exact integral_add (hX.int hY i j) (hX'.int hY i j)

theorem crossMoment_sum {ι : Type*} {s : Finset ι} {a b : ℕ} {X : ι → Ω → Vec a} {Y : Ω → Vec b}
    (hX : ∀ i ∈ s, L2 μ (X i)) (hY : L2 μ Y) :
    crossMoment μ (fun ω => ∑ i ∈ s, X i ω) Y = ∑ i ∈ s, crossMoment μ (X i) Y := by
  ext i j
  rw [Matrix.sum_apply]
  simp only [crossMoment, of_apply, Finset.sum_apply, Finset.sum_mul]
  exact integral_finset_sum _ fun l hl => (hX l hl).int hY i j

theorem crossMoment_mulVec {j a b : ℕ} {X : Ω → Vec a} {Y : Ω → Vec b} (hX : L2 μ X)
    (hY : L2 μ Y) (M : Mat j a) :
    crossMoment μ (fun ω => M *ᵥ X ω) Y = M * crossMoment μ X Y := by
  ext i l
  rw [Matrix.mul_apply]
  simp only [crossMoment, of_apply, Matrix.mulVec, dotProduct, Finset.sum_mul, mul_assoc]
  rw [integral_finset_sum _ fun c _ => (hX.int hY c l).const_mul _]
  simp only [integral_const_mul]

theorem crossMoment_mulVec_right {j a b : ℕ} {X : Ω → Vec a} {Y : Ω → Vec b} (hX : L2 μ X)
    (hY : L2 μ Y) (M : Mat j b) :
    crossMoment μ X (fun ω => M *ᵥ Y ω) = crossMoment μ X Y * Mᵀ := by
  rw [crossMoment_symm, crossMoment_mulVec hY hX, transpose_mul, ← crossMoment_symm]

/-- Uncorrelated disturbances. -/
structure Uncor (μ : Measure Ω) (T : ℕ) (u : (i : Noise) → Ω → Vec (i.dim n m)) : Prop where
  sq : ∀ i : Noise, i.Used T → L2 μ (u i)
  uncor : ∀ i j : Noise, i.Used T → j.Used T → i ≠ j → crossMoment μ (u i) (u j) = 0

variable {u : (i : Noise) → Ω → Vec (i.dim n m)} {T : ℕ}

theorem Uncor.ev_l2 (h : Uncor μ T u) (L : Coef k n m) :
    L2 μ (fun ω => L.ev T fun i => u i ω) := by
  refine ((((h.sq .init trivial).mulVec L.init).add (L2.sum fun s hs => ?_)).add
    (L2.sum fun s hs => ?_))
  · exact (h.sq (.trans s) (by have := Finset.mem_range.mp hs; show s + 1 < T; omega)).mulVec _
  · exact (h.sq (.obs s) (Finset.mem_range.mp hs)).mulVec _

theorem Uncor.cross_ev {a : ℕ} {Y : Ω → Vec a} (hY : L2 μ Y) (h : Uncor μ T u)
    (L : Coef k n m) :
    crossMoment μ (fun ω => L.ev T fun i => u i ω) Y
      = L.init * crossMoment μ (u .init) Y
        + ∑ s ∈ Finset.range (T - 1), L.trans s * crossMoment μ (u (.trans s)) Y
        + ∑ s ∈ Finset.range T, L.obs s * crossMoment μ (u (.obs s)) Y := by
  have h0 := h.sq .init trivial
  have h1 : ∀ s ∈ Finset.range (T - 1), L2 μ (u (.trans s)) := fun s hs =>
    h.sq (.trans s) (by have := Finset.mem_range.mp hs; show s + 1 < T; omega)
  have h2 : ∀ s ∈ Finset.range T, L2 μ (u (.obs s)) := fun s hs =>
    h.sq (.obs s) (Finset.mem_range.mp hs)
  simp only [Coef.ev]
  rw [crossMoment_add ((h0.mulVec L.init).add (L2.sum fun s hs => (h1 s hs).mulVec (L.trans s)))
      (L2.sum fun s hs => (h2 s hs).mulVec (L.obs s)) hY,
    crossMoment_add (h0.mulVec L.init) (L2.sum fun s hs => (h1 s hs).mulVec (L.trans s)) hY,
    crossMoment_sum (fun s hs => (h1 s hs).mulVec (L.trans s)) hY,
    crossMoment_sum (fun s hs => (h2 s hs).mulVec (L.obs s)) hY, crossMoment_mulVec h0 hY,
    Finset.sum_congr rfl fun s hs => crossMoment_mulVec (h1 s hs) hY (L.trans s),
    Finset.sum_congr rfl fun s hs => crossMoment_mulVec (h2 s hs) hY (L.obs s)]

theorem Uncor.ev_second (h : Uncor μ T u) (L : Coef k n m) :
    secondMoment μ (fun ω => L.ev T fun i => u i ω)
      = L.cov T (secondMoment μ (u .init)) (fun s => secondMoment μ (u (.trans s)))
        (fun s => secondMoment μ (u (.obs s))) := by
  have hu1 : ∀ s ∈ Finset.range (T - 1), (Noise.trans s).Used T := fun s hs => by
    have := Finset.mem_range.mp hs; show s + 1 < T; omega
  have hu2 : ∀ s ∈ Finset.range T, (Noise.obs s).Used T := fun s hs => Finset.mem_range.mp hs
  have hL := h.ev_l2 L
  have c0 : crossMoment μ (u .init) (fun ω => L.ev T fun i => u i ω)
      = secondMoment μ (u .init) * L.initᵀ := by
    rw [crossMoment_symm, h.cross_ev (h.sq .init trivial),
      Finset.sum_eq_zero fun s hs => by
        rw [h.uncor (.trans s) .init (hu1 s hs) trivial (by simp), Matrix.mul_zero],
      Finset.sum_eq_zero fun s hs => by
        rw [h.uncor (.obs s) .init (hu2 s hs) trivial (by simp), Matrix.mul_zero],
      add_zero, add_zero, transpose_mul, ← crossMoment_symm]
    rfl
  have c1 : ∀ t ∈ Finset.range (T - 1), crossMoment μ (u (.trans t))
      (fun ω => L.ev T fun i => u i ω) = secondMoment μ (u (.trans t)) * (L.trans t)ᵀ := by
    intro t ht
    rw [crossMoment_symm, h.cross_ev (h.sq (.trans t) (hu1 t ht)),
      h.uncor .init (.trans t) trivial (hu1 t ht) (by simp), Matrix.mul_zero,
      Finset.sum_eq_single_of_mem t ht fun s hs hst => by
        rw [h.uncor (.trans s) (.trans t) (hu1 s hs) (hu1 t ht) (by simpa using hst),
          Matrix.mul_zero],
      Finset.sum_eq_zero fun s hs => by
        rw [h.uncor (.obs s) (.trans t) (hu2 s hs) (hu1 t ht) (by simp), Matrix.mul_zero],
      zero_add, add_zero, transpose_mul, ← crossMoment_symm]
    rfl
  have c2 : ∀ t ∈ Finset.range T, crossMoment μ (u (.obs t))
      (fun ω => L.ev T fun i => u i ω) = secondMoment μ (u (.obs t)) * (L.obs t)ᵀ := by
    intro t ht
    rw [crossMoment_symm, h.cross_ev (h.sq (.obs t) (hu2 t ht)),
      h.uncor .init (.obs t) trivial (hu2 t ht) (by simp), Matrix.mul_zero,
      Finset.sum_eq_zero fun s hs => by
        rw [h.uncor (.trans s) (.obs t) (hu1 s hs) (hu2 t ht) (by simp), Matrix.mul_zero],
      Finset.sum_eq_single_of_mem t ht fun s hs hst => by
        rw [h.uncor (.obs s) (.obs t) (hu2 s hs) (hu2 t ht) (by simpa using hst),
          Matrix.mul_zero],
      zero_add, zero_add, transpose_mul, ← crossMoment_symm]
    rfl
  show crossMoment μ _ _ = _
  rw [h.cross_ev hL, c0, Coef.cov, Matrix.mul_assoc]
  congr 1
  · congr 1
    exact Finset.sum_congr rfl fun s hs => by rw [c1 s hs, Matrix.mul_assoc]
  · exact Finset.sum_congr rfl fun s hs => by rw [c2 s hs, Matrix.mul_assoc]

/-- Larger covariances give a larger covariance of the combination. -/
theorem Coef.cov_mono (L : Coef k n m) (T : ℕ) {S0 S0' : Mat n n} {Q Q' : ℕ → Mat n n}
    {R R' : ℕ → Mat m m} (h0 : (S0' - S0).PosSemidef)
    (hQ : ∀ t, t + 1 < T → (Q' t - Q t).PosSemidef) (hR : ∀ t, t < T → (R' t - R t).PosSemidef) :
    (L.cov T S0' Q' R' - L.cov T S0 Q R).PosSemidef := by
  have e : L.cov T S0' Q' R' - L.cov T S0 Q R
      = L.cov T (S0' - S0) (fun s => Q' s - Q s) (fun s => R' s - R s) := by
    simp only [Coef.cov, Matrix.mul_sub, Matrix.sub_mul, Finset.sum_sub_distrib]
    abel
  rw [e, Coef.cov]
  refine ((posSemidef_conj' h0 _).add (posSemidef_sum _ fun s hs => ?_)).add
    (posSemidef_sum _ fun s hs => ?_)
  · exact posSemidef_conj' (hQ s (by have := Finset.mem_range.mp hs; omega)) _
  · exact posSemidef_conj' (hR s (Finset.mem_range.mp hs)) _

theorem Coef.cov_congr (L : Coef k n m) (T : ℕ) {S0 S0' : Mat n n} {Q Q' : ℕ → Mat n n}
    {R R' : ℕ → Mat m m} (h0 : S0 = S0')
    (hQ : ∀ t, t + 1 < T → Q t = Q' t) (hR : ∀ t, t < T → R t = R' t) :
    L.cov T S0 Q R = L.cov T S0' Q' R' := by
  rw [Coef.cov, Coef.cov, h0, Finset.sum_congr rfl fun s hs => by
      rw [hQ s (by have := Finset.mem_range.mp hs; omega)],
    Finset.sum_congr (s₁ := Finset.range T) rfl fun s hs => by
      rw [hR s (Finset.mem_range.mp hs)]]

/-- Combinations of centred disturbances are centred. -/
theorem Uncor.ev_mean [IsFiniteMeasure μ] (h : Uncor μ T u) (hc : Centred T μ u) (L : Coef k n m)
    (a : Fin k) : ∫ ω, L.ev T (fun i => u i ω) a ∂μ = 0 := by
  have key : ∀ i : Noise, i.Used T → ∀ M : Mat k (i.dim n m), ∫ ω, (M *ᵥ u i ω) a ∂μ = 0 ∧
      Integrable (fun ω => (M *ᵥ u i ω) a) μ := by
    intro i hi M
    have hint : ∀ j, Integrable (fun ω => u i ω j) μ := fun j =>
      (h.sq i hi j).integrable (by norm_num)
    simp only [Matrix.mulVec, dotProduct]
    refine ⟨?_, integrable_finset_sum _ fun j _ => (hint j).const_mul _⟩
    rw [integral_finset_sum _ fun j _ => (hint j).const_mul _]
    simp only [integral_const_mul, hc i hi, mul_zero, Finset.sum_const_zero]
  have hu1 : ∀ s ∈ Finset.range (T - 1), (Noise.trans s).Used T := fun s hs => by
    have := Finset.mem_range.mp hs; show s + 1 < T; omega
  have hu2 : ∀ s ∈ Finset.range T, (Noise.obs s).Used T := fun s hs => Finset.mem_range.mp hs
  simp only [Coef.ev, Pi.add_apply, Finset.sum_apply]
  rw [integral_add, integral_add, integral_finset_sum, integral_finset_sum,
    (key .init trivial L.init).1, Finset.sum_eq_zero fun s hs => (key _ (hu1 s hs) _).1,
    Finset.sum_eq_zero fun s hs => (key _ (hu2 s hs) _).1]
  · simp
  · exact fun s hs => (key _ (hu2 s hs) _).2
  · exact fun s hs => (key _ (hu1 s hs) _).2
  · exact (key .init trivial L.init).2
  · exact integrable_finset_sum _ fun s hs => (key _ (hu1 s hs) _).2
  · exact ((key .init trivial L.init).2).add
      (integrable_finset_sum _ fun s hs => (key _ (hu1 s hs) _).2)
  · exact integrable_finset_sum _ fun s hs => (key _ (hu2 s hs) _).2

/-- A constant added to a centred combination. -/
theorem Uncor.affine_second [IsProbabilityMeasure μ] (h : Uncor μ T u) (hc : Centred T μ u)
    (L : Coef k n m) (c : Vec k) :
    secondMoment μ (fun ω => c + L.ev T fun i => u i ω)
      = vecMulVec c c + L.cov T (secondMoment μ (u .init))
        (fun s => secondMoment μ (u (.trans s))) (fun s => secondMoment μ (u (.obs s))) := by
  rw [← h.ev_second L]
  have hL := h.ev_l2 L
  ext a b
  simp only [secondMoment, of_apply, Matrix.add_apply, vecMulVec_apply, Pi.add_apply]
  have i1 : ∀ a, Integrable (fun ω => L.ev T (fun i => u i ω) a) μ := fun a =>
    (hL a).integrable (by norm_num)
  have e : ∀ ω, (c a + L.ev T (fun i => u i ω) a) * (c b + L.ev T (fun i => u i ω) b)
      = c a * c b + (c a * L.ev T (fun i => u i ω) b + (c b * L.ev T (fun i => u i ω) a
        + L.ev T (fun i => u i ω) a * L.ev T (fun i => u i ω) b)) := fun ω => by ring
  simp only [e]
  rw [integral_add (integrable_const _) (((i1 b).const_mul _).fun_add
      (((i1 a).const_mul _).fun_add (hL.int hL a b))),
    integral_add ((i1 b).const_mul _) (((i1 a).const_mul _).fun_add (hL.int hL a b)),
    integral_add ((i1 a).const_mul _) (hL.int hL a b), integral_const_mul (c a) (fun ω => L.ev T
      (fun i => u i ω) b), integral_const_mul (c b) (fun ω => L.ev T (fun i => u i ω) a),
    h.ev_mean hc, h.ev_mean hc]
  simp

/-! ### The Gaussian case -/

variable {P : PFun n m} {X : ℕ → Ω → Vec n} {Z : ℕ → Ω → Vec m}
  {noise : (i : Noise) → Ω → Vec (i.dim n m)}

/-- Means of the noises of a linear-Gaussian process. -/
def PFun.centre (P : PFun n m) : (i : Noise) → Vec (i.dim n m)
  | .init => P.mu0
  | .trans _ => (0 : Vec n)
  | .obs _ => (0 : Vec m)

/-- Deviations of the noises of a linear-Gaussian process from their means. -/
def deviations (P : PFun n m) (noise : (i : Noise) → Ω → Vec (i.dim n m)) (i : Noise) (ω : Ω) :
    Vec (i.dim n m) := noise i ω - P.centre i

theorem LG.uncor [IsProbabilityMeasure μ] (h : LG μ P T X Z noise) (hP : P.PSD T) :
    Uncor μ T (deviations P noise) ∧ Centred T μ (deviations P noise) ∧
    secondMoment μ (deviations P noise .init) = P.S0 ∧
    (∀ t, t + 1 < T → secondMoment μ (deviations P noise (.trans t)) = P.Q t) ∧
    (∀ t, t < T → secondMoment μ (deviations P noise (.obs t)) = P.R t) := by
  have hmom : ∀ i : Noise, i.Used T → ∀ S, μ.map (noise i) = gauss (P.centre i) S →
      S.PosSemidef → HasMoments μ (deviations P noise i) 0 S := by
    intro i _ S hlaw hS
    have := (HasMoments.of_map (h.meas i) hlaw hS).add_const (-P.centre i)
    rw [add_neg_cancel] at this
    have e : deviations P noise i = fun ω => noise i ω + -P.centre i :=
      funext fun ω => sub_eq_add_neg _ _
    rw [e]
    exact this
  have hm0 := hmom .init trivial _ h.init_law hP.S0
  have hm1 := fun t (ht : t + 1 < T) => hmom (.trans t) ht _ (h.trans_law t ht) (hP.Q t ht)
  have hm2 := fun t (ht : t < T) => hmom (.obs t) ht _ (h.obs_law t ht) (hP.R t ht)
  have hex : ∀ i : Noise, i.Used T → ∃ S, HasMoments μ (deviations P noise i) 0 S := by
    rintro (_ | t | t) hi
    · exact ⟨_, hm0⟩
    · exact ⟨_, hm1 t hi⟩
    · exact ⟨_, hm2 t hi⟩
  have hmeas : ∀ i, Measurable (deviations P noise i) := fun i => (h.meas i).sub_const _
  have hind : iIndepFun (deviations P noise) μ :=
    h.indep.comp (fun i x => x - P.centre i) fun i => measurable_id.sub_const _
  have hsq : ∀ i : Noise, i.Used T → L2 μ (deviations P noise i) := by
    intro i hi a
    obtain ⟨S, hS⟩ := hex i hi
    have hm : AEStronglyMeasurable (fun ω => deviations P noise i ω a) μ :=
      ((measurable_pi_apply a).comp (hmeas i)).aestronglyMeasurable
    rw [memLp_two_iff_integrable_sq hm]
    simpa [sq] using hS.int2 a a
  have hcent : Centred T μ (deviations P noise) := by
    intro i hi a
    obtain ⟨S, hS⟩ := hex i hi
    exact hS.mean_eq a
  refine ⟨⟨hsq, fun i j hi hj hij => ?_⟩, hcent, ?_, ?_, ?_⟩
  · ext a b
    have hab : IndepFun (fun ω => deviations P noise i ω a) (fun ω => deviations P noise j ω b) μ :=
      (hind.indepFun hij).comp (measurable_pi_apply a) (measurable_pi_apply b)
    have := hab.integral_fun_mul_eq_mul_integral (((measurable_pi_apply a).comp
      (hmeas i)).aestronglyMeasurable) (((measurable_pi_apply b).comp
      (hmeas j)).aestronglyMeasurable)
    simp only [crossMoment, of_apply, Matrix.zero_apply]
    rw [this, hcent i hi a, zero_mul]
  · ext a b
    simpa [secondMoment] using hm0.second a b
  · intro t ht
    ext a b
    simpa [secondMoment] using (hm1 t ht).second a b
  · intro t ht
    ext a b
    simpa [secondMoment] using (hm2 t ht).second a b

/-- An outcome of a Gaussian process. -/
def outcome (P : PFun n m) (X : ℕ → Ω → Vec n) (Z : ℕ → Ω → Vec m)
    (u : (i : Noise) → Ω → Vec (i.dim n m)) (ω : Ω) : Outcome n m :=
  ⟨P.mu0, fun t => X t ω, fun t => Z t ω, fun i => u i ω⟩

theorem LG.outcome (h : LG μ P T X Z noise) (ω : Ω) :
    (outcome P X Z (deviations P noise) ω).Of P T := by
  refine ⟨?_, fun t ht => ?_, fun t ht => ?_⟩
  · show X 0 ω = P.mu0 + (noise .init ω - P.mu0)
    rw [h.init_eq, add_sub_cancel]
  · show X (t + 1) ω = P.A t *ᵥ X t ω + P.b t + (noise (.trans t) ω - 0)
    rw [h.trans_eq t ht]
    exact congrArg _ (sub_zero _).symm
  · show Z t ω = P.C t *ᵥ X t ω + P.d t + (noise (.obs t) ω - 0)
    rw [h.obs_eq t ht]
    exact congrArg _ (sub_zero _).symm

variable {H : Type*} [MeasurableSpace H]

theorem LG.coef_cov [IsProbabilityMeasure μ] (h : LG μ P T X Z noise) (hP : P.PSD T)
    {Y : Ω → H} {f : H → Vec n} {S : Mat n n} {t : ℕ} (hcond : CondGauss μ (X t) Y f S)
    {L : Coef n n m} (hL : ∀ ω, X t ω - f (Y ω) = L.ev T fun i => deviations P noise i ω) :
    L.cov T P.S0 P.Q P.R = S := by
  obtain ⟨hu, -, h0, hQ, hR⟩ := h.uncor hP
  rw [← L.cov_congr T h0 hQ hR, ← hu.ev_second]
  ext a b
  have := hcond.honest.moments.second a b
  simp only [secondMoment, of_apply, ← hL]
  simpa using this

theorem form_secondMoment {Y : Ω → Vec k} (hY : L2 μ Y) (v : Vec k) :
    v ⬝ᵥ (secondMoment μ Y *ᵥ v) = ∫ ω, (v ⬝ᵥ Y ω) ^ 2 ∂μ := by
  have e : ∀ ω, (v ⬝ᵥ Y ω) ^ 2 = ∑ a, ∑ b, v a * v b * (Y ω a * Y ω b) := by
    intro ω
    rw [sq, dotProduct, Finset.sum_mul_sum]
    exact Finset.sum_congr rfl fun a _ => Finset.sum_congr rfl fun b _ => by ring
  simp only [e]
  rw [integral_finset_sum _ fun a _ => integrable_finset_sum _ fun b _ =>
    (hY.int hY a b).const_mul _]
  simp only [dotProduct, Matrix.mulVec, Finset.mul_sum]
  refine Finset.sum_congr rfl fun a _ => ?_
  rw [integral_finset_sum _ fun b _ => (hY.int hY a b).const_mul _]
  refine Finset.sum_congr rfl fun b _ => ?_
  rw [integral_const_mul]
  simp only [secondMoment, of_apply]
  ring

theorem secondMoment_symm (Y : Ω → Vec k) : (secondMoment μ Y).IsHermitian := by
  ext a b
  simp only [secondMoment, conjTranspose_apply, of_apply, star_trivial, mul_comm]

theorem LG.best [IsProbabilityMeasure μ] (h : LG μ P T X Z noise) (hP : P.PSD T)
    {Y : Ω → H} {f : H → Vec n} {S : Mat n n} {t : ℕ} (hcond : CondGauss μ (X t) Y f S)
    {L : Coef n n m} {c : Vec n} {φ : H → Vec n} (hφ : Measurable φ)
    (hL : ∀ ω, X t ω - φ (Y ω) = c + L.ev T fun i => deviations P noise i ω) :
    (vecMulVec c c + L.cov T P.S0 P.Q P.R - S).PosSemidef := by
  obtain ⟨hu, hc, h0, hQ, hR⟩ := h.uncor hP
  rw [← L.cov_congr T h0 hQ hR, ← hu.affine_second hc]
  have hl2 : L2 μ (fun ω => c + L.ev T fun i => deviations P noise i ω) :=
    (L2.const c).add (hu.ev_l2 L)
  refine posSemidef_iff_real.mpr ⟨(secondMoment_symm _).sub hcond.psd.1, fun v => ?_⟩
  rw [sub_mulVec, dotProduct_sub, form_secondMoment hl2, sub_nonneg]
  have key := hcond.pythagoras hφ v
  simp only [hL] at key
  have hint : Integrable (fun ω => (v ⬝ᵥ (c + L.ev T fun i => deviations P noise i ω)) ^ 2) μ := by
    have : MemLp (fun ω => v ⬝ᵥ (c + L.ev T fun i => deviations P noise i ω)) 2 μ := by
      simp only [dotProduct]
      exact memLp_finset_sum _ fun a _ => (hl2 a).const_mul _
    exact this.integrable_sq
  rw [← ofReal_integral_eq_lintegral_ofReal hint (ae_of_all _ fun _ => sq_nonneg _)] at key
  have hle : ENNReal.ofReal (v ⬝ᵥ (S *ᵥ v))
      ≤ ENNReal.ofReal (∫ ω, (v ⬝ᵥ (c + L.ev T fun i => deviations P noise i ω)) ^ 2 ∂μ) := by
    rw [key]; exact le_self_add
  exact (ENNReal.ofReal_le_ofReal_iff (integral_nonneg fun _ => sq_nonneg _)).mp hle

/-- Data under a mask, read in two ways. -/
theorem rows_sim (mask : MaskPat m) (τ : Outcome n m) (Z : ℕ → Ω → Vec m) (ω : Ω)
    (hz : ∀ t, τ.z t = Z t ω) {j i : ℕ} (hi : i < j) :
    (τ.rows mask i).Sim (zOf mask (seen mask Z j ω) i) := by
  refine ⟨Iff.rfl, fun hm => ?_⟩
  have hm' : ¬ mask.rowMissing i := hm
  simp [zOf, hi, seen, hm', Outcome.rows, hz]

/-! ### Soundness of the estimates -/

theorem exists_lg {p : Params n m} (hc : p.Covers T) :
    ∃ (Ω : Type) (_ : MeasurableSpace Ω) (μ : Measure Ω) (_ : IsProbabilityMeasure μ)
      (X : ℕ → Ω → Vec n) (Z : ℕ → Ω → Vec m) (noise : (i : Noise) → Ω → Vec (i.dim n m)),
      LG μ p.fn T X Z noise := by
  obtain ⟨Ω, i1, μ, i2, X, Z, noise, h⟩ := exists_isLinGauss p T
  exact ⟨Ω, i1, μ, i2, X, Z, noise, h.lg hc⟩

/-- A system with uncorrelated disturbances. -/
structure Sys (μ : Measure Ω) (P : PFun n m) (T : ℕ) (X : ℕ → Ω → Vec n) (Z : ℕ → Ω → Vec m)
    (u : (i : Noise) → Ω → Vec (i.dim n m)) : Prop where
  uncor : Uncor μ T u
  of : ∀ ω, (outcome P X Z u ω).Of P T

theorem IsLinSystem.sys {p : Params n m} (h : IsLinSystem μ p T X Z u) (hc : p.Covers T) :
    Sys μ p.fn T X Z u := by
  refine ⟨⟨h.sq, fun i j hi hj hij => ?_⟩, fun ω => ⟨h.init_eq ω, fun t ht => ?_, fun t ht => ?_⟩⟩
  · ext a b
    exact h.uncor i j hi hj hij a b
  · exact h.trans_eq t ht _ _ (lastDims_eq_ok (hc.A.mono (by omega)))
      (lastDims_eq_ok (hc.b.mono (by omega))) ω
  · exact h.obs_eq t ht _ _ (lastDims_eq_ok (hc.C.mono ht)) (lastDims_eq_ok (hc.d.mono ht)) ω

/-- The data of an estimator, as an affine quantity. -/
theorem Aff.estimate (mask : MaskPat m) {t j : ℕ} (ht : t < T) (hj : j ≤ T) (c : Vec n)
    (K : Fin j → Mat n m) :
    ∃ c', Aff P T (fun τ => τ.x t - affineEstimate c K (seen mask (fun s (_ : Unit) => τ.z s) j ()))
      c' := by
  obtain ⟨cx, hx⟩ := Aff.state (P := P) ht
  have hz : ∀ s : Fin j, ∃ c', Aff P T (fun τ : Outcome n m =>
      K s *ᵥ seen mask (fun s (_ : Unit) => τ.z s) j () s) c' := by
    intro s
    by_cases hm : mask.rowMissing s
    · refine ⟨fun _ => 0, (Aff.const fun _ => 0).congr (fun τ _ => ?_) fun _ => rfl⟩
      simp [seen, hm]
    · obtain ⟨c', h'⟩ := Aff.data (P := P) (show (s : ℕ) < T by omega)
      refine ⟨_, (h'.mulVec (K s)).congr (fun τ _ => ?_) fun _ => rfl⟩
      simp [seen, hm]
  choose c' hc' using hz
  exact ⟨_, hx.sub ((Aff.const fun _ => c).add (Aff.sum Finset.univ fun s _ => hc' s))⟩

theorem measurable_affineEstimate {j : ℕ} (c : Vec n) (K : Fin j → Mat n m) :
    Measurable (affineEstimate c K) := by
  unfold affineEstimate
  refine measurable_const.add (Finset.measurable_sum _ fun s _ => ?_)
  exact (show Measurable fun x : Vec m => K s *ᵥ x by fun_prop).comp (measurable_pi_apply s)

/-- Both kinds of estimates at once. -/
theorem Sys.sound [IsProbabilityMeasure μ] {p : Params n m} (h : Sys μ p.fn T X Z u)
    (hc : p.Covers T) (hpsd : p.PSD T) (mask : MaskPat m) {t j : ℕ} (ht : t < T) (hj : j ≤ T)
    {f : (Fin j → Vec m) → Vec n} {S : Mat n n}
    (hcond : ∀ (Ω' : Type) (_ : MeasurableSpace Ω') (ν : Measure Ω') (_ : IsProbabilityMeasure ν)
      (X' : ℕ → Ω' → Vec n) (Z' : ℕ → Ω' → Vec m) (noise' : (i : Noise) → Ω' → Vec (i.dim n m)),
      LG ν p.fn T X' Z' noise' → CondGauss ν (X' t) (seen mask Z' j) f S)
    (hf : ∃ L : Coef n n m, ∀ τ : Outcome n m, τ.Of p.fn T → τ.mu0 = p.mu0 →
      τ.x t - f (seen mask (fun s (_ : Unit) => τ.z s) j ()) = L.ev T τ.u) :
    SecondOrderSound μ p T u (X t) (seen mask Z j) (fun ω => f (seen mask Z j ω)) S := by
  have hP := hpsd.fn hc
  obtain ⟨L, hL⟩ := hf
  have hcov : L.cov T p.fn.S0 p.fn.Q p.fn.R = S := by
    obtain ⟨Ω', i1, ν, i2, X', Z', noise', hlg⟩ := exists_lg hc
    exact hlg.coef_cov hP (hcond _ _ _ i2 _ _ _ hlg) fun ω => hL _ (hlg.outcome ω) rfl
  have herr : (fun ω => X t ω - f (seen mask Z j ω)) = fun ω => L.ev T fun i => u i ω :=
    funext fun ω => hL _ (h.of ω) rfl
  have hQ : ∀ s, s + 1 < T → lastDims p.Q s = .ok (p.fn.Q s) := fun s hs =>
    lastDims_eq_ok (hc.Q.mono (by omega))
  have hR : ∀ s, s < T → lastDims p.R s = .ok (p.fn.R s) := fun s hs =>
    lastDims_eq_ok (hc.R.mono hs)
  have hexact : p.Exact T μ u → L.cov T (secondMoment μ (u .init))
      (fun s => secondMoment μ (u (.trans s))) (fun s => secondMoment μ (u (.obs s))) = S := by
    intro he
    rw [← hcov]
    exact L.cov_congr T he.S0 (fun s hs => he.Q s hs _ (hQ s hs)) fun s hs => he.R s hs _ (hR s hs)
  refine ⟨?_, fun hle => ?_, fun he => ?_, fun hcent a => ?_, fun he hcent c K => ?_⟩
  · intro a
    have := h.uncor.ev_l2 L a
    rw [← herr] at this
    exact this
  · rw [herr, h.uncor.ev_second, ← hcov]
    exact L.cov_mono T hle.S0 (fun s hs => hle.Q s hs _ (hQ s hs)) fun s hs =>
      hle.R s hs _ (hR s hs)
  · rw [herr, h.uncor.ev_second]
    exact hexact he
  · have := h.uncor.ev_mean hcent L a
    simp only [congrFun herr]
    exact this
  · obtain ⟨c', L', hL'⟩ := Aff.estimate (P := p.fn) mask ht hj c K
    have e : (fun ω => X t ω - affineEstimate c K (seen mask Z j ω))
        = fun ω => c' p.mu0 + L'.ev T fun i => u i ω :=
      funext fun ω => hL' _ (h.of ω)
    rw [e, h.uncor.affine_second hcent, L'.cov_congr T he.S0 (fun s hs => he.Q s hs _ (hQ s hs))
      fun s hs => he.R s hs _ (hR s hs)]
    obtain ⟨Ω', i1, ν, i2, X', Z', noise', hlg⟩ := exists_lg hc
    exact hlg.best hP (hcond _ _ _ i2 _ _ _ hlg) (measurable_affineEstimate c K)
      fun ω => hL' _ (hlg.outcome ω)

theorem filt_coef {p : Params n m} (hc : p.Covers T) (hpsd : p.PSD T) (mask : MaskPat m) {t : ℕ}
    (ht : t < T) :
    ∃ L : Coef n n m, (∀ τ : Outcome n m, τ.Of p.fn T →
        τ.x t - ((p.fn.withMu τ.mu0).kf (τ.rows mask) t).filtMean = L.ev T τ.u) ∧
      L.cov T p.fn.S0 p.fn.Q p.fn.R = p.fn.filtC mask t := by
  obtain ⟨L, hL⟩ := Aff.filt (P := p.fn) mask ht
  have hL' : ∀ τ : Outcome n m, τ.Of p.fn T →
      τ.x t - ((p.fn.withMu τ.mu0).kf (τ.rows mask) t).filtMean = L.ev T τ.u := fun τ hτ => by
    simpa using hL τ hτ
  refine ⟨L, hL', ?_⟩
  obtain ⟨Ω', i1, ν, i2, X', Z', noise', hlg⟩ := exists_lg hc
  refine hlg.coef_cov (hpsd.fn hc) (hlg.filt (hpsd.fn hc) mask ht) fun ω => ?_
  refine Eq.trans ?_ (hL' _ (hlg.outcome ω))
  have : p.fn.filtM mask t (seen mask Z' (t + 1) ω)
      = (p.fn.kf ((outcome p.fn X' Z' (deviations p.fn noise') ω).rows mask) t).filtMean := by
    rw [p.fn.kf_congr fun i hi => rows_sim mask _ Z' ω (fun _ => rfl) (show i < t + 1 by omega)]
    rfl
  rw [this]
  rfl

theorem smooth_coef {p : Params n m} (hc : p.Covers T) (hpsd : p.PSD T) (mask : MaskPat m) {t : ℕ}
    (ht : t < T) :
    ∃ L : Coef n n m, (∀ τ : Outcome n m, τ.Of p.fn T →
        τ.x t - ((p.fn.withMu τ.mu0).ks (τ.rows mask) (T - 1) t).mean = L.ev T τ.u) ∧
      L.cov T p.fn.S0 p.fn.Q p.fn.R = p.fn.smoothC mask T t := by
  obtain ⟨L, hL⟩ := Aff.smooth (P := p.fn) mask ht
  have hL' : ∀ τ : Outcome n m, τ.Of p.fn T →
      τ.x t - ((p.fn.withMu τ.mu0).ks (τ.rows mask) (T - 1) t).mean = L.ev T τ.u := fun τ hτ => by
    simpa using hL τ hτ
  refine ⟨L, hL', ?_⟩
  obtain ⟨Ω', i1, ν, i2, X', Z', noise', hlg⟩ := exists_lg hc
  refine hlg.coef_cov (hpsd.fn hc) (hlg.smooth (hpsd.fn hc) mask ht) fun ω => ?_
  refine Eq.trans ?_ (hL' _ (hlg.outcome ω))
  have : p.fn.smoothM mask T t (seen mask Z' T ω)
      = (p.fn.ks ((outcome p.fn X' Z' (deviations p.fn noise') ω).rows mask) (T - 1) t).mean := by
    rw [p.fn.ks_congr (fun i hi => rows_sim mask _ Z' ω (fun _ => rfl) (show i < T by omega))
      (by omega)]
    rfl
  rw [this]
  rfl

theorem Sys.filt [IsProbabilityMeasure μ] {p : Params n m} (h : Sys μ p.fn T X Z u)
    (hc : p.Covers T) (hpsd : p.PSD T) (mask : MaskPat m) {t : ℕ} (ht : t < T) :
    SecondOrderSound μ p T u (X t) (seen mask Z (t + 1))
      (fun ω => p.fn.filtM mask t (seen mask Z (t + 1) ω)) (p.fn.filtC mask t) := by
  refine h.sound hc hpsd mask ht (by omega)
    (fun Ω' i1 ν i2 X' Z' noise' hlg => hlg.filt (hpsd.fn hc) mask ht) ?_
  obtain ⟨L, hL, -⟩ := filt_coef hc hpsd mask ht
  refine ⟨L, fun τ hτ hmu => ?_⟩
  rw [← hL τ hτ, hmu]
  have : p.fn.filtM mask t (seen mask (fun s (_ : Unit) => τ.z s) (t + 1) ())
      = (p.fn.kf (τ.rows mask) t).filtMean := by
    rw [p.fn.kf_congr fun i hi =>
      rows_sim mask τ (fun s (_ : Unit) => τ.z s) () (fun _ => rfl) (show i < t + 1 by omega)]
    rfl
  rw [this]
  rfl

theorem Sys.smooth [IsProbabilityMeasure μ] {p : Params n m} (h : Sys μ p.fn T X Z u)
    (hc : p.Covers T) (hpsd : p.PSD T) (mask : MaskPat m) {t : ℕ} (ht : t < T) :
    SecondOrderSound μ p T u (X t) (seen mask Z T)
      (fun ω => p.fn.smoothM mask T t (seen mask Z T ω)) (p.fn.smoothC mask T t) := by
  refine h.sound hc hpsd mask ht le_rfl
    (fun Ω' i1 ν i2 X' Z' noise' hlg => hlg.smooth (hpsd.fn hc) mask ht) ?_
  obtain ⟨L, hL, -⟩ := smooth_coef hc hpsd mask ht
  refine ⟨L, fun τ hτ hmu => ?_⟩
  rw [← hL τ hτ, hmu]
  have : p.fn.smoothM mask T t (seen mask (fun s (_ : Unit) => τ.z s) T ())
      = (p.fn.ks (τ.rows mask) (T - 1) t).mean := by
    rw [p.fn.ks_congr (fun i hi =>
      rows_sim mask τ (fun s (_ : Unit) => τ.z s) () (fun _ => rfl) (show i < T by omega))
      (by omega)]
    rfl
  rw [this]
  rfl

/-! ### Two initial means -/

/-- An outcome with the given data and states 0. -/
def restOutcome (P : PFun n m) (a : Vec n) (z : ℕ → Vec m) : Outcome n m where
  mu0 := a
  x := 0
  z := z
  u
    | .init => -a
    | .trans t => - P.b t
    | .obs t => z t - P.d t

theorem restOutcome_of (P : PFun n m) (T : ℕ) (a : Vec n) (z : ℕ → Vec m) :
    (restOutcome P a z).Of P T := by
  refine ⟨?_, fun t _ => ?_, fun t _ => ?_⟩ <;> simp [restOutcome]

theorem Coef.ev_rest (L : Coef k n m) (P : PFun n m) (T : ℕ) (a a' : Vec n) (z : ℕ → Vec m) :
    L.ev T (restOutcome P a z).u - L.ev T (restOutcome P a' z).u = - (L.init *ᵥ (a - a')) := by
  simp only [Coef.ev, restOutcome, mulVec_sub, mulVec_neg]
  abel

theorem Coef.init_le (L : Coef n n m) {P : PFun n m} (hP : P.PSD T) :
    (L.cov T P.S0 P.Q P.R - L.init * P.S0 * L.initᵀ).PosSemidef := by
  have e : L.cov T P.S0 P.Q P.R - L.init * P.S0 * L.initᵀ
      = ∑ s ∈ Finset.range (T - 1), L.trans s * P.Q s * (L.trans s)ᵀ
        + ∑ s ∈ Finset.range T, L.obs s * P.R s * (L.obs s)ᵀ := by
    rw [Coef.cov]; abel
  rw [e]
  refine (posSemidef_sum _ fun s hs => ?_).add (posSemidef_sum _ fun s hs => ?_)
  · exact posSemidef_conj' (hP.Q s (by have := Finset.mem_range.mp hs; omega)) _
  · exact posSemidef_conj' (hP.R s (Finset.mem_range.mp hs)) _

theorem Coef.influence (L : Coef n n m) {P : PFun n m} (hP : P.PSD T) {δ d : Vec n} {c : ℝ}
    (hc : 0 ≤ c) (hδ : ∀ v, (v ⬝ᵥ δ) ^ 2 ≤ c * (v ⬝ᵥ (P.S0 *ᵥ v))) (hd : d = L.init *ᵥ δ)
    (v : Vec n) : (v ⬝ᵥ d) ^ 2 ≤ c * (v ⬝ᵥ (L.cov T P.S0 P.Q P.R *ᵥ v)) := by
  have h1 := hδ (L.initᵀ *ᵥ v)
  have h2 := (posSemidef_iff_real.mp (L.init_le hP)).2 v
  rw [sub_mulVec, dotProduct_sub, sub_nonneg] at h2
  have e1 : v ⬝ᵥ d = (L.initᵀ *ᵥ v) ⬝ᵥ δ := by
    rw [hd, dotProduct_mulVec, ← mulVec_transpose]
  have e2 : v ⬝ᵥ ((L.init * P.S0 * L.initᵀ) *ᵥ v)
      = (L.initᵀ *ᵥ v) ⬝ᵥ (P.S0 *ᵥ (L.initᵀ *ᵥ v)) := by
    rw [← mulVec_mulVec, ← mulVec_mulVec, dotProduct_mulVec, ← mulVec_transpose]
  rw [e1]
  exact h1.trans (mul_le_mul_of_nonneg_left (e2 ▸ h2) hc)

theorem PFun.withMu_ks_cov (P : PFun n m) (a : Vec n) (z : ℕ → Obs m) {T t : ℕ} (ht : t ≤ T) :
    ((P.withMu a).ks z T t).cov = (P.ks z T t).cov := by
  obtain ⟨j, rfl⟩ : ∃ j, T = t + j := ⟨T - t, by omega⟩
  induction j generalizing t with
  | zero => rw [Nat.add_zero, PFun.ks_last, PFun.ks_last]; exact (P.withMu_cov a z t).2
  | succ j ih =>
    have hlt : t < t + (j + 1) := by omega
    have := ih (t := t + 1) (by omega)
    rw [show t + 1 + j = t + (j + 1) by omega] at this
    rw [PFun.ks_lt' _ _ hlt, PFun.ks_lt' _ _ hlt]
    simp only [this, (P.withMu_cov a z t).2]
    rfl

end Verif
