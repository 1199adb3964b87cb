import Verif.Proofs.UnscentedTransform
import Verif.Proofs.UnscentedPos
import Verif.Spec.UnscentedGeneral

/-!
# The filter with general noise when the noise is added: helper lemmas for C86
-/

open Matrix

namespace Verif

variable {n m k l N a b c : ℕ}

section
variable {E : Type} [AddCommGroup E] [Module ℝ E]

theorem uexp_add (μ : Vec k) (L : Mat k k) (φ ψ : Vec k → E) :
    uexp μ L (fun x => φ x + ψ x) = uexp μ L φ + uexp μ L ψ := by
  simp only [uexp, Finset.sum_add_distrib, smul_add]
  abel

theorem uexp₂_add (μ : Vec a) (L : Mat a a) (ν : Vec b) (L' : Mat b b) (φ ψ : Vec a → Vec b → E) :
    uexp₂ μ L ν L' (fun x w => φ x w + ψ x w) = uexp₂ μ L ν L' φ + uexp₂ μ L ν L' ψ := by
  simp only [uexp₂, Finset.sum_add_distrib, smul_add]
  abel

theorem uexp₃_add (μ : Vec a) (L : Mat a a) (ν : Vec b) (L' : Mat b b) (ξ : Vec c) (L'' : Mat c c)
    (φ ψ : Vec a → Vec b → Vec c → E) :
    uexp₃ μ L ν L' ξ L'' (fun x w v => φ x w v + ψ x w v)
      = uexp₃ μ L ν L' ξ L'' φ + uexp₃ μ L ν L' ξ L'' ψ := by
  simp only [uexp₃, Finset.sum_add_distrib, smul_add]
  abel

/-- A function that does not depend on the third vector. -/
theorem uexp₃_two (μ : Vec a) (L : Mat a a) (ν : Vec b) (L' : Mat b b) (ξ : Vec c) (L'' : Mat c c)
    (φ : Vec a → Vec b → E) :
    uexp₃ μ L ν L' ξ L'' (fun x w _ => φ x w) = uexp₂ μ L ν L' φ := by
  simp only [uexp₃, uexp₂, Finset.sum_const, Finset.card_univ, Fintype.card_fin, smul_add]
  push_cast
  module

/-- A function that does not depend on the second vector. -/
theorem uexp₂_one (μ : Vec a) (L : Mat a a) (ν : Vec b) (L' : Mat b b) (φ : Vec a → E) :
    uexp₂ μ L ν L' (fun x _ => φ x) = uexp μ L φ := by
  simp only [uexp₂, uexp, Finset.sum_const, Finset.card_univ, Fintype.card_fin, smul_add]
  push_cast
  module

/-- A function that is linear in the third vector, whose mean is zero. -/
theorem uexp₃_odd (μ : Vec a) (L : Mat a a) (ν : Vec b) (L' : Mat b b) (L'' : Mat c c)
    (φ : Vec a → Vec b → Vec c → E) (h0 : ∀ x w, φ x w 0 = 0) (hn : ∀ x w v, φ x w (-v) = -φ x w v) :
    uexp₃ μ L ν L' 0 L'' φ = 0 := by
  simp only [uexp₃, h0, zero_add, zero_sub, hn, add_neg_cancel, Finset.sum_const_zero, add_zero,
    smul_zero]

/-- A function that is linear in the second vector, whose mean is zero. -/
theorem uexp₂_odd (μ : Vec a) (L : Mat a a) (L' : Mat b b) (φ : Vec a → Vec b → E)
    (h0 : ∀ x, φ x 0 = 0) (hn : ∀ x v, φ x (-v) = -φ x v) : uexp₂ μ L 0 L' φ = 0 := by
  simp only [uexp₂, h0, zero_add, zero_sub, hn, add_neg_cancel, Finset.sum_const_zero, add_zero,
    smul_zero]

end

theorem sum_col_col (L : Mat k k) :
    (1 / 6 : ℝ) • ∑ j, (vecMulVec (√3 • L.col j) (√3 • L.col j)
      + vecMulVec (-(√3 • L.col j)) (-(√3 • L.col j))) = L * Lᵀ := by
  have h3 : √3 * √3 = (3 : ℝ) := Real.mul_self_sqrt (by norm_num)
  ext i j
  simp only [Matrix.smul_apply, Matrix.sum_apply, Matrix.add_apply, vecMulVec_apply, Pi.smul_apply,
    Pi.neg_apply, smul_eq_mul, Matrix.col_apply, Matrix.mul_apply, Matrix.transpose_apply,
    Finset.mul_sum]
  refine Finset.sum_congr rfl fun x _ => ?_
  linear_combination (1 / 3 * L i x * L j x) * h3

theorem uexp₃_square (μ : Vec a) (L : Mat a a) (ν : Vec b) (L' : Mat b b) (L'' : Mat c c) :
    uexp₃ μ L ν L' 0 L'' (fun _ _ v => vecMulVec v v) = L'' * L''ᵀ := by
  simp only [uexp₃, vecMulVec_zero, add_zero, Finset.sum_const_zero, smul_zero, zero_add, zero_sub,
    sum_col_col]

theorem uexp₂_square (μ : Vec a) (L : Mat a a) (L' : Mat b b) :
    uexp₂ μ L 0 L' (fun _ w => vecMulVec w w) = L' * L'ᵀ := by
  simp only [uexp₂, vecMulVec_zero, add_zero, Finset.sum_const_zero, smul_zero, zero_add, zero_sub,
    sum_col_col]

theorem vecMulVec_square (p q : Vec k) :
    vecMulVec (p + q) (p + q) = (vecMulVec p p + vecMulVec q q) + (vecMulVec p q + vecMulVec q p) := by
  rw [add_vecMulVec, vecMulVec_add, vecMulVec_add]
  abel

/-- Adding the second noise. -/
theorem uexp₃_added (μ : Vec a) (L : Mat a a) (ν : Vec b) (L' : Mat b b) (L'' : Mat m m)
    (p : Vec a → Vec b → Vec m) :
    uexp₃ μ L ν L' 0 L'' (fun x w v => p x w + v) = uexp₂ μ L ν L' p := by
  rw [uexp₃_add, uexp₃_two, uexp₃_odd _ _ _ _ _ (fun _ _ v => v) (fun _ _ => rfl)
    (fun _ _ _ => rfl), add_zero]

theorem uexp₃_added_cov (μ : Vec a) (L : Mat a a) (ν : Vec b) (L' : Mat b b) (L'' : Mat m m)
    (p : Vec a → Vec b → Vec m) :
    uexp₃ μ L ν L' 0 L'' (fun x w v => vecMulVec (p x w + v) (p x w + v))
      = uexp₂ μ L ν L' (fun x w => vecMulVec (p x w) (p x w)) + L'' * L''ᵀ := by
  simp only [vecMulVec_square]
  rw [uexp₃_add, uexp₃_add, uexp₃_two, uexp₃_square, uexp₃_odd _ _ _ _ _
    (fun x w v => vecMulVec (p x w) v + vecMulVec v (p x w)), add_zero]
  · intro x w; rw [vecMulVec_zero, zero_vecMulVec, add_zero]
  · intro x w v; rw [vecMulVec_neg, neg_vecMulVec, neg_add]

theorem uexp₃_added_cross (μ : Vec a) (L : Mat a a) (ν : Vec b) (L' : Mat b b) (L'' : Mat m m)
    (q : Vec a → Vec b → Vec k) (p : Vec a → Vec b → Vec m) :
    uexp₃ μ L ν L' 0 L'' (fun x w v => vecMulVec (q x w) (p x w + v))
      = uexp₂ μ L ν L' (fun x w => vecMulVec (q x w) (p x w)) := by
  simp only [vecMulVec_add]
  rw [uexp₃_add, uexp₃_two, uexp₃_odd _ _ _ _ _ (fun x w v => vecMulVec (q x w) v), add_zero]
  · intro x w; ext; simp [vecMulVec_apply]
  · intro x w v; rw [vecMulVec_neg]

/-- Adding the first noise. -/
theorem uexp₂_added (μ : Vec a) (L : Mat a a) (L' : Mat m m) (p : Vec a → Vec m) :
    uexp₂ μ L 0 L' (fun x w => p x + w) = uexp μ L p := by
  rw [uexp₂_add, uexp₂_one, uexp₂_odd _ _ _ (fun _ v => v) (fun _ => rfl) (fun _ _ => rfl), add_zero]

theorem uexp₂_added_cov (μ : Vec a) (L : Mat a a) (L' : Mat m m) (p : Vec a → Vec m) :
    uexp₂ μ L 0 L' (fun x w => vecMulVec (p x + w) (p x + w))
      = uexp μ L (fun x => vecMulVec (p x) (p x)) + L' * L'ᵀ := by
  simp only [vecMulVec_square]
  rw [uexp₂_add, uexp₂_add, uexp₂_one, uexp₂_square, uexp₂_odd _ _ _
    (fun x v => vecMulVec (p x) v + vecMulVec v (p x)), add_zero]
  · intro x; rw [vecMulVec_zero, zero_vecMulVec, add_zero]
  · intro x v; rw [vecMulVec_neg, neg_vecMulVec, neg_add]

theorem uexp₂_added_cross (μ : Vec a) (L : Mat a a) (L' : Mat m m) (q : Vec a → Vec k)
    (p : Vec a → Vec m) :
    uexp₂ μ L 0 L' (fun x w => vecMulVec (q x) (p x + w))
      = uexp μ L (fun x => vecMulVec (q x) (p x)) := by
  simp only [vecMulVec_add]
  rw [uexp₂_add, uexp₂_one, uexp₂_odd _ _ _ (fun x v => vecMulVec (q x) v), add_zero]
  · intro x; ext; simp [vecMulVec_apply]
  · intro x v; rw [vecMulVec_neg]

/-- With added transition noise the prediction of the smoother is that of the additive filter. -/
theorem genPredicts_added {φ : Vec n → Vec n} {Q : Mat n n} (hQ : Q.PosDef) {M P : Moments n}
    {Γ : Mat n n} : GenPredicts (fun x w => φ x + w) Q M P Γ ↔ AddPredicts φ Q M P Γ := by
  have e (x w : Vec n) (y : Vec n) : φ x + w - y = (φ x - y) + w := by abel
  constructor
  · rintro ⟨L, LQ, h1, h2, h3, h4, h5⟩
    refine ⟨L, h1, by rw [h3, uexp₂_added], ?_, ?_⟩
    · simp only [e] at h4
      rwa [uexp₂_added_cov _ _ _ fun x => φ x - P.mean, h2.mul_transpose] at h4
    · simp only [e] at h5
      rwa [uexp₂_added_cross _ _ _ (fun x => x - M.mean) fun x => φ x - P.mean] at h5
  · rintro ⟨L, h1, h3, h4, h5⟩
    obtain ⟨LQ, h2⟩ := exists_isCholesky Q hQ
    refine ⟨L, LQ, h1, h2, by rw [h3, uexp₂_added], ?_, ?_⟩
    · simp only [e]
      rwa [uexp₂_added_cov _ _ _ fun x => φ x - P.mean, h2.mul_transpose]
    · simp only [e]
      rwa [uexp₂_added_cross _ _ _ (fun x => x - M.mean) fun x => φ x - P.mean]

/-- One step of the filter if the observation noise is added. -/
theorem genStep_added {f : Vec n → Vec n → Vec n} {γ : Vec n → Vec m} {Q : Mat n n} {R : Mat m m}
    (hR : R.PosDef) {M M' : Moments n} {o : Obs m} :
    GenStep f (fun x v => γ x + v) Q R M o M' ↔
      ∃ L LQ, IsCholesky M.cov L ∧ IsCholesky Q LQ ∧ ∃ x y, x = uexp₂ M.mean L 0 LQ f ∧
        y = uexp₂ M.mean L 0 LQ (fun z w => γ (f z w)) ∧
        Corrected ⟨x, uexp₂ M.mean L 0 LQ fun z w => vecMulVec (f z w - x) (f z w - x)⟩ y
          (uexp₂ M.mean L 0 LQ (fun z w => vecMulVec (γ (f z w) - y) (γ (f z w) - y)) + R)
          (uexp₂ M.mean L 0 LQ fun z w => vecMulVec (f z w - x) (γ (f z w) - y)) o M' := by
  have e (z w : Vec n) (v y : Vec m) : γ (f z w) + v - y = (γ (f z w) - y) + v := by abel
  constructor
  · rintro ⟨L, LQ, LR, h1, h2, h3, x, y, hx, hy, h⟩
    rw [uexp₃_two] at hx
    rw [uexp₃_added _ _ _ _ _ fun z w => γ (f z w)] at hy
    refine ⟨L, LQ, h1, h2, x, y, hx, hy, ?_⟩
    simp only [e] at h
    rwa [uexp₃_two _ _ _ _ _ _ fun z w => vecMulVec (f z w - x) (f z w - x),
      uexp₃_added_cov _ _ _ _ _ fun z w => γ (f z w) - y,
      uexp₃_added_cross _ _ _ _ _ (fun z w => f z w - x) fun z w => γ (f z w) - y, h3.mul_transpose] at h
  · rintro ⟨L, LQ, h1, h2, x, y, hx, hy, h⟩
    obtain ⟨LR, h3⟩ := exists_isCholesky R hR
    refine ⟨L, LQ, LR, h1, h2, h3, x, y, by rw [uexp₃_two, hx],
      by rw [uexp₃_added _ _ _ _ _ fun z w => γ (f z w), hy], ?_⟩
    simp only [e]
    rwa [uexp₃_two _ _ _ _ _ _ fun z w => vecMulVec (f z w - x) (f z w - x),
      uexp₃_added_cov _ _ _ _ _ fun z w => γ (f z w) - y,
      uexp₃_added_cross _ _ _ _ _ (fun z w => f z w - x) fun z w => γ (f z w) - y, h3.mul_transpose]

/-! ### One state dimension: all weights are nonnegative -/

/-- Weights of the five points. -/
noncomputable def fiveWeights : Fin 5 → ℝ := ![1 / 3, 1 / 6, 1 / 6, 1 / 6, 1 / 6]

theorem fiveWeights_nonneg : ∀ i, 0 ≤ fiveWeights i := by
  intro i
  fin_cases i <;> simp [fiveWeights]

/-- The five points. -/
noncomputable def fivePoints (μ : Vec 1) (L : Mat 1 1) (ν : Vec 1) (L' : Mat 1 1) :
    Fin 5 → Vec 1 × Vec 1 :=
  ![(μ, ν), (μ + √3 • L.col 0, ν), (μ - √3 • L.col 0, ν), (μ, ν + √3 • L'.col 0),
    (μ, ν - √3 • L'.col 0)]

theorem uexp₂_five {E : Type} [AddCommGroup E] [Module ℝ E] (μ : Vec 1) (L : Mat 1 1) (ν : Vec 1)
    (L' : Mat 1 1) (φ : Vec 1 → Vec 1 → E) :
    uexp₂ μ L ν L' φ = ∑ i, fiveWeights i • φ (fivePoints μ L ν L' i).1 (fivePoints μ L ν L' i).2 := by
  rw [uexp₂, Fin.sum_univ_five]
  simp only [fiveWeights, fivePoints, Fin.sum_univ_one, Matrix.cons_val_zero, Matrix.cons_val_one,
    Matrix.cons_val, smul_add]
  norm_num
  abel

theorem sum_smul_vecMulVec (w : Fin N → ℝ) (p : Fin N → Vec k) (q : Fin N → Vec l) :
    ∑ i, w i • vecMulVec (p i) (q i)
      = (Matrix.of fun i j => p j i : Mat k N) * diagonal w * (Matrix.of fun i j => q j i : Mat l N)ᵀ := by
  ext i j
  rw [Matrix.sum_apply, Matrix.mul_apply]
  refine Finset.sum_congr rfl fun x _ => ?_
  rw [mul_diagonal]
  simp only [Matrix.smul_apply, vecMulVec_apply, of_apply, transpose_apply, smul_eq_mul]
  ring

/-- Correction in one state dimension. -/
theorem corrected_posDef {μ : Vec 1} {L LQ : Mat 1 1} {f : Vec 1 → Vec 1 → Vec 1} {γ : Vec 1 → Vec m}
    {R : Mat m m} (hR : R.PosDef) {x : Vec 1} {y : Vec m} {o : Obs m} {M' : Moments 1}
    (hP : (uexp₂ μ L 0 LQ fun z w => vecMulVec (f z w - x) (f z w - x)).PosDef)
    (h : Corrected ⟨x, uexp₂ μ L 0 LQ fun z w => vecMulVec (f z w - x) (f z w - x)⟩ y
      (uexp₂ μ L 0 LQ (fun z w => vecMulVec (γ (f z w) - y) (γ (f z w) - y)) + R)
      (uexp₂ μ L 0 LQ fun z w => vecMulVec (f z w - x) (γ (f z w) - y)) o M') :
    M'.cov.PosDef := by
  rw [uexp₂_five, sum_smul_vecMulVec] at hP
  rw [uexp₂_five, uexp₂_five, uexp₂_five, sum_smul_vecMulVec, sum_smul_vecMulVec, sum_smul_vecMulVec] at h
  obtain ⟨D, hD⟩ : ∃ D : Mat 1 5, D = Matrix.of fun i j =>
    (f (fivePoints μ L 0 LQ j).1 (fivePoints μ L 0 LQ j).2 - x) i := ⟨_, rfl⟩
  obtain ⟨G, hG⟩ : ∃ G : Mat m 5, G = Matrix.of fun i j =>
    (γ (f (fivePoints μ L 0 LQ j).1 (fivePoints μ L 0 LQ j).2) - y) i := ⟨_, rfl⟩
  rw [← hD] at hP h
  rw [← hG] at h
  have hs : (G * diagonal fiveWeights * Gᵀ + R)ᵀ = G * diagonal fiveWeights * Gᵀ + R := by
    rw [transpose_add, symm_of_posSemidef hR.posSemidef,
      symm_of_posSemidef (weighted_posSemidef G fiveWeights_nonneg)]
  rw [← unscentedCorrect_iff hs] at h
  rw [← h, unscentedCorrect]
  split_ifs with ho
  · exact hP
  · exact cond_posDef D G fiveWeights_nonneg hP rfl hR

theorem uexp_nonneg_one (μ : Vec 1) (L : Mat 1 1) (p : Vec 1 → Vec k) :
    (uexp μ L fun x => vecMulVec (p x) (p x)).PosSemidef := by
  have h (v : Vec k) : (vecMulVec v v).PosSemidef := by
    simpa using posSemidef_vecMulVec_self_star v
  rw [uexp]
  refine ((h _).smul (by norm_num)).add (PosSemidef.smul ?_ (by norm_num))
  rw [Fin.sum_univ_one]
  exact (h _).add (h _)

theorem step_posDef_one {φ : Vec 1 → Vec 1} {γ : Vec 1 → Vec m} {Q : Mat 1 1} {R : Mat m m}
    (hQ : Q.PosDef) (hR : R.PosDef) {M M' : Moments 1} {o : Obs m}
    (h : GenStep (fun x w => φ x + w) (fun x v => γ x + v) Q R M o M') : M'.cov.PosDef := by
  obtain ⟨L, LQ, h1, h2, x, y, -, -, h⟩ := (genStep_added hR).mp h
  refine corrected_posDef (f := fun x w => φ x + w) hR ?_ h
  have e (z w : Vec 1) : φ z + w - x = (φ z - x) + w := by abel
  simp only [e]
  rw [uexp₂_added_cov _ _ _ fun z => φ z - x, h2.mul_transpose]
  exact Matrix.PosDef.posSemidef_add (uexp_nonneg_one _ _ _) hQ

theorem start_posDef_one {γ : Vec 1 → Vec m} {Q : Mat 1 1} {R : Mat m m} (hR : R.PosDef)
    {M M' : Moments 1} (hM : M.cov.PosDef) {o : Obs m}
    (h : GenStep (fun x _ => x) (fun x v => γ x + v) Q R M o M') : M'.cov.PosDef := by
  obtain ⟨L, LQ, h1, h2, x, y, hx, -, h⟩ := (genStep_added hR).mp h
  refine corrected_posDef (f := fun x _ => x) hR ?_ h
  have hx' : x = M.mean := by
    rw [hx, uexp₂_one _ _ _ _ fun x => x, uexp]
    simp only [Fin.sum_univ_one]
    ext i
    simp only [Pi.add_apply, Pi.smul_apply, Pi.sub_apply, smul_eq_mul]
    push_cast
    ring
  rw [hx', uexp₂_one _ _ _ _ fun z => vecMulVec (z - M.mean) (z - M.mean), uexp]
  simp only [sub_self, vecMulVec_zero, smul_zero, zero_add, add_sub_cancel_left,
    sub_sub_cancel_left, sum_col_col, h1.mul_transpose]
  exact hM

/-- One step succeeds if the covariance is positive definite and both functions exist. -/
theorem ukfStep_ok {u : GParams n m} (hQ : u.Q.PosDef) (hR : u.R.PosDef) {t : ℕ}
    {prev : Option (Moments n)} (hM : (prev.getD ⟨u.mu0, u.S0⟩).cov.PosDef)
    {g : Vec n → Vec m → Vec m} (hg : u.g.at t = .ok g)
    (hf : prev.isSome → ∃ f, u.f.at (t - 1) = .ok f) (o : Obs m) :
    ∃ M, ukfStep u t prev o = .ok M := by
  obtain ⟨s, h1, -⟩ := augFilterPoints_ok hM hQ hR
  cases prev with
  | none =>
    simp only [ukfStep, h1, bind, Except.bind, hg, pure, Except.pure]
    exact ⟨_, rfl⟩
  | some M =>
    obtain ⟨f, hf⟩ := hf rfl
    simp only [ukfStep, h1, bind, Except.bind, hg, hf, pure, Except.pure]
    exact ⟨_, rfl⟩

theorem ukfStep_posDef_one {u : GParams 1 m} (hQ : u.Q.PosDef) (hR : u.R.PosDef)
    (hS : u.S0.PosDef) {t : ℕ} {prev : Option (Moments 1)} (hprev : ∀ M ∈ prev, M.cov.PosDef)
    (ht : prev = none ↔ t = 0) {γ : Vec 1 → Vec m} (hg : u.g.at t = .ok fun x v => γ x + v)
    (hf : prev.isSome → ∃ φ : Vec 1 → Vec 1, u.f.at (t - 1) = .ok fun x w => φ x + w) (o : Obs m) :
    ∃ M, ukfStep u t prev o = .ok M ∧ M.cov.PosDef := by
  have hQs := symm_of_posSemidef hQ.posSemidef
  have hRs := symm_of_posSemidef hR.posSemidef
  obtain ⟨M, hM⟩ := ukfStep_ok hQ hR (prev := prev) (by cases prev with
    | none => exact hS
    | some M => exact hprev M rfl) hg (fun h => let ⟨_, h⟩ := hf h; ⟨_, h⟩) o
  refine ⟨M, hM, ?_⟩
  cases prev with
  | none =>
    obtain rfl := ht.mp rfl
    obtain ⟨g, hg', h⟩ := (ukfStep_zero (symm_of_posSemidef hS.posSemidef) hQs hRs).mp hM
    rw [hg] at hg'
    cases hg'
    exact start_posDef_one hR hS h
  | some M₀ =>
    obtain ⟨t, rfl⟩ : ∃ s, t = s + 1 := ⟨t - 1, by
      have : t ≠ 0 := fun h => by simpa using ht.mpr h
      omega⟩
    obtain ⟨f, g, hf', hg', h⟩ := (ukfStep_succ hQs hRs
      (symm_of_posSemidef (hprev M₀ rfl).posSemidef)).mp hM
    obtain ⟨φ, hφ⟩ := hf rfl
    rw [Nat.add_sub_cancel, hf'] at hφ
    rw [hg] at hg'
    cases hg'
    cases hφ
    exact step_posDef_one hQ hR h

theorem ukfLoop_posDef_one {u : GParams 1 m} (hQ : u.Q.PosDef) (hR : u.R.PosDef)
    (hS : u.S0.PosDef) (os : List (Obs m)) {t : ℕ} {prev : Option (Moments 1)}
    (hprev : ∀ M ∈ prev, M.cov.PosDef) (ht : prev = none ↔ t = 0)
    (hg : ∀ i < os.length, ∃ γ : Vec 1 → Vec m, u.g.at (t + i) = .ok fun x v => γ x + v)
    (hf : ∀ i < os.length, (prev.isSome ∨ 0 < i) →
      ∃ φ : Vec 1 → Vec 1, u.f.at (t + i - 1) = .ok fun x w => φ x + w) :
    ∃ l, runLoop (ukfStep u) t prev os = .ok l ∧ ∀ M ∈ l, M.cov.PosDef := by
  induction os generalizing t prev with
  | nil => exact ⟨[], rfl, by simp⟩
  | cons o os ih =>
    obtain ⟨γ, hg0⟩ := hg 0 (by simp)
    obtain ⟨M, h1, h2⟩ := ukfStep_posDef_one hQ hR hS hprev ht hg0
      (fun h => hf 0 (by simp) (Or.inl h)) o
    obtain ⟨l, h3, h4⟩ := ih (t := t + 1) (prev := some M) (by simpa using h2) (by simp)
      (fun i hi => by
        have := hg (i + 1) (by simpa using hi)
        rwa [← add_assoc, add_right_comm] at this)
      (fun i hi _ => by
        have := hf (i + 1) (by simpa using hi) (Or.inr (by omega))
        rwa [← add_assoc, add_right_comm] at this)
    refine ⟨M :: l, ?_, by simpa using ⟨h2, h4⟩⟩
    have h1' : ukfStep u t prev o = .ok M := h1
    rw [runLoop, h1']
    simp only [bind, Except.bind, h3, pure, Except.pure]

/-- A step of the smoother, up to three dimensions. -/
theorem ukfSmoothStep_posDef (hn : n ≤ 3) {u : GParams n m} (hQ : u.Q.PosDef) {t : ℕ}
    {φ : Vec n → Vec n} (hf : u.f.at t = .ok fun x w => φ x + w) {M M' : Moments n}
    (hM : M.cov.PosDef) (hM' : M'.cov.PosDef) :
    ∃ M'', ukfSmoothStep u t M M' = .ok M'' ∧ M''.cov.PosDef := by
  obtain ⟨p, hp⟩ : ∃ p : UParams n m, p = ⟨.flat [φ], .flat [], u.Q, u.R, u.mu0, u.S0⟩ := ⟨_, rfl⟩
  obtain ⟨s, g1, g2, g3⟩ := moments2points_good hn M hM
  have hs := symm_of_posSemidef hM.posSemidef
  have h : aukfSmoothStep p t M M' = .ok (ufSmooth M s (s.map φ)
      (points2moments (s.map φ) (some u.Q)) M') := by
    subst hp
    simp only [aukfSmoothStep, g1, bind, Except.bind, Fns.at, first, pure, Except.pure]
  obtain ⟨φ', hφ, P, Γ, h1, h2⟩ := (aukfSmoothStep_iff hs).mp h
  subst hp
  cases hφ
  refine ⟨_, (ukfSmoothStep_iff (symm_of_posSemidef hQ.posSemidef) hs).mpr
    ⟨_, hf, P, Γ, (genPredicts_added hQ).mpr h1, h2⟩, ufSmooth_posDef g2 g3 hM hQ φ hM'⟩

theorem ukfBack_posDef (hn : n ≤ 3) {u : GParams n m} (hQ : u.Q.PosDef) (l : List (Moments n))
    (M : Moments n) (t : ℕ) (hM : M.cov.PosDef) (hl : ∀ M ∈ l, M.cov.PosDef)
    (hf : ∀ i < l.length, ∃ φ : Vec n → Vec n, u.f.at (t + i) = .ok fun x w => φ x + w) :
    ∃ r, backLoop (ukfSmoothStep u) t M l = .ok r ∧ r.1.cov.PosDef ∧ ∀ M ∈ r.2, M.cov.PosDef := by
  induction l generalizing M t with
  | nil => exact ⟨(M, []), rfl, hM, by simp⟩
  | cons M' l ih =>
    obtain ⟨r, h1, h2, h3⟩ := ih M' (t + 1) (hl M' (by simp)) (fun M h => hl M (by simp [h]))
      (fun i hi => by
        have := hf (i + 1) (by simpa using hi)
        rwa [← add_assoc, add_right_comm] at this)
    obtain ⟨φ, hf0⟩ := hf 0 (by simp)
    simp only [add_zero] at hf0
    obtain ⟨M'', h4, h5⟩ := ukfSmoothStep_posDef hn hQ hf0 hM h2
    refine ⟨(M'', r.1 :: r.2), ?_, h5, by simpa using ⟨h2, h3⟩⟩
    rw [backLoop, h1]
    simp only [bind, Except.bind, h4, pure, Except.pure]

/-! ### Agreement with the additive filter while nothing is observed -/

theorem genStep_start {γ : Vec n → Vec m} {Q : Mat n n} {R : Mat m m} (hQ : Q.PosDef)
    (hR : R.PosDef) {M M' : Moments n} {o : Obs m} :
    GenStep (fun x _ => x) (fun x v => γ x + v) Q R M o M' ↔ AddCorrects γ R M o M' := by
  rw [genStep_added hR]
  have hm (L : Mat n n) : (uexp M.mean L fun x => x) = M.mean := by
    rw [uexp]
    simp only [add_add_sub_cancel, Finset.sum_const, Finset.card_univ, Fintype.card_fin]
    push_cast
    module
  have hc {L : Mat n n} (h : IsCholesky M.cov L) :
      (uexp M.mean L fun x => vecMulVec (x - M.mean) (x - M.mean)) = M.cov := by
    rw [uexp]
    simp only [sub_self, vecMulVec_zero, smul_zero, zero_add, add_sub_cancel_left,
      sub_sub_cancel_left, sum_col_col, h.mul_transpose]
  constructor
  · rintro ⟨L, LQ, h1, h2, x, y, hx, hy, h⟩
    rw [uexp₂_one _ _ _ _ fun x => x, hm] at hx
    rw [uexp₂_one] at hy
    subst hx
    rw [uexp₂_one _ _ _ _ fun z => vecMulVec (z - M.mean) (z - M.mean), hc h1,
      uexp₂_one _ _ _ _ fun z => vecMulVec (γ z - y) (γ z - y),
      uexp₂_one _ _ _ _ fun z => vecMulVec (z - M.mean) (γ z - y)] at h
    exact ⟨L, h1, y, hy, h⟩
  · rintro ⟨L, h1, y, hy, h⟩
    obtain ⟨LQ, h2⟩ := exists_isCholesky Q hQ
    refine ⟨L, LQ, h1, h2, M.mean, y, by rw [uexp₂_one _ _ _ _ fun x => x, hm],
      by rw [uexp₂_one, hy], ?_⟩
    rw [uexp₂_one _ _ _ _ fun z => vecMulVec (z - M.mean) (z - M.mean), hc h1,
      uexp₂_one _ _ _ _ fun z => vecMulVec (γ z - y) (γ z - y),
      uexp₂_one _ _ _ _ fun z => vecMulVec (z - M.mean) (γ z - y)]
    exact h

theorem genStep_missing {φ : Vec n → Vec n} {γ : Vec n → Vec m} {Q : Mat n n} {R : Mat m m}
    (hQ : Q.PosDef) (hR : R.PosDef) {M M' : Moments n} {o : Obs m} (ho : o.missing) :
    GenStep (fun x w => φ x + w) (fun x v => γ x + v) Q R M o M' ↔ ∃ Γ, AddPredicts φ Q M M' Γ := by
  rw [genStep_added hR]
  have e (z w y : Vec n) : φ z + w - y = (φ z - y) + w := by abel
  constructor
  · rintro ⟨L, LQ, h1, h2, x, y, hx, -, h⟩
    have h' := h.1 ho
    subst h'
    refine ⟨_, L, h1, by rw [hx, uexp₂_added], ?_, rfl⟩
    simp only [e]
    rw [uexp₂_added_cov _ _ _ fun z => φ z - x, h2.mul_transpose]
  · rintro ⟨Γ, L, h1, h3, h4, -⟩
    obtain ⟨LQ, h2⟩ := exists_isCholesky Q hQ
    refine ⟨L, LQ, h1, h2, _, _, rfl, rfl, fun _ => ?_, fun h => absurd ho h⟩
    obtain ⟨μ, P⟩ := M'
    simp only at h3 h4
    simp only [e]
    rw [uexp₂_added, ← h3, uexp₂_added_cov _ _ _ fun z => φ z - μ, h2.mul_transpose, ← h4]

theorem addStep_missing {φ : Vec n → Vec n} {γ : Vec n → Vec m} {Q : Mat n n} {R : Mat m m}
    {M M' : Moments n} {o : Obs m} (ho : o.missing) (h : AddStep φ γ Q R M o M') :
    ∃ Γ, AddPredicts φ Q M M' Γ := by
  obtain ⟨P, Γ, h1, L, -, y, -, h2⟩ := h
  have := h2.1 ho
  subst this
  exact ⟨Γ, h1⟩

end Verif
