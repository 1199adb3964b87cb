import Verif.Linalg.LogDet
import Verif.Proofs.Expect
import Verif.Proofs.EmLoop

/-!
# The M-step maximises the expected complete-data log-likelihood
-/

open Matrix

namespace Verif

variable {n m k : ℕ}

/-! ### Sums of expected log densities with a common covariance -/

/-- `N` expected log densities with common covariance `S` and total second moment `M`. -/
noncomputable def gsum (N : ℝ) (S M : Mat k k) : ℝ :=
  -(1 / 2) * (N * (k * Real.log (2 * Real.pi) + Real.log S.det) + (S⁻¹ * M).trace)

theorem sum_expLogN (s : Finset ℕ) (w : ℕ → ℝ) (S : Mat k k) (M : ℕ → Mat k k) :
    ∑ t ∈ s, w t * expLogN S (M t) = gsum (∑ t ∈ s, w t) S (∑ t ∈ s, w t • M t) := by
  simp only [gsum, expLogN, Matrix.mul_sum, Matrix.trace_sum, Matrix.mul_smul, Matrix.trace_smul,
    smul_eq_mul, Finset.sum_mul, ← Finset.sum_add_distrib, Finset.mul_sum]
  exact Finset.sum_congr rfl fun t _ => by ring

theorem gsum_one (S M : Mat k k) : gsum 1 S M = expLogN S M := by
  simp [gsum, expLogN]

/-- Smaller scatter, larger expected log density. -/
theorem gsum_mono (N : ℝ) {S M M' : Mat k k} (hS : S.PosDef) (h : (M' - M).PosSemidef) :
    gsum N S M' ≤ gsum N S M := by
  have := trace_mul_nonneg hS.inv.posSemidef h
  rw [Matrix.mul_sub, Matrix.trace_sub] at this
  simp only [gsum]
  linarith

/-- The covariance maximising the sum is the average second moment. -/
theorem gsum_max {N : ℝ} (hN : 0 < N) {S S' M : Mat k k} (hS : S.PosDef) (hS' : S'.PosDef)
    (hM : S = (1 / N) • M) : gsum N S' M ≤ gsum N S M := by
  have e : M = N • S := by rw [hM, smul_smul, mul_one_div, div_self hN.ne', one_smul]
  have h := logDet_sub_le hS' hS
  have hu : S⁻¹ * S = 1 := nonsing_inv_mul _ hS.det_pos.ne'.isUnit
  simp only [gsum]
  rw [e, Matrix.mul_smul, Matrix.mul_smul, hu, Matrix.trace_smul, Matrix.trace_smul]
  simp only [Matrix.trace_one, Fintype.card_fin, smul_eq_mul]
  nlinarith

theorem gsum_zero (S S' : Mat k k) : gsum 0 S 0 = gsum 0 S' 0 := by simp [gsum]

/-! ### The three parts of the expected complete-data log-likelihood -/

variable (f : ℕ → EmStats n) (g : ℕ → Obs m)

/-- Second moment of an emission error. -/
noncomputable def obsTerm (C : ℕ → Mat m n) (d : ℕ → Vec m) (t : ℕ) : Mat m m :=
  vecMulVec ((g t).val - C t *ᵥ (f t).mean - d t) ((g t).val - C t *ᵥ (f t).mean - d t)
    + C t * ((f t).cov * (C t)ᵀ)

/-- Second moment of a transition error. -/
noncomputable def transTerm (A : ℕ → Mat n n) (b : ℕ → Vec n) (t : ℕ) : Mat n n :=
  vecMulVec ((f (t + 1)).mean - A t *ᵥ (f t).mean - b t)
      ((f (t + 1)).mean - A t *ᵥ (f t).mean - b t)
    + A t * ((f t).cov * (A t)ᵀ) + (f (t + 1)).cov - (f (t + 1)).pair * (A t)ᵀ
    - ((f (t + 1)).pair * (A t)ᵀ)ᵀ

/-- Second moment of the error of the initial mean. -/
noncomputable def initTerm (mu0 : Vec n) : Mat n n :=
  (f 0).cov + vecMulVec ((f 0).mean - mu0) ((f 0).mean - mu0)

noncomputable def eObs (C : ℕ → Mat m n) (d : ℕ → Vec m) (R : ℕ → Mat m m) (N : ℕ) : ℝ :=
  ∑ t ∈ Finset.range N, (g t).w * expLogN (R t) (obsTerm f g C d t)

noncomputable def eTrans (A : ℕ → Mat n n) (b : ℕ → Vec n) (Q : ℕ → Mat n n) (T : ℕ) : ℝ :=
  ∑ t ∈ Finset.range T, expLogN (Q t) (transTerm f A b t)

theorem obsScatter_eq_sum (C : ℕ → Mat m n) (d : ℕ → Vec m) (N : ℕ) :
    obsScatter f g C d N = ∑ t ∈ Finset.range N, (g t).w • obsTerm f g C d t := rfl

theorem transScatter_eq_sum (A : ℕ → Mat n n) (b : ℕ → Vec n) (T : ℕ) :
    transScatter f A b T = ∑ t ∈ Finset.range T, transTerm f A b t := rfl

theorem eObs_const (C : ℕ → Mat m n) (d : ℕ → Vec m) (R : Mat m m) (N : ℕ) :
    eObs f g C d (fun _ => R) N = gsum (obsCount g N) R (obsScatter f g C d N) := by
  rw [eObs, sum_expLogN, obsCount_eq, obsScatter_eq_sum]

theorem eTrans_const (A : ℕ → Mat n n) (b : ℕ → Vec n) (Q : Mat n n) (T : ℕ) :
    eTrans f A b (fun _ => Q) T = gsum T Q (transScatter f A b T) := by
  have := sum_expLogN (Finset.range T) (fun _ => 1) Q (transTerm f A b)
  simp only [one_mul, one_smul, Finset.sum_const, Finset.card_range, nsmul_eq_mul, mul_one] at this
  rw [eTrans, this, transScatter_eq_sum]

/-! ### Normal equations -/

theorem vecMulVec_self_mulVec (v x : Vec k) : vecMulVec v v *ᵥ x = (v ⬝ᵥ x) • v := by
  rw [vecMulVec_mulVec]; simp

/-- A sum of positive semidefinite matrices kills only what all of them kill. -/
theorem sum_mulVec_zero {s : Finset ℕ} {M : ℕ → Mat k k} (hM : ∀ t ∈ s, (M t).PosSemidef)
    {x : Vec k} (h : (∑ t ∈ s, M t) *ᵥ x = 0) : ∀ t ∈ s, M t *ᵥ x = 0 := by
  have hq : ∑ t ∈ s, x ⬝ᵥ (M t *ᵥ x) = 0 := by
    rw [← dotProduct_sum, ← Matrix.sum_mulVec, h, dotProduct_zero]
  have h0 := (Finset.sum_eq_zero_iff_of_nonneg fun t ht =>
    (posSemidef_iff_real.mp (hM t ht)).2 x).mp hq
  intro t ht
  have := (hM t ht).dotProduct_mulVec_zero_iff x
  simp only [star_trivial] at this
  exact this.mp (h0 t ht)

theorem add_mulVec_zero {M M' : Mat k k} (hM : M.PosSemidef) (hM' : M'.PosSemidef) {x : Vec k}
    (h : (M + M') *ᵥ x = 0) : M *ᵥ x = 0 ∧ M' *ᵥ x = 0 := by
  have hq : x ⬝ᵥ (M *ᵥ x) + x ⬝ᵥ (M' *ᵥ x) = 0 := by
    rw [← dotProduct_add, ← add_mulVec, h, dotProduct_zero]
  have h1 := (posSemidef_iff_real.mp hM).2 x
  have h2 := (posSemidef_iff_real.mp hM').2 x
  have a := hM.dotProduct_mulVec_zero_iff x
  have b := hM'.dotProduct_mulVec_zero_iff x
  simp only [star_trivial] at a b
  exact ⟨a.mp (by linarith), b.mp (by linarith)⟩

theorem vecMulVec_mulVec_zero {v x : Vec k} (h : vecMulVec v v *ᵥ x = 0) : v ⬝ᵥ x = 0 := by
  have := congrArg (fun y => x ⬝ᵥ y) h
  simp only [vecMulVec_self_mulVec, dotProduct_smul, smul_eq_mul, dotProduct_zero] at this
  rw [dotProduct_comm x v] at this
  nlinarith

variable {f}

theorem newC_normal {N : ℕ} (hf : ∀ t < N, (f t).cov.PosSemidef) (d : ℕ → Vec m) :
    newC f g d N * (∑ t ∈ Finset.range N, (g t).w • ((f t).cov + vecMulVec (f t).mean (f t).mean))
      = ∑ t ∈ Finset.range N, (g t).w • vecMulVec ((g t).val - d t) (f t).mean := by
  refine mul_pinv_mul_of_ker fun x hx => ?_
  have hp : ∀ t ∈ Finset.range N,
      ((g t).w • ((f t).cov + vecMulVec (f t).mean (f t).mean)).PosSemidef := fun t ht =>
    smul_posSemidef (g t).w_nonneg ((hf t (Finset.mem_range.mp ht)).add (vecMulVec_posSemidef _))
  have h0 := sum_mulVec_zero hp hx
  rw [Matrix.sum_mulVec]
  refine Finset.sum_eq_zero fun t ht => ?_
  have h1 := h0 t ht
  rw [smul_add] at h1
  have h2 := (add_mulVec_zero (smul_posSemidef (g t).w_nonneg (hf t (Finset.mem_range.mp ht)))
    (smul_posSemidef (g t).w_nonneg (vecMulVec_posSemidef _)) h1).2
  rw [smul_mulVec, smul_eq_zero] at h2
  rw [smul_mulVec, smul_eq_zero]
  rcases h2 with h2 | h2
  · exact .inl h2
  · right
    have := vecMulVec_mulVec_zero h2
    rw [vecMulVec_mulVec, this]
    simp

/-- The joint covariances of consecutive states are positive semidefinite. -/
def PairPSD (f : ℕ → EmStats n) (T : ℕ) : Prop :=
  ∀ t < T, (fromBlocks (f (t + 1)).cov (f (t + 1)).pair (f (t + 1)).pairᵀ (f t).cov).PosSemidef

theorem pair_mulVec_zero {V' J V : Mat n n} (h : (fromBlocks V' J Jᵀ V).PosSemidef) {x : Vec n}
    (hx : V *ᵥ x = 0) : J *ᵥ x = 0 := by
  have h0 := h.dotProduct_mulVec_zero_iff (Sum.elim 0 x)
  have e : fromBlocks V' J Jᵀ V *ᵥ Sum.elim 0 x = Sum.elim (J *ᵥ x) 0 := by
    rw [fromBlocks_mulVec]
    have e1 : (Sum.elim (0 : Vec n) x) ∘ Sum.inl = 0 := rfl
    have e2 : (Sum.elim (0 : Vec n) x) ∘ Sum.inr = x := rfl
    rw [e1, e2, hx]
    simp
  have := h0.mp (by
    rw [e]
    simp [dotProduct, Fintype.sum_sum_type])
  rw [e] at this
  funext i
  exact congrFun this (.inl i)

theorem PairPSD.cov {T : ℕ} (h : PairPSD f T) {t : ℕ} (ht : t < T) : (f t).cov.PosSemidef := by
  have := (h t ht).submatrix (Sum.inr : Fin n → Fin n ⊕ Fin n)
  exact this

theorem newA_normal {T : ℕ} (hf : PairPSD f T) (b : ℕ → Vec n) :
    newA f b T * (∑ t ∈ Finset.range T, ((f t).cov + vecMulVec (f t).mean (f t).mean))
      = ∑ t ∈ Finset.range T, ((f (t + 1)).pair + vecMulVec (f (t + 1)).mean (f t).mean
        - vecMulVec (b t) (f t).mean) := by
  refine mul_pinv_mul_of_ker fun x hx => ?_
  have hp : ∀ t ∈ Finset.range T,
      ((f t).cov + vecMulVec (f t).mean (f t).mean).PosSemidef := fun t ht =>
    (hf.cov (Finset.mem_range.mp ht)).add (vecMulVec_posSemidef _)
  have h0 := sum_mulVec_zero hp hx
  rw [Matrix.sum_mulVec]
  refine Finset.sum_eq_zero fun t ht => ?_
  obtain ⟨h1, h2⟩ := add_mulVec_zero (hf.cov (Finset.mem_range.mp ht)) (vecMulVec_posSemidef _)
    (h0 t ht)
  have h3 := vecMulVec_mulVec_zero h2
  rw [sub_mulVec, add_mulVec, pair_mulVec_zero (hf t (Finset.mem_range.mp ht)) h1,
    vecMulVec_mulVec, vecMulVec_mulVec, h3]
  simp

/-! ### Comparison of scatter matrices -/

theorem obsTerm_expand (C : ℕ → Mat m n) (d : ℕ → Vec m) (t : ℕ) :
    obsTerm f g C d t = vecMulVec ((g t).val - d t) ((g t).val - d t)
      + (C t * ((f t).cov + vecMulVec (f t).mean (f t).mean) * (C t)ᵀ
        - C t * (vecMulVec ((g t).val - d t) (f t).mean)ᵀ
        - vecMulVec ((g t).val - d t) (f t).mean * (C t)ᵀ) := by
  simp only [obsTerm, transpose_vecMulVec, transpose_add, transpose_sub, transpose_mul,
    transpose_transpose, Matrix.mul_add, Matrix.add_mul, Matrix.mul_sub, Matrix.sub_mul,
    mul_vecMulVec, vecMulVec_mul, vecMul_transpose, vecMulVec_sub, sub_vecMulVec, mulVec_sub,
    Matrix.mul_assoc]
  abel

theorem transTerm_expand (A : ℕ → Mat n n) (b : ℕ → Vec n) (t : ℕ) :
    transTerm f A b t = vecMulVec ((f (t + 1)).mean - b t) ((f (t + 1)).mean - b t)
        + (f (t + 1)).cov
      + (A t * ((f t).cov + vecMulVec (f t).mean (f t).mean) * (A t)ᵀ
        - A t * ((f (t + 1)).pair + vecMulVec (f (t + 1)).mean (f t).mean
          - vecMulVec (b t) (f t).mean)ᵀ
        - ((f (t + 1)).pair + vecMulVec (f (t + 1)).mean (f t).mean
          - vecMulVec (b t) (f t).mean) * (A t)ᵀ) := by
  simp only [transTerm, transpose_vecMulVec, transpose_add, transpose_sub, transpose_mul,
    transpose_transpose, Matrix.mul_add, Matrix.add_mul, Matrix.mul_sub, Matrix.sub_mul,
    mul_vecMulVec, vecMulVec_mul, vecMul_transpose, vecMulVec_sub, sub_vecMulVec, mulVec_sub,
    Matrix.mul_assoc]
  abel

theorem obsScatter_newC {N : ℕ} (hf : ∀ t < N, (f t).cov.PosSemidef) (d : ℕ → Vec m)
    (C' : Mat m n) :
    (obsScatter f g (fun _ => C') d N - obsScatter f g (fun _ => newC f g d N) d N).PosSemidef := by
  have hp : (∑ t ∈ Finset.range N,
      ((g t).w • ((f t).cov + vecMulVec (f t).mean (f t).mean))).PosSemidef :=
    sum_posSemidef _ fun t ht => smul_posSemidef (g t).w_nonneg
      ((hf t (Finset.mem_range.mp ht)).add (vecMulVec_posSemidef _))
  have key : ∀ C : Mat m n, obsScatter f g (fun _ => C) d N
      = ∑ t ∈ Finset.range N, (g t).w • vecMulVec ((g t).val - d t) ((g t).val - d t)
        + (C * (∑ t ∈ Finset.range N, (g t).w • ((f t).cov + vecMulVec (f t).mean (f t).mean)) * Cᵀ
        - C * (∑ t ∈ Finset.range N, (g t).w • vecMulVec ((g t).val - d t) (f t).mean)ᵀ
        - (∑ t ∈ Finset.range N, (g t).w • vecMulVec ((g t).val - d t) (f t).mean) * Cᵀ) := by
    intro C
    rw [obsScatter_eq_sum]
    simp only [obsTerm_expand, smul_add, smul_sub, Finset.sum_add_distrib, Finset.sum_sub_distrib,
      Matrix.mul_sum, Matrix.sum_mul, transpose_sum, transpose_smul, Matrix.mul_smul,
      Matrix.smul_mul, Matrix.mul_add, Matrix.add_mul]
  rw [key, key, add_sub_add_left_eq_sub, regression_sub (symm_of_posSemidef hp)
    (newC_normal g hf d)]
  exact posSemidef_conj' hp _

theorem transScatter_newA {T : ℕ} (hf : PairPSD f T) (b : ℕ → Vec n) (A' : Mat n n) :
    (transScatter f (fun _ => A') b T - transScatter f (fun _ => newA f b T) b T).PosSemidef := by
  have hp : (∑ t ∈ Finset.range T,
      ((f t).cov + vecMulVec (f t).mean (f t).mean)).PosSemidef :=
    sum_posSemidef _ fun t ht =>
      (hf.cov (Finset.mem_range.mp ht)).add (vecMulVec_posSemidef _)
  have key : ∀ A : Mat n n, transScatter f (fun _ => A) b T
      = ∑ t ∈ Finset.range T, (vecMulVec ((f (t + 1)).mean - b t) ((f (t + 1)).mean - b t)
          + (f (t + 1)).cov)
        + (A * (∑ t ∈ Finset.range T, ((f t).cov + vecMulVec (f t).mean (f t).mean)) * Aᵀ
        - A * (∑ t ∈ Finset.range T, ((f (t + 1)).pair + vecMulVec (f (t + 1)).mean (f t).mean
          - vecMulVec (b t) (f t).mean))ᵀ
        - (∑ t ∈ Finset.range T, ((f (t + 1)).pair + vecMulVec (f (t + 1)).mean (f t).mean
          - vecMulVec (b t) (f t).mean)) * Aᵀ) := by
    intro A
    rw [transScatter_eq_sum]
    simp only [transTerm_expand, Finset.sum_add_distrib, Finset.sum_sub_distrib,
      Matrix.mul_sum, Matrix.sum_mul, transpose_sum, transpose_add, transpose_sub,
      Matrix.mul_add, Matrix.add_mul, Matrix.mul_sub, Matrix.sub_mul]
  rw [key, key, add_sub_add_left_eq_sub, regression_sub (symm_of_posSemidef hp)
    (newA_normal hf b)]
  exact posSemidef_conj' hp _

/-- Weighted sum of squares about the weighted mean. -/
theorem center_sub {s : Finset ℕ} (w : ℕ → ℝ) (r : ℕ → Vec k) {c : Vec k}
    (hc : (∑ t ∈ s, w t) • c = ∑ t ∈ s, w t • r t) (c' : Vec k) :
    ∑ t ∈ s, w t • vecMulVec (r t - c') (r t - c') - ∑ t ∈ s, w t • vecMulVec (r t - c) (r t - c)
      = (∑ t ∈ s, w t) • vecMulVec (c' - c) (c' - c) := by
  ext i j
  have hi := congrFun hc i
  have hj := congrFun hc j
  simp only [Pi.smul_apply, smul_eq_mul, Finset.sum_apply] at hi hj
  simp only [Matrix.sub_apply, Matrix.sum_apply, Matrix.smul_apply, vecMulVec_apply, smul_eq_mul,
    Pi.sub_apply]
  rw [← Finset.sum_sub_distrib]
  have e : ∀ t, w t * ((r t i - c' i) * (r t j - c' j)) - w t * ((r t i - c i) * (r t j - c j))
      = (w t * r t i) * (c j - c' j) + (w t * r t j) * (c i - c' i)
        + w t * (c' i * c' j - c i * c j) := by
    intro t; ring
  simp only [e, Finset.sum_add_distrib, ← Finset.sum_mul, ← hi, ← hj]
  ring

theorem obsScatter_newd {N : ℕ} (hN : 0 < obsCount g N) (C : ℕ → Mat m n) (d' : Vec m) :
    (obsScatter f g C (fun _ => d') N
      - obsScatter f g C (fun _ => newd f g C N) N).PosSemidef := by
  have hpos : (0 : ℝ) < obsCount g N := by exact_mod_cast hN
  have hc : (∑ t ∈ Finset.range N, (g t).w) • newd f g C N
      = ∑ t ∈ Finset.range N, (g t).w • ((g t).val - C t *ᵥ (f t).mean) := by
    rw [newd, if_pos hN, ← obsCount_eq, smul_smul, mul_one_div, div_self hpos.ne', one_smul]
  have := center_sub (fun t => (g t).w) (fun t => (g t).val - C t *ᵥ (f t).mean) hc d'
  have e : ∀ d : Vec m, obsScatter f g C (fun _ => d) N
      = ∑ t ∈ Finset.range N, (g t).w • vecMulVec ((g t).val - C t *ᵥ (f t).mean - d)
        ((g t).val - C t *ᵥ (f t).mean - d)
        + ∑ t ∈ Finset.range N, (g t).w • (C t * ((f t).cov * (C t)ᵀ)) := by
    intro d
    simp only [obsScatter, smul_add, Finset.sum_add_distrib]
  rw [e, e, add_sub_add_right_eq_sub, this, ← obsCount_eq]
  exact smul_posSemidef hpos.le (vecMulVec_posSemidef _)

theorem transScatter_newb {T : ℕ} (hT : 0 < T) (A : ℕ → Mat n n) (b' : Vec n) :
    (transScatter f A (fun _ => b') T
      - transScatter f A (fun _ => newb f A T) T).PosSemidef := by
  have hpos : (0 : ℝ) < T := by exact_mod_cast hT
  have hc : (∑ t ∈ Finset.range T, (1 : ℝ)) • newb f A T
      = ∑ t ∈ Finset.range T, (1 : ℝ) • ((f (t + 1)).mean - A t *ᵥ (f t).mean) := by
    simp only [Finset.sum_const, Finset.card_range, nsmul_eq_mul, mul_one, one_smul]
    rw [newb, if_pos hT, smul_smul, mul_one_div, div_self hpos.ne', one_smul]
  have := center_sub (fun _ => 1) (fun t => (f (t + 1)).mean - A t *ᵥ (f t).mean) hc b'
  simp only [one_smul, Finset.sum_const, Finset.card_range, nsmul_eq_mul, mul_one] at this
  have e : ∀ b : Vec n, transScatter f A (fun _ => b) T
      = ∑ t ∈ Finset.range T, vecMulVec ((f (t + 1)).mean - A t *ᵥ (f t).mean - b)
        ((f (t + 1)).mean - A t *ᵥ (f t).mean - b)
        + ∑ t ∈ Finset.range T, (A t * ((f t).cov * (A t)ᵀ) + (f (t + 1)).cov
          - (f (t + 1)).pair * (A t)ᵀ - ((f (t + 1)).pair * (A t)ᵀ)ᵀ) := by
    intro b
    rw [transScatter, ← Finset.sum_add_distrib]
    exact Finset.sum_congr rfl fun t _ => by abel
  rw [e, e, add_sub_add_right_eq_sub, this]
  exact smul_posSemidef hpos.le (vecMulVec_posSemidef _)

/-! ### The eight maximisations -/

theorem obsScatter_of_count_zero {N : ℕ} (h : obsCount g N = 0) (C : ℕ → Mat m n)
    (d : ℕ → Vec m) : obsScatter f g C d N = 0 := by
  have h0 : ∑ t ∈ Finset.range N, (g t).w = 0 := by rw [← obsCount_eq, h]; simp
  have h1 := (Finset.sum_eq_zero_iff_of_nonneg fun t _ => (g t).w_nonneg).mp h0
  exact Finset.sum_eq_zero fun t ht => by rw [h1 t ht, zero_smul]

theorem eObs_newC {N : ℕ} (hf : ∀ t < N, (f t).cov.PosSemidef) (d : ℕ → Vec m) {R : Mat m m}
    (hR : R.PosDef) (C' : Mat m n) :
    eObs f g (fun _ => C') d (fun _ => R) N
      ≤ eObs f g (fun _ => newC f g d N) d (fun _ => R) N := by
  rw [eObs_const, eObs_const]
  exact gsum_mono _ hR (obsScatter_newC g hf d C')

theorem eObs_newR {N : ℕ} (C : ℕ → Mat m n) (d : ℕ → Vec m)
    (hR : (newR f g C d N).PosDef) {R' : Mat m m} (hR' : R'.PosDef) :
    eObs f g C d (fun _ => R') N ≤ eObs f g C d (fun _ => newR f g C d N) N := by
  rw [eObs_const, eObs_const]
  rcases Nat.eq_zero_or_pos (obsCount g N) with h0 | h0
  · rw [obsScatter_of_count_zero g h0, h0]
    simp [gsum]
  · exact gsum_max (by exact_mod_cast h0) hR hR' (by rw [newR, if_pos h0])

theorem eObs_newd {N : ℕ} (C : ℕ → Mat m n) {R : Mat m m} (hR : R.PosDef) (d' : Vec m) :
    eObs f g C (fun _ => d') (fun _ => R) N
      ≤ eObs f g C (fun _ => newd f g C N) (fun _ => R) N := by
  rw [eObs_const, eObs_const]
  rcases Nat.eq_zero_or_pos (obsCount g N) with h0 | h0
  · rw [obsScatter_of_count_zero g h0, obsScatter_of_count_zero g h0]
  · exact gsum_mono _ hR (obsScatter_newd g h0 C d')

theorem eTrans_newA {T : ℕ} (hf : PairPSD f T) (b : ℕ → Vec n) {Q : Mat n n} (hQ : Q.PosDef)
    (A' : Mat n n) :
    eTrans f (fun _ => A') b (fun _ => Q) T
      ≤ eTrans f (fun _ => newA f b T) b (fun _ => Q) T := by
  rw [eTrans_const, eTrans_const]
  exact gsum_mono _ hQ (transScatter_newA hf b A')

theorem eTrans_newQ {T : ℕ} (A : ℕ → Mat n n) (b : ℕ → Vec n) (hQ : (newQ f A b T).PosDef)
    {Q' : Mat n n} (hQ' : Q'.PosDef) :
    eTrans f A b (fun _ => Q') T ≤ eTrans f A b (fun _ => newQ f A b T) T := by
  rcases Nat.eq_zero_or_pos T with rfl | h0
  · simp [eTrans]
  · rw [eTrans_const, eTrans_const]
    exact gsum_max (by exact_mod_cast h0) hQ hQ' (by rw [newQ, if_pos h0])

theorem eTrans_newb {T : ℕ} (A : ℕ → Mat n n) {Q : Mat n n} (hQ : Q.PosDef) (b' : Vec n) :
    eTrans f A (fun _ => b') (fun _ => Q) T
      ≤ eTrans f A (fun _ => newb f A T) (fun _ => Q) T := by
  rcases Nat.eq_zero_or_pos T with rfl | h0
  · simp [eTrans]
  · rw [eTrans_const, eTrans_const]
    exact gsum_mono _ hQ (transScatter_newb h0 A b')

theorem eInit_mu0 {S0 : Mat n n} (hS : S0.PosDef) (mu' : Vec n) :
    expLogN S0 (initTerm f mu') ≤ expLogN S0 (initTerm f (f 0).mean) := by
  rw [← gsum_one, ← gsum_one]
  refine gsum_mono _ hS ?_
  rw [initTerm, initTerm]
  simp only [sub_self, vecMulVec_zero, add_zero, add_sub_cancel_left]
  exact vecMulVec_posSemidef _

theorem eInit_S0 (mu0 : Vec n) (hS : (initTerm f mu0).PosDef) {S' : Mat n n} (hS' : S'.PosDef) :
    expLogN S' (initTerm f mu0) ≤ expLogN (initTerm f mu0) (initTerm f mu0) := by
  rw [← gsum_one, ← gsum_one]
  exact gsum_max one_pos hS hS' (by simp)

end Verif
