import Verif.Model.Unscented
import Verif.Linalg.Gain

/-!
# Sigma points and moments
-/

open Matrix

namespace Verif

variable {n m k l N q : ℕ}

/-- Differences of points from a vector, one per column. -/
def diffs (p : Fin N → Vec k) (mu : Vec k) : Mat k N := Matrix.of fun i j => p j i - mu i

/-- Weighted points with mean `mu` and covariance `S`, for both families of weights. -/
structure IsSigma (s : SigmaPoints N k) (mu : Vec k) (S : Mat k k) : Prop where
  sum : ∑ i, s.wm i = 1
  mean : (Matrix.of s.points)ᵀ *ᵥ s.wm = mu
  covc : diffs s.points mu * diagonal s.wc * (diffs s.points mu)ᵀ = S
  covm : diffs s.points mu * diagonal s.wm * (diffs s.points mu)ᵀ = S

theorem diffs_sigmaRows_mul (mu : Vec n) (L : Mat n n) {c : ℝ} (hc : 0 < c)
    (w : Fin (n + n + 1) → ℝ) (hw : ∀ j : Fin (n + n), w j.succ = 0.5 / c) :
    diffs (sigmaRows mu L c) mu * diagonal w * (diffs (sigmaRows mu L c) mu)ᵀ = L * Lᵀ := by
  ext i j
  have hs : Real.sqrt c * Real.sqrt c = c := Real.mul_self_sqrt hc.le
  have hc' : c ≠ 0 := hc.ne'
  rw [Matrix.mul_apply]
  simp only [mul_diagonal, transpose_apply, diffs, of_apply]
  rw [Fin.sum_univ_succ, Fin.sum_univ_add, Matrix.mul_apply]
  simp only [sigmaRows, Fin.cons_zero, Fin.cons_succ, hw, sub_self, zero_mul, zero_add,
    Fin.append_left, Fin.append_right]
  rw [← Finset.sum_add_distrib]
  apply Finset.sum_congr rfl
  intro x _
  have : (L i x * √c) * (0.5 / c) * (L j x * √c) = 0.5 * (L i x * L j x) := by
    have : (L i x * √c) * (0.5 / c) * (L j x * √c) = 0.5 * (L i x * L j x) * ((√c * √c) / c) := by
      ring
    rw [this, hs, div_self hc', mul_one]
  calc _ = (L i x * √c) * (0.5 / c) * (L j x * √c) + (L i x * √c) * (0.5 / c) * (L j x * √c) := by
        ring
    _ = L i x * L j x := by rw [this]; ring

/-- `c` of `moments2points`. -/
theorem spread_eq (alpha kappa : Option ℝ) :
    ((n : ℝ) + ((alpha.getD 1.0 * alpha.getD 1.0) * (n + kappa.getD (3.0 - n)) - n))
      = alpha.getD 1.0 ^ 2 * (n + kappa.getD (3.0 - n)) := by ring

theorem isSigma_sigmaPoints (mu : Vec n) (L : Mat n n) (alpha beta kappa : Option ℝ)
    (hc : 0 < alpha.getD 1.0 ^ 2 * (n + kappa.getD (3.0 - n))) :
    IsSigma (sigmaPoints mu L alpha beta kappa) mu (L * Lᵀ) := by
  set c := alpha.getD 1.0 ^ 2 * ((n : ℝ) + kappa.getD (3.0 - n)) with hcd
  have e : (n : ℝ) + ((alpha.getD 1.0 * alpha.getD 1.0) * (n + kappa.getD (3.0 - n)) - n) = c :=
    spread_eq alpha kappa
  have hl : (alpha.getD 1.0 * alpha.getD 1.0) * (n + kappa.getD (3.0 - n)) - n = c - n := by
    rw [← e]; ring
  have hc' : c ≠ 0 := hc.ne'
  have hsum : ∑ i, (sigmaPoints mu L alpha beta kappa).wm i = 1 := by
    simp only [sigmaPoints]
    rw [e, hl]
    rw [Fin.sum_univ_succ]
    simp only [Fin.cons_zero, Fin.cons_succ, Finset.sum_const, Finset.card_univ, Fintype.card_fin,
      nsmul_eq_mul]
    field_simp
    push_cast
    ring
  refine ⟨hsum, ?_, ?_, ?_⟩
  · funext i
    have : ∀ j, (sigmaPoints mu L alpha beta kappa).points j i
        = mu i + diffs (sigmaRows mu L c) mu i j := by
      intro j
      simp only [sigmaPoints, diffs, of_apply]
      rw [e]; ring
    simp only [mulVec, dotProduct, transpose_apply, of_apply, this, add_mul, Finset.sum_add_distrib]
    rw [← Finset.mul_sum, hsum, mul_one]
    have h0 : ∑ x, diffs (sigmaRows mu L c) mu i x * (sigmaPoints mu L alpha beta kappa).wm x = 0 := by
      simp only [sigmaPoints, diffs, of_apply]
      rw [Fin.sum_univ_succ, Fin.sum_univ_add]
      simp only [sigmaRows, Fin.cons_zero, Fin.cons_succ, sub_self, zero_mul, zero_add,
        Fin.append_left, Fin.append_right]
      rw [← Finset.sum_add_distrib]
      apply Finset.sum_eq_zero
      intro x _
      ring
    rw [h0, add_zero]
  · have := diffs_sigmaRows_mul mu L hc (sigmaPoints mu L alpha beta kappa).wc fun j => by
      simp only [sigmaPoints, Fin.cons_succ]; rw [e]
    simpa only [sigmaPoints, e] using this
  · have := diffs_sigmaRows_mul mu L hc (sigmaPoints mu L alpha beta kappa).wm fun j => by
      simp only [sigmaPoints, Fin.cons_succ]; rw [e]
    simpa only [sigmaPoints, e] using this

theorem moments2points_of_posDef (M : Moments n) (hM : M.cov.PosDef) (alpha beta kappa : Option ℝ)
    (hc : 0 < alpha.getD 1.0 ^ 2 * (n + kappa.getD (3.0 - n))) :
    ∃ L, IsCholesky M.cov L ∧
      moments2points M alpha beta kappa = .ok (sigmaPoints M.mean L alpha beta kappa) ∧
      IsSigma (sigmaPoints M.mean L alpha beta kappa) M.mean M.cov := by
  obtain ⟨L, h1, h2⟩ := cholesky_of_posDef hM
  refine ⟨L, h2, ?_, ?_⟩
  · rw [moments2points, cholUpperT, symm_of_posSemidef hM.posSemidef, h1]
    rfl
  · have := isSigma_sigmaPoints M.mean L alpha beta kappa hc
    rwa [h2.mul_transpose] at this

theorem default_spread : (0 : ℝ) < (none : Option ℝ).getD 1.0 ^ 2 *
    (n + (none : Option ℝ).getD (3.0 - n)) := by
  simp only [Option.getD_none]; norm_num

theorem moments2points_default (M : Moments n) (hM : M.cov.PosDef) :
    ∃ s, moments2points M = .ok s ∧ IsSigma s M.mean M.cov := by
  obtain ⟨L, -, h1, h2⟩ := moments2points_of_posDef M hM none none none default_spread
  exact ⟨_, h1, h2⟩

theorem moments2points_error {M : Moments n} (hs : M.covᵀ = M.cov) (hM : ¬ M.cov.PosDef)
    (alpha beta kappa : Option ℝ) :
    moments2points M alpha beta kappa = .error .linAlgError := by
  rw [moments2points, cholUpperT, hs, cholesky_of_not_posDef hs hM]
  rfl

theorem points2moments_mean (s : SigmaPoints N k) (noise : Option (Mat k k)) :
    (points2moments s noise).mean = (Matrix.of s.points)ᵀ *ᵥ s.wm := by
  cases noise <;> rfl

theorem IsSigma.points2moments {s : SigmaPoints N k} {mu : Vec k} {S : Mat k k}
    (h : IsSigma s mu S) : Verif.points2moments s none = ⟨mu, S⟩ := by
  have hm := h.mean
  have hc := h.covc
  simp only [Verif.points2moments]
  rw [hm]
  exact congrArg (Moments.mk mu) hc

theorem IsSigma.points2moments_some {s : SigmaPoints N k} {mu : Vec k} {S : Mat k k}
    (h : IsSigma s mu S) (Q : Mat k k) : Verif.points2moments s (some Q) = ⟨mu, S + Q⟩ := by
  have hm := h.mean
  have hc := h.covc
  simp only [Verif.points2moments]
  rw [hm]
  exact congrArg (fun A => Moments.mk mu (A + Q)) hc

theorem mean_affine (s : SigmaPoints N k) (hs : ∑ i, s.wm i = 1) (M : Mat l k) (v : Vec l)
    {F : Vec k → Vec l} (hF : ∀ x, F x = M *ᵥ x + v) :
    (Matrix.of (s.map F).points)ᵀ *ᵥ (s.map F).wm = M *ᵥ ((Matrix.of s.points)ᵀ *ᵥ s.wm) + v := by
  funext i
  simp only [SigmaPoints.map, hF, mulVec, dotProduct, transpose_apply, of_apply, Pi.add_apply,
    add_mul, Finset.sum_add_distrib]
  rw [← Finset.mul_sum, hs, mul_one]
  congr 1
  simp only [Finset.sum_mul, Finset.mul_sum]
  rw [Finset.sum_comm]
  simp only [mul_assoc]

theorem diffs_affine (p : Fin N → Vec k) (mu : Vec k) (M : Mat l k) (v : Vec l)
    {F : Vec k → Vec l} (hF : ∀ x, F x = M *ᵥ x + v) :
    diffs (fun i => F (p i)) (M *ᵥ mu + v) = M * diffs p mu := by
  ext i j
  simp only [diffs, of_apply, hF, Pi.add_apply, mulVec, dotProduct, Matrix.mul_apply, mul_sub,
    Finset.sum_sub_distrib]
  ring

theorem IsSigma.map {s : SigmaPoints N k} {mu : Vec k} {S : Mat k k} (h : IsSigma s mu S)
    (M : Mat l k) (v : Vec l) {F : Vec k → Vec l} (hF : ∀ x, F x = M *ᵥ x + v) :
    IsSigma (s.map F) (M *ᵥ mu + v) (M * S * Mᵀ) := by
  refine ⟨h.sum, ?_, ?_, ?_⟩
  · rw [mean_affine s h.sum M v hF, h.mean]
  · simp only [SigmaPoints.map]
    rw [diffs_affine s.points mu M v hF, ← h.covc, transpose_mul]
    simp only [Matrix.mul_assoc]
  · simp only [SigmaPoints.map]
    rw [diffs_affine s.points mu M v hF, ← h.covm, transpose_mul]
    simp only [Matrix.mul_assoc]

theorem IsSigma.crossCov {s : SigmaPoints N k} {mu : Vec k} {S : Mat k k} (h : IsSigma s mu S)
    (M : Mat n k) (v : Vec n) {F : Vec k → Vec n} (hF : ∀ x, F x = M *ᵥ x + v)
    (M' : Mat m k) (v' : Vec m) {G : Vec k → Vec m} (hG : ∀ x, G x = M' *ᵥ x + v') :
    Verif.crossCov (s.map F) (M *ᵥ mu + v) (s.map G) (M' *ᵥ mu + v') = M * S * M'ᵀ := by
  have e : Verif.crossCov (s.map F) (M *ᵥ mu + v) (s.map G) (M' *ᵥ mu + v')
      = diffs (fun i => F (s.points i)) (M *ᵥ mu + v) * diagonal s.wm
        * (diffs (fun i => G (s.points i)) (M' *ᵥ mu + v'))ᵀ := rfl
  rw [e, diffs_affine s.points mu M v hF, diffs_affine s.points mu M' v' hG, ← h.covm,
    transpose_mul]
  simp only [Matrix.mul_assoc]

theorem SigmaPoints.map_id (s : SigmaPoints N k) : s.map (fun x => x) = s := rfl

theorem SigmaPoints.map_map₂ (s : SigmaPoints N k) (F : Vec k → Vec n) (G : Vec k → Vec q)
    (h : Vec n → Vec q → Vec l) :
    (s.map F).map₂ (s.map G) h = s.map fun x => h (F x) (G x) := rfl

/-- The pair matrix of the smoothers. -/
theorem IsSigma.pair {s : SigmaPoints N k} {mu : Vec k} {S : Mat k k} (h : IsSigma s mu S)
    (M : Mat n k) (v : Vec n) {F : Vec k → Vec n} (hF : ∀ x, F x = M *ᵥ x + v)
    (M' : Mat m k) (v' : Vec m) {G : Vec k → Vec m} (hG : ∀ x, G x = M' *ᵥ x + v') :
    (Matrix.of fun i j => (s.map F).points j i - (M *ᵥ mu + v) i : Mat n N)
      * diagonal (s.map F).wc
      * (Matrix.of fun j i => (s.map G).points j i - (M' *ᵥ mu + v') i : Mat N m)
      = M * S * M'ᵀ := by
  have e : (Matrix.of fun i j => (s.map F).points j i - (M *ᵥ mu + v) i : Mat n N)
      * diagonal (s.map F).wc
      * (Matrix.of fun j i => (s.map G).points j i - (M' *ᵥ mu + v') i : Mat N m)
      = diffs (fun i => F (s.points i)) (M *ᵥ mu + v) * diagonal s.wc
        * (diffs (fun i => G (s.points i)) (M' *ᵥ mu + v'))ᵀ := rfl
  rw [e, diffs_affine s.points mu M v hF, diffs_affine s.points mu M' v' hG, ← h.covc,
    transpose_mul]
  simp only [Matrix.mul_assoc]

/-! ### Positive definite updates -/

theorem posDef_conj_add {P : Mat n n} {Q : Mat m m} (hP : P.PosSemidef) (hQ : Q.PosDef)
    (A : Mat m n) : (A * P * Aᵀ + Q).PosDef := Matrix.PosDef.posSemidef_add (posSemidef_conj' hP A) hQ

theorem updated_posDef {P : Mat n n} {R : Mat m m} (hP : P.PosDef) (hR : R.PosDef) (C : Mat m n) :
    (P - gain P R C * C * P).PosDef := by
  rw [updated_eq C hP.posSemidef hR.posSemidef]
  set G := gain P R C
  rw [posDef_iff_real]
  have h1 := posSemidef_conj' hP.posSemidef (1 - G * C)
  have h2 := posSemidef_conj' hR.posSemidef G
  refine ⟨symm_of_posSemidef (h1.add h2), fun x hx => ?_⟩
  have q1 : x ⬝ᵥ (((1 - G * C) * P * (1 - G * C)ᵀ) *ᵥ x)
      = ((1 - G * C)ᵀ *ᵥ x) ⬝ᵥ (P *ᵥ ((1 - G * C)ᵀ *ᵥ x)) := by
    rw [← mulVec_mulVec, ← mulVec_mulVec, dotProduct_mulVec, ← mulVec_transpose]
  have q2 : x ⬝ᵥ ((G * R * Gᵀ) *ᵥ x) = (Gᵀ *ᵥ x) ⬝ᵥ (R *ᵥ (Gᵀ *ᵥ x)) := by
    rw [← mulVec_mulVec, ← mulVec_mulVec, dotProduct_mulVec, ← mulVec_transpose]
  rw [add_mulVec, dotProduct_add, q1, q2]
  have p1 := (posSemidef_iff_real.mp hP.posSemidef).2 ((1 - G * C)ᵀ *ᵥ x)
  have p2 := (posSemidef_iff_real.mp hR.posSemidef).2 (Gᵀ *ᵥ x)
  by_cases h0 : Gᵀ *ᵥ x = 0
  · have : (1 - G * C)ᵀ *ᵥ x = x := by
      rw [transpose_sub, transpose_one, transpose_mul, sub_mulVec, one_mulVec, ← mulVec_mulVec, h0,
        mulVec_zero, sub_zero]
    rw [this] at p1 ⊢
    have := (posDef_iff_real.mp hP).2 x hx
    linarith
  · have := (posDef_iff_real.mp hR).2 _ h0
    linarith

end Verif
