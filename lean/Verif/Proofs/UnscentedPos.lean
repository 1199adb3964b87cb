import Verif.Proofs.Unscented

/-!
# The additive unscented filter with nonnegative weights keeps covariances positive definite
-/

open Matrix

namespace Verif

variable {n m k l N q : ℕ}

/-- Both families of weights agree and are nonnegative. -/
structure GoodWeights (s : SigmaPoints N k) : Prop where
  eq : s.wc = s.wm
  nonneg : ∀ i, 0 ≤ s.wm i

theorem goodWeights_sigmaPoints (hn : n ≤ 3) (mu : Vec n) (L : Mat n n) :
    GoodWeights (sigmaPoints mu L none none none) := by
  have hn' : (n : ℝ) ≤ 3 := by exact_mod_cast hn
  constructor
  · funext i
    simp only [sigmaPoints, Option.getD_none]
    refine Fin.cases ?_ (fun j => ?_) i
    · simp only [Fin.cons_zero]; norm_num
    · simp only [Fin.cons_succ]
  · intro i
    simp only [sigmaPoints, Option.getD_none]
    refine Fin.cases ?_ (fun j => ?_) i
    · simp only [Fin.cons_zero]
      apply div_nonneg <;> norm_num <;> linarith
    · simp only [Fin.cons_succ]
      apply div_nonneg <;> norm_num

theorem weighted_posSemidef (D : Mat k N) {w : Fin N → ℝ} (hw : ∀ i, 0 ≤ w i) :
    (D * diagonal w * Dᵀ).PosSemidef := by
  have : (diagonal w : Mat N N).PosSemidef := PosSemidef.diagonal hw
  exact posSemidef_conj' this D

/-- Conditional covariance of positively weighted points with positive definite added noise. -/
theorem cond_posDef {P : Mat n n} {R : Mat m m} (D : Mat n N) (E : Mat m N) {w : Fin N → ℝ}
    (hw : ∀ i, 0 ≤ w i) (hP : P.PosDef) (hD : D * diagonal w * Dᵀ = P) (hR : R.PosDef) :
    (P - D * diagonal w * Eᵀ * pinv (E * diagonal w * Eᵀ + R) * (D * diagonal w * Eᵀ)ᵀ).PosDef := by
  have hY : (E * diagonal w * Eᵀ + R).PosDef :=
    Matrix.PosDef.posSemidef_add (weighted_posSemidef E hw) hR
  have hYs := symm_of_posSemidef hY.posSemidef
  have hu : IsUnit (E * diagonal w * Eᵀ + R).det := (Matrix.isUnit_iff_isUnit_det _).mp hY.isUnit
  rw [pinv_eq_inv hu]
  set Y := E * diagonal w * Eᵀ + R with hYd
  set X := D * diagonal w * Eᵀ with hX
  set K := X * Y⁻¹ with hK
  have hKY : K * Y = X := by rw [hK, Matrix.mul_assoc, nonsing_inv_mul _ hu, Matrix.mul_one]
  have hYK : Y * Kᵀ = Xᵀ := by
    have := congrArg Matrix.transpose hKY
    rwa [transpose_mul, hYs] at this
  have e : P - K * Xᵀ = (D - K * E) * diagonal w * (D - K * E)ᵀ + K * R * Kᵀ := by
    have e1 : (D - K * E) * diagonal w * (D - K * E)ᵀ + K * R * Kᵀ
        = D * diagonal w * Dᵀ - X * Kᵀ - K * Xᵀ + K * (Y * Kᵀ) := by
      have hXt : Xᵀ = E * diagonal w * Dᵀ := by
        rw [hX, transpose_mul, transpose_mul, transpose_transpose, diagonal_transpose,
          Matrix.mul_assoc]
      rw [hXt, hX, hYd, transpose_sub, transpose_mul]
      simp only [Matrix.mul_sub, Matrix.sub_mul, Matrix.mul_add, Matrix.add_mul, Matrix.mul_assoc]
      abel
    have hXK : X * Kᵀ = K * Xᵀ := by
      calc X * Kᵀ = K * Y * Kᵀ := by rw [hKY]
        _ = K * Xᵀ := by rw [Matrix.mul_assoc, hYK]
    rw [e1, hYK, hD, hXK]
    abel
  have q2 : ∀ (x : Vec n), x ⬝ᵥ ((K * R * Kᵀ) *ᵥ x) = (Kᵀ *ᵥ x) ⬝ᵥ (R *ᵥ (Kᵀ *ᵥ x)) := by
    intro x
    rw [← mulVec_mulVec, ← mulVec_mulVec, dotProduct_mulVec, ← mulVec_transpose]
  have h1 := weighted_posSemidef (D - K * E) hw
  have h2 := posSemidef_conj' hR.posSemidef K
  rw [posDef_iff_real]
  refine ⟨by rw [e]; exact symm_of_posSemidef (h1.add h2), fun x hx => ?_⟩
  by_cases h0 : Kᵀ *ᵥ x = 0
  · have hz : (K * Xᵀ) *ᵥ x = 0 := by
      have : K * Xᵀ = K * Y * Kᵀ := by rw [Matrix.mul_assoc K Y, hYK]
      rw [this, ← mulVec_mulVec, h0, mulVec_zero]
    rw [sub_mulVec, hz, sub_zero]
    exact (posDef_iff_real.mp hP).2 x hx
  · rw [e, add_mulVec, dotProduct_add, q2]
    have p1 := (posSemidef_iff_real.mp h1).2 x
    have := (posDef_iff_real.mp hR).2 _ h0
    linarith

theorem ufCorrect_posDef {pts : SigmaPoints N n} {M : Moments n} (h : IsSigma pts M.mean M.cov)
    (hw : GoodWeights pts) (hM : M.cov.PosDef) {R : Mat m m} (hR : R.PosDef) (g : Vec n → Vec m)
    (o : Obs m) : (ufCorrect g M pts o R).cov.PosDef := by
  by_cases ho : o.missing
  · simpa [ufCorrect, unscentedCorrect, ho] using hM
  · have := cond_posDef (diffs pts.points M.mean)
      (diffs (fun i => g (pts.points i)) (points2moments (pts.map g) (some R)).mean)
      hw.nonneg hM h.covm hR
    simp only [ufCorrect, unscentedCorrect, ho, not_false_eq_true, if_true]
    have e1 : (points2moments (pts.map g) (some R)).cov
        = diffs (fun i => g (pts.points i)) (points2moments (pts.map g) (some R)).mean
          * diagonal pts.wm
          * (diffs (fun i => g (pts.points i)) (points2moments (pts.map g) (some R)).mean)ᵀ + R := by
      rw [← hw.eq]; rfl
    have e2 : crossCov pts M.mean (pts.map g) (points2moments (pts.map g) (some R)).mean
        = diffs pts.points M.mean * diagonal pts.wm
          * (diffs (fun i => g (pts.points i)) (points2moments (pts.map g) (some R)).mean)ᵀ := rfl
    rw [e1, e2]
    exact this

theorem moments2points_good (hn : n ≤ 3) (M : Moments n) (hM : M.cov.PosDef) :
    ∃ s, moments2points M = .ok s ∧ IsSigma s M.mean M.cov ∧ GoodWeights s := by
  obtain ⟨L, -, h1, h2⟩ := moments2points_of_posDef M hM none none none default_spread
  exact ⟨_, h1, h2, goodWeights_sigmaPoints hn _ _⟩

theorem predict_posDef {pts : SigmaPoints N n} (hw : GoodWeights pts) (f : Vec n → Vec k)
    {Q : Mat k k} (hQ : Q.PosDef) : (points2moments (pts.map f) (some Q)).cov.PosDef := by
  have e1 : (points2moments (pts.map f) (some Q)).cov
      = diffs (fun i => f (pts.points i)) (points2moments (pts.map f) (some Q)).mean
        * diagonal pts.wm
        * (diffs (fun i => f (pts.points i)) (points2moments (pts.map f) (some Q)).mean)ᵀ + Q := by
    rw [← hw.eq]; rfl
  rw [e1]
  exact Matrix.PosDef.posSemidef_add (weighted_posSemidef _ hw.nonneg) hQ

theorem ufSmooth_posDef {pts : SigmaPoints N n} {M next : Moments n} (h : IsSigma pts M.mean M.cov)
    (hw : GoodWeights pts) (hM : M.cov.PosDef) {Q : Mat n n} (hQ : Q.PosDef) (f : Vec n → Vec n)
    (hn : next.cov.PosDef) :
    (ufSmooth M pts (pts.map f) (points2moments (pts.map f) (some Q)) next).cov.PosDef := by
  set pr := points2moments (pts.map f) (some Q) with hpr
  set D := diffs pts.points M.mean with hD
  set E := diffs (fun i => f (pts.points i)) pr.mean with hE
  have e1 : pr.cov = E * diagonal pts.wm * Eᵀ + Q := by
    rw [← hw.eq]; rfl
  have hprd : pr.cov.PosDef := predict_posDef hw f hQ
  have key := cond_posDef D E hw.nonneg hM h.covm hQ
  rw [← e1] at key
  have ep : ((Matrix.of fun i j => (pts.map f).points j i - pr.mean i : Mat n N)
      * diagonal (pts.map f).wc * (Matrix.of fun j i => pts.points j i - M.mean i : Mat N n))ᵀ
      = D * diagonal pts.wm * Eᵀ := by
    have : ((Matrix.of fun i j => (pts.map f).points j i - pr.mean i : Mat n N)
      * diagonal (pts.map f).wc * (Matrix.of fun j i => pts.points j i - M.mean i : Mat N n))
      = E * diagonal pts.wm * Dᵀ := by rw [← hw.eq]; rfl
    rw [this, transpose_mul, transpose_mul, transpose_transpose, diagonal_transpose,
      Matrix.mul_assoc]
  simp only [ufSmooth]
  rw [ep]
  set X := D * diagonal pts.wm * Eᵀ with hX
  set G := X * pinv pr.cov with hG
  have hu : IsUnit pr.cov.det := (Matrix.isUnit_iff_isUnit_det _).mp hprd.isUnit
  have hGG : G * pr.cov * Gᵀ = G * Xᵀ := by
    have h1 : G * pr.cov = X := by
      rw [hG, pinv_eq_inv hu, Matrix.mul_assoc, nonsing_inv_mul _ hu, Matrix.mul_one]
    have h2 := congrArg Matrix.transpose h1
    rw [transpose_mul, symm_of_posSemidef hprd.posSemidef] at h2
    rw [Matrix.mul_assoc, h2]
  have e : M.cov + G * (next.cov - pr.cov) * Gᵀ = (M.cov - G * Xᵀ) + G * next.cov * Gᵀ := by
    rw [← hGG]
    simp only [Matrix.mul_sub, Matrix.sub_mul]
    abel
  rw [e]
  exact key.add_posSemidef (posSemidef_conj' hn.posSemidef G)

theorem aukfStep_posDef (hn : n ≤ 3) {u : UParams n m} (hQ : u.Q.PosDef) (hR : u.R.PosDef)
    (hS : u.S0.PosDef) {t : ℕ} {prev : Option (Moments n)}
    (hprev : ∀ M ∈ prev, M.cov.PosDef) (o : Obs m) {g : Vec n → Vec m} (hg : u.g.at t = .ok g)
    (hf : prev.isSome → ∃ f, u.f.at (t - 1) = .ok f) :
    ∃ M, aukfStep u t prev o = .ok M ∧ M.cov.PosDef := by
  cases prev with
  | none =>
    obtain ⟨s, h1, h2, h3⟩ := moments2points_good hn ⟨u.mu0, u.S0⟩ hS
    refine ⟨ufCorrect g ⟨u.mu0, u.S0⟩ s o u.R, ?_, ufCorrect_posDef h2 h3 hS hR g o⟩
    simp only [aukfStep, Option.getD_none, h1, bind, Except.bind, hg, pure, Except.pure,
      h2.points2moments]
  | some M =>
    have hM := hprev M rfl
    obtain ⟨f, hf⟩ := hf rfl
    obtain ⟨s, h1, h2, h3⟩ := moments2points_good hn M hM
    have hp := predict_posDef h3 f hQ
    obtain ⟨s', h1', h2', h3'⟩ := moments2points_good hn _ hp
    refine ⟨_, ?_, ufCorrect_posDef h2' h3' hp hR g o⟩
    simp only [aukfStep, Option.getD_some, h1, bind, Except.bind, hg, hf, h1', pure, Except.pure]

theorem aukfLoop_posDef (hn : n ≤ 3) {u : UParams n m} (hQ : u.Q.PosDef) (hR : u.R.PosDef)
    (hS : u.S0.PosDef) (os : List (Obs m)) {t : ℕ} {prev : Option (Moments n)}
    (hprev : ∀ M ∈ prev, M.cov.PosDef)
    (hg : ∀ i < os.length, ∃ g, u.g.at (t + i) = .ok g)
    (hf : ∀ i < os.length, (prev.isSome ∨ 0 < i) → ∃ f, u.f.at (t + i - 1) = .ok f) :
    ∃ l, runLoop (aukfStep u) t prev os = .ok l ∧ ∀ M ∈ l, M.cov.PosDef := by
  induction os generalizing t prev with
  | nil => exact ⟨[], rfl, by simp⟩
  | cons o os ih =>
    obtain ⟨g, hg0⟩ := hg 0 (by simp)
    obtain ⟨M, h1, h2⟩ := aukfStep_posDef hn hQ hR hS hprev o hg0
      (fun h => hf 0 (by simp) (Or.inl h))
    obtain ⟨l, h3, h4⟩ := ih (t := t + 1) (prev := some M) (by simpa using h2)
      (fun i hi => by
        have := hg (i + 1) (by simpa using hi)
        rwa [← add_assoc, add_right_comm] at this)
      (fun i hi _ => by
        have := hf (i + 1) (by simpa using hi) (Or.inr (by omega))
        rwa [← add_assoc, add_right_comm] at this)
    refine ⟨M :: l, ?_, by simpa using ⟨h2, h4⟩⟩
    have h1' : aukfStep u t prev o = .ok M := h1
    rw [runLoop, h1']
    simp only [bind, Except.bind, h3, pure, Except.pure]

theorem backLoop_posDef (hn : n ≤ 3) {u : UParams n m} (hQ : u.Q.PosDef) (l : List (Moments n))
    (M : Moments n) (t : ℕ) (hM : M.cov.PosDef) (hl : ∀ M ∈ l, M.cov.PosDef)
    (hf : ∀ i < l.length, ∃ f, u.f.at (t + i) = .ok f) :
    ∃ r, backLoop (aukfSmoothStep u) t M l = .ok r ∧ r.1.cov.PosDef ∧ ∀ M ∈ r.2, M.cov.PosDef := by
  induction l generalizing M t with
  | nil => exact ⟨(M, []), rfl, hM, by simp⟩
  | cons M' l ih =>
    obtain ⟨r, h1, h2, h3⟩ := ih M' (t + 1) (hl M' (by simp)) (fun M h => hl M (by simp [h]))
      (fun i hi => by
        have := hf (i + 1) (by simpa using hi)
        rwa [← add_assoc, add_right_comm] at this)
    obtain ⟨f, hf0⟩ := hf 0 (by simp)
    simp only [add_zero] at hf0
    obtain ⟨s, g1, g2, g3⟩ := moments2points_good hn M hM
    refine ⟨(ufSmooth M s (s.map f) (points2moments (s.map f) (some u.Q)) r.1, r.1 :: r.2), ?_,
      ufSmooth_posDef g2 g3 hM hQ f h2, by simpa using ⟨h2, h3⟩⟩
    rw [backLoop, h1]
    simp only [bind, Except.bind, aukfSmoothStep, g1, hf0, pure, Except.pure]

end Verif
