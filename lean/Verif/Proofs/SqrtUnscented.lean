import Verif.Proofs.Cholupdate
import Verif.Proofs.UnscentedPos

/-!
# The square-root unscented filter and the additive unscented filter
-/

open Matrix

namespace Verif

variable {n m k l N : ℕ}

/-! ### QR -/

theorem qrSquare_spec (qr : QR) {L : ℕ} (A : Mat N L) (h : L ≤ N) :
    ∃ R, qrSquare qr A = .ok R ∧ UpperTri R ∧ Rᵀ * R = Aᵀ * A := by
  have h' : N ≥ L := h
  refine ⟨(qr.r N L A).submatrix (Fin.castLE h) id, by simp only [qrSquare, h', dif_pos], ?_, ?_⟩
  · intro i j hij
    exact qr.upper N L A (Fin.castLE h i) j hij
  · rw [← qr.gram N L A h]
    ext i j
    simp only [Matrix.mul_apply, transpose_apply, submatrix_apply, id_eq]
    obtain ⟨d, rfl⟩ := Nat.exists_eq_add_of_le h
    rw [Fin.sum_univ_add]
    have : ∑ x : Fin d, qr.r (L + d) L A (Fin.natAdd L x) i * qr.r (L + d) L A (Fin.natAdd L x) j
        = 0 := by
      apply Finset.sum_eq_zero
      intro x _
      rw [qr.upper (L + d) L A (Fin.natAdd L x) i (by simp; omega), zero_mul]
    rw [this, add_zero]
    rfl

theorem hstack_gram (X : Mat k N) (Y : Mat k l) : hstack X Y * (hstack X Y)ᵀ = X * Xᵀ + Y * Yᵀ := by
  ext i j
  simp only [hstack, Matrix.mul_apply, transpose_apply, submatrix_apply, id_eq, Matrix.add_apply]
  rw [Fin.sum_univ_add]
  simp [fromCols]

/-- Points whose deviation from the mean has a nonnegative weight or is zero. -/
def FinePoints (s : SigmaPoints N k) : Prop :=
  ∀ j, 0 ≤ s.wc j ∨ s.points j = (Matrix.of s.points)ᵀ *ᵥ s.wm

theorem qrPoints_gram {s : SigmaPoints N k} (h : FinePoints s) :
    qrPoints s ((Matrix.of s.points)ᵀ *ᵥ s.wm) * (qrPoints s ((Matrix.of s.points)ᵀ *ᵥ s.wm))ᵀ
      = (points2moments s none).cov := by
  ext i j
  simp only [points2moments]
  rw [Matrix.mul_apply, Matrix.mul_apply]
  simp only [mul_diagonal, transpose_apply, qrPoints, of_apply]
  apply Finset.sum_congr rfl
  intro x _
  rcases h x with hx | hx
  · have h1 : Real.sign (s.wc x) * √|s.wc x| * (Real.sign (s.wc x) * √|s.wc x|) = s.wc x := by
      rcases hx.lt_or_eq with h0 | h0
      · rw [Real.sign_of_pos h0, abs_of_pos h0, one_mul, Real.mul_self_sqrt hx]
      · rw [← h0]; simp
    linear_combination ((s.points x i - ((Matrix.of s.points)ᵀ *ᵥ s.wm) i)
      * (s.points x j - ((Matrix.of s.points)ᵀ *ᵥ s.wm) j)) * h1
  · have : ∀ i, s.points x i - ((Matrix.of s.points)ᵀ *ᵥ s.wm) i = 0 := fun i => by
      rw [hx]; exact sub_self _
    simp [this]

theorem sqPoints2moments_some (qr : QR) {s : SigmaPoints N k} (h : FinePoints s) (S2 : Mat k k) :
    ∃ R, sqPoints2moments qr s (some S2) = .ok ⟨(points2moments s none).mean, R⟩ ∧ UpperTri R ∧
      Rᵀ * R = (points2moments s (some (S2 * S2ᵀ))).cov := by
  obtain ⟨R, h1, h2, h3⟩ := qrSquare_spec qr
    (hstack (qrPoints s ((Matrix.of s.points)ᵀ *ᵥ s.wm)) S2)ᵀ (by omega)
  refine ⟨R, ?_, h2, ?_⟩
  · simp only [sqPoints2moments, h1, bind, Except.bind, pure, Except.pure]
    rfl
  · rw [h3, transpose_transpose, hstack_gram, qrPoints_gram h]
    rfl

theorem sqPoints2moments_none (qr : QR) {s : SigmaPoints N k} (h : FinePoints s) (hN : k ≤ N) :
    ∃ R, sqPoints2moments qr s none = .ok ⟨(points2moments s none).mean, R⟩ ∧ UpperTri R ∧
      Rᵀ * R = (points2moments s none).cov := by
  obtain ⟨R, h1, h2, h3⟩ := qrSquare_spec qr
    (qrPoints s ((Matrix.of s.points)ᵀ *ᵥ s.wm))ᵀ hN
  refine ⟨R, ?_, h2, ?_⟩
  · simp only [sqPoints2moments, h1, bind, Except.bind, pure, Except.pure]
    rfl
  · rw [h3, transpose_transpose, qrPoints_gram h]

/-! ### Signs of the factors do not matter -/

/-- Same weights and same weighted sums of all functions of the points. -/
structure PtsEq (s s' : SigmaPoints N k) : Prop where
  wm : s.wm = s'.wm
  wc : s.wc = s'.wc
  sumM : ∀ F : Vec k → ℝ, ∑ i, s.wm i * F (s.points i) = ∑ i, s'.wm i * F (s'.points i)
  sumC : ∀ F : Vec k → ℝ, ∑ i, s.wc i * F (s.points i) = ∑ i, s'.wc i * F (s'.points i)

theorem PtsEq.mean {s s' : SigmaPoints N k} (h : PtsEq s s') (f : Vec k → Vec l) :
    (Matrix.of (s.map f).points)ᵀ *ᵥ (s.map f).wm
      = (Matrix.of (s'.map f).points)ᵀ *ᵥ (s'.map f).wm := by
  funext i
  have := h.sumM fun x => f x i
  simpa [mulVec, dotProduct, SigmaPoints.map, mul_comm] using this

theorem PtsEq.points2moments {s s' : SigmaPoints N k} (h : PtsEq s s') (f : Vec k → Vec l)
    (noise : Option (Mat l l)) :
    Verif.points2moments (s.map f) noise = Verif.points2moments (s'.map f) noise := by
  have hm := h.mean f
  have hc : ∀ mu : Vec l, (Matrix.of fun i j => (s.map f).points j i - mu i : Mat l N)
        * diagonal (s.map f).wc * (Matrix.of fun i j => (s.map f).points j i - mu i : Mat l N)ᵀ
      = (Matrix.of fun i j => (s'.map f).points j i - mu i : Mat l N)
        * diagonal (s'.map f).wc * (Matrix.of fun i j => (s'.map f).points j i - mu i : Mat l N)ᵀ := by
    intro mu
    ext i j
    rw [Matrix.mul_apply, Matrix.mul_apply]
    simp only [mul_diagonal, transpose_apply, of_apply, SigmaPoints.map]
    have := h.sumC fun x => (f x i - mu i) * (f x j - mu j)
    calc _ = ∑ x, s.wc x * ((f (s.points x) i - mu i) * (f (s.points x) j - mu j)) :=
          Finset.sum_congr rfl fun _ _ => by ring
      _ = _ := this
      _ = _ := Finset.sum_congr rfl fun _ _ => by ring
  simp only [Verif.points2moments]
  rw [hm, hc]

theorem PtsEq.crossCov {s s' : SigmaPoints N n} (h : PtsEq s s') (g : Vec n → Vec m) (mu : Vec n)
    (nu : Vec m) : Verif.crossCov s mu (s.map g) nu = Verif.crossCov s' mu (s'.map g) nu := by
  ext i j
  simp only [Verif.crossCov]
  rw [Matrix.mul_apply, Matrix.mul_apply]
  simp only [mul_diagonal, of_apply, SigmaPoints.map]
  have := h.sumM fun x => (x i - mu i) * (g x j - nu j)
  calc _ = ∑ x, s.wm x * ((s.points x i - mu i) * (g (s.points x) j - nu j)) :=
        Finset.sum_congr rfl fun _ _ => by ring
    _ = _ := this
    _ = _ := Finset.sum_congr rfl fun _ _ => by ring

theorem PtsEq.pairCov {s s' : SigmaPoints N n} (h : PtsEq s s') (f : Vec n → Vec n) (mu nu : Vec n) :
    Verif.pairCov (s.map f) s mu nu = Verif.pairCov (s'.map f) s' mu nu := by
  ext i j
  simp only [Verif.pairCov, transpose_apply]
  rw [Matrix.mul_apply, Matrix.mul_apply]
  simp only [mul_diagonal, of_apply, SigmaPoints.map]
  have := h.sumC fun x => (f x j - mu j) * (x i - nu i)
  calc _ = ∑ x, s.wc x * ((f (s.points x) j - mu j) * (s.points x i - nu i)) :=
        Finset.sum_congr rfl fun _ _ => by ring
    _ = _ := this
    _ = _ := Finset.sum_congr rfl fun _ _ => by ring

theorem sum_sigmaRows {mu : Vec n} {L L' : Mat n n} {ε : Fin n → ℝ} (hε : ∀ j, ε j = 1 ∨ ε j = -1)
    (h : ∀ i j, L' i j = ε j * L i j) (c b : ℝ) {w : Fin (n + n + 1) → ℝ}
    (hw : ∀ j : Fin (n + n), w j.succ = b) (F : Vec n → ℝ) :
    ∑ i, w i * F (sigmaRows mu L c i) = ∑ i, w i * F (sigmaRows mu L' c i) := by
  rw [Fin.sum_univ_succ, Fin.sum_univ_add, Fin.sum_univ_succ, Fin.sum_univ_add]
  simp only [sigmaRows, Fin.cons_zero, Fin.cons_succ, hw, Fin.append_left, Fin.append_right]
  congr 1
  rw [← Finset.sum_add_distrib, ← Finset.sum_add_distrib]
  apply Finset.sum_congr rfl
  intro j _
  rcases hε j with e | e
  · simp only [h, e, one_mul]
  · simp only [h, e, neg_mul, one_mul, sub_neg_eq_add]
    rw [add_comm]
    rfl

theorem ptsEq_sigmaPoints {mu : Vec n} {L L' : Mat n n} {ε : Fin n → ℝ}
    (hε : ∀ j, ε j = 1 ∨ ε j = -1) (h : ∀ i j, L' i j = ε j * L i j) (alpha beta kappa : Option ℝ) :
    PtsEq (sigmaPoints mu L alpha beta kappa) (sigmaPoints mu L' alpha beta kappa) := by
  refine ⟨rfl, rfl, fun F => ?_, fun F => ?_⟩
  · exact sum_sigmaRows hε h _ _ (fun j => Fin.cons_succ _ _ _) F
  · exact sum_sigmaRows hε h _ _ (fun j => Fin.cons_succ _ _ _) F

/-- A triangular factor is the Cholesky factor up to signs of columns. -/
theorem UFactor.signs {U A L : Mat n n} (hU : UFactor U) (hg : Uᵀ * U = A) (hL : IsCholesky A L) :
    ∃ ε : Fin n → ℝ, (∀ j, ε j = 1 ∨ ε j = -1) ∧ ∀ i j, Uᵀ i j = ε j * L i j := by
  set ε : Fin n → ℝ := fun j => if 0 < U j j then 1 else -1 with hε
  have h1 : ∀ j, ε j = 1 ∨ ε j = -1 := fun j => by
    simp only [hε]; split <;> simp
  have h2 : ∀ j, ε j * ε j = 1 := fun j => by rcases h1 j with h | h <;> rw [h] <;> norm_num
  have hL' : IsCholesky A (Matrix.of fun i j => ε j * U j i) := by
    refine ⟨fun i j hij => ?_, fun i => ?_, ?_⟩
    · simp [hU.upper j i hij]
    · simp only [of_apply, hε]
      split
      · rename_i h; simpa using h
      · rename_i h
        have := lt_of_le_of_ne (not_lt.mp h) (hU.diag i)
        linarith
    · rw [← hg]
      ext i j
      simp only [Matrix.mul_apply, transpose_apply, of_apply]
      apply Finset.sum_congr rfl
      intro x _
      linear_combination (U x i * U x j) * h2 x
  have e := hL.unique hL'
  refine ⟨ε, h1, fun i j => ?_⟩
  rw [e]
  simp only [of_apply, transpose_apply]
  linear_combination (-(U j i)) * h2 j

/-! ### One row of either filter -/

/-- A row with a triangular square root represents a row with a covariance. -/
structure Root (M M2 : Moments n) : Prop where
  mean : M2.mean = M.mean
  factor : UFactor M2.cov
  gram : M2.covᵀ * M2.cov = M.cov

theorem UFactor.posDef {A : Mat n n} (hA : UFactor A) : (Aᵀ * A).PosDef := by
  have hi := hA.upper.isUnit hA.diag
  rw [posDef_iff_real]
  refine ⟨by rw [transpose_mul, transpose_transpose], fun x hx => ?_⟩
  rw [← mulVec_mulVec, dotProduct_mulVec, vecMul_transpose]
  have h0 : A *ᵥ x ≠ 0 := fun h0 => hx (by
    have := congrArg (A⁻¹ *ᵥ ·) h0
    simpa [mulVec_mulVec, nonsing_inv_mul _ hi] using this)
  have : 0 ≤ (A *ᵥ x) ⬝ᵥ (A *ᵥ x) := Finset.sum_nonneg fun i _ => mul_self_nonneg _
  exact lt_of_le_of_ne this fun h => h0 (dotProduct_self_eq_zero.mp h.symm)

theorem UpperTri.factor_of_posDef {U : Mat n n} (hU : UpperTri U) (h : (Uᵀ * U).PosDef) :
    UFactor U := by
  refine ⟨hU, fun i => ?_⟩
  have h1 : (Uᵀ * U).det ≠ 0 := h.det_pos.ne'
  rw [det_mul, det_transpose, hU.det] at h1
  have := left_ne_zero_of_mul h1
  exact Finset.prod_ne_zero_iff.mp this i (Finset.mem_univ i)

theorem Root.posDef {M M2 : Moments n} (h : Root M M2) : M.cov.PosDef := by
  rw [← h.gram]; exact h.factor.posDef

theorem Root.unroot {M M2 : Moments n} (h : Root M M2) : M2.unroot = M := by
  obtain ⟨h1, -, h3⟩ := h
  cases M
  simp only [Moments.unroot, reconstructU, h1, h3]

theorem Root.points {M M2 : Moments n} (h : Root M M2) :
    ∃ L, L * Lᵀ = M.cov ∧ moments2points M = .ok (sigmaPoints M.mean L none none none) ∧
      PtsEq (sigmaPoints M.mean L none none none) (sqMoments2points M2) := by
  obtain ⟨L, h1, h2, -⟩ := moments2points_of_posDef M h.posDef none none none default_spread
  obtain ⟨ε, h3, h4⟩ := h.factor.signs h.gram h1
  refine ⟨L, h1.mul_transpose, h2, ?_⟩
  rw [sqMoments2points, h.mean]
  exact ptsEq_sigmaPoints h3 h4 none none none

theorem cholUpper_spec {A : Mat n n} (hA : A.PosDef) :
    ∃ U, cholUpper A = .ok U ∧ UFactor U ∧ (∀ i, 0 < U i i) ∧ Uᵀ * U = A ∧ IsCholesky A Uᵀ := by
  obtain ⟨L, h1, h2⟩ := cholesky_of_posDef hA
  refine ⟨Lᵀ, ?_, ⟨fun i j hij => h2.lower j i hij, fun i => (h2.diag_pos i).ne'⟩, h2.diag_pos, ?_, ?_⟩
  · rw [cholUpper, cholUpperT, symm_of_posSemidef hA.posSemidef, h1]; rfl
  · rw [transpose_transpose]; exact h2.mul_transpose
  · rwa [transpose_transpose]

theorem UFactor.isUnit_det {A : Mat n n} (hA : UFactor A) : IsUnit A.det :=
  hA.upper.isUnit hA.diag

/-- The correction step, when the factor of the innovation covariance is normal. -/
theorem sqUnscentedCorrect_spec {pred pred2 : Moments n} (hp : Root pred pred2)
    {obs obs2 : Moments m} (ho : Root obs obs2)
    (hN : obs2.cov * obs2.covᵀ = obs2.covᵀ * obs2.cov) (cross : Mat n m) (o : Obs m)
    (hpd : (unscentedCorrect cross pred obs o).cov.PosDef) :
    ∃ M2, sqUnscentedCorrect cross pred2 obs2 o = .ok M2 ∧
      Root (unscentedCorrect cross pred obs o) M2 := by
  by_cases hm : o.missing
  · refine ⟨pred2, by simp [sqUnscentedCorrect, hm, pure, Except.pure], ?_⟩
    simpa [unscentedCorrect, hm] using hp
  · have hu := ho.factor.isUnit_det
    have hut : IsUnit (obs2.covᵀ).det := by rw [det_transpose]; exact hu
    have hK : (lstsq obs2.covᵀ (lstsq obs2.cov crossᵀ))ᵀ = cross * pinv obs.cov := by
      have hug : IsUnit (obs2.covᵀ * obs2.cov).det := by rw [det_mul]; exact hut.mul hu
      rw [lstsq, lstsq, pinv_eq_inv hut, pinv_eq_inv hu, ← ho.gram, pinv_eq_inv hug, ← hN,
        Matrix.mul_inv_rev, transpose_mul, transpose_mul, transpose_transpose,
        transpose_nonsing_inv, transpose_nonsing_inv, transpose_transpose, Matrix.mul_assoc]
    simp only [unscentedCorrect, hm, not_false_eq_true, if_true] at hpd ⊢
    have hY : obs.cov.PosDef := ho.posDef
    have huY : IsUnit obs.cov.det := (Matrix.isUnit_iff_isUnit_det _).mp hY.isUnit
    set K := cross * pinv obs.cov with hKd
    have hKY : K * obs.cov = cross := by
      rw [hKd, pinv_eq_inv huY, Matrix.mul_assoc, nonsing_inv_mul _ huY, Matrix.mul_one]
    have hU : ((K * obs2.cov)ᵀ)ᵀ * (K * obs2.cov)ᵀ = K * crossᵀ := by
      rw [transpose_transpose, transpose_mul, Matrix.mul_assoc K, ← Matrix.mul_assoc obs2.cov, hN,
        ho.gram]
      have := congrArg Matrix.transpose hKY
      rw [transpose_mul, symm_of_posSemidef hY.posSemidef] at this
      rw [this]
    have hgr : pred2.covᵀ * pred2.cov + (-1.0 : ℝ) • (((K * obs2.cov)ᵀ)ᵀ * (K * obs2.cov)ᵀ)
        = pred.cov - K * crossᵀ := by
      rw [hU, hp.gram]
      norm_num
      rw [← sub_eq_add_neg]
    obtain ⟨B, h1, h2, -, h4⟩ := cholupdate_spec hp.factor (K * obs2.cov)ᵀ (-1.0)
      (by rw [hgr]; exact hpd)
    refine ⟨⟨pred2.mean + K *ᵥ (o.val - obs2.mean), B⟩, ?_, ?_⟩
    · simp only [sqUnscentedCorrect, hm, not_false_eq_true, if_true, hK, h1, bind, Except.bind, pure,
        Except.pure]
    · refine ⟨?_, h2, ?_⟩
      · simp only [hp.mean, ho.mean]
      · rw [h4, hgr]

theorem FinePoints.congr {s s' : SigmaPoints N k} (h : PtsEq s s') (f : Vec k → Vec l)
    (hs : ∀ j, 0 ≤ s.wc j ∨ s.points j = s'.points j) (hf : FinePoints (s.map f)) :
    FinePoints (s'.map f) := by
  intro j
  rcases hs j with hj | hj
  · left
    simp only [SigmaPoints.map, ← h.wc]
    exact hj
  · rcases hf j with h1 | h1
    · left
      simpa only [SigmaPoints.map, ← h.wc] using h1
    · right
      rw [← h.mean f, ← h1]
      simp only [SigmaPoints.map, hj]

theorem sigmaPoints_wc (mu mu' : Vec n) (L L' : Mat n n) :
    ∀ j, 0 ≤ (sigmaPoints mu L none none none).wc j
      ∨ (j = 0 ∧ (sigmaPoints mu' L' none none none).points j = mu') := by
  intro j
  refine Fin.cases ?_ (fun j => ?_) j
  · exact Or.inr ⟨rfl, rfl⟩
  · left
    simp only [sigmaPoints, Option.getD_none, Fin.cons_succ]
    apply div_nonneg <;> norm_num

theorem finePoints_sigma {M M2 : Moments n} {L : Mat n n} (hm : M2.mean = M.mean)
    (hs : PtsEq (sigmaPoints M.mean L none none none) (sqMoments2points M2)) {f : Vec n → Vec l}
    (hf : FinePoints ((sigmaPoints M.mean L none none none).map f)) :
    FinePoints ((sqMoments2points M2).map f) := by
  refine hf.congr hs f fun j => ?_
  rcases sigmaPoints_wc M.mean M2.mean L M2.covᵀ j with h | ⟨h, h'⟩
  · exact Or.inl h
  · right
    subst h
    rw [sqMoments2points, h', hm]
    rfl

theorem finePoints_self {M : Moments n} {L : Mat n n} (hL : L * Lᵀ = M.cov) :
    FinePoints ((sigmaPoints M.mean L none none none).map fun x => x) := by
  intro j
  rcases sigmaPoints_wc M.mean M.mean L L j with h | ⟨h, h'⟩
  · exact Or.inl h
  · right
    have hs := isSigma_sigmaPoints M.mean L none none none default_spread
    rw [SigmaPoints.map_id, hs.mean, h']

/-- What is needed of the functions and covariances: at every row with a positive definite
covariance, the points passed through the functions are fine, and the three covariances that the
step computes from it are positive definite. -/
structure StepFine (u : UParams n m) : Prop where
  pred : ∀ (M : Moments n) (L : Mat n n), M.cov.PosDef → L * Lᵀ = M.cov → ∀ t f, u.f.at t = .ok f →
    FinePoints ((sigmaPoints M.mean L none none none).map f) ∧
    (points2moments ((sigmaPoints M.mean L none none none).map f) (some u.Q)).cov.PosDef
  obs : ∀ (M : Moments n) (L : Mat n n), M.cov.PosDef → L * Lᵀ = M.cov → ∀ t g, u.g.at t = .ok g →
    FinePoints ((sigmaPoints M.mean L none none none).map g) ∧
    (points2moments ((sigmaPoints M.mean L none none none).map g) (some u.R)).cov.PosDef ∧
    ∀ o, (ufCorrect g M (sigmaPoints M.mean L none none none) o u.R).cov.PosDef

theorem points2moments_add (s : SigmaPoints N k) (S : Mat k k) :
    points2moments s (some S) = ⟨(points2moments s none).mean, (points2moments s none).cov + S⟩ := rfl

/-- Normality of the factor of every matrix: one dimension. -/
theorem normal_one (A : Mat 1 1) : A * Aᵀ = Aᵀ * A := by
  ext i j
  have hi : i = 0 := Subsingleton.elim _ _
  have hj : j = 0 := Subsingleton.elim _ _
  subst hi hj
  simp [Matrix.mul_apply]

/-- The correction step is a call of `_unscented_correct` with the moments of the additive filter. -/
theorem sqCorrect_eq (qr : QR) {u : UParams n m} (hu : StepFine u) {R2 : Mat m m}
    (hR2 : R2 * R2ᵀ = u.R) {pred pred2 : Moments n} (hp : Root pred pred2) {L : Mat n n}
    (hL : L * Lᵀ = pred.cov) {pts : SigmaPoints (n + n + 1) n}
    (hpts : PtsEq (sigmaPoints pred.mean L none none none) pts)
    (hfine : ∀ g : Vec n → Vec m, FinePoints ((sigmaPoints pred.mean L none none none).map g) →
      FinePoints (pts.map g)) {t : ℕ}
    {g : Vec n → Vec m} (hg : u.g.at t = .ok g) (o : Obs m) :
    ∃ obs2, Root (points2moments ((sigmaPoints pred.mean L none none none).map g) (some u.R)) obs2 ∧
      UpperTri obs2.cov ∧
      sqCorrect qr g pred2 pts o R2 = sqUnscentedCorrect
        (crossCov (sigmaPoints pred.mean L none none none) pred.mean
          ((sigmaPoints pred.mean L none none none).map g)
          (points2moments ((sigmaPoints pred.mean L none none none).map g) (some u.R)).mean)
        pred2 obs2 o := by
  obtain ⟨h1, h2, h3⟩ := hu.obs pred L hp.posDef hL t g hg
  obtain ⟨R, h4, h5, h6⟩ := sqPoints2moments_some qr (hfine g h1) R2
  rw [hR2, ← hpts.points2moments g] at h6
  rw [← hpts.points2moments g] at h4
  have hroot : Root (points2moments ((sigmaPoints pred.mean L none none none).map g) (some u.R))
      ⟨(points2moments ((sigmaPoints pred.mean L none none none).map g) none).mean, R⟩ :=
    ⟨rfl, h5.factor_of_posDef (by rw [h6]; exact h2), h6⟩
  refine ⟨_, hroot, h5, ?_⟩
  simp only [sqCorrect, h4, bind, Except.bind]
  rw [← hpts.crossCov g, hp.mean]
  rfl

theorem sqCorrect_spec (qr : QR) {u : UParams n 1} (hu : StepFine u) {R2 : Mat 1 1}
    (hR2 : R2 * R2ᵀ = u.R) {pred pred2 : Moments n} (hp : Root pred pred2) {L : Mat n n}
    (hL : L * Lᵀ = pred.cov) {pts : SigmaPoints (n + n + 1) n}
    (hpts : PtsEq (sigmaPoints pred.mean L none none none) pts)
    (hfine : ∀ g : Vec n → Vec 1, FinePoints ((sigmaPoints pred.mean L none none none).map g) →
      FinePoints (pts.map g)) {t : ℕ}
    {g : Vec n → Vec 1} (hg : u.g.at t = .ok g) (o : Obs 1) :
    ∃ M2, sqCorrect qr g pred2 pts o R2 = .ok M2 ∧
      Root (ufCorrect g pred (sigmaPoints pred.mean L none none none) o u.R) M2 := by
  obtain ⟨obs2, h1, -, h2⟩ := sqCorrect_eq qr hu hR2 hp hL hpts hfine hg o
  obtain ⟨-, -, h3⟩ := hu.obs pred L hp.posDef hL t g hg
  rw [h2]
  exact sqUnscentedCorrect_spec hp h1 (normal_one obs2.cov) _ o (h3 o)

/-- What the first row is computed from. -/
theorem sqFirst_eq (qr : QR) {u : UParams n m} (hS : u.S0.PosDef) :
    ∃ S2 L pred2, cholUpper u.S0 = .ok S2 ∧ L * Lᵀ = u.S0 ∧
      moments2points (⟨u.mu0, u.S0⟩ : Moments n) = .ok (sigmaPoints u.mu0 L none none none) ∧
      sqPoints2moments qr (sqMoments2points ⟨u.mu0, S2⟩) none = .ok pred2 ∧
      Root (⟨u.mu0, u.S0⟩ : Moments n) pred2 ∧
      PtsEq (sigmaPoints u.mu0 L none none none) (sqMoments2points ⟨u.mu0, S2⟩) ∧
      ∀ {l : ℕ} (g : Vec n → Vec l), FinePoints ((sigmaPoints u.mu0 L none none none).map g) →
        FinePoints ((sqMoments2points (⟨u.mu0, S2⟩ : Moments n)).map g) := by
  obtain ⟨S2, h1, h2, h3, h4, -⟩ := cholUpper_spec hS
  have hroot : Root (⟨u.mu0, u.S0⟩ : Moments n) ⟨u.mu0, S2⟩ := ⟨rfl, h2, h4⟩
  obtain ⟨L, h5, h6, h7⟩ := hroot.points
  have hf := finePoints_sigma hroot.mean h7 (finePoints_self h5)
  obtain ⟨R, h8, h9, h10⟩ := sqPoints2moments_none qr (s := sqMoments2points ⟨u.mu0, S2⟩) hf
    (by omega)
  have e : points2moments (sqMoments2points (⟨u.mu0, S2⟩ : Moments n)) none = ⟨u.mu0, u.S0⟩ := by
    have := h7.points2moments (fun x => x) none
    rw [SigmaPoints.map_id, SigmaPoints.map_id] at this
    rw [← this]
    have hs := isSigma_sigmaPoints u.mu0 L none none none default_spread
    rw [h5] at hs
    exact hs.points2moments
  rw [e] at h8 h10
  exact ⟨S2, L, _, h1, h5, h6, h8, ⟨rfl, h9.factor_of_posDef (by rw [h10]; exact hS), h10⟩, h7,
    fun g h => finePoints_sigma hroot.mean h7 h⟩

theorem sqStep_spec (qr : QR) {u : UParams n 1} (hu : StepFine u) (hS : u.S0.PosDef)
    {Q2 : Mat n n} {R2 : Mat 1 1} (hQ2 : Q2 * Q2ᵀ = u.Q) (hR2 : R2 * R2ᵀ = u.R) (t : ℕ)
    {prev prev2 : Option (Moments n)} (hp : Option.Rel Root prev prev2) (o : Obs 1)
    {M : Moments n} (hM : aukfStep u t prev o = .ok M) :
    ∃ M2, sqStep qr u Q2 R2 t prev2 o = .ok M2 ∧ Root M M2 := by
  cases hp with
  | none =>
    obtain ⟨S2, L, pred2, h1, h5, h6, h8, hpr, h7, h9⟩ := sqFirst_eq qr hS
    simp only [aukfStep, Option.getD_none, h6, bind, Except.bind] at hM
    cases hg : u.g.at t with
    | error e => rw [hg] at hM; cases hM
    | ok g =>
      rw [hg] at hM
      have hs := isSigma_sigmaPoints u.mu0 L none none none default_spread
      rw [h5] at hs
      simp only [pure, Except.pure, hs.points2moments] at hM
      cases hM
      obtain ⟨M2, h11, h12⟩ := sqCorrect_spec qr hu hR2 hpr h5 h7
        h9 hg o
      refine ⟨M2, ?_, h12⟩
      simp only [sqStep, h1, bind, Except.bind, h8, hg, h11]
  | @some M₀ M₂ h =>
    obtain ⟨L, h5, h6, h7⟩ := h.points
    simp only [aukfStep, Option.getD_some, h6, bind, Except.bind] at hM
    cases hf : u.f.at (t - 1) with
    | error e => rw [hf] at hM; cases hM
    | ok f =>
      rw [hf] at hM
      simp only at hM
      obtain ⟨p1, p2⟩ := hu.pred M₀ L h.posDef h5 _ f hf
      have hfine := finePoints_sigma h.mean h7 p1
      obtain ⟨R, h8, h9, h10⟩ := sqPoints2moments_some qr hfine Q2
      rw [hQ2, ← h7.points2moments f] at h10
      rw [← h7.points2moments f] at h8
      have hpr : Root (points2moments ((sigmaPoints M₀.mean L none none none).map f) (some u.Q))
          ⟨(points2moments ((sigmaPoints M₀.mean L none none none).map f) none).mean, R⟩ :=
        ⟨rfl, h9.factor_of_posDef (by rw [h10]; exact p2), h10⟩
      obtain ⟨L', h5', h6', h7'⟩ := hpr.points
      rw [h6'] at hM
      simp only at hM
      cases hg : u.g.at t with
      | error e => rw [hg] at hM; cases hM
      | ok g =>
        rw [hg] at hM
        simp only [pure, Except.pure] at hM
        cases hM
        obtain ⟨M2, h11, h12⟩ := sqCorrect_spec qr hu hR2 hpr h5' h7'
          (fun g h => finePoints_sigma hpr.mean h7' h) hg o
        refine ⟨M2, ?_, h12⟩
        simp only [sqStep, hf, bind, Except.bind, h8, hg, h11]

theorem sqLoop_spec (qr : QR) {u : UParams n 1} (hu : StepFine u) (hS : u.S0.PosDef)
    {Q2 : Mat n n} {R2 : Mat 1 1} (hQ2 : Q2 * Q2ᵀ = u.Q) (hR2 : R2 * R2ᵀ = u.R)
    (os : List (Obs 1)) (t : ℕ)
    {prev prev2 : Option (Moments n)} (hp : Option.Rel Root prev prev2)
    {l : List (Moments n)} (hl : runLoop (aukfStep u) t prev os = .ok l) :
    ∃ l2, runLoop (sqStep qr u Q2 R2) t prev2 os = .ok l2 ∧ List.Forall₂ Root l l2 := by
  induction os generalizing t prev prev2 l with
  | nil => cases hl; exact ⟨[], rfl, .nil⟩
  | cons o os ih =>
    rw [runLoop] at hl
    cases hs : aukfStep u t prev o with
    | error e => rw [hs] at hl; cases hl
    | ok M =>
      rw [hs] at hl
      simp only [bind, Except.bind] at hl
      cases hr : runLoop (aukfStep u) (t + 1) (some M) os with
      | error e => rw [hr] at hl; cases hl
      | ok l' =>
        rw [hr] at hl
        cases hl
        obtain ⟨M2, h1, h2⟩ := sqStep_spec qr hu hS hQ2 hR2 t hp o hs
        obtain ⟨l2, h3, h4⟩ := ih (t + 1) (Option.Rel.some h2) hr
        refine ⟨M2 :: l2, ?_, .cons h2 h4⟩
        rw [runLoop, h1]
        simp only [bind, Except.bind, h3, pure, Except.pure]

/-! ### When the functions are fine -/

theorem stepFine_of_le_three (hn : n ≤ 3) {u : UParams n m} (hQ : u.Q.PosDef) (hR : u.R.PosDef) :
    StepFine u := by
  have hw : ∀ (mu : Vec n) (L : Mat n n) {l : ℕ} (f : Vec n → Vec l),
      FinePoints ((sigmaPoints mu L none none none).map f) := fun mu L l f j => by
    left
    have := goodWeights_sigmaPoints hn mu L
    have h2 := this.nonneg j
    rw [← this.eq] at h2
    exact h2
  refine ⟨fun M L hM hL t f _ => ⟨hw _ _ f, predict_posDef (goodWeights_sigmaPoints hn _ _) f hQ⟩,
    fun M L hM hL t g _ => ⟨hw _ _ g, predict_posDef (goodWeights_sigmaPoints hn _ _) g hR,
      fun o => ?_⟩⟩
  have hs := isSigma_sigmaPoints M.mean L none none none default_spread
  rw [hL] at hs
  exact ufCorrect_posDef hs (goodWeights_sigmaPoints hn _ _) hM hR g o

theorem finePoints_affine {mu : Vec n} {L : Mat n n} {f : Vec n → Vec l} {A : Mat l n} {b : Vec l}
    (hf : ∀ x, f x = A *ᵥ x + b) : FinePoints ((sigmaPoints mu L none none none).map f) := by
  intro j
  rcases sigmaPoints_wc mu mu L L j with h | ⟨h, h'⟩
  · exact Or.inl h
  · right
    have hs := isSigma_sigmaPoints mu L none none none default_spread
    rw [(hs.map A b hf).mean]
    simp only [SigmaPoints.map, h', hf]

theorem stepFine_of_affine {u : UParams n m} (hQ : u.Q.PosDef) (hR : u.R.PosDef)
    (hf : ∀ t f, u.f.at t = .ok f → ∃ (A : Mat n n) (b : Vec n), ∀ x, f x = A *ᵥ x + b)
    (hg : ∀ t g, u.g.at t = .ok g → ∃ (C : Mat m n) (d : Vec m), ∀ x, g x = C *ᵥ x + d) :
    StepFine u := by
  refine ⟨fun M L hM hL t f h => ?_, fun M L hM hL t g h => ?_⟩
  · obtain ⟨A, b, h⟩ := hf t f h
    have hs := isSigma_sigmaPoints M.mean L none none none default_spread
    rw [hL] at hs
    refine ⟨finePoints_affine h, ?_⟩
    rw [(hs.map A b h).points2moments_some]
    exact posDef_conj_add hM.posSemidef hQ A
  · obtain ⟨C, d, h⟩ := hg t g h
    have hs := isSigma_sigmaPoints M.mean L none none none default_spread
    rw [hL] at hs
    refine ⟨finePoints_affine h, ?_, fun o => ?_⟩
    · rw [(hs.map C d h).points2moments_some]
      exact posDef_conj_add hM.posSemidef hR C
    · have := ufCorrect_affine (R := u.R) (symm_of_posSemidef hM.posSemidef) hs h o
      rw [this]
      by_cases ho : o.missing
      · simpa [filterCorrect, ho, toMoments] using hM
      · have := updated_posDef hM hR C
        simpa [filterCorrect, ho, toMoments, gain, Matrix.mul_assoc] using this

end Verif
