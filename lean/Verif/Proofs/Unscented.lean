import Verif.Spec.Unscented
import Verif.Proofs.Sigma
import Verif.Proofs.Loops
import Verif.Proofs.Pure

/-!
# Unscented filters of affine functions
-/

open Matrix

namespace Verif

variable {n m k l N q : ℕ}

/-! ### Additive noise -/

theorem unscentedCorrect_eq (C : Mat m n) (R : Mat m m) (d : Vec m) (mu : Vec n) {S : Mat n n}
    (hS : Sᵀ = S) (o : Obs m) :
    unscentedCorrect (S * Cᵀ) ⟨mu, S⟩ ⟨C *ᵥ mu + d, C * S * Cᵀ + R⟩ o
      = toMoments (filterCorrect C R d mu S o).2 := by
  rw [unscentedCorrect, filterCorrect]
  by_cases ho : o.missing
  · simp only [ho, not_true_eq_false, if_false, toMoments]
  · simp only [ho, not_false_eq_true, if_true, toMoments, Matrix.mul_assoc, transpose_mul,
      transpose_transpose, hS]

theorem ufCorrect_affine {C : Mat m n} {R : Mat m m} {d : Vec m} {mu : Vec n} {S : Mat n n}
    (hS : Sᵀ = S) {pts : SigmaPoints N n} (h : IsSigma pts mu S) {g : Vec n → Vec m}
    (hg : ∀ x, g x = C *ᵥ x + d) (o : Obs m) :
    ufCorrect g ⟨mu, S⟩ pts o R = toMoments (filterCorrect C R d mu S o).2 := by
  have h1 := (h.map C d hg).points2moments_some R
  have h2 : crossCov pts mu (pts.map g) (C *ᵥ mu + d) = S * Cᵀ := by
    have := h.crossCov (F := fun x => x) (1 : Mat n n) 0 (by simp) C d hg
    simpa [SigmaPoints.map_id] using this
  simp only [ufCorrect, h1, h2]
  exact unscentedCorrect_eq C R d mu hS o

/-- What the additive filter needs: predicted covariances and all filtered covariances but the last
are positive definite. -/
structure PFun.RunPosDef (P : PFun n m) (z : ℕ → Obs m) (T : ℕ) : Prop where
  pred : ∀ t, t < T → (P.kf z t).predCov.PosDef
  filt : ∀ t, t + 1 < T → (P.kf z t).filtCov.PosDef

theorem aukfFilter_affine {u : UParams n m} {p : Params n m} (h : u.AffineAs p)
    {os : List (Obs m)} (hc : p.Covers os.length)
    (hp : p.fn.RunPosDef (obsFn os) os.length) :
    aukfFilter u os = .ok ((List.range os.length).map fun t =>
      ⟨(p.fn.kf (obsFn os) t).filtMean, (p.fn.kf (obsFn os) t).filtCov⟩) := by
  have hQ : ∀ t, p.fn.Q t = u.Q := fun t => by simp [Params.fn, h.Q, TV.get]
  have hR : ∀ t, p.fn.R t = u.R := fun t => by simp [Params.fn, h.R, TV.get]
  rw [aukfFilter]
  refine runLoop_eq (fun t => (⟨(p.fn.kf (obsFn os) t).filtMean,
    (p.fn.kf (obsFn os) t).filtCov⟩ : Moments n)) os (fun h0 => ?_) fun t ht => ?_
  · obtain ⟨g, hg, hg'⟩ := h.g 0 (p.fn.C 0) (p.fn.d 0) (lastDims_eq_ok (hc.C.mono h0))
      (lastDims_eq_ok (hc.d.mono h0))
    have hpd : u.S0.PosDef := by rw [← h.S0]; exact hp.pred 0 h0
    obtain ⟨s, hs, hs'⟩ := moments2points_default ⟨u.mu0, u.S0⟩ hpd
    simp only [aukfStep, Option.getD_none, hs, bind, Except.bind, hg, pure, Except.pure]
    rw [hs'.points2moments, ufCorrect_affine (symm_of_posSemidef hpd.posSemidef) hs' hg']
    simp only [PFun.kf, obsFn_eq h0, PFun.correct, hR, toMoments]
    rw [show p.fn.mu0 = u.mu0 from h.mu0, show p.fn.S0 = u.S0 from h.S0]
  · obtain ⟨g, hg, hg'⟩ := h.g (t + 1) (p.fn.C (t + 1)) (p.fn.d (t + 1))
      (lastDims_eq_ok (hc.C.mono ht)) (lastDims_eq_ok (hc.d.mono ht))
    obtain ⟨f, hf, hf'⟩ := h.f t (p.fn.A t) (p.fn.b t)
      (lastDims_eq_ok (hc.A.mono (by omega))) (lastDims_eq_ok (hc.b.mono (by omega)))
    obtain ⟨s, hs, hs'⟩ := moments2points_default
      ⟨(p.fn.kf (obsFn os) t).filtMean, (p.fn.kf (obsFn os) t).filtCov⟩ (hp.filt t ht)
    have hpr := (hs'.map (p.fn.A t) (p.fn.b t) hf').points2moments_some u.Q
    have hpd := hp.pred (t + 1) ht
    simp only [PFun.kf, PFun.next, PFun.correct, filterPredict, hQ, ← Matrix.mul_assoc] at hpd
    obtain ⟨s₂, hs₂, hs₂'⟩ := moments2points_default ⟨_, _⟩ hpd
    simp only [aukfStep, Option.getD_some, hs, bind, Except.bind, hg, pure, Except.pure,
      Nat.add_sub_cancel, hf]
    rw [hpr, hs₂]
    simp only
    rw [ufCorrect_affine (symm_of_posSemidef hpd.posSemidef) hs₂' hg']
    simp only [PFun.kf, obsFn_eq ht, PFun.next, PFun.correct, hR, hQ, toMoments, filterPredict,
      ← Matrix.mul_assoc]

theorem ufSmooth_affine {s : SigmaPoints N k} {mu : Vec k} {S : Mat k k} (h : IsSigma s mu S)
    (Sx : Mat n k) {Fx : Vec k → Vec n} (hx : ∀ z, Fx z = Sx *ᵥ z)
    (M : Mat n k) (v : Vec n) {F : Vec k → Vec n} (hF : ∀ z, F z = M *ᵥ z + v)
    (Pp : Mat n n) (next : Moments n) (A P : Mat n n) (hA : M * S * Sxᵀ = A * P) (hP : Pᵀ = P) :
    ufSmooth ⟨Sx *ᵥ mu, P⟩ (s.map Fx) (s.map F) ⟨M *ᵥ mu + v, Pp⟩ next
      = ⟨(smoothUpdate A (Sx *ᵥ mu) P (M *ᵥ mu + v) Pp next.mean next.cov).mean,
         (smoothUpdate A (Sx *ᵥ mu) P (M *ᵥ mu + v) Pp next.mean next.cov).cov⟩ := by
  have hp := h.pair M v hF Sx 0 (G := Fx) (fun x => by rw [hx, add_zero])
  simp only [add_zero] at hp
  simp only [ufSmooth, hp, hA, transpose_mul, hP, smoothUpdate, Matrix.mul_assoc]

theorem aukfSmooth_affine {u : UParams n m} {p : Params n m} (h : u.AffineAs p)
    {os : List (Obs m)} (hne : os ≠ []) (hc : p.Covers os.length)
    (hp : p.fn.RunPosDef (obsFn os) os.length) :
    aukfSmooth u os = .ok ((List.range os.length).map fun t =>
      ⟨(p.fn.ks (obsFn os) (os.length - 1) t).mean, (p.fn.ks (obsFn os) (os.length - 1) t).cov⟩) := by
  have hQ : ∀ t, p.fn.Q t = u.Q := fun t => by simp [Params.fn, h.Q, TV.get]
  obtain ⟨T, hT⟩ : ∃ T, os.length = T + 1 :=
    ⟨os.length - 1, by have := List.length_pos_iff.mpr hne; omega⟩
  rw [aukfSmooth, aukfFilter_affine h hc hp]
  simp only [bind, Except.bind, hT, Nat.add_sub_cancel]
  refine backFull_eq
    (fun t => (⟨(p.fn.kf (obsFn os) t).filtMean, (p.fn.kf (obsFn os) t).filtCov⟩ : Moments n))
    (fun t => (⟨(p.fn.ks (obsFn os) T t).mean, (p.fn.ks (obsFn os) T t).cov⟩ : Moments n)) T ?_ ?_
  · simp only [PFun.ks_last]
  · intro t ht
    have hpd := hp.filt t (by omega)
    obtain ⟨f, hf, hf'⟩ := h.f t (p.fn.A t) (p.fn.b t)
      (lastDims_eq_ok (hc.A.mono (by omega))) (lastDims_eq_ok (hc.b.mono (by omega)))
    obtain ⟨s, hs, hs'⟩ := moments2points_default
      ⟨(p.fn.kf (obsFn os) t).filtMean, (p.fn.kf (obsFn os) t).filtCov⟩ hpd
    have hpr := (hs'.map (p.fn.A t) (p.fn.b t) hf').points2moments_some u.Q
    have key := ufSmooth_affine hs' (1 : Mat n n) (Fx := fun x => x) (fun z => by simp) (p.fn.A t)
      (p.fn.b t) hf' (p.fn.A t * (p.fn.kf (obsFn os) t).filtCov * (p.fn.A t)ᵀ + u.Q)
      ⟨(p.fn.ks (obsFn os) T (t + 1)).mean, (p.fn.ks (obsFn os) T (t + 1)).cov⟩ (p.fn.A t)
      (p.fn.kf (obsFn os) t).filtCov (by simp) (symm_of_posSemidef hpd.posSemidef)
    simp only [one_mulVec, SigmaPoints.map_id] at key
    simp only [aukfSmoothStep, hs, hf, bind, Except.bind, pure, Except.pure]
    rw [hpr]
    simp only
    rw [key, PFun.ks_lt _ _ ht]
    simp only [PFun.kf, PFun.next, PFun.correct, filterPredict, hQ, ← Matrix.mul_assoc]

/-- Positive definite noise and initial covariances give positive definite covariances. -/
theorem PFun.runPosDef (P : PFun n m) (z : ℕ → Obs m) (T : ℕ) (hS : P.S0.PosDef)
    (hQ : ∀ t, t + 1 < T → (P.Q t).PosDef) (hR : ∀ t, t < T → (P.R t).PosDef) :
    P.RunPosDef z T := by
  have hcor : ∀ (t : ℕ) (mu : Vec n) (S : Mat n n), S.PosDef → t < T →
      (P.correct t mu S (z t)).filtCov.PosDef := by
    intro t mu S hS ht
    simp only [PFun.correct, filterCorrect]
    by_cases ho : (z t).missing
    · simpa [ho] using hS
    · have := updated_posDef hS (hR t ht) (P.C t)
      simpa [ho, gain, Matrix.mul_assoc] using this
  have key : ∀ t, t < T → (P.kf z t).predCov.PosDef ∧ (P.kf z t).filtCov.PosDef := by
    intro t
    induction t with
    | zero => exact fun h => ⟨hS, hcor 0 _ _ hS h⟩
    | succ t ih =>
      intro h
      have h1 := (ih (by omega)).2
      have h2 := posDef_conj_add h1.posSemidef (hQ t h) (P.A t)
      rw [Matrix.mul_assoc] at h2
      exact ⟨h2, hcor (t + 1) _ _ h2 h⟩
  exact ⟨fun t h => (key t h).1, fun t h => (key t (by omega)).2⟩

theorem Params.PosDef.runPosDef {p : Params n m} (h : p.PosDef) (z : ℕ → Obs m) (T : ℕ) :
    p.fn.RunPosDef z T := by
  obtain ⟨⟨Q, hQ, hQ'⟩, ⟨R, hR, hR'⟩, hS⟩ := h
  refine PFun.runPosDef _ z T hS (fun t _ => ?_) fun t _ => ?_
  · simpa [Params.fn, hQ, TV.get] using hQ'
  · simpa [Params.fn, hR, TV.get] using hR'

/-! ### General noise -/

/-- Matrix that takes the first `a` components. -/
def selL (a b : ℕ) : Mat a (a + b) := Matrix.of fun i j => if j = Fin.castAdd b i then 1 else 0

/-- Matrix that takes the last `b` components. -/
def selR (a b : ℕ) : Mat b (a + b) := Matrix.of fun i j => if j = Fin.natAdd a i then 1 else 0

theorem selL_mulVec {a b : ℕ} (z : Vec (a + b)) :
    selL a b *ᵥ z = fun i => z (Fin.castAdd b i) := by
  funext i
  simp [selL, mulVec, dotProduct]

theorem selR_mulVec {a b : ℕ} (z : Vec (a + b)) :
    selR a b *ᵥ z = fun i => z (Fin.natAdd a i) := by
  funext i
  simp [selR, mulVec, dotProduct]

theorem sel_submatrix {a b r s : ℕ} (B : Mat (a + b) (a + b)) (X : Mat r (a + b))
    (Y : Mat s (a + b)) (f : Fin r → Fin (a + b)) (g : Fin s → Fin (a + b))
    (hX : X = Matrix.of fun i j => if j = f i then 1 else 0)
    (hY : Y = Matrix.of fun i j => if j = g i then 1 else 0) :
    X * B * Yᵀ = B.submatrix f g := by
  subst hX hY
  ext i j
  simp [Matrix.mul_apply]

theorem blockDiag_ll {a b : ℕ} (S : Mat a a) (T : Mat b b) :
    selL a b * blockDiag S T * (selL a b)ᵀ = S := by
  rw [sel_submatrix (blockDiag S T) (selL a b) (selL a b) (Fin.castAdd b) (Fin.castAdd b) rfl rfl]
  ext i j
  simp [blockDiag]

theorem blockDiag_lr {a b : ℕ} (S : Mat a a) (T : Mat b b) :
    selL a b * blockDiag S T * (selR a b)ᵀ = 0 := by
  rw [sel_submatrix (blockDiag S T) (selL a b) (selR a b) (Fin.castAdd b) (Fin.natAdd a) rfl rfl]
  ext i j
  simp [blockDiag]

theorem blockDiag_rl {a b : ℕ} (S : Mat a a) (T : Mat b b) :
    selR a b * blockDiag S T * (selL a b)ᵀ = 0 := by
  rw [sel_submatrix (blockDiag S T) (selR a b) (selL a b) (Fin.natAdd a) (Fin.castAdd b) rfl rfl]
  ext i j
  simp [blockDiag]

theorem blockDiag_rr {a b : ℕ} (S : Mat a a) (T : Mat b b) :
    selR a b * blockDiag S T * (selR a b)ᵀ = T := by
  rw [sel_submatrix (blockDiag S T) (selR a b) (selR a b) (Fin.natAdd a) (Fin.natAdd a) rfl rfl]
  ext i j
  simp [blockDiag]

theorem blockDiag_quad {a b : ℕ} (S : Mat a a) (T : Mat b b) (x : Vec (a + b)) :
    x ⬝ᵥ (blockDiag S T *ᵥ x)
      = (fun i => x (Fin.castAdd b i)) ⬝ᵥ (S *ᵥ fun i => x (Fin.castAdd b i))
        + (fun i => x (Fin.natAdd a i)) ⬝ᵥ (T *ᵥ fun i => x (Fin.natAdd a i)) := by
  simp only [dotProduct, mulVec, Fin.sum_univ_add, blockDiag, submatrix_apply,
    finSumFinEquiv_symm_apply_castAdd, finSumFinEquiv_symm_apply_natAdd, fromBlocks_apply₁₁,
    fromBlocks_apply₁₂, fromBlocks_apply₂₁, fromBlocks_apply₂₂, Matrix.zero_apply, zero_mul,
    Finset.sum_const_zero, add_zero, zero_add]

theorem blockDiag_transpose {a b : ℕ} (S : Mat a a) (T : Mat b b) :
    (blockDiag S T)ᵀ = blockDiag Sᵀ Tᵀ := by
  rw [blockDiag, transpose_submatrix, fromBlocks_transpose]
  simp [blockDiag]

theorem blockDiag_posDef {a b : ℕ} {S : Mat a a} {T : Mat b b} (hS : S.PosDef) (hT : T.PosDef) :
    (blockDiag S T).PosDef := by
  rw [posDef_iff_real]
  refine ⟨by rw [blockDiag_transpose, symm_of_posSemidef hS.posSemidef,
    symm_of_posSemidef hT.posSemidef], fun x hx => ?_⟩
  rw [blockDiag_quad]
  have h1 := (posSemidef_iff_real.mp hS.posSemidef).2 fun i => x (Fin.castAdd b i)
  have h2 := (posSemidef_iff_real.mp hT.posSemidef).2 fun i => x (Fin.natAdd a i)
  by_cases h : (fun i => x (Fin.castAdd b i)) = 0
  · have h' : (fun i => x (Fin.natAdd a i)) ≠ 0 := by
      intro h'
      apply hx
      funext i
      obtain ⟨i, rfl⟩ := finSumFinEquiv.surjective i
      rcases i with i | i
      · simpa using congrFun h i
      · simpa using congrFun h' i
    have := (posDef_iff_real.mp hT).2 _ h'
    linarith
  · have := (posDef_iff_real.mp hS).2 _ h
    linarith

theorem ufCorrect₂_affine {s : SigmaPoints N k} {mu : Vec k} {S : Mat k k}
    (h : IsSigma s mu S)
    {M : Mat n k} {v : Vec n} {F : Vec k → Vec n} (hF : ∀ z, F z = M *ᵥ z + v)
    {Sv : Mat m k} {Fv : Vec k → Vec m} (hFv : ∀ z, Fv z = Sv *ᵥ z)
    {P : Mat n n} {R H : Mat m m} {C : Mat m n} {d : Vec m} {g : Vec n → Vec m → Vec m}
    (hg : ∀ x w, g x w = C *ᵥ x + H *ᵥ w + d) (hP : Pᵀ = P)
    (h1 : M * S * Mᵀ = P) (h2 : M * S * Svᵀ = 0) (h3 : Sv * S * Mᵀ = 0) (h4 : Sv * S * Svᵀ = R)
    (h5 : Sv *ᵥ mu = 0) (o : Obs m) :
    ufCorrect₂ g ⟨M *ᵥ mu + v, P⟩ (s.map F) o (s.map Fv)
      = toMoments (filterCorrect C (H * R * Hᵀ) d (M *ᵥ mu + v) P o).2 := by
  have hq : ∀ z, g (F z) (Fv z) = (C * M + H * Sv) *ᵥ z + (C *ᵥ v + d) := by
    intro z
    rw [hg, hF, hFv, mulVec_add, add_mulVec, mulVec_mulVec, mulVec_mulVec]
    abel
  have hm : (C * M + H * Sv) *ᵥ mu + (C *ᵥ v + d) = C *ᵥ (M *ᵥ mu + v) + d := by
    rw [add_mulVec, mulVec_add, ← mulVec_mulVec, ← mulVec_mulVec, h5, mulVec_zero, add_zero,
      add_assoc]
  have hc : (C * M + H * Sv) * S * (C * M + H * Sv)ᵀ = C * P * Cᵀ + H * R * Hᵀ := by
    have e : (C * M + H * Sv) * S * (C * M + H * Sv)ᵀ
        = C * (M * S * Mᵀ) * Cᵀ + C * (M * S * Svᵀ) * Hᵀ + H * (Sv * S * Mᵀ) * Cᵀ
          + H * (Sv * S * Svᵀ) * Hᵀ := by
      rw [transpose_add, transpose_mul, transpose_mul]
      simp only [Matrix.add_mul, Matrix.mul_add, Matrix.mul_assoc]
      abel
    rw [e, h1, h2, h3, h4]
    simp
  have hx : M * S * (C * M + H * Sv)ᵀ = P * Cᵀ := by
    have e : M * S * (C * M + H * Sv)ᵀ = (M * S * Mᵀ) * Cᵀ + (M * S * Svᵀ) * Hᵀ := by
      rw [transpose_add, transpose_mul, transpose_mul]
      simp only [Matrix.mul_add, Matrix.mul_assoc]
    rw [e, h1, h2]
    simp
  have hp := (h.map _ _ hq).points2moments
  have hcr := h.crossCov M v hF _ _ hq
  rw [hx, hm] at hcr
  rw [hm, hc] at hp
  simp only [ufCorrect₂, SigmaPoints.map_map₂, hp, hcr]
  exact unscentedCorrect_eq C _ d _ hP o

theorem concat_left {a b : ℕ} (u : Vec a) (v : Vec b) : selL a b *ᵥ concat u v = u := by
  rw [selL_mulVec]
  funext i
  simp [concat]

theorem concat_right {a b : ℕ} (u : Vec a) (v : Vec b) : selR a b *ᵥ concat u v = v := by
  rw [selR_mulVec]
  funext i
  simp [concat]

theorem SigmaPoints.left_eq {a b : ℕ} (s : SigmaPoints N (a + b)) :
    s.left = s.map (fun z => selL a b *ᵥ z) := by
  simp only [SigmaPoints.left, SigmaPoints.map, selL_mulVec]

theorem SigmaPoints.right_eq {a b : ℕ} (s : SigmaPoints N (a + b)) :
    s.right = s.map (fun z => selR a b *ᵥ z) := by
  simp only [SigmaPoints.right, SigmaPoints.map, selR_mulVec]

theorem SigmaPoints.map_map (s : SigmaPoints N k) (F : Vec k → Vec n) (G : Vec n → Vec l) :
    (s.map F).map G = s.map fun z => G (F z) := rfl

variable (n m) in
def selX : Mat n (n + n + m) := selL n n * selL (n + n) m

variable (n m) in
def selW : Mat n (n + n + m) := selR n n * selL (n + n) m

variable (n m) in
def selV : Mat m (n + n + m) := selR (n + n) m

/-- The three families of points are images of one family of joint points. -/
theorem augFilterPoints_ok {M : Moments n} {Q : Mat n n} {R : Mat m m} (hM : M.cov.PosDef)
    (hQ : Q.PosDef) (hR : R.PosDef) :
    ∃ s, augFilterPoints M Q R
        = .ok (s.map fun z => selX n m *ᵥ z, s.map fun z => selW n m *ᵥ z,
            s.map fun z => selV n m *ᵥ z) ∧
      IsSigma s (concat (concat M.mean (0 : Vec n)) (0 : Vec m))
        (blockDiag (blockDiag M.cov Q) R) := by
  obtain ⟨s, h1, h2⟩ := moments2points_default
    ⟨concat (concat M.mean (0 : Vec n)) (0 : Vec m), blockDiag (blockDiag M.cov Q) R⟩
    (blockDiag_posDef (blockDiag_posDef hM hQ) hR)
  refine ⟨s, ?_, h2⟩
  rw [augFilterPoints, h1]
  simp only [bind, Except.bind, pure, Except.pure, SigmaPoints.left_eq, SigmaPoints.right_eq,
    SigmaPoints.map_map, mulVec_mulVec, selX, selW, selV]

section
variable (P Q : Mat n n) (R : Mat m m) (x : Vec n) (w : Vec n) (v : Vec m)

theorem selX_mean : selX n m *ᵥ concat (concat x w) v = x := by
  rw [selX, ← mulVec_mulVec, concat_left, concat_left]

theorem selW_mean : selW n m *ᵥ concat (concat x w) v = w := by
  rw [selW, ← mulVec_mulVec, concat_left, concat_right]

theorem selV_mean : selV n m *ᵥ concat (concat x w) v = v := by
  rw [selV, concat_right]

private theorem conj_assoc {a b c d e : ℕ} (X : Mat a b) (Y : Mat b c) (B : Mat c c) (Z : Mat d c)
    (W : Mat e d) : X * Y * B * (W * Z)ᵀ = X * (Y * B * Zᵀ) * Wᵀ := by
  rw [transpose_mul]
  simp only [Matrix.mul_assoc]

theorem selXX : selX n m * blockDiag (blockDiag P Q) R * (selX n m)ᵀ = P := by
  rw [selX, conj_assoc, blockDiag_ll, blockDiag_ll]

theorem selXW : selX n m * blockDiag (blockDiag P Q) R * (selW n m)ᵀ = 0 := by
  rw [selX, selW, conj_assoc, blockDiag_ll, blockDiag_lr]

theorem selWX : selW n m * blockDiag (blockDiag P Q) R * (selX n m)ᵀ = 0 := by
  rw [selX, selW, conj_assoc, blockDiag_ll, blockDiag_rl]

theorem selWW : selW n m * blockDiag (blockDiag P Q) R * (selW n m)ᵀ = Q := by
  rw [selW, conj_assoc, blockDiag_ll, blockDiag_rr]

theorem selXV : selX n m * blockDiag (blockDiag P Q) R * (selV n m)ᵀ = 0 := by
  rw [selX, selV, Matrix.mul_assoc, Matrix.mul_assoc, ← Matrix.mul_assoc (selL (n + n) m),
    blockDiag_lr, Matrix.mul_zero]

theorem selWV : selW n m * blockDiag (blockDiag P Q) R * (selV n m)ᵀ = 0 := by
  rw [selW, selV, Matrix.mul_assoc, Matrix.mul_assoc, ← Matrix.mul_assoc (selL (n + n) m),
    blockDiag_lr, Matrix.mul_zero]

theorem selVX : selV n m * blockDiag (blockDiag P Q) R * (selX n m)ᵀ = 0 := by
  rw [selX, selV, transpose_mul, ← Matrix.mul_assoc, blockDiag_rl, Matrix.zero_mul]

theorem selVW : selV n m * blockDiag (blockDiag P Q) R * (selW n m)ᵀ = 0 := by
  rw [selW, selV, transpose_mul, ← Matrix.mul_assoc, blockDiag_rl, Matrix.zero_mul]

theorem selVV : selV n m * blockDiag (blockDiag P Q) R * (selV n m)ᵀ = R := by
  rw [selV, blockDiag_rr]

end

/-- What the filter with general noise needs: noise covariances, the initial covariance and all
filtered covariances but the last are positive definite. -/
structure GParams.RunPosDef (u : GParams n m) (P : PFun n m) (z : ℕ → Obs m) (T : ℕ) : Prop where
  Q : u.Q.PosDef
  R : u.R.PosDef
  S0 : u.S0.PosDef
  filt : ∀ t, t + 1 < T → (P.kf z t).filtCov.PosDef

theorem ukfFilter_affine {u : GParams n m} {p : Params n m} (h : u.AffineAs p)
    {os : List (Obs m)} (hc : p.Covers os.length)
    (hp : u.RunPosDef p.fn (obsFn os) os.length) :
    ukfFilter u os = .ok ((List.range os.length).map fun t =>
      ⟨(p.fn.kf (obsFn os) t).filtMean, (p.fn.kf (obsFn os) t).filtCov⟩) := by
  rw [ukfFilter]
  refine runLoop_eq (fun t => (⟨(p.fn.kf (obsFn os) t).filtMean,
    (p.fn.kf (obsFn os) t).filtCov⟩ : Moments n)) os (fun h0 => ?_) fun t ht => ?_
  · obtain ⟨g, H, hg, hRH, hg'⟩ := h.g 0 (p.fn.C 0) (p.fn.d 0) (p.fn.R 0)
      (lastDims_eq_ok (hc.C.mono h0)) (lastDims_eq_ok (hc.d.mono h0)) (lastDims_eq_ok (hc.R.mono h0))
    have hsy := symm_of_posSemidef hp.S0.posSemidef
    obtain ⟨s, hs, hs'⟩ := augFilterPoints_ok (M := ⟨u.mu0, u.S0⟩) hp.S0 hp.Q hp.R
    simp only [ukfStep, Option.getD_none, hs, bind, Except.bind, hg, pure, Except.pure]
    have hpr := (hs'.map (selX n m) 0 (F := fun z => selX n m *ᵥ z) (by simp)).points2moments
    have key := ufCorrect₂_affine hs' (M := selX n m) (v := 0) (F := fun z => selX n m *ᵥ z)
      (by simp) (Sv := selV n m) (Fv := fun z => selV n m *ᵥ z) (fun _ => rfl) hg' hsy
      (selXX _ _ _) (selXV _ _ _) (selVX _ _ _) (selVV _ _ _) (selV_mean _ _ _) os[0]
    simp only [selXX, selX_mean, add_zero] at hpr key
    rw [hpr, key]
    simp only [PFun.kf, obsFn_eq h0, PFun.correct, hRH, toMoments]
    rw [show p.fn.mu0 = u.mu0 from h.mu0, show p.fn.S0 = u.S0 from h.S0]
  · obtain ⟨g, H, hg, hRH, hg'⟩ := h.g (t + 1) (p.fn.C (t + 1)) (p.fn.d (t + 1)) (p.fn.R (t + 1))
      (lastDims_eq_ok (hc.C.mono ht)) (lastDims_eq_ok (hc.d.mono ht)) (lastDims_eq_ok (hc.R.mono ht))
    obtain ⟨f, G, hf, hQG, hf'⟩ := h.f t (p.fn.A t) (p.fn.b t) (p.fn.Q t)
      (lastDims_eq_ok (hc.A.mono (by omega))) (lastDims_eq_ok (hc.b.mono (by omega)))
      (lastDims_eq_ok (hc.Q.mono (by omega)))
    have hpd := hp.filt t ht
    set x := (p.fn.kf (obsFn os) t).filtMean
    set P := (p.fn.kf (obsFn os) t).filtCov
    obtain ⟨s, hs, hs'⟩ := augFilterPoints_ok (M := ⟨x, P⟩) hpd hp.Q hp.R
    simp only at hs'
    set M := p.fn.A t * selX n m + G * selW n m with hM
    have hF : ∀ z, f (selX n m *ᵥ z) (selW n m *ᵥ z) = M *ᵥ z + p.fn.b t := by
      intro z
      rw [hf', hM, add_mulVec, ← mulVec_mulVec, ← mulVec_mulVec]
    set S := blockDiag (blockDiag P u.Q) u.R with hS
    have hMM : M * S * Mᵀ = p.fn.A t * P * (p.fn.A t)ᵀ + G * u.Q * Gᵀ := by
      have e : M * S * Mᵀ
          = p.fn.A t * (selX n m * S * (selX n m)ᵀ) * (p.fn.A t)ᵀ
            + p.fn.A t * (selX n m * S * (selW n m)ᵀ) * Gᵀ
            + G * (selW n m * S * (selX n m)ᵀ) * (p.fn.A t)ᵀ
            + G * (selW n m * S * (selW n m)ᵀ) * Gᵀ := by
        rw [hM, transpose_add, transpose_mul, transpose_mul]
        simp only [Matrix.add_mul, Matrix.mul_add, Matrix.mul_assoc]
        abel
      rw [e, hS, selXX, selXW, selWX, selWW]
      simp
    have hMV : M * S * (selV n m)ᵀ = 0 := by
      have e : M * S * (selV n m)ᵀ = p.fn.A t * (selX n m * S * (selV n m)ᵀ)
          + G * (selW n m * S * (selV n m)ᵀ) := by
        rw [hM]
        simp only [Matrix.add_mul, Matrix.mul_assoc]
      rw [e, hS, selXV, selWV]
      simp
    have hVM : selV n m * S * Mᵀ = 0 := by
      have e : selV n m * S * Mᵀ = (selV n m * S * (selX n m)ᵀ) * (p.fn.A t)ᵀ
          + (selV n m * S * (selW n m)ᵀ) * Gᵀ := by
        rw [hM, transpose_add, transpose_mul, transpose_mul]
        simp only [Matrix.mul_add, Matrix.mul_assoc]
      rw [e, hS, selVX, selVW]
      simp
    have hmu : M *ᵥ concat (concat x (0 : Vec n)) (0 : Vec m) = p.fn.A t *ᵥ x := by
      rw [hM, add_mulVec, ← mulVec_mulVec, ← mulVec_mulVec, selX_mean, selW_mean, mulVec_zero,
        add_zero]
    have hsy : (p.fn.A t * P * (p.fn.A t)ᵀ + G * u.Q * Gᵀ)ᵀ
        = p.fn.A t * P * (p.fn.A t)ᵀ + G * u.Q * Gᵀ :=
      symm_of_posSemidef ((posSemidef_conj' hpd.posSemidef _).add
        (posSemidef_conj' hp.Q.posSemidef _))
    have hpr := (hs'.map M (p.fn.b t) hF).points2moments
    have key := ufCorrect₂_affine hs' (M := M) (v := p.fn.b t) hF (Sv := selV n m)
      (Fv := fun z => selV n m *ᵥ z) (fun _ => rfl) hg' hsy hMM hMV hVM (selVV _ _ _)
      (selV_mean _ _ _) os[t + 1]
    rw [hmu] at key hpr
    rw [hMM] at hpr
    simp only [ukfStep, Option.getD_some, hs, bind, Except.bind, hg, pure, Except.pure,
      Nat.add_sub_cancel, hf, SigmaPoints.map_map₂]
    rw [hpr, key]
    simp only [PFun.kf, obsFn_eq ht, PFun.next, PFun.correct, hRH, hQG, toMoments, filterPredict,
      ← Matrix.mul_assoc, x, P]

theorem augPoints_ok {M : Moments n} {Q : Mat n n} (hM : M.cov.PosDef) (hQ : Q.PosDef) :
    ∃ s, augPoints M (⟨0, Q⟩ : Moments n)
        = .ok (s.map fun z => selL n n *ᵥ z, s.map fun z => selR n n *ᵥ z) ∧
      IsSigma s (concat M.mean (0 : Vec n)) (blockDiag M.cov Q) := by
  obtain ⟨s, h1, h2⟩ := moments2points_default
    ⟨concat M.mean (0 : Vec n), blockDiag M.cov Q⟩ (blockDiag_posDef hM hQ)
  refine ⟨s, ?_, h2⟩
  rw [augPoints, h1]
  simp only [bind, Except.bind, pure, Except.pure, SigmaPoints.left_eq, SigmaPoints.right_eq]

theorem ukfSmooth_affine {u : GParams n m} {p : Params n m} (h : u.AffineAs p)
    {os : List (Obs m)} (hne : os ≠ []) (hc : p.Covers os.length)
    (hp : u.RunPosDef p.fn (obsFn os) os.length) :
    ukfSmooth u os = .ok ((List.range os.length).map fun t =>
      ⟨(p.fn.ks (obsFn os) (os.length - 1) t).mean, (p.fn.ks (obsFn os) (os.length - 1) t).cov⟩) := by
  obtain ⟨T, hT⟩ : ∃ T, os.length = T + 1 :=
    ⟨os.length - 1, by have := List.length_pos_iff.mpr hne; omega⟩
  rw [ukfSmooth, ukfFilter_affine h hc hp]
  simp only [bind, Except.bind, hT, Nat.add_sub_cancel]
  refine backFull_eq
    (fun t => (⟨(p.fn.kf (obsFn os) t).filtMean, (p.fn.kf (obsFn os) t).filtCov⟩ : Moments n))
    (fun t => (⟨(p.fn.ks (obsFn os) T t).mean, (p.fn.ks (obsFn os) T t).cov⟩ : Moments n)) T ?_ ?_
  · simp only [PFun.ks_last]
  · intro t ht
    have hpd := hp.filt t (by omega)
    obtain ⟨f, G, hf, hQG, hf'⟩ := h.f t (p.fn.A t) (p.fn.b t) (p.fn.Q t)
      (lastDims_eq_ok (hc.A.mono (by omega))) (lastDims_eq_ok (hc.b.mono (by omega)))
      (lastDims_eq_ok (hc.Q.mono (by omega)))
    set x := (p.fn.kf (obsFn os) t).filtMean with hx
    set P := (p.fn.kf (obsFn os) t).filtCov with hP
    obtain ⟨s, hs, hs'⟩ := augPoints_ok (M := ⟨x, P⟩) hpd hp.Q
    simp only at hs'
    set M := p.fn.A t * selL n n + G * selR n n with hM
    have hF : ∀ z, f (selL n n *ᵥ z) (selR n n *ᵥ z) = M *ᵥ z + p.fn.b t := by
      intro z
      rw [hf', hM, add_mulVec, ← mulVec_mulVec, ← mulVec_mulVec]
    set S := blockDiag P u.Q with hS
    have hMM : M * S * Mᵀ = p.fn.A t * P * (p.fn.A t)ᵀ + G * u.Q * Gᵀ := by
      have e : M * S * Mᵀ
          = p.fn.A t * (selL n n * S * (selL n n)ᵀ) * (p.fn.A t)ᵀ
            + p.fn.A t * (selL n n * S * (selR n n)ᵀ) * Gᵀ
            + G * (selR n n * S * (selL n n)ᵀ) * (p.fn.A t)ᵀ
            + G * (selR n n * S * (selR n n)ᵀ) * Gᵀ := by
        rw [hM, transpose_add, transpose_mul, transpose_mul]
        simp only [Matrix.add_mul, Matrix.mul_add, Matrix.mul_assoc]
        abel
      rw [e, hS, blockDiag_ll, blockDiag_lr, blockDiag_rl, blockDiag_rr]
      simp
    have hML : M * S * (selL n n)ᵀ = p.fn.A t * P := by
      have e : M * S * (selL n n)ᵀ = p.fn.A t * (selL n n * S * (selL n n)ᵀ)
          + G * (selR n n * S * (selL n n)ᵀ) := by
        rw [hM]
        simp only [Matrix.add_mul, Matrix.mul_assoc]
      rw [e, hS, blockDiag_ll, blockDiag_rl]
      simp
    have hmu : M *ᵥ concat x (0 : Vec n) = p.fn.A t *ᵥ x := by
      rw [hM, add_mulVec, ← mulVec_mulVec, ← mulVec_mulVec, concat_left, concat_right, mulVec_zero,
        add_zero]
    have hpr := (hs'.map M (p.fn.b t) hF).points2moments
    have key := ufSmooth_affine hs' (selL n n) (Fx := fun z => selL n n *ᵥ z) (fun z => rfl) M
      (p.fn.b t) hF (p.fn.A t * P * (p.fn.A t)ᵀ + G * u.Q * Gᵀ)
      ⟨(p.fn.ks (obsFn os) T (t + 1)).mean, (p.fn.ks (obsFn os) T (t + 1)).cov⟩ (p.fn.A t)
      P hML (symm_of_posSemidef hpd.posSemidef)
    simp only [concat_left, hmu, hMM] at key hpr
    simp only [ukfSmoothStep, hs, hf, bind, Except.bind, pure, Except.pure, SigmaPoints.map_map₂]
    rw [hpr]
    rw [key, PFun.ks_lt _ _ ht]
    simp only [PFun.kf, PFun.next, PFun.correct, filterPredict, hQG, ← Matrix.mul_assoc, x, P]

theorem GParams.AffineAs.noise {u : GParams n m} {p : Params n m} (h : u.AffineAs p)
    {T : ℕ} (hc : p.Covers T) (hQ : u.Q.PosSemidef) (hR : u.R.PosSemidef) :
    (∀ t, t + 1 < T → (p.fn.Q t).PosSemidef) ∧ ∀ t, t < T → (p.fn.R t).PosSemidef := by
  constructor
  · intro t ht
    obtain ⟨f, G, hf, hQG, hf'⟩ := h.f t (p.fn.A t) (p.fn.b t) (p.fn.Q t)
      (lastDims_eq_ok (hc.A.mono (by omega))) (lastDims_eq_ok (hc.b.mono (by omega)))
      (lastDims_eq_ok (hc.Q.mono (by omega)))
    rw [hQG]
    exact posSemidef_conj' hQ G
  · intro t ht
    obtain ⟨g, H, hg, hRH, hg'⟩ := h.g t (p.fn.C t) (p.fn.d t) (p.fn.R t)
      (lastDims_eq_ok (hc.C.mono ht)) (lastDims_eq_ok (hc.d.mono ht)) (lastDims_eq_ok (hc.R.mono ht))
    rw [hRH]
    exact posSemidef_conj' hR H

end Verif
