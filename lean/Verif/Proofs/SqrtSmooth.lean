import Verif.Proofs.SqrtUnscented
import Mathlib.LinearAlgebra.Matrix.ToLin
import Mathlib.LinearAlgebra.FiniteDimensional.Lemmas
import Mathlib.LinearAlgebra.Dimension.Constructions

/-!
# The smoother of the square-root unscented filter
-/

open Matrix

namespace Verif

variable {n m k l N : ℕ}

/-! ### With two more state than observation dimensions it always divides by zero -/

theorem sqPoints2moments_upper {qr : QR} {s : SigmaPoints N k} {S2 : Mat k k} {M : Moments k}
    (h : sqPoints2moments qr s (some S2) = .ok M) : UpperTri M.cov := by
  simp only [sqPoints2moments, bind, Except.bind] at h
  obtain ⟨R, h1, h2, -⟩ := qrSquare_spec qr
    (hstack (qrPoints s ((Matrix.of s.points)ᵀ *ᵥ s.wm)) S2)ᵀ (by omega)
  rw [h1] at h
  cases h
  exact h2

theorem sqCorrect_downdate {qr : QR} {g : Vec n → Vec m} {pred : Moments n}
    {pts : SigmaPoints N n} {o : Obs m} {R2 : Mat m m} {s : Moments n} (hU : UpperTri pred.cov)
    (h : sqCorrect qr g pred pts o R2 = .ok s) :
    UpperTri s.cov ∧ ∃ W : Mat n m, ∀ i j, NotLast i j →
      (s.covᵀ * s.cov) i j = (pred.covᵀ * pred.cov) i j - (W * Wᵀ) i j := by
  simp only [sqCorrect, bind, Except.bind] at h
  cases ho : sqPoints2moments qr (pts.map g) (some R2) with
  | error e => rw [ho] at h; cases h
  | ok obs =>
    rw [ho] at h
    simp only [sqUnscentedCorrect] at h
    split at h
    · simp only [bind, Except.bind] at h
      generalize hK : (lstsq obs.covᵀ (lstsq obs.cov (crossCov pts pred.mean (pts.map g) obs.mean)ᵀ))ᵀ
        = K at h
      cases hc : cholupdate pred.cov (K * obs.cov)ᵀ (-1.0) with
      | error e => rw [hc] at h; cases h
      | ok B =>
        rw [hc] at h
        cases h
        obtain ⟨h1, -, h3⟩ := cholupdate_ok hU hc
        refine ⟨h1, K * obs.cov, fun i j hij => ?_⟩
        rw [h3 i j hij, transpose_transpose]
        norm_num
        ring
    · cases h
      exact ⟨hU, 0, by simp⟩

theorem sq_rank {U : Mat n n} {W : Mat n m} (hn : m + 2 ≤ n) (hU : UpperTri U)
    (hd : ∀ i : Fin n, (i : ℕ) + 1 < n → 0 < U i i)
    (h : ∀ i j, NotLast i j → (Uᵀ * U) i j = (W * Wᵀ) i j) : False := by
  -- a vector on the first `m + 1` coordinates that `Wᵀ` kills
  set B : Mat m (m + 1) := Wᵀ.submatrix id (Fin.castLE (by omega)) with hB
  have hker : LinearMap.ker (mulVecLin B) ≠ ⊥ := by
    apply LinearMap.ker_ne_bot_of_finrank_lt
    simp
  obtain ⟨y, hy, hy0⟩ := (Submodule.ne_bot_iff _).mp hker
  have hy : B *ᵥ y = 0 := by simpa using hy
  set x : Vec n := fun i => if h : (i : ℕ) < m + 1 then y ⟨i, h⟩ else 0 with hx
  have hxz : ∀ i : Fin n, ¬ (i : ℕ) + 1 < n → x i = 0 := fun i hi => by
    exact dif_neg (by omega)
  have hx0 : x ≠ 0 := by
    intro h0
    apply hy0
    funext i
    have h1 := congrFun h0 (Fin.castLE (by omega) i)
    have h2 : x (Fin.castLE (by omega) i) = y i := dif_pos i.2
    rw [h2] at h1
    exact h1
  have hWx : Wᵀ *ᵥ x = 0 := by
    funext a
    have h1 := congrFun hy a
    obtain ⟨d, rfl⟩ := Nat.exists_eq_add_of_le (show m + 1 ≤ n by omega)
    simp only [mulVec, dotProduct] at h1 ⊢
    rw [Fin.sum_univ_add]
    have hz : ∑ i : Fin d, Wᵀ a (Fin.natAdd (m + 1) i) * x (Fin.natAdd (m + 1) i) = 0 := by
      apply Finset.sum_eq_zero
      intro i _
      have : x (Fin.natAdd (m + 1) i) = 0 := dif_neg (by simp; omega)
      rw [this, mul_zero]
    rw [hz, add_zero]
    rw [← h1]
    apply Finset.sum_congr rfl
    intro i _
    simp only [hx, Fin.val_castAdd, i.2, dif_pos]
    rfl
  have hq : (U *ᵥ x) ⬝ᵥ (U *ᵥ x) = 0 := by
    have e1 : (U *ᵥ x) ⬝ᵥ (U *ᵥ x) = x ⬝ᵥ ((Uᵀ * U) *ᵥ x) := by
      rw [← mulVec_mulVec, dotProduct_mulVec x, vecMul_transpose]
    have e2 : x ⬝ᵥ ((W * Wᵀ) *ᵥ x) = 0 := by
      rw [← mulVec_mulVec, hWx, mulVec_zero, dotProduct_zero]
    rw [e1, ← e2]
    simp only [dotProduct, mulVec]
    apply Finset.sum_congr rfl
    intro i _
    by_cases hi : (i : ℕ) + 1 < n
    · congr 1
      apply Finset.sum_congr rfl
      intro j _
      rw [h i j (Or.inl hi)]
    · rw [hxz i hi, zero_mul, zero_mul]
  have hUx : U *ᵥ x = 0 := dotProduct_self_eq_zero.mp hq
  -- the last nonzero coordinate
  have hne : (Finset.univ.filter fun i => x i ≠ 0).Nonempty := by
    obtain ⟨i, hi⟩ := Function.ne_iff.mp hx0
    exact ⟨i, by simpa using hi⟩
  obtain ⟨i, hi, hmax⟩ := Finset.exists_maximal hne
  have hi : x i ≠ 0 := by simpa using hi
  have hgt : ∀ j, i < j → x j = 0 := fun j hj => by
    by_contra hxj
    exact absurd (hmax (by simpa using hxj) hj.le) (not_le.mpr hj)
  have := congrFun hUx i
  rw [mulVec, dotProduct, Finset.sum_eq_single i] at this
  · have hin : (i : ℕ) + 1 < n := by
      by_contra hin
      exact hi (hxz i hin)
    exact (mul_ne_zero (hd i hin).ne' hi) this
  · intro j _ hj
    rcases lt_or_gt_of_ne hj with hj | hj
    · rw [hU i j hj, zero_mul]
    · rw [hgt j hj, mul_zero]
  · simp

theorem sq_pair_fails (hn : m + 2 ≤ n) {qr : QR} {p : UParams n m} {Q2 : Mat n n} {R2 : Mat m m}
    {t : ℕ} {s s' x : Moments n} {o : Obs m} (h : sqStep qr p Q2 R2 (t + 1) (some s) o = .ok s') :
    sqSmoothStep qr p Q2 t s s' ≠ .ok x := by
  intro hx
  simp only [sqStep, Nat.add_sub_cancel, bind, Except.bind] at h
  simp only [sqSmoothStep, bind, Except.bind] at hx
  cases hf : p.f.at t with
  | error e => rw [hf] at h; cases h
  | ok f =>
    rw [hf] at h hx
    simp only at h hx
    cases hp : sqPoints2moments qr ((sqMoments2points s).map f) (some Q2) with
    | error e => rw [hp] at h; cases h
    | ok pred =>
      rw [hp] at h hx
      simp only at h hx
      cases hg : p.g.at (t + 1) with
      | error e => rw [hg] at h; cases h
      | ok g =>
        rw [hg] at h
        simp only at h
        have hU := sqPoints2moments_upper hp
        obtain ⟨h1, W, h2⟩ := sqCorrect_downdate hU h
        cases hc : cholupdate pred.cov s'.cov (-1.0) with
        | error e => rw [hc] at hx; cases hx
        | ok V =>
          obtain ⟨h3, h4, h5⟩ := cholupdate_ok hU hc
          refine sq_rank hn h3 (h4 (by omega)) (W := W) fun i j hij => ?_
          rw [h5 i j hij, Matrix.add_apply, Matrix.smul_apply, h2 i j hij]
          norm_num

theorem backLoop_fails {σ : Type} {step : ℕ → Option σ → Obs m → Res σ} {bstep : ℕ → σ → σ → Res σ}
    (h : ∀ t s o s' x, step (t + 1) (some s) o = .ok s' → bstep t s s' ≠ .ok x)
    (os : List (Obs m)) (hos : os ≠ []) (t : ℕ) (s : σ) {l : List σ}
    (hl : runLoop step (t + 1) (some s) os = .ok l) {r : σ × List σ} :
    backLoop bstep t s l ≠ .ok r := by
  induction os generalizing t s l r with
  | nil => exact absurd rfl hos
  | cons o os ih =>
    rw [runLoop] at hl
    cases hs : step (t + 1) (some s) o with
    | error e => rw [hs] at hl; cases hl
    | ok s' =>
      rw [hs] at hl
      simp only [bind, Except.bind] at hl
      cases hr : runLoop step (t + 1 + 1) (some s') os with
      | error e => rw [hr] at hl; cases hl
      | ok l' =>
        rw [hr] at hl
        cases hl
        intro hb
        rw [backLoop] at hb
        cases hb' : backLoop bstep (t + 1) s' l' with
        | error e => rw [hb'] at hb; cases hb
        | ok q =>
          by_cases hos' : os = []
          · subst hos'
            cases hr
            cases hb'
            simp only [backLoop, bind, Except.bind, pure, Except.pure] at hb
            cases hx : bstep t s s' with
            | error e => rw [hx] at hb; cases hb
            | ok x => exact h t s o s' x hs hx
          · exact ih hos' (t + 1) s' hr hb'

theorem sqSmooth_fails (hn : m + 2 ≤ n) (qr : QR) (p : UParams n m) (os : List (Obs m))
    (hos : 2 ≤ os.length) (l : List (Moments n)) : sqSmooth qr p os ≠ .ok l := by
  intro h
  simp only [sqSmooth, sqFull, sqSmoothFull, bind, Except.bind] at h
  cases hQ : cholUpper p.Q with
  | error e => rw [hQ] at h; cases h
  | ok Q2 =>
    rw [hQ] at h
    cases hR : cholUpper p.R with
    | error e => rw [hR] at h; cases h
    | ok R2 =>
      rw [hR] at h
      simp only at h
      match os, hos with
      | o :: o' :: os, _ =>
        rw [runLoop] at h
        cases hs : sqStep qr p Q2 R2 0 none o with
        | error e => rw [hs] at h; cases h
        | ok s =>
          rw [hs] at h
          simp only [bind, Except.bind] at h
          cases hr : runLoop (sqStep qr p Q2 R2) (0 + 1) (some s) (o' :: os) with
          | error e => rw [hr] at h; cases h
          | ok l' =>
            rw [hr] at h
            simp only [pure, Except.pure, backFull, bind, Except.bind] at h
            cases hb : backLoop (sqSmoothStep qr p Q2) 0 s l' with
            | error e => rw [hb] at h; cases h
            | ok r =>
              exact backLoop_fails (fun t s o s' x h => sq_pair_fails hn h) (o' :: os) (by simp) 0 s
                hr hb

/-! ### One state dimension -/

theorem cholupdate_one (A X : Mat 1 1) {P : Mat 1 1} (hP : P 0 0 = A 0 0 ^ 2 - X 0 0 ^ 2)
    (h : 0 ≤ P 0 0) : ∃ B, cholupdate A X (-1.0) = .ok B ∧ Bᵀ * B = P := by
  refine ⟨Matrix.of fun _ _ => Real.sqrt (P 0 0), ?_, ?_⟩
  · have hs : Real.sign (-1.0) = -1 := Real.sign_of_neg (by norm_num)
    have ha : |(-1.0 : ℝ)| = 1 := by norm_num
    simp only [cholupdate, hs, ha, Real.sqrt_one, one_smul]
    have hf : List.finRange 1 = [0] := rfl
    rw [hf]
    simp only [List.foldlM_cons, List.foldlM_nil, cholupdateVec, hf, bind, Except.bind, pure,
      Except.pure]
    have : ¬ (((0 : Fin 1) : ℕ) + 1 < 1 ∧ (A 0 0 = 0 ∨ cholupdateR (-1) (A 0 0) (X 0 0) = 0)) := by
      rintro ⟨h, -⟩; simp at h
    rw [cholupdateStep_eq, if_neg this]
    simp only
    congr 1
    ext i j
    have hi : i = 0 := Subsingleton.elim _ _
    have hj : j = 0 := Subsingleton.elim _ _
    subst hi hj
    have e : A 0 0 ^ 2 + -1 * X 0 0 ^ 2 = P 0 0 := by rw [hP]; ring
    have e' : cholupdateR (-1) (A 0 0) (X 0 0) = Real.sqrt (P 0 0) := by
      simp only [cholupdateR, e, not_lt.mpr h, if_false]
    rw [updateRow_self, cuRow_self]
    exact e'
  · ext i j
    have hi : i = 0 := Subsingleton.elim _ _
    have hj : j = 0 := Subsingleton.elim _ _
    subst hi hj
    simp [Matrix.mul_apply, Real.mul_self_sqrt h]

theorem ufSmooth_eq (filt : Moments n) (pts ptsPred : SigmaPoints N n) (pred next : Moments n) :
    ufSmooth filt pts ptsPred pred next
      = ⟨filt.mean + (pairCov ptsPred pts pred.mean filt.mean * pinv pred.cov)
            *ᵥ (next.mean - pred.mean),
         filt.cov + (pairCov ptsPred pts pred.mean filt.mean * pinv pred.cov)
            * (next.cov - pred.cov)
            * (pairCov ptsPred pts pred.mean filt.mean * pinv pred.cov)ᵀ⟩ := rfl

/-- One step of the smoother, when the first downdate is possible. -/
theorem sqSmoothStep_spec (qr : QR) {u : UParams n m} (hu : StepFine u)
    {Q2 : Mat n n} (hQ2 : Q2 * Q2ᵀ = u.Q) {t : ℕ} {M M2 next next2 x : Moments n}
    (hM : Root M M2) (hn : Root next next2) (hx : aukfSmoothStep u t M next = .ok x)
    (hxp : x.cov.PosDef)
    (hd : ∀ pts f pred2, moments2points M = .ok pts → u.f.at t = .ok f →
      Root (points2moments (pts.map f) (some u.Q)) pred2 →
      ∃ U, cholupdate pred2.cov next2.cov (-1.0) = .ok U ∧
        Uᵀ * U = (points2moments (pts.map f) (some u.Q)).cov - next.cov) :
    ∃ x2, sqSmoothStep qr u Q2 t M2 next2 = .ok x2 ∧ Root x x2 := by
  obtain ⟨L, h5, h6, h7⟩ := hM.points
  simp only [aukfSmoothStep, h6, bind, Except.bind] at hx
  cases hf : u.f.at t with
  | error e => rw [hf] at hx; cases hx
  | ok f =>
    rw [hf] at hx
    simp only [pure, Except.pure] at hx
    cases hx
    obtain ⟨p1, p2⟩ := hu.pred M L hM.posDef h5 t f hf
    obtain ⟨R, h8, h9, h10⟩ := sqPoints2moments_some qr (finePoints_sigma hM.mean h7 p1) Q2
    rw [hQ2, ← h7.points2moments f] at h10
    rw [← h7.points2moments f] at h8
    set pts := sigmaPoints M.mean L none none none with hpts
    set pred := points2moments (pts.map f) (some u.Q) with hpred
    have hpr : Root pred ⟨pred.mean, R⟩ :=
      ⟨rfl, h9.factor_of_posDef (by rw [h10]; exact p2), h10⟩
    obtain ⟨U, h11, h12⟩ := hd _ f _ h6 hf hpr
    have hu := hpr.factor.isUnit_det
    have hut : IsUnit (Rᵀ).det := by rw [det_transpose]; exact hu
    have hug : IsUnit (Rᵀ * R).det := by rw [det_mul]; exact hut.mul hu
    have hmm : M2.mean = M.mean := hM.mean
    have hpair := h7.pairCov f pred.mean M.mean
    have hG : (lstsq R (lstsq Rᵀ (pairCov ((sqMoments2points M2).map f) (sqMoments2points M2)
        pred.mean M2.mean)ᵀ))ᵀ
        = pairCov (pts.map f) pts pred.mean M.mean * pinv pred.cov := by
      rw [hmm, ← hpair, ← h10, lstsq, lstsq, pinv_eq_inv hut, pinv_eq_inv hu, pinv_eq_inv hug,
        Matrix.mul_inv_rev, transpose_mul, transpose_mul, transpose_transpose,
        transpose_nonsing_inv, transpose_nonsing_inv, transpose_transpose, Matrix.mul_assoc]
    rw [ufSmooth_eq] at hxp ⊢
    set G := pairCov (pts.map f) pts pred.mean M.mean * pinv pred.cov with hGd
    have hgr : M2.covᵀ * M2.cov + (-1.0 : ℝ) • (((G * Uᵀ)ᵀ)ᵀ * (G * Uᵀ)ᵀ)
        = M.cov + G * (next.cov - pred.cov) * Gᵀ := by
      rw [transpose_transpose, transpose_mul, transpose_transpose, hM.gram, Matrix.mul_assoc G,
        ← Matrix.mul_assoc Uᵀ, h12]
      have : (-1.0 : ℝ) = -1 := by norm_num
      rw [this, neg_smul, one_smul, ← neg_sub pred.cov next.cov, Matrix.mul_neg, Matrix.neg_mul,
        Matrix.mul_assoc G (pred.cov - next.cov) Gᵀ]
    obtain ⟨B, h13, h14, -, h15⟩ := cholupdate_spec hM.factor (G * Uᵀ)ᵀ (-1.0)
      (by rw [hgr]; exact hxp)
    refine ⟨⟨M2.mean + G *ᵥ (next2.mean - pred.mean), B⟩, ?_, ?_⟩
    · have h8' : sqPoints2moments qr ((sqMoments2points M2).map f) (some Q2) = .ok ⟨pred.mean, R⟩ := h8
      simp only [sqSmoothStep, hf, bind, Except.bind, h8', hG, h11, h13, pure, Except.pure]
    · exact ⟨by simp only [hmm, hn.mean], h14, by rw [h15, hgr]⟩

theorem ufCorrect_le_one {pred : Moments 1} {pts : SigmaPoints N 1} {g : Vec 1 → Vec m} {o : Obs m}
    {R : Mat m m} (hp : (points2moments (pts.map g) (some R)).cov.PosDef) :
    (ufCorrect g pred pts o R).cov 0 0 ≤ pred.cov 0 0 := by
  simp only [ufCorrect, unscentedCorrect]
  split
  · simp only [Matrix.sub_apply]
    have : (crossCov pts pred.mean (pts.map g) (points2moments (pts.map g) (some R)).mean
        * pinv (points2moments (pts.map g) (some R)).cov
        * (crossCov pts pred.mean (pts.map g) (points2moments (pts.map g) (some R)).mean)ᵀ).PosSemidef :=
      posSemidef_conj' (pinv_posSemidef hp.posSemidef) _
    have := this.diag_nonneg (i := 0)
    linarith
  · exact le_rfl

theorem ufSmooth_le_one {filt pred next : Moments 1} {pts ptsPred : SigmaPoints N 1}
    (h : next.cov 0 0 ≤ pred.cov 0 0) :
    (ufSmooth filt pts ptsPred pred next).cov 0 0 ≤ filt.cov 0 0 := by
  rw [ufSmooth_eq]
  generalize pairCov ptsPred pts pred.mean filt.mean * pinv pred.cov = G
  simp only [Matrix.add_apply, Matrix.mul_apply, Matrix.sub_apply, transpose_apply,
    Finset.univ_unique, Fin.default_eq_zero, Finset.sum_singleton]
  nlinarith [mul_self_nonneg (G 0 0)]

theorem sqBack_one (qr : QR) {u : UParams 1 1} (hQ : u.Q.PosDef) (hR : u.R.PosDef)
    (hS : u.S0.PosDef) {Q2 R2 : Mat 1 1} (hQ2 : Q2 * Q2ᵀ = u.Q)
    (os : List (Obs 1)) (t : ℕ) {M M2 : Moments 1} (hM : Root M M2) {l l2 : List (Moments 1)}
    (hl : runLoop (aukfStep u) (t + 1) (some M) os = .ok l) (hl2 : List.Forall₂ Root l l2)
    {r : Moments 1 × List (Moments 1)} (hr : backLoop (aukfSmoothStep u) t M l = .ok r) :
    ∃ r2, backLoop (sqSmoothStep qr u Q2) t M2 l2 = .ok r2 ∧ Root r.1 r2.1 ∧
      List.Forall₂ Root r.2 r2.2 ∧ r.1.cov 0 0 ≤ M.cov 0 0 := by
  have hfine : StepFine u := stepFine_of_le_three (by norm_num) hQ hR
  induction os generalizing t M M2 l l2 r with
  | nil =>
    cases hl
    cases hl2
    cases hr
    exact ⟨(M2, []), rfl, hM, .nil, le_rfl⟩
  | cons o os ih =>
    rw [runLoop] at hl
    cases hs : aukfStep u (t + 1) (some M) o with
    | error e => rw [hs] at hl; cases hl
    | ok M' =>
      rw [hs] at hl
      simp only [bind, Except.bind] at hl
      cases hrl : runLoop (aukfStep u) (t + 1 + 1) (some M') os with
      | error e => rw [hrl] at hl; cases hl
      | ok l' =>
        rw [hrl] at hl
        cases hl
        cases hl2 with
        | @cons _ M2' _ l2' hM' hl2' =>
        rw [backLoop] at hr
        cases hb : backLoop (aukfSmoothStep u) (t + 1) M' l' with
        | error e => rw [hb] at hr; cases hr
        | ok q =>
          rw [hb] at hr
          simp only [bind, Except.bind] at hr
          cases hx : aukfSmoothStep u t M q.1 with
          | error e => rw [hx] at hr; cases hr
          | ok x =>
            rw [hx] at hr
            cases hr
            obtain ⟨q2, h1, h2, h3, h4⟩ := ih (t + 1) hM' hrl hl2' hb
            -- the row after `M` in the filter
            obtain ⟨pts, g1, g2, g3⟩ := moments2points_good (by norm_num : 1 ≤ 3) M hM.posDef
            have hs' := hs
            simp only [aukfStep, Option.getD_some, g1, bind, Except.bind, Nat.add_sub_cancel] at hs'
            cases hf : u.f.at t with
            | error e => rw [hf] at hs'; cases hs'
            | ok f =>
              rw [hf] at hs'
              simp only at hs'
              have hp := predict_posDef g3 f hQ
              obtain ⟨pts', g1', g2', g3'⟩ := moments2points_good (by norm_num : 1 ≤ 3) _ hp
              rw [g1'] at hs'
              simp only at hs'
              cases hg : u.g.at (t + 1) with
              | error e => rw [hg] at hs'; cases hs'
              | ok g =>
                rw [hg] at hs'
                cases hs'
                have hle := ufCorrect_le_one (pred := points2moments (pts.map f) (some u.Q))
                  (o := o) (predict_posDef g3' g hR)
                have hle' : q.1.cov 0 0 ≤ (points2moments (pts.map f) (some u.Q)).cov 0 0 :=
                  le_trans h4 hle
                have hxe : x = ufSmooth M pts (pts.map f) (points2moments (pts.map f) (some u.Q)) q.1 := by
                  have hx' := hx
                  simp only [aukfSmoothStep, g1, hf, bind, Except.bind, pure, Except.pure] at hx'
                  cases hx'
                  rfl
                have hxp : x.cov.PosDef := by
                  rw [hxe]
                  exact ufSmooth_posDef g2 g3 hM.posDef hQ f h2.posDef
                obtain ⟨x2, h5, h6⟩ := sqSmoothStep_spec qr hfine hQ2 hM h2 hx hxp
                  (fun pts₁ f₁ pred2 e1 e2 e3 => by
                    rw [g1] at e1
                    cases e1
                    rw [hf] at e2
                    cases e2
                    refine cholupdate_one pred2.cov q2.1.cov (P := _) ?_ ?_
                    · rw [← e3.gram, ← h2.gram]
                      simp [Matrix.mul_apply, Matrix.sub_apply, sq]
                    · simp only [Matrix.sub_apply]
                      linarith)
                refine ⟨(x2, q2.1 :: q2.2), ?_, h6, .cons h2 h3, ?_⟩
                · rw [backLoop, h1]
                  simp only [bind, Except.bind, h5, pure, Except.pure]
                · show x.cov 0 0 ≤ M.cov 0 0
                  rw [hxe]
                  exact ufSmooth_le_one hle'

end Verif
