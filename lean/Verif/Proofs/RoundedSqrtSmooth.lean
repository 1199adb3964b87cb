import Verif.Proofs.RoundedSqrtUnscented
import Verif.Proofs.SqrtSmooth

/-!
# The square root unscented smoother in arithmetic with rounding errors, one dimension

The difference of predicted and smoothed variance may be zero.  Its computed square root does not
converge at the rate of the errors, but its square does.
-/

open Matrix Topology

namespace Verif

variable {c : ℕ → ℝ} {ι : Type} {F : Filter ι} {w : ι → ℝ} {ar : ∀ i, ArithS c (w i)}

theorem bdd_of_sq {x : ι → ℝ} (h : Bdd F fun i => x i ^ 2) : Bdd F x :=
  Bdd.of_le (h.add (bdd_const 1)) (Filter.Eventually.of_forall fun i => by
    rw [abs_le]
    constructor <;> cases abs_cases (x i ^ 2 + 1) <;> nlinarith [sq_nonneg (x i - 1), sq_nonneg (x i + 1)])

/-- The computed root of a computed difference. -/
theorem near_flCholupdateR_sq (hw : Filter.Tendsto w F (𝓝 0)) {x y : ι → ℝ} {a b : ℝ}
    (hx : Ow F w (fun i => x i ^ 2) a) (hy : Ow F w (fun i => y i ^ 2) b) (hab : b ≤ a) :
    Ow F w (fun i => flCholupdateR (ar i) (Real.sign (-1.0)) (x i)
      ((ar i).mulr ((ar i).sqrt |(-1.0 : ℝ)|) (y i)) ^ 2) (a - b) := by
  have h1 : |(-1.0 : ℝ)| = 1 := by norm_num
  have hs : Real.sign (-1.0) = -1 := Real.sign_of_neg (by norm_num)
  rw [h1, hs]
  have hyb := bdd_of_sq (hy.bdd hw)
  -- the scaled vector
  have hq : Ow F w (fun i => (ar i).sqrt 1) 1 := by
    have := ow_fl_sqrt (ar := fun i => (ar i).toArithU) hw (ow_const (1 : ℝ)) one_pos
    rwa [Real.sqrt_one] at this
  set z : ι → ℝ := fun i => (ar i).mulr ((ar i).sqrt 1) (y i) with hz
  have hzy : Ow F w (fun i => z i - y i) 0 := by
    have e1 : Ow F w (fun i => z i - (ar i).sqrt 1 * y i) 0 :=
      ow_of_err' (K := 1) (g := fun _ => 0) (ow_const 0) ((hq.bdd hw).mul hyb).abs
        (Filter.Eventually.of_forall fun i => by
          rw [sub_zero, one_mul]; exact (ar i).mulr_err _ _)
    have e2 : Ow F w (fun i => (ar i).sqrt 1 - 1) 0 := by
      have := hq.sub (ow_const (F := F) (w := w) (1 : ℝ))
      rwa [sub_self] at this
    have := e1.add (ow_zero_mul e2 hyb)
    rw [add_zero] at this
    refine this.congr_ev (Filter.Eventually.of_forall fun i => ?_)
    ring
  have hzb : Bdd F z := by
    have := (hzy.bdd hw).add hyb
    simpa using this
  have hz2 : Ow F w (fun i => z i ^ 2) b := by
    have := hy.add (ow_zero_mul hzy (hzb.add hyb))
    rw [add_zero] at this
    refine this.congr_ev (Filter.Eventually.of_forall fun i => ?_)
    ring
  have sq_near : ∀ {x : ι → ℝ} {a : ℝ}, Ow F w (fun i => x i ^ 2) a →
      Ow F w (fun i => (ar i).sq (x i)) a := fun h =>
    ow_of_err' (K := 1) h (h.bdd hw) (Filter.Eventually.of_forall fun i => by
      rw [one_mul]; exact (ar i).sq_err _)
  have hr : Ow F w (fun i => (ar i).add ((ar i).sq (x i)) ((ar i).mulr (-1) ((ar i).sq (z i))))
      (a - b) := by
    have := ow_fl_add (br := fun i => (ar i).toArith) hw (sq_near hx)
      (ow_fl_mulr (er := fun i => (ar i).toArithE) hw (ow_const (-1)) (sq_near hz2))
    rwa [neg_one_mul, ← sub_eq_add_neg] at this
  set r2 : ι → ℝ := fun i => (ar i).add ((ar i).sq (x i)) ((ar i).mulr (-1) ((ar i).sq (z i)))
    with hr2
  have hrb := hr.bdd hw
  have hmb : Bdd F fun i => √(max (r2 i) 0) :=
    Bdd.of_le (hrb.abs.add (bdd_const 1)) (Filter.Eventually.of_forall fun i => by
      refine (abs_sqrt_le (le_max_right _ _)).trans ?_
      rw [abs_of_nonneg (by positivity), abs_of_nonneg (by positivity)]
      have : max (r2 i) 0 ≤ |r2 i| := max_le (le_abs_self _) (abs_nonneg _)
      linarith)
  -- the positive part
  have hm : Ow F w (fun i => max (r2 i) 0) (a - b) := by
    refine Asymptotics.IsBigO.trans (Asymptotics.IsBigO.of_bound 1
      (Filter.Eventually.of_forall fun i => ?_)) hr
    rw [one_mul, Real.norm_eq_abs, Real.norm_eq_abs]
    have h0 : a - b = max (a - b) 0 := (max_eq_left (by linarith)).symm
    conv_lhs => rw [h0]
    exact abs_max_sub_max_le_abs _ _ _
  -- its root
  have he : Ow F w (fun i => (ar i).sqrt (max (r2 i) 0) - √(max (r2 i) 0)) 0 :=
    ow_of_err' (K := 1) (g := fun _ => 0) (ow_const 0) hmb
      (Filter.Eventually.of_forall fun i => by
        rw [sub_zero, one_mul]; exact (ar i).sqrt_err _ (le_max_right _ _))
  have hsb : Bdd F fun i => (ar i).sqrt (max (r2 i) 0) := by
    have := (he.bdd hw).add hmb
    simpa using this
  have hsq : Ow F w (fun i => (ar i).sqrt (max (r2 i) 0) ^ 2) (a - b) := by
    have := hm.add (ow_zero_mul he (hsb.add hmb))
    rw [add_zero] at this
    refine this.congr_ev (Filter.Eventually.of_forall fun i => ?_)
    have := Real.mul_self_sqrt (le_max_right (r2 i) 0)
    linear_combination -this
  refine Asymptotics.IsBigO.trans (Asymptotics.IsBigO.of_bound 1
    (Filter.Eventually.of_forall fun i => ?_))
    ((Asymptotics.IsBigO.norm_left hsq).add (Asymptotics.IsBigO.norm_left hm))
  rw [one_mul, Real.norm_of_nonneg (add_nonneg (norm_nonneg _) (norm_nonneg _))]
  have e : flCholupdateR (ar i) (-1) (x i) ((ar i).mulr ((ar i).sqrt 1) (y i))
      = if r2 i < 0 then 0.0 else (ar i).sqrt (r2 i) := rfl
  show ‖flCholupdateR (ar i) (-1) (x i) ((ar i).mulr ((ar i).sqrt 1) (y i)) ^ 2 - (a - b)‖
    ≤ ‖(ar i).sqrt (max (r2 i) 0) ^ 2 - (a - b)‖ + ‖max (r2 i) 0 - (a - b)‖
  rw [e]
  split
  · rename_i h
    rw [max_eq_right h.le]
    have : ((0.0 : ℝ) ^ 2 : ℝ) = 0 := by norm_num
    rw [this]
    exact le_add_of_nonneg_left (norm_nonneg _)
  · rename_i h
    rw [max_eq_left (not_lt.mp h)]
    exact le_add_of_nonneg_right (norm_nonneg _)

/-- `cholupdate` of a number. -/
theorem flCholupdate_one {u : ℝ} (ar : ArithS c u) (A X : Mat 1 1) :
    flCholupdate ar A X (-1.0) = .ok (Matrix.of fun _ _ => flCholupdateR ar (Real.sign (-1.0)) (A 0 0)
      (ar.mulr (ar.sqrt |(-1.0 : ℝ)|) (X 0 0))) := by
  have e1 : List.finRange 1 = [0] := rfl
  have h0 : ¬ ((0 : ℕ) + 1 < 1) := by omega
  simp only [flCholupdate, e1, List.foldlM_cons, List.foldlM_nil, flCholupdateVec, flCholupdateStep,
    Fin.val_zero, h0, false_and, if_false, bind, Except.bind, pure, Except.pure]
  congr 1
  ext i j
  have hi : i = 0 := Subsingleton.elim _ _
  have hj : j = 0 := Subsingleton.elim _ _
  subst hi hj
  simp

/-- A step of the smoother, near the step of the additive smoother. -/
theorem near_flSqSmoothStep (hw : Filter.Tendsto w F (𝓝 0)) {p : UParams 1 1} (hu : StepFine p)
    {κf κg : Vec 1 → ℝ} {f : ι → Fns (Vec 1 → Vec 1)} {g : ι → Fns (Vec 1 → Vec 1)}
    (hp : UFnsNear κf κg p w f g) {Q2 : ι → Mat 1 1} {Q2' : Mat 1 1} (hQ2 : OwM F w Q2 Q2')
    (eQ : Q2' * Q2'ᵀ = p.Q) {p' : ι → UParams 1 1} (ep : ∀ i, (p' i).f = f i)
    (t : ℕ) {s x : ι → Moments 1} {s' x' v : Moments 1} (hs : SqNear F w s s')
    (hx : SqNear F w x x') (hv : aukfSmoothStep p t s' x' = .ok v) (hpos : v.cov.PosDef)
    (hle : ∀ pts f, moments2points s' = .ok pts → p.f.at t = .ok f →
      x'.cov 0 0 ≤ (points2moments (pts.map f) (some p.Q)).cov 0 0) :
    EvNear F (SqNear F w) (fun i => flSqSmoothStep (ar i) (p' i) (Q2 i) t (s i) (x i))
      (aukfSmoothStep p t s' x') := by
  refine SqNear.glue (s := fun i => diagSigns (s i).cov) fun d => ?_
  obtain ⟨U, hU, hUn⟩ := hs.root hw d
  have hle1 := part_le (F := F) (fun i => diagSigns (s i).cov) d
  obtain ⟨L, h5, h6, h7⟩ := hU.points
  have hw' := hw.mono_left hle1
  have hpts := near_flSqMoments2points (ar := ar) hw' (M' := s') (hs.mean.mono hle1) hUn
  simp only [aukfSmoothStep, h6, bind, Except.bind] at hv ⊢
  obtain ⟨f', ef, hv⟩ := ok_bind_iff.mp hv
  obtain ⟨fi, ef1, ef2⟩ := Fns.Within.at hp.f ef
  obtain ⟨p1, p2⟩ := hu.pred s' L hs.pos h5 _ f' ef
  have hmp := hpts.map hw' hp.cf ef2 (hp.lf.at ef)
  obtain ⟨pr, hpe, hpr⟩ := near_flSqPoints2moments (ar := ar) hw' hmp
    (finePoints_sigma hU.mean h7 p1) (hQ2.mono hle1) eQ
    (by rw [← h7.points2moments f']; exact p2)
  rw [← h7.points2moments f'] at hpr
  have hle := hle _ f' h6 ef
  simp only [ef, pure, Except.pure] at hv ⊢
  cases hv
  rw [ufSmooth_eq] at hpos ⊢
  refine SqNear.glue (s := fun i => diagSigns (pr i).cov) fun d' => ?_
  obtain ⟨V, hV, hVn⟩ := hpr.root hw' d'
  have hle2 := part_le (F := part F (fun i => diagSigns (s i).cov) d)
    (fun i => diagSigns (pr i).cov) d'
  have hw'' := hw'.mono_left hle2
  set pts := sigmaPoints s'.mean L none none none with hptsd
  set pred := points2moments (pts.map f') (some p.Q) with hpred
  set F' := part (part F (fun i => diagSigns (s i).cov) d) (fun i => diagSigns (pr i).cov) d'
  -- the gain
  have hu := hV.factor.isUnit_det
  have hut : IsUnit (Vᵀ).det := by rw [det_transpose]; exact hu
  have hug : IsUnit (Vᵀ * V).det := by rw [det_mul]; exact hut.mul hu
  have hpair : OwM F' w (fun i => flPairCov (ar i) ((flSqMoments2points (ar i) (s i)).map (fi i))
      (flSqMoments2points (ar i) (s i)) (pr i).mean (s i).mean)
      (pairCov (pts.map f') pts pred.mean s'.mean) := by
    rw [h7.pairCov f' pred.mean s'.mean]
    exact owM_transpose (ow_fl_mul (br := fun i => (ar i).toArith) hw''
      (ow_fl_mul (br := fun i => (ar i).toArith) hw''
        (fun a b => ow_fl_sub (br := fun i => (ar i).toArith) hw'' (((hmp.mono hle2).points b) a)
          ((hpr.mean.mono hle2) a))
        (owM_diagonal (hmp.mono hle2).wc))
      (fun a b => ow_fl_sub (br := fun i => (ar i).toArith) hw'' (((hpts.mono hle2).points a) b)
        ((hs.mean.mono (hle2.trans hle1)) b)))
  have hG : OwM F' w (fun i => ((ar i).lstsq 1 1 (pr i).cov ((ar i).lstsq 1 1 (pr i).covᵀ
      (flPairCov (ar i) ((flSqMoments2points (ar i) (s i)).map (fi i))
      (flSqMoments2points (ar i) (s i)) (pr i).mean (s i).mean)ᵀ))ᵀ)
      (pairCov (pts.map f') pts pred.mean s'.mean * pinv pred.cov) := by
    have := owM_transpose (ow_fl_lstsq (ar := ar) hw'' hVn hu
      (ow_fl_lstsq (ar := ar) hw'' (owM_transpose hVn) hut (owM_transpose hpair)))
    rwa [show (lstsq V (lstsq Vᵀ (pairCov (pts.map f') pts pred.mean s'.mean)ᵀ))ᵀ
        = pairCov (pts.map f') pts pred.mean s'.mean * pinv pred.cov by
      rw [← hV.gram, lstsq, lstsq, pinv_eq_inv hut, pinv_eq_inv hu, pinv_eq_inv hug,
        Matrix.mul_inv_rev, transpose_mul, transpose_mul, transpose_transpose,
        transpose_nonsing_inv, transpose_nonsing_inv, transpose_transpose, Matrix.mul_assoc]] at this
  set G := pairCov (pts.map f') pts pred.mean s'.mean * pinv pred.cov with hGd
  set K : ι → Mat 1 1 := fun i => ((ar i).lstsq 1 1 (pr i).cov ((ar i).lstsq 1 1 (pr i).covᵀ
      (flPairCov (ar i) ((flSqMoments2points (ar i) (s i)).map (fi i))
      (flSqMoments2points (ar i) (s i)) (pr i).mean (s i).mean)ᵀ))ᵀ with hK
  -- the first downdate
  have g1 : ∀ {y : ι → Moments 1} {y' : Moments 1} {F₀ : Filter ι}, SqNear F₀ w y y' →
      Ow F₀ w (fun i => (y i).cov 0 0 ^ 2) (y'.cov 0 0) := fun h => by
    have := h.gram 0 0
    simpa [Matrix.mul_apply, sq] using this
  have hD := near_flCholupdateR_sq (ar := ar) hw'' (g1 (hpr.mono hle2))
    (g1 (hx.mono (hle2.trans hle1))) hle
  set D : ι → ℝ := fun i => flCholupdateR (ar i) (Real.sign (-1.0)) ((pr i).cov 0 0)
      ((ar i).mulr ((ar i).sqrt |(-1.0 : ℝ)|) ((x i).cov 0 0)) with hDd
  have hDb := bdd_of_sq (hD.bdd hw'')
  -- the second
  have hKD : Ow F' w (fun i => ((ar i).mul (K i) (Matrix.of fun _ _ => D i : Mat 1 1)ᵀ) 0 0 ^ 2)
      (G 0 0 * G 0 0 * (pred.cov 0 0 - x'.cov 0 0)) := by
    have hKb := hG.bdd hw'' 0 0
    have e1 : Ow F' w (fun i => ((ar i).mul (K i) (Matrix.of fun _ _ => D i : Mat 1 1)ᵀ) 0 0
        - K i 0 0 * D i) 0 := by
      have := near_fl_mul (w := w) (br := fun i => (ar i).toArith) (x := K)
        (y := fun i => (Matrix.of fun _ _ => D i : Mat 1 1)ᵀ) (hG.bdd hw'') (fun _ _ => hDb) 0 0
      simpa [Matrix.mul_apply] using this
    have e2 : Ow F' w (fun i => K i 0 0 * K i 0 0 * D i ^ 2)
        (G 0 0 * G 0 0 * (pred.cov 0 0 - x'.cov 0 0)) :=
      ((hG 0 0).mul hw'' (hG 0 0)).mul hw'' hD
    have e3 : Bdd F' fun i => ((ar i).mul (K i) (Matrix.of fun _ _ => D i : Mat 1 1)ᵀ) 0 0 := by
      have := (e1.bdd hw'').add (hKb.mul hDb)
      exact Bdd.congr' this (Filter.Eventually.of_forall fun i => sub_add_cancel _ _)
    have := e2.add (ow_zero_mul e1 (e3.add (hKb.mul hDb)))
    rw [add_zero] at this
    exact this.congr_ev (Filter.Eventually.of_forall fun i => by ring)
  have hlast := near_flCholupdateR_sq (ar := ar) hw'' (g1 (hs.mono (hle2.trans hle1))) hKD (by
    have := hpos.diag_pos (i := 0)
    simp only [Matrix.add_apply, Matrix.mul_apply, Matrix.sub_apply, transpose_apply,
      Finset.univ_unique, Fin.default_eq_zero, Finset.sum_singleton] at this
    nlinarith)
  refine ⟨_, fun i => ⟨(ar i).vadd (s i).mean ((ar i).mulV (K i)
    ((ar i).vsub (x i).mean (pr i).mean)), Matrix.of fun _ _ => flCholupdateR (ar i)
      (Real.sign (-1.0)) ((s i).cov 0 0) ((ar i).mulr ((ar i).sqrt |(-1.0 : ℝ)|)
        (((ar i).mul (K i) (Matrix.of fun _ _ => D i : Mat 1 1)ᵀ) 0 0))⟩, rfl, ?_, ?_, ?_, ?_, hpos⟩
  · refine Filter.Eventually.of_forall fun i => ?_
    simp only [flSqSmoothStep, ep, ef1, hpe, bind, Except.bind, flCholupdate_one, pure, Except.pure]
    rfl
  · exact ow_fl_vadd (br := fun i => (ar i).toArith) hw'' (hs.mean.mono (hle2.trans hle1))
      (ow_fl_mulV (br := fun i => (ar i).toArith) hw'' hG
        (ow_fl_vsub (br := fun i => (ar i).toArith) hw'' (hx.mean.mono (hle2.trans hle1))
          (hpr.mean.mono hle2)))
  · exact Filter.Eventually.of_forall fun i a b hab => by omega
  · intro a b
    have ha : a = 0 := Subsingleton.elim _ _
    have hb : b = 0 := Subsingleton.elim _ _
    subst ha hb
    simp only [Matrix.mul_apply, Matrix.add_apply, Matrix.sub_apply, transpose_apply, of_apply,
      Finset.univ_unique, Fin.default_eq_zero, Finset.sum_singleton] at hlast ⊢
    rw [show s'.cov 0 0 + G 0 0 * (x'.cov 0 0 - pred.cov 0 0) * G 0 0
      = s'.cov 0 0 - G 0 0 * G 0 0 * (pred.cov 0 0 - x'.cov 0 0) by ring]
    simpa only [sq] using hlast

theorem near_flSqBack (hw : Filter.Tendsto w F (𝓝 0)) {p : UParams 1 1} (hQ : p.Q.PosDef)
    (hR : p.R.PosDef) {κf κg : Vec 1 → ℝ} {f : ι → Fns (Vec 1 → Vec 1)}
    {g : ι → Fns (Vec 1 → Vec 1)} (hp : UFnsNear κf κg p w f g) {Q2 : ι → Mat 1 1} {Q2' : Mat 1 1}
    (hQ2 : OwM F w Q2 Q2') (eQ : Q2' * Q2'ᵀ = p.Q) {p' : ι → UParams 1 1}
    (ep : ∀ i, (p' i).f = f i) (os : List (Obs 1)) (t : ℕ) {s : ι → Moments 1} {s' : Moments 1}
    (hs : SqNear F w s s') {rest : ι → List (Moments 1)} {rest' : List (Moments 1)}
    (hrun : runLoop (aukfStep p) (t + 1) (some s') os = .ok rest')
    (hrest : LNear (SqNear F w) rest rest') {r : Moments 1 × List (Moments 1)}
    (hr : backLoop (aukfSmoothStep p) t s' rest' = .ok r) :
    EvNear F (fun g v => SqNear F w (fun i => (g i).1) v.1 ∧ LNear (SqNear F w) (fun i => (g i).2) v.2)
      (fun i => backLoop (flSqSmoothStep (ar i) (p' i) (Q2 i)) t (s i) (rest i))
      (backLoop (aukfSmoothStep p) t s' rest') ∧ r.1.cov 0 0 ≤ s'.cov 0 0 := by
  have hfine : StepFine p := stepFine_of_le_three (by norm_num) hQ hR
  induction os generalizing t s s' rest rest' r with
  | nil =>
    cases hrun
    cases hrest
    cases hr
    exact ⟨EvNear.pure (g := fun i => (s i, ([] : List (Moments 1)))) (v := (s', [])) ⟨hs, .nil⟩, le_rfl⟩
  | cons o os ih =>
    rw [runLoop] at hrun
    obtain ⟨M', hM', hrun⟩ := ok_bind_iff.mp hrun
    obtain ⟨l', hl', hrun⟩ := ok_bind_iff.mp hrun
    cases hrun
    cases hrest with
    | @cons a _ b _ h ht =>
    rw [backLoop] at hr
    obtain ⟨q, hq, hr⟩ := ok_bind_iff.mp hr
    obtain ⟨x, hx, hr⟩ := ok_bind_iff.mp hr
    cases hr
    obtain ⟨h1, h2⟩ := ih (t + 1) h hl' ht hq
    -- the row after `s'` in the filter
    obtain ⟨pts, g1, g2, g3⟩ := moments2points_good (by norm_num : 1 ≤ 3) s' hs.pos
    simp only [aukfStep, Option.getD_some, g1, Nat.add_sub_cancel] at hM'
    obtain ⟨_, e, hM'⟩ := ok_bind_iff.mp hM'
    cases e
    obtain ⟨f', hf, hM'⟩ := ok_bind_iff.mp hM'
    have hpd := predict_posDef g3 f' hQ
    obtain ⟨pts', g1', g2', g3'⟩ := moments2points_good (by norm_num : 1 ≤ 3) _ hpd
    rw [g1'] at hM'
    obtain ⟨_, e, hM'⟩ := ok_bind_iff.mp hM'
    cases e
    obtain ⟨g', hg, e⟩ := ok_bind_iff.mp hM'
    cases e
    have hle := h2.trans (ufCorrect_le_one (pred := points2moments (pts.map f') (some p.Q))
      (o := o) (predict_posDef g3' g' hR))
    obtain ⟨vq, Gq, eq, -, hqn⟩ := h1
    obtain rfl : q = vq := by rw [hq] at eq; cases eq; rfl
    have hxe : x = ufSmooth s' pts (pts.map f') (points2moments (pts.map f') (some p.Q)) q.1 := by
      have hx' := hx
      simp only [aukfSmoothStep, g1, hf, bind, Except.bind, pure, Except.pure] at hx'
      cases hx'
      rfl
    have hxp : x.cov.PosDef := by
      rw [hxe]
      exact ufSmooth_posDef g2 g3 hs.pos hQ f' hqn.1.pos
    refine ⟨?_, by rw [hxe]; exact ufSmooth_le_one hle⟩
    simp only [backLoop]
    refine (ih (t + 1) h hl' ht hq).1.bind fun y y' hy hy' => ?_
    obtain rfl : q = y' := by rw [hq] at hy; cases hy; rfl
    refine (near_flSqSmoothStep (ar := ar) hw hfine hp hQ2 eQ ep t hs hy'.1 hx hxp
      fun pts₁ f₁ e1 e2 => ?_).bind fun z z' _ hz => ?_
    · rw [g1] at e1
      cases e1
      rw [hf] at e2
      cases e2
      exact hle
    · exact EvNear.pure (g := fun i => (z i, (y i).1 :: (y i).2)) (v := (z', q.1 :: q.2))
        ⟨hz, .cons hy'.1 hy'.2⟩

/-- The rounded square root smoother of one state and one observation dimension, near the additive
smoother. -/
theorem near_flSqSmooth (hw : Filter.Tendsto w F (𝓝 0)) {u : UParams 1 1} (hQ : u.Q.PosDef)
    (hR : u.R.PosDef) (hS : u.S0.PosDef) {κf κg : Vec 1 → ℝ}
    {f : ι → Fns (Vec 1 → Vec 1)} {g : ι → Fns (Vec 1 → Vec 1)} (hp : UFnsNear κf κg u w f g)
    {os : List (Obs 1)} {l : List (Moments 1)} (hl : aukfSmooth u os = .ok l) :
    EvNear F (LNear (MomNear F w))
      (fun i => flSqSmooth (ar i) { u with f := f i, g := g i } os) (aukfSmooth u os) := by
  have hu : StepFine u := stepFine_of_le_three (by norm_num) hQ hR
  obtain ⟨Q2, q2, e2, hq, hqn, -, hqg⟩ := near_flCholUpper (ar := ar) hw hQ
  obtain ⟨R2', r2, er, hr, hrn, -, hrg⟩ := near_flCholUpper (ar := ar) hw hR
  have eQ : Q2 * Q2ᵀ = u.Q := by
    rw [normal_one]
    exact hqg
  rw [← normal_one] at hrg
  have hl0 := hl
  obtain ⟨rows, hrows, hl⟩ := ok_bind_iff.mp hl
  have key := near_runLoop (F := F) (R := SqNear F w) (P := fun _ _ _ => True)
    (step := fun i => flSqStep (ar i) { u with f := f i, g := g i } (q2 i) (r2 i))
    (step' := aukfStep u)
    (fun t prev prev' o s h1 _ h2 => near_flSqStep (ar := ar) hw hu hS
      (κf := κf) (κg := κg) (f := f) (g := g) (p' := fun i => { u with f := f i, g := g i })
      hp hqn eQ hrn hrg (fun i => ⟨rfl, rfl, rfl, rfl⟩)
      t prev prev' o s h1 h2) os 0 (prev := fun _ => none) (prev' := none) (fun _ => rfl) hrows
      fun _ _ _ => trivial
  obtain ⟨v, G, hv, hG, hn⟩ := key
  obtain rfl : rows = v := by
    have : aukfFilter u os = .ok v := hv
    rw [hrows] at this
    cases this
    rfl
  cases os with
  | nil => cases hrows; cases hl
  | cons o os =>
  have hrun := hrows
  rw [aukfFilter, runLoop] at hrun
  obtain ⟨M, -, hrun⟩ := ok_bind_iff.mp hrun
  obtain ⟨rest, hrun', e⟩ := ok_bind_iff.mp hrun
  cases e
  cases hn with
  | @cons a _ b _ h ht =>
  have hb := hl
  simp only [backFull] at hb
  obtain ⟨q, hq', hb⟩ := ok_bind_iff.mp hb
  cases hb
  obtain ⟨v, G', hv', hG', hn'⟩ := (near_flSqBack (ar := ar) hw hQ hR hp hqn eQ
    (p' := fun i => { u with f := f i, g := g i }) (fun i => rfl) os 0 h hrun' ht hq').1
  obtain rfl : q = v := by rw [hq'] at hv'; cases hv'; rfl
  refine ⟨_, fun i => ((G' i).1 :: (G' i).2).map (flUnroot (ar i)), hl0, ?_,
    (LNear.cons hn'.1 hn'.2).unroot hw⟩
  filter_upwards [hG, hG', hq, hr] with i h1 h2 h3 h4
  simp only [flSqSmooth, flSqSmoothFull, flSqFull, backFull, h1, h2, h3, h4, bind, Except.bind, pure,
    Except.pure]

end Verif
