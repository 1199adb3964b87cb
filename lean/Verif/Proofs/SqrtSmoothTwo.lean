import Verif.Proofs.SqrtSmooth

/-!
# The smoother of the square-root unscented filter: two state dimensions, missing last row
-/

open Matrix

namespace Verif

variable {n m k l N : ℕ}

/-! ### Downdates whose first pivot vanishes -/

theorem cholupdate_zero {v : ℕ} (A : Mat (n + 2) (n + 2)) (X : Mat (v + 1) (n + 2))
    (h : A 0 0 ^ 2 ≤ X 0 0 ^ 2) : cholupdate A X (-1.0) = .error .nonFinite := by
  have hs : Real.sign (-1.0) = -1 := Real.sign_of_neg (by norm_num)
  have ha : |(-1.0 : ℝ)| = 1 := by norm_num
  have hr : cholupdateR (-1) (A 0 0) (X 0 0) = 0 := by
    simp only [cholupdateR]
    split_ifs with h0
    · norm_num
    · exact Real.sqrt_eq_zero_of_nonpos (by linarith)
  simp only [cholupdate, hs, ha, Real.sqrt_one, one_smul]
  rw [List.finRange_succ, List.foldlM_cons]
  have : cholupdateVec (-1) A (X 0) = .error .nonFinite := by
    rw [cholupdateVec, List.finRange_succ, List.foldlM_cons, cholupdateStep_eq,
      if_pos ⟨by simp, Or.inr hr⟩]
    rfl
  rw [this]
  rfl

theorem cholupdate_two_last {B : Mat 2 2} (hB : UFactor B) (y : ℝ) {P : Mat 2 2}
    (hP : Bᵀ * B = P + y ^ 2 • vecMulVec ![0, 1] ![0, 1]) (h : P.PosSemidef) :
    ∃ C, cholupdateVec (-1) B ![0, y] = .ok C ∧ Cᵀ * C = P := by
  have b0 := hB.diag 0
  have b10 : B 1 0 = 0 := hB.upper 1 0 (by decide)
  have e : ∀ i j, (Bᵀ * B) i j =
      (P + y ^ 2 • vecMulVec ![0, 1] ![0, 1] : Mat 2 2) i j := fun i j => by rw [hP]
  have e00 := e 0 0
  have e01 := e 0 1
  have e10 := e 1 0
  have e11 := e 1 1
  simp [Matrix.mul_apply, Fin.sum_univ_two, b10, vecMulVec_apply] at e00 e01 e10 e11
  set r := cholupdateR (-1) (B 0 0) 0 with hr
  have hr2 : r = |B 0 0| := by
    rw [hr, cholupdateR]
    simp only [ne_eq, OfNat.ofNat_ne_zero, not_false_eq_true, zero_pow, mul_zero, add_zero]
    rw [if_neg (not_lt.mpr (sq_nonneg _)), Real.sqrt_sq_eq_abs]
  have hr0 : r ≠ 0 := by rw [hr2]; exact abs_ne_zero.mpr b0
  have hrr : r * r = B 0 0 * B 0 0 := by rw [hr2, abs_mul_abs_self]
  set c := r / B 0 0 with hc
  have hcc : c * c = 1 := by rw [hc, div_mul_div_comm, hrr, div_self (mul_ne_zero b0 b0)]
  have hc0 : c ≠ 0 := div_ne_zero hr0 b0
  have hcb : c * B 0 0 = r := div_mul_cancel₀ _ b0
  have hdet : 0 ≤ B 1 1 ^ 2 - y ^ 2 := by
    have h1 : 0 ≤ P.det := h.det_nonneg
    rw [det_fin_two] at h1
    have p00 : P 0 0 = B 0 0 * B 0 0 := e00.symm
    have p01 : P 0 1 = B 0 0 * B 0 1 := e01.symm
    have p10 : P 1 0 = B 0 1 * B 0 0 := e10.symm
    have p11 : P 1 1 = B 0 1 * B 0 1 + B 1 1 * B 1 1 - y ^ 2 := by linarith
    rw [p00, p01, p10, p11] at h1
    have h2 : 0 ≤ (B 0 0 * B 0 0) * (B 1 1 ^ 2 - y ^ 2) := by
      calc (0 : ℝ) ≤ _ := h1
        _ = _ := by ring
    exact nonneg_of_mul_nonneg_right h2 (mul_self_pos.mpr b0)
  have hf : List.finRange 2 = [0, 1] := rfl
  refine ⟨!![r, B 0 1 / c; 0, Real.sqrt (B 1 1 ^ 2 - y ^ 2)], ?_, ?_⟩
  · rw [cholupdateVec, hf]
    simp only [List.foldlM_cons, List.foldlM_nil, bind, Except.bind, pure, Except.pure]
    rw [cholupdateStep_eq]
    have h00 : (![0, y] : Vec 2) 0 = 0 := rfl
    rw [h00, ← hr, if_neg (by rintro ⟨-, h | h⟩ <;> contradiction)]
    simp only
    rw [cholupdateStep_eq, if_neg (by rintro ⟨h, -⟩; simp at h)]
    simp only
    congr 1
    have hv : cuVec (-1) B ![0, y] 0 r 1 = c * y := by simp [cuVec, hc]
    have h11 : (B.updateRow 0 (cuRow (-1) B ![0, y] 0 r)) 1 1 = B 1 1 := by simp
    rw [hv, h11]
    have hr1 : cholupdateR (-1) (B 1 1) (c * y) = Real.sqrt (B 1 1 ^ 2 - y ^ 2) := by
      have : B 1 1 ^ 2 + -1 * (c * y) ^ 2 = B 1 1 ^ 2 - y ^ 2 := by
        linear_combination (-(y ^ 2)) * hcc
      simp only [cholupdateR, this]
      rw [if_neg (not_lt.mpr hdet)]
    rw [hr1]
    ext i j
    fin_cases i <;> fin_cases j <;> simp [cuRow, b10, hc]
  · have hsq := Real.mul_self_sqrt hdet
    ext i j
    fin_cases i <;> fin_cases j <;> simp [Matrix.mul_apply, Fin.sum_univ_two]
    · rw [hrr, e00]
    · rw [← e01, ← hcb]; field_simp
    · rw [← e10, ← hcb]; field_simp
    · rw [hsq]
      have : B 0 1 / c * (B 0 1 / c) = B 0 1 * B 0 1 := by
        rw [div_mul_div_comm, hcc, div_one]
      rw [this]
      linarith

/-- A downdate in two dimensions to a matrix that may be singular. -/
theorem cholupdate_two {A X P : Mat 2 2} (hA : UFactor A) (hX : UFactor X)
    (hP : P = Aᵀ * A - Xᵀ * X) (h : P.PosSemidef) (h0 : 0 < P 0 0) :
    ∃ B, cholupdate A X (-1.0) = .ok B ∧ Bᵀ * B = P := by
  have hs : Real.sign (-1.0) = -1 := Real.sign_of_neg (by norm_num)
  have ha : |(-1.0 : ℝ)| = 1 := by norm_num
  have x10 : X 1 0 = 0 := hX.upper 1 0 (by decide)
  have x1 : X 1 = ![0, X 1 1] := by
    funext i
    fin_cases i
    · exact x10
    · rfl
  have hxx : Xᵀ * X = vecMulVec (X 0) (X 0) + X 1 1 ^ 2 • vecMulVec ![0, 1] ![0, 1] := by
    ext i j
    fin_cases i <;> fin_cases j <;>
      simp [Matrix.mul_apply, Fin.sum_univ_two, vecMulVec_apply, x10, sq]
  have hg : Aᵀ * A + (-1 : ℝ) • vecMulVec (X 0) (X 0)
      = P + X 1 1 ^ 2 • vecMulVec ![0, 1] ![0, 1] := by
    rw [hP, hxx, neg_one_smul]
    abel
  have hpd : (Aᵀ * A + (-1 : ℝ) • vecMulVec (X 0) (X 0)).PosDef := by
    rw [hg, posDef_iff_real]
    have hsym : Pᵀ = P := symm_of_posSemidef h
    refine ⟨?_, fun x hx => ?_⟩
    · rw [transpose_add, transpose_smul, transpose_vecMulVec, hsym]
    · have e : x ⬝ᵥ ((P + X 1 1 ^ 2 • vecMulVec ![0, 1] ![0, 1]) *ᵥ x)
          = x ⬝ᵥ (P *ᵥ x) + (X 1 1 * x 1) ^ 2 := by
        rw [Matrix.add_mulVec, dotProduct_add]
        congr 1
        simp [dotProduct, mulVec, Fin.sum_univ_two, vecMulVec_apply]
        ring
      rw [e]
      have q0 : 0 ≤ x ⬝ᵥ (P *ᵥ x) := by
        have := h.dotProduct_mulVec_nonneg x
        simpa using this
      by_cases hx1 : x 1 = 0
      · have hx0 : x 0 ≠ 0 := fun h00 => hx (by funext i; fin_cases i <;> assumption)
        have : x ⬝ᵥ (P *ᵥ x) = P 0 0 * x 0 ^ 2 := by
          simp [dotProduct, mulVec, Fin.sum_univ_two, hx1]
          ring
        rw [this]
        have : 0 < x 0 ^ 2 := by positivity
        positivity
      · have : X 1 1 * x 1 ≠ 0 := mul_ne_zero (hX.diag 1) hx1
        positivity
  obtain ⟨B, h1, h2, -, h4⟩ := cholupdateVec_spec hA hpd
  obtain ⟨C, h5, h6⟩ := cholupdate_two_last h2 (X 1 1) (h4.trans hg) h
  refine ⟨C, ?_, h6⟩
  simp only [cholupdate, hs, ha, Real.sqrt_one, one_smul]
  have hf : List.finRange 2 = [0, 1] := rfl
  rw [hf]
  simp only [List.foldlM_cons, List.foldlM_nil, bind, Except.bind, pure, Except.pure]
  rw [h1]
  simp only
  rw [x1, h5]

/-! ### Missing last row -/

theorem sq_missing_fails (hn : 2 ≤ n) {qr : QR} {p : UParams n m} {Q2 : Mat n n} {R2 : Mat m m}
    {t : ℕ} {s s' x : Moments n} {o : Obs m} (ho : o.missing)
    (h : sqStep qr p Q2 R2 (t + 1) (some s) o = .ok s') :
    sqSmoothStep qr p Q2 t s s' ≠ .ok x := by
  obtain ⟨k, rfl⟩ := Nat.exists_eq_add_of_le' hn
  intro hx
  simp only [sqStep, Nat.add_sub_cancel, bind, Except.bind] at h
  simp only [sqSmoothStep, bind, Except.bind] at hx
  cases hf : p.f.at t with
  | error e => rw [hf] at h; cases h
  | ok f =>
    rw [hf] at h hx
    simp only at h hx
    cases hp : sqPoints2moments qr ((sqMoments2points s).map f) (some Q2) with
    | error e => rw [hp] at h; cases h
    | ok pred =>
      rw [hp] at h hx
      simp only at h hx
      cases hg : p.g.at (t + 1) with
      | error e => rw [hg] at h; cases h
      | ok g =>
        rw [hg] at h
        simp only [sqCorrect, bind, Except.bind] at h
        cases hq : sqPoints2moments qr ((sqMoments2points pred).map g) (some R2) with
        | error e => rw [hq] at h; cases h
        | ok obs =>
          rw [hq] at h
          simp only [sqUnscentedCorrect, ho, not_true_eq_false, if_false, pure, Except.pure] at h
          cases h
          rw [cholupdate_zero (n := k) (v := k + 1) s'.cov s'.cov le_rfl] at hx
          cases hx

theorem backLoop_fails_last {σ : Type} {step : ℕ → Option σ → Obs m → Res σ}
    {bstep : ℕ → σ → σ → Res σ} {o : Obs m}
    (h : ∀ t s s' x, step (t + 1) (some s) o = .ok s' → bstep t s s' ≠ .ok x)
    (os : List (Obs m)) (t : ℕ) (s : σ) {l : List σ}
    (hl : runLoop step (t + 1) (some s) (os ++ [o]) = .ok l) {r : σ × List σ} :
    backLoop bstep t s l ≠ .ok r := by
  induction os generalizing t s l r with
  | nil =>
    rw [List.nil_append, runLoop] at hl
    cases hs : step (t + 1) (some s) o with
    | error e => rw [hs] at hl; cases hl
    | ok s' =>
      rw [hs] at hl
      cases hl
      intro hb
      simp only [backLoop, bind, Except.bind, pure, Except.pure] at hb
      cases hx : bstep t s s' with
      | error e => rw [hx] at hb; cases hb
      | ok x => exact h t s s' x hs hx
  | cons o' os ih =>
    rw [List.cons_append, runLoop] at hl
    cases hs : step (t + 1) (some s) o' with
    | error e => rw [hs] at hl; cases hl
    | ok s' =>
      rw [hs] at hl
      simp only [bind, Except.bind] at hl
      cases hr : runLoop step (t + 1 + 1) (some s') (os ++ [o]) with
      | error e => rw [hr] at hl; cases hl
      | ok l' =>
        rw [hr] at hl
        cases hl
        intro hb
        rw [backLoop] at hb
        cases hb' : backLoop bstep (t + 1) s' l' with
        | error e => rw [hb'] at hb; cases hb
        | ok q => exact ih (t + 1) s' hr hb'

theorem sqSmooth_missing_fails (hn : 2 ≤ n) (qr : QR) (p : UParams n m) (os : List (Obs m))
    (hos : os ≠ []) {o : Obs m} (ho : o.missing) (l : List (Moments n)) :
    sqSmooth qr p (os ++ [o]) ≠ .ok l := by
  intro h
  simp only [sqSmooth, sqFull, sqSmoothFull, bind, Except.bind] at h
  cases hQ : cholUpper p.Q with
  | error e => rw [hQ] at h; cases h
  | ok Q2 =>
    rw [hQ] at h
    cases hR : cholUpper p.R with
    | error e => rw [hR] at h; cases h
    | ok R2 =>
      rw [hR] at h
      simp only at h
      match os, hos with
      | o' :: os, _ =>
        rw [List.cons_append, runLoop] at h
        cases hs : sqStep qr p Q2 R2 0 none o' with
        | error e => rw [hs] at h; cases h
        | ok s =>
          rw [hs] at h
          simp only [bind, Except.bind] at h
          cases hr : runLoop (sqStep qr p Q2 R2) (0 + 1) (some s) (os ++ [o]) with
          | error e => rw [hr] at h; cases h
          | ok l' =>
            rw [hr] at h
            simp only [pure, Except.pure, backFull, bind, Except.bind] at h
            cases hb : backLoop (sqSmoothStep qr p Q2) 0 s l' with
            | error e => rw [hb] at h; cases h
            | ok r =>
              exact backLoop_fails_last (fun t s s' x h => sq_missing_fails hn ho h) os 0 s hr hb

/-! ### Two state dimensions -/

theorem ufCorrect_le_psd {pred : Moments n} {pts : SigmaPoints N n} {g : Vec n → Vec m} {o : Obs m}
    {R : Mat m m} (hp : (points2moments (pts.map g) (some R)).cov.PosDef) :
    (pred.cov - (ufCorrect g pred pts o R).cov).PosSemidef := by
  simp only [ufCorrect, unscentedCorrect]
  split
  · rw [sub_sub_cancel]
    exact posSemidef_conj' (pinv_posSemidef hp.posSemidef) _
  · rw [sub_self]
    exact PosSemidef.zero

theorem ufSmooth_le_psd {filt pred next : Moments n} {pts ptsPred : SigmaPoints N n}
    (h : (pred.cov - next.cov).PosSemidef) :
    (filt.cov - (ufSmooth filt pts ptsPred pred next).cov).PosSemidef := by
  rw [ufSmooth_eq]
  generalize pairCov ptsPred pts pred.mean filt.mean * pinv pred.cov = G
  have : filt.cov - (filt.cov + G * (next.cov - pred.cov) * Gᵀ) = G * (pred.cov - next.cov) * Gᵀ := by
    rw [← neg_sub pred.cov next.cov, Matrix.mul_neg, Matrix.neg_mul]
    abel
  simp only [this]
  exact posSemidef_conj' h _

/-- The row the filter predicts from `M` for time `t + 1`: what it returns for a missing row. -/
theorem aukfStep_hidden {u : UParams n m} {t : ℕ} {M pred : Moments n}
    (h : aukfStep u (t + 1) (some M) ⟨0, fun _ => true⟩ = .ok pred) (hm : 0 < m)
    {pts : SigmaPoints (n + n + 1) n} (hp : moments2points M = .ok pts) {f : Vec n → Vec n}
    (hf : u.f.at t = .ok f) : pred = points2moments (pts.map f) (some u.Q) := by
  simp only [aukfStep, Option.getD_some, hp, bind, Except.bind, Nat.add_sub_cancel, hf] at h
  cases h1 : moments2points (points2moments (pts.map f) (some u.Q)) with
  | error e => rw [h1] at h; cases h
  | ok pts' =>
    rw [h1] at h
    simp only at h
    cases hg : u.g.at (t + 1) with
    | error e => rw [hg] at h; cases h
    | ok g =>
      rw [hg] at h
      have hmiss : (⟨0, fun _ => true⟩ : Obs m).missing := ⟨⟨0, hm⟩, rfl⟩
      simp only [pure, Except.pure, ufCorrect, unscentedCorrect, hmiss, not_true_eq_false,
        if_false] at h
      cases h
      rfl

/-- The data improve the estimate of the first component at every row after the first. -/
def Gains (u : UParams 2 m) (t : ℕ) (filt smooth : List (Moments 2)) : Prop :=
  ∀ i M x pred, filt[i]? = some M → smooth[i]? = some x →
    aukfStep u (t + i + 1) (some M) ⟨0, fun _ => true⟩ = .ok pred → x.cov 0 0 < pred.cov 0 0

theorem gains_cons {u : UParams 2 m} {t : ℕ} {M x : Moments 2} {filt smooth : List (Moments 2)} :
    Gains u t (M :: filt) (x :: smooth) ↔
      (∀ pred, aukfStep u (t + 1) (some M) ⟨0, fun _ => true⟩ = .ok pred → x.cov 0 0 < pred.cov 0 0)
      ∧ Gains u (t + 1) filt smooth := by
  constructor
  · intro h
    refine ⟨fun pred hp => h 0 M x pred rfl rfl hp, fun i M' x' pred h1 h2 h3 => ?_⟩
    refine h (i + 1) M' x' pred (by simpa using h1) (by simpa using h2) ?_
    rwa [show t + (i + 1) + 1 = t + 1 + i + 1 by omega]
  · rintro ⟨h1, h2⟩ i M' x' pred e1 e2 e3
    cases i with
    | zero =>
      cases e1
      cases e2
      exact h1 pred e3
    | succ i =>
      refine h2 i M' x' pred (by simpa using e1) (by simpa using e2) ?_
      rwa [show t + 1 + i + 1 = t + (i + 1) + 1 by omega]

theorem sqBack_two (qr : QR) {u : UParams 2 1} (hQ : u.Q.PosDef) (hR : u.R.PosDef)
    {Q2 : Mat 2 2} (hQ2 : Q2 * Q2ᵀ = u.Q)
    (os : List (Obs 1)) (t : ℕ) {M M2 : Moments 2} (hM : Root M M2) {l l2 : List (Moments 2)}
    (hl : runLoop (aukfStep u) (t + 1) (some M) os = .ok l) (hl2 : List.Forall₂ Root l l2)
    {r : Moments 2 × List (Moments 2)} (hr : backLoop (aukfSmoothStep u) t M l = .ok r) :
    (Gains u t (M :: l) r.2 → ∃ r2, backLoop (sqSmoothStep qr u Q2) t M2 l2 = .ok r2 ∧
      Root r.1 r2.1 ∧ List.Forall₂ Root r.2 r2.2) ∧
    (¬ Gains u t (M :: l) r.2 → backLoop (sqSmoothStep qr u Q2) t M2 l2 = .error .nonFinite) ∧
    r.1.cov.PosDef ∧ (M.cov - r.1.cov).PosSemidef := by
  have hfine : StepFine u := stepFine_of_le_three (by norm_num) hQ hR
  induction os generalizing t M M2 l l2 r with
  | nil =>
    cases hl
    cases hl2
    cases hr
    refine ⟨fun _ => ⟨(M2, []), rfl, hM, .nil⟩, fun h => absurd ?_ h, hM.posDef, ?_⟩
    · intro i M x pred _ h2
      simp at h2
    · rw [sub_self]
      exact PosSemidef.zero
  | cons o os ih =>
    rw [runLoop] at hl
    cases hs : aukfStep u (t + 1) (some M) o with
    | error e => rw [hs] at hl; cases hl
    | ok M' =>
      rw [hs] at hl
      simp only [bind, Except.bind] at hl
      cases hrl : runLoop (aukfStep u) (t + 1 + 1) (some M') os with
      | error e => rw [hrl] at hl; cases hl
      | ok l' =>
        rw [hrl] at hl
        cases hl
        cases hl2 with
        | @cons _ M2' _ l2' hM' hl2' =>
        rw [backLoop] at hr
        cases hb : backLoop (aukfSmoothStep u) (t + 1) M' l' with
        | error e => rw [hb] at hr; cases hr
        | ok q =>
          rw [hb] at hr
          simp only [bind, Except.bind] at hr
          cases hx : aukfSmoothStep u t M q.1 with
          | error e => rw [hx] at hr; cases hr
          | ok x =>
            rw [hx] at hr
            cases hr
            obtain ⟨h1, h2, h3, h4⟩ := ih (t + 1) hM' hrl hl2' hb
            obtain ⟨pts, g1, g2, g3⟩ := moments2points_good (by norm_num : 2 ≤ 3) M hM.posDef
            have hs' := hs
            simp only [aukfStep, Option.getD_some, g1, bind, Except.bind, Nat.add_sub_cancel] at hs'
            cases hf : u.f.at t with
            | error e => rw [hf] at hs'; cases hs'
            | ok f =>
              rw [hf] at hs'
              simp only at hs'
              have hp := predict_posDef g3 f hQ
              obtain ⟨pts', g1', g2', g3'⟩ := moments2points_good (by norm_num : 2 ≤ 3) _ hp
              rw [g1'] at hs'
              simp only at hs'
              cases hg : u.g.at (t + 1) with
              | error e => rw [hg] at hs'; cases hs'
              | ok g =>
                rw [hg] at hs'
                cases hs'
                have hle : ((points2moments (pts.map f) (some u.Q)).cov - q.1.cov).PosSemidef := by
                  have := (ufCorrect_le_psd (pred := points2moments (pts.map f) (some u.Q))
                    (o := o) (predict_posDef g3' g hR)).add h4
                  rwa [sub_add_sub_cancel] at this
                have hxe : x = ufSmooth M pts (pts.map f) (points2moments (pts.map f) (some u.Q)) q.1 := by
                  have hx' := hx
                  simp only [aukfSmoothStep, g1, hf, bind, Except.bind, pure, Except.pure] at hx'
                  cases hx'
                  rfl
                have hxp : x.cov.PosDef := by
                  rw [hxe]
                  exact ufSmooth_posDef g2 g3 hM.posDef hQ f h3
                have hhid : aukfStep u (t + 1) (some M) ⟨0, fun _ => true⟩
                    = .ok (points2moments (pts.map f) (some u.Q)) := by
                  have hmiss : (⟨0, fun _ => true⟩ : Obs 1).missing := ⟨0, rfl⟩
                  simp only [aukfStep, Option.getD_some, g1, bind, Except.bind, Nat.add_sub_cancel,
                    hf, g1', hg, pure, Except.pure, ufCorrect, unscentedCorrect, hmiss,
                    not_true_eq_false, if_false]
                have hg0 : (∀ pred, aukfStep u (t + 1) (some M) ⟨0, fun _ => true⟩ = .ok pred →
                    q.1.cov 0 0 < pred.cov 0 0)
                    ↔ q.1.cov 0 0 < (points2moments (pts.map f) (some u.Q)).cov 0 0 := by
                  constructor
                  · exact fun h => h _ hhid
                  · intro h pred hp
                    rw [hhid] at hp
                    cases hp
                    exact h
                refine ⟨fun hG => ?_, fun hG => ?_, hxp, ?_⟩
                · rw [gains_cons, hg0] at hG
                  obtain ⟨hG0, hG1⟩ := hG
                  obtain ⟨q2, a1, a2, a3⟩ := h1 hG1
                  obtain ⟨x2, h5, h6⟩ := sqSmoothStep_spec qr hfine hQ2 hM a2 hx hxp
                    (fun pts₁ f₁ pred2 e1 e2 e3 => by
                      rw [g1] at e1
                      cases e1
                      rw [hf] at e2
                      cases e2
                      refine cholupdate_two e3.factor a2.factor ?_ hle ?_
                      · rw [e3.gram, a2.gram]
                      · simpa using hG0)
                  refine ⟨(x2, q2.1 :: q2.2), ?_, h6, .cons a2 a3⟩
                  rw [backLoop, a1]
                  simp only [bind, Except.bind, h5, pure, Except.pure]
                · rw [gains_cons, hg0, not_and_or] at hG
                  by_cases hG1 : Gains u (t + 1) (ufCorrect g (points2moments (pts.map f) (some u.Q))
                      pts' o u.R :: l') q.2
                  · obtain ⟨q2, a1, a2, a3⟩ := h1 hG1
                    have hG0 : ¬ q.1.cov 0 0 < (points2moments (pts.map f) (some u.Q)).cov 0 0 :=
                      hG.resolve_right (not_not.mpr hG1)
                    rw [backLoop, a1]
                    obtain ⟨L, b5, b6, b7⟩ := hM.points
                    obtain ⟨p1, p2⟩ := hfine.pred M L hM.posDef b5 t f hf
                    obtain ⟨R, b8, b9, b10⟩ :=
                      sqPoints2moments_some qr (finePoints_sigma hM.mean b7 p1) Q2
                    rw [hQ2, ← b7.points2moments f] at b10
                    rw [b6] at g1
                    cases g1
                    have hz := cholupdate_zero (n := 0) (v := 1) R q2.1.cov (by
                      have r1 : (Rᵀ * R) 0 0 = R 0 0 ^ 2 := by
                        have : R 1 0 = 0 := b9 1 0 (by decide)
                        simp [Matrix.mul_apply, Fin.sum_univ_two, this, sq]
                      have r2 : (q2.1.covᵀ * q2.1.cov) 0 0 = q2.1.cov 0 0 ^ 2 := by
                        have : q2.1.cov 1 0 = 0 := a2.factor.upper 1 0 (by decide)
                        simp [Matrix.mul_apply, Fin.sum_univ_two, this, sq]
                      rw [← r1, ← r2, b10, a2.gram]
                      exact not_lt.mp hG0)
                    simp only [bind, Except.bind, sqSmoothStep, hf, b8, hz]
                  · rw [backLoop, h2 hG1]
                    rfl
                · show (M.cov - x.cov).PosSemidef
                  rw [hxe]
                  exact ufSmooth_le_psd hle

end Verif
