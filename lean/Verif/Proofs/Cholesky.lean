import Verif.Model.Cholesky
import Verif.Linalg.Gain
import Verif.Proofs.Pure
import Verif.Spec.Runs

/-!
# The square-root steps reconstruct the standard steps
-/

open Matrix

namespace Verif

variable {n m : ℕ}

theorem hstack_mul_transpose {a b c : ℕ} (X : Mat a b) (Y : Mat a c) :
    hstack X Y * (hstack X Y)ᵀ = X * Xᵀ + Y * Yᵀ := by
  rw [hstack, transpose_submatrix, submatrix_mul_equiv, transpose_fromCols,
    fromCols_mul_fromRows]
  rfl

/-- Gram matrix of the top square block of a tall upper trapezoidal factor. -/
theorem QR.gram_top (qr : QR) {N L : ℕ} (A : Mat (L + N) L) :
    ((qr.r (L + N) L A).submatrix (Fin.castAdd N) id)ᵀ
      * (qr.r (L + N) L A).submatrix (Fin.castAdd N) id = Aᵀ * A := by
  rw [← qr.gram (L + N) L A (by omega)]
  ext i j
  simp only [mul_apply, transpose_apply, submatrix_apply, id]
  rw [Fin.sum_univ_add]
  have : ∀ k : Fin N, qr.r (L + N) L A (Fin.natAdd L k) i = 0 := by
    intro k
    apply qr.upper
    simp only [Fin.val_natAdd]
    omega
  simp [this]

theorem cholPredict_fst (qr : QR) (A Q2 : Mat n n) (b mean : Vec n) (cov2 : Mat n n) :
    (cholPredict qr A Q2 b mean cov2).1 = A *ᵥ mean + b := rfl

theorem cholPredict_snd (qr : QR) (A Q2 : Mat n n) (b mean : Vec n) (cov2 : Mat n n) :
    reconstruct (cholPredict qr A Q2 b mean cov2).2
      = A * (reconstruct cov2 * Aᵀ) + Q2 * Q2ᵀ := by
  rw [cholPredict, reconstruct]
  simp only [transpose_transpose]
  rw [qr.gram_top, transpose_transpose, hstack_mul_transpose, transpose_mul, reconstruct]
  simp only [Matrix.mul_assoc]

/-- Blocks of an upper triangular square root of the matrix `MᵀM` of `_filter_correct`. -/
theorem QR.correct_blocks (qr : QR) (C : Mat m n) (R2 : Mat m m) (cov2 : Mat n n) :
    let S := qr.r (m + n) (m + n) (cholCorrectM C R2 cov2)
    let S11 := S.submatrix (Fin.castAdd n) (Fin.castAdd n)
    let S12 := S.submatrix (Fin.castAdd n) (Fin.natAdd m)
    let S22 := S.submatrix (Fin.natAdd m) (Fin.natAdd m)
    S11ᵀ * S11 = C * reconstruct cov2 * Cᵀ + R2 * R2ᵀ ∧
    S12ᵀ * S11 = reconstruct cov2 * Cᵀ ∧
    S12ᵀ * S12 + S22ᵀ * S22 = reconstruct cov2 := by
  intro S S11 S12 S22
  have hg := qr.gram (m + n) (m + n) (cholCorrectM C R2 cov2) le_rfl
  have e : (qr.r (m + n) (m + n) (cholCorrectM C R2 cov2))
      = (fromBlocks S11 S12 0 S22).submatrix finSumFinEquiv.symm finSumFinEquiv.symm := by
    ext i j
    obtain ⟨i, rfl⟩ := finSumFinEquiv.surjective i
    obtain ⟨j, rfl⟩ := finSumFinEquiv.surjective j
    rw [submatrix_apply, Equiv.symm_apply_apply, Equiv.symm_apply_apply]
    rcases i with i | i <;> rcases j with j | j
    · rfl
    · rfl
    · apply qr.upper
      simp only [finSumFinEquiv_apply_left, finSumFinEquiv_apply_right, Fin.val_natAdd,
        Fin.val_castAdd]
      omega
    · rfl
  rw [e, cholCorrectM, transpose_submatrix, transpose_submatrix, submatrix_mul_equiv,
    submatrix_mul_equiv, fromBlocks_transpose, fromBlocks_transpose, fromBlocks_multiply,
    fromBlocks_multiply] at hg
  have inj : ∀ X Y : Matrix (Fin m ⊕ Fin n) (Fin m ⊕ Fin n) ℝ,
      X.submatrix finSumFinEquiv.symm finSumFinEquiv.symm
        = Y.submatrix finSumFinEquiv.symm finSumFinEquiv.symm → X = Y :=
    fun X Y h => (reindex finSumFinEquiv finSumFinEquiv).injective h
  have hb := inj _ _ hg
  rw [fromBlocks_inj] at hb
  obtain ⟨h11, -, h21, h22⟩ := hb
  simp only [transpose_transpose, transpose_zero, Matrix.zero_mul, Matrix.mul_zero, add_zero,
    zero_add, transpose_mul] at h11 h21 h22
  refine ⟨?_, ?_, ?_⟩
  · rw [h11, reconstruct, add_comm]
    simp only [Matrix.mul_assoc]
  · rw [h21, reconstruct]
    simp only [Matrix.mul_assoc]
  · rw [h22, reconstruct]

/-- The correction reconstructs the standard one when the noise covariance is nonsingular. -/
theorem cholCorrect_eq (qr : QR) (C : Mat m n) {R R2 : Mat m m} (hR : R.PosDef)
    (hR2 : R2 * R2ᵀ = R) (d : Vec m) (mean : Vec n) (cov2 : Mat n n) (o : Obs m) :
    (cholCorrect qr C R2 d mean cov2 o).1
      = (filterCorrect C R d mean (reconstruct cov2) o).2.1 ∧
    reconstruct (cholCorrect qr C R2 d mean cov2 o).2
      = (filterCorrect C R d mean (reconstruct cov2) o).2.2 := by
  by_cases hm : o.missing
  · simp [cholCorrect, filterCorrect, hm]
  have hb := qr.correct_blocks C R2 cov2
  simp only [cholCorrect, filterCorrect, hm, not_false_eq_true, if_true]
  simp only at hb
  rw [hR2] at hb
  generalize (qr.r (m + n) (m + n) (cholCorrectM C R2 cov2)).submatrix (Fin.castAdd n)
    (Fin.castAdd n) = S11 at *
  generalize (qr.r (m + n) (m + n) (cholCorrectM C R2 cov2)).submatrix (Fin.castAdd n)
    (Fin.natAdd m) = S12 at *
  generalize (qr.r (m + n) (m + n) (cholCorrectM C R2 cov2)).submatrix (Fin.natAdd m)
    (Fin.natAdd m) = S22 at *
  obtain ⟨h11, h12, h22⟩ := hb
  have hP : (reconstruct cov2).PosSemidef := by
    have := posSemidef_self_mul_conjTranspose cov2
    rwa [conjTranspose_eq_transpose_of_trivial] at this
  generalize reconstruct cov2 = P at *
  have hV : (C * P * Cᵀ + R).PosDef := hR.posSemidef_add (posSemidef_conj' hP C)
  have hdet : IsUnit S11.det := by
    have := hV.det_pos
    rw [← h11, det_mul, det_transpose] at this
    exact isUnit_iff_ne_zero.mpr (by rintro h; simp [h] at this)
  have hdetT : IsUnit S11ᵀ.det := by rwa [det_transpose]
  have hpinv : pinv S11ᵀ = (S11ᵀ)⁻¹ := pinv_eq_inv hdetT
  have hS12 : S12ᵀ = P * Cᵀ * S11⁻¹ := by
    rw [← h12, Matrix.mul_assoc, mul_nonsing_inv _ hdet, Matrix.mul_one]
  have hVinv : pinv (C * P * Cᵀ + R) = S11⁻¹ * (S11ᵀ)⁻¹ := by
    apply pinv_eq_of_mul_eq_one
    rw [← h11, Matrix.mul_assoc, ← Matrix.mul_assoc S11, mul_nonsing_inv _ hdet, Matrix.one_mul,
      mul_nonsing_inv _ hdetT]
  have hK : S12ᵀ * pinv S11ᵀ = P * (Cᵀ * pinv (C * (P * Cᵀ) + R)) := by
    rw [← Matrix.mul_assoc C, hVinv, hpinv, hS12]
    simp only [Matrix.mul_assoc]
  constructor
  · rw [mulVec_mulVec, hK]
  · rw [reconstruct, transpose_transpose, ← hK, hpinv]
    have h3 : S22ᵀ * S22 = P - S12ᵀ * S12 := by rw [← h22]; abel
    rw [h3]
    congr 1
    have h4 : S12 = (S11ᵀ)⁻¹ * (C * P) := by
      have := congrArg Matrix.transpose hS12
      rw [transpose_transpose, transpose_mul, transpose_mul, transpose_transpose,
        symm_of_posSemidef hP, transpose_nonsing_inv] at this
      exact this
    rw [Matrix.mul_assoc, ← h4]

/-! ### Whole runs -/

/-- A filter row without its gain. -/
def Step.forget (s : Step n m) : Step n m := { s with gain := 0 }

theorem smoothLoop_forget (A : TV (Mat n n)) (t : ℕ) (s : Step n m) (l : List (Step n m)) :
    smoothLoop A t s.forget (l.map Step.forget) = smoothLoop A t s l := by
  induction l generalizing t s with
  | nil => rfl
  | cons s' l ih => simp only [List.map_cons, smoothLoop, ih]; rfl

theorem smoothFull_forget (A : TV (Mat n n)) (l : List (Step n m)) :
    smoothFull A (l.map Step.forget) = smoothFull A l := by
  cases l with
  | nil => rfl
  | cons s l => simp only [List.map_cons, smoothFull, smoothLoop_forget]

theorem loglikLoop_forget (p : Params n m) (t : ℕ) (l : List (Step n m)) (os : List (Obs m)) :
    loglikLoop p t (l.map Step.forget) os = loglikLoop p t l os := by
  induction l generalizing t os with
  | nil => cases os <;> rfl
  | cons s l ih =>
    cases os with
    | nil => rfl
    | cons o os => simp only [List.map_cons, loglikLoop, ih]; rfl

theorem cholStep_eq (qr : QR) {p : Params n m} {Q Q2 : Mat n n} {R R2 : Mat m m} {S2 : Mat n n}
    (hQ : p.Q = .const Q) (hQ2 : Q2 * Q2ᵀ = Q) (hR : p.R = .const R) (hR2 : R2 * R2ᵀ = R)
    (hRd : R.PosDef) (hS2 : S2 * S2ᵀ = p.S0) (t : ℕ) (prev : Option (CStep n))
    (prev' : Option (Step n m)) (hprev : prev.map (CStep.step m) = prev'.map Step.forget)
    (o : Obs m) :
    (cholStep qr p Q2 R2 S2 t prev o).map (CStep.step m)
      = (filterStep p t prev' o).map Step.forget := by
  have key : ∀ (C : Mat m n) (d : Vec m) (mean : Vec n) (c2 : Mat n n),
      CStep.step m ⟨mean, c2, (cholCorrect qr C R2 d mean c2 o).1,
        (cholCorrect qr C R2 d mean c2 o).2⟩
      = Step.forget ⟨mean, reconstruct c2, (filterCorrect C R d mean (reconstruct c2) o).1,
        (filterCorrect C R d mean (reconstruct c2) o).2.1,
        (filterCorrect C R d mean (reconstruct c2) o).2.2⟩ := by
    intro C d mean c2
    obtain ⟨h1, h2⟩ := cholCorrect_eq qr C hRd hR2 d mean c2 o
    simp only [CStep.step, Step.forget, h1, h2]
  have cR : p.R.Covers (t + 1) := by rw [hR]; trivial
  have cQ : p.Q.Covers (t - 1 + 1) := by rw [hQ]; trivial
  have eR : p.R.get t = R := by rw [hR]; rfl
  have eQ : p.Q.get (t - 1) = Q := by rw [hQ]; rfl
  rcases prev with _ | s <;> rcases prev' with _ | s'
  · by_cases hC : p.C.Covers (t + 1) <;> by_cases hd : p.d.Covers (t + 1) <;>
    simp only [cholStep, filterStep, lastDims_eq_ok, lastDims_eq_error, hC, hd, cR, eR, bind,
        Except.bind, pure, Except.pure, not_false_eq_true, Except.map, key]
    rw [reconstruct, hS2]
  · cases hprev
  · cases hprev
  · simp only [Option.map_some, Option.some.injEq] at hprev
    have hm : s.filtMean = s'.filtMean := congrArg Step.filtMean hprev
    have hc : reconstruct s.filtCov2 = s'.filtCov := congrArg Step.filtCov hprev
    by_cases hC : p.C.Covers (t + 1) <;> by_cases hd : p.d.Covers (t + 1) <;>
    by_cases hA : p.A.Covers (t - 1 + 1) <;> by_cases hb : p.b.Covers (t - 1 + 1) <;>
    simp only [cholStep, filterStep, lastDims_eq_ok, lastDims_eq_error, hC, hd, hA, hb, cR, eR, cQ,
      eQ, bind, Except.bind, pure, Except.pure, not_false_eq_true, Except.map, key]
    rw [cholPredict_fst, cholPredict_snd, hQ2, hm, hc]
    rfl

theorem cholLoop_eq (qr : QR) {p : Params n m} {Q Q2 : Mat n n} {R R2 : Mat m m} {S2 : Mat n n}
    (hQ : p.Q = .const Q) (hQ2 : Q2 * Q2ᵀ = Q) (hR : p.R = .const R) (hR2 : R2 * R2ᵀ = R)
    (hRd : R.PosDef) (hS2 : S2 * S2ᵀ = p.S0) (os : List (Obs m)) (t : ℕ)
    (prev : Option (CStep n)) (prev' : Option (Step n m))
    (hprev : prev.map (CStep.step m) = prev'.map Step.forget) :
    (cholLoop qr p Q2 R2 S2 t prev os).map (List.map (CStep.step m))
      = (filterLoop p t prev' os).map (List.map Step.forget) := by
  induction os generalizing t prev prev' with
  | nil => rfl
  | cons o os ih =>
    have h1 := cholStep_eq qr hQ hQ2 hR hR2 hRd hS2 t prev prev' hprev o
    rw [cholLoop, filterLoop]
    cases hc : cholStep qr p Q2 R2 S2 t prev o with
    | error e =>
      cases hf : filterStep p t prev' o with
      | error e' => rw [hc, hf] at h1; simp only [Except.map, Except.error.injEq] at h1; rw [h1]; rfl
      | ok s' => rw [hc, hf] at h1; cases h1
    | ok s =>
      cases hf : filterStep p t prev' o with
      | error e' => rw [hc, hf] at h1; cases h1
      | ok s' =>
        rw [hc, hf] at h1
        simp only [Except.map, Except.ok.injEq] at h1
        have h2 := ih (t + 1) (some s) (some s') (by simp [h1])
        simp only [bind, Except.bind]
        cases hl : cholLoop qr p Q2 R2 S2 (t + 1) (some s) os with
        | error e =>
          cases hl' : filterLoop p (t + 1) (some s') os with
          | error e' => rw [hl, hl'] at h2; simp only [Except.map, Except.error.injEq] at h2; rw [h2]; rfl
          | ok l' => rw [hl, hl'] at h2; cases h2
        | ok l =>
          cases hl' : filterLoop p (t + 1) (some s') os with
          | error e' => rw [hl, hl'] at h2; cases h2
          | ok l' =>
            rw [hl, hl'] at h2
            simp only [Except.map, Except.ok.injEq] at h2
            simp only [pure, Except.pure, Except.map, List.map_cons, h1, h2]

theorem cholFull_eq (qr : QR) {p : Params n m} (h : p.PosDef) (os : List (Obs m)) :
    (cholFull qr p os).map (List.map (CStep.step m))
      = (filterFull p os).map (List.map Step.forget) := by
  obtain ⟨⟨Q, hQ, hQd⟩, ⟨R, hR, hRd⟩, hS⟩ := h
  obtain ⟨Q2, cQ, iQ⟩ := cholesky_of_posDef hQd
  obtain ⟨R2, cR, iR⟩ := cholesky_of_posDef hRd
  obtain ⟨S2, cS, iS⟩ := cholesky_of_posDef hS
  simp only [cholFull, hQ, hR, cholParam, cQ, cR, cS, bind, Except.bind]
  exact cholLoop_eq qr hQ iQ.mul_transpose hR iR.mul_transpose hRd iS.mul_transpose os 0 none none rfl

/-- Functions of the reconstructed rows agree. -/
theorem cholFull_bind (qr : QR) {p : Params n m} (h : p.PosDef) (os : List (Obs m)) {α : Type}
    (k : List (Step n m) → Res α) (hk : ∀ l, k (l.map Step.forget) = k l) :
    (cholFull qr p os >>= fun l => k (l.map (CStep.step m))) = filterFull p os >>= k := by
  have e := cholFull_eq qr h os
  cases hc : cholFull qr p os with
  | error e1 =>
    cases hf : filterFull p os with
    | error e2 => rw [hc, hf] at e; simp only [Except.map, Except.error.injEq] at e; rw [e]; rfl
    | ok l => rw [hc, hf] at e; cases e
  | ok l =>
    cases hf : filterFull p os with
    | error e2 => rw [hc, hf] at e; cases e
    | ok l' =>
      rw [hc, hf] at e
      simp only [Except.map, Except.ok.injEq] at e
      simp only [bind, Except.bind, e, hk]

theorem cholStats_eq (qr : QR) {p : Params n m} (h : p.PosDef) (os : List (Obs m)) :
    cholStats qr p os = emStats p os :=
  cholFull_bind qr h os (fun l => do
    let sm ← smoothFull p.A l
    pure ((sm.zip (smoothPair sm)).map
      fun q : SStep n × Mat n n => (⟨q.1.mean, q.1.cov, q.2⟩ : EmStats n)))
    fun l => by simp only [smoothFull_forget]

end Verif
