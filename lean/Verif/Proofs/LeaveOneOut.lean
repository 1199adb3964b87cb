import Verif.Spec.LeaveOneOut
import Verif.Props.FixedLag
import Verif.Proofs.Sensors

/-!
# Lemmas for C115: leaving out one row
-/

open Matrix

namespace Verif

variable {n m N L : ℕ}

/-! ### A model that keeps the last `L` states -/

theorem lagSel_transpose {i j : ℕ} (hi : i ≤ L) (hj : j ≤ L) :
    lagSel n L i * (lagSel n L j)ᵀ = if i = j then 1 else 0 := by
  ext a b
  have e := mul_lagSel (⟨j, by omega⟩ : Fin (L + 1)) (lagSel n L i) a b
  rw [show ((⟨j, by omega⟩ : Fin (L + 1)) : ℕ) = j from rfl] at e
  rw [e, show i = ((⟨i, by omega⟩ : Fin (L + 1)) : ℕ) from rfl, lagSel_eq]
  simp only [Matrix.of_apply, EmbeddingLike.apply_eq_iff_eq, Prod.mk.injEq, Fin.mk.injEq]
  by_cases h : i = j
  · subst h
    simp only [true_and, if_true, Matrix.one_apply]
    simp only [eq_comm]
  · simp [h, Ne.symm h]

/-- The model `P` with the last `L` states kept. -/
noncomputable def PFun.keep (P : PFun n m) (L : ℕ) : PFun ((L + 1) * n) m where
  A t := (lagSel n L 0)ᵀ * (P.A t * lagSel n L 0)
    + ∑ i ∈ Finset.range L, (lagSel n L (i + 1))ᵀ * lagSel n L i
  b t := (lagSel n L 0)ᵀ *ᵥ P.b t
  Q t := (lagSel n L 0)ᵀ * P.Q t * lagSel n L 0
  C t := P.C t * lagSel n L 0
  d := P.d
  R := P.R
  mu0 := (lagSel n L 0)ᵀ *ᵥ P.mu0
  S0 := (lagSel n L 0)ᵀ * P.S0 * lagSel n L 0

theorem sel_mul {i j : ℕ} (hi : i ≤ L) (hj : j ≤ L) {k : ℕ} (M : Mat n k) :
    lagSel n L i * ((lagSel n L j)ᵀ * M) = if i = j then M else 0 := by
  rw [← Matrix.mul_assoc, lagSel_transpose hi hj]
  split <;> simp

theorem PFun.keep_keeps (P : PFun n m) (L T : ℕ) : P.Keeps (P.keep L) (lagSel n L) L T where
  A0 t _ := by
    simp only [PFun.keep, Matrix.mul_add, sel_mul (Nat.zero_le _) (Nat.zero_le _), if_true,
      Matrix.mul_sum]
    rw [Finset.sum_eq_zero, add_zero]
    intro i hi
    rw [sel_mul (Nat.zero_le _) (Finset.mem_range.mp hi), if_neg (by omega)]
  As t _ i hi := by
    simp only [PFun.keep, Matrix.mul_add, sel_mul (show i + 1 ≤ L from hi) (Nat.zero_le _),
      Matrix.mul_sum]
    rw [if_neg (by omega), zero_add, Finset.sum_eq_single i]
    · rw [sel_mul hi hi, if_pos rfl]
    · intro j hj hne
      rw [sel_mul hi (Finset.mem_range.mp hj), if_neg (by omega)]
    · intro h; exact absurd (Finset.mem_range.mpr hi) h
  b0 t _ := by
    simp only [PFun.keep, mulVec_mulVec, lagSel_transpose (Nat.zero_le _) (Nat.zero_le _), if_true,
      one_mulVec]
  bs t _ i hi := by
    simp only [PFun.keep, mulVec_mulVec, lagSel_transpose (show i + 1 ≤ L from hi) (Nat.zero_le _)]
    simp
  Q0 t _ := by
    simp only [PFun.keep, Matrix.mul_assoc, sel_mul (Nat.zero_le _) (Nat.zero_le _), if_true]
    rw [lagSel_transpose (Nat.zero_le _) (Nat.zero_le _), if_pos rfl, Matrix.mul_one]
  Qs t _ i hi := by
    simp only [PFun.keep, Matrix.mul_assoc, sel_mul (show i + 1 ≤ L from hi) (Nat.zero_le _)]
    simp
  Qs' t _ i hi := by
    simp only [PFun.keep, Matrix.mul_assoc]
    rw [lagSel_transpose (Nat.zero_le _) (show i + 1 ≤ L from hi), if_neg (by omega)]
    simp
  C t _ := rfl
  d t _ := rfl
  R t _ := rfl
  mu0 := by
    simp only [PFun.keep, mulVec_mulVec, lagSel_transpose (Nat.zero_le _) (Nat.zero_le _), if_true,
      one_mulVec]
  S0 := by
    simp only [PFun.keep, Matrix.mul_assoc, sel_mul (Nat.zero_le _) (Nat.zero_le _), if_true]
    rw [lagSel_transpose (Nat.zero_le _) (Nat.zero_le _), if_pos rfl, Matrix.mul_one]

theorem PFun.PSD.keep {P : PFun n m} {T : ℕ} (h : P.PSD T) (L : ℕ) : (P.keep L).PSD T where
  Q t ht := by
    have := posSemidef_conj' (h.Q t ht) (lagSel n L 0)ᵀ
    rwa [transpose_transpose] at this
  R := h.R
  S0 := by
    have := posSemidef_conj' h.S0 (lagSel n L 0)ᵀ
    rwa [transpose_transpose] at this

/-! ### A correction and a prediction -/

/-- A correction through `G A` and then nothing else is the prediction of a correction through `G`:
correcting a state and predicting is predicting and correcting the part kept. -/
theorem predict_correct {A Q cov : Mat N N} {b mean : Vec N} {G G' : Mat m N} {R : Mat m m}
    {d : Vec m} {o : Obs m} (ho : ¬ o.missing) (hG : G' * A = G) (hb : G' *ᵥ b = 0)
    (hQ : G' * Q = 0) (hQ' : Q * G'ᵀ = 0) :
    filterPredict A Q b (filterCorrect G R d mean cov o).2.1 (filterCorrect G R d mean cov o).2.2
      = (filterCorrect G' R d (filterPredict A Q b mean cov).1 (filterPredict A Q b mean cov).2 o).2
    := by
  have e1 : G' * (A * (cov * Aᵀ) + Q) * G'ᵀ = G * cov * Gᵀ := by
    rw [Matrix.mul_add, hQ, add_zero, ← hG, transpose_mul]
    simp only [Matrix.mul_assoc]
  have e2 : gain (A * (cov * Aᵀ) + Q) R G' = A * gain cov R G := by
    rw [gain, gain, e1, Matrix.add_mul, hQ', add_zero, ← hG, transpose_mul]
    simp only [Matrix.mul_assoc]
  simp only [filterCorrect_gain ho, filterPredict, e2]
  refine Prod.ext ?_ ?_
  · simp only [mulVec_add, mulVec_mulVec, hG, hb, add_zero]
    abel
  · simp only [Matrix.mul_assoc, Matrix.mul_add, hQ, add_zero, Matrix.sub_mul, Matrix.mul_sub]
    rw [← Matrix.mul_assoc G', hG, Matrix.mul_zero, Matrix.mul_zero]
    abel

/-- The part of a state selected by `W`, after a correction through `C W`. -/
theorem select_correct {cov : Mat N N} {mean : Vec N} {W : Mat n N} {C : Mat m n} {R : Mat m m}
    {d : Vec m} {o : Obs m} (ho : ¬ o.missing) :
    (W *ᵥ (filterCorrect (C * W) R d mean cov o).2.1,
      W * (filterCorrect (C * W) R d mean cov o).2.2 * Wᵀ)
      = (filterCorrect C R d (W *ᵥ mean) (W * cov * Wᵀ) o).2 := by
  have e : W * gain cov R (C * W) = gain (W * cov * Wᵀ) R C := by
    rw [gain, gain, transpose_mul]
    simp only [Matrix.mul_assoc]
  simp only [filterCorrect_gain ho, ← e]
  refine Prod.ext ?_ ?_
  · simp only [mulVec_add, mulVec_mulVec]
  · simp only [Matrix.mul_assoc, Matrix.sub_mul, Matrix.mul_sub]

/-! ### Leaving out a row -/

section
variable {P : PFun n m} {P' : PFun N m} {W : ℕ → Mat n N} {T k : ℕ} {z z' : ℕ → Obs m}

/-- The step from the filtered moments to the predicted ones, with row `k` and without it. -/
theorem PFun.Keeps.leave_pred (h : P.Keeps P' W L T) (hk : ¬ (z k).missing) {j : ℕ}
    (t1 : k + j + 1 < T) (hj : j < L)
    (ih : ((P'.kf z (k + j)).filtMean, (P'.kf z (k + j)).filtCov)
        = (filterCorrect (P.C k * W j) (P.R k) (P.d k) (P'.kf z' (k + j)).filtMean
            (P'.kf z' (k + j)).filtCov (z k)).2) :
    ((P'.kf z (k + j + 1)).predMean, (P'.kf z (k + j + 1)).predCov)
        = (filterCorrect (P.C k * W (j + 1)) (P.R k) (P.d k) (P'.kf z' (k + j + 1)).predMean
            (P'.kf z' (k + j + 1)).predCov (z k)).2 := by
  have pr := predict_correct (A := P'.A (k + j)) (Q := P'.Q (k + j)) (b := P'.b (k + j))
    (cov := (P'.kf z' (k + j)).filtCov) (mean := (P'.kf z' (k + j)).filtMean)
    (G := P.C k * W j) (G' := P.C k * W (j + 1)) (R := P.R k) (d := P.d k) hk
    (by rw [Matrix.mul_assoc, h.As _ t1 j hj])
    (by rw [← mulVec_mulVec, h.bs _ t1 j hj, mulVec_zero])
    (by rw [Matrix.mul_assoc, h.Qs _ t1 j hj, Matrix.mul_zero])
    (by rw [transpose_mul, ← Matrix.mul_assoc, h.Qs' _ t1 j hj, Matrix.zero_mul])
  rw [← ih] at pr
  exact pr

/-- The filter that keeps past states, with row `k` and without it. -/
theorem PFun.Keeps.leave (h : P.Keeps P' W L T) (hP : P'.PSD T) (hR : ∀ t, t < T → (P.R t).PosDef)
    (hz : ∀ t, t ≠ k → z' t = z t) (hk : ¬ (z k).missing) (hk' : (z' k).missing) :
    ∀ j, j ≤ L → k + j < T →
      ((P'.kf z (k + j)).filtMean, (P'.kf z (k + j)).filtCov)
        = (filterCorrect (P.C k * W j) (P.R k) (P.d k) (P'.kf z' (k + j)).filtMean
            (P'.kf z' (k + j)).filtCov (z k)).2 := by
  intro j
  induction j with
  | zero =>
    intro _ hT
    simp only [Nat.add_zero] at hT ⊢
    obtain ⟨-, a, b⟩ := P'.kf_missing z' hk'
    obtain ⟨c, d⟩ := P'.kf_pred_congr (z := z') (z' := z) (t := k) fun i hi => by
      rw [hz i (by omega)]; exact ⟨Iff.rfl, fun _ => rfl⟩
    rw [a, b, c, d, P'.kf_correct z k]
    simp only [PFun.correct, h.C k hT, h.R k hT, h.d k hT]
  | succ j ih =>
    intro hj hT
    have ih := ih (by omega) (by omega)
    have t1 : k + j + 1 < T := by omega
    have pr' := h.leave_pred hk t1 hj ih
    have p1 := congrArg Prod.fst pr'
    have p2 := congrArg Prod.snd pr'
    simp only at p1 p2
    have hzt := hz (k + j + 1) (by omega)
    rw [show k + (j + 1) = k + j + 1 by omega]
    by_cases hm : (z (k + j + 1)).missing
    · obtain ⟨-, a, b⟩ := P'.kf_missing z hm
      obtain ⟨-, a', b'⟩ := P'.kf_missing z' (t := k + j + 1) (by rw [hzt]; exact hm)
      rw [a, b, a', b', pr']
    · have o := correct_order (hP.pred t1 z') (hR (k + j + 1) t1) (hR k (by omega)) (P'.C (k + j + 1))
        (P.C k * W (j + 1)) (P'.d (k + j + 1)) (P.d k) hm hk (P'.kf z' (k + j + 1)).predMean
      rw [← p1, ← p2] at o
      rw [P'.kf_correct z, P'.kf_correct z' (k + j + 1), hzt]
      simp only [PFun.correct, h.R _ t1] at o ⊢
      exact o.symm

end

/-- The smoothed moments of row `k` are those without the row, corrected by it. -/
theorem PFun.PSD.leave_one_out {P : PFun n m} {T k : ℕ} {z z' : ℕ → Obs m} (hP : P.PSD T)
    (hR : ∀ t, t < T → (P.R t).PosDef) (hz : ∀ t, t ≠ k → z' t = z t) (hk : ¬ (z k).missing)
    (hk' : (z' k).missing) (hT : k < T) :
    ((P.ks z (T - 1) k).mean, (P.ks z (T - 1) k).cov)
      = (filterCorrect (P.C k) (P.R k) (P.d k) (P.ks z' (T - 1) k).mean (P.ks z' (T - 1) k).cov
          (z k)).2 := by
  obtain ⟨L, rfl⟩ : ∃ L, T = k + L + 1 := ⟨T - k - 1, by omega⟩
  have h := P.keep_keeps L (k + L + 1)
  simp only [Nat.add_sub_cancel]
  obtain ⟨a, b, -⟩ := h.lag (z := z) hP (k + L) k L rfl (by omega) le_rfl
  obtain ⟨a', b', -⟩ := h.lag (z := z') hP (k + L) k L rfl (by omega) le_rfl
  have e := h.leave (hP.keep L) hR hz hk hk' L le_rfl (by omega)
  rw [← a, ← b, ← a', ← b', ← select_correct hk, ← e]

end Verif
