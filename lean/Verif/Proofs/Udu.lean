import Verif.Model.Bierman
import Verif.Linalg.Gain

/-!
# `udu` factorises positive semidefinite matrices
-/

open Matrix

namespace Verif

variable {n m : ℕ}

theorem uduInner_fold (jj : ℕ) (alpha : ℝ) (s : UduState) (i : ℕ) (hi : i ≤ jj) :
    (List.range i).foldl (uduInner id (jj + 1) alpha) s
      = ⟨fun r c => if c < i ∧ r ≤ c then s.M r c - s.M c jj * (alpha * s.M r jj) else s.M r c,
         fun r c => if c = jj ∧ r < i then alpha * s.M r jj else s.U r c, s.d⟩ := by
  induction i with
  | zero => simp
  | succ i ih =>
    rw [List.range_succ, List.foldl_append, ih (by omega)]
    simp only [List.foldl_cons, List.foldl_nil, uduInner, Nat.add_sub_cancel, id]
    have h1 : ¬ (jj < i ∧ i ≤ jj) := by omega
    simp only [h1, if_false, UduState.mk.injEq, and_true]
    constructor
    · funext r c
      by_cases hc : c = i
      · subst hc
        by_cases hr : r < c + 1
        · have h2 : c < c + 1 ∧ r ≤ c := by omega
          simp only [hr, h2, and_self, if_true, lt_self_iff_false, false_and, if_false, Arr2.set]
          by_cases hrc : r = c
          · subst hrc; simp
          · have h3 : r < c := by omega
            simp [hrc, h3]
        · have h2 : ¬ (c < c + 1 ∧ r ≤ c) := by omega
          simp [hr, h2]
          omega
      · have h2 : (c < i + 1 ∧ r ≤ c) ↔ (c < i ∧ r ≤ c) := by omega
        simp only [hc, h2, and_false, if_false]
    · funext r c
      simp only [Arr2.set]
      by_cases hc : c = jj
      · by_cases hr : r = i
        · simp [hc, hr]
        · have h2 : r < i + 1 ↔ r < i := by omega
          simp [hc, hr, h2]
      · simp [hc]

/-- The symmetric matrix held in the upper triangle of the first `c` rows and columns of `M`. -/
def remPart (n c : ℕ) (M : Arr2) : Mat n n :=
  Matrix.of fun r k => if (r : ℕ) < c ∧ (k : ℕ) < c then M (min (r : ℕ) k) (max (r : ℕ) k) else 0

/-- Column `j` of an array. -/
def colVec (n : ℕ) (U : Arr2) (j : ℕ) : Vec n := fun r => U r j

/-- Loop invariant of `udu`: columns `c, c + 1, …` are done. -/
structure UduInv (A : Mat n n) (c : ℕ) (s : UduState) : Prop where
  upper : ∀ r k, k < r → s.U r k = 0
  diag : ∀ k, s.U k k = 1
  low : ∀ r k, k < c → r ≠ k → s.U r k = 0
  nonneg : ∀ j, c ≤ j → 0 ≤ s.d j
  psd : (remPart n c s.M).PosSemidef
  eq : A = remPart n c s.M + ∑ j : Fin n,
    if c ≤ (j : ℕ) then s.d j • vecMulVec (colVec n s.U j) (colVec n s.U j) else 0

/-- Subtracting the rank-one part of a pivot keeps positive semidefiniteness. -/
theorem schur_rank_one {B : Mat n n} (hB : B.PosSemidef) (i : Fin n) (hd : 0 < B i i) :
    (B - (1 / B i i) • vecMulVec (fun r => B r i) (fun r => B r i)).PosSemidef := by
  obtain ⟨hs, hq⟩ := posSemidef_iff_real.mp hB
  have hsym : ∀ a b, B a b = B b a := fun a b => congrFun (congrFun hs b) a
  refine posSemidef_iff_real.mpr ⟨?_, fun x => ?_⟩
  · rw [transpose_sub, hs, transpose_smul, transpose_vecMulVec]
  · set w : Vec n := fun r => B r i with hw
    set d := B i i with hdd
    set a := (w ⬝ᵥ x) / d with ha
    have h1 := hq (x - Pi.single i a)
    have e1 : B *ᵥ (Pi.single i a) = a • w := by
      ext r
      simp [mulVec, hw, mul_comm]
    have e2 : Pi.single i a ⬝ᵥ (B *ᵥ x) = a * (w ⬝ᵥ x) := by
      simp only [single_dotProduct, mulVec, hw]
      congr 1
      exact Finset.sum_congr rfl fun j _ => congrArg (· * x j) (hsym i j)
    have e3 : Pi.single i a ⬝ᵥ (a • w) = a * (a * d) := by
      simp [hw, hdd]
    have e4 : (x - Pi.single i a) ⬝ᵥ (B *ᵥ (x - Pi.single i a))
        = x ⬝ᵥ (B *ᵥ x) - a * (w ⬝ᵥ x) - a * (w ⬝ᵥ x) + a * (a * d) := by
      rw [mulVec_sub, e1, sub_dotProduct, dotProduct_sub, dotProduct_sub, e2, e3, dotProduct_smul,
        dotProduct_comm x w, smul_eq_mul]
      ring
    rw [e4] at h1
    have e5 : x ⬝ᵥ ((B - (1 / d) • vecMulVec w w) *ᵥ x) = x ⬝ᵥ (B *ᵥ x) - (w ⬝ᵥ x) ^ 2 / d := by
      rw [sub_mulVec, dotProduct_sub, smul_mulVec, dotProduct_smul, vecMulVec_mulVec, smul_eq_mul]
      simp only [dotProduct_smul, MulOpposite.smul_eq_mul_unop, MulOpposite.unop_op, dotProduct_comm x w]
      ring
    rw [e5]
    have e6 : a * (w ⬝ᵥ x) = (w ⬝ᵥ x) ^ 2 / d := by rw [ha]; ring
    have e7 : a * (a * d) = (w ⬝ᵥ x) ^ 2 / d := by rw [ha]; field_simp
    rw [e6, e7] at h1
    linarith

theorem UduInv.step {A : Mat n n} {c : ℕ} {s : UduState} (h : UduInv A (c + 1) s) (hc : c < n) :
    UduInv A c (uduCol id (c + 1) s) := by
  set B := remPart n (c + 1) s.M with hB
  set i : Fin n := ⟨c, hc⟩ with hi
  have hBii : B i i = s.M c c := by simp [hB, remPart, hi]
  have hd0 : 0 ≤ s.M c c := by rw [← hBii]; exact h.psd.diag_nonneg
  set alpha : ℝ := if s.M c c > 0 then 1.0 / s.M c c else 0.0 with halpha
  have hcol : uduCol id (c + 1) s
      = ⟨fun r k => if k < c ∧ r ≤ k then s.M r k - s.M k c * (alpha * s.M r c) else s.M r k,
         fun r k => if k = c ∧ r < c then alpha * s.M r c else s.U r k,
         s.d.set c (s.M c c)⟩ := by
    have e : (s.d.set c (s.M c c)) c = s.M c c := by simp [Arr1.set]
    rw [uduCol]
    simp only [Nat.add_sub_cancel, e]
    rw [uduInner_fold c _ _ c le_rfl]
  rw [hcol]
  have hBsym : ∀ a b, B a b = B b a := fun a b =>
    congrFun (congrFun (symm_of_posSemidef h.psd) b) a
  -- column of the pivot
  have hw : ∀ r : Fin n, (r : ℕ) ≤ c → B r i = s.M r c := by
    intro r hr
    have h1 : (r : ℕ) < c + 1 ∧ ((i : Fin n) : ℕ) < c + 1 := ⟨by omega, by simp [hi]⟩
    simp only [hB, remPart, of_apply, h1, and_self, if_true]
    have e1 : min (r : ℕ) ((i : Fin n) : ℕ) = r := min_eq_left hr
    have e2 : max (r : ℕ) ((i : Fin n) : ℕ) = c := max_eq_right hr
    rw [e1, e2]
  have hw0 : ∀ r : Fin n, c < (r : ℕ) → B r i = 0 := by
    intro r hr
    have h1 : ¬ ((r : ℕ) < c + 1 ∧ ((i : Fin n) : ℕ) < c + 1) := by omega
    simp only [hB, remPart, of_apply, h1, if_false]
  -- a vanishing pivot comes with a vanishing column
  have hzero : s.M c c = 0 → ∀ r, B r i = 0 := by
    intro hz r
    have := (h.psd.dotProduct_mulVec_zero_iff (Pi.single i 1)).mp 
      (by rw [star_trivial, mulVec_single_one, single_dotProduct, one_mul]; exact hBii.trans hz)
    have := congrFun this r
    simpa using this
  have hrem : remPart n c (fun r k => if k < c ∧ r ≤ k then
        s.M r k - s.M k c * (alpha * s.M r c) else s.M r k)
      = B - alpha • vecMulVec (fun r => B r i) (fun r => B r i) := by
    ext r k
    simp only [remPart, of_apply, Matrix.sub_apply, Matrix.smul_apply, vecMulVec_apply, smul_eq_mul]
    by_cases hrk : (r : ℕ) < c ∧ (k : ℕ) < c
    · obtain ⟨hr, hk⟩ := hrk
      have h1 : max (r : ℕ) k < c ∧ min (r : ℕ) k ≤ max (r : ℕ) k := by omega
      have h2 : B r k = s.M (min (r : ℕ) k) (max (r : ℕ) k) := by
        have h3 : (r : ℕ) < c + 1 ∧ (k : ℕ) < c + 1 := by omega
        simp only [hB, remPart, of_apply, h3, and_self, if_true]
      simp only [hr, hk, h1, and_self, if_true]
      rw [h2, hw r hr.le, hw k hk.le]
      rcases le_total (r : ℕ) k with hle | hle
      · rw [min_eq_left hle, max_eq_right hle]; ring
      · rw [min_eq_right hle, max_eq_left hle]; ring
    · rw [if_neg hrk]
      symm
      by_cases hpos : s.M c c > 0
      · have ha : alpha = 1 / s.M c c := by rw [halpha, if_pos hpos]; norm_num
        rw [ha]
        -- one of the indices is at least `c`
        by_cases hr : (r : ℕ) < c
        · have hk : c ≤ (k : ℕ) := by omega
          rcases hk.eq_or_lt with hk | hk
          · have : k = i := Fin.ext hk.symm
            subst this
            rw [hBii]; field_simp; ring
          · have h1 : B r k = 0 := by
              have : ¬ ((r : ℕ) < c + 1 ∧ (k : ℕ) < c + 1) := by omega
              simp only [hB, remPart, of_apply, this, if_false]
            rw [h1, hw0 k hk]; ring
        · rcases (not_lt.mp hr).eq_or_lt with hr | hr
          · have : r = i := Fin.ext hr.symm
            subst this
            rw [hBii, hBsym i k]; field_simp; ring
          · have h1 : B r k = 0 := by
              have : ¬ ((r : ℕ) < c + 1 ∧ (k : ℕ) < c + 1) := by omega
              simp only [hB, remPart, of_apply, this, if_false]
            rw [h1, hw0 r hr]; ring
      · have hz : s.M c c = 0 := le_antisymm (not_lt.mp hpos) hd0
        rw [hzero hz r]
        have h1 : B r k = 0 := by
          by_cases h3 : (r : ℕ) < c + 1 ∧ (k : ℕ) < c + 1
          · have h4 : (r : ℕ) = c ∨ (k : ℕ) = c := by omega
            rcases h4 with h4 | h4
            · have : r = i := Fin.ext h4
              rw [this, hBsym, hzero hz]
            · have : k = i := Fin.ext h4
              rw [this, hzero hz]
          · simp only [hB, remPart, of_apply, h3, if_false]
        rw [h1]; ring
  have hpsd : (B - alpha • vecMulVec (fun r => B r i) (fun r => B r i)).PosSemidef := by
    by_cases hpos : s.M c c > 0
    · have ha : alpha = 1 / B i i := by rw [halpha, if_pos hpos, hBii]; norm_num
      rw [ha]
      exact schur_rank_one (B := B) h.psd i (by rw [hBii]; exact hpos)
    · have ha : alpha = 0 := by rw [halpha, if_neg hpos]; norm_num
      rw [ha, zero_smul, sub_zero]
      exact h.psd
  refine ⟨fun r k hkr => ?_, fun k => ?_, fun r k hk hrk => ?_, fun j hj => ?_, ?_, ?_⟩
  · have : ¬ (k = c ∧ r < c) := by omega
    simp only [this, if_false]
    exact h.upper r k hkr
  · have : ¬ (k = c ∧ k < c) := by omega
    simp only [this, if_false]
    exact h.diag k
  · have : ¬ (k = c ∧ r < c) := by omega
    simp only [this, if_false]
    exact h.low r k (by omega) hrk
  · simp only [Arr1.set]
    split
    · exact hd0
    · exact h.nonneg j (by omega)
  · simp only [hrem]
    exact hpsd
  · simp only [hrem]
    have hsum : (∑ j : Fin n, if c ≤ (j : ℕ) then
          (s.d.set c (s.M c c)) j • vecMulVec
            (colVec n (fun r k => if k = c ∧ r < c then alpha * s.M r c else s.U r k) j)
            (colVec n (fun r k => if k = c ∧ r < c then alpha * s.M r c else s.U r k) j) else 0)
        = (∑ j : Fin n, if c + 1 ≤ (j : ℕ) then
            s.d j • vecMulVec (colVec n s.U j) (colVec n s.U j) else 0)
          + alpha • vecMulVec (fun r => B r i) (fun r => B r i) := by
      have hterm : ∀ j : Fin n, (if c ≤ (j : ℕ) then
          (s.d.set c (s.M c c)) j • vecMulVec
            (colVec n (fun r k => if k = c ∧ r < c then alpha * s.M r c else s.U r k) j)
            (colVec n (fun r k => if k = c ∧ r < c then alpha * s.M r c else s.U r k) j) else 0)
          = (if c + 1 ≤ (j : ℕ) then
            s.d j • vecMulVec (colVec n s.U j) (colVec n s.U j) else 0)
          + if j = i then alpha • vecMulVec (fun r => B r i) (fun r => B r i) else 0 := by
        intro j
        by_cases hji : j = i
        · have hjc : (j : ℕ) = c := by rw [hji]
          have h1 : ¬ (c + 1 ≤ (j : ℕ)) := by omega
          rw [if_pos (by omega), if_neg h1, if_pos hji, zero_add, hjc]
          have e : (s.d.set c (s.M c c)) c = s.M c c := by simp [Arr1.set]
          rw [e]
          by_cases hpos : s.M c c > 0
          · have ha : alpha = 1 / s.M c c := by rw [halpha, if_pos hpos]; norm_num
            have hu : colVec n (fun r k => if k = c ∧ r < c then alpha * s.M r c else s.U r k) c
                = alpha • fun r => B r i := by
              funext r
              simp only [colVec, true_and, Pi.smul_apply, smul_eq_mul]
              split
              · rename_i hr
                rw [hw r hr.le]
              · rename_i hr
                rcases (not_lt.mp hr).eq_or_lt with hr | hr
                · have : r = i := Fin.ext hr.symm
                  rw [this, hBii, ha]
                  simp only [hi, h.diag]
                  field_simp
                · rw [h.upper _ _ hr, hw0 r hr, mul_zero]
            rw [hu, ha]
            ext r k
            simp only [Matrix.smul_apply, vecMulVec_apply, smul_eq_mul, Pi.smul_apply]
            field_simp
          · have hz : s.M c c = 0 := le_antisymm (not_lt.mp hpos) hd0
            have ha : alpha = 0 := by rw [halpha, if_neg hpos]; norm_num
            rw [hz, ha, zero_smul, zero_smul]
        · have hjc : (j : ℕ) ≠ c := fun e => hji (Fin.ext e)
          rw [if_neg hji, add_zero]
          by_cases hle : c ≤ (j : ℕ)
          · rw [if_pos hle, if_pos (show c + 1 ≤ (j : ℕ) by omega)]
            have e1 : (s.d.set c (s.M c c)) j = s.d j := by simp [Arr1.set, hjc]
            have e2 : colVec n (fun r k => if k = c ∧ r < c then alpha * s.M r c else s.U r k) j
                = colVec n s.U j := by
              funext r; simp [colVec, hjc]
            rw [e1, e2]
          · rw [if_neg hle, if_neg (by omega)]
      rw [Finset.sum_congr rfl fun j _ => hterm j, Finset.sum_add_distrib]
      simp
    rw [hsum]
    conv_lhs => rw [h.eq]
    abel

theorem UduInv.loop {A : Mat n n} (c : ℕ) (hc : c < n) (s : UduState) (h : UduInv A (c + 1) s) :
    UduInv A 1 (uduLoop id c s) := by
  induction c generalizing s with
  | zero => exact h
  | succ c ih =>
    rw [uduLoop]
    exact ih (by omega) _ (h.step hc)

theorem allCloseT_of_symm {M : Mat n n} (h : Mᵀ = M) : AllCloseT M := by
  intro i j
  rw [h, sub_self, abs_zero]
  positivity

/-- Unit upper triangular factor and nonnegative diagonal. -/
structure UDU.Valid (c : UDU n) : Prop where
  upper : ∀ i j, j < i → c.U i j = 0
  diag : ∀ i, c.U i i = 1
  nonneg : ∀ i, 0 ≤ c.D i

theorem UDU.reconstruct_eq (c : UDU n) :
    c.reconstruct = ∑ j, c.D j • vecMulVec (fun r => c.U r j) (fun r => c.U r j) := by
  ext r k
  rw [UDU.reconstruct, Matrix.sum_apply]
  rw [Matrix.mul_apply]
  simp only [mul_diagonal, transpose_apply, Matrix.smul_apply, vecMulVec_apply, smul_eq_mul]
  exact Finset.sum_congr rfl fun j _ => by ring

theorem UDU.Valid.posSemidef {c : UDU n} (h : c.Valid) : c.reconstruct.PosSemidef := by
  rw [UDU.reconstruct]
  exact posSemidef_conj' (PosSemidef.diagonal h.nonneg) _

theorem udu_posSemidef {M : Mat n n} (hM : M.PosSemidef) (hn : 0 < n) :
    ∃ c, udu id M = .ok c ∧ c.Valid ∧ c.reconstruct = M := by
  have hsym := symm_of_posSemidef hM
  set s0 : UduState := ⟨fun i j => if i ≤ j then arr2 M i j else 0,
    fun i j => if i = j then 1 else 0, fun _ => 0⟩ with hs0
  have h0 : UduInv M n s0 := by
    have hrem : remPart n n s0.M = M := by
      ext r k
      have h1 : (r : ℕ) < n ∧ (k : ℕ) < n := ⟨r.2, k.2⟩
      have h2 : M r k = M k r := congrFun (congrFun hsym k) r
      simp only [remPart, of_apply, h1, and_self, if_true, hs0, arr2]
      rcases le_total (r : ℕ) k with hle | hle
      · have h3 : min (r : ℕ) k = r := min_eq_left hle
        have h4 : max (r : ℕ) k = k := max_eq_right hle
        simp only [h3, h4, hle, if_true, h1, and_self, dite_true, Fin.eta]
      · have h3 : min (r : ℕ) k = k := min_eq_right hle
        have h4 : max (r : ℕ) k = r := max_eq_left hle
        simp only [h3, h4, hle, if_true, h1, and_self, dite_true, Fin.eta, h2]
    refine ⟨fun r k h => ?_, fun k => ?_, fun r k _ h => ?_, fun j _ => ?_, ?_, ?_⟩
    · simp [hs0, h.ne']
    · simp [hs0]
    · simp [hs0, h]
    · simp [hs0]
    · rw [hrem]; exact hM
    · rw [hrem]
      have : ∀ j : Fin n, ¬ n ≤ (j : ℕ) := fun j => by omega
      simp [this]
  have h1 : UduInv M 1 (uduLoop id (n - 1) s0) :=
    UduInv.loop (n - 1) (by omega) s0 (by rw [Nat.sub_add_cancel hn]; exact h0)
  set s := uduLoop id (n - 1) s0 with hs
  have hM00 : 0 ≤ s.M 0 0 := by
    have := h1.psd.diag_nonneg (i := ⟨0, hn⟩)
    simpa [remPart] using this
  refine ⟨⟨mat2 n s.U, vec1 n (s.d.set 0 (s.M 0 0))⟩, ?_, ⟨?_, ?_, ?_⟩, ?_⟩
  · rw [udu, if_pos (allCloseT_of_symm hsym), if_neg (by omega)]
  · intro i j hij
    exact h1.upper i j hij
  · intro i
    exact h1.diag i
  · intro i
    simp only [vec1, Arr1.set]
    split
    · exact hM00
    · exact h1.nonneg i (by omega)
  · rw [UDU.reconstruct_eq, h1.eq]
    have hrem : remPart n 1 s.M = s.M 0 0 • vecMulVec (colVec n s.U 0) (colVec n s.U 0) := by
      ext r k
      have hu : ∀ r : Fin n, s.U r 0 = if (r : ℕ) = 0 then 1 else 0 := by
        intro r
        split
        · rename_i hr
          rw [hr, h1.diag]
        · rename_i hr
          exact h1.low _ _ (by omega) hr
      simp only [remPart, of_apply, Matrix.smul_apply, vecMulVec_apply, smul_eq_mul, colVec, hu]
      by_cases hr : (r : ℕ) = 0 <;> by_cases hk : (k : ℕ) = 0 <;> simp [hr, hk]
    rw [hrem]
    have hterm : ∀ j : Fin n, (vec1 n (s.d.set 0 (s.M 0 0))) j •
        vecMulVec (fun r => mat2 n s.U r j) (fun r => mat2 n s.U r j)
        = (if j = ⟨0, hn⟩ then s.M 0 0 • vecMulVec (colVec n s.U 0) (colVec n s.U 0) else 0)
          + if 1 ≤ (j : ℕ) then s.d j • vecMulVec (colVec n s.U j) (colVec n s.U j) else 0 := by
      intro j
      by_cases hj : j = ⟨0, hn⟩
      · subst hj
        simp only [vec1, Arr1.set, if_true, mat2, of_apply]
        simp
        rfl
      · have hj0 : (j : ℕ) ≠ 0 := fun e => hj (Fin.ext e)
        have : 1 ≤ (j : ℕ) := by omega
        simp only [vec1, Arr1.set, hj0, if_false, mat2, of_apply, hj, this, if_true, zero_add]
        rfl
    rw [Finset.sum_congr rfl fun j _ => hterm j, Finset.sum_add_distrib]
    simp

end Verif
