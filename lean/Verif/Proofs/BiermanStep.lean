import Verif.Proofs.Udu
import Mathlib.LinearAlgebra.Matrix.SchurComplement

/-!
# Bierman's scalar update, and sequential processing of components
-/

open Matrix

namespace Verif

variable {n m : ℕ}

/-! ### The loop of `_filter_correct_single` -/

section Loop

variable (U : Arr2) (D f g : Arr1) (R : ℝ)

/-- `gamma[c - 1]`, with `R` for `c = 0`. -/
def gm (c : ℕ) : ℝ := R + ∑ q ∈ Finset.range c, g q * f q

/-- The array `k` after `c` columns. -/
def kSum (c r : ℕ) : ℝ := ∑ q ∈ Finset.range c, g q * U r q

theorem single_fold (hU : ∀ r, U r 0 = if r = 0 then 1 else 0) (i : ℕ) :
    (List.range i).foldl (singleBody U D f g)
      ⟨Arr1.set (fun _ => 0) 0 (R + g 0 * f 0), Arr2.set (fun _ _ => 0) 0 0 1,
        Arr1.set (fun _ => 0) 0 (D 0 * R / (R + g 0 * f 0)), Arr1.set (fun _ => 0) 0 (g 0)⟩
    = ⟨fun r => if r ≤ i then gm f g R (r + 1) else 0,
       fun r c => if c ≤ i then U r c - f c / gm f g R c * kSum U g c r else 0,
       fun r => if r ≤ i then D r * gm f g R r / gm f g R (r + 1) else 0,
       fun r => kSum U g (i + 1) r⟩ := by
  induction i with
  | zero =>
    simp only [List.range_zero, List.foldl_nil, SingleState.mk.injEq]
    refine ⟨?_, ?_, ?_, ?_⟩
    · funext r
      by_cases hr : r = 0 <;> simp [Arr1.set, hr, gm]
    · funext r c
      by_cases hc : c = 0
      · subst hc
        simp [Arr2.set, kSum, hU]
      · simp [Arr2.set, hc]
    · funext r
      by_cases hr : r = 0 <;> simp [Arr1.set, hr, gm]
    · funext r
      by_cases hr : r = 0 <;> simp [Arr1.set, hr, kSum, hU]
  | succ i ih =>
    rw [List.range_succ, List.foldl_append, ih]
    simp only [List.foldl_cons, List.foldl_nil, singleBody, Nat.add_sub_cancel]
    have hgm : gm f g R (i + 1) + g (i + 1) * f (i + 1) = gm f g R (i + 1 + 1) := by
      simp only [gm]
      rw [Finset.sum_range_succ _ (i + 1)]
      ring
    have hset : ∀ v : ℝ, (Arr1.set (fun r => if r ≤ i then gm f g R (r + 1) else 0) (i + 1) v) i
        = gm f g R (i + 1) := by
      intro v
      simp [Arr1.set]
    have hset' : ∀ v : ℝ, (Arr1.set (fun r => if r ≤ i then gm f g R (r + 1) else 0) (i + 1) v)
        (i + 1) = v := by
      intro v
      simp [Arr1.set]
    simp only [hset, hset', le_refl, if_true, hgm, SingleState.mk.injEq]
    refine ⟨?_, ?_, ?_, ?_⟩
    · funext r
      simp only [Arr1.set]
      by_cases hr : r = i + 1
      · simp [hr]
      · have : r ≤ i + 1 ↔ r ≤ i := by omega
        simp only [hr, if_false, this]
    · funext r c
      by_cases hc : c = i + 1
      · simp [hc]
      · have : c ≤ i + 1 ↔ c ≤ i := by omega
        simp only [hc, if_false, this]
    · funext r
      simp only [Arr1.set]
      by_cases hr : r = i + 1
      · simp [hr]
      · have : r ≤ i + 1 ↔ r ≤ i := by omega
        simp only [hr, if_false, this]
    · funext r
      simp only [kSum]
      rw [Finset.sum_range_succ _ (i + 1)]

theorem gm_pos (hR : 0 < R) (hg : ∀ q, 0 ≤ g q * f q) (c : ℕ) : 0 < gm f g R c :=
  add_pos_of_pos_of_nonneg hR (Finset.sum_nonneg fun q _ => hg q)

theorem single_identity (hR : 0 < R) (hD : ∀ q, 0 ≤ D q) (hg : ∀ q, g q = D q * f q) (c r s : ℕ) :
    ∑ q ∈ Finset.range c, D q * gm f g R q / gm f g R (q + 1)
        * ((U r q - f q / gm f g R q * kSum U g q r) * (U s q - f q / gm f g R q * kSum U g q s))
      = ∑ q ∈ Finset.range c, D q * (U r q * U s q)
        - 1 / gm f g R c * (kSum U g c r * kSum U g c s) := by
  induction c with
  | zero => simp [kSum]
  | succ c ih =>
    rw [Finset.sum_range_succ, Finset.sum_range_succ, ih]
    have hpos : ∀ c, 0 < gm f g R c := gm_pos f g R hR fun q => by
      rw [hg, mul_assoc]
      exact mul_nonneg (hD q) (mul_self_nonneg _)
    have h1 := (hpos c).ne'
    have h2 := (hpos (c + 1)).ne'
    have hk : ∀ r, kSum U g (c + 1) r = kSum U g c r + D c * f c * U r c := by
      intro r
      simp only [kSum]
      rw [Finset.sum_range_succ, hg c]
    have hgm : gm f g R (c + 1) = gm f g R c + D c * f c ^ 2 := by
      simp only [gm]
      rw [Finset.sum_range_succ, hg c]
      ring
    rw [hk, hk]
    have h3 : gm f g R c + D c * f c ^ 2 ≠ 0 := by rw [← hgm]; exact h2
    rw [hgm]
    field_simp
    ring

end Loop

theorem arr1_apply (v : Vec n) (i : Fin n) : arr1 v i = v i := by simp [arr1]

theorem arr2_apply (M : Mat n n) (i j : Fin n) : arr2 M i j = M i j := by simp [arr2]

theorem sum_range_arr {F : ℕ → ℝ} : ∑ q ∈ Finset.range n, F q = ∑ q : Fin n, F q :=
  Finset.sum_range F

/-- One scalar update in terms of the covariance. -/
theorem correctSingle_eq {c : UDU n} (hn : 0 < n) (hc : c.Valid) (h : Vec n) {R : ℝ} (hR : 0 < R) :
    (correctSingle c h R).1.Valid ∧
    (correctSingle c h R).1.reconstruct = c.reconstruct
      - (1 / (h ⬝ᵥ (c.reconstruct *ᵥ h) + R)) •
        vecMulVec (c.reconstruct *ᵥ h) (c.reconstruct *ᵥ h) ∧
    (correctSingle c h R).2 = (1 / (h ⬝ᵥ (c.reconstruct *ᵥ h) + R)) • (c.reconstruct *ᵥ h) := by
  set f : Vec n := h ᵥ* c.U with hf
  set g : Vec n := diagonal c.D *ᵥ f with hg
  have hgD : ∀ q, arr1 g q = arr1 c.D q * arr1 f q := by
    intro q
    simp only [arr1]
    split
    · simp [hg, mulVec_diagonal]
    · simp
  have hD : ∀ q, 0 ≤ arr1 c.D q := by
    intro q
    simp only [arr1]
    split
    · exact hc.nonneg _
    · exact le_rfl
  have hU0 : ∀ r, arr2 c.U r 0 = if r = 0 then 1 else 0 := by
    intro r
    by_cases hr : r < n
    · simp only [arr2, hr, hn, and_self, dite_true]
      by_cases h0 : r = 0
      · subst h0; simp [hc.diag]
      · rw [if_neg h0]
        exact hc.upper _ _ (by simp only [Fin.lt_def]; omega)
    · have : r ≠ 0 := by omega
      simp [arr2, hr, this]
  have hgf : ∀ q, 0 ≤ arr1 g q * arr1 f q := fun q => by
    rw [hgD, mul_assoc]
    exact mul_nonneg (hD q) (mul_self_nonneg _)
  have hPh : c.reconstruct *ᵥ h = c.U *ᵥ g := by
    rw [UDU.reconstruct, ← mulVec_mulVec, ← mulVec_mulVec, mulVec_transpose]
  have halpha : h ⬝ᵥ (c.reconstruct *ᵥ h) = f ⬝ᵥ g := by
    rw [hPh, dotProduct_mulVec]
  have hgmn : gm (arr1 f) (arr1 g) R n = f ⬝ᵥ g + R := by
    rw [gm, sum_range_arr, add_comm, dotProduct]
    congr 1
    exact Finset.sum_congr rfl fun i _ => by rw [arr1_apply, arr1_apply, mul_comm]
  have hk : ∀ r : Fin n, kSum (arr2 c.U) (arr1 g) n r = (c.U *ᵥ g) r := by
    intro r
    rw [kSum, sum_range_arr]
    simp only [mulVec, dotProduct, arr1_apply, arr2_apply]
    exact Finset.sum_congr rfl fun i _ => mul_comm _ _
  have hs : correctSingle c h R
      = (⟨mat2 n fun r q => if q ≤ n - 1 then arr2 c.U r q - arr1 f q / gm (arr1 f) (arr1 g) R q
            * kSum (arr2 c.U) (arr1 g) q r else 0,
          vec1 n fun r => if r ≤ n - 1 then arr1 c.D r * gm (arr1 f) (arr1 g) R r
            / gm (arr1 f) (arr1 g) R (r + 1) else 0⟩,
         (1 / (f ⬝ᵥ g + R)) • vec1 n fun r => kSum (arr2 c.U) (arr1 g) (n - 1 + 1) r) := by
    have := single_fold (arr2 c.U) (arr1 c.D) (arr1 f) (arr1 g) R hU0 (n - 1)
    have e0 : (Arr1.set (fun _ => 0) 0 (R + arr1 g 0 * arr1 f 0)) 0 = R + arr1 g 0 * arr1 f 0 := rfl
    simp only [correctSingle, ← hf, ← hg, e0, this]
  rw [hs]
  simp only [Nat.sub_add_cancel hn]
  refine ⟨⟨fun i j hij => ?_, fun i => ?_, fun i => ?_⟩, ?_, ?_⟩
  · simp only [mat2, of_apply]
    rw [if_pos (by omega), arr2_apply, hc.upper i j hij]
    have : kSum (arr2 c.U) (arr1 g) j i = 0 := by
      rw [kSum]
      refine Finset.sum_eq_zero fun q hq => ?_
      rw [Finset.mem_range] at hq
      have : arr2 c.U i q = 0 := by
        have hq' : q < n := by omega
        have := hc.upper i ⟨q, hq'⟩ (by simp only [Fin.lt_def] at hij ⊢; omega)
        simpa [arr2, hq'] using this
      rw [this, mul_zero]
    rw [this, mul_zero, sub_zero]
  · simp only [mat2, of_apply]
    rw [if_pos (by omega), arr2_apply, hc.diag i]
    have : kSum (arr2 c.U) (arr1 g) i i = 0 := by
      rw [kSum]
      refine Finset.sum_eq_zero fun q hq => ?_
      rw [Finset.mem_range] at hq
      have : arr2 c.U i q = 0 := by
        have hq' : q < n := by omega
        have := hc.upper i ⟨q, hq'⟩ (by simp only [Fin.lt_def]; omega)
        simpa [arr2, hq'] using this
      rw [this, mul_zero]
    rw [this, mul_zero, sub_zero]
  · simp only [vec1]
    rw [if_pos (by omega)]
    exact div_nonneg (mul_nonneg (hD _) (gm_pos _ _ _ hR hgf _).le) (gm_pos _ _ _ hR hgf _).le
  · rw [halpha, hPh]
    ext r s
    have hrec : ∀ (d : UDU n) (r s : Fin n), d.reconstruct r s = ∑ q, d.D q * (d.U r q * d.U s q) := by
      intro d r s
      rw [UDU.reconstruct_eq, Matrix.sum_apply]
      rfl
    rw [hrec, Matrix.sub_apply, hrec, Matrix.smul_apply, vecMulVec_apply, smul_eq_mul]
    have := single_identity (arr2 c.U) (arr1 c.D) (arr1 f) (arr1 g) R hR hD hgD n r s
    rw [sum_range_arr, sum_range_arr, hgmn, hk, hk] at this
    simp only [arr1_apply, arr2_apply] at this
    rw [← this]
    refine Finset.sum_congr rfl fun q _ => ?_
    have hq : (q : ℕ) ≤ n - 1 := by omega
    simp only [mat2, vec1, of_apply, hq, if_true, arr1_apply, arr2_apply]
  · rw [halpha, hPh]
    congr 1
    funext r
    exact hk r

/-! ### Components one after the other -/

/-- One scalar correction with unit noise, on mean and covariance. -/
noncomputable def scalarUpdate (s : Vec n × Mat n n) (q : Vec n × ℝ) : Vec n × Mat n n :=
  (s.1 + (q.2 - q.1 ⬝ᵥ s.1) • ((1 / (q.1 ⬝ᵥ (s.2 *ᵥ q.1) + 1)) • (s.2 *ᵥ q.1)),
   s.2 - (1 / (q.1 ⬝ᵥ (s.2 *ᵥ q.1) + 1)) • vecMulVec (s.2 *ᵥ q.1) (s.2 *ᵥ q.1))

theorem vecMulVec_mul' {a b c : ℕ} (u : Vec a) (v : Vec b) (M : Mat b c) :
    vecMulVec u v * M = vecMulVec u (v ᵥ* M) := by
  ext i j
  simp only [mul_apply, vecMulVec_apply, vecMul, dotProduct, Finset.mul_sum]
  exact Finset.sum_congr rfl fun k _ => by ring

theorem mul_vecMulVec' {a b c : ℕ} (u : Vec b) (v : Vec c) (M : Mat a b) :
    M * vecMulVec u v = vecMulVec (M *ᵥ u) v := by
  ext i j
  simp only [mul_apply, vecMulVec_apply, mulVec, dotProduct, Finset.sum_mul]
  exact Finset.sum_congr rfl fun k _ => by ring

theorem vecMulVec_mulVec' {a b : ℕ} (u : Vec a) (v w : Vec b) :
    vecMulVec u v *ᵥ w = (v ⬝ᵥ w) • u := by
  ext i
  simp only [mulVec, vecMulVec_apply, dotProduct, Pi.smul_apply, smul_eq_mul, Finset.sum_mul]
  exact Finset.sum_congr rfl fun k _ => by ring

theorem scalarUpdate_spec {P : Mat n n} (hP : P.PosSemidef) (x h : Vec n) (y : ℝ) :
    let r := scalarUpdate (x, P) (h, y)
    r.2.PosSemidef ∧ r.2 * (1 + vecMulVec h h * P) = P ∧ r.1 = x + (y - h ⬝ᵥ x) • (r.2 *ᵥ h) := by
  intro r
  obtain ⟨hs, hq⟩ := posSemidef_iff_real.mp hP
  have hv : h ᵥ* P = P *ᵥ h := by rw [← mulVec_transpose, hs]
  set a := h ⬝ᵥ (P *ᵥ h) with ha
  have hpos : 0 < a + 1 := add_pos_of_nonneg_of_pos (hq h) one_pos
  have hPh : r.2 *ᵥ h = (1 / (a + 1)) • (P *ᵥ h) := by
    simp only [r, scalarUpdate]
    rw [← ha, sub_mulVec, smul_mulVec, vecMulVec_mulVec', dotProduct_comm, ← ha, smul_smul]
    nth_rewrite 1 [← one_smul ℝ (P *ᵥ h)]
    rw [← sub_smul]
    congr 1
    field_simp
    ring
  have heq : r.2 * (1 + vecMulVec h h * P) = P := by
    rw [Matrix.mul_add, Matrix.mul_one, vecMulVec_mul', hv, mul_vecMulVec', hPh, smul_vecMulVec]
    simp only [r, scalarUpdate]
    rw [← ha]
    abel
  refine ⟨?_, heq, ?_⟩
  · refine posSemidef_iff_real.mpr ⟨?_, fun x => ?_⟩
    · simp only [r, scalarUpdate, transpose_sub, hs, transpose_smul, transpose_vecMulVec]
    · -- complete the square along `h`
      simp only [r, scalarUpdate]
      rw [← ha, sub_mulVec, smul_mulVec, vecMulVec_mulVec', dotProduct_sub, dotProduct_smul,
        dotProduct_smul, smul_eq_mul, smul_eq_mul]
      set b := (P *ᵥ h) ⬝ᵥ x with hb
      have hb' : x ⬝ᵥ (P *ᵥ h) = b := dotProduct_comm _ _
      have hb'' : h ⬝ᵥ (P *ᵥ x) = b := by rw [dotProduct_mulVec, hv]
      have h1 := hq (x - (b / (a + 1)) • h)
      rw [mulVec_sub, mulVec_smul, sub_dotProduct, dotProduct_sub, dotProduct_sub, dotProduct_smul,
        smul_dotProduct, smul_dotProduct, dotProduct_smul, hb', hb'', ← ha] at h1
      simp only [smul_eq_mul] at h1
      rw [hb']
      have h2 : x ⬝ᵥ (P *ᵥ x) - b / (a + 1) * b - (b / (a + 1) * b - b / (a + 1) * (b / (a + 1) * a))
          = x ⬝ᵥ (P *ᵥ x) - 1 / (a + 1) * (b * b) - (b / (a + 1)) ^ 2 := by
        field_simp
        ring
      rw [h2] at h1
      have := sq_nonneg (b / (a + 1))
      linarith
  · rw [hPh]
    rfl

/-- Gram matrix of a list of rows. -/
def rowsGram (l : List (Vec n × ℝ)) : Mat n n := (l.map fun q => vecMulVec q.1 q.1).sum

/-- Weighted residuals of a list of rows. -/
def rowsRes (x : Vec n) (l : List (Vec n × ℝ)) : Vec n :=
  (l.map fun q => (q.2 - q.1 ⬝ᵥ x) • q.1).sum

theorem rowsRes_shift (x y : Vec n) (l : List (Vec n × ℝ)) :
    rowsRes (x + y) l = rowsRes x l - rowsGram l *ᵥ y := by
  induction l with
  | nil => simp [rowsRes, rowsGram]
  | cons q l ih =>
    simp only [rowsRes, rowsGram, List.map_cons, List.sum_cons] at ih ⊢
    rw [ih, add_mulVec, vecMulVec_mulVec', dotProduct_add, ← sub_sub, sub_smul]
    abel

theorem sequential_spec (l : List (Vec n × ℝ)) (x : Vec n) {P : Mat n n} (hP : P.PosSemidef) :
    let r := l.foldl scalarUpdate (x, P)
    r.2.PosSemidef ∧ r.2 * (1 + rowsGram l * P) = P ∧ r.1 = x + r.2 *ᵥ rowsRes x l := by
  induction l generalizing x P with
  | nil => simp [rowsGram, rowsRes, hP]
  | cons q l ih =>
    obtain ⟨h1, h2, h3⟩ := scalarUpdate_spec hP x q.1 q.2
    simp only [List.foldl_cons]
    set s := scalarUpdate (x, P) q with hs
    obtain ⟨g1, g2, g3⟩ := ih s.1 (P := s.2) h1
    set r := l.foldl scalarUpdate s with hr
    refine ⟨g1, ?_, ?_⟩
    · have e : rowsGram (q :: l) = vecMulVec q.1 q.1 + rowsGram l := by simp [rowsGram]
      have : r.2 * (1 + rowsGram l * s.2) * (1 + vecMulVec q.1 q.1 * P) = P := by rw [g2, h2]
      rw [Matrix.mul_assoc, Matrix.add_mul, Matrix.one_mul, Matrix.mul_assoc, h2] at this
      rw [e, Matrix.add_mul, ← add_assoc]
      exact this
    · have e : rowsRes x (q :: l) = (q.2 - q.1 ⬝ᵥ x) • q.1 + rowsRes x l := by simp [rowsRes]
      change r.1 = _
      rw [g3, h3, rowsRes_shift, e, mulVec_add, mulVec_sub, mulVec_smul, mulVec_smul, mulVec_mulVec,
        mulVec_mulVec]
      have g4 : r.2 + r.2 * (rowsGram l * s.2) = s.2 := by
        rw [← Matrix.mul_one r.2, Matrix.mul_assoc, Matrix.one_mul, ← Matrix.mul_add]; exact g2
      have g5 : s.2 *ᵥ q.1 = r.2 *ᵥ q.1 + (r.2 * (rowsGram l * s.2)) *ᵥ q.1 := by
        rw [← add_mulVec, g4]
      rw [Matrix.mul_assoc, mulVec_smul]
      change x + (q.2 - q.1 ⬝ᵥ x) • (s.2 *ᵥ q.1) + _ = _
      rw [g5, smul_add]
      abel

theorem isUnit_one_add {C : Mat m n} {P : Mat n n} (hP : P.PosSemidef) :
    IsUnit (1 + Cᵀ * C * P).det := by
  rw [Matrix.mul_assoc, det_one_add_mul_comm]
  have : (1 + C * P * Cᵀ).PosDef := PosDef.one.add_posSemidef (posSemidef_conj' hP C)
  exact isUnit_iff_ne_zero.mpr this.det_pos.ne'

/-- The joint update with unit noise satisfies the same equations. -/
theorem joint_spec {P : Mat n n} (hP : P.PosSemidef) (C : Mat m n) :
    (P - gain P 1 C * C * P) * (1 + Cᵀ * C * P) = P ∧
    (P - gain P 1 C * C * P) * Cᵀ = gain P 1 C := by
  have hg := gain_mul C hP (R := 1) PosSemidef.one
  have h2 : (P - gain P 1 C * C * P) * Cᵀ = gain P 1 C := by
    rw [Matrix.sub_mul, ← hg, Matrix.mul_add, Matrix.mul_one]
    simp only [Matrix.mul_assoc]
    abel
  refine ⟨?_, h2⟩
  rw [Matrix.mul_add, Matrix.mul_one, Matrix.mul_assoc Cᵀ, ← Matrix.mul_assoc _ Cᵀ, h2,
    ← Matrix.mul_assoc]
  abel

/-- Rows of an observation, decorrelated. -/
def obsRows (C : Mat m n) (d z : Vec m) : List (Vec n × ℝ) :=
  (List.finRange m).map fun i => (C i, z i - d i)

theorem rowsGram_obsRows (C : Mat m n) (d z : Vec m) : rowsGram (obsRows C d z) = Cᵀ * C := by
  rw [rowsGram, obsRows, List.map_map, ← List.ofFn_eq_map, List.sum_ofFn]
  ext i j
  rw [Matrix.sum_apply]
  simp [mul_apply, vecMulVec_apply]

theorem rowsRes_obsRows (C : Mat m n) (d z : Vec m) (x : Vec n) :
    rowsRes x (obsRows C d z) = Cᵀ *ᵥ (z - (C *ᵥ x + d)) := by
  rw [rowsRes, obsRows, List.map_map, ← List.ofFn_eq_map, List.sum_ofFn]
  ext i
  rw [Finset.sum_apply]
  simp only [Function.comp, Pi.smul_apply, smul_eq_mul, mulVec, dotProduct, transpose_apply,
    Pi.sub_apply, Pi.add_apply]
  exact Finset.sum_congr rfl fun j _ => by ring

/-- Sequential equals joint. -/
theorem sequential_eq_joint {P : Mat n n} (hP : P.PosSemidef) (C : Mat m n) (d z : Vec m)
    (x : Vec n) :
    (obsRows C d z).foldl scalarUpdate (x, P)
      = (x + gain P 1 C *ᵥ (z - (C *ᵥ x + d)), P - gain P 1 C * C * P) := by
  obtain ⟨-, h2, h3⟩ := sequential_spec (obsRows C d z) x hP
  obtain ⟨j1, j2⟩ := joint_spec hP C
  rw [rowsGram_obsRows] at h2
  have hu := isUnit_one_add (C := C) hP
  have hP2 : ((obsRows C d z).foldl scalarUpdate (x, P)).2 = P - gain P 1 C * C * P := by
    have := h2.trans j1.symm
    have := congrArg (· * (1 + Cᵀ * C * P)⁻¹) this
    simp only [Matrix.mul_assoc] at this
    rwa [mul_nonsing_inv _ (by simpa only [Matrix.mul_assoc] using hu), Matrix.mul_one,
      Matrix.mul_one, ← Matrix.mul_assoc] at this
  refine Prod.ext ?_ hP2
  rw [h3, hP2, rowsRes_obsRows, mulVec_mulVec, j2]

/-- The loop of Bierman's `_filter_correct` with unit noise. -/
theorem bierCorrect_fold (hn : 0 < n) (C : Mat m n) (d z : Vec m) (l : List (Fin m))
    (x : Vec n) {c : UDU n} (hc : c.Valid) :
    let r := l.foldl (bierCorrectOne C 1 d z) (x, c)
    r.2.Valid ∧ (r.1, r.2.reconstruct)
      = (l.map fun i => (C i, z i - d i)).foldl scalarUpdate (x, c.reconstruct) := by
  induction l generalizing x c with
  | nil => exact ⟨hc, rfl⟩
  | cons i l ih =>
    simp only [List.foldl_cons, List.map_cons]
    obtain ⟨v1, v2, v3⟩ := correctSingle_eq hn hc (C i) (R := (1 : Mat m m) i i) (by simp)
    have e : scalarUpdate (x, c.reconstruct) (C i, z i - d i)
        = ((bierCorrectOne C 1 d z (x, c) i).1, (bierCorrectOne C 1 d z (x, c) i).2.reconstruct) := by
      simp only [scalarUpdate, bierCorrectOne]
      rw [v2, v3, one_apply_eq]
      congr 3
      ring
    rw [e]
    exact ih _ v1

theorem bierCorrect_eq (hn : 0 < n) (C : Mat m n) (d : Vec m) (x : Vec n) {c : UDU n}
    (hc : c.Valid) (o : Obs m) :
    (bierCorrect C 1 d x c o).2.Valid ∧
    (bierCorrect C 1 d x c o).1 = (filterCorrect C 1 d x c.reconstruct o).2.1 ∧
    (bierCorrect C 1 d x c o).2.reconstruct = (filterCorrect C 1 d x c.reconstruct o).2.2 := by
  by_cases hm : o.missing
  · simp [bierCorrect, filterCorrect, hm, hc]
  · obtain ⟨h1, h2⟩ := bierCorrect_fold hn C d o.val (List.finRange m) x hc
    have h3 := sequential_eq_joint hc.posSemidef C d o.val x
    rw [obsRows] at h3
    rw [h3, Prod.mk.injEq] at h2
    have e : c.reconstruct * (Cᵀ * pinv (C * (c.reconstruct * Cᵀ) + 1)) = gain c.reconstruct 1 C := by
      rw [gain]; simp only [Matrix.mul_assoc]
    simp only [bierCorrect, filterCorrect, hm, not_false_eq_true, if_true, e]
    refine ⟨h1, h2.1, ?_⟩
    rw [h2.2, Matrix.mul_assoc]

end Verif
