import Verif.Model.CutOff
import Verif.Linalg.Pinv
import Mathlib.Analysis.InnerProductSpace.PiL2
import Mathlib.Analysis.Matrix.Order
import Mathlib.Data.Finset.Fold

/-!
# Singular value decompositions and the pseudo-inverse with a cut-off
-/

open Matrix

namespace Verif

variable {k : ℕ}

theorem le_maxSingular (s : Vec k) (i : Fin k) : s i ≤ maxSingular s :=
  Finset.le_fold_max _ |>.mpr (Or.inr ⟨i, Finset.mem_univ _, le_rfl⟩)

theorem maxSingular_nonneg (s : Vec k) : 0 ≤ maxSingular s :=
  Finset.le_fold_max _ |>.mpr (Or.inl le_rfl)

theorem maxSingular_le {s : Vec k} {c : ℝ} (h0 : 0 ≤ c) (h : ∀ i, s i ≤ c) : maxSingular s ≤ c :=
  Finset.fold_max_le _ |>.mpr ⟨h0, fun i _ => h i⟩

variable {M U V U' V' : Mat k k} {s s' : Vec k}

theorem IsSVD.right' (h : IsSVD M U s V) : V * Vᵀ = 1 := mul_eq_one_comm.mp h.right

theorem IsSVD.left' (h : IsSVD M U s V) : U * Uᵀ = 1 := mul_eq_one_comm.mp h.left

/-- Exchange of the two sides. -/
theorem IsSVD.transpose (h : IsSVD M U s V) : IsSVD Mᵀ V s U := by
  refine ⟨h.right, h.left, h.nonneg, ?_⟩
  rw [h.eq]
  simp [transpose_mul, Matrix.mul_assoc]

theorem IsSVD.gram (h : IsSVD M U s V) : Mᵀ * M * V = V * diagonal fun i => s i ^ 2 := by
  have e : (diagonal fun i => s i ^ 2 : Mat k k) = diagonal s * diagonal s := by
    rw [diagonal_mul_diagonal]
    congr 1
    funext i
    exact sq _
  rw [h.eq, e]
  simp only [transpose_mul, transpose_transpose, diagonal_transpose]
  calc V * (diagonal s * Uᵀ) * (U * diagonal s * Vᵀ) * V
      = V * diagonal s * (Uᵀ * U) * diagonal s * (Vᵀ * V) := by noncomm_ring
    _ = _ := by rw [h.left, h.right]; noncomm_ring

/-- Two decompositions: the right factors only mix equal singular values. -/
theorem IsSVD.mix (h : IsSVD M U s V) (h' : IsSVD M U' s' V') (i j : Fin k)
    (hij : (V'ᵀ * V) i j ≠ 0) : s' i = s j := by
  have e : V'ᵀ * V * diagonal (fun i => s i ^ 2) = diagonal (fun i => s' i ^ 2) * (V'ᵀ * V) := by
    have h1 := h'.gram
    have h2 : V'ᵀ * (Mᵀ * M) = diagonal (fun i => s' i ^ 2) * V'ᵀ := by
      have := congrArg Matrix.transpose h1
      simpa [transpose_mul, Matrix.mul_assoc] using this
    rw [Matrix.mul_assoc, ← h.gram, ← Matrix.mul_assoc, ← Matrix.mul_assoc, Matrix.mul_assoc V'ᵀ,
      h2, Matrix.mul_assoc]
  have e' := congrFun (congrFun e i) j
  rw [mul_diagonal, diagonal_mul, mul_comm] at e'
  have : s j ^ 2 = s' i ^ 2 := mul_right_cancel₀ hij e'
  exact ((sq_eq_sq₀ (h.nonneg j) (h'.nonneg i)).mp this).symm

theorem IsSVD.exists_mix (h : IsSVD M U s V) (h' : IsSVD M U' s' V') (j : Fin k) :
    ∃ i, s' i = s j := by
  by_contra hne
  push Not at hne
  have h0 : ∀ i, (V'ᵀ * V) i j = 0 := fun i => by
    by_contra hij
    exact hne i (h.mix h' i j hij)
  have h1 : (V'ᵀ * V)ᵀ * (V'ᵀ * V) = 1 := by
    rw [transpose_mul, transpose_transpose, Matrix.mul_assoc, ← Matrix.mul_assoc V' V'ᵀ, h'.right',
      Matrix.one_mul, h.right]
  have h2 := congrFun (congrFun h1 j) j
  rw [Matrix.mul_apply] at h2
  simp [h0] at h2

theorem IsSVD.max_le (h : IsSVD M U s V) (h' : IsSVD M U' s' V') :
    maxSingular s ≤ maxSingular s' := by
  refine maxSingular_le (maxSingular_nonneg _) fun j => ?_
  obtain ⟨i, hi⟩ := h.exists_mix h' j
  rw [← hi]
  exact le_maxSingular _ _

/-- The pseudo-inverse with a cut-off does not depend on the decomposition. -/
theorem IsSVD.svdPinv_eq (h : IsSVD M U s V) (h' : IsSVD M U' s' V') (r : ℝ) :
    svdPinv r U s V = svdPinv r U' s' V' := by
  have hmax : maxSingular s = maxSingular s' := le_antisymm (h.max_le h') (h'.max_le h)
  have key : ∀ {U V : Mat k k} {s : Vec k}, IsSVD M U s V → ∀ c : ℝ,
      V * diagonal (fun i => if c < s i then (s i)⁻¹ else 0) * Uᵀ
        = V * diagonal (fun i => if c < s i then ((s i) ^ 2)⁻¹ else 0) * Vᵀ * Mᵀ := by
    intro U V s h c
    have e : (diagonal (fun i => if c < s i then (s i)⁻¹ else 0) : Mat k k)
        = diagonal (fun i => if c < s i then ((s i) ^ 2)⁻¹ else 0) * diagonal s := by
      rw [diagonal_mul_diagonal]
      congr 1
      funext i
      split_ifs with hi
      · by_cases h0 : s i = 0
        · simp [h0]
        · field_simp
      · simp
    rw [e, h.eq]
    simp only [transpose_mul, transpose_transpose, diagonal_transpose]
    calc V * (diagonal (fun i => if c < s i then ((s i) ^ 2)⁻¹ else 0) * diagonal s) * Uᵀ
        = V * diagonal (fun i => if c < s i then ((s i) ^ 2)⁻¹ else 0) * 1 * (diagonal s * Uᵀ) := by
          noncomm_ring
      _ = _ := by rw [← h.right]; noncomm_ring
  have comm : V'ᵀ * V * diagonal (fun i => if r * maxSingular s < s i then ((s i) ^ 2)⁻¹ else 0)
      = diagonal (fun i => if r * maxSingular s < s' i then ((s' i) ^ 2)⁻¹ else 0) * (V'ᵀ * V) := by
    ext i j
    rw [mul_diagonal, diagonal_mul]
    by_cases hij : (V'ᵀ * V) i j = 0
    · simp [hij]
    · rw [h.mix h' i j hij, mul_comm]
  rw [svdPinv, svdPinv, key h, ← hmax, key h']
  congr 1
  calc V * diagonal (fun i => if r * maxSingular s < s i then ((s i) ^ 2)⁻¹ else 0) * Vᵀ
      = V' * (V'ᵀ * V * diagonal (fun i => if r * maxSingular s < s i then ((s i) ^ 2)⁻¹ else 0))
        * Vᵀ := by
        rw [← Matrix.mul_assoc, ← Matrix.mul_assoc, h'.right', Matrix.one_mul]
    _ = V' * diagonal (fun i => if r * maxSingular s < s' i then ((s' i) ^ 2)⁻¹ else 0) * V'ᵀ
        * (V * Vᵀ) := by rw [comm]; noncomm_ring
    _ = _ := by rw [h.right', Matrix.mul_one]

/-- The pseudo-inverse with a cut-off satisfies the second Penrose equation. -/
theorem IsSVD.svdPinv_mul (h : IsSVD M U s V) (r : ℝ) :
    svdPinv r U s V * M * svdPinv r U s V = svdPinv r U s V := by
  rw [svdPinv]
  set g : Vec k := fun i => if r * maxSingular s < s i then (s i)⁻¹ else 0 with hg
  have e : diagonal g * diagonal s * diagonal g = diagonal g := by
    rw [diagonal_mul_diagonal, diagonal_mul_diagonal]
    congr 1
    funext i
    simp only [hg]
    split_ifs
    · by_cases h0 : s i = 0 <;> simp [h0]
    · simp
  conv_lhs => rw [h.eq]
  calc V * diagonal g * Uᵀ * (U * diagonal s * Vᵀ) * (V * diagonal g * Uᵀ)
      = V * diagonal g * (Uᵀ * U) * diagonal s * (Vᵀ * V) * diagonal g * Uᵀ := by noncomm_ring
    _ = V * (diagonal g * diagonal s * diagonal g) * Uᵀ := by
      rw [h.left, h.right]; noncomm_ring
    _ = _ := by rw [e]

/-- For symmetric matrices it is symmetric. -/
theorem IsSVD.svdPinv_symm (h : IsSVD M U s V) (hM : Mᵀ = M) (r : ℝ) :
    (svdPinv r U s V)ᵀ = svdPinv r U s V := by
  have h' := h.transpose
  rw [hM] at h'
  refine Eq.trans ?_ (h'.svdPinv_eq h r)
  simp [svdPinv, transpose_mul, Matrix.mul_assoc]

/-- The largest singular value is attained. -/
theorem exists_maxSingular (s : Vec k) : maxSingular s = 0 ∨ ∃ i, s i = maxSingular s := by
  rcases (Finset.le_fold_max (s := Finset.univ) (b := (0 : ℝ)) (f := s) (maxSingular s)).mp le_rfl
    with h | ⟨i, -, h⟩
  · exact Or.inl (le_antisymm h (maxSingular_nonneg s))
  · exact Or.inr ⟨i, le_antisymm (le_maxSingular s i) h⟩

/-- If no singular value is dropped that is not zero, the result is the Moore–Penrose inverse. -/
theorem IsSVD.svdPinv_eq_pinv (h : IsSVD M U s V) {r : ℝ} (hr : 0 ≤ r)
    (hs : ∀ i, s i ≠ 0 → r * maxSingular s < s i) : svdPinv r U s V = pinv M := by
  have hd : (fun i => if r * maxSingular s < s i then (s i)⁻¹ else 0) = fun i => (s i)⁻¹ := by
    funext i
    by_cases h0 : s i = 0
    · simp [h0]
    · rw [if_pos (hs i h0)]
  have e : svdPinv r U s V = V * diagonal (fun i => (s i)⁻¹) * Uᵀ := by rw [svdPinv, hd]
  rw [e]
  symm
  apply pinv_eq_of_penrose
  have hMX : M * (V * diagonal (fun i => (s i)⁻¹) * Uᵀ)
      = U * (diagonal s * diagonal (fun i => (s i)⁻¹)) * Uᵀ := by
    rw [h.eq]
    calc U * diagonal s * Vᵀ * (V * diagonal (fun i => (s i)⁻¹) * Uᵀ)
        = U * diagonal s * (Vᵀ * V) * diagonal (fun i => (s i)⁻¹) * Uᵀ := by noncomm_ring
      _ = _ := by rw [h.right]; noncomm_ring
  have hXM : V * diagonal (fun i => (s i)⁻¹) * Uᵀ * M
      = V * (diagonal (fun i => (s i)⁻¹) * diagonal s) * Vᵀ := by
    rw [h.eq]
    calc V * diagonal (fun i => (s i)⁻¹) * Uᵀ * (U * diagonal s * Vᵀ)
        = V * diagonal (fun i => (s i)⁻¹) * (Uᵀ * U) * diagonal s * Vᵀ := by noncomm_ring
      _ = _ := by rw [h.left]; noncomm_ring
  refine ⟨?_, ?_, ?_, ?_⟩
  · have ed : diagonal s * diagonal (fun i => (s i)⁻¹) * diagonal s = diagonal s := by
      rw [diagonal_mul_diagonal, diagonal_mul_diagonal]
      congr 1; funext i
      by_cases h0 : s i = 0 <;> simp [h0]
    rw [hMX]
    conv_lhs => rw [h.eq]
    calc U * (diagonal s * diagonal (fun i => (s i)⁻¹)) * Uᵀ * (U * diagonal s * Vᵀ)
        = U * (diagonal s * diagonal (fun i => (s i)⁻¹)) * (Uᵀ * U) * diagonal s * Vᵀ := by
          noncomm_ring
      _ = U * (diagonal s * diagonal (fun i => (s i)⁻¹) * diagonal s) * Vᵀ := by
          rw [h.left]; noncomm_ring
      _ = M := by rw [ed, ← h.eq]
  · rw [← e]
    exact h.svdPinv_mul r
  · rw [hMX]
    simp [transpose_mul, Matrix.mul_assoc]
  · rw [hXM]
    simp [transpose_mul, Matrix.mul_assoc]

/-- Diagonalisation of a symmetric matrix. -/
theorem exists_diagonalisation (M : Mat k k) (hM : M.IsHermitian) :
    ∃ (W : Mat k k) (e : Vec k), Wᵀ * W = 1 ∧ M = W * diagonal e * Wᵀ := by
  refine ⟨(hM.eigenvectorUnitary : Matrix (Fin k) (Fin k) ℝ), hM.eigenvalues, ?_, ?_⟩
  · have := Unitary.coe_star_mul_self hM.eigenvectorUnitary
    simpa [Matrix.star_eq_conjTranspose, conjTranspose_eq_transpose_of_trivial] using this
  · have := hM.spectral_theorem
    rw [Unitary.conjStarAlgAut_apply] at this
    simpa [Matrix.star_eq_conjTranspose, conjTranspose_eq_transpose_of_trivial,
      Function.comp_def] using this

/-- Entries of the diagonal form. -/
theorem diag_entry {M W : Mat k k} {e : Vec k} (hW : Wᵀ * W = 1) (hM : M = W * diagonal e * Wᵀ)
    (i : Fin k) : Wᵀ i ⬝ᵥ M *ᵥ Wᵀ i = e i := by
  have h : Wᵀ * M * W = diagonal e := by
    rw [hM]
    calc Wᵀ * (W * diagonal e * Wᵀ) * W = (Wᵀ * W) * diagonal e * (Wᵀ * W) := by noncomm_ring
      _ = _ := by rw [hW]; noncomm_ring
  have h' := congrFun (congrFun h i) i
  rw [diagonal_apply_eq, Matrix.mul_assoc, Matrix.mul_apply] at h'
  rw [← h']
  simp only [dotProduct, Matrix.mulVec, Matrix.mul_apply, transpose_apply]

theorem diag_unit {W : Mat k k} (hW : Wᵀ * W = 1) (i : Fin k) : Wᵀ i ⬝ᵥ Wᵀ i = 1 := by
  have h := congrFun (congrFun hW i) i
  rw [Matrix.mul_apply, one_apply_eq] at h
  simpa [dotProduct] using h

theorem IsSVD.of_posSemidef {M W : Mat k k} {e : Vec k} (hM : M.PosSemidef) (hW : Wᵀ * W = 1)
    (he : M = W * diagonal e * Wᵀ) : IsSVD M W e W := by
  refine ⟨hW, hW, fun i => ?_, he⟩
  rw [← diag_entry hW he i]
  have := hM.dotProduct_mulVec_nonneg (Wᵀ i)
  simpa using this

/-- Every square matrix has a singular value decomposition. -/
theorem exists_isSVD (M : Mat k k) : ∃ U s V, IsSVD M U s V := by
  have hps : (Mᵀ * M).PosSemidef := by
    have := posSemidef_conjTranspose_mul_self M
    rwa [conjTranspose_eq_transpose_of_trivial] at this
  obtain ⟨V, e, hV, he⟩ := exists_diagonalisation (Mᵀ * M) hps.isHermitian
  have h0 : ∀ i, 0 ≤ e i := (IsSVD.of_posSemidef hps hV he).nonneg
  have hV' : V * Vᵀ = 1 := mul_eq_one_comm.mp hV
  have hg : (M * V)ᵀ * (M * V) = diagonal e := by
    calc (M * V)ᵀ * (M * V) = Vᵀ * (Mᵀ * M) * V := by rw [transpose_mul]; noncomm_ring
      _ = (Vᵀ * V) * diagonal e * (Vᵀ * V) := by rw [he]; noncomm_ring
      _ = _ := by rw [hV]; noncomm_ring
  let w : Fin k → EuclideanSpace ℝ (Fin k) := fun i =>
    (Real.sqrt (e i))⁻¹ • WithLp.toLp 2 (fun l => (M * V) l i)
  have hin : ∀ i j, inner ℝ (WithLp.toLp 2 (fun l => (M * V) l i) : EuclideanSpace ℝ (Fin k))
      (WithLp.toLp 2 (fun l => (M * V) l j)) = diagonal e i j := by
    intro i j
    rw [← hg, Matrix.mul_apply]
    simp only [PiLp.inner_apply, transpose_apply]
    refine Finset.sum_congr rfl fun l _ => ?_
    simp [mul_comm]
  have hon : Orthonormal ℝ (Set.restrict {i | e i ≠ 0} w) := by
    rw [orthonormal_iff_ite]
    rintro ⟨i, hi⟩ ⟨j, hj⟩
    show inner ℝ ((Real.sqrt (e i))⁻¹ • _) ((Real.sqrt (e j))⁻¹ • _) = _
    rw [inner_smul_left, inner_smul_right, hin, conj_trivial]
    simp only [Subtype.mk.injEq]
    by_cases hij : i = j
    · subst hij
      have hi' : e i ≠ 0 := hi
      have hp : 0 < e i := lt_of_le_of_ne (h0 i) (Ne.symm hi')
      have hs : Real.sqrt (e i) * Real.sqrt (e i) = e i := Real.mul_self_sqrt hp.le
      have hn : Real.sqrt (e i) ≠ 0 := (Real.sqrt_pos.mpr hp).ne'
      simp only [diagonal_apply_eq, if_true]
      field_simp
      rw [sq, hs]
    · simp [hij]
  obtain ⟨b, hb⟩ := hon.exists_orthonormalBasis_extension_of_card_eq (by simp)
  let U : Mat k k := of fun l i => b i l
  refine ⟨U, fun i => Real.sqrt (e i), V, ?_, hV, fun i => Real.sqrt_nonneg _, ?_⟩
  · ext i j
    have := (orthonormal_iff_ite.mp b.orthonormal) i j
    rw [PiLp.inner_apply] at this
    rw [Matrix.mul_apply, one_apply, ← this]
    refine Finset.sum_congr rfl fun l _ => ?_
    simp [U, mul_comm]
  · have hMV : M * V = U * diagonal fun i => Real.sqrt (e i) := by
      ext l i
      rw [mul_diagonal]
      by_cases hi : e i = 0
      · have hz : ∑ l, (M * V) l i * (M * V) l i = 0 := by
          have := congrFun (congrFun hg i) i
          rw [Matrix.mul_apply, diagonal_apply_eq, hi] at this
          simpa using this
        have := (Finset.sum_eq_zero_iff_of_nonneg fun l _ => mul_self_nonneg _).mp hz l
          (Finset.mem_univ l)
        rw [hi, Real.sqrt_zero, mul_zero]
        exact mul_self_eq_zero.mp this
      · have hp : 0 < e i := lt_of_le_of_ne (h0 i) (Ne.symm hi)
        have hn : Real.sqrt (e i) ≠ 0 := (Real.sqrt_pos.mpr hp).ne'
        simp only [U, of_apply, hb i hi, w]
        simp only [PiLp.smul_apply, smul_eq_mul]
        field_simp
    rw [← hMV, Matrix.mul_assoc, hV', Matrix.mul_one]

/-- Routines for singular value decompositions exist. -/
theorem exists_svdRoutine : Nonempty SvdRoutine := by
  choose U s V h using fun k (M : Mat k k) => exists_isSVD M
  exact ⟨⟨fun k M => (U k M, s k M, V k M), fun k M => h k M⟩⟩

end Verif
