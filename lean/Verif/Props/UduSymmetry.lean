import Verif.Props.Bierman

/-!
# C31: the assertion of `udu`, and matrices that are symmetric up to the tolerances
-/

open Matrix

namespace Verif

variable {n : ℕ}

/-- **C31.** `udu` raises `AssertionError` exactly if some entry differs from the one across the
diagonal by more than `1e-8` plus `1e-5` times the size of the latter. -/
theorem C31_assertion (store : ℝ → ℝ) (M : Mat n n) :
    udu store M = .error .assertionError ↔ ∃ i j, 1e-8 + 1e-5 * |M j i| < |M i j - M j i| := by
  have h : AllCloseT M ↔ ¬ ∃ i j, 1e-8 + 1e-5 * |M j i| < |M i j - M j i| := by
    simp only [AllCloseT, transpose_apply, not_exists, not_lt]
  rw [udu]
  split_ifs with h1 h2
  · exact ⟨(fun e => by cases e), fun e => absurd e (h.mp h1)⟩
  · exact ⟨(fun e => by cases e), fun e => absurd e (h.mp h1)⟩
  · exact ⟨fun _ => not_not.mp (mt h.mpr h1), fun _ => rfl⟩

/-- **C31.** What happens to a matrix that is symmetric only up to these tolerances: the entries below
the diagonal are not read.  If the matrix with the same entries on and above the diagonal and their
mirror images below is positive semidefinite, `udu` factorises that one. -/
theorem C31_upper_triangle {M N : Mat n n} (hn : 0 < n)
    (hM : ∀ i j, |M i j - M j i| ≤ 1e-8 + 1e-5 * |M j i|)
    (hN : N.PosSemidef) (hu : ∀ i j, i ≤ j → N i j = M i j) :
    ∃ c, udu id M = .ok c ∧ udu id N = .ok c ∧ (∀ i j, j < i → c.U i j = 0) ∧ (∀ i, c.U i i = 1) ∧
      (∀ i, 0 ≤ c.D i) ∧ c.U * diagonal c.D * c.Uᵀ = N := by
  obtain ⟨c, hc, h1, h2, h3, h4⟩ := C31_udu hN hn
  refine ⟨c, ?_, hc, h1, h2, h3, h4⟩
  have ht : (fun i j => if i ≤ j then arr2 M i j else 0 : Arr2)
      = fun i j => if i ≤ j then arr2 N i j else 0 := by
    funext i j
    split_ifs with hij
    · simp only [arr2]
      split_ifs with hb
      · exact (hu _ _ hij).symm
      · rfl
    · rfl
  rw [← hc, udu, udu, if_pos (show AllCloseT M from hM),
    if_pos (allCloseT_of_symm (by simpa using hN.isHermitian.eq))]
  simp only [ht]

/-- The hypotheses of `C31_upper_triangle` are satisfiable by a matrix that is not symmetric. -/
example : ∃ M N : Mat 2 2, (∀ i j, |M i j - M j i| ≤ 1e-8 + 1e-5 * |M j i|) ∧ N.PosSemidef ∧
    (∀ i j, i ≤ j → N i j = M i j) ∧ Mᵀ ≠ M := by
  refine ⟨!![2, 1; 1.000001, 2], exInt, ?_, exInt_posDef.posSemidef, ?_, fun h => ?_⟩
  · intro i j
    fin_cases i <;> fin_cases j <;> norm_num [abs_of_nonneg, abs_of_neg]
  · intro i j hij
    fin_cases i <;> fin_cases j <;> first | rfl | (exact absurd hij (by decide))
  · have := congrFun (congrFun h 0) 1
    norm_num at this

/-- A matrix that the assertion refuses. -/
example : udu id (!![1, 1; 1.1, 2] : Mat 2 2) = .error .assertionError :=
  (C31_assertion _ _).mpr ⟨0, 1, by norm_num [abs_of_nonneg, abs_of_neg]⟩

end Verif
