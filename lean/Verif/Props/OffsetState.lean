import Verif.Spec.OffsetState
import Verif.Proofs.Beside
import Verif.Props.Symmetry

/-!
# C20: offsets written as a constant state
-/

open Matrix

namespace Verif

variable {n m : ℕ}

theorem stackVec_one (x : Vec n) :
    stackRows (1 : Mat n n) (0 : Mat 1 n) *ᵥ x + stackVec 0 ![1] = stackVec x ![1] := by
  rw [stack_mulVec, stackVec_add, one_mulVec, zero_mulVec, add_zero, zero_add]

theorem blocks_zero (S : Mat n n) :
    stackRows (1 : Mat n n) (0 : Mat 1 n) * S * (stackRows (1 : Mat n n) (0 : Mat 1 n))ᵀ
      = blocks S 0 := by
  rw [stack_mul, Matrix.one_mul, Matrix.zero_mul]
  ext i j
  refine Fin.addCases (fun i => ?_) (fun i => ?_) i <;>
    refine Fin.addCases (fun j => ?_) (fun j => ?_) j <;>
    simp [stackRows, blocks, Matrix.mul_apply, Matrix.one_apply]

/-- **C20, offsets as a state.** Offsets may be written as an additional state that is always 1:
`filter` and `smooth` return the same means with a 1 below, the same covariances with zeros around,
and the log likelihood is the same. -/
theorem C20_offsets_in_state (p : Params n m) (p' : Params (n + 1) m) (os : List (Obs m))
    (h : OffsetsInState p p' os.length) (hd : p.DefinedFor os.length) :
    kfFilter p' os
      = (kfFilter p os).map (List.map fun r => (stackVec r.1 ![1], blocks r.2 0)) ∧
    (p.PSD os.length → kfSmooth p' os
      = (kfSmooth p os).map (List.map fun r => (stackVec r.1 ![1], blocks r.2 0))) ∧
    kfLoglik p' os = kfLoglik p os := by
  have hs : StateChange p p' (stackRows (1 : Mat n n) (0 : Mat 1 n)) (stackVec 0 ![1]) os.length := by
    refine ⟨fun t ht A b hA hb => ?_, fun t ht Q hQ => ?_, fun t ht C d hC hd => ?_, h.obsNoise, ?_, ?_⟩
    · obtain ⟨A', h1, h2⟩ := h.trans t ht A b hA hb
      refine ⟨A', 0, h1, h.transOff t ht, fun x => ?_⟩
      rw [stackVec_one, stackVec_one, h2, add_zero]
    · rw [blocks_zero]; exact h.noise t ht Q hQ
    · obtain ⟨C', h1, h2⟩ := h.emit t ht C d hC hd
      refine ⟨C', 0, h1, h.obsOff t ht, fun x => ?_⟩
      rw [stackVec_one, h2, add_zero]
    · rw [stackVec_one]; exact h.init.1
    · rw [blocks_zero]; exact h.init.2
  have := C20_state_coordinates p p' _ _ os hs hd
  simpa only [stackVec_one, blocks_zero] using this

/-- A walk with drift 3, read with an offset 2. -/
noncomputable def exDrifting : Params 1 1 where
  A := .const !![1]
  b := .const ![3]
  Q := .const 1
  C := .const !![1]
  d := .const ![2]
  R := .const 1
  mu0 := ![5]
  S0 := 1

/-- The same with the offsets in the state. -/
noncomputable def exDriftState : Params (1 + 1) 1 where
  A := .const !![1, 3; 0, 1]
  b := .const 0
  Q := .const (blocks 1 0)
  C := .const !![1, 2]
  d := .const 0
  R := .const 1
  mu0 := stackVec ![5] ![1]
  S0 := blocks 1 0

/-- The hypotheses hold for the example, for runs of any length. -/
example (T : ℕ) : OffsetsInState exDrifting exDriftState T ∧ exDrifting.DefinedFor T ∧
    exDrifting.PSD T := by
  have s0 : ∀ (x : Vec 1) (y : Vec 1), stackVec x y (0 : Fin 2) = x 0 := fun x y => rfl
  have s1 : ∀ (x : Vec 1) (y : Vec 1), stackVec x y (1 : Fin 2) = y 0 := fun x y => rfl
  refine ⟨⟨?_, fun _ _ => rfl, ?_, ?_, fun _ _ => rfl, rfl, rfl, rfl⟩, ⟨?_, ?_, ?_, ?_, ?_, ?_⟩,
    ⟨?_, ?_, PosSemidef.one⟩⟩
  · rintro t - _ _ ⟨⟩ ⟨⟩
    refine ⟨_, rfl, fun x => ?_⟩
    ext i
    fin_cases i
    · change ((!![1, 3; 0, 1] : Mat 2 2) *ᵥ stackVec x ![1]) 0
        = stackVec ((!![1] : Mat 1 1) *ᵥ x + ![3]) ![1] (0 : Fin 2)
      rw [mulVec, dotProduct, Fin.sum_univ_two, s0, s0, s1]
      simp [mulVec, dotProduct]
    · change ((!![1, 3; 0, 1] : Mat 2 2) *ᵥ stackVec x ![1]) 1
        = stackVec ((!![1] : Mat 1 1) *ᵥ x + ![3]) ![1] (1 : Fin 2)
      rw [mulVec, dotProduct, Fin.sum_univ_two, s0, s1, s1]
      simp
  · rintro t - _ ⟨⟩; rfl
  · rintro t - _ _ ⟨⟩ ⟨⟩
    refine ⟨_, rfl, fun x => ?_⟩
    ext i
    obtain rfl : i = 0 := Subsingleton.elim _ _
    change ((!![1, 2] : Mat 1 2) *ᵥ stackVec x ![1]) 0 = ((!![1] : Mat 1 1) *ᵥ x + ![2] : Vec 1) 0
    rw [mulVec, dotProduct, Fin.sum_univ_two, s0, s1]
    simp [mulVec, dotProduct]
  all_goals try (intro t ht; exact ⟨_, rfl⟩)
  · rintro t - _ ⟨⟩; exact PosSemidef.one
  · rintro t - _ ⟨⟩; exact PosSemidef.one

end Verif
