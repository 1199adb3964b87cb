import Verif.Model.Standard

/-!
# Vocabulary for statements about several sensors
-/

open Matrix

namespace Verif

variable {n m₁ m₂ : ℕ}

/-- The components of two vectors, one after the other. -/
def stackVec {α : Type} (a : Fin m₁ → α) (b : Fin m₂ → α) : Fin (m₁ + m₂) → α := Fin.append a b

/-- The rows of two matrices, one after the other. -/
def stackRows (C₁ : Mat m₁ n) (C₂ : Mat m₂ n) : Mat (m₁ + m₂) n :=
  Matrix.of fun i j => Fin.append (fun a => C₁ a j) (fun a => C₂ a j) i

/-- The covariance of two uncorrelated noises, one after the other. -/
def stackCov (R₁ : Mat m₁ m₁) (R₂ : Mat m₂ m₂) : Mat (m₁ + m₂) (m₁ + m₂) :=
  Matrix.of fun i j => Fin.append (fun a => Fin.append (fun b => R₁ a b) (fun _ => 0) j)
    (fun a => Fin.append (fun _ => 0) (fun b => R₂ a b) j) i

/-- The reading of two sensors as one masked row. -/
def stackObs (o₁ : Obs m₁) (o₂ : Obs m₂) : Obs (m₁ + m₂) :=
  ⟨stackVec o₁.val o₂.val, stackVec o₁.mask o₂.mask⟩

end Verif
