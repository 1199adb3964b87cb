import Verif.Spec.Sensors

/-!
# Vocabulary for statements about two systems that do not interact (C112)
-/

open Matrix

namespace Verif

variable {n₁ n₂ m₁ m₂ : ℕ}

/-- The block diagonal matrix with blocks `M₁` and `M₂`: entry `(i, j)` of `M₁` is at `(i, j)`, entry
`(i, j)` of `M₂` is at `(rows of M₁ + i, columns of M₁ + j)`, all other entries are 0. -/
def blocks {k₁ k₂ l₁ l₂ : ℕ} (M₁ : Mat k₁ l₁) (M₂ : Mat k₂ l₂) : Mat (k₁ + k₂) (l₁ + l₂) :=
  Matrix.of fun i j => Fin.append (fun a => Fin.append (fun b => M₁ a b) (fun _ => 0) j)
    (fun a => Fin.append (fun _ => 0) (fun b => M₂ a b) j) i

/-- The model `p` consists of the two systems `p₁` and `p₂` side by side, without any influence or
correlation between them, for a run over `T` observations: all vectors are stacked, all matrices are
block diagonal. -/
structure Beside (p : Params (n₁ + n₂) (m₁ + m₂)) (p₁ : Params n₁ m₁) (p₂ : Params n₂ m₂) (T : ℕ) :
    Prop where
  A : ∀ t, t + 1 < T → ∀ A₁ A₂, lastDims p₁.A t = .ok A₁ → lastDims p₂.A t = .ok A₂ →
    lastDims p.A t = .ok (blocks A₁ A₂)
  b : ∀ t, t + 1 < T → ∀ b₁ b₂, lastDims p₁.b t = .ok b₁ → lastDims p₂.b t = .ok b₂ →
    lastDims p.b t = .ok (stackVec b₁ b₂)
  Q : ∀ t, t + 1 < T → ∀ Q₁ Q₂, lastDims p₁.Q t = .ok Q₁ → lastDims p₂.Q t = .ok Q₂ →
    lastDims p.Q t = .ok (blocks Q₁ Q₂)
  C : ∀ t, t < T → ∀ C₁ C₂, lastDims p₁.C t = .ok C₁ → lastDims p₂.C t = .ok C₂ →
    lastDims p.C t = .ok (blocks C₁ C₂)
  d : ∀ t, t < T → ∀ d₁ d₂, lastDims p₁.d t = .ok d₁ → lastDims p₂.d t = .ok d₂ →
    lastDims p.d t = .ok (stackVec d₁ d₂)
  R : ∀ t, t < T → ∀ R₁ R₂, lastDims p₁.R t = .ok R₁ → lastDims p₂.R t = .ok R₂ →
    lastDims p.R t = .ok (blocks R₁ R₂)
  mu0 : p.mu0 = stackVec p₁.mu0 p₂.mu0
  S0 : p.S0 = blocks p₁.S0 p₂.S0

/-- The rows `os` are those of `os₁` and `os₂` stacked.  A row of `os` is skipped as a whole when any
of its components is masked, so the rows of `os₁` and `os₂` of the same time are masked together. -/
def DataBeside (os : List (Obs (m₁ + m₂))) (os₁ : List (Obs m₁)) (os₂ : List (Obs m₂)) : Prop :=
  os.length = os₁.length ∧ os.length = os₂.length ∧
  ∀ t (h : t < os.length) (h₁ : t < os₁.length) (h₂ : t < os₂.length),
    (os[t].missing ↔ os₁[t].missing) ∧ (os[t].missing ↔ os₂[t].missing) ∧
    (¬ os[t].missing → os[t].val = stackVec os₁[t].val os₂[t].val)

/-- Rows of two results side by side: means stacked, covariances block diagonal. -/
def rowsBeside (out₁ : List (Vec n₁ × Mat n₁ n₁)) (out₂ : List (Vec n₂ × Mat n₂ n₂)) :
    List (Vec (n₁ + n₂) × Mat (n₁ + n₂) (n₁ + n₂)) :=
  List.zipWith (fun r₁ r₂ => (stackVec r₁.1 r₂.1, blocks r₁.2 r₂.2)) out₁ out₂

/-- The first components of a vector. -/
def firstPart (v : Vec (n₁ + n₂)) : Vec n₁ := fun i => v (Fin.castAdd n₂ i)

/-- The upper left block of a matrix. -/
def firstBlock (M : Mat (n₁ + n₂) (n₁ + n₂)) : Mat n₁ n₁ :=
  Matrix.of fun i j => M (Fin.castAdd n₂ i) (Fin.castAdd n₂ j)

end Verif
