import Verif.Model.Unscented

/-!
# Vocabulary: an unscented filter in other coordinates
-/

open Matrix

namespace Verif

variable {n m : ℕ}

/-- The same functions, each replaced by `h` of it. -/
def Fns.map {α β : Type} (h : α → β) : Fns α → Fns β
  | .flat l => .flat (l.map h)
  | .nested l => .nested (l.map (List.map h))

/-- Moments of `L x + c`, if `M` are those of `x`. -/
def Moments.affine (L : Mat n n) (c : Vec n) (M : Moments n) : Moments n :=
  ⟨L *ᵥ M.mean + c, L * M.cov * Lᵀ⟩

/-- The model for the state `L x + c` instead of `x`. -/
noncomputable def UParams.changeState (p : UParams n m) (L : Mat n n) (c : Vec n) : UParams n m where
  f := p.f.map fun f y => L *ᵥ f (L⁻¹ *ᵥ (y - c)) + c
  g := p.g.map fun g y => g (L⁻¹ *ᵥ (y - c))
  Q := L * p.Q * Lᵀ
  R := p.R
  mu0 := L *ᵥ p.mu0 + c
  S0 := L * p.S0 * Lᵀ

/-- The model for the state `L x + c`, the transition noise `N w` and the observation noise `V v`
instead of `x`, `w`, `v`. -/
noncomputable def GParams.changeState (p : GParams n m) (L : Mat n n) (c : Vec n) (N : Mat n n)
    (V : Mat m m) : GParams n m where
  f := p.f.map fun f y w => L *ᵥ f (L⁻¹ *ᵥ (y - c)) (N⁻¹ *ᵥ w) + c
  g := p.g.map fun g y v => g (L⁻¹ *ᵥ (y - c)) (V⁻¹ *ᵥ v)
  Q := N * p.Q * Nᵀ
  R := V * p.R * Vᵀ
  mu0 := L *ᵥ p.mu0 + c
  S0 := L * p.S0 * Lᵀ

/-- The model for observations `V z + d` instead of `z`. -/
def UParams.changeObs (p : UParams n m) (V : Mat m m) (d : Vec m) : UParams n m where
  f := p.f
  g := p.g.map fun g x => V *ᵥ g x + d
  Q := p.Q
  R := V * p.R * Vᵀ
  mu0 := p.mu0
  S0 := p.S0

/-- A row of observations in other units. -/
def Obs.affine (V : Mat m m) (d : Vec m) (o : Obs m) : Obs m := ⟨V *ᵥ o.val + d, o.mask⟩

/-- Lower triangular with positive diagonal; in particular a change of units of the components
(`diagonal u` with `u i > 0`). -/
structure Units (L : Mat n n) : Prop where
  lower : ∀ i j, i < j → L i j = 0
  pos : ∀ i, 0 < L i i

theorem Units.diagonal {u : Vec n} (h : ∀ i, 0 < u i) : Units (diagonal u) :=
  ⟨fun i j hij => by rw [diagonal_apply_ne _ hij.ne], fun i => by rw [diagonal_apply_eq]; exact h i⟩

end Verif
