import Verif.Model.RoundedUnscented

/-!
# Specification: unscented filters up to an error
-/

namespace Verif

open Matrix

variable {n m : ℕ}

/-- Two arrays of functions of the same shape, with entries related by `d`. -/
def Fns.Within {α β : Type} (d : α → β → Prop) : Fns α → Fns β → Prop
  | .flat l, .flat l' => List.Forall₂ d l l'
  | .nested l, .nested l' => List.Forall₂ (List.Forall₂ d) l l'
  | _, _ => False

/-- All functions of the array have the property `q`. -/
def Fns.All {α : Type} (q : α → Prop) : Fns α → Prop
  | .flat l => ∀ f ∈ l, q f
  | .nested l => ∀ r ∈ l, ∀ f ∈ r, q f

/-- The computed function `f` differs from the exact function `g` by at most `u κ(x)`. -/
def FnErr {E : Type} {l : ℕ} (κ : E → ℝ) (u : ℝ) (f g : E → Vec l) : Prop :=
  ∀ x i, |f x i - g x i| ≤ u * κ x

/-- Two lists of moments of the same length, whose entries differ by at most `e`. -/
def MomentsWithin (e : ℝ) (l l' : List (Moments n)) : Prop :=
  List.Forall₂ (fun x y => (∀ i, |x.mean i - y.mean i| ≤ e) ∧ ∀ i j, |x.cov i j - y.cov i j| ≤ e)
    l l'

/-- Mean and covariance that the additive filter predicts for the observation at time `t`, if `prev`
is its previous row (`unscented.py:581-600` and `374-379`). -/
noncomputable def UParams.obsMoments (p : UParams n m) (t : ℕ) :
    Option (Moments n) → Res (Moments m)
  | none => do
    let pts ← moments2points ⟨p.mu0, p.S0⟩
    let g ← p.g.at t
    pure (points2moments (pts.map g) (some p.R))
  | some M => do
    let pts ← moments2points M
    let f ← p.f.at (t - 1)
    let pts' ← moments2points (points2moments (pts.map f) (some p.Q))
    let g ← p.g.at t
    pure (points2moments (pts'.map g) (some p.R))

/-- Mean and covariance that the general filter predicts for the observation at time `t`, if `prev`
is its previous row (`unscented.py:434-459` and `374-379`). -/
noncomputable def GParams.obsMoments (p : GParams n m) (t : ℕ) :
    Option (Moments n) → Res (Moments m)
  | none => do
    let pts ← augFilterPoints ⟨p.mu0, p.S0⟩ p.Q p.R
    let g ← p.g.at t
    pure (points2moments (pts.1.map₂ pts.2.2 g) none)
  | some M => do
    let pts ← augFilterPoints M p.Q p.R
    let f ← p.f.at (t - 1)
    let g ← p.g.at t
    pure (points2moments ((pts.1.map₂ pts.2.1 f).map₂ pts.2.2 g) none)

/-- Mean and covariance of the next state that the general smoother computes from the filter's row
`M` at time `t` (`unscented.py:504-519`). -/
noncomputable def GParams.nextMoments (p : GParams n m) (t : ℕ) (M : Moments n) :
    Res (Moments n) := do
  let pts ← augPoints M (⟨0, p.Q⟩ : Moments n)
  let f ← p.f.at t
  pure (points2moments (pts.1.map₂ pts.2 f) none)

/-- The row before time `t`. -/
def rowBefore {α : Type} (l : List α) (t : ℕ) : Option α := if t = 0 then none else l[t - 1]?

/-- At the times with an observation the predicted covariance of the observation is regular;
`obsMoments` are the predicted moments and `l` the rows of the filter. -/
def ObsRegular (obsMoments : ℕ → Option (Moments n) → Res (Moments m)) (os : List (Obs m))
    (l : List (Moments n)) : Prop :=
  ∀ t o, os[t]? = some o → ¬ o.missing → ∀ M, obsMoments t (rowBefore l t) = .ok M →
    IsUnit M.cov.det

/-- The covariances of the next state are regular at all times but the last. -/
def NextRegular (nextMoments : ℕ → Moments n → Res (Moments n)) (l : List (Moments n)) : Prop :=
  ∀ t s, t + 1 < l.length → l[t]? = some s → ∀ M, nextMoments t s = .ok M → IsUnit M.cov.det

end Verif
