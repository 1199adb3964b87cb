import Verif.Model.Rounded

/-!
# Specification: results up to an error
-/

namespace Verif

open Matrix

variable {n m : ℕ}

/-- Two lists of moments of the same length, whose entries differ by at most `e`. -/
def WithinErr (e : ℝ) (l l' : List (Vec n × Mat n n)) : Prop :=
  List.Forall₂ (fun x y => (∀ i, |x.1 i - y.1 i| ≤ e) ∧ ∀ i j, |x.2 i j - y.2 i j| ≤ e) l l'

/-- Everything that a run over `os` reads is bounded by `κ`; the transition noise has at least
variance `q` in every direction, the observation noise at least `r`. -/
structure Params.WithinBounds (p : Params n m) (os : List (Obs m)) (κ q r : ℝ) : Prop where
  A : ∀ t A, t + 1 < os.length → lastDims p.A t = .ok A → ∀ i j, |A i j| ≤ κ
  b : ∀ t b, t + 1 < os.length → lastDims p.b t = .ok b → ∀ i, |b i| ≤ κ
  Q : ∀ t Q, t + 1 < os.length → lastDims p.Q t = .ok Q → ∀ i j, |Q i j| ≤ κ
  C : ∀ t C, t < os.length → lastDims p.C t = .ok C → ∀ i j, |C i j| ≤ κ
  d : ∀ t d, t < os.length → lastDims p.d t = .ok d → ∀ i, |d i| ≤ κ
  R : ∀ t R, t < os.length → lastDims p.R t = .ok R → ∀ i j, |R i j| ≤ κ
  mu0 : ∀ i, |p.mu0 i| ≤ κ
  S0 : ∀ i j, |p.S0 i j| ≤ κ
  obs : ∀ o ∈ os, ¬ o.missing → ∀ i, |o.val i| ≤ κ
  noiseQ : ∀ t Q, t + 1 < os.length → lastDims p.Q t = .ok Q →
    ∀ v : Vec n, q * (v ⬝ᵥ v) ≤ v ⬝ᵥ (Q *ᵥ v)
  noiseR : ∀ t R, t < os.length → lastDims p.R t = .ok R →
    ∀ v : Vec m, r * (v ⬝ᵥ v) ≤ v ⬝ᵥ (R *ᵥ v)

/-- Two parameters of the same kind, one value or as many values, related by `d`. -/
def TV.Within {α : Type} (d : α → α → Prop) : TV α → TV α → Prop
  | .const a, .const b => d a b
  | .seq l, .seq l' => List.Forall₂ d l l'
  | _, _ => False

/-- Two sets of parameters whose entries differ by at most `e`. -/
structure Params.WithinErr (e : ℝ) (p q : Params n m) : Prop where
  A : p.A.Within (fun X Y => ∀ i j, |X i j - Y i j| ≤ e) q.A
  b : p.b.Within (fun x y => ∀ i, |x i - y i| ≤ e) q.b
  Q : p.Q.Within (fun X Y => ∀ i j, |X i j - Y i j| ≤ e) q.Q
  C : p.C.Within (fun X Y => ∀ i j, |X i j - Y i j| ≤ e) q.C
  d : p.d.Within (fun x y => ∀ i, |x i - y i| ≤ e) q.d
  R : p.R.Within (fun X Y => ∀ i j, |X i j - Y i j| ≤ e) q.R
  mu0 : ∀ i, |p.mu0 i - q.mu0 i| ≤ e
  S0 : ∀ i j, |p.S0 i j - q.S0 i j| ≤ e

end Verif
