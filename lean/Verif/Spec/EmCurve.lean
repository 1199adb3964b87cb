import Verif.Spec.Smooth
import Verif.Spec.Em

/-!
# Specification: critical points of the likelihood
-/

open Filter Topology

namespace Verif

variable {n m : ℕ} {E : Type*} [NormedAddCommGroup E] [NormedSpace ℝ E]

/-- `em` with the selection `vars` estimates `a` if `sel`: then the family is constant in time,
otherwise it does not move. -/
def MovesOnly {α : Type} (sel : Bool) (a : TV α) (c : E → TV α) : Prop :=
  ∀ θ, if sel then (c θ).IsConst else c θ = a

/-- A continuously differentiable family of parameters that passes through `p` at `x`, moves only
the parameters `em` estimates, and keeps covariances positive definite. -/
structure EmFamily (vars : EmVar → Bool) (p : Params n m) (T : ℕ) (c : E → Params n m) (x : E) :
    Prop where
  base : c x = p
  smooth : SmoothParams 1 c x T
  pd : ∀ᶠ θ in 𝓝 x, (c θ).PD T
  A : MovesOnly (vars .transitionMatrices) p.A fun θ => (c θ).A
  b : MovesOnly (vars .transitionOffsets) p.b fun θ => (c θ).b
  Q : MovesOnly (vars .transitionCovariance) p.Q fun θ => (c θ).Q
  C : MovesOnly (vars .observationMatrices) p.C fun θ => (c θ).C
  d : MovesOnly (vars .observationOffsets) p.d fun θ => (c θ).d
  R : MovesOnly (vars .observationCovariance) p.R fun θ => (c θ).R
  mu0 : vars .initialStateMean = false → ∀ θ, (c θ).mu0 = p.mu0
  S0 : vars .initialStateCovariance = false → ∀ θ, (c θ).S0 = p.S0

/-- `p` is a critical point of `loglikelihood` for the data `os`, among parameters that differ from
`p` only in what `em` with the selection `vars` estimates: along every family through `p` the
derivative of the value returned by `loglikelihood` vanishes. -/
def IsCritical (vars : EmVar → Bool) (p : Params n m) (os : List (Obs m)) : Prop :=
  ∀ (E : Type) [NormedAddCommGroup E] [NormedSpace ℝ E] (c : E → Params n m) (x : E),
    EmFamily vars p os.length c x →
    ∃ l : E → ℝ, (∀ᶠ θ in 𝓝 x, kfLoglik (c θ) os = .ok (l θ)) ∧ HasFDerivAt l (0 : E →L[ℝ] ℝ) x

/-- The matrices (vectors, …) `a 0, a 1, …` tend to `b`, entry by entry. -/
def TendstoM {ι κ : Type} (a : ℕ → Matrix ι κ ℝ) (b : Matrix ι κ ℝ) : Prop :=
  ∀ i j, Tendsto (fun k => a k i j) atTop (𝓝 (b i j))

/-- The vectors `a 0, a 1, …` tend to `b`, entry by entry. -/
def TendstoV {ι : Type} (a : ℕ → ι → ℝ) (b : ι → ℝ) : Prop :=
  ∀ i, Tendsto (fun k => a k i) atTop (𝓝 (b i))

/-- The parameters `q 0, q 1, …` converge to `lim`: the parameters estimated by `em` with the
selection `vars` entry by entry, to constants; the others are those of `lim` all along. -/
structure EmConverges (vars : EmVar → Bool) (p : Params n m) (q : ℕ → Params n m)
    (lim : Params n m) : Prop where
  A : if vars .transitionMatrices then lim.A.IsConst ∧
    TendstoM (fun k => (q k).A.at 0) (lim.A.at 0) else lim.A = p.A
  b : if vars .transitionOffsets then lim.b.IsConst ∧
    TendstoV (fun k => (q k).b.at 0) (lim.b.at 0) else lim.b = p.b
  Q : if vars .transitionCovariance then lim.Q.IsConst ∧
    TendstoM (fun k => (q k).Q.at 0) (lim.Q.at 0) else lim.Q = p.Q
  C : if vars .observationMatrices then lim.C.IsConst ∧
    TendstoM (fun k => (q k).C.at 0) (lim.C.at 0) else lim.C = p.C
  d : if vars .observationOffsets then lim.d.IsConst ∧
    TendstoV (fun k => (q k).d.at 0) (lim.d.at 0) else lim.d = p.d
  R : if vars .observationCovariance then lim.R.IsConst ∧
    TendstoM (fun k => (q k).R.at 0) (lim.R.at 0) else lim.R = p.R
  mu0 : if vars .initialStateMean then TendstoV (fun k => (q k).mu0) lim.mu0
    else lim.mu0 = p.mu0
  S0 : if vars .initialStateCovariance then TendstoM (fun k => (q k).S0) lim.S0
    else lim.S0 = p.S0

end Verif
