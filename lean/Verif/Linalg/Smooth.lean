import Verif.Linalg.Gain
import Verif.Spec.Smooth
import Mathlib.Analysis.Calculus.ContDiff.Operations
import Mathlib.Analysis.SpecialFunctions.Log.Deriv
import Mathlib.LinearAlgebra.Matrix.NonsingularInverse
import Mathlib.LinearAlgebra.Matrix.Trace

/-!
# Matrices that depend smoothly on a parameter

Entry by entry, so that no norm on matrices is needed.
-/

open Matrix Filter Topology

namespace Verif

variable {E : Type*} [NormedAddCommGroup E] [NormedSpace ℝ E] {r : WithTop ℕ∞} {x : E}
variable {ι κ l : Type*}

theorem SmoothV.const (v : ι → ℝ) : SmoothV r (fun _ : E => v) x := fun _ => contDiffAt_const

theorem SmoothM.const (M : Matrix ι κ ℝ) : SmoothM r (fun _ : E => M) x :=
  fun _ _ => contDiffAt_const

theorem SmoothV.congr {v w : E → ι → ℝ} (h : SmoothV r v x) (e : w =ᶠ[𝓝 x] v) : SmoothV r w x :=
  fun i => (h i).congr_of_eventuallyEq (e.mono fun θ hθ => by simp only [hθ])

theorem SmoothM.congr {M N : E → Matrix ι κ ℝ} (h : SmoothM r M x) (e : N =ᶠ[𝓝 x] M) :
    SmoothM r N x :=
  fun i j => (h i j).congr_of_eventuallyEq (e.mono fun θ hθ => by simp only [hθ])

theorem SmoothV.add {v w : E → ι → ℝ} (h : SmoothV r v x) (h' : SmoothV r w x) :
    SmoothV r (fun θ => v θ + w θ) x := fun i => (h i).add (h' i)

theorem SmoothV.sub {v w : E → ι → ℝ} (h : SmoothV r v x) (h' : SmoothV r w x) :
    SmoothV r (fun θ => v θ - w θ) x := fun i => (h i).sub (h' i)

theorem SmoothM.add {M N : E → Matrix ι κ ℝ} (h : SmoothM r M x) (h' : SmoothM r N x) :
    SmoothM r (fun θ => M θ + N θ) x := fun i j => (h i j).add (h' i j)

theorem SmoothM.sub {M N : E → Matrix ι κ ℝ} (h : SmoothM r M x) (h' : SmoothM r N x) :
    SmoothM r (fun θ => M θ - N θ) x := fun i j => (h i j).sub (h' i j)

theorem SmoothM.transpose {M : E → Matrix ι κ ℝ} (h : SmoothM r M x) :
    SmoothM r (fun θ => (M θ)ᵀ) x := fun i j => h j i

theorem SmoothM.smul {c : E → ℝ} {M : E → Matrix ι κ ℝ} (hc : ContDiffAt ℝ r c x)
    (h : SmoothM r M x) : SmoothM r (fun θ => c θ • M θ) x := fun i j => hc.mul (h i j)

theorem SmoothV.smul {c : E → ℝ} {v : E → ι → ℝ} (hc : ContDiffAt ℝ r c x)
    (h : SmoothV r v x) : SmoothV r (fun θ => c θ • v θ) x := fun i => hc.mul (h i)

theorem SmoothV.vecMulVec {v : E → ι → ℝ} {w : E → κ → ℝ} (h : SmoothV r v x)
    (h' : SmoothV r w x) : SmoothM r (fun θ => vecMulVec (v θ) (w θ)) x :=
  fun i j => (h i).mul (h' j)

theorem SmoothM.mul [Fintype κ] {M : E → Matrix ι κ ℝ} {N : E → Matrix κ l ℝ}
    (h : SmoothM r M x) (h' : SmoothM r N x) : SmoothM r (fun θ => M θ * N θ) x := by
  intro i j
  simp only [Matrix.mul_apply]
  exact ContDiffAt.sum fun k _ => (h i k).mul (h' k j)

theorem SmoothM.mulVec [Fintype κ] {M : E → Matrix ι κ ℝ} {v : E → κ → ℝ}
    (h : SmoothM r M x) (h' : SmoothV r v x) : SmoothV r (fun θ => M θ *ᵥ v θ) x := by
  intro i
  simp only [Matrix.mulVec, dotProduct]
  exact ContDiffAt.sum fun k _ => (h i k).mul (h' k)

theorem SmoothV.dotProduct [Fintype ι] {v w : E → ι → ℝ} (h : SmoothV r v x)
    (h' : SmoothV r w x) : ContDiffAt ℝ r (fun θ => v θ ⬝ᵥ w θ) x := by
  simp only [_root_.dotProduct]
  exact ContDiffAt.sum fun k _ => (h k).mul (h' k)

theorem SmoothM.trace [Fintype ι] {M : E → Matrix ι ι ℝ} (h : SmoothM r M x) :
    ContDiffAt ℝ r (fun θ => (M θ).trace) x := by
  simp only [Matrix.trace, Matrix.diag]
  exact ContDiffAt.sum fun k _ => h k k

theorem SmoothM.sum {σ : Type*} {s : Finset σ} {M : σ → E → Matrix ι κ ℝ}
    (h : ∀ a ∈ s, SmoothM r (M a) x) : SmoothM r (fun θ => ∑ a ∈ s, M a θ) x := by
  intro i j
  simp only [Matrix.sum_apply]
  exact ContDiffAt.sum fun a ha => h a ha i j

theorem SmoothV.sum {σ : Type*} {s : Finset σ} {v : σ → E → ι → ℝ}
    (h : ∀ a ∈ s, SmoothV r (v a) x) : SmoothV r (fun θ => ∑ a ∈ s, v a θ) x := by
  intro i
  simp only [Finset.sum_apply]
  exact ContDiffAt.sum fun a ha => h a ha i

variable [Fintype ι] [DecidableEq ι]

theorem SmoothM.det {M : E → Matrix ι ι ℝ} (h : SmoothM r M x) :
    ContDiffAt ℝ r (fun θ => (M θ).det) x := by
  simp only [Matrix.det_apply]
  refine ContDiffAt.sum fun σ _ => ?_
  simp only [Units.smul_def, zsmul_eq_mul]
  exact contDiffAt_const.mul (contDiffAt_prod fun i _ => h _ _)

theorem SmoothM.adjugate {M : E → Matrix ι ι ℝ} (h : SmoothM r M x) :
    SmoothM r (fun θ => (M θ).adjugate) x := by
  intro i j
  simp only [Matrix.adjugate_apply]
  refine SmoothM.det fun a b => ?_
  by_cases ha : a = j
  · subst ha
    simp only [Matrix.updateRow_self]
    exact contDiffAt_const
  · simp only [Matrix.updateRow_ne ha]
    exact h a b

theorem SmoothM.inv {M : E → Matrix ι ι ℝ} (h : SmoothM r M x) (hd : (M x).det ≠ 0) :
    SmoothM r (fun θ => (M θ)⁻¹) x := by
  intro i j
  simp only [Matrix.inv_def, Matrix.smul_apply, smul_eq_mul, Ring.inverse_eq_inv']
  exact (h.det.inv hd).mul (h.adjugate i j)

theorem SmoothM.eventually_det {M : E → Matrix ι ι ℝ} (h : SmoothM r M x) (hd : (M x).det ≠ 0) :
    ∀ᶠ θ in 𝓝 x, (M θ).det ≠ 0 :=
  h.det.continuousAt.eventually_ne hd

theorem SmoothM.pinv {M : E → Matrix ι ι ℝ} (h : SmoothM r M x) (hd : (M x).det ≠ 0) :
    SmoothM r (fun θ => Verif.pinv (M θ)) x :=
  (h.inv hd).congr ((h.eventually_det hd).mono fun _ hθ =>
    pinv_eq_inv (isUnit_iff_ne_zero.mpr hθ))

theorem SmoothM.log_det {M : E → Matrix ι ι ℝ} (h : SmoothM r M x) (hd : (M x).det ≠ 0) :
    ContDiffAt ℝ r (fun θ => Real.log (M θ).det) x := h.det.log hd

theorem SmoothM.gain {κ : Type*} [Fintype κ] [DecidableEq κ] {P : E → Matrix ι ι ℝ}
    {R : E → Matrix κ κ ℝ} {C : E → Matrix κ ι ℝ} (hP : SmoothM r P x) (hR : SmoothM r R x)
    (hC : SmoothM r C x) (hd : (C x * P x * (C x)ᵀ + R x).det ≠ 0) :
    SmoothM r (fun θ => Verif.gain (P θ) (R θ) (C θ)) x :=
  (hP.mul hC.transpose).mul ((((hC.mul hP).mul hC.transpose).add hR).pinv hd)

end Verif
