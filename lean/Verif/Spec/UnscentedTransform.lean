import Verif.Model.Basic
import Verif.Model.Unscented
import Verif.Linalg.Cholesky
import Verif.Linalg.Pinv

/-!
# The unscented transform, as in textbooks

Nothing here refers to the arrays of sigma points and weights of the code.  The unscented expectation
of a function replaces a distribution with mean `μ` and covariance `L Lᵀ` by `2 k + 1` points: `μ`
with weight `1 - k / 3` and `μ ± √3 L_j` with weight `1 / 6` each (`α = 1`, `β = 0`, `κ = 3 - k`).
-/

open Matrix

namespace Verif

variable {n m k l a b c : ℕ}

section
variable {E : Type} [AddCommGroup E] [Module ℝ E]

/-- Unscented expectation of `φ`. -/
noncomputable def uexp (μ : Vec k) (L : Mat k k) (φ : Vec k → E) : E :=
  (1 - (k : ℝ) / 3) • φ μ
    + (1 / 6 : ℝ) • ∑ j, (φ (μ + √3 • L.col j) + φ (μ - √3 • L.col j))

/-- Unscented expectation over two independent vectors. -/
noncomputable def uexp₂ (μ : Vec a) (L : Mat a a) (ν : Vec b) (L' : Mat b b)
    (φ : Vec a → Vec b → E) : E :=
  (1 - ((a + b : ℕ) : ℝ) / 3) • φ μ ν
    + (1 / 6 : ℝ) • (∑ j, (φ (μ + √3 • L.col j) ν + φ (μ - √3 • L.col j) ν)
      + ∑ j, (φ μ (ν + √3 • L'.col j) + φ μ (ν - √3 • L'.col j)))

/-- Unscented expectation over three independent vectors. -/
noncomputable def uexp₃ (μ : Vec a) (L : Mat a a) (ν : Vec b) (L' : Mat b b) (ξ : Vec c)
    (L'' : Mat c c) (φ : Vec a → Vec b → Vec c → E) : E :=
  (1 - ((a + b + c : ℕ) : ℝ) / 3) • φ μ ν ξ
    + (1 / 6 : ℝ) • (∑ j, (φ (μ + √3 • L.col j) ν ξ + φ (μ - √3 • L.col j) ν ξ)
      + ∑ j, (φ μ (ν + √3 • L'.col j) ξ + φ μ (ν - √3 • L'.col j) ξ)
      + ∑ j, (φ μ ν (ξ + √3 • L''.col j) + φ μ ν (ξ - √3 • L''.col j)))

end

/-- Kalman correction with predicted moments `P`, predicted observation `y`, its covariance `S` and the
cross covariance `Γ` of state and observation.  A missing observation changes nothing. -/
def Corrected (P : Moments n) (y : Vec m) (S : Mat m m) (Γ : Mat n m) (o : Obs m)
    (M : Moments n) : Prop :=
  (o.missing → M = P) ∧
  (¬ o.missing → ∃ S', Penrose S S' ∧ M.mean = P.mean + (Γ * S') *ᵥ (o.val - y) ∧
    M.cov = P.cov - (Γ * S') * S * (Γ * S')ᵀ)

/-- Rauch–Tung–Striebel correction of filtered moments `F` by the smoothed moments `M'` of the next
step, with predicted moments `P` and cross covariance `Γ` of state and next state. -/
def SmoothedBack (F P M' : Moments n) (Γ : Mat n n) (M : Moments n) : Prop :=
  ∃ P', Penrose P.cov P' ∧ M.mean = F.mean + (Γ * P') *ᵥ (M'.mean - P.mean) ∧
    M.cov = F.cov + (Γ * P') * (M'.cov - P.cov) * (Γ * P')ᵀ

/-! ### Additive noise -/

/-- Prediction through `f` with additive noise of covariance `Q`; `Γ` is the cross covariance of
state and next state. -/
def AddPredicts (f : Vec n → Vec n) (Q : Mat n n) (M P : Moments n) (Γ : Mat n n) : Prop :=
  ∃ L, IsCholesky M.cov L ∧
    P.mean = uexp M.mean L f ∧
    P.cov = uexp M.mean L (fun x => vecMulVec (f x - P.mean) (f x - P.mean)) + Q ∧
    Γ = uexp M.mean L (fun x => vecMulVec (x - M.mean) (f x - P.mean))

/-- Correction by an observation through `g` with additive noise of covariance `R`. -/
def AddCorrects (g : Vec n → Vec m) (R : Mat m m) (P : Moments n) (o : Obs m) (M : Moments n) :
    Prop :=
  ∃ L, IsCholesky P.cov L ∧ ∃ y, y = uexp P.mean L g ∧
    Corrected P y
      (uexp P.mean L (fun x => vecMulVec (g x - y) (g x - y)) + R)
      (uexp P.mean L (fun x => vecMulVec (x - P.mean) (g x - y))) o M

/-- One step of the additive unscented filter. -/
def AddStep (f : Vec n → Vec n) (g : Vec n → Vec m) (Q : Mat n n) (R : Mat m m) (M : Moments n)
    (o : Obs m) (M' : Moments n) : Prop :=
  ∃ P Γ, AddPredicts f Q M P Γ ∧ AddCorrects g R P o M'

/-! ### General noise -/

/-- Prediction through `f`, whose second argument is noise with mean zero and covariance `Q`. -/
def GenPredicts (f : Vec n → Vec n → Vec n) (Q : Mat n n) (M P : Moments n) (Γ : Mat n n) :
    Prop :=
  ∃ L LQ, IsCholesky M.cov L ∧ IsCholesky Q LQ ∧
    P.mean = uexp₂ M.mean L 0 LQ f ∧
    P.cov = uexp₂ M.mean L 0 LQ (fun x w => vecMulVec (f x w - P.mean) (f x w - P.mean)) ∧
    Γ = uexp₂ M.mean L 0 LQ (fun x w => vecMulVec (x - M.mean) (f x w - P.mean))

/-- One step of the filter with general noise: state, transition noise and observation noise have
joint points, passed through `f` and then through `g`.  (For the first observation `f x w = x`.) -/
def GenStep (f : Vec n → Vec n → Vec n) (g : Vec n → Vec m → Vec m) (Q : Mat n n) (R : Mat m m)
    (M : Moments n) (o : Obs m) (M' : Moments n) : Prop :=
  ∃ L LQ LR, IsCholesky M.cov L ∧ IsCholesky Q LQ ∧ IsCholesky R LR ∧
    ∃ x y, x = uexp₃ M.mean L 0 LQ 0 LR (fun x w _ => f x w) ∧
      y = uexp₃ M.mean L 0 LQ 0 LR (fun x w v => g (f x w) v) ∧
      Corrected
        ⟨x, uexp₃ M.mean L 0 LQ 0 LR fun z w _ => vecMulVec (f z w - x) (f z w - x)⟩ y
        (uexp₃ M.mean L 0 LQ 0 LR fun z w v => vecMulVec (g (f z w) v - y) (g (f z w) v - y))
        (uexp₃ M.mean L 0 LQ 0 LR fun z w v => vecMulVec (f z w - x) (g (f z w) v - y)) o M'

/-- How a caller of `filter_update` provides a function: explicitly, or by omitting it if the filter
has a single function. -/
def Provided {α : Type} (arg : Option α) (fns : Fns α) (f : α) : Prop :=
  arg = some f ∨ arg = none ∧ fns = .flat [f]

end Verif
