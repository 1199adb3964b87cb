import Verif.Spec.UnscentedAccuracy

/-!
# Approximate moments for noise that enters in any way

State, transition noise and observation noise are independent Gaussian vectors.  A function of them is
smooth if it is smooth as a function of one long vector.
-/

open MeasureTheory Matrix

namespace Verif

variable {n m : ℕ}

/-- A function of state and transition noise as a function of one vector. -/
def ofTwo (φ : Vec n → Vec n → ℝ) (z : Fin n ⊕ Fin n → ℝ) : ℝ :=
  φ (fun a => z (.inl a)) (fun a => z (.inr a))

/-- A function of state, transition noise and observation noise as a function of one vector. -/
def ofThree (φ : Vec n → Vec n → Vec m → ℝ) (z : (Fin n ⊕ Fin n) ⊕ Fin m → ℝ) : ℝ :=
  φ (fun a => z (.inl (.inl a))) (fun a => z (.inl (.inr a))) (fun a => z (.inr a))

/-- State and transition noise. -/
noncomputable def lawTwo (M : Moments n) (Q : Mat n n) : Measure (Vec n × Vec n) :=
  (gauss M.mean M.cov).prod (gauss 0 Q)

/-- State, transition noise and observation noise. -/
noncomputable def lawThree (M : Moments n) (Q : Mat n n) (R : Mat m m) :
    Measure ((Vec n × Vec n) × Vec m) :=
  (lawTwo M Q).prod (gauss 0 R)

/-- `P` and `Γ` are, up to errors of the order of the square of the variance, the mean and covariance
of `f x w` and its cross covariance with `x`, for a state `x` with the moments `M` and noise `w` with
covariance `Q`. -/
structure NearPredicts (f : Vec n → Vec n → Vec n) (Q : Mat n n) (M : Moments n) (B C D : Fin n → ℝ)
    (P : Moments n) (Γ : Mat n n) : Prop where
  mean : ∀ i, |P.mean i - ∫ z, f z.1 z.2 i ∂(lawTwo M Q)| ≤ B i / 4 * (M.cov.trace + Q.trace) ^ 2
  cov : ∀ i j, |P.cov i j - covOf (lawTwo M Q) (fun z => f z.1 z.2 i) (fun z => f z.1 z.2 j)|
    ≤ (‖fderiv ℝ (ofTwo fun x w => f x w i) (Sum.elim M.mean 0)‖ * D j
      + ‖fderiv ℝ (ofTwo fun x w => f x w j) (Sum.elim M.mean 0)‖ * D i
      + 2 * (C i * C j)) * (M.cov.trace + Q.trace) ^ 2
  cross : ∀ i j, |Γ i j - covOf (lawTwo M Q) (fun z => z.1 i) (fun z => f z.1 z.2 j)|
    ≤ D j * (M.cov.trace + Q.trace) ^ 2

/-- `y`, `S` and `Γ` are, up to errors of the order of the square of the variance, the mean and
covariance of `g (f x w) v` and its cross covariance with `f x w`, for a state `x` with the moments
`M` and noises `w` and `v` with covariances `Q` and `R`.  The constants are bounds of derivatives of
`f x w` and of `g (f x w) v`. -/
structure NearObserves (f : Vec n → Vec n → Vec n) (g : Vec n → Vec m → Vec m) (Q : Mat n n)
    (R : Mat m m) (M : Moments n) (C' D' : Fin n → ℝ) (B C D : Fin m → ℝ) (y : Vec m) (S : Mat m m)
    (Γ : Mat n m) : Prop where
  mean : ∀ i, |y i - ∫ z, g (f z.1.1 z.1.2) z.2 i ∂(lawThree M Q R)|
    ≤ B i / 4 * (M.cov.trace + Q.trace + R.trace) ^ 2
  cov : ∀ i j, |S i j - covOf (lawThree M Q R) (fun z => g (f z.1.1 z.1.2) z.2 i)
      (fun z => g (f z.1.1 z.1.2) z.2 j)|
    ≤ (‖fderiv ℝ (ofThree fun x w v => g (f x w) v i) (Sum.elim (Sum.elim M.mean 0) 0)‖ * D j
      + ‖fderiv ℝ (ofThree fun x w v => g (f x w) v j) (Sum.elim (Sum.elim M.mean 0) 0)‖ * D i
      + 2 * (C i * C j)) * (M.cov.trace + Q.trace + R.trace) ^ 2
  cross : ∀ i j, |Γ i j - covOf (lawThree M Q R) (fun z => f z.1.1 z.1.2 i)
      (fun z => g (f z.1.1 z.1.2) z.2 j)|
    ≤ (‖fderiv ℝ (ofTwo fun x w => f x w i) (Sum.elim M.mean 0)‖ * D j
      + ‖fderiv ℝ (ofThree fun x w v => g (f x w) v j) (Sum.elim (Sum.elim M.mean 0) 0)‖ * D' i
      + 2 * (C' i * C j)) * (M.cov.trace + Q.trace + R.trace) ^ 2

end Verif
