import Verif.Model.RoundedSqrtUnscented
import Verif.Spec.RoundedUpdate

/-!
# Programs of `filter_update` calls of the square root unscented filter
-/

namespace Verif

variable {n m : ℕ}

/-- The program that calls `AdditiveUnscentedKalmanFilter.filter_update` of `sqrt/unscented.py` once
for each entry of `os`, each time with the moments returned by the call before (`cov[0]` is taken of
the returned array, see C44). -/
noncomputable def sqProgram (qr : QR) (p : UParams n m) (a : ℕ → UUpdateArgs n m) (M : Moments n)
    (os : List (Option (Obs m))) : Res (List (Moments n)) :=
  UMachine.calls (fun t x o => sqUpdate qr p x o (a t)) 0 M os

/-- The same in arithmetic with errors. -/
noncomputable def flSqProgram {c : ℕ → ℝ} {u : ℝ} (ar : ArithS c u) (p : UParams n m)
    (a : ℕ → UUpdateArgs n m) (M : Moments n) (os : List (Option (Obs m))) :
    Res (List (Moments n)) :=
  UMachine.calls (fun t x o => flSqUpdate ar p x o (a t)) 0 M os

end Verif
