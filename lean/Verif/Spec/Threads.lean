import Verif.Model.Threads
import Verif.Spec.Session

/-!
# Vocabulary for statements about calls in several threads
-/

namespace Verif

variable {n m : ℕ} {α ι : Type}

/-- A run of `N` steps, in which the threads take turns in any order. -/
inductive TRun [DecidableEq ι] : ℕ → (ι → Prog α) × Objects → (ι → Prog α) × Objects → Prop
  | start (s : (ι → Prog α) × Objects) : TRun 0 s s
  | step {N : ℕ} {s s' s'' : (ι → Prog α) × Objects} (r : TRun N s s') (st : TStep s' s'') :
      TRun (N + 1) s s''

/-- The threads before they start: the thread `i` calls `call i` of the object `obj i`; `cls o` is the
class of the object `o`. -/
noncomputable def callPool (cls : ℕ → KFClass) (qr : QR) (obj : ι → ℕ) (call : ι → TCall) :
    ι → Prog TResult :=
  fun i => (call i).prog (cls (obj i)) qr (obj i)

/-- The call is one of `em`. -/
def TCall.IsEm : TCall → Prop
  | .em _ _ _ => True
  | _ => False

/-- The data of a call of a method other than `em` have the dimensions of the object. -/
def TCall.FitsRead (n m : ℕ) : TCall → Prop
  | .filter X => ∃ os : List (Obs m), DataArg X os
  | .smooth X => ∃ os : List (Obs m), DataArg X os
  | .loglikelihood X => ∃ os : List (Obs m), DataArg X os
  | .filterUpdate n' m' _ _ _ _ => n' = n ∧ m' = m
  | .em _ _ _ => False

/-- What a method other than `em` answers, in the class `cls`, if the parameters are `p`. -/
inductive Answers (cls : KFClass) (qr : QR) (p : Params n m) : TCall → TResult → Prop
  | filter {X : MArray} {os : List (Obs m)} (hX : DataArg X os) :
      Answers cls qr p (.filter X) (.estimates n (match cls with
        | .standard => kfFilter p os
        | .cholesky => cholFilter qr p os
        | .bierman => bierFilter id p os))
  | smooth {X : MArray} {os : List (Obs m)} (hX : DataArg X os) :
      Answers cls qr p (.smooth X) (.estimates n (match cls with
        | .standard => kfSmooth p os
        | .cholesky => cholSmooth qr p os
        | .bierman => bierSmooth id p os))
  | loglikelihood {X : MArray} {os : List (Obs m)} (hX : DataArg X os) :
      Answers cls qr p (.loglikelihood X) (.value (match cls with
        | .standard => kfLoglik p os
        | .cholesky => cholLoglik qr p os
        | .bierman => bierLoglik id p os))
  | filterUpdate (mean : Vec n) (cov : Mat n n) (o : Option (Obs m)) (u : UpdateArgs n m) :
      Answers cls qr p (.filterUpdate n m mean cov o u) (.estimate n (match cls with
        | .standard => (Verif.filterUpdate p mean cov o u).map fun r => (r.1, ndOfMat r.2)
        | .cholesky => cholUpdateArr qr p mean (ndOfMat cov) o u
        | .bierman => bierUpdateArr id p mean (ndOfMat cov) o u))

/-- The parameters `p'` are put together from those before and after iterations of `em`: each of the
eight is that before the first or after one of the first `nIter` iterations, possibly not the same
one for all eight. -/
structure IsMixture (cls : KFClass) (qr : QR) (p : Params n m) (os : List (Obs m))
    (vars : EmVar → Bool) (nIter : ℕ) (p' : Params n m) : Prop where
  A : ∃ j ≤ nIter, ∃ q, cls.iterations qr id p os vars j = .ok q ∧ p'.A = q.A
  b : ∃ j ≤ nIter, ∃ q, cls.iterations qr id p os vars j = .ok q ∧ p'.b = q.b
  Q : ∃ j ≤ nIter, ∃ q, cls.iterations qr id p os vars j = .ok q ∧ p'.Q = q.Q
  C : ∃ j ≤ nIter, ∃ q, cls.iterations qr id p os vars j = .ok q ∧ p'.C = q.C
  d : ∃ j ≤ nIter, ∃ q, cls.iterations qr id p os vars j = .ok q ∧ p'.d = q.d
  R : ∃ j ≤ nIter, ∃ q, cls.iterations qr id p os vars j = .ok q ∧ p'.R = q.R
  mu0 : ∃ j ≤ nIter, ∃ q, cls.iterations qr id p os vars j = .ok q ∧ p'.mu0 = q.mu0
  S0 : ∃ j ≤ nIter, ∃ q, cls.iterations qr id p os vars j = .ok q ∧ p'.S0 = q.S0

end Verif
