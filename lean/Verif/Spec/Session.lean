import Verif.Model.Session
import Verif.Spec.LinearMethods

/-!
# Vocabulary for statements about sequences of calls on one object
-/

namespace Verif

variable {n m : ℕ}

/-- The parameters that the algorithm behind `em` arrives at after `k` iterations, in the class
`cls`. -/
noncomputable def KFClass.iterations (cls : KFClass) (qr : QR) (store : ℝ → ℝ) (p : Params n m)
    (os : List (Obs m)) (vars : EmVar → Bool) (k : ℕ) : Res (Params n m) :=
  match cls with
  | .standard => kfEm p os k vars
  | .cholesky => cholEm qr p os k vars
  | .bierman => bierEm store p os k vars

/-- The names of the variables to estimate: those in the call, else those given to the constructor,
else (plain class only) the documented ones. -/
inductive ChosenNames (cls : KFClass) (stored arg : Option EmNames) (e : EmNames) : Prop
  | inCall (h : arg = some e)
  | stored (h : arg = none) (h' : stored = some e)
  | documented (h : arg = none) (h' : stored = none) (hc : cls = .standard)
      (he : e = documentedEmVars)

/-- A call of `em` with `nIter` iterations that starts from `p` gets as far as `q`: it does all
iterations and returns, or does the first `k` and raises `err` in the next one. -/
inductive EmStops (cls : KFClass) (qr : QR) (store : ℝ → ℝ) (p : Params n m) (os : List (Obs m))
    (vars : EmVar → Bool) (nIter : ℕ) (q : Params n m) : Option Err → Prop
  | returns (h : cls.iterations qr store p os vars nIter = .ok q) :
      EmStops cls qr store p os vars nIter q none
  | raises (k : ℕ) (hk : k < nIter) (err : Err) (h : cls.iterations qr store p os vars k = .ok q)
      (h' : cls.iterations qr store p os vars (k + 1) = .error err) :
      EmStops cls qr store p os vars nIter q (some err)

/-- The parameters an object can have after a sequence of calls, if it had the parameters `p` before
and the names `stored` were given to its constructor. -/
inductive Reaches (cls : KFClass) (qr : QR) (stored : Option EmNames) :
    Params n m → List KFCall → Params n m → Prop
  | nil (p : Params n m) : Reaches cls qr stored p [] p
  | filter (X : MArray) {cs : List KFCall} {p q : Params n m} (h : Reaches cls qr stored p cs q) :
      Reaches cls qr stored p (.filter X :: cs) q
  | smooth (X : MArray) {cs : List KFCall} {p q : Params n m} (h : Reaches cls qr stored p cs q) :
      Reaches cls qr stored p (.smooth X :: cs) q
  | loglikelihood (X : MArray) {cs : List KFCall} {p q : Params n m}
      (h : Reaches cls qr stored p cs q) : Reaches cls qr stored p (.loglikelihood X :: cs) q
  | em {X : MArray} {os : List (Obs m)} (hX : DataArg X os) {arg : Option EmNames} {e : EmNames}
      (he : ChosenNames cls stored arg e) {vars : EmVar → Bool} (hv : Selects e vars) {nIter : ℕ}
      {p p' q : Params n m} {err : Option Err} (h : EmStops cls qr id p os vars nIter p' err)
      {cs : List KFCall} (h' : Reaches cls qr stored p' cs q) :
      Reaches cls qr stored p (.em X nIter arg :: cs) q
  | refused (X : MArray) (nIter : ℕ) {arg : Option EmNames}
      (he : ∀ e, ¬ ChosenNames cls stored arg e) {cs : List KFCall} {p q : Params n m}
      (h : Reaches cls qr stored p cs q) : Reaches cls qr stored p (.em X nIter arg :: cs) q

/-- The data of a call have observations of length `m`. -/
def KFCall.Fits (m : ℕ) : KFCall → Prop
  | .em X _ _ => ∃ os : List (Obs m), DataArg X os
  | _ => True

end Verif
