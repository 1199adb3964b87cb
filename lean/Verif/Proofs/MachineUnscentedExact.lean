import Verif.Proofs.MachineUnscented
import Verif.Proofs.MachineRounded
import Verif.Model.RoundedUnscented

/-!
# Exact arithmetic and arithmetic with rounding errors as machines, for the unscented filters
-/

open Matrix

namespace Verif

variable {n m k l N : ℕ} {c : ℕ → ℝ} {u : ℝ}

/-- Exact arithmetic. -/
noncomputable abbrev exactUMachine : UMachine where
  toMachine := exactMachine
  three := 3.0
  half := 0.5
  sqrt := Real.sqrt
  chol k S := (cholUpperT (S : Mat k k)).map fun L => Lᵀ

/-- Arithmetic with rounding errors (`Model/RoundedUnscented`). -/
noncomputable abbrev roundedUMachine (ar : ArithU c u) : UMachine where
  toMachine := roundedMachine ar.toArithEL
  three := 3.0
  half := 0.5
  sqrt := ar.sqrt
  chol k S := (ar.chol k (S : Mat k k)ᵀ).map fun L => Lᵀ

namespace UMachine

/-- A loop of a machine whose steps are those of a loop of `Model/Unscented`. -/
theorem run_runLoop {σ τ ο : Type} {step : ℕ → Option σ → Obs m → Res σ}
    {step' : ℕ → Option τ → ο → Res τ} {φ : σ → τ} {ψ : Obs m → ο}
    (h : ∀ t prev o, step' t (prev.map φ) (ψ o) = (step t prev o).map φ) (os : List (Obs m)) (t : ℕ)
    (prev : Option σ) :
    run step' t (prev.map φ) (os.map ψ) = (runLoop step t prev os).map (List.map φ) := by
  induction os generalizing t prev with
  | nil => rfl
  | cons o os ih =>
    rw [List.map_cons, run, runLoop, h]
    cases step t prev o with
    | error e => rfl
    | ok s =>
      have := ih (t + 1) (some s)
      rw [Option.map_some] at this
      simp only [Except.map, bind, Except.bind, this]
      cases runLoop step (t + 1) (some s) os <;> rfl

theorem backFull_comp {σ τ : Type} {step : ℕ → σ → σ → Res σ} {step' : ℕ → τ → τ → Res τ} {φ : σ → τ}
    (h : ∀ t x y, step' t (φ x) (φ y) = (step t x y).map φ) (l : List σ) :
    backFull step' (l.map φ) = (backFull step l).map (List.map φ) := by
  have key : ∀ (rest : List σ) (t : ℕ) (s : σ), backLoop step' t (φ s) (rest.map φ)
      = (backLoop step t s rest).map fun r => (φ r.1, r.2.map φ) := by
    intro rest
    induction rest with
    | nil => intros; rfl
    | cons a rest ih =>
      intro t s
      rw [List.map_cons, backLoop, backLoop, ih]
      cases backLoop step (t + 1) a rest with
      | error e => rfl
      | ok r =>
        simp only [Except.map, bind, Except.bind, h]
        cases step t s r.1 <;> rfl
  cases l with
  | nil => rfl
  | cons s rest =>
    rw [List.map_cons, backFull, backFull, key]
    cases backLoop step 0 s rest <;> rfl

theorem comprehension_ok {α : Type} : ∀ {N : ℕ} (f : Fin N → α),
    comprehension (fun i => (.ok (f i) : Res α)) = .ok f
  | 0, f => by
    simp only [comprehension, Pure.pure, Except.pure]
    congr 1
    exact funext fun i => i.elim0
  | N + 1, f => by
    rw [comprehension, comprehension_ok fun i => f i.succ]
    simp only [Pure.pure, Except.pure, Bind.bind, Except.bind]
    congr 1
    exact Fin.cons_self_tail f

theorem blockDiag_exact {a b : ℕ} (S : Mat a a) (T : Mat b b) :
    (Fin.append (fun i => Fin.append (S i) (fun _ => (0 : ℝ)))
      (fun i => Fin.append (fun _ => (0 : ℝ)) (T i)) : Fin (a + b) → Fin (a + b) → ℝ)
      = Verif.blockDiag S T := by
  funext i j
  refine Fin.addCases (fun i => ?_) (fun i => ?_) i <;>
    refine Fin.addCases (fun j => ?_) (fun j => ?_) j <;>
    simp [Verif.blockDiag]

/-- The functions in a list, as functions that may raise. -/
def okFns {α β : Type} (φ : α → β) : Fns α → Fns β
  | .flat l => .flat (l.map φ)
  | .nested l => .nested (l.map (List.map φ))

theorem okFns_at {α β : Type} (φ : α → β) (f : Fns α) (t : ℕ) :
    (okFns φ f).at t = (f.at t).map φ := by
  have first_map : ∀ l : List α, first (l.map φ) = (first l).map φ := fun l => by cases l <;> rfl
  cases f with
  | flat l => exact first_map l
  | nested l =>
    simp only [okFns, Fns.at, List.getElem?_map]
    cases l[t]? with
    | none => rfl
    | some r => exact first_map r

theorem okFns_default {α β : Type} (φ : α → β) (a : Option α) (f : Fns α) :
    defaultFunction (a.map φ) (okFns φ f) = (defaultFunction a f).map φ := by
  cases f with
  | flat l =>
    cases a with
    | some a => rfl
    | none =>
      match l with
      | [] => rfl
      | [a] => rfl
      | _ :: _ :: _ => rfl
  | nested l =>
    cases a with
    | some a => rfl
    | none =>
      simp only [okFns, defaultFunction, Option.map_none, List.length_map]
      split_ifs <;> rfl

end UMachine

namespace RoundedU

/-- A vector as a vector of the machine. -/
def vx (ar : ArithU c u) (x : Vec k) : (roundedUMachine ar).V k := x

/-- A matrix as a matrix of the machine. -/
def mx (ar : ArithU c u) (X : Mat k l) : (roundedUMachine ar).A k l := X

/-- A function as one that may raise, but never does. -/
def fx (ar : ArithU c u) (f : Vec k → Vec l) : (roundedUMachine ar).V k → Res ((roundedUMachine ar).V l) := fun x => .ok (f x)

/-- The same for a function with two arguments. -/
def fx₂ (ar : ArithU c u) {q : ℕ} (f : Vec k → Vec q → Vec l) : (roundedUMachine ar).V k → (roundedUMachine ar).V q → Res ((roundedUMachine ar).V l) :=
  fun x y => .ok (f x y)

/-- Moments as moments of the machine. -/
def mom (ar : ArithU c u) (x : Moments k) : (roundedUMachine ar).Mom k := ⟨vx ar x.mean, mx ar x.cov⟩

/-- Sigma points as sigma points of the machine. -/
def pts (ar : ArithU c u) (s : SigmaPoints N k) : (roundedUMachine ar).Pts N k := ⟨s.points, s.wm, s.wc⟩

/-- An observation as an observation of the machine. -/
def urow (ar : ArithU c u) (o : Obs m) : (roundedUMachine ar).Row m := ⟨o.val, o.mask⟩

/-- Parameters as parameters of the machine: the functions never raise. -/
def upar (ar : ArithU c u) (p : UParams n m) : (roundedUMachine ar).UPar n m :=
  ⟨UMachine.okFns (fx ar) p.f, UMachine.okFns (fx ar) p.g,
    mx ar p.Q, mx ar p.R, vx ar p.mu0, mx ar p.S0⟩

/-- The same for `UnscentedKalmanFilter`. -/
def gpar (ar : ArithU c u) (p : GParams n m) : (roundedUMachine ar).GPar n m :=
  ⟨UMachine.okFns (fx₂ ar) p.f, UMachine.okFns (fx₂ ar) p.g,
    mx ar p.Q, mx ar p.R, vx ar p.mu0, mx ar p.S0⟩

theorem points2moments_eq (ar : ArithU c u) (s : SigmaPoints N k) (noise : Option (Mat k k)) :
    UMachine.points2moments (pts ar s) (noise.map (mx ar)) = mom ar (flPoints2moments ar s noise) := by
  cases noise <;> rfl

theorem points2moments_none (ar : ArithU c u) (s : SigmaPoints N k) :
    UMachine.points2moments (pts ar s) none = mom ar (flPoints2moments ar s none) := rfl

theorem points2moments_some (ar : ArithU c u) (s : SigmaPoints N k) (S : Mat k k) :
    UMachine.points2moments (pts ar s) (some (mx ar S)) = mom ar (flPoints2moments ar s (some S)) := rfl

theorem moments2points_eq (ar : ArithU c u) (x : Moments n) :
    UMachine.moments2points (mom ar x) = (flMoments2points ar x).map (pts ar) := by
  have h1 : (1.0 : ℝ) = 1 := by norm_num
  have h0 : (0.0 : ℝ) = 0 := by norm_num
  rw [UMachine.moments2points, flMoments2points]
  show ((ar.chol n x.covᵀ).map _ >>= _) = _
  cases ar.chol n x.covᵀ with
  | error e => rfl
  | ok L =>
    simp only [Except.map, bind, Except.bind, pure, Except.pure, pts, flSigmaPoints, flSigmaRows, h1, h0,
      Machine.tr, transpose_apply]
    rfl

theorem through_eq (ar : ArithU c u) (s : SigmaPoints N k) (f : Vec k → Vec l) :
    (pts ar s).through (fx ar f) = .ok (pts ar (s.map f)) := by
  simp only [UMachine.Pts.through, fx, UMachine.comprehension_ok]
  rfl

theorem through₂_eq (ar : ArithU c u) {q : ℕ} (s : SigmaPoints N k) (w : SigmaPoints N q)
    (f : Vec k → Vec q → Vec l) :
    (pts ar s).through₂ (pts ar w) (fx₂ ar f) = .ok (pts ar (s.map₂ w f)) := by
  simp only [UMachine.Pts.through₂, fx₂, UMachine.comprehension_ok]
  rfl

theorem crossCov_eq (ar : ArithU c u) (p : SigmaPoints N n) (mu : Vec n) (q : SigmaPoints N m) (nu : Vec m) :
    UMachine.crossCov (pts ar p) (vx ar mu) (pts ar q) (vx ar nu) = mx ar (flCrossCov ar p mu q nu) := rfl

theorem unscentedCorrect_eq (ar : ArithU c u) (cross : Mat n m) (pred : Moments n) (obs : Moments m) (o : Obs m) :
    UMachine.unscentedCorrect (mx ar cross) (mom ar pred) (mom ar obs) (urow ar o)
      = .ok (mom ar (flUnscentedCorrect ar cross pred obs o)) := by
  by_cases h : o.missing
  · have h' : (urow ar o).missing := h
    simp only [UMachine.unscentedCorrect, flUnscentedCorrect, h, h', not_true_eq_false, if_false]
    rfl
  · have h' : ¬ (urow ar o).missing := h
    simp only [UMachine.unscentedCorrect, flUnscentedCorrect, h, h', not_false_eq_true, if_true]
    rfl

theorem ufCorrect_eq (ar : ArithU c u) (g : Vec n → Vec m) (pred : Moments n) (s : SigmaPoints N n) (o : Obs m)
    (R : Mat m m) :
    UMachine.ufCorrect (fx ar g) (mom ar pred) (pts ar s) (urow ar o) (mx ar R)
      = .ok (mom ar (flUfCorrect ar g pred s o R)) := by
  rw [UMachine.ufCorrect, through_eq]
  simp only [bind, Except.bind, UMachine.finish, points2moments_some]
  rw [show (mom ar pred).mean = vx ar pred.mean from rfl,
    show ∀ y : Moments m, (mom ar y).mean = vx ar y.mean from fun _ => rfl, crossCov_eq]
  exact unscentedCorrect_eq ar _ _ _ _

theorem ufCorrect₂_eq (ar : ArithU c u) (g : Vec n → Vec m → Vec m) (pred : Moments n) (s : SigmaPoints N n)
    (o : Obs m) (w : SigmaPoints N m) :
    UMachine.ufCorrect₂ (fx₂ ar g) (mom ar pred) (pts ar s) (urow ar o) (pts ar w)
      = .ok (mom ar (flUfCorrect₂ ar g pred s o w)) := by
  rw [UMachine.ufCorrect₂, through₂_eq]
  simp only [bind, Except.bind, UMachine.finish, points2moments_none]
  rw [show (mom ar pred).mean = vx ar pred.mean from rfl,
    show ∀ y : Moments m, (mom ar y).mean = vx ar y.mean from fun _ => rfl, crossCov_eq]
  exact unscentedCorrect_eq ar _ _ _ _

theorem ufSmooth_eq (ar : ArithU c u) (filt : Moments n) (s t : SigmaPoints N n) (pred next : Moments n) :
    UMachine.ufSmooth (mom ar filt) (pts ar s) (pts ar t) (mom ar pred) (mom ar next)
      = .ok (mom ar (flUfSmooth ar filt s t pred next)) := rfl

theorem aukfStep_eq (ar : ArithU c u) (p : UParams n m) (t : ℕ) (prev : Option (Moments n)) (o : Obs m) :
    UMachine.aukfStep (upar ar p) t (prev.map (mom ar)) (urow ar o)
      = (flAukfStep ar p t prev o).map (mom ar) := by
  cases prev with
  | none =>
    have e : UMachine.moments2points (⟨(upar ar p).mu0, (upar ar p).S0⟩ : (roundedUMachine ar).Mom n)
        = (flMoments2points ar ⟨p.mu0, p.S0⟩).map (pts ar) :=
      moments2points_eq ar ⟨p.mu0, p.S0⟩
    simp only [UMachine.aukfStep, flAukfStep, Option.map_none, Option.getD_none]
    rw [e]
    cases flMoments2points ar ⟨p.mu0, p.S0⟩ with
    | error e => rfl
    | ok s =>
      simp only [Except.map, bind, Except.bind]
      rw [show (upar ar p).g.at t = _ from UMachine.okFns_at _ _ _, points2moments_none]
      cases p.g.at t with
      | error e => rfl
      | ok g => exact ufCorrect_eq ar g _ s o p.R
  | some x =>
    simp only [UMachine.aukfStep, flAukfStep, Option.map_some, Option.getD_some]
    rw [moments2points_eq]
    cases flMoments2points ar x with
    | error e => rfl
    | ok s =>
      simp only [Except.map, bind, Except.bind]
      rw [show (upar ar p).f.at (t - 1) = _ from UMachine.okFns_at _ _ _]
      cases p.f.at (t - 1) with
      | error e => rfl
      | ok f =>
        simp only [Except.map, through_eq]
        rw [show (upar ar p).Q = mx ar p.Q from rfl, points2moments_some, moments2points_eq]
        cases flMoments2points ar (flPoints2moments ar (s.map f) (some p.Q)) with
        | error e => rfl
        | ok s' =>
          simp only [Except.map]
          rw [show (upar ar p).g.at t = _ from UMachine.okFns_at _ _ _]
          cases p.g.at t with
          | error e => rfl
          | ok g => exact ufCorrect_eq ar g _ s' o p.R

theorem aukfFilter_eq (ar : ArithU c u) (p : UParams n m) (os : List (Obs m)) :
    UMachine.aukfFilter (upar ar p) (os.map (urow ar))
      = (flAukfFilter ar p os).map (List.map (mom ar)) :=
  UMachine.run_runLoop (aukfStep_eq ar p) os 0 none

theorem aukfSmoothStep_eq (ar : ArithU c u) (p : UParams n m) (t : ℕ) (x next : Moments n) :
    UMachine.aukfSmoothStep (upar ar p) t (mom ar x) (mom ar next)
      = (flAukfSmoothStep ar p t x next).map (mom ar) := by
  rw [UMachine.aukfSmoothStep, flAukfSmoothStep, moments2points_eq]
  cases flMoments2points ar x with
  | error e => rfl
  | ok s =>
    simp only [Except.map, bind, Except.bind]
    rw [show (upar ar p).f.at t = _ from UMachine.okFns_at _ _ _]
    cases p.f.at t with
    | error e => rfl
    | ok f =>
      simp only [Except.map, through_eq]
      rw [show (upar ar p).Q = mx ar p.Q from rfl, points2moments_some]
      rfl

theorem aukfSmooth_eq (ar : ArithU c u) (p : UParams n m) (os : List (Obs m)) :
    UMachine.aukfSmooth (upar ar p) (os.map (urow ar))
      = (flAukfSmooth ar p os).map (List.map (mom ar)) := by
  rw [UMachine.aukfSmooth, flAukfSmooth, aukfFilter_eq]
  cases flAukfFilter ar p os with
  | error e => rfl
  | ok l => exact UMachine.backFull_comp (aukfSmoothStep_eq ar p) l

theorem blockDiag_eq (ar : ArithU c u) {a b : ℕ} (S : Mat a a) (T : Mat b b) :
    UMachine.blockDiag (mx ar S) (mx ar T) = mx ar (blockDiag S T) :=
  UMachine.blockDiag_exact S T

theorem concat_eq (ar : ArithU c u) {a b : ℕ} (x : Vec a) (y : Vec b) :
    Fin.append (vx ar x) (vx ar y) = vx ar (concat x y) := rfl

theorem augFilterPoints_eq (ar : ArithU c u) (x : Moments n) (Q : Mat n n) (R : Mat m m) :
    UMachine.augFilterPoints (mom ar x) (mx ar Q) (mx ar R)
      = (flAugFilterPoints ar x Q R).map fun s => (pts ar s.1, pts ar s.2.1, pts ar s.2.2) := by
  have e : UMachine.moments2points
      (⟨Fin.append (Fin.append (vx ar x.mean) (vx ar (0 : Vec n))) (vx ar (0 : Vec m)),
        UMachine.blockDiag (UMachine.blockDiag (mx ar x.cov) (mx ar Q)) (mx ar R)⟩
        : (roundedUMachine ar).Mom (n + n + m))
      = (flMoments2points ar ⟨concat (concat x.mean (0 : Vec n)) (0 : Vec m),
          blockDiag (blockDiag x.cov Q) R⟩).map (pts ar) := by
    rw [concat_eq, concat_eq, blockDiag_eq, blockDiag_eq]
    exact moments2points_eq ar ⟨_, _⟩
  unfold UMachine.augFilterPoints flAugFilterPoints
  refine (congrArg (fun r => r >>= fun s : (roundedUMachine ar).Pts _ (n + n + m) =>
    (Pure.pure (s.left.left, s.left.right, s.right) : Res _)) e).trans ?_
  cases flMoments2points ar ⟨concat (concat x.mean (0 : Vec n)) (0 : Vec m),
          blockDiag (blockDiag x.cov Q) R⟩ <;> rfl

theorem augPoints_eq (ar : ArithU c u) (x y : Moments n) :
    UMachine.augPoints (mom ar x) (mom ar y)
      = (flAugPoints ar x y).map fun s => (pts ar s.1, pts ar s.2) := by
  have e : UMachine.moments2points
      (⟨Fin.append (vx ar x.mean) (vx ar y.mean),
        UMachine.blockDiag (mx ar x.cov) (mx ar y.cov)⟩ : (roundedUMachine ar).Mom (n + n))
      = (flMoments2points ar ⟨concat x.mean y.mean, blockDiag x.cov y.cov⟩).map (pts ar) := by
    rw [concat_eq, blockDiag_eq]
    exact moments2points_eq ar ⟨_, _⟩
  unfold UMachine.augPoints flAugPoints
  refine (congrArg (fun r => r >>= fun s : (roundedUMachine ar).Pts _ (n + n) =>
    (Pure.pure (s.left, s.right) : Res _)) e).trans ?_
  cases flMoments2points ar ⟨concat x.mean y.mean, blockDiag x.cov y.cov⟩ <;> rfl

theorem ukfStep_eq (ar : ArithU c u) (p : GParams n m) (t : ℕ) (prev : Option (Moments n)) (o : Obs m) :
    UMachine.ukfStep (gpar ar p) t (prev.map (mom ar)) (urow ar o)
      = (flUkfStep ar p t prev o).map (mom ar) := by
  cases prev with
  | none =>
    have e : UMachine.augFilterPoints (⟨(gpar ar p).mu0, (gpar ar p).S0⟩ : (roundedUMachine ar).Mom n)
        (gpar ar p).Q (gpar ar p).R
        = (flAugFilterPoints ar ⟨p.mu0, p.S0⟩ p.Q p.R).map
            fun s => (pts ar s.1, pts ar s.2.1, pts ar s.2.2) :=
      augFilterPoints_eq ar ⟨p.mu0, p.S0⟩ p.Q p.R
    simp only [UMachine.ukfStep, flUkfStep, Option.map_none, Option.getD_none]
    rw [e]
    cases flAugFilterPoints ar ⟨p.mu0, p.S0⟩ p.Q p.R with
    | error e => rfl
    | ok s =>
      simp only [Except.map, bind, Except.bind]
      rw [show (gpar ar p).g.at t = _ from UMachine.okFns_at _ _ _, points2moments_none]
      cases p.g.at t with
      | error e => rfl
      | ok g => exact ufCorrect₂_eq ar g _ s.1 o s.2.2
  | some x =>
    simp only [UMachine.ukfStep, flUkfStep, Option.map_some, Option.getD_some]
    rw [show (gpar ar p).Q = mx ar p.Q from rfl,
      show (gpar ar p).R = mx ar p.R from rfl, augFilterPoints_eq]
    cases flAugFilterPoints ar x p.Q p.R with
    | error e => rfl
    | ok s =>
      simp only [Except.map, bind, Except.bind]
      rw [show (gpar ar p).f.at (t - 1) = _ from UMachine.okFns_at _ _ _]
      cases p.f.at (t - 1) with
      | error e => rfl
      | ok f =>
        simp only [Except.map, through₂_eq]
        rw [points2moments_none]
        rw [show (gpar ar p).g.at t = _ from UMachine.okFns_at _ _ _]
        cases p.g.at t with
        | error e => rfl
        | ok g => exact ufCorrect₂_eq ar g _ (s.1.map₂ s.2.1 f) o s.2.2

theorem ukfFilter_eq (ar : ArithU c u) (p : GParams n m) (os : List (Obs m)) :
    UMachine.ukfFilter (gpar ar p) (os.map (urow ar))
      = (flUkfFilter ar p os).map (List.map (mom ar)) :=
  UMachine.run_runLoop (ukfStep_eq ar p) os 0 none

theorem ukfSmoothStep_eq (ar : ArithU c u) (p : GParams n m) (t : ℕ) (x next : Moments n) :
    UMachine.ukfSmoothStep (gpar ar p) t (mom ar x) (mom ar next)
      = (flUkfSmoothStep ar p t x next).map (mom ar) := by
  have e : UMachine.augPoints (mom ar x) (⟨fun _ => (0 : ℝ), (gpar ar p).Q⟩ : (roundedUMachine ar).Mom n)
      = (flAugPoints ar x ⟨0, p.Q⟩).map fun s => (pts ar s.1, pts ar s.2) :=
    augPoints_eq ar x ⟨0, p.Q⟩
  rw [UMachine.ukfSmoothStep, flUkfSmoothStep]
  refine (congrArg (· >>= _) e).trans ?_
  cases flAugPoints ar x ⟨0, p.Q⟩ with
  | error e => rfl
  | ok s =>
    simp only [Except.map, bind, Except.bind]
    rw [show (gpar ar p).f.at t = _ from UMachine.okFns_at _ _ _]
    cases p.f.at t with
    | error e => rfl
    | ok f =>
      simp only [Except.map, through₂_eq]
      rw [points2moments_none]
      rfl

theorem ukfSmooth_eq (ar : ArithU c u) (p : GParams n m) (os : List (Obs m)) :
    UMachine.ukfSmooth (gpar ar p) (os.map (urow ar))
      = (flUkfSmooth ar p os).map (List.map (mom ar)) := by
  rw [UMachine.ukfSmooth, flUkfSmooth, ukfFilter_eq]
  cases flUkfFilter ar p os with
  | error e => rfl
  | ok l => exact UMachine.backFull_comp (ukfSmoothStep_eq ar p) l

end RoundedU


namespace ExactU

/-- A vector as a vector of the machine. -/
def vx (x : Vec k) : exactUMachine.V k := x

/-- A matrix as a matrix of the machine. -/
def mx (X : Mat k l) : exactUMachine.A k l := X

/-- A function as one that may raise, but never does. -/
def fx (f : Vec k → Vec l) : exactUMachine.V k → Res (exactUMachine.V l) := fun x => .ok (f x)

/-- The same for a function with two arguments. -/
def fx₂ {q : ℕ} (f : Vec k → Vec q → Vec l) : exactUMachine.V k → exactUMachine.V q → Res (exactUMachine.V l) :=
  fun x y => .ok (f x y)

/-- Moments as moments of the machine. -/
def mom (x : Moments k) : exactUMachine.Mom k := ⟨vx x.mean, mx x.cov⟩

/-- Sigma points as sigma points of the machine. -/
def pts (s : SigmaPoints N k) : exactUMachine.Pts N k := ⟨s.points, s.wm, s.wc⟩

/-- An observation as an observation of the machine. -/
def urow (o : Obs m) : exactUMachine.Row m := ⟨o.val, o.mask⟩

/-- Parameters as parameters of the machine: the functions never raise. -/
def upar (p : UParams n m) : exactUMachine.UPar n m :=
  ⟨UMachine.okFns fx p.f, UMachine.okFns fx p.g,
    mx p.Q, mx p.R, vx p.mu0, mx p.S0⟩

/-- The same for `UnscentedKalmanFilter`. -/
def gpar (p : GParams n m) : exactUMachine.GPar n m :=
  ⟨UMachine.okFns fx₂ p.f, UMachine.okFns fx₂ p.g,
    mx p.Q, mx p.R, vx p.mu0, mx p.S0⟩

theorem points2moments_eq (s : SigmaPoints N k) (noise : Option (Mat k k)) :
    UMachine.points2moments (pts s) (noise.map mx) = mom (Verif.points2moments s noise) := by
  cases noise <;> rfl

theorem points2moments_none (s : SigmaPoints N k) :
    UMachine.points2moments (pts s) none = mom (Verif.points2moments s none) := rfl

theorem points2moments_some (s : SigmaPoints N k) (S : Mat k k) :
    UMachine.points2moments (pts s) (some (mx S)) = mom (Verif.points2moments s (some S)) := rfl

theorem moments2points_eq (x : Moments n) :
    UMachine.moments2points (mom x) = (Verif.moments2points x).map pts := by
  have h1 : (1.0 : ℝ) = 1 := by norm_num
  have h0 : (0.0 : ℝ) = 0 := by norm_num
  rw [UMachine.moments2points, Verif.moments2points]
  show ((cholUpperT x.cov).map _ >>= _) = _
  cases cholUpperT x.cov with
  | error e => rfl
  | ok L =>
    simp only [Except.map, bind, Except.bind, pure, Except.pure, pts, sigmaPoints, sigmaRows, Option.getD_none, h1, h0,
      Machine.tr, transpose_apply]
    rfl

theorem through_eq (s : SigmaPoints N k) (f : Vec k → Vec l) :
    (pts s).through (fx f) = .ok (pts (s.map f)) := by
  simp only [UMachine.Pts.through, fx, UMachine.comprehension_ok]
  rfl

theorem through₂_eq {q : ℕ} (s : SigmaPoints N k) (w : SigmaPoints N q)
    (f : Vec k → Vec q → Vec l) :
    (pts s).through₂ (pts w) (fx₂ f) = .ok (pts (s.map₂ w f)) := by
  simp only [UMachine.Pts.through₂, fx₂, UMachine.comprehension_ok]
  rfl

theorem crossCov_eq (p : SigmaPoints N n) (mu : Vec n) (q : SigmaPoints N m) (nu : Vec m) :
    UMachine.crossCov (pts p) (vx mu) (pts q) (vx nu) = mx (Verif.crossCov p mu q nu) := rfl

theorem unscentedCorrect_eq (cross : Mat n m) (pred : Moments n) (obs : Moments m) (o : Obs m) :
    UMachine.unscentedCorrect (mx cross) (mom pred) (mom obs) (urow o)
      = .ok (mom (Verif.unscentedCorrect cross pred obs o)) := by
  by_cases h : o.missing
  · have h' : (urow o).missing := h
    simp only [UMachine.unscentedCorrect, Verif.unscentedCorrect, h, h', not_true_eq_false, if_false]
    rfl
  · have h' : ¬ (urow o).missing := h
    simp only [UMachine.unscentedCorrect, Verif.unscentedCorrect, h, h', not_false_eq_true, if_true]
    rfl

theorem ufCorrect_eq (g : Vec n → Vec m) (pred : Moments n) (s : SigmaPoints N n) (o : Obs m)
    (R : Mat m m) :
    UMachine.ufCorrect (fx g) (mom pred) (pts s) (urow o) (mx R)
      = .ok (mom (Verif.ufCorrect g pred s o R)) := by
  rw [UMachine.ufCorrect, through_eq]
  simp only [bind, Except.bind, UMachine.finish, points2moments_some]
  rw [show (mom pred).mean = vx pred.mean from rfl,
    show ∀ y : Moments m, (mom y).mean = vx y.mean from fun _ => rfl, crossCov_eq]
  exact unscentedCorrect_eq _ _ _ _

theorem ufCorrect₂_eq (g : Vec n → Vec m → Vec m) (pred : Moments n) (s : SigmaPoints N n)
    (o : Obs m) (w : SigmaPoints N m) :
    UMachine.ufCorrect₂ (fx₂ g) (mom pred) (pts s) (urow o) (pts w)
      = .ok (mom (Verif.ufCorrect₂ g pred s o w)) := by
  rw [UMachine.ufCorrect₂, through₂_eq]
  simp only [bind, Except.bind, UMachine.finish, points2moments_none]
  rw [show (mom pred).mean = vx pred.mean from rfl,
    show ∀ y : Moments m, (mom y).mean = vx y.mean from fun _ => rfl, crossCov_eq]
  exact unscentedCorrect_eq _ _ _ _

theorem ufSmooth_eq (filt : Moments n) (s t : SigmaPoints N n) (pred next : Moments n) :
    UMachine.ufSmooth (mom filt) (pts s) (pts t) (mom pred) (mom next)
      = .ok (mom (Verif.ufSmooth filt s t pred next)) := rfl

theorem aukfStep_eq (p : UParams n m) (t : ℕ) (prev : Option (Moments n)) (o : Obs m) :
    UMachine.aukfStep (upar p) t (prev.map mom) (urow o)
      = (Verif.aukfStep p t prev o).map mom := by
  cases prev with
  | none =>
    have e : UMachine.moments2points (⟨(upar p).mu0, (upar p).S0⟩ : exactUMachine.Mom n)
        = (Verif.moments2points ⟨p.mu0, p.S0⟩).map pts :=
      moments2points_eq ⟨p.mu0, p.S0⟩
    simp only [UMachine.aukfStep, Verif.aukfStep, Option.map_none, Option.getD_none]
    rw [e]
    cases Verif.moments2points ⟨p.mu0, p.S0⟩ with
    | error e => rfl
    | ok s =>
      simp only [Except.map, bind, Except.bind]
      rw [show (upar p).g.at t = _ from UMachine.okFns_at _ _ _, points2moments_none]
      cases p.g.at t with
      | error e => rfl
      | ok g => exact ufCorrect_eq g _ s o p.R
  | some x =>
    simp only [UMachine.aukfStep, Verif.aukfStep, Option.map_some, Option.getD_some]
    rw [moments2points_eq]
    cases Verif.moments2points x with
    | error e => rfl
    | ok s =>
      simp only [Except.map, bind, Except.bind]
      rw [show (upar p).f.at (t - 1) = _ from UMachine.okFns_at _ _ _]
      cases p.f.at (t - 1) with
      | error e => rfl
      | ok f =>
        simp only [Except.map, through_eq]
        rw [show (upar p).Q = mx p.Q from rfl, points2moments_some, moments2points_eq]
        cases Verif.moments2points (Verif.points2moments (s.map f) (some p.Q)) with
        | error e => rfl
        | ok s' =>
          simp only [Except.map]
          rw [show (upar p).g.at t = _ from UMachine.okFns_at _ _ _]
          cases p.g.at t with
          | error e => rfl
          | ok g => exact ufCorrect_eq g _ s' o p.R

theorem aukfFilter_eq (p : UParams n m) (os : List (Obs m)) :
    UMachine.aukfFilter (upar p) (os.map urow)
      = (Verif.aukfFilter p os).map (List.map mom) :=
  UMachine.run_runLoop (aukfStep_eq p) os 0 none

theorem aukfSmoothStep_eq (p : UParams n m) (t : ℕ) (x next : Moments n) :
    UMachine.aukfSmoothStep (upar p) t (mom x) (mom next)
      = (Verif.aukfSmoothStep p t x next).map mom := by
  rw [UMachine.aukfSmoothStep, Verif.aukfSmoothStep, moments2points_eq]
  cases Verif.moments2points x with
  | error e => rfl
  | ok s =>
    simp only [Except.map, bind, Except.bind]
    rw [show (upar p).f.at t = _ from UMachine.okFns_at _ _ _]
    cases p.f.at t with
    | error e => rfl
    | ok f =>
      simp only [Except.map, through_eq]
      rw [show (upar p).Q = mx p.Q from rfl, points2moments_some]
      rfl

theorem aukfSmooth_eq (p : UParams n m) (os : List (Obs m)) :
    UMachine.aukfSmooth (upar p) (os.map urow)
      = (Verif.aukfSmooth p os).map (List.map mom) := by
  rw [UMachine.aukfSmooth, Verif.aukfSmooth, aukfFilter_eq]
  cases Verif.aukfFilter p os with
  | error e => rfl
  | ok l => exact UMachine.backFull_comp (aukfSmoothStep_eq p) l

theorem blockDiag_eq {a b : ℕ} (S : Mat a a) (T : Mat b b) :
    UMachine.blockDiag (mx S) (mx T) = mx (blockDiag S T) :=
  UMachine.blockDiag_exact S T

theorem concat_eq {a b : ℕ} (x : Vec a) (y : Vec b) :
    Fin.append (vx x) (vx y) = vx (concat x y) := rfl

theorem augFilterPoints_eq (x : Moments n) (Q : Mat n n) (R : Mat m m) :
    UMachine.augFilterPoints (mom x) (mx Q) (mx R)
      = (Verif.augFilterPoints x Q R).map fun s => (pts s.1, pts s.2.1, pts s.2.2) := by
  have e : UMachine.moments2points
      (⟨Fin.append (Fin.append (vx x.mean) (vx (0 : Vec n))) (vx (0 : Vec m)),
        UMachine.blockDiag (UMachine.blockDiag (mx x.cov) (mx Q)) (mx R)⟩
        : exactUMachine.Mom (n + n + m))
      = (Verif.moments2points ⟨concat (concat x.mean (0 : Vec n)) (0 : Vec m),
          blockDiag (blockDiag x.cov Q) R⟩).map pts := by
    rw [concat_eq, concat_eq, blockDiag_eq, blockDiag_eq]
    exact moments2points_eq ⟨_, _⟩
  unfold UMachine.augFilterPoints Verif.augFilterPoints
  refine (congrArg (fun r => r >>= fun s : exactUMachine.Pts _ (n + n + m) =>
    (Pure.pure (s.left.left, s.left.right, s.right) : Res _)) e).trans ?_
  cases Verif.moments2points ⟨concat (concat x.mean (0 : Vec n)) (0 : Vec m),
          blockDiag (blockDiag x.cov Q) R⟩ <;> rfl

theorem augPoints_eq (x y : Moments n) :
    UMachine.augPoints (mom x) (mom y)
      = (Verif.augPoints x y).map fun s => (pts s.1, pts s.2) := by
  have e : UMachine.moments2points
      (⟨Fin.append (vx x.mean) (vx y.mean),
        UMachine.blockDiag (mx x.cov) (mx y.cov)⟩ : exactUMachine.Mom (n + n))
      = (Verif.moments2points ⟨concat x.mean y.mean, blockDiag x.cov y.cov⟩).map pts := by
    rw [concat_eq, blockDiag_eq]
    exact moments2points_eq ⟨_, _⟩
  unfold UMachine.augPoints Verif.augPoints
  refine (congrArg (fun r => r >>= fun s : exactUMachine.Pts _ (n + n) =>
    (Pure.pure (s.left, s.right) : Res _)) e).trans ?_
  cases Verif.moments2points ⟨concat x.mean y.mean, blockDiag x.cov y.cov⟩ <;> rfl

theorem ukfStep_eq (p : GParams n m) (t : ℕ) (prev : Option (Moments n)) (o : Obs m) :
    UMachine.ukfStep (gpar p) t (prev.map mom) (urow o)
      = (Verif.ukfStep p t prev o).map mom := by
  cases prev with
  | none =>
    have e : UMachine.augFilterPoints (⟨(gpar p).mu0, (gpar p).S0⟩ : exactUMachine.Mom n)
        (gpar p).Q (gpar p).R
        = (Verif.augFilterPoints ⟨p.mu0, p.S0⟩ p.Q p.R).map
            fun s => (pts s.1, pts s.2.1, pts s.2.2) :=
      augFilterPoints_eq ⟨p.mu0, p.S0⟩ p.Q p.R
    simp only [UMachine.ukfStep, Verif.ukfStep, Option.map_none, Option.getD_none]
    rw [e]
    cases Verif.augFilterPoints ⟨p.mu0, p.S0⟩ p.Q p.R with
    | error e => rfl
    | ok s =>
      simp only [Except.map, bind, Except.bind]
      rw [show (gpar p).g.at t = _ from UMachine.okFns_at _ _ _, points2moments_none]
      cases p.g.at t with
      | error e => rfl
      | ok g => exact ufCorrect₂_eq g _ s.1 o s.2.2
  | some x =>
    simp only [UMachine.ukfStep, Verif.ukfStep, Option.map_some, Option.getD_some]
    rw [show (gpar p).Q = mx p.Q from rfl,
      show (gpar p).R = mx p.R from rfl, augFilterPoints_eq]
    cases Verif.augFilterPoints x p.Q p.R with
    | error e => rfl
    | ok s =>
      simp only [Except.map, bind, Except.bind]
      rw [show (gpar p).f.at (t - 1) = _ from UMachine.okFns_at _ _ _]
      cases p.f.at (t - 1) with
      | error e => rfl
      | ok f =>
        simp only [Except.map, through₂_eq]
        rw [points2moments_none]
        rw [show (gpar p).g.at t = _ from UMachine.okFns_at _ _ _]
        cases p.g.at t with
        | error e => rfl
        | ok g => exact ufCorrect₂_eq g _ (s.1.map₂ s.2.1 f) o s.2.2

theorem ukfFilter_eq (p : GParams n m) (os : List (Obs m)) :
    UMachine.ukfFilter (gpar p) (os.map urow)
      = (Verif.ukfFilter p os).map (List.map mom) :=
  UMachine.run_runLoop (ukfStep_eq p) os 0 none

theorem ukfSmoothStep_eq (p : GParams n m) (t : ℕ) (x next : Moments n) :
    UMachine.ukfSmoothStep (gpar p) t (mom x) (mom next)
      = (Verif.ukfSmoothStep p t x next).map mom := by
  have e : UMachine.augPoints (mom x) (⟨fun _ => (0 : ℝ), (gpar p).Q⟩ : exactUMachine.Mom n)
      = (Verif.augPoints x ⟨0, p.Q⟩).map fun s => (pts s.1, pts s.2) :=
    augPoints_eq x ⟨0, p.Q⟩
  rw [UMachine.ukfSmoothStep, Verif.ukfSmoothStep]
  refine (congrArg (· >>= _) e).trans ?_
  cases Verif.augPoints x ⟨0, p.Q⟩ with
  | error e => rfl
  | ok s =>
    simp only [Except.map, bind, Except.bind]
    rw [show (gpar p).f.at t = _ from UMachine.okFns_at _ _ _]
    cases p.f.at t with
    | error e => rfl
    | ok f =>
      simp only [Except.map, through₂_eq]
      rw [points2moments_none]
      rfl

theorem ukfSmooth_eq (p : GParams n m) (os : List (Obs m)) :
    UMachine.ukfSmooth (gpar p) (os.map urow)
      = (Verif.ukfSmooth p os).map (List.map mom) := by
  rw [UMachine.ukfSmooth, Verif.ukfSmooth, ukfFilter_eq]
  cases Verif.ukfFilter p os with
  | error e => rfl
  | ok l => exact UMachine.backFull_comp (ukfSmoothStep_eq p) l

/-- Arguments of `filter_update` as arguments on the machine. -/
def uargs (a : UUpdateArgs n m) : exactUMachine.UArgs n m :=
  ⟨a.f.map fx, a.Q.map mx, a.g.map fx, a.R.map mx⟩

/-- The same for `UnscentedKalmanFilter`. -/
def gargs (a : GUpdateArgs n m) : exactUMachine.GArgs n m :=
  ⟨a.f.map fx₂, a.Q.map mx, a.g.map fx₂, a.R.map mx⟩

theorem getD_mx (a : Option (Mat k k)) (X : Mat k k) : (a.map mx).getD (mx X) = mx (a.getD X) := by
  cases a <;> rfl

theorem observed_eq (o : Option (Obs m)) :
    UMachine.observed (o.map urow) = urow (match o with | none => ⟨0, fun _ => true⟩ | some o => o) := by
  cases o <;> rfl

theorem aukfUpdate_eq (p : UParams n m) (x : Moments n) (o : Option (Obs m))
    (a : UUpdateArgs n m) :
    UMachine.aukfUpdate (upar p) (mom x) (o.map urow) (uargs a) = (Verif.aukfUpdate p x o a).map mom := by
  unfold UMachine.aukfUpdate Verif.aukfUpdate
  rw [show defaultFunction (uargs a).f (upar p).f = _ from UMachine.okFns_default fx a.f p.f,
    show defaultFunction (uargs a).g (upar p).g = _ from UMachine.okFns_default fx a.g p.g,
    show (uargs a).Q.getD (upar p).Q = mx (a.Q.getD p.Q) from getD_mx _ _,
    show (uargs a).R.getD (upar p).R = mx (a.R.getD p.R) from getD_mx _ _, observed_eq]
  cases defaultFunction a.f p.f with
  | error e => rfl
  | ok f =>
    cases defaultFunction a.g p.g with
    | error e => rfl
    | ok g =>
      simp only [Except.map, bind, Except.bind]
      rw [moments2points_eq]
      cases Verif.moments2points x with
      | error e => rfl
      | ok s =>
        simp only [Except.map, through_eq]
        rw [points2moments_some, moments2points_eq]
        cases Verif.moments2points (Verif.points2moments (s.map f) (some (a.Q.getD p.Q))) with
        | error e => rfl
        | ok s' => exact ufCorrect_eq g _ s' _ _

theorem ukfUpdate_eq (p : GParams n m) (x : Moments n) (o : Option (Obs m))
    (a : GUpdateArgs n m) :
    UMachine.ukfUpdate (gpar p) (mom x) (o.map urow) (gargs a) = (Verif.ukfUpdate p x o a).map mom := by
  unfold UMachine.ukfUpdate Verif.ukfUpdate
  rw [show defaultFunction (gargs a).f (gpar p).f = _ from UMachine.okFns_default fx₂ a.f p.f,
    show defaultFunction (gargs a).g (gpar p).g = _ from UMachine.okFns_default fx₂ a.g p.g,
    show (gargs a).Q.getD (gpar p).Q = mx (a.Q.getD p.Q) from getD_mx _ _,
    show (gargs a).R.getD (gpar p).R = mx (a.R.getD p.R) from getD_mx _ _, observed_eq]
  cases defaultFunction a.f p.f with
  | error e => rfl
  | ok f =>
    cases defaultFunction a.g p.g with
    | error e => rfl
    | ok g =>
      simp only [Except.map, bind, Except.bind]
      rw [augFilterPoints_eq]
      cases Verif.augFilterPoints x (a.Q.getD p.Q) (a.R.getD p.R) with
      | error e => rfl
      | ok s =>
        simp only [Except.map, through₂_eq]
        rw [points2moments_none]
        exact ufCorrect₂_eq g _ (s.1.map₂ s.2.1 f) _ s.2.2

end ExactU

end Verif
