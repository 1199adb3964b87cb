import Verif.Proofs.MachineExact

/-!
# Arithmetic with rounding errors as a machine
-/

open Matrix

namespace Verif

variable {n m : ℕ} {c : ℕ → ℝ} {u : ℝ}

/-- Arithmetic with rounding errors (`Model/Rounded`, `Model/RoundedLoglik`, `Model/RoundedEm`). -/
noncomputable abbrev roundedMachine (ar : ArithEL c u) : Machine where
  F := ℝ
  zero := 0
  one := 1.0
  count k := k
  add := ar.add
  sub := ar.sub
  mul := ar.mulr
  div := ar.divr
  dotV k l M x := ar.mulV (M : Mat k l) x
  dotM k l r M N := @Arith.mul k l c u r ar.toArith M N
  pinv k M := .ok (ar.pinv k M)
  logpdf k x mu S := flLogMvn ar.toArithL x mu (S : Mat k k)
  sum l := ar.sum l.length fun i => l[i]

namespace Rounded

/-- The parameters as parameters of the machine. -/
def par (ar : ArithEL c u) (p : Params n m) : (roundedMachine ar).Par n m := ⟨p.A, p.b, p.Q, p.C, p.d, p.R, p.mu0, p.S0⟩

/-- An observation as an observation of the machine. -/
def row (ar : ArithEL c u) (o : Obs m) : (roundedMachine ar).Row m := ⟨o.val, o.mask⟩

/-- A row of `_filter`. -/
def st (ar : ArithEL c u) (s : Step n m) : (roundedMachine ar).St n m := ⟨s.predMean, s.predCov, s.gain, s.filtMean, s.filtCov⟩

/-- A row of `_smooth`. -/
def sst (ar : ArithEL c u) (s : SStep n) : (roundedMachine ar).SSt n := ⟨s.mean, s.cov, s.gain⟩

/-- A row of the statistics. -/
def stats (ar : ArithEL c u) (s : EmStats n) : (roundedMachine ar).Stats n := ⟨s.mean, s.cov, s.pair⟩

theorem correct_eq (ar : ArithEL c u) (C : Mat m n) (R : Mat m m) (d : Vec m) (mean : Vec n) (cov : Mat n n)
    (o : Obs m) :
    (roundedMachine ar).correct C R d mean cov (row ar o) = .ok (flCorrect ar.toArith C R d mean cov o) := by
  by_cases h : o.missing
  · have h' : (row ar o).missing := h
    simp only [Machine.correct, flCorrect, h, h', not_true_eq_false, if_false]
    rfl
  · have h' : ¬ (row ar o).missing := h
    simp only [Machine.correct, flCorrect, h, h', not_false_eq_true, if_true]
    rfl

theorem step_eq (ar : ArithEL c u) (p : Params n m) (t : ℕ) (prev : Option (Step n m)) (o : Obs m) :
    (roundedMachine ar).step (par ar p) t (prev.map (st ar)) (row ar o) = (flStep ar.toArith p t prev o).map (st ar) := by
  have key : ∀ x : Vec n × Mat n n,
      (do
        let C ← lastDims p.C t
        let R ← lastDims p.R t
        let d ← lastDims p.d t
        let c ← (roundedMachine ar).correct C R d x.1 x.2 (row ar o)
        (pure ⟨x.1, x.2, c.1, c.2.1, c.2.2⟩ : Res ((roundedMachine ar).St n m)))
      = (do
        let C ← lastDims p.C t
        let R ← lastDims p.R t
        let d ← lastDims p.d t
        let c := flCorrect ar.toArith C R d x.1 x.2 o
        (pure ⟨x.1, x.2, c.1, c.2.1, c.2.2⟩ : Res (Step n m))).map (st ar) := by
    intro x
    refine bind_map fun C => bind_map fun R => bind_map fun d => ?_
    rw [correct_eq ar]
    rfl
  cases prev with
  | none => exact key (p.mu0, p.S0)
  | some s =>
    simp only [Machine.step, flStep, Option.map_some, par]
    refine bind_map fun A => bind_map fun Q => bind_map fun b => ?_
    exact key (flPredict ar.toArith A Q b s.filtMean s.filtCov)

theorem loop_eq (ar : ArithEL c u) (p : Params n m) (os : List (Obs m)) (t : ℕ) (prev : Option (Step n m)) :
    (roundedMachine ar).loop (par ar p) t (prev.map (st ar)) (os.map (row ar))
      = (flLoop ar.toArith p t prev os).map (List.map (st ar)) := by
  induction os generalizing t prev with
  | nil => rfl
  | cons o os ih =>
    simp only [List.map_cons, Machine.loop, flLoop, step_eq ar]
    cases flStep ar.toArith p t prev o with
    | error e => rfl
    | ok s =>
      simp only [Except.map, Bind.bind, Except.bind]
      have := ih (t + 1) (some s)
      rw [Option.map_some] at this
      rw [this]
      cases flLoop ar.toArith p (t + 1) (some s) os <;> rfl

theorem full_eq (ar : ArithEL c u) (p : Params n m) (os : List (Obs m)) :
    (roundedMachine ar).full (par ar p) (os.map (row ar)) = (flFull ar.toArith p os).map (List.map (st ar)) :=
  loop_eq ar p os 0 none

theorem filter_eq (ar : ArithEL c u) (p : Params n m) (os : List (Obs m)) :
    (roundedMachine ar).filter (par ar p) (os.map (row ar)) = flFilter ar.toArith p os := by
  rw [Machine.filter, flFilter, full_eq ar]
  cases flFull ar.toArith p os with
  | error e => rfl
  | ok l =>
    simp only [Except.map, Bind.bind, Except.bind, Pure.pure, Except.pure, List.map_map]
    rfl

theorem smoothLoop_eq (ar : ArithEL c u) (A : TV (Mat n n)) (rest : List (Step n m)) (t : ℕ) (s : Step n m) :
    (roundedMachine ar).smoothLoop A t (st ar s) (rest.map (st ar))
      = (flSmoothLoop ar.toArith A t s rest).map fun r => (sst ar r.1, r.2.map (sst ar)) := by
  induction rest generalizing t s with
  | nil => rfl
  | cons a rest ih =>
    simp only [List.map_cons, Machine.smoothLoop, flSmoothLoop, ih (t + 1) a]
    cases flSmoothLoop ar.toArith A (t + 1) a rest with
    | error e => rfl
    | ok r =>
      exact bind_map (x := lastDims A t)
        (f := fun At => (roundedMachine ar).smoothUpdate At s.filtMean s.filtCov a.predMean a.predCov
          r.1.mean r.1.cov >>= fun w => pure (w, sst ar r.1 :: r.2.map (sst ar)))
        (g := fun At => pure (flSmoothUpdate ar.toArith At s.filtMean s.filtCov a.predMean a.predCov r.1.mean
          r.1.cov, r.1 :: r.2)) fun At => rfl

theorem smoothFull_eq (ar : ArithEL c u) (A : TV (Mat n n)) (l : List (Step n m)) :
    (roundedMachine ar).smoothFull A (l.map (st ar)) = (flSmoothFull ar.toArith A l).map (List.map (sst ar)) := by
  cases l with
  | nil => rfl
  | cons s l =>
    simp only [List.map_cons, Machine.smoothFull, flSmoothFull, smoothLoop_eq ar]
    cases flSmoothLoop ar.toArith A 0 s l <;> rfl

theorem smooth_eq (ar : ArithEL c u) (p : Params n m) (os : List (Obs m)) :
    (roundedMachine ar).smooth (par ar p) (os.map (row ar)) = flSmooth ar.toArith p os := by
  rw [Machine.smooth, flSmooth, full_eq ar]
  cases flFull ar.toArith p os with
  | error e => rfl
  | ok l =>
    simp only [Except.map, Bind.bind, Except.bind, Pure.pure, Except.pure]
    rw [show (par ar p).A = p.A from rfl, smoothFull_eq ar]
    cases flSmoothFull ar.toArith p.A l with
    | error e => rfl
    | ok sm =>
      simp only [Except.map, List.map_map]
      rfl

theorem loglikLoop_eq (ar : ArithEL c u) (p : Params n m) (ss : List (Step n m)) (os : List (Obs m)) (t : ℕ) :
    (roundedMachine ar).loglikLoop (par ar p) t (ss.map (st ar)) (os.map (row ar)) = flLoglikLoop ar.toArithL p t ss os := by
  induction os generalizing t ss with
  | nil => cases ss <;> rfl
  | cons o os ih =>
    cases ss with
    | nil => rfl
    | cons s ss =>
      simp only [List.map_cons, Machine.loglikLoop, flLoglikLoop, ih]
      congr 1
      by_cases h : o.missing
      · have h' : (row ar o).missing := h
        simp only [Machine.loglikStep, flLoglikStep, h, h', not_true_eq_false, if_false]
      · have h' : ¬ (row ar o).missing := h
        simp only [Machine.loglikStep, flLoglikStep, h, h', not_false_eq_true, if_true]
        refine bind_eq_bind fun C => bind_eq_bind fun d => ?_
        simp only [par]
        cases p.R <;> rfl

theorem loglik_eq (ar : ArithEL c u) (p : Params n m) (os : List (Obs m)) :
    (roundedMachine ar).loglik (par ar p) (os.map (row ar)) = flLoglik ar.toArithL p os := by
  rw [Machine.loglik, flLoglik, full_eq ar]
  cases flFull ar.toArith p os with
  | error e => rfl
  | ok l =>
    simp only [Except.map, Bind.bind, Except.bind, loglikLoop_eq ar]

/-! ### em -/

theorem pairAux_eq (ar : ArithEL c u) (s : SStep n) (l : List (SStep n)) :
    (roundedMachine ar).pairAux (sst ar s) (l.map (sst ar)) = flSmoothPairAux ar.toArith s l := by
  induction l generalizing s with
  | nil => rfl
  | cons a l ih => simp only [List.map_cons, Machine.pairAux, flSmoothPairAux, ih]; rfl

theorem pair_eq (ar : ArithEL c u) (l : List (SStep n)) : (roundedMachine ar).pair (l.map (sst ar)) = flSmoothPair ar.toArith l := by
  cases l with
  | nil => rfl
  | cons s l => simp only [List.map_cons, Machine.pair, flSmoothPair, pairAux_eq ar]; rfl

theorem stats_eq (ar : ArithEL c u) (p : Params n m) (os : List (Obs m)) :
    (roundedMachine ar).stats (par ar p) (os.map (row ar)) = (flEmStats ar.toArith p os).map (List.map (stats ar)) := by
  rw [Machine.stats, flEmStats, full_eq ar]
  cases flFull ar.toArith p os with
  | error e => rfl
  | ok l =>
    simp only [Except.map, Bind.bind, Except.bind, Pure.pure, Except.pure]
    rw [show (par ar p).A = p.A from rfl, smoothFull_eq ar]
    cases flSmoothFull ar.toArith p.A l with
    | error e => rfl
    | ok sm =>
      simp only [Except.map, pair_eq ar]
      congr 1
      generalize flSmoothPair ar.toArith sm = ps
      induction sm generalizing ps with
      | nil => rfl
      | cons a sm ih =>
        cases ps with
        | nil => rfl
        | cons q ps => exact congrArg (stats ar ⟨a.mean, a.cov, q⟩ :: ·) (ih ps)

theorem obsMatLoop_eq (ar : ArithEL c u) (d : TV (Vec m)) (ss : List (EmStats n)) (os : List (Obs m)) (t : ℕ)
    (r1 : Mat m n) (r2 : Mat n n) :
    (roundedMachine ar).obsMatLoop d t (ss.map (stats ar)) (os.map (row ar)) r1 r2 = flObsMatLoop ar.toArithE d t ss os r1 r2 := by
  induction os generalizing t ss r1 r2 with
  | nil => cases ss <;> rfl
  | cons o os ih =>
    cases ss with
    | nil => rfl
    | cons s ss =>
      simp only [List.map_cons, Machine.obsMatLoop, flObsMatLoop]
      by_cases h : o.missing
      · have h' : (row ar o).missing := h
        rw [if_neg (not_not.mpr h), if_neg (not_not.mpr h')]
        exact ih _ _ _ _
      · have h' : ¬ (row ar o).missing := h
        rw [if_pos h, if_pos h']
        exact bind_eq_bind fun dt => ih _ _ _ _

theorem obsMat_eq (ar : ArithEL c u) (d : TV (Vec m)) (ss : List (EmStats n)) (os : List (Obs m)) :
    (roundedMachine ar).obsMat d (ss.map (stats ar)) (os.map (row ar)) = flObsMat ar.toArithE d ss os := by
  simp only [Machine.obsMat, flObsMat]
  exact congrArg (· >>= _) (obsMatLoop_eq ar d ss os 0 0 0)

theorem obsCovLoop_eq (ar : ArithEL c u) (C : TV (Mat m n)) (d : TV (Vec m)) (ss : List (EmStats n))
    (os : List (Obs m)) (t : ℕ) (r : Mat m m) (k : ℕ) :
    (roundedMachine ar).obsCovLoop C d t (ss.map (stats ar)) (os.map (row ar)) r k = flObsCovLoop ar.toArithE C d t ss os r k := by
  induction os generalizing t ss r k with
  | nil => cases ss <;> rfl
  | cons o os ih =>
    cases ss with
    | nil => rfl
    | cons s ss =>
      simp only [List.map_cons, Machine.obsCovLoop, flObsCovLoop]
      by_cases h : o.missing
      · have h' : (row ar o).missing := h
        rw [if_neg (not_not.mpr h), if_neg (not_not.mpr h')]
        exact ih _ _ _ _
      · have h' : ¬ (row ar o).missing := h
        rw [if_pos h, if_pos h']
        exact bind_eq_bind fun Ct => bind_eq_bind fun dt => ih _ _ _ _

theorem obsCov_eq (ar : ArithEL c u) (C : TV (Mat m n)) (d : TV (Vec m)) (ss : List (EmStats n)) (os : List (Obs m)) :
    (roundedMachine ar).obsCov C d (ss.map (stats ar)) (os.map (row ar)) = flObsCov ar.toArithE C d ss os := by
  simp only [Machine.obsCov, flObsCov]
  exact congrArg (· >>= _) (obsCovLoop_eq ar C d ss os 0 0 0)

theorem transMatLoop_eq (ar : ArithEL c u) (b : TV (Vec n)) (ss : List (EmStats n)) (s : EmStats n) (t : ℕ)
    (r1 r2 : Mat n n) :
    (roundedMachine ar).transMatLoop b t (stats ar s) (ss.map (stats ar)) r1 r2 = flTransMatLoop ar.toArithE b t s ss r1 r2 := by
  induction ss generalizing t s r1 r2 with
  | nil => rfl
  | cons a ss ih =>
    simp only [List.map_cons, Machine.transMatLoop, flTransMatLoop]
    exact bind_eq_bind fun bt => ih _ _ _ _

theorem transMat_eq (ar : ArithEL c u) (b : TV (Vec n)) (ss : List (EmStats n)) :
    (roundedMachine ar).transMat b (ss.map (stats ar)) = flTransMat ar.toArithE b ss := by
  cases ss with
  | nil => rfl
  | cons s ss =>
    simp only [List.map_cons, Machine.transMat, flTransMat]
    exact congrArg (· >>= _) (transMatLoop_eq ar b ss s 1 0 0)

theorem transCovLoop_eq (ar : ArithEL c u) (A : TV (Mat n n)) (b : TV (Vec n)) (ss : List (EmStats n))
    (s : EmStats n) (t : ℕ) (r : Mat n n) :
    (roundedMachine ar).transCovLoop A b t (stats ar s) (ss.map (stats ar)) r = flTransCovLoop ar.toArithE A b t s ss r := by
  induction ss generalizing t s r with
  | nil => rfl
  | cons a ss ih =>
    simp only [List.map_cons, Machine.transCovLoop, flTransCovLoop]
    exact bind_eq_bind fun At => bind_eq_bind fun bt => ih _ _ _

theorem transCov_eq (ar : ArithEL c u) (A : TV (Mat n n)) (b : TV (Vec n)) (ss : List (EmStats n)) :
    (roundedMachine ar).transCov A b (ss.map (stats ar)) = flTransCov ar.toArithE A b ss := by
  cases ss with
  | nil => rfl
  | cons s ss =>
    simp only [List.map_cons, Machine.transCov, flTransCov, List.length_cons, List.length_map,
      Nat.add_sub_cancel, Nat.cast_add, Nat.cast_one, add_sub_cancel_right]
    exact congrArg (· >>= _) (transCovLoop_eq ar A b ss s 0 0)

theorem initMean_eq (ar : ArithEL c u) (ss : List (EmStats n)) :
    (roundedMachine ar).initMean (ss.map (stats ar)) = emInitMean ss := by
  cases ss <;> rfl

theorem initCov_eq (ar : ArithEL c u) (mu : Vec n) (ss : List (EmStats n)) :
    (roundedMachine ar).initCov mu (ss.map (stats ar)) = flInitCov ar.toArithE mu ss := by
  cases ss <;> rfl

theorem transOffLoop_eq (ar : ArithEL c u) (A : TV (Mat n n)) (ss : List (EmStats n)) (s : EmStats n) (t : ℕ)
    (r : Vec n) :
    (roundedMachine ar).transOffLoop A t (stats ar s) (ss.map (stats ar)) r = flTransOffLoop ar.toArithE A t s ss r := by
  induction ss generalizing t s r with
  | nil => rfl
  | cons a ss ih =>
    simp only [List.map_cons, Machine.transOffLoop, flTransOffLoop]
    exact bind_eq_bind fun At => ih _ _ _

theorem transOff_eq (ar : ArithEL c u) (A : TV (Mat n n)) (ss : List (EmStats n)) :
    (roundedMachine ar).transOff A (ss.map (stats ar)) = flTransOff ar.toArithE A ss := by
  cases ss with
  | nil => rfl
  | cons s ss =>
    simp only [List.map_cons, Machine.transOff, flTransOff, List.length_cons, List.length_map,
      Nat.add_sub_cancel, Nat.cast_add, Nat.cast_one, add_sub_cancel_right]
    exact congrArg (· >>= _) (transOffLoop_eq ar A ss s 1 0)

theorem obsOffLoop_eq (ar : ArithEL c u) (C : TV (Mat m n)) (ss : List (EmStats n)) (os : List (Obs m)) (t : ℕ)
    (r : Vec m) (k : ℕ) :
    (roundedMachine ar).obsOffLoop C t (ss.map (stats ar)) (os.map (row ar)) r k = flObsOffLoop ar.toArithE C t ss os r k := by
  induction os generalizing t ss r k with
  | nil => cases ss <;> rfl
  | cons o os ih =>
    cases ss with
    | nil => rfl
    | cons s ss =>
      simp only [List.map_cons, Machine.obsOffLoop, flObsOffLoop]
      by_cases h : o.missing
      · have h' : (row ar o).missing := h
        rw [if_neg (not_not.mpr h), if_neg (not_not.mpr h')]
        exact ih _ _ _ _
      · have h' : ¬ (row ar o).missing := h
        rw [if_pos h, if_pos h']
        exact bind_eq_bind fun Ct => ih _ _ _ _

theorem obsOff_eq (ar : ArithEL c u) (C : TV (Mat m n)) (ss : List (EmStats n)) (os : List (Obs m)) :
    (roundedMachine ar).obsOff C (ss.map (stats ar)) (os.map (row ar)) = flObsOff ar.toArithE C ss os := by
  simp only [Machine.obsOff, flObsOff]
  exact congrArg (· >>= _) (obsOffLoop_eq ar C ss os 0 0 0)

theorem emStep_eq (ar : ArithEL c u) (g old : Params n m) (vars : EmVar → Bool) (ss : List (EmStats n))
    (os : List (Obs m)) :
    (roundedMachine ar).emStep (par ar g) vars (par ar old) (ss.map (stats ar)) (os.map (row ar))
      = (flEmStep ar.toArithE g vars old ss os).map (par ar) := by
  simp only [Machine.emStep, flEmStep, par]
  refine bind_map' (congrArg (fun e => emPick _ (emConst e) _) (obsMat_eq ar old.d ss os)) fun C => ?_
  refine bind_map' (congrArg (fun e => emPick _ (emConst e) _) (obsCov_eq ar C old.d ss os)) fun R => ?_
  refine bind_map' (congrArg (fun e => emPick _ (emConst e) _) (transMat_eq ar old.b ss)) fun A => ?_
  refine bind_map' (congrArg (fun e => emPick _ (emConst e) _) (transCov_eq ar A old.b ss)) fun Q => ?_
  refine bind_map' (congrArg (fun e => emPick _ e _) (initMean_eq ar ss)) fun mu => ?_
  refine bind_map' (congrArg (fun e => emPick _ e _) (initCov_eq ar mu ss)) fun S => ?_
  refine bind_map' (congrArg (fun e => emPick _ (emConst e) _) (transOff_eq ar A ss)) fun b => ?_
  exact bind_map' (congrArg (fun e => emPick _ (emConst e) _) (obsOff_eq ar C ss os)) fun d => rfl

theorem em_eq (ar : ArithEL c u) (p : Params n m) (os : List (Obs m)) (k : ℕ) (vars : EmVar → Bool) :
    (roundedMachine ar).em (par ar p) (os.map (row ar)) k vars = (flEm ar.toArithE p os k vars).map (par ar) := by
  have : ∀ q, (roundedMachine ar).emLoop (par ar p) vars (os.map (row ar)) k (par ar q)
      = (flEmLoop ar.toArithE p vars os k q).map (par ar) := by
    induction k with
    | zero => exact fun q => rfl
    | succ k ih =>
      intro q
      simp only [Machine.emLoop, flEmLoop, stats_eq ar]
      cases flEmStats ar.toArith q os with
      | error e => rfl
      | ok ss =>
        simp only [Except.map, Bind.bind, Except.bind]
        rw [emStep_eq ar]
        cases flEmStep ar.toArithE p vars q ss os with
        | error e => rfl
        | ok q' => exact ih q'
  exact this p

end Rounded

end Verif
