import Verif.Proofs.Machine
import Verif.Model.RoundedEm

/-!
# Exact arithmetic and arithmetic with rounding errors as machines
-/

open Matrix

namespace Verif

variable {n m : ℕ}

theorem bind_map {α β γ : Type} {φ : γ → β} {x : Res α} {f : α → Res β} {g : α → Res γ}
    (h : ∀ a, f a = (g a).map φ) : x >>= f = (x >>= g).map φ := by
  cases x with
  | error e => rfl
  | ok a => exact h a

theorem bind_map' {α β γ : Type} {φ : γ → β} {x x' : Res α} {f : α → Res β} {g : α → Res γ}
    (hx : x = x') (h : ∀ a, f a = (g a).map φ) : x >>= f = (x' >>= g).map φ := by
  subst hx
  exact bind_map h

theorem bind_eq_bind {α β : Type} {x : Res α} {f g : α → Res β} (h : ∀ a, f a = g a) :
    x >>= f = x >>= g := by
  cases x with
  | error e => rfl
  | ok a => exact h a

/-- Exact real arithmetic. -/
noncomputable abbrev exactMachine : Machine where
  F := ℝ
  zero := 0
  one := 1.0
  count k := k
  add x y := x + y
  sub x y := x - y
  mul x y := x * y
  div x y := x / y
  dotV k l M x := (M : Mat k l) *ᵥ x
  dotM k l r M N := @HMul.hMul (Mat k l) (Mat l r) (Mat k r) _ M N
  pinv k M := .ok (pinv (M : Mat k k))
  logpdf k x mu S := logMvn x mu (S : Mat k k)
  sum l := l.sum

namespace Exact

/-- The parameters as parameters of the machine. -/
def par (p : Params n m) : exactMachine.Par n m := ⟨p.A, p.b, p.Q, p.C, p.d, p.R, p.mu0, p.S0⟩

/-- An observation as an observation of the machine. -/
def row (o : Obs m) : exactMachine.Row m := ⟨o.val, o.mask⟩

/-- A row of `_filter`. -/
def st (s : Step n m) : exactMachine.St n m := ⟨s.predMean, s.predCov, s.gain, s.filtMean, s.filtCov⟩

/-- A row of `_smooth`. -/
def sst (s : SStep n) : exactMachine.SSt n := ⟨s.mean, s.cov, s.gain⟩

/-- A row of the statistics. -/
def stats (s : EmStats n) : exactMachine.Stats n := ⟨s.mean, s.cov, s.pair⟩

/-- The arguments of `filter_update`. -/
def args (a : UpdateArgs n m) : exactMachine.Args n m := ⟨a.A, a.b, a.Q, a.C, a.d, a.R⟩

theorem correct_eq (C : Mat m n) (R : Mat m m) (d : Vec m) (mean : Vec n) (cov : Mat n n)
    (o : Obs m) :
    exactMachine.correct C R d mean cov (row o) = .ok (filterCorrect C R d mean cov o) := by
  by_cases h : o.missing
  · have h' : (row o).missing := h
    simp only [Machine.correct, filterCorrect, h, h', not_true_eq_false, if_false]
    rfl
  · have h' : ¬ (row o).missing := h
    simp only [Machine.correct, filterCorrect, h, h', not_false_eq_true, if_true]
    rfl

theorem step_eq (p : Params n m) (t : ℕ) (prev : Option (Step n m)) (o : Obs m) :
    exactMachine.step (par p) t (prev.map st) (row o) = (filterStep p t prev o).map st := by
  have key : ∀ x : Vec n × Mat n n,
      (do
        let C ← lastDims p.C t
        let R ← lastDims p.R t
        let d ← lastDims p.d t
        let c ← exactMachine.correct C R d x.1 x.2 (row o)
        (pure ⟨x.1, x.2, c.1, c.2.1, c.2.2⟩ : Res (exactMachine.St n m)))
      = (do
        let C ← lastDims p.C t
        let R ← lastDims p.R t
        let d ← lastDims p.d t
        let c := filterCorrect C R d x.1 x.2 o
        (pure ⟨x.1, x.2, c.1, c.2.1, c.2.2⟩ : Res (Step n m))).map st := by
    intro x
    refine bind_map fun C => bind_map fun R => bind_map fun d => ?_
    rw [correct_eq]
    rfl
  cases prev with
  | none => exact key (p.mu0, p.S0)
  | some s =>
    simp only [Machine.step, filterStep, Option.map_some, par]
    refine bind_map fun A => bind_map fun Q => bind_map fun b => ?_
    exact key (filterPredict A Q b s.filtMean s.filtCov)

theorem loop_eq (p : Params n m) (os : List (Obs m)) (t : ℕ) (prev : Option (Step n m)) :
    exactMachine.loop (par p) t (prev.map st) (os.map row)
      = (filterLoop p t prev os).map (List.map st) := by
  induction os generalizing t prev with
  | nil => rfl
  | cons o os ih =>
    simp only [List.map_cons, Machine.loop, filterLoop, step_eq]
    cases filterStep p t prev o with
    | error e => rfl
    | ok s =>
      simp only [Except.map, Bind.bind, Except.bind]
      have := ih (t + 1) (some s)
      rw [Option.map_some] at this
      rw [this]
      cases filterLoop p (t + 1) (some s) os <;> rfl

theorem full_eq (p : Params n m) (os : List (Obs m)) :
    exactMachine.full (par p) (os.map row) = (filterFull p os).map (List.map st) :=
  loop_eq p os 0 none

theorem filter_eq (p : Params n m) (os : List (Obs m)) :
    exactMachine.filter (par p) (os.map row) = kfFilter p os := by
  rw [Machine.filter, kfFilter, full_eq]
  cases filterFull p os with
  | error e => rfl
  | ok l =>
    simp only [Except.map, Bind.bind, Except.bind, Pure.pure, Except.pure, List.map_map]
    rfl

theorem smoothLoop_eq (A : TV (Mat n n)) (rest : List (Step n m)) (t : ℕ) (s : Step n m) :
    exactMachine.smoothLoop A t (st s) (rest.map st)
      = (smoothLoop A t s rest).map fun r => (sst r.1, r.2.map sst) := by
  induction rest generalizing t s with
  | nil => rfl
  | cons a rest ih =>
    simp only [List.map_cons, Machine.smoothLoop, smoothLoop, ih (t + 1) a]
    cases smoothLoop A (t + 1) a rest with
    | error e => rfl
    | ok r =>
      exact bind_map (x := lastDims A t)
        (f := fun At => exactMachine.smoothUpdate At s.filtMean s.filtCov a.predMean a.predCov
          r.1.mean r.1.cov >>= fun w => pure (w, sst r.1 :: r.2.map sst))
        (g := fun At => pure (smoothUpdate At s.filtMean s.filtCov a.predMean a.predCov r.1.mean
          r.1.cov, r.1 :: r.2)) fun At => rfl

theorem smoothFull_eq (A : TV (Mat n n)) (l : List (Step n m)) :
    exactMachine.smoothFull A (l.map st) = (smoothFull A l).map (List.map sst) := by
  cases l with
  | nil => rfl
  | cons s l =>
    simp only [List.map_cons, Machine.smoothFull, smoothFull, smoothLoop_eq]
    cases smoothLoop A 0 s l <;> rfl

theorem smooth_eq (p : Params n m) (os : List (Obs m)) :
    exactMachine.smooth (par p) (os.map row) = kfSmooth p os := by
  rw [Machine.smooth, kfSmooth, full_eq]
  cases filterFull p os with
  | error e => rfl
  | ok l =>
    simp only [Except.map, Bind.bind, Except.bind, Pure.pure, Except.pure]
    rw [show (par p).A = p.A from rfl, smoothFull_eq]
    cases smoothFull p.A l with
    | error e => rfl
    | ok sm =>
      simp only [Except.map, List.map_map]
      rfl

theorem loglikLoop_eq (p : Params n m) (ss : List (Step n m)) (os : List (Obs m)) (t : ℕ) :
    exactMachine.loglikLoop (par p) t (ss.map st) (os.map row) = loglikLoop p t ss os := by
  induction os generalizing t ss with
  | nil => cases ss <;> rfl
  | cons o os ih =>
    cases ss with
    | nil => rfl
    | cons s ss =>
      simp only [List.map_cons, Machine.loglikLoop, loglikLoop, ih]
      congr 1
      by_cases h : o.missing
      · have h' : (row o).missing := h
        simp only [Machine.loglikStep, loglikStep, h, h', not_true_eq_false, if_false]
      · have h' : ¬ (row o).missing := h
        simp only [Machine.loglikStep, loglikStep, h, h', not_false_eq_true, if_true]
        refine bind_eq_bind fun C => bind_eq_bind fun d => ?_
        simp only [par]
        cases p.R <;> rfl

theorem loglik_eq (p : Params n m) (os : List (Obs m)) :
    exactMachine.loglik (par p) (os.map row) = kfLoglik p os := by
  rw [Machine.loglik, kfLoglik, full_eq]
  cases filterFull p os with
  | error e => rfl
  | ok l =>
    simp only [Except.map, Bind.bind, Except.bind, loglikLoop_eq]

theorem update_eq (p : Params n m) (mean : Vec n) (cov : Mat n n) (o : Option (Obs m))
    (a : UpdateArgs n m) :
    exactMachine.update (par p) mean cov (o.map row) (args a) = filterUpdate p mean cov o a := by
  have key : ∀ (A Q : Mat n n) (b : Vec n) (C : Mat m n) (R : Mat m m) (d : Vec m) (o' : Obs m),
      (exactMachine.correct C R d (filterPredict A Q b mean cov).1
        (filterPredict A Q b mean cov).2 (row o') >>= fun c =>
          (pure (c.2.1, c.2.2) : Res (Vec n × Mat n n)))
      = pure ((filterCorrect C R d (filterPredict A Q b mean cov).1
        (filterPredict A Q b mean cov).2 o').2.1, (filterCorrect C R d (filterPredict A Q b mean cov).1
        (filterPredict A Q b mean cov).2 o').2.2) := by
    intro A Q b C R d o'
    rw [correct_eq]
    rfl
  simp only [Machine.update, filterUpdate, par, args]
  refine bind_eq_bind fun b => bind_eq_bind fun d => bind_eq_bind fun A => bind_eq_bind fun C =>
    bind_eq_bind fun Q => bind_eq_bind fun R => ?_
  cases o with
  | none => exact key A Q b C R d ⟨0, fun _ => true⟩
  | some o => exact key A Q b C R d o

/-! ### em -/

theorem pairAux_eq (s : SStep n) (l : List (SStep n)) :
    exactMachine.pairAux (sst s) (l.map sst) = smoothPairAux s l := by
  induction l generalizing s with
  | nil => rfl
  | cons a l ih => simp only [List.map_cons, Machine.pairAux, smoothPairAux, ih]; rfl

theorem pair_eq (l : List (SStep n)) : exactMachine.pair (l.map sst) = smoothPair l := by
  cases l with
  | nil => rfl
  | cons s l => simp only [List.map_cons, Machine.pair, smoothPair, pairAux_eq]; rfl

theorem stats_eq (p : Params n m) (os : List (Obs m)) :
    exactMachine.stats (par p) (os.map row) = (emStats p os).map (List.map stats) := by
  rw [Machine.stats, emStats, full_eq]
  cases filterFull p os with
  | error e => rfl
  | ok l =>
    simp only [Except.map, Bind.bind, Except.bind, Pure.pure, Except.pure]
    rw [show (par p).A = p.A from rfl, smoothFull_eq]
    cases smoothFull p.A l with
    | error e => rfl
    | ok sm =>
      simp only [Except.map, pair_eq]
      congr 1
      generalize smoothPair sm = ps
      induction sm generalizing ps with
      | nil => rfl
      | cons a sm ih =>
        cases ps with
        | nil => rfl
        | cons q ps => exact congrArg (stats ⟨a.mean, a.cov, q⟩ :: ·) (ih ps)

theorem obsMatLoop_eq (d : TV (Vec m)) (ss : List (EmStats n)) (os : List (Obs m)) (t : ℕ)
    (r1 : Mat m n) (r2 : Mat n n) :
    exactMachine.obsMatLoop d t (ss.map stats) (os.map row) r1 r2 = emObsMatLoop d t ss os r1 r2 := by
  induction os generalizing t ss r1 r2 with
  | nil => cases ss <;> rfl
  | cons o os ih =>
    cases ss with
    | nil => rfl
    | cons s ss =>
      simp only [List.map_cons, Machine.obsMatLoop, emObsMatLoop]
      by_cases h : o.missing
      · have h' : (row o).missing := h
        rw [if_neg (not_not.mpr h), if_neg (not_not.mpr h')]
        exact ih _ _ _ _
      · have h' : ¬ (row o).missing := h
        rw [if_pos h, if_pos h']
        exact bind_eq_bind fun dt => ih _ _ _ _

theorem obsMat_eq (d : TV (Vec m)) (ss : List (EmStats n)) (os : List (Obs m)) :
    exactMachine.obsMat d (ss.map stats) (os.map row) = emObsMat d ss os := by
  simp only [Machine.obsMat, emObsMat]
  exact congrArg (· >>= _) (obsMatLoop_eq d ss os 0 0 0)

theorem obsCovLoop_eq (C : TV (Mat m n)) (d : TV (Vec m)) (ss : List (EmStats n))
    (os : List (Obs m)) (t : ℕ) (r : Mat m m) (k : ℕ) :
    exactMachine.obsCovLoop C d t (ss.map stats) (os.map row) r k = emObsCovLoop C d t ss os r k := by
  induction os generalizing t ss r k with
  | nil => cases ss <;> rfl
  | cons o os ih =>
    cases ss with
    | nil => rfl
    | cons s ss =>
      simp only [List.map_cons, Machine.obsCovLoop, emObsCovLoop]
      by_cases h : o.missing
      · have h' : (row o).missing := h
        rw [if_neg (not_not.mpr h), if_neg (not_not.mpr h')]
        exact ih _ _ _ _
      · have h' : ¬ (row o).missing := h
        rw [if_pos h, if_pos h']
        exact bind_eq_bind fun Ct => bind_eq_bind fun dt => ih _ _ _ _

theorem obsCov_eq (C : TV (Mat m n)) (d : TV (Vec m)) (ss : List (EmStats n)) (os : List (Obs m)) :
    exactMachine.obsCov C d (ss.map stats) (os.map row) = emObsCov C d ss os := by
  simp only [Machine.obsCov, emObsCov]
  exact congrArg (· >>= _) (obsCovLoop_eq C d ss os 0 0 0)

theorem transMatLoop_eq (b : TV (Vec n)) (ss : List (EmStats n)) (s : EmStats n) (t : ℕ)
    (r1 r2 : Mat n n) :
    exactMachine.transMatLoop b t (stats s) (ss.map stats) r1 r2 = emTransMatLoop b t s ss r1 r2 := by
  induction ss generalizing t s r1 r2 with
  | nil => rfl
  | cons a ss ih =>
    simp only [List.map_cons, Machine.transMatLoop, emTransMatLoop]
    exact bind_eq_bind fun bt => ih _ _ _ _

theorem transMat_eq (b : TV (Vec n)) (ss : List (EmStats n)) :
    exactMachine.transMat b (ss.map stats) = emTransMat b ss := by
  cases ss with
  | nil => rfl
  | cons s ss =>
    simp only [List.map_cons, Machine.transMat, emTransMat]
    exact congrArg (· >>= _) (transMatLoop_eq b ss s 1 0 0)

theorem transCovLoop_eq (A : TV (Mat n n)) (b : TV (Vec n)) (ss : List (EmStats n))
    (s : EmStats n) (t : ℕ) (r : Mat n n) :
    exactMachine.transCovLoop A b t (stats s) (ss.map stats) r = emTransCovLoop A b t s ss r := by
  induction ss generalizing t s r with
  | nil => rfl
  | cons a ss ih =>
    simp only [List.map_cons, Machine.transCovLoop, emTransCovLoop]
    exact bind_eq_bind fun At => bind_eq_bind fun bt => ih _ _ _

theorem transCov_eq (A : TV (Mat n n)) (b : TV (Vec n)) (ss : List (EmStats n)) :
    exactMachine.transCov A b (ss.map stats) = emTransCov A b ss := by
  cases ss with
  | nil => rfl
  | cons s ss =>
    simp only [List.map_cons, Machine.transCov, emTransCov, List.length_cons, List.length_map,
      Nat.add_sub_cancel, Nat.cast_add, Nat.cast_one, add_sub_cancel_right]
    exact congrArg (· >>= _) (transCovLoop_eq A b ss s 0 0)

theorem initMean_eq (ss : List (EmStats n)) :
    exactMachine.initMean (ss.map stats) = emInitMean ss := by
  cases ss <;> rfl

theorem initCov_eq (mu : Vec n) (ss : List (EmStats n)) :
    exactMachine.initCov mu (ss.map stats) = emInitCov mu ss := by
  cases ss <;> rfl

theorem transOffLoop_eq (A : TV (Mat n n)) (ss : List (EmStats n)) (s : EmStats n) (t : ℕ)
    (r : Vec n) :
    exactMachine.transOffLoop A t (stats s) (ss.map stats) r = emTransOffLoop A t s ss r := by
  induction ss generalizing t s r with
  | nil => rfl
  | cons a ss ih =>
    simp only [List.map_cons, Machine.transOffLoop, emTransOffLoop]
    exact bind_eq_bind fun At => ih _ _ _

theorem transOff_eq (A : TV (Mat n n)) (ss : List (EmStats n)) :
    exactMachine.transOff A (ss.map stats) = emTransOff A ss := by
  cases ss with
  | nil => rfl
  | cons s ss =>
    simp only [List.map_cons, Machine.transOff, emTransOff, List.length_cons, List.length_map,
      Nat.add_sub_cancel, Nat.cast_add, Nat.cast_one, add_sub_cancel_right]
    exact congrArg (· >>= _) (transOffLoop_eq A ss s 1 0)

theorem obsOffLoop_eq (C : TV (Mat m n)) (ss : List (EmStats n)) (os : List (Obs m)) (t : ℕ)
    (r : Vec m) (k : ℕ) :
    exactMachine.obsOffLoop C t (ss.map stats) (os.map row) r k = emObsOffLoop C t ss os r k := by
  induction os generalizing t ss r k with
  | nil => cases ss <;> rfl
  | cons o os ih =>
    cases ss with
    | nil => rfl
    | cons s ss =>
      simp only [List.map_cons, Machine.obsOffLoop, emObsOffLoop]
      by_cases h : o.missing
      · have h' : (row o).missing := h
        rw [if_neg (not_not.mpr h), if_neg (not_not.mpr h')]
        exact ih _ _ _ _
      · have h' : ¬ (row o).missing := h
        rw [if_pos h, if_pos h']
        exact bind_eq_bind fun Ct => ih _ _ _ _

theorem obsOff_eq (C : TV (Mat m n)) (ss : List (EmStats n)) (os : List (Obs m)) :
    exactMachine.obsOff C (ss.map stats) (os.map row) = emObsOff C ss os := by
  simp only [Machine.obsOff, emObsOff]
  exact congrArg (· >>= _) (obsOffLoop_eq C ss os 0 0 0)

theorem emStep_eq (g old : Params n m) (vars : EmVar → Bool) (ss : List (EmStats n))
    (os : List (Obs m)) :
    exactMachine.emStep (par g) vars (par old) (ss.map stats) (os.map row)
      = (emStep g vars old ss os).map par := by
  simp only [Machine.emStep, emStep, par]
  refine bind_map' (congrArg (fun e => emPick _ (emConst e) _) (obsMat_eq old.d ss os)) fun C => ?_
  refine bind_map' (congrArg (fun e => emPick _ (emConst e) _) (obsCov_eq C old.d ss os)) fun R => ?_
  refine bind_map' (congrArg (fun e => emPick _ (emConst e) _) (transMat_eq old.b ss)) fun A => ?_
  refine bind_map' (congrArg (fun e => emPick _ (emConst e) _) (transCov_eq A old.b ss)) fun Q => ?_
  refine bind_map' (congrArg (fun e => emPick _ e _) (initMean_eq ss)) fun mu => ?_
  refine bind_map' (congrArg (fun e => emPick _ e _) (initCov_eq mu ss)) fun S => ?_
  refine bind_map' (congrArg (fun e => emPick _ (emConst e) _) (transOff_eq A ss)) fun b => ?_
  exact bind_map' (congrArg (fun e => emPick _ (emConst e) _) (obsOff_eq C ss os)) fun d => rfl

theorem em_eq (p : Params n m) (os : List (Obs m)) (k : ℕ) (vars : EmVar → Bool) :
    exactMachine.em (par p) (os.map row) k vars = (kfEm p os k vars).map par := by
  have : ∀ q, exactMachine.emLoop (par p) vars (os.map row) k (par q)
      = (emLoop p vars os k q).map par := by
    induction k with
    | zero => exact fun q => rfl
    | succ k ih =>
      intro q
      simp only [Machine.emLoop, emLoop, stats_eq]
      cases emStats q os with
      | error e => rfl
      | ok ss =>
        simp only [Except.map, Bind.bind, Except.bind]
        rw [emStep_eq]
        cases emStep p vars q ss os with
        | error e => rfl
        | ok q' => exact ih q'
  exact this p

end Exact

end Verif
