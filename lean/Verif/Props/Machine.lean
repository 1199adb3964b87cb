import Verif.Proofs.MachineRounded
import Verif.Proofs.Loglik

/-!
# C93: what holds bit for bit

`KalmanFilter` on the numbers of any machine, with any operations: rounding, overflow, signed zeros,
infinities, `nan`s and exceptions of the linear algebra routines included.  Equations between
results are equations between all their bits, and include the exception if one is raised.
-/

namespace Verif

open Machine

variable {M : Machine} {n m : ℕ}

/-! ### Causality, resuming, online -/

/-- **C93.** Filtering a prefix of the observations gives the prefix of the results, and if
filtering the prefix raises then filtering all observations raises the same. -/
theorem C93_causal (p : M.Par n m) (xs ys : List (M.Row m)) :
    (∀ out, M.filter p (xs ++ ys) = .ok out → M.filter p xs = .ok (out.take xs.length)) ∧
    (∀ e, M.filter p xs = .error e → M.filter p (xs ++ ys) = .error e) := by
  have h : M.full p (xs ++ ys) = _ := loop_append p 0 none xs ys
  constructor
  · intro out ho
    obtain ⟨l, hl, rfl⟩ := filter_ok ho
    rw [h] at hl
    obtain ⟨l1, h1, hl⟩ := ok_bind_iff.mp hl
    obtain ⟨l2, h2, hl⟩ := ok_bind_iff.mp hl
    cases hl
    have hlen := loop_length h1
    rw [Machine.filter, full, h1]
    simp only [Bind.bind, Except.bind, Pure.pure, Except.pure, List.map_append]
    rw [← hlen, List.take_left' (by simp)]
  · intro e he
    rw [Machine.filter] at he ⊢
    rw [h]
    cases h1 : M.loop p 0 none xs with
    | error e' =>
      rw [full, h1] at he
      exact he
    | ok l =>
      rw [full, h1] at he
      cases he

/-- **C93.** Filtering can be stopped after some observations and resumed with a new filter whose
initial moments are the prediction from the last result. -/
theorem C93_resume (p : M.Par n m) (xs ys : List (M.Row m)) (out : List (M.V n × M.A n n))
    (hx : M.filter p xs = .ok out) (mean : M.V n) (cov : M.A n n)
    (hlast : out.getLast? = some (mean, cov)) (A Q : M.A n n) (b : M.V n)
    (hA : lastDims p.A (xs.length - 1) = .ok A) (hQ : lastDims p.Q (xs.length - 1) = .ok Q)
    (hb : lastDims p.b (xs.length - 1) = .ok b) :
    M.filter p (xs ++ ys)
      = (M.filter (p.resume xs.length
          (M.vadd (M.dotV n n A mean) b)
          (M.madd (M.dotM n n n A (M.dotM n n n cov (M.tr A))) Q)) ys).map (out ++ ·) := by
  obtain ⟨l, hl, rfl⟩ := filter_ok hx
  rw [List.getLast?_map, Option.map_eq_some_iff] at hlast
  obtain ⟨s, hs, hs'⟩ := hlast
  cases hs'
  have h : M.full p (xs ++ ys) = _ := loop_append p 0 none xs ys
  rw [full] at hl
  rw [Machine.filter, h, hl]
  simp only [Bind.bind, Except.bind, hs, Option.some_or, Nat.zero_add]
  rw [loop_restart p xs.length s ys hA hQ hb, Machine.filter]
  simp only [predict]
  cases M.full (p.resume xs.length _ _) ys with
  | error e => rfl
  | ok l' => simp [Except.map, Bind.bind, Except.bind, Pure.pure, Except.pure]

/-- **C93.** A program that filters the first observation with `filter` and each further one with
`filter_update` gets what `filter` gives on all observations, or the same exception. -/
theorem C93_online_equals_batch (p : M.Par n m) (a : ℕ → M.Args n m) (o : M.Row m)
    (os : List (M.Row m)) (ha : ∀ t, t < os.length → (a t).For p t) :
    (∀ r, M.filter p [o] = .ok [r] →
      M.filter p (o :: os) = (calls p a 0 r os).map (r :: ·)) ∧
    (∀ e, M.filter p [o] = .error e → M.filter p (o :: os) = .error e) ∧
    (∀ out, M.filter p [o] = .ok out → ∃ r, out = [r]) := by
  refine ⟨fun r hr => ?_, (C93_causal p [o] os).2, fun out ho => ?_⟩
  · obtain ⟨l, hl, e⟩ := filter_ok hr
    rw [full, loop] at hl
    obtain ⟨s, hs, hl⟩ := ok_bind_iff.mp hl
    rw [loop] at hl
    cases hl
    simp only [List.map_cons, List.map_nil, List.cons.injEq, and_true] at e
    subst e
    rw [calls_eq os 0 (fun i hi => ha i (by omega)), Machine.filter, full, loop, hs]
    simp only [Bind.bind, Except.bind]
    cases M.loop p (0 + 1) (some s) os <;> rfl
  · obtain ⟨l, hl, rfl⟩ := filter_ok ho
    have := loop_length hl
    match l, this with
    | [s], _ => exact ⟨_, rfl⟩

/-! ### Values under the mask, and covariances -/

/-- **C93.** Two masked arrays that agree on which rows have a masked component and on the values
of the other rows give the same results everywhere. -/
theorem C93_masked_values (p : M.Par n m) (os os' : List (M.Row m))
    (h : List.Forall₂ Row.Sim os os') :
    M.filter p os = M.filter p os' ∧ M.smooth p os = M.smooth p os' ∧
    M.loglik p os = M.loglik p os' ∧
    (∀ nIter vars, M.em p os nIter vars = M.em p os' nIter vars) ∧
    (∀ o o' : M.Row m, o.Sim o' → ∀ mean cov a,
      M.update p mean cov (some o) a = M.update p mean cov (some o') a) := by
  refine ⟨?_, ?_, ?_, ?_, ?_⟩
  · rw [Machine.filter, Machine.filter, full_sim p h]
  · rw [smooth, smooth, full_sim p h]
  · simp only [loglik, full_sim p h, Machine.loglikLoop_sim p h]
  · intro k vars
    exact Machine.emLoop_sim p vars h k p
  · intro o o' ho mean cov a
    simp only [update, correct_sim ho]

/-- **C93.** The covariances that `filter` and `smooth` return depend on the data only through the
set of masked rows: neither the values nor the offsets nor the initial mean enter (they do not
even decide whether an exception is raised). -/
theorem C93_covariances (p p' : M.Par n m) (os os' : List (M.Row m)) (hp : p.SameCovs p')
    (h : List.Forall₂ (fun o o' : M.Row m => (o.missing ↔ o'.missing)) os os') :
    (M.filter p os).map (List.map Prod.snd) = (M.filter p' os').map (List.map Prod.snd) ∧
    (M.smooth p os).map (List.map Prod.snd) = (M.smooth p' os').map (List.map Prod.snd) := by
  rw [Machine.filter, Machine.filter, smooth, smooth, full, full]
  rcases map_eq_map_iff.mp (loop_covs hp h 0 (prev := none) (prev' := none) rfl) with
    ⟨e, e1, e2⟩ | ⟨l, l', e1, e2, e3⟩
  · rw [e1, e2]; exact ⟨rfl, rfl⟩
  rw [e1, e2]
  simp only [Bind.bind, Except.bind, Pure.pure, Except.pure, Except.map, List.map_map]
  constructor
  · have := congrArg (List.map fun c => c.2.2) e3
    simp only [List.map_map] at this
    exact congrArg Except.ok this
  · cases l with
    | nil =>
      cases l' with
      | nil => rfl
      | cons => cases e3
    | cons s l =>
      cases l' with
      | nil => cases e3
      | cons s' l' =>
        simp only [List.map_cons, List.cons.injEq] at e3
        simp only [Machine.smoothFull, hp.A]
        rcases map_eq_map_iff.mp (smoothLoop_covs p'.A l l' 0 s s' e3.1 e3.2) with
          ⟨e, e4, e5⟩ | ⟨r, r', e4, e5, e6⟩
        · rw [e4, e5]
        · rw [e4, e5]
          simp only [Prod.mk.injEq, SSt.covs] at e6
          have := congrArg (List.map Prod.fst) e6.2
          simp only [List.map_map] at this
          simp only [Bind.bind, Except.bind, Pure.pure, Except.pure, List.map_cons, List.map_map,
            e6.1.1]
          exact congrArg (fun x => Except.ok (r'.1.cov :: x)) this

/-! ### The last row, and constant parameters -/

/-- **C93.** The last row of `smooth` is the last row of `filter`. -/
theorem C93_last_row (p : M.Par n m) (os : List (M.Row m)) (f s : List (M.V n × M.A n n))
    (hf : M.filter p os = .ok f) (hs : M.smooth p os = .ok s) :
    s.length = os.length ∧ f.length = os.length ∧ s ≠ [] ∧ s.getLast? = f.getLast? := by
  obtain ⟨l, hl, rfl⟩ := filter_ok hf
  rw [smooth, hl] at hs
  obtain ⟨sm, hsm, hs⟩ := ok_bind_iff.mp (show M.smoothFull p.A l >>= _ = .ok s from hs)
  cases hs
  have hlen := loop_length hl
  cases l with
  | nil => cases hsm
  | cons a l =>
    simp only [Machine.smoothFull] at hsm
    obtain ⟨r, hr, hsm⟩ := ok_bind_iff.mp hsm
    cases hsm
    obtain ⟨h1, h2⟩ := smoothLoop_last p.A l 0 a hr
    rw [List.length_cons] at hlen
    exact ⟨by simp [h1, hlen], by simp [hlen], by simp, h2⟩

/-- **C93.** A constant parameter given once, and the same parameter repeated for every time step,
give the same results. -/
theorem C93_constant_equals_repeated (p p' : M.Par n m) (os : List (M.Row m))
    (hA : p.A.Repeats p'.A (os.length - 1)) (hb : p.b.Repeats p'.b (os.length - 1))
    (hQ : p.Q.Repeats p'.Q (os.length - 1)) (hC : p.C.Repeats p'.C os.length)
    (hd : p.d.Repeats p'.d os.length) (hR : p.R.Repeats p'.R os.length)
    (hmu : p.mu0 = p'.mu0) (hS : p.S0 = p'.S0) :
    M.filter p os = M.filter p' os ∧ M.smooth p os = M.smooth p' os := by
  have ag : p.Agree p' os.length :=
    ⟨fun t ht => hA.lastDims (by omega), fun t ht => hb.lastDims (by omega),
     fun t ht => hQ.lastDims (by omega), fun t ht => hC.lastDims ht, fun t ht => hd.lastDims ht,
     fun t ht => hR.lastDims ht, hmu, hS⟩
  exact ⟨by rw [Machine.filter, Machine.filter, full_agree ag], smooth_agree ag⟩

/-! ### em -/

/-- **C93.** `em` changes no parameter outside `em_vars`. -/
theorem C93_em_only_selected {p p' : M.Par n m} {os : List (M.Row m)} {k : ℕ}
    {vars : EmVar → Bool} (h : M.em p os k vars = .ok p') : p.AgreeOff vars p' :=
  emLoop_agreeOff ⟨fun _ => rfl, fun _ => rfl, fun _ => rfl, fun _ => rfl, fun _ => rfl,
    fun _ => rfl, fun _ => rfl, fun _ => rfl⟩ h

/-- **C93.** `em` with `a + b` iterations is `em` with `a` iterations followed by a second call
with `b` iterations (also when one of the calls raises). -/
theorem C93_em_add (p : M.Par n m) (os : List (M.Row m)) (vars : EmVar → Bool) (a b : ℕ) :
    M.em p os (a + b) vars = M.em p os a vars >>= fun p' => M.em p' os b vars := by
  rw [Machine.em, Machine.emLoop_add]
  cases h : M.emLoop p vars os a p with
  | error e => simp only [Machine.em, h]; rfl
  | ok p' =>
    simp only [Machine.em, h, Bind.bind, Except.bind]
    exact emLoop_given (C93_em_only_selected h) os b p'

/-! ### Machines -/

/-- **C93.** Exact arithmetic and every arithmetic with rounding errors are machines: on them the
functions of this file are those of `Model/Standard` and `Model/Rounded…`. -/
theorem C93_machines (p : Params n m) (os : List (Obs m)) :
    (exactMachine.filter (Exact.par p) (os.map Exact.row) = kfFilter p os ∧
     exactMachine.smooth (Exact.par p) (os.map Exact.row) = kfSmooth p os ∧
     exactMachine.loglik (Exact.par p) (os.map Exact.row) = kfLoglik p os ∧
     (∀ mean cov o a, exactMachine.update (Exact.par p) mean cov (o.map Exact.row) (Exact.args a)
       = filterUpdate p mean cov o a) ∧
     (∀ k vars, exactMachine.em (Exact.par p) (os.map Exact.row) k vars
       = (kfEm p os k vars).map Exact.par)) ∧
    (∀ {c : ℕ → ℝ} {u : ℝ} (ar : ArithEL c u),
     (roundedMachine ar).filter (Rounded.par ar p) (os.map (Rounded.row ar))
       = flFilter ar.toArith p os ∧
     (roundedMachine ar).smooth (Rounded.par ar p) (os.map (Rounded.row ar))
       = flSmooth ar.toArith p os ∧
     (roundedMachine ar).loglik (Rounded.par ar p) (os.map (Rounded.row ar))
       = flLoglik ar.toArithL p os ∧
     (∀ k vars, (roundedMachine ar).em (Rounded.par ar p) (os.map (Rounded.row ar)) k vars
       = (flEm ar.toArithE p os k vars).map (Rounded.par ar))) :=
  ⟨⟨Exact.filter_eq p os, Exact.smooth_eq p os, Exact.loglik_eq p os, Exact.update_eq p,
    Exact.em_eq p os⟩, fun ar => ⟨Rounded.filter_eq ar p os, Rounded.smooth_eq ar p os,
    Rounded.loglik_eq ar p os, Rounded.em_eq ar p os⟩⟩

/-! ### The hypotheses can be met -/

/-- The 64-bit floats.  Sums from left to right; `pinv` is written out for matrices with one row and
raises for others and for `nan` and infinity (`check_finite`). -/
def floats : Machine where
  F := Float
  zero := 0
  one := 1
  count k := Float.ofNat k
  add x y := x + y
  sub x y := x - y
  mul x y := x * y
  div x y := x / y
  dotV k l X x := fun i => (List.ofFn fun j => X i j * x j).foldl (· + ·) 0
  dotM k l r X Y := fun i j => (List.ofFn fun q => X i q * Y q j).foldl (· + ·) 0
  pinv k X := if h : k = 1 then
      if (X ⟨0, by omega⟩ ⟨0, by omega⟩).isFinite then .ok fun i j => 1 / X i j
      else .error .valueError
    else .error .linAlgError
  logpdf k x mu S := .ok 0
  sum l := l.foldl (· + ·) 0

/-- A filter with one state and one sensor on floats: the transition matrix varies in time, the
initial mean is `nan`. -/
def exFloats : floats.Par 1 1 :=
  ⟨.seq [fun _ _ => (0.5 : Float), fun _ _ => (1 / 3 : Float)], .const fun _ => (0.1 : Float),
    .const fun _ _ => (1 : Float), .const fun _ _ => (1 : Float), .const fun _ => (0 : Float),
    .const fun _ _ => (2 : Float), fun _ => (0 / 0 : Float), fun _ _ => (1 : Float)⟩

/-- Arguments as `C93_online_equals_batch` requires: the transition matrix is passed, all others are
omitted. -/
example : ∃ a : ℕ → floats.Args 1 1, ∀ t, t < 2 → (a t).For exFloats t := by
  refine ⟨fun t => { A := some (if t = 0 then fun _ _ => (0.5 : Float) else
    fun _ _ => (1 / 3 : Float)) }, fun t ht => ⟨.inl ⟨_, rfl, ?_⟩, .inr ⟨rfl, _, rfl⟩,
    .inr ⟨rfl, _, rfl⟩, .inr ⟨rfl, _, rfl⟩, .inr ⟨rfl, _, rfl⟩, .inr ⟨rfl, _, rfl⟩⟩⟩
  match t, ht with
  | 0, _ => rfl
  | 1, _ => rfl

/-- With a masked row `filter` succeeds on floats although the initial mean is `nan`. -/
example : ∃ out, floats.filter exFloats [⟨fun _ => (7 : Float), fun _ => true⟩] = .ok out ∧
    out.getLast? = some (exFloats.mu0, exFloats.S0) := by
  refine ⟨[(exFloats.mu0, exFloats.S0)], ?_, rfl⟩
  have h : (⟨fun _ => (7 : Float), fun _ => true⟩ : floats.Row 1).missing := ⟨0, rfl⟩
  simp only [Machine.filter, full, loop, step, correct, h, not_true_eq_false, if_false]
  rfl

/-- Rows with the same data: other values under the mask. -/
example : List.Forall₂ Row.Sim
    [⟨fun _ => (7 : Float), fun _ => true⟩, ⟨fun _ => (1 : Float), fun _ => false⟩]
    [⟨fun _ => (0 / 0 : Float), fun _ => true⟩,
      (⟨fun _ => (1 : Float), fun _ => false⟩ : floats.Row 1)] :=
  .cons ⟨⟨fun _ => ⟨0, rfl⟩, fun _ => ⟨0, rfl⟩⟩, fun h => absurd ⟨0, rfl⟩ h⟩
    (.cons ⟨Iff.rfl, fun _ => rfl⟩ .nil)

/-- Parameters with the same matrices and another initial mean and offset. -/
example : exFloats.SameCovs
    { exFloats with mu0 := fun _ => (3 : Float), b := .const fun _ => (1 / 0 : Float) } :=
  ⟨rfl, rfl, rfl, rfl, rfl, fun _ => ⟨fun _ => ⟨_, rfl⟩, fun _ => ⟨_, rfl⟩⟩, fun _ => Iff.rfl⟩

end Verif
