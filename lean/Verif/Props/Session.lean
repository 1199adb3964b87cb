import Verif.Proofs.Session
import Verif.Props.LinearMethods
import Verif.Props.Frontend

/-!
# C76: what a call of `em` leaves behind when it raises, and sequences of calls on one object
-/

open Matrix

namespace Verif

variable {n m : ℕ}

theorem Means.em_eq {a : KFArgs} {p : Params n m} (h : a.Means p) {X : MArray} {os : List (Obs m)}
    (hX : DataArg X os) (nIter : ℕ) {cls : KFClass} {arg : Option EmNames} {e : EmNames}
    (he : ChosenNames cls a.emVars arg e) {vars : EmVar → Bool} (hv : Selects e vars) (qr : QR)
    (store : ℝ → ℝ) :
    (a.object n m).em cls qr store X nIter arg
      = some (cls.iterations qr store p os vars nIter) := by
  have hs := KFArgs.selectionOf (n := n) (m := m) he hv
  simp only [KF.em]
  rw [h.prepare hX]
  cases cls with
  | standard =>
    simp only [KF.selectionOf] at hs
    simp only [Option.map_some, bind, Except.bind, hs]; rfl
  | cholesky =>
    simp only [KF.selectionOf] at hs
    simp only [Option.map_some, bind, Except.bind, hs]; rfl
  | bierman =>
    simp only [KF.selectionOf] at hs
    simp only [Option.map_some, bind, Except.bind, hs]; rfl

theorem Means.emEffect_eq {a : KFArgs} {p : Params n m} (h : a.Means p) {X : MArray}
    {os : List (Obs m)} (hX : DataArg X os) (nIter : ℕ) {cls : KFClass} {arg : Option EmNames}
    {vars : EmVar → Bool} (hs : (a.object n m).selectionOf cls arg = .ok vars) (qr : QR)
    (store : ℝ → ℝ) :
    (a.object n m).emEffect cls qr store X nIter arg
      = some ((a.withParams (emIterate cls qr p vars os nIter store p).1).object n m,
          (emIterate cls qr p vars os nIter store p).2) := by
  obtain ⟨r, h1, h2⟩ := h.initialize
  obtain ⟨h3, h4⟩ := hX.parse
  have h2' : r.typed (a.object n m).nDimState (a.object n m).nDimObs = some p := h2
  have h3' : (parseObservations X).shape.drop 1 = [(a.object n m).nDimObs] := h3
  have h4' : (parseObservations X).rows (a.object n m).nDimObs = os := h4
  have hs' : ((a.object n m).setParams (n := (a.object n m).nDimState)
      (m := (a.object n m).nDimObs) p).selectionOf cls arg = .ok vars :=
    (KFArgs.selectionOf_withParams a p cls arg).trans hs
  simp only [KF.emEffect, h1, h2', if_pos h3', h4', hs']
  rfl

/-- **C76.** A call of `em` on an object with the parameters `p`, of any of the three classes: it
returns after all iterations, or it raises in the iteration after the `k`-th for a `k < n_iter`.  In
both cases the object is then one made from arguments that stand for the parameters the algorithm
has arrived at by then, with the constructor's `em_vars` and `random_state` unchanged; if the call
has raised, it is the very object that a call with `n_iter = k` returns. -/
theorem C76_em_effect {a : KFArgs} {p : Params n m} (h : a.Means p) {X : MArray}
    {os : List (Obs m)} (hX : DataArg X os) (nIter : ℕ) {cls : KFClass} {arg : Option EmNames}
    {e : EmNames} (he : ChosenNames cls a.emVars arg e) {vars : EmVar → Bool} (hv : Selects e vars)
    (qr : QR) (store : ℝ → ℝ) :
    ∃ (a' : KFArgs) (q : Params n m) (err : Option Err),
      (a.object n m).emEffect cls qr store X nIter arg = some (a'.object n m, err) ∧
      a'.Means q ∧ a'.emVars = a.emVars ∧ a'.randomState = a.randomState ∧
      EmStops cls qr store p os vars nIter q err ∧
      (err = none →
        (a.object n m).emObject cls qr store X nIter arg = some (.ok (a'.object n m))) ∧
      ∀ x, err = some x →
        (a.object n m).emObject cls qr store X nIter arg = some (.error x) ∧
        ∃ k < nIter, (a.object n m).emObject cls qr store X k arg = some (.ok (a'.object n m)) := by
  have hstop := emIterate_stops cls qr store p os vars nIter
  refine ⟨a.withParams _, _, _, Means.emEffect_eq h hX nIter (KFArgs.selectionOf he hv) qr store,
    h.withParams _, rfl, rfl, hstop, ?_, ?_⟩
  · intro hn
    rw [hn] at hstop
    cases hstop with
    | returns h1 =>
      simp only [KF.emObject, Means.em_eq h hX nIter he hv qr store, h1]
      rfl
  · intro x hx
    rw [hx] at hstop
    cases hstop with
    | raises k hk _ h1 h2 =>
      refine ⟨?_, k, hk, ?_⟩
      · simp only [KF.emObject, Means.em_eq h hX nIter he hv qr store, iterations_error hk h2]
        rfl
      · simp only [KF.emObject, Means.em_eq h hX k he hv qr store, h1]
        rfl

/-- **C76.** The iteration `em` stops in, and what it raises, are determined by the parameters, the
data and the selection. -/
theorem C76_stop_unique {cls : KFClass} {qr : QR} {store : ℝ → ℝ} {p : Params n m}
    {os : List (Obs m)} {vars : EmVar → Bool} {nIter : ℕ} {q q' : Params n m} {err err' : Option Err}
    (h : EmStops cls qr store p os vars nIter q err)
    (h' : EmStops cls qr store p os vars nIter q' err') : q = q' ∧ err = err' := by
  cases h with
  | returns h =>
    cases h' with
    | returns h' => rw [h] at h'; cases h'; exact ⟨rfl, rfl⟩
    | raises k hk x h1 h2 =>
      rw [iterations_error hk h2] at h; cases h
  | raises k hk x h1 h2 =>
    cases h' with
    | returns h' => rw [iterations_error hk h2] at h'; cases h'
    | raises k' hk' x' h1' h2' =>
      have hkk : k = k' := by
        rcases lt_trichotomy k k' with hlt | heq | hlt
        · rw [iterations_error (show k + 1 ≤ k' from hlt) h2] at h1'; cases h1'
        · exact heq
        · rw [iterations_error (show k' + 1 ≤ k from hlt) h2'] at h1; cases h1
      subst hkk
      rw [h1] at h1'
      rw [h2] at h2'
      cases h1'; cases h2'
      exact ⟨rfl, rfl⟩

/-- **C76.** `em` of the plain class raises in the first iteration or not at all: if it raises, the
object has the parameters it had. -/
theorem C76_standard_atomic {qr : QR} {store : ℝ → ℝ} {p q : Params n m} {os : List (Obs m)}
    {vars : EmVar → Bool} {nIter : ℕ} {x : Err}
    (h : EmStops .standard qr store p os vars nIter q (some x)) : q = p := by
  cases h with
  | raises k hk _ h1 h2 =>
    cases k with
    | zero => cases h1; rfl
    | succ k =>
      exfalso
      simp only [KFClass.iterations] at h1 h2
      have h3 : ∃ ss, emStats p os = .ok ss := by
        simp only [kfEm, emLoop] at h1
        cases hss : emStats p os with
        | error e => rw [hss] at h1; cases h1
        | ok ss => exact ⟨ss, rfl⟩
      obtain ⟨ss, hss⟩ := h3
      obtain ⟨hne, hc⟩ := emStats_covers hss
      obtain ⟨p', h4, -⟩ := C23_em_succeeds hne (definedFor_iff_covers.mpr hc) (k + 1 + 1) vars
      rw [h4] at h2; cases h2

/-- **C76.** A square-root class, no variables named in the call or in the constructor: `em` raises
`TypeError`, and the object has the parameters it had. -/
theorem C76_no_names {a : KFArgs} {p : Params n m} (h : a.Means p) {X : MArray} {os : List (Obs m)}
    (hX : DataArg X os) (nIter : ℕ) {cls : KFClass} (hc : cls ≠ .standard) (ha : a.emVars = none)
    (qr : QR) (store : ℝ → ℝ) :
    ∃ a' : KFArgs, (a.object n m).emEffect cls qr store X nIter none
        = some (a'.object n m, some .typeError) ∧
      a'.Means p ∧ a'.emVars = none ∧ a'.randomState = a.randomState := by
  obtain ⟨r, h1, h2⟩ := h.initialize
  obtain ⟨h3, h4⟩ := hX.parse
  have h2' : r.typed (a.object n m).nDimState (a.object n m).nDimObs = some p := h2
  have h3' : (parseObservations X).shape.drop 1 = [(a.object n m).nDimObs] := h3
  have hs : (a.object n m).selectionOf cls none = .error .typeError := by
    have : (a.object n m).emSelectionSqrt none = .error .typeError := by
      simp [KF.emSelectionSqrt, KFArgs.object, ha, emSelection]
    cases cls with
    | standard => exact absurd rfl hc
    | cholesky => exact this
    | bierman => exact this
  have hs' : ((a.object n m).setParams (n := (a.object n m).nDimState)
      (m := (a.object n m).nDimObs) p).selectionOf cls none = .error .typeError :=
    (KFArgs.selectionOf_withParams a p cls none).trans hs
  refine ⟨a.withParams p, ?_, h.withParams p, ha, rfl⟩
  simp only [KF.emEffect, h1, h2', if_pos h3', hs']
  rfl

/-- **C76.** Any sequence of calls of `filter`, `smooth`, `loglikelihood` and `em`, each of which
may return or raise, on an object with the parameters `p`: the object stays one made from
arguments, with parameters `q` that are reached from `p` by the iterations the calls of `em` have
completed, and nothing else (no half-assigned parameters, no effect of the other calls).  Every
later call runs its algorithm with exactly these. -/
theorem C76_history {cls : KFClass} (qr : QR) (calls : List KFCall) :
    ∀ {a : KFArgs} {p : Params n m}, a.Means p → (∀ c ∈ calls, c.Fits m) →
    ∃ (a' : KFArgs) (q : Params n m),
      (a.object n m).afterCalls cls qr calls = some (a'.object n m) ∧ a'.Means q ∧
      a'.emVars = a.emVars ∧ a'.randomState = a.randomState ∧
      Reaches cls qr a.emVars p calls q := by
  induction calls with
  | nil => intro a p h _; exact ⟨a, p, rfl, h, rfl, rfl, .nil p⟩
  | cons c cs ih =>
    intro a p h hf
    have hf' : ∀ c ∈ cs, c.Fits m := fun c hc => hf c (by simp [hc])
    cases c with
    | filter X =>
      obtain ⟨a', q, h1, h2, h3, h4, h5⟩ := ih h hf'
      exact ⟨a', q, h1, h2, h3, h4, .filter X h5⟩
    | smooth X =>
      obtain ⟨a', q, h1, h2, h3, h4, h5⟩ := ih h hf'
      exact ⟨a', q, h1, h2, h3, h4, .smooth X h5⟩
    | loglikelihood X =>
      obtain ⟨a', q, h1, h2, h3, h4, h5⟩ := ih h hf'
      exact ⟨a', q, h1, h2, h3, h4, .loglikelihood X h5⟩
    | em X nIter arg =>
      obtain ⟨os, hX⟩ : ∃ os : List (Obs m), DataArg X os := hf (.em X nIter arg) (by simp)
      rcases chosenNames_or cls a.emVars arg with ⟨e, he⟩ | ⟨hc, hn, rfl, hno⟩
      · obtain ⟨vars, -, hv⟩ := emSelection_selects e
        obtain ⟨a1, p1, err, e1, m1, v1, r1, s1, -⟩ := C76_em_effect h hX nIter he hv qr id
        obtain ⟨a', q, h1, h2, h3, h4, h5⟩ := ih m1 hf'
        refine ⟨a', q, ?_, h2, h3.trans v1, h4.trans r1, .em hX he hv s1 (v1 ▸ h5)⟩
        simp only [KF.afterCalls, KF.afterCall, e1]
        exact h1
      · obtain ⟨a1, e1, m1, v1, r1⟩ := C76_no_names h hX nIter hc hn qr id
        obtain ⟨a', q, h1, h2, h3, h4, h5⟩ := ih m1 hf'
        refine ⟨a', q, ?_, h2, (h3.trans v1).trans hn.symm, h4.trans r1, .refused X nIter hno ?_⟩
        · simp only [KF.afterCalls, KF.afterCall, e1]
          exact h1
        · rw [v1] at h5; rw [hn]; exact h5

/-- **C76.** The results of calls after such a sequence: those of the algorithm of the class with the
parameters reached. -/
theorem C76_later_calls {cls : KFClass} (qr : QR) (calls : List KFCall) {a : KFArgs}
    {p : Params n m} (h : a.Means p) (hf : ∀ c ∈ calls, c.Fits m) :
    ∃ (a' : KFArgs) (q : Params n m),
      (a.object n m).afterCalls cls qr calls = some (a'.object n m) ∧
      Reaches cls qr a.emVars p calls q ∧
      ∀ (X : MArray) (os : List (Obs m)), DataArg X os →
        (a'.object n m).filterOf cls qr id X = some (match cls with
          | .standard => kfFilter q os
          | .cholesky => cholFilter qr q os
          | .bierman => bierFilter id q os) ∧
        (a'.object n m).smoothOf cls qr id X = some (match cls with
          | .standard => kfSmooth q os
          | .cholesky => cholSmooth qr q os
          | .bierman => bierSmooth id q os) ∧
        (a'.object n m).loglikOf cls qr id X = some (match cls with
          | .standard => kfLoglik q os
          | .cholesky => cholLoglik qr q os
          | .bierman => bierLoglik id q os) := by
  obtain ⟨a', q, h1, h2, -, -, h5⟩ := C76_history (cls := cls) qr calls h hf
  refine ⟨a', q, h1, h5, fun X os hX => ?_⟩
  obtain ⟨-, ⟨f1, f2, f3⟩, ⟨s1, s2, s3⟩, ⟨l1, l2, l3⟩, -⟩ := C58_methods h2 hX qr id
  cases cls with
  | standard => exact ⟨f1, s1, l1⟩
  | cholesky => exact ⟨f2, s2, l2⟩
  | bierman => exact ⟨f3, s3, l3⟩

/-- **C76.** An invalid seed: `em` raises before it assigns anything. -/
theorem C76_invalid_seed (k : KF) (h : k.randomState = some .other) (cls : KFClass) (qr : QR)
    (store : ℝ → ℝ) (X : MArray) (nIter : ℕ) (arg : Option EmNames) :
    k.emEffect cls qr store X nIter arg = some (k, some .attributeError) := by
  simp only [KF.emEffect, C46_invalid_seed_breaks_methods k h]

/-- **C76.** `em` of the Cholesky class is not atomic, and the object it leaves can be unusable: one
observation and the transition covariance among the variables.  The first iteration stores the zero
matrix (there is no transition to estimate from), the second raises `LinAlgError`, and so does every
later `filter`, whatever the data. -/
theorem C76_cholesky_not_atomic (qr : QR) (store : ℝ → ℝ) {p : Params n m} (hn : 0 < n)
    (hp : p.PosDef) (hdef : p.DefinedFor 1) (o : Obs m) {vars : EmVar → Bool}
    (hv : vars .transitionCovariance = true) {nIter : ℕ} (hi : 2 ≤ nIter) :
    ∃ q, EmStops .cholesky qr store p [o] vars nIter q (some .linAlgError) ∧ q ≠ p ∧
      ∀ os, cholFilter qr q os = .error .linAlgError := by
  have hc : p.Covers [o].length := definedFor_iff_covers.mp hdef
  obtain ⟨q, e1, c1, q1⟩ := emIter_ok (vars := vars) (by simp) hc hc
  have hQ : q.Q = .const 0 := by
    rw [q1.Q, if_pos hv]
    simp [newQ, transScatter]
  have h0 : ¬ (0 : Mat n n).PosDef := by
    intro h
    haveI : Nonempty (Fin n) := ⟨⟨0, hn⟩⟩
    have := h.det_pos
    rw [det_zero] at this
    exact lt_irrefl _ this
  have hchol : cholParam q.Q = .error .linAlgError := by
    rw [hQ, cholParam, cholesky_of_not_posDef transpose_zero h0]
  have hfull (os : List (Obs m)) : cholFull qr q os = .error .linAlgError := by
    rw [cholFull, hchol]; rfl
  have i1 : KFClass.iterations .cholesky qr store p [o] vars 1 = .ok q := by
    show cholEm qr p [o] 1 vars = _
    rw [C29_em_eq qr p [o] 1 vars (fun j hj p' hp' => ?_), kfEm, emLoop_succ, e1]
    · rfl
    · obtain rfl : j = 0 := by omega
      cases hp'; exact hp
  have i2 : KFClass.iterations .cholesky qr store p [o] vars 2 = .error .linAlgError := by
    rw [iterations_eq_runOf] at i1 ⊢
    rw [runOf_succ] at i1 ⊢
    cases hr : (do
        let ss ← KFClass.stats .cholesky qr store p [o]
        emStep p vars p ss [o] : Res (Params n m)) with
    | error e => rw [hr] at i1; cases i1
    | ok p' =>
      rw [hr] at i1
      have : p' = q := by
        have h := i1
        simp only [bind, Except.bind, runOf_zero] at h
        cases h; rfl
      subst this
      show runOf .cholesky qr p vars [o] 1
        (if vars .initialStateCovariance then id else store) p' = _
      rw [runOf_succ, KFClass.stats, cholStats, hfull]
      rfl
  refine ⟨q, .raises 1 (by omega) _ i1 i2, ?_, fun os => by rw [cholFilter, hfull]; rfl⟩
  rintro rfl
  obtain ⟨⟨Q, hQ', hQp⟩, -⟩ := hp
  rw [hQ] at hQ'
  cases hQ'
  exact h0 hQp

/-! ### The hypotheses can be met -/

/-- A sequence of calls on the object of `exKFArgs`: `em` without names (refused by the square-root
classes), `filter`, and `em` with names; the data fit. -/
example : ∀ c ∈ [KFCall.em ⟨[2], fun i => i.headD 0 + 5, fun i => i.headD 0 == 1⟩ 3 none,
      .filter ⟨[], fun _ => 1, fun _ => false⟩,
      .em ⟨[2], fun i => i.headD 0 + 5, fun i => i.headD 0 == 1⟩ 4 (some documentedEmVars)],
    c.Fits 1 := by
  have h : DataArg ⟨[2], fun i => i.headD 0 + 5, fun i => i.headD 0 == 1⟩
      [(⟨fun _ => 5, fun _ => false⟩ : Obs 1), ⟨fun _ => 6, fun _ => true⟩] := by
    refine .numbers rfl (by simp) rfl ?_
    intro t ht j
    have : t = 0 ∨ t = 1 := by simp at ht; omega
    rcases this with rfl | rfl
    · norm_num
    · norm_num
  intro c hc
  simp only [List.mem_cons, List.not_mem_nil, or_false] at hc
  rcases hc with rfl | rfl | rfl
  · exact ⟨_, h⟩
  · trivial
  · exact ⟨_, h⟩

/-- The names of the plain class, and of a square-root class. -/
example : ChosenNames .standard none none documentedEmVars ∧
    ChosenNames .bierman (some (.names ["transition_covariance"])) none
      (.names ["transition_covariance"]) :=
  ⟨.documented rfl rfl rfl rfl, .stored rfl rfl⟩

/-- Parameters and a selection for `C76_cholesky_not_atomic`. -/
example : (⟨.const 1, .const 0, .const 1, .const 1, .const 0, .const 1, 0, 1⟩ :
      Params 2 2).PosDef ∧
    (⟨.const 1, .const 0, .const 1, .const 1, .const 0, .const 1, 0, 1⟩ :
      Params 2 2).DefinedFor 1 ∧
    ∃ vars, Selects (.names ["transition_covariance"]) vars ∧
      vars .transitionCovariance = true := by
  refine ⟨⟨⟨1, rfl, PosDef.one⟩, ⟨_, rfl, PosDef.one⟩, PosDef.one⟩, ?_, ?_⟩
  · rw [definedFor_iff_covers]
    constructor <;> simp [TV.Covers]
  · obtain ⟨vars, -, h⟩ := emSelection_selects (.names ["transition_covariance"])
    exact ⟨vars, h, h.2.2.2.2.1.mpr (by simp)⟩

/-- `EmStops` with an exception, for the plain class: no observations. -/
example (p : Params n m) (vars : EmVar → Bool) (qr : QR) :
    ∃ x, EmStops .standard qr id p [] vars 1 p (some x) := by
  have : ∃ x, kfEm p [] 1 vars = .error x := by
    cases h : kfEm p [] 1 vars with
    | error x => exact ⟨x, rfl⟩
    | ok q =>
      exfalso
      rw [kfEm, emLoop_succ] at h
      cases hss : emStats p [] with
      | error e => rw [hss] at h; cases h
      | ok ss => exact (emStats_covers hss).1 rfl
  obtain ⟨x, hx⟩ := this
  exact ⟨x, .raises 0 (by omega) x rfl hx⟩

end Verif
