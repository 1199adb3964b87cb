import Verif.Proofs.Threads
import Verif.Props.Session
import Verif.Props.LinearMethods
import Verif.Props.EmMonotone

/-!
# C85: calls made at the same time in several threads
-/

open Matrix Relation

namespace Verif

variable {n m : ℕ} {ι : Type} [DecidableEq ι]

theorem answers_computed {a : KFArgs} {p : Params n m} (h : a.Means p) (cls : KFClass) (qr : QR)
    {c : TCall} (hc : c.FitsRead n m) :
    Answers cls qr p c ((a.object n m).computed cls qr c) := by
  cases c with
  | filter X =>
    obtain ⟨os, hX⟩ := hc
    obtain ⟨-, ⟨h1, h2, h3⟩, -⟩ := C58_methods h hX qr id
    simp only [KF.computed]
    cases cls with
    | standard => rw [h1]; exact .filter (cls := .standard) hX
    | cholesky => rw [h2]; exact .filter (cls := .cholesky) hX
    | bierman => rw [h3]; exact .filter (cls := .bierman) hX
  | smooth X =>
    obtain ⟨os, hX⟩ := hc
    obtain ⟨-, -, ⟨h1, h2, h3⟩, -⟩ := C58_methods h hX qr id
    simp only [KF.computed]
    cases cls with
    | standard => rw [h1]; exact .smooth (cls := .standard) hX
    | cholesky => rw [h2]; exact .smooth (cls := .cholesky) hX
    | bierman => rw [h3]; exact .smooth (cls := .bierman) hX
  | loglikelihood X =>
    obtain ⟨os, hX⟩ := hc
    obtain ⟨-, -, -, ⟨h1, h2, h3⟩, -⟩ := C58_methods h hX qr id
    simp only [KF.computed]
    cases cls with
    | standard => rw [h1]; exact .loglikelihood (cls := .standard) hX
    | cholesky => rw [h2]; exact .loglikelihood (cls := .cholesky) hX
    | bierman => rw [h3]; exact .loglikelihood (cls := .bierman) hX
  | filterUpdate n' m' mean cov o u =>
    obtain ⟨rfl, rfl⟩ := hc
    obtain ⟨r, h1, h2⟩ := h.initialize
    simp only [KF.computed, h1, h2]
    cases cls with
    | standard => exact .filterUpdate (cls := .standard) mean cov o u
    | cholesky => exact .filterUpdate (cls := .cholesky) mean cov o u
    | bierman => exact .filterUpdate (cls := .bierman) mean cov o u
  | em X nIter arg => exact hc.elim

theorem FitsRead.not_em {c : TCall} (hc : c.FitsRead n m) : ¬ c.IsEm := by
  cases c with
  | em => exact fun _ => hc
  | _ => exact id

/-- **C85.** Any number of threads call methods of any objects, and their steps are interleaved in any
way.  If no thread calls `em` of an object, then every `filter`, `smooth`, `loglikelihood` and
`filter_update` of it that has returned has answered what it answers when it is called alone, and the
object is as before. -/
theorem C85_readers (cls : ℕ → KFClass) (qr : QR) (obj : ι → ℕ) (call : ι → TCall) {h₀ h : Objects}
    {pool : ι → Prog TResult}
    (run : ReflTransGen TStep (callPool cls qr obj call, h₀) (pool, h)) {o : ℕ}
    (hem : ∀ j, obj j = o → ¬ (call j).IsEm) {a : KFArgs} {p : Params n m} (hp : a.Means p)
    (ho : h₀ o = a.object n m) :
    h o = h₀ o ∧ ∀ i r, obj i = o → (call i).FitsRead n m → pool i = .ret r →
      Answers (cls o) qr p (call i) r := by
  have hs : ∀ j, (callPool cls qr obj call j).Spares o := fun j =>
    TCall.prog_spares _ _ _ _ fun hj e => hem j e hj
  refine ⟨(runs_spared run hs).2, fun i r hi hc hr => ?_⟩
  have := (runs_undisturbed run (i := i) (o := o)
    (by rw [← hi]; exact TCall.prog_on ..) fun j _ => hs j).2.2
  dsimp only at this
  rw [hr, callPool, prog_alone_read _ _ _ (FitsRead.not_em hc), ho, hi] at this
  have e : r = (a.object n m).computed (cls o) qr (call i) := congrArg Prod.fst this
  rw [e]
  exact answers_computed hp _ qr hc

/-- **C85.** If one thread calls `em` of an object and no other thread calls `em` of the same object,
the call does, in any schedule, what it does when it is called alone, whatever else is called: it
returns after all its iterations or raises in one of them, and the object then has the parameters
the iterations have arrived at. -/
theorem C85_em (cls : ℕ → KFClass) (qr : QR) (obj : ι → ℕ) (call : ι → TCall) {h₀ h : Objects}
    {pool : ι → Prog TResult}
    (run : ReflTransGen TStep (callPool cls qr obj call, h₀) (pool, h)) {i : ι} {X : MArray}
    {nIter : ℕ} {arg : Option EmNames} (hi : call i = .em X nIter arg)
    (hem : ∀ j, j ≠ i → obj j = obj i → ¬ (call j).IsEm) {a : KFArgs} {p : Params n m}
    (hp : a.Means p) (ho : h₀ (obj i) = a.object n m) {os : List (Obs m)} (hX : DataArg X os)
    {e : EmNames} (he : ChosenNames (cls (obj i)) a.emVars arg e) {vars : EmVar → Bool}
    (hv : Selects e vars) {r : TResult} (hr : pool i = .ret r) :
    ∃ (a' : KFArgs) (q : Params n m) (err : Option Err), r = .fitted err ∧
      h (obj i) = a'.object n m ∧ a'.Means q ∧ a'.emVars = a.emVars ∧
      a'.randomState = a.randomState ∧ EmStops (cls (obj i)) qr id p os vars nIter q err := by
  have := (runs_undisturbed run (i := i) (o := obj i) (TCall.prog_on ..) fun j hj =>
    TCall.prog_spares _ _ _ _ fun hj' e => hem j hj e hj').2.2
  dsimp only at this
  rw [hr, callPool, hi, ho] at this
  obtain ⟨a', q, err, h1, h2, h3, h4, h5, -⟩ := C76_em_effect hp hX nIter he hv qr id
  have h6 := emProg_alone (cls (obj i)) qr (obj i) X nIter arg (a.object n m)
  rw [h1] at h6
  have h7 := this.trans h6
  exact ⟨a', q, err, congrArg Prod.fst h7, congrArg Prod.snd h7, h2, h3, h4, h5⟩

/-- The number of reads and assignments of a call is at most this. -/
def TCall.bound : TCall → ℕ
  | .em _ nIter _ => 19 * nIter + 31
  | _ => 14

theorem prog_within (cls : KFClass) (qr : QR) (o : ℕ) (c : TCall) :
    (c.prog cls qr o).Within c.bound := by
  cases c with
  | em X nIter arg => exact emProg_within cls qr o X nIter arg
  | _ =>
    simp only [TCall.prog, TCall.bound, getParams, Prog.Within]
    intros
    trivial

/-- **C85.** No schedule leads to a deadlock or goes on for ever: the threads make at most a number of
steps known in advance, and as long as one of the calls has not returned, a step is possible. -/
theorem C85_terminates [Fintype ι] (cls : ℕ → KFClass) (qr : QR) (obj : ι → ℕ) (call : ι → TCall)
    {h₀ : Objects} {s : (ι → Prog TResult) × Objects} {N : ℕ}
    (run : TRun N (callPool cls qr obj call, h₀) s) :
    N ≤ ∑ i, (call i).bound ∧ ((∃ i, ∀ r, s.1 i ≠ .ret r) → ∃ s', TStep s s') := by
  constructor
  · obtain ⟨N', -, h⟩ := run.within (N := fun i => (call i).bound) fun i => prog_within ..
    omega
  · rintro ⟨i, hi⟩
    by_contra hs
    push Not at hs
    obtain ⟨r, hr⟩ := (stuck_iff s).mp hs i
    exact hi r hr

theorem mixture_mat {k l : ℕ} {dflt : Mat k l} {x y : Option NDArray} {M : TV (Mat k l)}
    (h : MatArg dflt x M) {seen : TV (Mat k l) → Prop} (h0 : seen M)
    (hy : y = x ∨ ∃ M', seen M' ∧ y = some (ndOfMats M')) :
    ∃ M', seen M' ∧ MatArg dflt y M' := by
  rcases hy with rfl | ⟨M', h1, rfl⟩
  · exact ⟨M, h0, h⟩
  · exact ⟨M', h1, .ofMats _ _⟩

theorem mixture_vec {k : ℕ} {x y : Option NDArray} {v : TV (Vec k)}
    (h : VecArg x v) {seen : TV (Vec k) → Prop} (h0 : seen v)
    (hy : y = x ∨ ∃ v', seen v' ∧ y = some (ndOfVecs v')) :
    ∃ v', seen v' ∧ VecArg y v' := by
  rcases hy with rfl | ⟨v', h1, rfl⟩
  · exact ⟨v, h0, h⟩
  · exact ⟨v', h1, .ofVecs _⟩

/-- **C85.** While `em` of an object runs in one thread, other threads call its `filter`, `smooth`,
`loglikelihood` or `filter_update`.  In any schedule such a call answers what it answers for
parameters each of which is that before or after some iteration of `em`; but not necessarily all of
them after the same iteration. -/
theorem C85_mixture (cls : ℕ → KFClass) (qr : QR) (obj : ι → ℕ) (call : ι → TCall) {h₀ h : Objects}
    {pool : ι → Prog TResult}
    (run : ReflTransGen TStep (callPool cls qr obj call, h₀) (pool, h)) {w : ι} {X : MArray}
    {nIter : ℕ} {arg : Option EmNames} (hw : call w = .em X nIter arg)
    (hem : ∀ j, j ≠ w → obj j = obj w → ¬ (call j).IsEm) {a : KFArgs} {p : Params n m}
    (hp : a.Means p) (ho : h₀ (obj w) = a.object n m) {os : List (Obs m)} (hX : DataArg X os)
    {e : EmNames} (he : ChosenNames (cls (obj w)) a.emVars arg e) {vars : EmVar → Bool}
    (hv : Selects e vars) {i : ι} (hi : obj i = obj w) (hc : (call i).FitsRead n m) {r : TResult}
    (hr : pool i = .ret r) :
    ∃ p', IsMixture (cls (obj w)) qr p os vars nIter p' ∧
      Answers (cls (obj w)) qr p' (call i) r := by
  have hwi : w ≠ i := by
    rintro rfl
    exact FitsRead.not_em hc (by rw [hw]; trivial)
  obtain ⟨S, hS⟩ : ∃ S : (f : Attr) → f.Ty → Prop, S = fun f v =>
      v = (a.object n m).getAttr f ∨ ∃ j ≤ nIter, ∃ q,
        (cls (obj w)).iterations qr id p os vars j = .ok q ∧
        v = ((a.object n m).setParams q).getAttr f := ⟨_, rfl⟩
  have key := runs_mixture run (w := w) (i := i) (o := obj w) hwi (S := S)
    (post := fun r => ∃ k : KF, (∀ f, f ≠ .emVars' → S f (k.getAttr f)) ∧
      r = k.computed (cls (obj w)) qr (call i)) (TCall.prog_on ..)
    (fun j hj => TCall.prog_spares _ _ _ _ fun hj' e => hem j hj e hj')
    (by intro f; dsimp only; rw [hS, ho]; exact .inl rfl)
    (by
      show Prog.Assigns S ((call w).prog _ _ _) _
      rw [hw]
      dsimp only
      rw [ho]
      refine emProg_assigns hp hX _ qr _ nIter he hv S fun j hj q hq f => ?_
      rw [hS]
      exact .inr ⟨j, hj, q, hq, rfl⟩)
    (by rw [← hi]; exact TCall.prog_on ..)
    (by
      show Prog.Ensures S _ ((call i).prog _ _ _)
      rw [TCall.prog_reads _ _ _ (FitsRead.not_em hc), hi]
      exact getParams_ensures (obj w) S fun k => k.computed (cls (obj w)) qr (call i))
  dsimp only at key
  rw [hr] at key
  obtain ⟨k, hk, rfl⟩ := key
  rw [hS] at hk
  have hz : (cls (obj w)).iterations qr id p os vars 0 = .ok p := by
    rw [iterations_eq_runOf, runOf_zero]
  obtain ⟨seen, hseen⟩ : ∃ seen : {β : Type} → (Params n m → β) → β → Prop, @seen = fun β F v =>
      ∃ j ≤ nIter, ∃ q, (cls (obj w)).iterations qr id p os vars j = .ok q ∧ v = F q := ⟨_, rfl⟩
  have seen0 {β : Type} (F : Params n m → β) : seen F (F p) := by
    rw [hseen]; exact ⟨0, Nat.zero_le _, p, hz, rfl⟩
  have hA : k.A = a.A ∨ ∃ M, seen Params.A M ∧ k.A = some (ndOfMats M) := by
    refine (hk .transitionMatrices nofun).imp id fun ⟨j, hj, q, hq, h⟩ => ⟨q.A, ?_, h⟩
    rw [hseen]; exact ⟨j, hj, q, hq, rfl⟩
  have hC : k.C = a.C ∨ ∃ M, seen Params.C M ∧ k.C = some (ndOfMats M) := by
    refine (hk .observationMatrices nofun).imp id fun ⟨j, hj, q, hq, h⟩ => ⟨q.C, ?_, h⟩
    rw [hseen]; exact ⟨j, hj, q, hq, rfl⟩
  have hQ : k.Q = a.Q ∨ ∃ M, seen Params.Q M ∧ k.Q = some (ndOfMats M) := by
    refine (hk .transitionCovariance nofun).imp id fun ⟨j, hj, q, hq, h⟩ => ⟨q.Q, ?_, h⟩
    rw [hseen]; exact ⟨j, hj, q, hq, rfl⟩
  have hR : k.R = a.R ∨ ∃ M, seen Params.R M ∧ k.R = some (ndOfMats M) := by
    refine (hk .observationCovariance nofun).imp id fun ⟨j, hj, q, hq, h⟩ => ⟨q.R, ?_, h⟩
    rw [hseen]; exact ⟨j, hj, q, hq, rfl⟩
  have hb : k.b = a.b ∨ ∃ M, seen Params.b M ∧ k.b = some (ndOfVecs M) := by
    refine (hk .transitionOffsets nofun).imp id fun ⟨j, hj, q, hq, h⟩ => ⟨q.b, ?_, h⟩
    rw [hseen]; exact ⟨j, hj, q, hq, rfl⟩
  have hd : k.d = a.d ∨ ∃ M, seen Params.d M ∧ k.d = some (ndOfVecs M) := by
    refine (hk .observationOffsets nofun).imp id fun ⟨j, hj, q, hq, h⟩ => ⟨q.d, ?_, h⟩
    rw [hseen]; exact ⟨j, hj, q, hq, rfl⟩
  have hmu : k.mu0 = a.mu0 ∨ ∃ q, seen Params.mu0 q ∧ k.mu0 = some (ndOfVec q) := by
    refine (hk .initialStateMean nofun).imp id fun ⟨j, hj, q, hq, h⟩ => ⟨q.mu0, ?_, h⟩
    rw [hseen]; exact ⟨j, hj, q, hq, rfl⟩
  have hS0 : k.S0 = a.S0 ∨ ∃ q, seen Params.S0 q ∧ k.S0 = some (ndOfMat q) := by
    refine (hk .initialStateCovariance nofun).imp id fun ⟨j, hj, q, hq, h⟩ => ⟨q.S0, ?_, h⟩
    rw [hseen]; exact ⟨j, hj, q, hq, rfl⟩
  have hrs : k.randomState = a.randomState := by
    rcases hk .randomState nofun with h | ⟨_, _, _, _, h⟩ <;> exact h
  have hev : k.emVars = a.emVars := by
    rcases hk .emVars nofun with h | ⟨_, _, _, _, h⟩ <;> exact h
  have hn : k.nDimState = n := by
    rcases hk .nDimState nofun with h | ⟨_, _, _, _, h⟩ <;> exact h
  have hm : k.nDimObs = m := by
    rcases hk .nDimObs nofun with h | ⟨_, _, _, _, h⟩ <;> exact h
  obtain ⟨A', sA, mA⟩ := mixture_mat hp.A (seen0 Params.A) hA
  obtain ⟨C', sC, mC⟩ := mixture_mat hp.C (seen0 Params.C) hC
  obtain ⟨Q', sQ, mQ⟩ := mixture_mat hp.Q (seen0 Params.Q) hQ
  obtain ⟨R', sR, mR⟩ := mixture_mat hp.R (seen0 Params.R) hR
  obtain ⟨b', sb, mb⟩ := mixture_vec hp.b (seen0 Params.b) hb
  obtain ⟨d', sd, md⟩ := mixture_vec hp.d (seen0 Params.d) hd
  obtain ⟨mu', smu, mmu⟩ : ∃ v, seen Params.mu0 v ∧ VecArg k.mu0 (.const v) := by
    rcases hmu with h | ⟨q, h1, h2⟩
    · exact ⟨p.mu0, seen0 _, h ▸ hp.mu0⟩
    · exact ⟨q, h1, h2 ▸ .ofVecs (.const q)⟩
  obtain ⟨S', sS, mS⟩ : ∃ v, seen Params.S0 v ∧ MatArg (eyeMat n n) k.S0 (.const v) := by
    rcases hS0 with h | ⟨q, h1, h2⟩
    · exact ⟨p.S0, seen0 _, h ▸ hp.S0⟩
    · exact ⟨q, h1, h2 ▸ .ofMats _ (.const q)⟩
  have none_of {x y : Option NDArray} {β : Type} {s : β → Prop} {f : β → NDArray}
      (h : y = x ∨ ∃ M, s M ∧ y = some (f M)) (hy : y = none) : x = none := by
    rcases h with rfl | ⟨M, -, h⟩
    · exact hy
    · rw [h] at hy; cases hy
  obtain ⟨a', ha'⟩ : ∃ a' : KFArgs, a' = ⟨k.A, k.C, k.Q, k.R, k.b, k.d, k.mu0, k.S0, k.randomState,
    k.emVars, a.nDimState, a.nDimObs⟩ := ⟨_, rfl⟩
  have hM : a'.Means ⟨A', b', Q', C', d', R', mu', S'⟩ := by
    rw [ha']
    exact ⟨hp.dimState, hp.dimObs,
      fun h1 h2 h3 h4 h5 h6 h7 => hp.noState (none_of hA h1) (none_of hb h2)
        (none_of hQ h3) (none_of hmu h4) (none_of hS0 h5)
        (none_of hC h6) h7,
      fun h1 h2 h3 h4 => hp.noObs (none_of hC h1) (none_of hd h2)
        (none_of hR h3) h4,
      mA, mb, mQ, mC, md, mR, mmu, mS, hrs ▸ hp.seed⟩
  refine ⟨⟨A', b', Q', C', d', R', mu', S'⟩, ?_, ?_⟩
  · rw [hseen] at sA sb sQ sC sd sR smu sS
    exact ⟨sA, sb, sQ, sC, sd, sR, smu, sS⟩
  · have h1 := answers_computed hM (cls (obj w)) qr hc
    have h2 : (a'.object n m) = { k with emVars' := k.emVars.getD defaultEmNames } := by
      rw [ha', ← hn, ← hm]
      rfl
    rw [h2, computed_unread] at h1
    exact h1

/-! ### A mixture that is neither the old nor the new parameters -/

/-- A constant that is measured, with initial mean `μ` and variance `s`. -/
def tornParams (μ s : ℝ) : Params 1 1 :=
  ⟨.const !![1], .const ![0], .const !![1], .const !![1], .const ![0], .const !![1], ![μ], !![s]⟩

/-- The data: one measurement. -/
def tornObs : List (Obs 1) := [⟨![2], ![false]⟩]

/-- The data as an array. -/
def tornData : MArray := ⟨[1], fun _ => 2, fun _ => false⟩

/-- The arguments of the constructor. -/
noncomputable def tornArgs (μ s : ℝ) : KFArgs := ({} : KFArgs).withParams (tornParams μ s)

/-- The variables to be estimated. -/
def tornNames : EmNames := .names ["initial_state_mean", "initial_state_covariance"]

/-- The variables to be estimated. -/
def tornVars (v : EmVar) : Bool := decide (v = .initialStateMean ∨ v = .initialStateCovariance)

theorem tornArgs_means (μ s : ℝ) : (tornArgs μ s).Means (tornParams μ s) :=
  ⟨nofun, nofun, nofun, nofun, .ofMats _ _, .ofVecs _, .ofMats _ _, .ofMats _ _, .ofVecs _,
    .ofMats _ _, .ofVecs (.const _), .ofMats _ (.const _), by
      show SeedValid none
      trivial⟩

theorem tornData_arg : DataArg tornData tornObs := by
  refine .numbers rfl (by simp [tornObs]) rfl ?_
  intro t ht j
  obtain rfl : t = 0 := by simp [tornObs] at ht; omega
  fin_cases j
  exact ⟨rfl, rfl⟩

theorem tornVars_selects : Selects tornNames tornVars := by
  simp [Selects, tornNames, tornVars]

theorem torn_kf (μ : ℝ) {s : ℝ} (hs : 0 < s) :
    ((tornParams μ s).fn.kf (obsFn tornObs) 0).filtMean = ![μ + s / (s + 1) * (2 - μ)] ∧
    ((tornParams μ s).fn.kf (obsFn tornObs) 0).filtCov = !![s - s / (s + 1) * s] :=
  kf_scalar rfl rfl rfl rfl rfl rfl (by positivity)

theorem torn_filter (μ : ℝ) {s : ℝ} (hs : 0 < s) : kfFilter (tornParams μ s) tornObs
    = .ok [(![μ + s / (s + 1) * (2 - μ)], !![s - s / (s + 1) * s])] := by
  have hc : (tornParams μ s).Covers tornObs.length :=
    ⟨trivial, trivial, trivial, trivial, trivial, trivial⟩
  rw [kfFilter_eq hc]
  obtain ⟨h1, h2⟩ := torn_kf μ hs
  simp only [tornObs, List.length_singleton, List.range_one, List.map_cons, List.map_nil]
  rw [← h1, ← h2]
  rfl

theorem torn_em : kfEm (tornParams 0 1) tornObs 1 tornVars = .ok (tornParams 1 (1 / 2)) := by
  have hc : (tornParams 0 1).Covers tornObs.length :=
    ⟨trivial, trivial, trivial, trivial, trivial, trivial⟩
  obtain ⟨q, h1, -, h3⟩ := emIter_ok (given := tornParams 0 1) (p := tornParams 0 1)
    (vars := tornVars) (os := tornObs) (by decide) hc hc
  obtain ⟨e1, e2⟩ := torn_kf 0 one_pos
  have hmu : q.mu0 = ![1] := by
    rw [h3.mu0, if_pos (by simp [tornVars])]
    simp only [PFun.stats, tornObs, List.length_singleton, Nat.sub_self]
    rw [PFun.ks_last]
    show ((tornParams 0 1).fn.kf (obsFn tornObs) 0).filtMean = _
    rw [e1]
    norm_num
  have hS : q.S0 = !![1 / 2] := by
    rw [h3.S0, if_pos (by simp [tornVars]), h3.mu0, if_pos (by simp [tornVars]), sub_self]
    simp only [PFun.stats, tornObs, List.length_singleton, Nat.sub_self]
    rw [PFun.ks_last]
    show ((tornParams 0 1).fn.kf (obsFn tornObs) 0).filtCov + _ = _
    rw [e2]
    simp
    norm_num
  rw [kfEm, emLoop_succ, h1]
  have hq : q = tornParams 1 (1 / 2) := by
    obtain ⟨A, b, Q, C, d, R, mu0, S0⟩ := q
    have hA := h3.A
    have hb := h3.b
    have hQ := h3.Q
    have hC := h3.C
    have hd := h3.d
    have hR := h3.R
    rw [if_neg (by simp [tornVars])] at hA hb hQ hC hd hR
    dsimp only at hA hb hQ hC hd hR hmu hS
    subst hA hb hQ hC hd hR hmu hS
    rfl
  rw [hq]
  rfl

theorem torn_em_alone (qr : QR) : (emProg .standard qr 0 tornData 1 (some tornNames)).alone
    ((tornArgs 0 1).object 1 1) = (.fitted none, (tornArgs 1 (1 / 2)).object 1 1) := by
  have h := emProg_alone .standard qr 0 tornData 1 (some tornNames) ((tornArgs 0 1).object 1 1)
  have hs := emIterate_stops .standard qr id (tornParams 0 1) tornObs tornVars 1
  rw [Means.emEffect_eq (tornArgs_means 0 1) tornData_arg 1
    (KFArgs.selectionOf (.inCall rfl) tornVars_selects) qr id] at h
  have hq : (KFClass.standard).iterations qr id (tornParams 0 1) tornObs tornVars 1
    = .ok (tornParams 1 (1 / 2)) := torn_em
  generalize emIterate .standard qr (tornParams 0 1) tornVars tornObs 1 id (tornParams 0 1) = r
    at h hs
  obtain ⟨q, err⟩ := r
  dsimp only at h hs
  have : q = tornParams 1 (1 / 2) ∧ err = none := by
    cases hs with
    | returns h' => rw [hq] at h'; cases h'; exact ⟨rfl, rfl⟩
    | raises k hk err h' h'' =>
      obtain rfl : k = 0 := by omega
      rw [hq] at h''
      cases h''
  obtain ⟨rfl, rfl⟩ := this
  exact h

/-- Two threads. -/
def twoThreads {α : Type} (P R : Prog α) : Bool → Prog α := fun i => if i then P else R

theorem twoThreads_get {α : Type} (P : Prog α) (h : Objects) (o : ℕ) (f : Attr)
    (k : f.Ty → Prog α) {s : (Bool → Prog α) × Objects}
    (next : ReflTransGen TStep (twoThreads P (k ((h o).getAttr f)), h) s) :
    ReflTransGen TStep (twoThreads P (.get o f k), h) s := by
  refine .head (TStep.get h false (o := o) (f := f) (k := k) rfl) ?_
  have : Function.update (twoThreads P (.get o f k)) false (k ((h o).getAttr f))
      = twoThreads P (k ((h o).getAttr f)) := by
    funext i
    cases i <;> rfl
  rw [this]
  exact next

/-- **C85, what is not guaranteed.** While `em` of an object runs in one thread, `filter` of the same
object called in another thread can return estimates that neither the parameters before nor those
after any iteration lead to: the initial mean is read before, the initial covariance after `em`
assigns to them.  Here `em` makes one iteration; `filter` alone returns the mean `1` before it and
`4 / 3` after it, but `2 / 3` if it is called at the same time. -/
theorem C85_torn (qr : QR) : ∃ (a : KFArgs) (p : Params 1 1) (X : MArray) (os : List (Obs 1))
    (names : EmNames) (pool : Bool → Prog TResult) (h : Objects), a.Means p ∧ DataArg X os ∧
    ReflTransGen TStep
      (callPool (fun _ => .standard) qr (fun _ => 0)
        (fun i => if i then .em X 1 (some names) else .filter X), fun _ => a.object 1 1) (pool, h) ∧
    pool true = .ret (.fitted none) ∧
    pool false = .ret (.estimates 1 (.ok [(![2 / 3], !![1 / 3])])) ∧
    (a.object 1 1).computed .standard qr (.filter X)
      = .estimates 1 (.ok [(![1], !![1 / 2])]) ∧
    (h 0).computed .standard qr (.filter X)
      = .estimates 1 (.ok [(![4 / 3], !![1 / 3])]) := by
  have comp (μ : ℝ) {s : ℝ} (hs : 0 < s) :
      ((tornArgs μ s).object 1 1).computed .standard qr (.filter tornData)
        = .estimates 1 (.ok [(![μ + s / (s + 1) * (2 - μ)], !![s - s / (s + 1) * s])]) := by
    obtain ⟨-, ⟨h1, -⟩, -⟩ := C58_methods (tornArgs_means μ s) tornData_arg qr id
    simp only [KF.computed]
    rw [h1, torn_filter μ hs]
    rfl
  obtain ⟨h₀, hh₀⟩ : ∃ h₀ : Objects, h₀ = fun _ => (tornArgs 0 1).object 1 1 := ⟨_, rfl⟩
  obtain ⟨E, hE⟩ : ∃ E, E = emProg .standard qr 0 tornData 1 (some tornNames) := ⟨_, rfl⟩
  obtain ⟨F, hF⟩ : ∃ F : Prog TResult, F =
      .get 0 .initialStateCovariance fun (S0 : Option NDArray) =>
      .get 0 .randomState fun (rs : Option Seed) =>
      .get 0 .emVars fun (ev : Option EmNames) =>
      .get 0 .nDimState fun (n : ℕ) =>
      .get 0 .nDimObs fun (m : ℕ) =>
      .ret (KF.computed .standard qr ⟨(tornArgs 0 1).A, (tornArgs 0 1).C, (tornArgs 0 1).Q,
        (tornArgs 0 1).R, (tornArgs 0 1).b, (tornArgs 0 1).d, (tornArgs 0 1).mu0, S0, rs, ev, n, m,
        defaultEmNames⟩ (.filter tornData)) := ⟨_, rfl⟩
  have s1 : ReflTransGen TStep (callPool (fun _ => .standard) qr (fun _ => 0)
      (fun i => if i then .em tornData 1 (some tornNames) else .filter tornData), h₀)
      (twoThreads E F, h₀) := by
    have e : callPool (fun _ => .standard) qr (fun _ => 0)
        (fun i => if i then .em tornData 1 (some tornNames) else .filter tornData)
        = twoThreads E (getParams 0 fun k => .ret (k.computed .standard qr (.filter tornData))) := by
      funext i
      cases i
      · rfl
      · rw [hE]; rfl
    rw [e, hF, hh₀]
    iterate 9 refine twoThreads_get _ _ _ _ _ ?_
    exact .refl
  have s2 := alone_run true (o := 0) E (by rw [hE]; exact emProg_on ..) (twoThreads E F) h₀ rfl
  have e2 : E.alone (h₀ 0) = (.fitted none, (tornArgs 1 (1 / 2)).object 1 1) := by
    rw [hE, hh₀]; exact torn_em_alone qr
  rw [e2] at s2
  dsimp only at s2
  have s3 := alone_run false (o := 0) F (by simp [hF, Prog.On])
    (Function.update (twoThreads E F) true (.ret (.fitted none)))
    (Function.update h₀ 0 ((tornArgs 1 (1 / 2)).object 1 1)) rfl
  have e3 : F.alone (Function.update h₀ 0 ((tornArgs 1 (1 / 2)).object 1 1) 0)
      = (.estimates 1 (.ok [(![2 / 3], !![1 / 3])]), (tornArgs 1 (1 / 2)).object 1 1) := by
    rw [Function.update_self, hF]
    have : ((tornArgs 0 (1 / 2)).object 1 1).computed .standard qr (.filter tornData)
        = .estimates 1 (.ok [(![2 / 3], !![1 / 3])]) := by
      rw [comp 0 (by norm_num : (0 : ℝ) < 1 / 2)]
      norm_num
    rw [← this]
    rfl
  rw [e3] at s3
  have s4 := (s1.trans s2).trans s3
  rw [hh₀] at s4
  refine ⟨tornArgs 0 1, tornParams 0 1, tornData, tornObs, tornNames, _, _, tornArgs_means 0 1,
    tornData_arg, s4, rfl, rfl, ?_, ?_⟩
  · rw [comp 0 one_pos]
    norm_num
  · rw [Function.update_self]
    rw [comp 1 (by norm_num : (0 : ℝ) < 1 / 2)]
    norm_num

/-! ### The hypotheses can be met -/

/-- Two threads filter and smooth with the same object while a third one fits another object: the
hypotheses of `C85_readers` for the first object and of `C85_em` for the second, and a run to the
end of all three calls. -/
example (qr : QR) : let obj : Fin 3 → ℕ := ![0, 0, 1]
    let call : Fin 3 → TCall := ![.filter tornData, .smooth tornData,
      .em tornData 1 (some tornNames)]
    (∀ j, obj j = 0 → ¬ (call j).IsEm) ∧ (∀ j, j ≠ 2 → obj j = obj 2 → ¬ (call j).IsEm) ∧
    (call 0).FitsRead 1 1 ∧ (call 1).FitsRead 1 1 ∧
    ChosenNames .standard (tornArgs 0 1).emVars (some tornNames) tornNames ∧
    ∃ s, ReflTransGen TStep (callPool (fun _ => .standard) qr obj call,
        fun _ => (tornArgs 0 1).object 1 1) s ∧ ∀ i, ∃ r, s.1 i = .ret r := by
  intro obj call
  refine ⟨?_, ?_, ⟨_, tornData_arg⟩, ⟨_, tornData_arg⟩, .inCall rfl, ?_⟩
  · intro j hj
    fin_cases j
    · exact id
    · exact id
    · cases hj
  · intro j hj _
    fin_cases j
    · exact id
    · exact id
    · exact (hj rfl).elim
  · exact exists_finish _ (N := fun i => (call i).bound) fun i => prog_within ..

end Verif
