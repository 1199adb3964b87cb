import Verif.Proofs.MemorySample
import Verif.Proofs.MemoryCholeskyMethods
import Verif.Proofs.MemoryBiermanMethods

/-!
# C87: arrays in memory

`KalmanFilter` keeps the arrays it is given, hands views of them to its loops and assigns rows of
the arrays it has allocated.  No method changes an array of the caller; the arrays returned are new
and hold the rows computed on values (C01–C27 and C58 say what those are); a method reads the
contents its arrays have at the time of the call.
-/

open Matrix

namespace Verif

variable {n m : ℕ}

/-- A call of any method with any arrays whatever, whether it returns or raises, leaves every array
that existed before as it was. -/
theorem C87_unchanged (h : Heap) (c : Act) (hc : ∀ a, ¬ c.Writes a) : h.Keeps (c.exec h) := by
  cases c with
  | filter k X => exact keeps_of_touch (frame_filter k X h)
  | smooth k X => exact keeps_of_touch (frame_smooth k X h)
  | filterUpdate k mean cov o a => exact keeps_of_touch (frame_filterUpdate k mean cov o a h)
  | loglikelihood k X => exact keeps_of_touch (frame_loglikelihood k X h)
  | em k X nIter arg => exact keeps_of_touch (frame_em k X nIter arg h)
  | sample σ rng k T initial gen => exact keeps_of_touch (frame_sample rng k T initial gen h)
  | cholFilter qr k X => exact keeps_of_touch (frame_cholFilter qr k X h)
  | cholSmooth qr k X => exact keeps_of_touch (frame_cholSmooth qr k X h)
  | cholFilterUpdate qr k mean cov o a =>
    exact keeps_of_touch (frame_cholFilterUpdate qr k mean cov o a h)
  | cholLoglikelihood qr k X => exact keeps_of_touch (frame_cholLoglikelihood qr k X h)
  | cholEm qr k X nIter arg => exact keeps_of_touch (frame_cholEm qr k X nIter arg h)
  | bierFilter store k X => exact keeps_of_touch (frame_bierFilter store k X h)
  | bierSmooth store k X => exact keeps_of_touch (frame_bierSmooth store k X h)
  | bierFilterUpdate store k mean cov o a =>
    exact keeps_of_touch (frame_bierFilterUpdate store k mean cov o a h)
  | bierLoglikelihood store k X => exact keeps_of_touch (frame_bierLoglikelihood store k X h)
  | bierEm store k X nIter arg => exact keeps_of_touch (frame_bierEm store k X nIter arg h)
  | create a => exact keeps_of_touch (frame_newArray ∅ a h)
  | write addr f => exact absurd rfl (hc addr)

theorem exec_block (h : Heap) (c : Act) {a : ℕ} (ha : a < h.next) (hc : ¬ c.Writes a) :
    (c.exec h).block a = h.block a := by
  by_cases hw : ∀ b, ¬ c.Writes b
  · exact (C87_unchanged h c hw).2 a ha
  · cases c with
    | write addr f => exact Function.update_of_ne (fun e => hc e.symm) _ _
    | _ => exact absurd (fun b hb => hb) hw

theorem exec_next (h : Heap) (c : Act) : h.next ≤ (c.exec h).next := by
  by_cases hw : ∀ b, ¬ c.Writes b
  · exact (C87_unchanged h c hw).1
  · cases c with
    | write addr f => exact le_rfl
    | _ => exact absurd (fun b hb => hb) hw

/-- Whatever a program does afterwards, in whatever order, with whatever exceptions: an array keeps
its entries and its mask as long as the program itself does not change that array in place. -/
theorem C87_history (l : List Act) : ∀ (h : Heap) (r : ARef), r.addr < h.next →
    (∀ c ∈ l, ¬ c.Writes r.addr) →
    r.nd (l.foldl Act.exec h) = r.nd h ∧ r.ma (l.foldl Act.exec h) = r.ma h := by
  induction l with
  | nil => exact fun h r _ _ => ⟨rfl, rfl⟩
  | cons c l ih =>
    intro h r hr hl
    have hb := exec_block h c hr (hl c (by simp))
    obtain ⟨h1, h2⟩ := ih (c.exec h) r (hr.trans_le (exec_next h c)) fun c hc => hl c (by simp [hc])
    rw [List.foldl_cons, h1, h2]
    exact ⟨by rw [ARef.nd, ARef.nd, hb], by rw [ARef.ma, ARef.ma, hb]⟩

/-- `filter` on arrays: it returns, or raises the exception, that the filter on the present values
does; the two arrays returned are new, different, and hold its rows. -/
theorem C87_filter {k : KFRef} {X : ARef} {h : Heap} (hk : k.Valid h) (hX : X.addr < h.next)
    {r : Res (List (Vec k.nDimState × Mat k.nDimState k.nDimState))}
    (hr : (k.value h).filter (X.ma h) = some r) :
    ∃ res h', k.filter X h = (res, h') ∧ h.Keeps h' ∧
      (∀ l, r = .ok l → ∃ a b, res = .ok (a, b) ∧ h.next ≤ a.addr ∧ a.addr < h'.next ∧
        h.next ≤ b.addr ∧ b.addr < h'.next ∧ a.addr ≠ b.addr ∧ HoldsRows h' a b l) ∧
      (∀ e, r = .error e → res = .error e) := by
  refine ⟨(k.filter X h).1, (k.filter X h).2, rfl, C87_unchanged h (.filter k X) fun _ hf => hf, ?_⟩
  obtain ⟨hok, herr⟩ := filter_result hk hX hr
  rcases hres : (k.filter X h).1 with e | q
  · have := herr e hres
    subst this
    exact ⟨fun l hl => (by cases hl), fun e he => (by cases he; rfl)⟩
  · obtain ⟨l, rfl, h1, h2, h3, h4, h5, h6⟩ := hok q hres
    refine ⟨?_, fun e he => (by cases he)⟩
    rintro _ ⟨⟩
    exact ⟨q.1, q.2, rfl, h1, h2, h3, h4, h5, h6⟩

/-- `smooth` on arrays. -/
theorem C87_smooth {k : KFRef} {X : ARef} {h : Heap} (hk : k.Valid h) (hX : X.addr < h.next)
    {r : Res (List (Vec k.nDimState × Mat k.nDimState k.nDimState))}
    (hr : (k.value h).smooth (X.ma h) = some r) :
    ∃ res h', k.smooth X h = (res, h') ∧ h.Keeps h' ∧
      (∀ l, r = .ok l → ∃ a b, res = .ok (a, b) ∧ h.next ≤ a.addr ∧ a.addr < h'.next ∧
        h.next ≤ b.addr ∧ b.addr < h'.next ∧ a.addr ≠ b.addr ∧ HoldsRows h' a b l) ∧
      (∀ e, r = .error e → res = .error e) := by
  refine ⟨(k.smooth X h).1, (k.smooth X h).2, rfl, C87_unchanged h (.smooth k X) fun _ hf => hf, ?_⟩
  obtain ⟨hok, herr⟩ := smooth_result hk hX hr
  rcases hres : (k.smooth X h).1 with e | q
  · have := herr e hres
    subst this
    exact ⟨fun l hl => (by cases hl), fun e he => (by cases he; rfl)⟩
  · obtain ⟨l, rfl, h1, h2, h3, h4, h5, h6⟩ := hok q hres
    refine ⟨?_, fun e he => (by cases he)⟩
    rintro _ ⟨⟩
    exact ⟨q.1, q.2, rfl, h1, h2, h3, h4, h5, h6⟩

/-- `filter_update` on arrays: the state of the caller is not updated in place, also where the
observation is missing; the two arrays returned are new and hold the new state. -/
theorem C87_update {k : KFRef} {mean cov : ARef} {o : Option ARef} {a : UpdateRefs}
    {h : Heap} (hk : k.Valid h) (hmean : mean.addr < h.next) (hcov : cov.addr < h.next)
    (ho : ∀ r, o = some r → r.addr < h.next) (ha : a.Fits k.nDimState k.nDimObs h)
    {r : Res (Vec k.nDimState × Mat k.nDimState k.nDimState)}
    (hr : (k.value h).filterUpdate (mean.vec k.nDimState h) (cov.mat k.nDimState k.nDimState h)
      (o.map (ARef.obs k.nDimObs h)) (a.value k.nDimState k.nDimObs h) = some r) :
    ∃ res h', k.filterUpdate mean cov o a h = (res, h') ∧ h.Keeps h' ∧
      (∀ v V, r = .ok (v, V) → ∃ a b, res = .ok (a, b) ∧ h.next ≤ a.addr ∧ a.addr < h'.next ∧
        h.next ≤ b.addr ∧ b.addr < h'.next ∧ a.addr ≠ b.addr ∧
        (∀ i : Fin k.nDimState, (a.nd h').data [i] = v i) ∧
        (∀ i j : Fin k.nDimState, (b.nd h').data [i, j] = V i j)) ∧
      (∀ e, r = .error e → res = .error e) := by
  refine ⟨(k.filterUpdate mean cov o a h).1, (k.filterUpdate mean cov o a h).2, rfl, C87_unchanged h (.filterUpdate k mean cov o a) fun _ hf => hf, ?_⟩
  obtain ⟨hok, herr⟩ := filterUpdate_result hk hmean hcov ho ha hr
  rcases hres : (k.filterUpdate mean cov o a h).1 with e | q
  · have := herr e hres
    subst this
    exact ⟨fun v V hv => (by cases hv), fun e he => (by cases he; rfl)⟩
  · obtain ⟨rfl, h1, h2, h3, h4, h5⟩ := hok q hres
    refine ⟨?_, fun e he => (by cases he)⟩
    rintro v V hv
    have hv' := Except.ok.inj hv
    rw [Prod.mk.injEq] at hv'
    obtain ⟨rfl, rfl⟩ := hv'
    exact ⟨q.1, q.2, rfl, h1, h2, h3, h4, h5, fun _ => rfl, fun _ _ => rfl⟩

/-- `loglikelihood` on arrays. -/
theorem C87_loglikelihood {k : KFRef} {X : ARef} {h : Heap} (hk : k.Valid h)
    (hX : X.addr < h.next) {r : Res ℝ} (hr : (k.value h).loglikelihood (X.ma h) = some r) :
    ∃ h', k.loglikelihood X h = (r, h') ∧ h.Keeps h' :=
  ⟨_, Prod.ext (loglik_result hk hX hr) rfl,
    C87_unchanged h (.loglikelihood k X) fun _ hf => hf⟩

/-- `em` on arrays: the parameters of the object are afterwards those that `em` on values gives; the
estimated ones are in new arrays, and every other attribute is still the array the object was given
(C76 says what the object holds after an exception). -/
theorem C87_em {k : KFRef} {X : ARef} {h : Heap} {nIter : ℕ} {arg : Option EmNames} {qr : QR}
    {store : ℝ → ℝ} (hk : k.Valid h) (hX : X.addr < h.next)
    {r : Res (Params k.nDimState k.nDimObs)}
    (hr : (k.value h).em .standard qr store (X.ma h) nIter arg = some r) :
    ∃ res h', k.em X nIter arg h = (res, h') ∧ h.Keeps h' ∧
      (∀ P, r = .ok P → ∃ k' sel, res = .ok k' ∧ (k.value h).emSelection arg = .ok sel ∧
        k'.Valid h' ∧ (k'.value h').resolvedSpec.typed k.nDimState k.nDimObs = some P ∧
        k'.SameSettings k ∧ ∀ v, KFRef.Kept k k' h v (0 < nIter ∧ sel v = true)) ∧
      (∀ e, r = .error e → res = .error e) := by
  refine ⟨(k.em X nIter arg h).1, (k.em X nIter arg h).2, rfl, C87_unchanged h (.em k X nIter arg) fun _ hf => hf, ?_⟩
  obtain ⟨-, hok, herr⟩ := em_result hk hX hr
  rcases hres : (k.em X nIter arg h).1 with e | k'
  · have := herr e hres
    subst this
    exact ⟨fun l hl => (by cases hl), fun e he => (by cases he; rfl)⟩
  · obtain ⟨P, sel, rfl, h1⟩ := hok k' hres
    refine ⟨?_, fun e he => (by cases he)⟩
    rintro _ ⟨⟩
    exact ⟨k', sel, rfl, h1⟩

/-- `sample` on arrays, for any generator: the array given as initial state is not the first row of the
result, and its rows are those of the sampling algorithm on the present values. -/
theorem C87_sample {σ : Type} {rng : Rng σ} {k : KFRef} {T : ℕ} {initial : Option ARef}
    {gen : Res σ} {h : Heap} (hk : k.Valid h) (hi : ∀ r, initial = some r → r.addr < h.next)
    {rp : Res (Params k.nDimState k.nDimObs)} (hp : (k.value h).params = some rp)
    {r : Res (List (Vec k.nDimState × Vec k.nDimObs))}
    (hr : (rp >>= fun P => gen >>= fun s =>
      kfSample rng P T (initial.map (ARef.vec k.nDimState h)) s) = r) :
    ∃ res h', k.sample rng T initial gen h = (res, h') ∧ h.Keeps h' ∧
      (∀ l, r = .ok l → ∃ a b, res = .ok (a, b) ∧ h.next ≤ a.addr ∧ a.addr < h'.next ∧
        h.next ≤ b.addr ∧ b.addr < h'.next ∧ a.addr ≠ b.addr ∧ HoldsSample h' a b l) ∧
      (∀ e, r = .error e → res = .error e) := by
  refine ⟨(k.sample rng T initial gen h).1, (k.sample rng T initial gen h).2, rfl,
    C87_unchanged h (.sample σ rng k T initial gen) fun _ hf => hf, ?_⟩
  obtain ⟨hok, herr⟩ := sample_result hk hi hp hr
  rcases hres : (k.sample rng T initial gen h).1 with e | q
  · have := herr e hres
    subst this
    exact ⟨fun l hl => (by cases hl), fun e he => (by cases he; rfl)⟩
  · obtain ⟨l, rfl, h1, h2, h3, h4, h5, h6⟩ := hok q hres
    refine ⟨?_, fun e he => (by cases he)⟩
    rintro _ ⟨⟩
    exact ⟨q.1, q.2, rfl, h1, h2, h3, h4, h5, h6⟩

/-- The arrays returned belong to the caller: nothing that happens later to the arrays that existed
before the call, to other objects or to this one changes them. -/
theorem C87_results_stay {k : KFRef} {X : ARef} {h : Heap} (hk : k.Valid h) (hX : X.addr < h.next)
    {l : List (Vec k.nDimState × Mat k.nDimState k.nDimState)}
    (hr : (k.value h).filter (X.ma h) = some (.ok l) ∨ (k.value h).smooth (X.ma h) = some (.ok l)) :
    ∃ a b h', (k.filter X h = (.ok (a, b), h') ∨ k.smooth X h = (.ok (a, b), h')) ∧
      ∀ acts : List Act, (∀ c ∈ acts, ∀ x, c.Writes x → x < h.next) →
        HoldsRows (acts.foldl Act.exec h') a b l := by
  have key : ∀ {a b : ARef} {h' : Heap}, h.next ≤ a.addr → a.addr < h'.next → h.next ≤ b.addr →
      b.addr < h'.next → HoldsRows h' a b l → ∀ acts : List Act,
      (∀ c ∈ acts, ∀ x, c.Writes x → x < h.next) → HoldsRows (acts.foldl Act.exec h') a b l := by
    intro a b h' h1 h2 h3 h4 h5 acts ha
    have ea := (C87_history acts h' a h2 fun c hc hw => by have := ha c hc _ hw; omega).1
    have eb := (C87_history acts h' b h4 fun c hc hw => by have := ha c hc _ hw; omega).1
    exact ⟨h5.shape_means, h5.shape_covs, fun t ht i => by rw [ea, h5.means],
      fun t ht i j => by rw [eb, h5.covs]⟩
  rcases hr with hr | hr
  · obtain ⟨res, h', e, -, hok, -⟩ := C87_filter hk hX hr
    obtain ⟨a, b, rfl, h1, h2, h3, h4, -, h5⟩ := hok l rfl
    exact ⟨a, b, h', .inl e, key h1 h2 h3 h4 h5⟩
  · obtain ⟨res, h', e, -, hok, -⟩ := C87_smooth hk hX hr
    obtain ⟨a, b, rfl, h1, h2, h3, h4, -, h5⟩ := hok l rfl
    exact ⟨a, b, h', .inr e, key h1 h2 h3 h4 h5⟩

/-- The filter on values sees no change. -/
theorem filter_history {k : KFRef} {X : ARef} {h : Heap} (hk : k.Valid h) (hX : X.addr < h.next)
    (acts : List Act) (ha : ∀ c ∈ acts, ¬ c.Writes X.addr ∧ ∀ r ∈ k.arrays, ¬ c.Writes r.addr)
    {r : Option (Res (List (Vec k.nDimState × Mat k.nDimState k.nDimState)))}
    (hr : (k.value h).filter (X.ma h) = r) :
    (k.value (acts.foldl Act.exec h)).filter (X.ma (acts.foldl Act.exec h)) = r := by
  have key : ∀ o : Option ARef, (∀ r, o = some r → r ∈ k.arrays) →
      o.map (ARef.nd (acts.foldl Act.exec h)) = o.map (ARef.nd h) := by
    intro o ho
    cases o with
    | none => rfl
    | some r =>
      exact congrArg some
        (C87_history acts h r (hk r (ho r rfl)) fun c hc => (ha c hc).2 r (ho r rfl)).1
  obtain ⟨f, hf⟩ : ∃ f : Option NDArray → Option NDArray → Option NDArray → Option NDArray →
      Option NDArray → Option NDArray → Option NDArray → Option NDArray → MArray →
      Option (Res (List (Vec k.nDimState × Mat k.nDimState k.nDimState))),
      ∀ A C Q R b d mu0 S0 Z, f A C Q R b d mu0 S0 Z =
        (KF.mk A C Q R b d mu0 S0 k.randomState k.emVars k.nDimState k.nDimObs k.emVars').filter Z :=
    ⟨_, fun A C Q R b d mu0 S0 Z => rfl⟩
  refine (hf _ _ _ _ _ _ _ _ _).symm.trans (Eq.trans ?_ ((hf _ _ _ _ _ _ _ _ _).trans hr))
  rw [key k.A, key k.C, key k.Q, key k.R, key k.b, key k.d, key k.mu0, key k.S0,
    (C87_history acts h X hX fun c hc => (ha c hc).1).2] <;>
  · intro r hr
    simp [KFRef.arrays, hr]

/-- A call repeated later gives the same rows, whatever was called in between (on this object `em`
too: the object it returns is another one), unless the program itself has changed the data or one
of the arrays the object was given. -/
theorem C87_repeatable {k : KFRef} {X : ARef} {h : Heap} (hk : k.Valid h) (hX : X.addr < h.next)
    {l : List (Vec k.nDimState × Mat k.nDimState k.nDimState)}
    (hr : (k.value h).filter (X.ma h) = some (.ok l)) (acts : List Act)
    (ha : ∀ c ∈ acts, ¬ c.Writes X.addr ∧ ∀ r ∈ k.arrays, ¬ c.Writes r.addr) :
    ∃ a b h', k.filter X (acts.foldl Act.exec h) = (.ok (a, b), h') ∧ HoldsRows h' a b l := by
  have hn : ∀ (acts : List Act) (h : Heap), h.next ≤ (acts.foldl Act.exec h).next := by
    intro acts
    induction acts with
    | nil => exact fun h => le_rfl
    | cons c acts ih => exact fun h => (exec_next h c).trans (ih _)
  have h1 : (k.value (acts.foldl Act.exec h)).filter (X.ma (acts.foldl Act.exec h)) =
      some (.ok l) := filter_history hk hX acts ha hr
  obtain ⟨res, h', e, -, hok, -⟩ := C87_filter
    (fun r hr => (hk r hr).trans_le (hn acts h)) (hX.trans_le (hn acts h)) h1
  obtain ⟨a, b, rfl, -, -, -, -, -, h5⟩ := hok l rfl
  exact ⟨a, b, h', e, h5⟩

/-! ### The hypotheses can be met -/

/-- Block 0: a transition matrix given as a number; block 1: three observations, the second missing;
block 2: a mean; block 3: a covariance. -/
def exHeap : Heap := ⟨4, fun a => ⟨fun i => (a : ℝ) + i.headD 0, fun i => a == 1 && i.headD 0 == 1⟩⟩

/-- An object whose transition matrix is in block 0. -/
def exRef : KFRef :=
  ⟨some ⟨0, [], id⟩, none, none, none, none, none, none, none, none, none, 1, 1, .all⟩

def exData : ARef := ⟨1, [3], id⟩

theorem exRef_prepare (h : Heap) : ∃ p os, (exRef.value h).prepare (exData.ma h) = some (.ok (p, os)) ∧
    os.length = 3 ∧ p.Covers 3 := by
  rw [KF.prepare, C26_parameters _ (by rintro s ⟨⟩)]
  refine ⟨_, _, rfl, rfl, ?_⟩
  constructor <;> trivial

theorem emLoop_runs {given : Params n m} {vars : EmVar → Bool} {os : List (Obs m)} (hne : os ≠ [])
    (hg : given.Covers os.length) : ∀ (k : ℕ) (p : Params n m), p.Covers os.length →
    ∃ p', emLoop given vars os k p = .ok p'
  | 0, p, _ => ⟨p, rfl⟩
  | k + 1, p, hc => by
    obtain ⟨p1, e1, c1, -⟩ := emIter_ok (vars := vars) hne hc hg
    rw [emLoop_succ, e1]
    exact emLoop_runs hne hg k p1 c1

/-- All calls return on the example, whatever the contents of the memory, also before and after a
change in place. -/
example (h : Heap) (qr : QR) : exRef.Valid exHeap ∧ exData.addr < exHeap.next ∧
    (∃ l, (exRef.value h).filter (exData.ma h) = some (.ok l) ∧ l.length = 3) ∧
    (∃ l, (exRef.value h).smooth (exData.ma h) = some (.ok l) ∧ l.length = 3) ∧
    (∃ r, (exRef.value h).loglikelihood (exData.ma h) = some r) ∧
    (∃ p, (exRef.value h).em .standard qr id (exData.ma h) 2 none = some (.ok p)) ∧
    UpdateRefs.Fits ⟨none, none, some ⟨3, [1, 1], id⟩, none, none, none⟩ 1 1 exHeap ∧
    ∃ r, (exRef.value h).filterUpdate (ARef.vec 1 h ⟨2, [1], id⟩) (ARef.mat 1 1 h ⟨3, [1, 1], id⟩)
      (Option.map (ARef.obs 1 h) (some ⟨1, [1], id⟩))
      (UpdateRefs.value 1 1 h ⟨none, none, some ⟨3, [1, 1], id⟩, none, none, none⟩) = some r := by
  obtain ⟨p, os, hp, hos, hc⟩ := exRef_prepare h
  have hne : os ≠ [] := by rintro rfl; cases hos
  rw [← hos] at hc
  refine ⟨?_, by decide, ⟨_, by rw [KF.filter, hp]; exact congrArg some (kfFilter_eq hc),
      by simp [hos]⟩,
    ⟨_, by rw [KF.smooth, hp]; exact congrArg some (kfSmooth_eq hne hc), by simp [hos]⟩,
    ⟨_, by rw [KF.loglikelihood, hp]; rfl⟩, ?_, ?_, ?_⟩
  · intro r hr
    simp [KFRef.arrays, exRef] at hr
    subst hr
    decide
  · obtain ⟨p', hp'⟩ := emLoop_runs (vars := fun _ => true) hne hc 2 p hc
    exact ⟨p', by rw [KF.em, hp]; exact congrArg some hp'⟩
  · constructor <;> rintro r ⟨⟩
    exact ⟨by decide, rfl⟩
  · have hq : ∃ q, (exRef.value h).params = some q := by
      rw [KF.params, C26_parameters _ (by rintro s ⟨⟩)]
      exact ⟨_, rfl⟩
    obtain ⟨q, hq⟩ := hq
    exact ⟨_, congrArg (Option.map _) hq⟩

/-- A sample of three rows from the state in block 2 is drawn without an exception. -/
example {σ : Type} (rng : Rng σ) (s : σ) (h : Heap) : ∃ (P : Params 1 1) (l : List (Vec 1 × Vec 1)),
    (exRef.value h).params = some (.ok P) ∧
    kfSample rng P 3 (Option.map (ARef.vec 1 h) (some ⟨2, [1], id⟩)) s = .ok l ∧ l.length = 3 := by
  rw [KF.params, C26_parameters _ (by rintro s ⟨⟩)]
  exact ⟨_, _, rfl, rfl, rfl⟩

/-- An object whose initial mean is in block 0. -/
def exShared : KFRef :=
  ⟨none, none, none, none, none, none, some ⟨0, [1], id⟩, none, none, none, 1, 1, .all⟩

/-- One missing observation in block 1. -/
def exMissing : Heap := ⟨2, fun _ => ⟨fun _ => 0, fun _ => true⟩⟩

/-- The object shares its arrays with the caller: after the caller has put `v` into the array that
was given as initial mean, the filter starts from `v`, without any assignment to the object. -/
theorem C87_shared (v : ℝ) : ∃ a b h',
    exShared.filter ⟨1, [1, 1], id⟩
      ((Act.write 0 fun B => ⟨fun _ => v, B.mask⟩).exec exMissing) = (.ok (a, b), h') ∧
    (a.nd h').data [0, 0] = v := by
  obtain ⟨h, hh⟩ : ∃ h, h = (Act.write 0 fun B => ⟨fun _ => v, B.mask⟩).exec exMissing := ⟨_, rfl⟩
  rw [← hh]
  have hn : h.next = 2 := by rw [hh]; rfl
  obtain ⟨p, hp, hmu, hc⟩ : ∃ p : Params 1 1, (exShared.value h).prepare (ARef.ma h ⟨1, [1, 1], id⟩) =
      some (.ok (p, [⟨fun _ => 0, fun _ => true⟩])) ∧ p.mu0 = (fun _ => v) ∧ p.Covers 1 := by
    rw [KF.prepare, C26_parameters _ (by rintro s ⟨⟩), hh]
    refine ⟨_, rfl, ?_, ?_⟩
    · rfl
    · constructor <;> trivial
  have hf : (exShared.value h).filter (ARef.ma h ⟨1, [1, 1], id⟩) = some (.ok [(fun _ => v, p.S0)]) := by
    rw [KF.filter, hp]
    refine congrArg some ((kfFilter_eq hc).trans ?_)
    have hm : (obsFn [(⟨fun _ => 0, fun _ => true⟩ : Obs 1)] 0).missing := ⟨0, rfl⟩
    have h0 := PFun.kf_missing p.fn _ hm
    have h1 := PFun.kf_zero_pred p.fn (obsFn [(⟨fun _ => 0, fun _ => true⟩ : Obs 1)])
    exact congrArg Except.ok (congrArg (fun x => [x]) (Prod.ext
      (h0.2.1.trans (h1.1.trans hmu)) (h0.2.2.trans h1.2)))
  obtain ⟨res, h', e, -, hok, -⟩ := C87_filter (k := exShared) (X := ⟨1, [1, 1], id⟩) (h := h) (by
    intro r hr
    simp [KFRef.arrays, exShared] at hr
    subst hr
    simp [hn]) (by simp [hn]) hf
  obtain ⟨a, b, rfl, -, -, -, -, -, hr⟩ := hok _ rfl
  exact ⟨a, b, h', e, hr.means 0 Nat.one_pos ⟨0, by decide⟩⟩

end Verif
