import Verif.Proofs.MachineNaNLoglik
import Verif.Props.NotFinite

/-!
# C101: `nan` and `loglikelihood`, on any machine and for all linear classes

With the numbers of a machine, for `KalmanFilter`, `CholeskyKalmanFilter` and `BiermanKalmanFilter`.
-/

namespace Verif

open Machine SMachine

variable {n m : ℕ} {M : SMachine} {bad : M.F → Prop}

private theorem forall₂_refl_append {pre : List (M.Row m)} {o : M.Row m} {post post' : List (M.Row m)}
    (hpost : List.Forall₂ (fun o o' : M.Row m => (o.missing ↔ o'.missing)) post post') :
    List.Forall₂ (fun o o' : M.Row m => (o.missing ↔ o'.missing)) (pre ++ o :: post)
      (pre ++ o :: post') :=
  List.rel_append (R := fun o o' : M.Row m => (o.missing ↔ o'.missing))
    (List.forall₂_same.mpr fun _ _ => Iff.rfl) (List.Forall₂.cons Iff.rfl hpost)

/-- Rows of one class for two lists of observations that agree up to a row with `nan`. -/
private theorem rows_after (h : M.SpreadDot bad) (hm : 0 < m)
    {rowsOf : List (M.Row m) → Res (List (M.St n m))} {p : M.Par n m}
    (htake : ∀ xs ys l, xs ≠ [] → rowsOf (xs ++ ys) = .ok l → rowsOf xs = .ok (l.take xs.length))
    (hflow : ∀ os l, rowsOf os = .ok l → MeanFlow bad p os l)
    (hbad : ∀ os l, rowsOf os = .ok l → ∀ t (ht : t < os.length), os[t].HasNaN bad → ∀ s, t ≤ s →
      ∀ hs : s < l.length, AllBad bad l[s].filtMean)
    {pre post post' : List (M.Row m)} {o : M.Row m} (ho : o.HasNaN bad) (hn : 0 < n)
    {l l' : List (M.St n m)} (e : rowsOf (pre ++ o :: post) = .ok l)
    (e' : rowsOf (pre ++ o :: post') = .ok l') :
    l.length = (pre ++ o :: post).length ∧ l'.length = (pre ++ o :: post').length ∧
    ∀ s (h1 : s < l.length) (h2 : s < l'.length) (h3 : s < (pre ++ o :: post).length)
      (h4 : s < (pre ++ o :: post').length),
      (l[s] = l'[s] ∧ (pre ++ o :: post)[s] = (pre ++ o :: post')[s] ∧
        lastDims p.d s = lastDims p.d s) ∨
      (HasBad bad l[s].predMean ∧ HasBad bad l'[s].predMean) := by
  have hf := hflow _ _ e
  have hf' := hflow _ _ e'
  refine ⟨hf.len, hf'.len, fun s h1 h2 h3 h4 => ?_⟩
  rcases Nat.lt_or_ge pre.length s with hs | hs
  · refine .inr ?_
    obtain ⟨s, rfl⟩ : ∃ r, s = r + 1 := ⟨s - 1, by omega⟩
    have key : ∀ {post : List (M.Row m)} {l : List (M.St n m)}, rowsOf (pre ++ o :: post) = .ok l →
        ∀ h1 : s + 1 < l.length, HasBad bad l[s + 1].predMean := by
      intro post l e h1
      refine ⟨⟨0, hn⟩, (hflow _ _ e).step s h1 ⟨⟨0, hn⟩, ?_⟩ _⟩
      exact hbad _ _ e pre.length (by simp) (by simpa using ho) s (by omega) (by omega) _
    exact ⟨key e h1, key e' h2⟩
  · refine .inl ⟨?_, ?_, rfl⟩
    · have a := htake (pre ++ [o]) post l (by simp) (by simpa using e)
      have b := htake (pre ++ [o]) post' l' (by simp) (by simpa using e')
      rw [a] at b
      have := congrArg (fun x => x[s]?) (Except.ok.inj b)
      simpa [List.getElem?_take, Nat.lt_succ_of_le hs, h1, h2] using this
    · rcases Nat.lt_or_eq_of_le hs with hs | rfl
      · rw [List.getElem_append_left hs, List.getElem_append_left hs]
      · simp

/-- **C101.** On any machine, for `KalmanFilter` and `CholeskyKalmanFilter`, and for
`BiermanKalmanFilter` if a column of a product depends on that column only: what is observed after the
first used row with `nan` has no influence on `loglikelihood`. -/
theorem C101_rest_ignored_machine (h : M.SpreadDot bad) (hlog : M.LogpdfNaN bad) (hn : 0 < n)
    (p : M.Par n m) (pre : List (M.Row m)) {o : M.Row m} (ho : o.HasNaN bad)
    {post post' : List (M.Row m)}
    (hpost : List.Forall₂ (fun o o' : M.Row m => (o.missing ↔ o'.missing)) post post') :
    M.loglik p (pre ++ o :: post) = M.loglik p (pre ++ o :: post') ∧
    SMachine.cholLoglik p (pre ++ o :: post) = SMachine.cholLoglik p (pre ++ o :: post') ∧
    (M.ColumnWise → ∀ store, SMachine.bierLoglik store p (pre ++ o :: post) =
      SMachine.bierLoglik store p (pre ++ o :: post')) := by
  have hm : 0 < m := ho.2.choose.pos
  have hsame : p.SameCovs p := ⟨rfl, rfl, rfl, rfl, rfl, fun _ => Iff.rfl, fun _ => Iff.rfl⟩
  have hall := forall₂_refl_append (pre := pre) (o := o) hpost
  refine ⟨?_, ?_, fun hc store => ?_⟩
  · exact loglik_rows_nan h.base hlog hsame hall (loop_covs hsame hall 0 rfl) fun l l' e e' =>
      rows_after h hm (fun _ _ _ _ => full_take) (fun _ _ => h.base.meanFlow hm)
        (fun _ _ e t ht hb s hts hs => h.base.full_bad hn e ht hb hts hs) ho hn e e'
  · exact loglik_rows_nan h.base hlog hsame hall (cholRows_covs hsame hall) fun l l' e e' =>
      rows_after h hm (fun _ _ _ _ => cholRows_take) (fun _ _ => h.sbase.cholFlow hm)
        (fun _ _ e t ht hb s hts hs => h.sbase.cholRows_bad hn e ht hb hts hs) ho hn e e'
  · exact loglik_rows_nan h.base hlog hsame hall (bierRows_covs store hsame hall) fun l l' e e' =>
      rows_after h hm (fun _ _ _ hx => bierRows_take hc hx) (fun _ _ e => (h.bierFlow hm e).1)
        (fun _ _ e t ht hb s hts hs => h.sbase.bierRows_bad hn e ht hb hts hs) ho hn e e'

/-- **C101.** With `nan` in `initial_state_mean`, no observation has any influence on `loglikelihood`, and
neither have the offsets and the other entries of `initial_state_mean`. -/
theorem C101_initial_mean (h : M.SpreadDot bad) (hlog : M.LogpdfNaN bad) (hm : 0 < m)
    {p p' : M.Par n m} (hpp : p.SameCovs p') (hb : HasBad bad p.mu0) (hb' : HasBad bad p'.mu0)
    {os os' : List (M.Row m)}
    (ho : List.Forall₂ (fun o o' : M.Row m => (o.missing ↔ o'.missing)) os os') :
    M.loglik p os = M.loglik p' os' ∧ SMachine.cholLoglik p os = SMachine.cholLoglik p' os' ∧
    ∀ store, SMachine.bierLoglik store p os = SMachine.bierLoglik store p' os' := by
  have key : ∀ {l l' : List (M.St n m)}, MeanFlow bad p os l → MeanFlow bad p' os' l' →
      l.length = os.length ∧ l'.length = os'.length ∧
      ∀ s (h1 : s < l.length) (h2 : s < l'.length) (h3 : s < os.length) (h4 : s < os'.length),
        (l[s] = l'[s] ∧ os[s] = os'[s] ∧ lastDims p.d s = lastDims p'.d s) ∨
        (HasBad bad l[s].predMean ∧ HasBad bad l'[s].predMean) := fun hf hf' =>
    ⟨hf.len, hf'.len, fun s h1 h2 _ _ => .inr ⟨hf.pred_bad h1 (.inl hb), hf'.pred_bad h2 (.inl hb')⟩⟩
  refine ⟨?_, ?_, fun store => ?_⟩
  · exact loglik_rows_nan h.base hlog hpp ho (loop_covs hpp ho 0 rfl) fun l l' e e' =>
      key (h.base.meanFlow hm e) (h.base.meanFlow hm e')
  · exact loglik_rows_nan h.base hlog hpp ho (cholRows_covs hpp ho) fun l l' e e' =>
      key (h.sbase.cholFlow hm e) (h.sbase.cholFlow hm e')
  · exact loglik_rows_nan h.base hlog hpp ho (bierRows_covs store hpp ho) fun l l' e e' =>
      key (h.bierFlow hm e).1 (h.bierFlow hm e').1

/-! ### The hypotheses can be met -/

theorem small_columnWise : small.ColumnWise := fun _ _ _ _ X Y Y' j j' h i => by
  show Clipped.dotL _ = Clipped.dotL _
  congr 2
  funext a
  rw [h a]

theorem small_logpdfNaN :
    small.LogpdfNaN (NotFinite (fun x : Clipped => x = .nan) fun x => ∃ s, x = .inf s) := by
  intro k x x' mu mu' h h' S
  have key : ∀ (x mu : Fin k → Clipped),
      (∀ i, NotFinite (fun x : Clipped => x = .nan) (fun x => ∃ s, x = .inf s) (mu i)) →
      small.logpdf k x mu S = .ok (if k = 0 then .num 0 else .num (-1) : Clipped) := by
    intro x mu h
    by_cases hk : k = 0
    · subst hk
      rfl
    · rw [if_neg hk]
      refine if_neg ?_
      intro hc
      have := List.all_eq_true.mp hc ⟨0, by omega⟩ (List.mem_finRange _)
      generalize x ⟨0, by omega⟩ = a at this
      rcases h ⟨0, by omega⟩ with e | ⟨s, e⟩
      · rw [e] at this
        cases a <;> cases this
      · rw [e] at this
        rcases a with a | s' | _
        · cases this
        · cases s <;> cases s' <;> cases this
        · cases this
  exact (key x mu h).trans (key x' mu' h').symm

/-- The hypotheses of `C101_rest_ignored_machine`: after an infinite observation the rows are ignored
(before it they are not), and all three classes return. -/
example : (exInfRows[1]).HasNaN (M := small.toMachine)
      (NotFinite (fun x : Clipped => x = .nan) fun x : Clipped => ∃ s, x = .inf s) ∧
    small.loglik exGrow (exInfRows ++ [⟨fun _ => .num 7, fun _ => false⟩]) = .ok (.num (-2) : Clipped) ∧
    SMachine.cholLoglik exGrow (exInfRows ++ [⟨fun _ => .num 7, fun _ => false⟩])
      = .ok (.num (-2) : Clipped) ∧
    (∃ v, SMachine.bierLoglik id exGrow (exInfRows ++ [⟨fun _ => .num 7, fun _ => false⟩]) = .ok v) ∧
    small.loglik exGrow [⟨fun _ => .num 7, fun _ => false⟩, exInfRows[1],
      ⟨fun _ => .num 9, fun _ => false⟩] = .ok (.num (-18) : Clipped) :=
  ⟨⟨fun _ => rfl, 0, .inr ⟨_, rfl⟩⟩, rfl, rfl, ⟨_, rfl⟩, rfl⟩

/-- Those of `C101_initial_mean`: the offsets are different, too. -/
example : ({ exGrow with mu0 := fun _ => .nan } : small.Par 1 1).SameCovs
      { exGrow with mu0 := fun _ => .inf true, d := .const fun _ => .num 4 } ∧
    small.loglik { exGrow with mu0 := fun _ => .nan } exGrowRows = .ok (.num (-2) : Clipped) ∧
    SMachine.cholLoglik { exGrow with mu0 := fun _ => .inf true, d := .const fun _ => .num 4 } exGrowRows
      = .ok (.num (-2) : Clipped) :=
  ⟨⟨rfl, rfl, rfl, rfl, rfl, fun _ => Iff.rfl, fun _ => ⟨fun _ => ⟨_, rfl⟩, fun _ => ⟨_, rfl⟩⟩⟩,
    rfl, rfl⟩

end Verif
