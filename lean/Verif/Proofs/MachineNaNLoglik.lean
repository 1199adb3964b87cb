import Verif.Props.ParamNaN

/-!
# Lemmas on `nan` in `loglikelihood` on the numbers of a machine
-/

namespace Verif

open Machine

variable {n m : ℕ} {M : Machine} {bad : M.F → Prop}

/-- `_loglikelihoods` on two lists of filtered rows that agree except where the mean is `nan`. -/
theorem loglikLoop_nan (h : M.NaN bad) (hlog : M.LogpdfNaN bad) {p p' : M.Par n m}
    (hC : p.C = p'.C) (hR : p.R = p'.R) (hd : p.d.SameTimes p'.d) {l l' : List (M.St n m)}
    {os os' : List (M.Row m)} (hl : l.length = os.length) (hl' : l'.length = os'.length)
    (hlen : os.length = os'.length) (t : ℕ)
    (hk : ∀ s (h1 : s < l.length) (h2 : s < l'.length) (h3 : s < os.length) (h4 : s < os'.length),
      (l[s] = l'[s] ∧ os[s] = os'[s] ∧ lastDims p.d (t + s) = lastDims p'.d (t + s)) ∨
      ((os[s].missing ↔ os'[s].missing) ∧ l[s].predCov = l'[s].predCov ∧
        HasBad bad l[s].predMean ∧ HasBad bad l'[s].predMean)) :
    M.loglikLoop p t l os = M.loglikLoop p' t l' os' := by
  induction os generalizing l l' os' t with
  | nil =>
    cases os' with
    | cons => cases hlen
    | nil =>
      cases l <;> cases l' <;> rfl
  | cons o os ih =>
    obtain ⟨o', os', rfl⟩ : ∃ a b, os' = a :: b := by
      cases os' with
      | nil => cases hlen
      | cons a b => exact ⟨a, b, rfl⟩
    obtain ⟨s, l, rfl⟩ : ∃ a b, l = a :: b := by
      cases l with
      | nil => cases hl
      | cons a b => exact ⟨a, b, rfl⟩
    obtain ⟨s', l', rfl⟩ : ∃ a b, l' = a :: b := by
      cases l' with
      | nil => cases hl'
      | cons a b => exact ⟨a, b, rfl⟩
    have e1 : M.loglikStep p t s o = M.loglikStep p' t s' o' := by
      rcases hk 0 (by simp) (by simp) (by simp) (by simp) with ⟨hs, ho, hd0⟩ | ⟨hm, hcov, hb, hb'⟩
      · simp only [List.getElem_cons_zero, Nat.add_zero] at hs ho hd0
        rw [Machine.loglikStep, Machine.loglikStep, hs, ho, hC, hR, hd0]
      · simp only [List.getElem_cons_zero] at hm hcov hb hb'
        by_cases hmo : o.missing
        · rw [Machine.loglikStep, Machine.loglikStep, if_neg (not_not.mpr hmo), if_neg (not_not.mpr (hm.mp hmo))]
        · rw [Machine.loglikStep, Machine.loglikStep, if_pos hmo, if_pos (fun h => hmo (hm.mpr h)), hC, hR]
          cases lastDims p'.C t with
          | error e => rfl
          | ok C =>
          rcases lastDims_same hd t with ⟨e, e1, e2⟩ | ⟨d, d', e1, e2⟩
          · rw [e1, e2]; rfl
          rw [e1, e2]
          cases p'.R with
          | seq => rfl
          | const R =>
            simp only [Bind.bind, Except.bind, Pure.pure, Except.pure, hcov]
            obtain ⟨i, hi⟩ := hb
            obtain ⟨i', hi'⟩ := hb'
            exact hlog (fun j => h.add_left _ (h.dotV_right _ hi j))
              (fun j => h.add_left _ (h.dotV_right _ hi' j)) _
    have e2 := ih (l := l) (l' := l') (os' := os') (by simpa using hl) (by simpa using hl')
      (by simpa using hlen) (t + 1) (fun s h1 h2 h3 h4 => by
        have := hk (s + 1) (by simpa using h1) (by simpa using h2) (by simpa using h3)
          (by simpa using h4)
        simp only [List.getElem_cons_succ] at this
        rwa [show t + 1 + s = t + (s + 1) by omega])
    rw [Machine.loglikLoop, Machine.loglikLoop, e1, e2]

/-- The same with the filter, for any of the classes. -/
theorem loglik_rows_nan (h : M.NaN bad) (hlog : M.LogpdfNaN bad) {p p' : M.Par n m}
    (hpp : p.SameCovs p') {r r' : Res (List (M.St n m))} {os os' : List (M.Row m)}
    (ho : List.Forall₂ (fun o o' : M.Row m => (o.missing ↔ o'.missing)) os os')
    (hcov : r.map (List.map St.covs) = r'.map (List.map St.covs))
    (hk : ∀ l l', r = .ok l → r' = .ok l' → l.length = os.length ∧ l'.length = os'.length ∧
      ∀ s (h1 : s < l.length) (h2 : s < l'.length) (h3 : s < os.length) (h4 : s < os'.length),
        (l[s] = l'[s] ∧ os[s] = os'[s] ∧ lastDims p.d s = lastDims p'.d s) ∨
        (HasBad bad l[s].predMean ∧ HasBad bad l'[s].predMean)) :
    (do let rows ← r
        let ls ← M.loglikLoop p 0 rows os
        pure (M.sum ls) : Res M.F)
      = (do let rows ← r'
            let ls ← M.loglikLoop p' 0 rows os'
            pure (M.sum ls)) := by
  rcases map_eq_map_iff.mp hcov with ⟨e, e1, e2⟩ | ⟨l, l', e1, e2, e3⟩
  · rw [e1, e2]; rfl
  · obtain ⟨hl, hl', hk⟩ := hk l l' e1 e2
    rw [e1, e2]
    simp only [Bind.bind, Except.bind]
    rw [loglikLoop_nan h hlog hpp.C hpp.R hpp.d hl hl' ho.length_eq 0 fun s h1 h2 h3 h4 => ?_]
    rcases hk s h1 h2 h3 h4 with hs | ⟨hb, hb'⟩
    · rw [Nat.zero_add]; exact .inl hs
    · refine .inr ⟨(List.forall₂_iff_get.mp ho).2 s h3 h4, ?_, hb, hb'⟩
      have := congrArg (fun x => x[s]?) e3
      simp only [List.getElem?_map, List.getElem?_eq_getElem h1, List.getElem?_eq_getElem h2,
        Option.map_some, Option.some.injEq] at this
      exact congrArg Prod.fst this

theorem full_take {p : M.Par n m} {xs ys : List (M.Row m)} {l : List (M.St n m)}
    (h : M.full p (xs ++ ys) = .ok l) : M.full p xs = .ok (l.take xs.length) := by
  rw [full_eq_run] at h ⊢
  exact UMachine.run_take h

namespace SMachine

variable {M : SMachine}

theorem cholRows_take {p : M.Par n m} {xs ys : List (M.Row m)} {l : List (M.St n m)}
    (h : cholRows p (xs ++ ys) = .ok l) : cholRows p xs = .ok (l.take xs.length) := by
  rw [cholRows] at h ⊢
  obtain ⟨r, hr, h⟩ := ok_bind_iff.mp h
  cases h
  rw [cholFull_take hr]
  simp only [Bind.bind, Except.bind, Pure.pure, Except.pure, List.map_take]

theorem bierRows_take (hc : M.ColumnWise) {store : M.F → M.F} {p : M.Par n m} {xs ys : List (M.Row m)}
    (hx : xs ≠ []) {l : List (M.St n m)} (h : bierRows store p (xs ++ ys) = .ok l) :
    bierRows store p xs = .ok (l.take xs.length) := by
  obtain ⟨r, hr, rfl, hne⟩ := bierRows_ok h
  rw [bierRows, bierFull_take hc hr, ← List.map_take]
  simp only [Bind.bind, Except.bind]
  cases e : r.take xs.length with
  | nil =>
    rcases List.take_eq_nil_iff.mp e with h0 | h0
    · exact (hx (List.length_eq_zero_iff.mp h0)).elim
    · exact (hne h0).elim
  | cons a b => rfl

end SMachine

end Verif
