import Verif.Proofs.NaN
import Verif.Props.Posterior

/-!
# C78: `nan` in the data

`os` is the data with `nan`, `os'` the same data with arbitrary real numbers where `os` has `nan`
(or anything at all in rows with a masked entry).
-/

open Matrix

namespace Verif

variable {n m : ℕ}

/-- **C78.** `filter`: the same exception or none as without `nan`, the same covariances; a mean is
that of the data without `nan` as long as no row with an unmasked `nan` has been used, and consists
of `nan` from there on, for good. -/
theorem C78_filter (p : Params n m) {os : List (NObs m)} {os' : List (Obs m)}
    (ho : List.Forall₂ Fills os os') :
    (∃ e, nanFilter p os = .error e ∧ kfFilter p os' = .error e) ∨
    ∃ l l', nanFilter p os = .ok l ∧ kfFilter p os' = .ok l' ∧ l.length = os.length ∧
      l'.length = os.length ∧
      ∀ t, t < os.length → ∃ x x', l[t]? = some x ∧ l'[t]? = some x' ∧ x.2 = x'.2 ∧
        ((∀ i ≤ t, ∀ o, os[i]? = some o → ¬ o.Bad) → IsReal x.1 x'.1) ∧
        ((∃ i ≤ t, ∃ o, os[i]? = some o ∧ o.Bad) → AllNaN x.1) := by
  have h := nanLoop_sim p ho 0 (b := False) (prev := none) (prev' := none)
    (.inl ⟨rfl, rfl, id⟩)
  simp only [nanFilter, kfFilter, filterFull, bind, Except.bind, pure, Except.pure]
  rcases h with ⟨e, e1, e2⟩ | ⟨l, l', e1, e2, hl⟩
  · exact .inl ⟨e, by rw [e1], by rw [e2]⟩
  · refine .inr ⟨_, _, by rw [e1], by rw [e2], by simpa using hl.length.1,
      by simpa using hl.length.2, fun t ht => ?_⟩
    obtain ⟨s, s', g1, g2, g3⟩ := hl.get t ht
    refine ⟨_, _, by rw [List.getElem?_map, g1]; rfl, by rw [List.getElem?_map, g2]; rfl,
      g3.filtCov, fun hb => (g3.real ?_).2, fun hb => g3.nan (.inr hb)⟩
    rintro (f | ⟨i, hi, o, e, hb'⟩)
    · exact f
    · exact hb i hi o e hb'

/-- **C78.** `smooth`: one unmasked `nan` anywhere makes every smoothed mean `nan`, also those at
earlier times; without one the means are those of the data without `nan`.  The covariances and the
exceptions are the same in any case. -/
theorem C78_smooth (p : Params n m) {os : List (NObs m)} {os' : List (Obs m)}
    (ho : List.Forall₂ Fills os os') :
    (∃ e, nanSmooth p os = .error e ∧ kfSmooth p os' = .error e) ∨
    ∃ l l', nanSmooth p os = .ok l ∧ kfSmooth p os' = .ok l' ∧ l.length = os.length ∧
      List.Forall₂ (fun x x' => x.2 = x'.2 ∧
        ((∀ o ∈ os, ¬ o.Bad) → IsReal x.1 x'.1) ∧ ((∃ o ∈ os, o.Bad) → AllNaN x.1)) l l' := by
  have h := nanLoop_sim p ho 0 (b := False) (prev := none) (prev' := none)
    (.inl ⟨rfl, rfl, id⟩)
  simp only [nanSmooth, kfSmooth, filterFull, bind, Except.bind, pure, Except.pure]
  rcases h with ⟨e, e1, e2⟩ | ⟨l, l', e1, e2, hl⟩
  · exact .inl ⟨e, by rw [e1], by rw [e2]⟩
  · rw [e1, e2]
    have hlen := hl.length
    cases hl with
    | nil => exact .inl ⟨.valueError, rfl, rfl⟩
    | @cons _ o os s s' l l' hs _ hl =>
      have hiff : ((False ∨ o.Bad) ∨ ∃ o' ∈ os, o'.Bad) ↔ ∃ o' ∈ o :: os, o'.Bad := by
        simp only [List.mem_cons, exists_eq_or_imp, false_or]
      have h2 := nanSmoothLoop_sim p.A hl 0 s s' hs id (fun hb hb' => hb (.inl hb'))
        (fun _ hb => hb)
      rw [propext hiff] at h2
      simp only [smoothFull, bind, Except.bind, pure, Except.pure]
      rcases h2 with ⟨e, e3, e4⟩ | ⟨r, r', e3, e4, hr⟩
      · exact .inl ⟨e, by rw [e3], by rw [e4]⟩
      · refine .inr ⟨_, _, by rw [e3], by rw [e4], ?_, ?_⟩
        · have := nanSmoothLoop_length e3
          simp only [List.length_cons] at hlen ⊢
          omega
        · rw [List.forall₂_map_right_iff]
          refine hr.imp fun x y hxy => ⟨hxy.1, fun hb => hxy.2.1 ?_, hxy.2.2⟩
          rintro ⟨o', ho', hb'⟩
          exact hb o' ho' hb'

/-- **C78.** `nan` under a mask is harmless: if no row without masked entries contains `nan`,
`filter` and `smooth` return what they return for real data with the same masks. -/
theorem C78_masked_nan (p : Params n m) {os : List (NObs m)} {os' : List (Obs m)}
    (ho : List.Forall₂ Fills os os') (hb : ∀ o ∈ os, ¬ o.Bad) :
    nanFilter p os = (kfFilter p os').map (·.map fun x => (reals x.1, x.2)) ∧
    nanSmooth p os = (kfSmooth p os').map (·.map fun x => (reals x.1, x.2)) := by
  constructor
  · rcases C78_filter p ho with ⟨e, e1, e2⟩ | ⟨l, l', e1, e2, hl, hl', h⟩
    · rw [e1, e2]; rfl
    · rw [e1, e2]
      refine congrArg Except.ok (List.ext_getElem? fun t => ?_)
      by_cases ht : t < os.length
      · obtain ⟨x, x', g1, g2, g3, g4, -⟩ := h t ht
        rw [g1, List.getElem?_map, g2]
        refine congrArg some (Prod.ext (funext fun i => ?_) g3)
        exact g4 (fun i _ o e => hb o (List.mem_of_getElem? e)) i
      · rw [List.getElem?_eq_none (by omega), List.getElem?_eq_none (by simp; omega)]
  · rcases C78_smooth p ho with ⟨e, e1, e2⟩ | ⟨l, l', e1, e2, -, h⟩
    · rw [e1, e2]; rfl
    · rw [e1, e2]
      refine congrArg Except.ok ?_
      clear e1 e2
      induction h with
      | nil => rfl
      | cons hx _ ih =>
        rw [ih]
        exact congrArg₂ List.cons (Prod.ext (funext fun i => hx.2.1 hb i) hx.1) rfl

/-- A row that has a real value everywhere. -/
def exRow (x : ℝ) : NObs 1 := ⟨fun _ => some x, fun _ => false⟩

/-- A row whose value is `nan`. -/
def exNaN (masked : Bool) : NObs 1 := ⟨fun _ => none, fun _ => masked⟩

theorem exNaN_bad : (exNaN false).Bad := ⟨fun _ => rfl, 0, rfl⟩

/-- The data of the examples: 1, `nan`, 2, and the same with 7 instead of `nan`. -/
theorem exFills (masked : Bool) : List.Forall₂ Fills [exRow 1, exNaN masked, exRow 2]
    [⟨![1], fun _ => false⟩, ⟨![7], fun _ => masked⟩, ⟨![2], fun _ => false⟩] := by
  refine .cons ⟨rfl, fun _ i x h => ?_⟩ (.cons ⟨rfl, fun _ i x h => ?_⟩
    (.cons ⟨rfl, fun _ i x h => ?_⟩ .nil))
  · simp only [exRow, Option.some.injEq] at h; subst h; fin_cases i; rfl
  · simp [exNaN] at h
  · simp only [exRow, Option.some.injEq] at h; subst h; fin_cases i; rfl

/-- `nan` is not treated as a missing value: with `nan` in row 1 of three, `filter` gives numbers in
row 0 and `nan` in rows 1 and 2, whereas with that row masked it gives numbers in all rows. -/
theorem C78_nan_is_not_missing :
    ∃ l l', nanFilter exParams [exRow 1, exNaN false, exRow 2] = .ok l ∧
      nanFilter exParams [exRow 1, exNaN true, exRow 2] = .ok l' ∧
      (∃ x u, l[0]? = some x ∧ IsReal x.1 u) ∧ (∃ x, l[2]? = some x ∧ AllNaN x.1) ∧
      ∀ t < 3, ∃ x u, l'[t]? = some x ∧ IsReal x.1 u := by
  have hok (masked : Bool) : ∃ l, kfFilter exParams
      [⟨![1], fun _ => false⟩, ⟨![7], fun _ => masked⟩, ⟨![2], fun _ => false⟩] = .ok l :=
    ⟨_, kfFilter_eq (definedFor_iff_covers.mp exParams_definedFor)⟩
  obtain ⟨a, ha⟩ := hok false
  obtain ⟨a', ha'⟩ := hok true
  rcases C78_filter exParams (exFills false) with ⟨e, -, e2⟩ | ⟨l, l1, e1, -, -, -, h⟩
  · rw [ha] at e2; cases e2
  rcases C78_filter exParams (exFills true) with ⟨e, -, e2⟩ | ⟨l', l1', e1', -, -, -, h'⟩
  · rw [ha'] at e2; cases e2
  refine ⟨l, l', e1, e1', ?_, ?_, fun t ht => ?_⟩
  · obtain ⟨x, x', g1, -, -, g2, -⟩ := h 0 (by simp)
    refine ⟨x, x'.1, g1, g2 fun i hi o e hb => ?_⟩
    obtain rfl : i = 0 := by omega
    simp only [List.getElem?_cons_zero, Option.some.injEq] at e
    subst e
    obtain ⟨-, j, hj⟩ := hb
    simp [exRow] at hj
  · obtain ⟨x, x', g1, -, -, -, g2⟩ := h 2 (by simp)
    exact ⟨x, g1, g2 ⟨1, by omega, _, rfl, exNaN_bad⟩⟩
  · obtain ⟨x, x', g1, -, -, g2, -⟩ := h' t (by simpa using ht)
    refine ⟨x, x'.1, g1, g2 fun i hi o e hb => ?_⟩
    have hmem := List.mem_of_getElem? e
    simp only [List.mem_cons, List.not_mem_nil, or_false] at hmem
    rcases hmem with rfl | rfl | rfl
    · obtain ⟨-, j, hj⟩ := hb
      simp [exRow] at hj
    · have := hb.1 0
      simp [exNaN] at this
    · obtain ⟨-, j, hj⟩ := hb
      simp [exRow] at hj

end Verif
