import Verif.Proofs.NaNLoglik
import Verif.Props.NaN
import Verif.Props.EmMonotone

/-!
# C101: `loglikelihood` on data with `nan`

`os` is the data with `nan`, `os'` the same data with arbitrary real numbers where `os` has `nan`
(or anything at all in rows with a masked entry).
-/

open Matrix

namespace Verif

variable {n m : ℕ} {solve : Mat m m → NVec m → NVec m}

theorem exists_fill (o : NObs m) : ∃ o' : Obs m, Fills o o' :=
  ⟨⟨fun i => (o.val i).getD 0, o.mask⟩, rfl, fun _ i x h => by simp [h]⟩

theorem exists_fills (os : List (NObs m)) : ∃ os', List.Forall₂ Fills os os' := by
  induction os with
  | nil => exact ⟨[], .nil⟩
  | cons o os ih =>
    obtain ⟨o', ho⟩ := exists_fill o
    obtain ⟨os', hos⟩ := ih
    exact ⟨o' :: os', .cons ho hos⟩

/-- **C101.** Let row `o` be the first one that is used (nothing masked) and contains `nan`.
`loglikelihood` raises what it raises without `nan`, or returns a *number*: the log-likelihood of the
rows before `o`, minus one half for every used row from `o` on. -/
theorem C101_value (hs : SolvesNaN solve) (hsp : SpreadsNaN solve) (hn : 0 < n) (p : Params n m)
    {pre post : List (NObs m)} {o : NObs m} {pre' post' : List (Obs m)} {o' : Obs m}
    (hpre : List.Forall₂ Fills pre pre') (ho : Fills o o') (hpost : List.Forall₂ Fills post post')
    (hno : ∀ q ∈ pre, ¬ q.Bad) (hbad : o.Bad) :
    (∃ e, nanLoglik solve p (pre ++ o :: post) = .error e ∧
      kfLoglik p (pre' ++ o' :: post') = .error e) ∨
    ∃ v, kfLoglik p pre' = .ok v ∧
      nanLoglik solve p (pre ++ o :: post) = .ok (v - usedRows (o :: post) / 2) := by
  have hall : List.Forall₂ Fills (pre ++ o :: post) (pre' ++ o' :: post') :=
    List.rel_append hpre (.cons ho hpost)
  rcases nanLoop_sim p hall 0 (b := False) (prev := none) (prev' := none)
    (.inl ⟨rfl, rfl, id⟩) with ⟨e, e1, e2⟩ | ⟨l, l', e1, e2, hl⟩
  · exact .inl ⟨e, by rw [nanLoglik, e1]; rfl, by rw [kfLoglik, filterFull, e2]; rfl⟩
  · rcases nanLoglikLoop_sim hs hn p hl 0 hall (fun h => h.elim) with
      ⟨e, e3, e4⟩ | ⟨xs, ys, e3, e4, hls⟩
    · refine .inl ⟨e, ?_, ?_⟩
      · simp only [nanLoglik, e1, bind, Except.bind, e3]
      · simp only [kfLoglik, filterFull, e2, bind, Except.bind, e4]
    · obtain ⟨x, xs', rfl, hx, hxs⟩ := hls.split id hno hbad
      refine .inr ⟨_, kfLoglik_take e2 e4, ?_⟩
      simp only [nanLoglik, e1, bind, Except.bind, e3]
      refine congrArg Except.ok ?_
      have hused : ¬ o.missing := by
        rintro ⟨i, hi⟩
        rw [hbad.1 i] at hi
        cases hi
      have hlen : pre'.length = pre.length := hpre.length_eq.symm
      simp only [List.sum_append, List.sum_cons, hx hsp, hxs, hlen, usedRows, hused,
        not_false_eq_true, decide_true, List.filter_cons_of_pos, List.length_cons, Nat.cast_add,
        Nat.cast_one]
      ring

/-- **C101.** With one observation dimension the hypothesis on the spreading of `nan` always holds. -/
theorem C101_scalar {solve : Mat 1 1 → NVec 1 → NVec 1} (hs : SolvesNaN solve) :
    SpreadsNaN solve := by
  rintro L v ⟨i, hi⟩
  refine hs.nan L v fun j => ?_
  rw [Subsingleton.elim j i, hi]

/-- **C101.** Whatever the solver of linear systems makes of a row with some `nan`: the data after the
first used row with `nan` have no influence on the result. -/
theorem C101_rest_ignored (hs : SolvesNaN solve) (hn : 0 < n) (p : Params n m)
    (pre : List (NObs m)) {post post' : List (NObs m)} {o : NObs m} (hbad : o.Bad)
    (hpost : List.Forall₂ SameMissing post post') :
    nanLoglik solve p (pre ++ o :: post) = nanLoglik solve p (pre ++ o :: post') := by
  rcases nanLoglik_after hs hn p hbad hpost pre 0 none with ⟨e, e1, e2⟩ | ⟨l, l', e1, e2, hl⟩
  · simp only [nanLoglik, e1, e2]
    rfl
  · simp only [nanLoglik, e1, e2]
    show (nanLoglikLoop solve p 0 l _ >>= _) = (nanLoglikLoop solve p 0 l' _ >>= _)
    rw [hl]

/-- **C101.** Two models are compared by the rows before the first used `nan` only. -/
theorem C101_comparison (hs : SolvesNaN solve) (hsp : SpreadsNaN solve) (hn : 0 < n)
    (p q : Params n m)
    {pre post : List (NObs m)} {o : NObs m} {pre' : List (Obs m)}
    (hpre : List.Forall₂ Fills pre pre') (hno : ∀ q ∈ pre, ¬ q.Bad) (hbad : o.Bad) {a b : ℝ}
    (ha : nanLoglik solve p (pre ++ o :: post) = .ok a)
    (hb : nanLoglik solve q (pre ++ o :: post) = .ok b) :
    ∃ v w, kfLoglik p pre' = .ok v ∧ kfLoglik q pre' = .ok w ∧ a - b = v - w := by
  obtain ⟨o', ho⟩ := exists_fill o
  obtain ⟨post', hpost⟩ := exists_fills post
  rcases C101_value hs hsp hn p hpre ho hpost hno hbad with ⟨e, e1, -⟩ | ⟨v, hv, e1⟩
  · rw [ha] at e1; cases e1
  rcases C101_value hs hsp hn q hpre ho hpost hno hbad with ⟨e, e2, -⟩ | ⟨w, hw, e2⟩
  · rw [hb] at e2; cases e2
  rw [ha] at e1
  rw [hb] at e2
  refine ⟨v, w, hv, hw, ?_⟩
  rw [Except.ok.inj e1, Except.ok.inj e2]
  ring

/-- **C101.** `nan` under a mask is harmless: if no row without masked entries contains `nan`,
`loglikelihood` returns what it returns for real data with the same masks. -/
theorem C101_masked_nan (hs : SolvesNaN solve) (hn : 0 < n) (p : Params n m)
    {os : List (NObs m)} {os' : List (Obs m)} (ho : List.Forall₂ Fills os os')
    (hb : ∀ o ∈ os, ¬ o.Bad) : nanLoglik solve p os = kfLoglik p os' := by
  rcases nanLoop_sim p ho 0 (b := False) (prev := none) (prev' := none)
    (.inl ⟨rfl, rfl, id⟩) with ⟨e, e1, e2⟩ | ⟨l, l', e1, e2, hl⟩
  · simp only [nanLoglik, kfLoglik, filterFull, e1, e2]
    rfl
  · rcases nanLoglikLoop_sim hs hn p hl 0 ho (fun h => h.elim) with
      ⟨e, e3, e4⟩ | ⟨xs, ys, e3, e4, hls⟩
    · simp only [nanLoglik, kfLoglik, filterFull, e1, e2, bind, Except.bind, e3, e4]
    · simp only [nanLoglik, kfLoglik, filterFull, e1, e2, bind, Except.bind, e3, e4,
        hls.real id hb]

/-- With positive semidefinite covariances and a constant positive definite covariance of the
observation noise, `loglikelihood` returns. -/
theorem kfLoglik_returns {p : Params n m} {os : List (Obs m)} (hdef : p.DefinedFor os.length)
    (hpsd : p.PSD os.length) {R : Mat m m} (hR : p.R = .const R) (hRpd : R.PosDef) :
    ∃ v, kfLoglik p os = .ok v := by
  have hc := definedFor_iff_covers.mp hdef
  refine ⟨_, kfLoglik_pure hc hR (ℓ := fun t x c => logN x c
    (p.fn.C t * (p.fn.kf (obsFn os) t).predCov * (p.fn.C t)ᵀ + p.fn.R t)) fun t ht _ x c => ?_⟩
  have hRt : p.fn.R t = R := by simp [Params.fn, hR, TV.get]
  have hS : (p.fn.C t * (p.fn.kf (obsFn os) t).predCov * (p.fn.C t)ᵀ + p.fn.R t).PosDef := by
    rw [hRt, add_comm]
    exact hRpd.add_posSemidef (posSemidef_conj' ((hpsd.fn hc).pred ht _) _)
  obtain ⟨ℓ, h1, -, h2, -⟩ := logMvn_posDef hS
  rw [h1, h2, logN]
  congr 1
  ring

/-- **C101.** If the first row is used and contains `nan`, `loglikelihood` is minus half the number of
used rows: it depends neither on the other data nor on the parameters. -/
theorem C101_first_row (hs : SolvesNaN solve) (hsp : SpreadsNaN solve) (hn : 0 < n)
    {p : Params n m} {o : NObs m} (hbad : o.Bad) (post : List (NObs m))
    (hdef : p.DefinedFor (post.length + 1)) (hpsd : p.PSD (post.length + 1)) {R : Mat m m}
    (hR : p.R = .const R) (hRpd : R.PosDef) :
    nanLoglik solve p (o :: post) = .ok (-(usedRows (o :: post) : ℝ) / 2) := by
  obtain ⟨os', h⟩ := exists_fills (o :: post)
  cases h with
  | @cons _ o' _ post' ho hpost =>
    have hlen : post'.length = post.length := hpost.length_eq.symm
    obtain ⟨w, hw⟩ := kfLoglik_returns (os := o' :: post') (by simpa [hlen] using hdef)
      (by simpa [hlen] using hpsd) hR hRpd
    rcases C101_value hs hsp hn p .nil ho hpost (by simp) hbad with ⟨e, -, e2⟩ | ⟨v, hv, e1⟩
    · rw [List.nil_append, hw] at e2; cases e2
    · have hv0 : kfLoglik p [] = .ok 0 := rfl
      rw [hv0] at hv
      obtain rfl := Except.ok.inj hv
      rw [List.nil_append] at e1
      rw [e1, zero_sub, neg_div]

/-! ### A solver, and data -/

/-- A solver of linear systems for which one `nan` spreads everywhere. -/
noncomputable def exSolve (m : ℕ) (L : Mat m m) (v : NVec m) : NVec m :=
  open Classical in
  if ∀ i, v i ≠ none then reals (L⁻¹ *ᵥ fun i => (v i).getD 0) else fun _ => none

theorem exSolve_spreads (m : ℕ) : SpreadsNaN (exSolve m) := by
  rintro L v ⟨i, hi⟩ j
  rw [exSolve, if_neg fun h => h i hi]

theorem exSolve_solves (m : ℕ) : SolvesNaN (exSolve m) := by
  refine ⟨fun L v u h i => ?_, fun L v h i => exSolve_spreads m L v ⟨i, h i⟩ i⟩
  have h1 : ∀ i, v i ≠ none := fun i => by rw [h i]; simp
  have h2 : (fun i => (v i).getD 0) = u := funext fun i => by rw [h i]; rfl
  rw [exSolve, if_pos h1, h2]
  rfl

/-- A random walk measured with noise; all variances are 1. -/
noncomputable def exUnitWalk : Params 1 1 :=
  ⟨.const 1, .const 0, .const 1, .const 1, .const 0, .const 1, 0, 1⟩

theorem exUnitWalk_covers (T : ℕ) : exUnitWalk.Covers T :=
  ⟨trivial, trivial, trivial, trivial, trivial, trivial⟩

theorem exUnitWalk_psd (T : ℕ) : exUnitWalk.PSD T := by
  refine ⟨fun t _ Q h => ?_, fun t _ R h => ?_, PosSemidef.one⟩
  · obtain rfl := Except.ok.inj h; exact PosSemidef.one
  · obtain rfl := Except.ok.inj h; exact PosSemidef.one

/-- Three rows, the second with `nan`: the hypotheses of `C101_value` and of `C101_comparison` are
met, and the value is that of the first row, minus 1. -/
example : ∃ v, kfLoglik exUnitWalk [⟨![1], fun _ => false⟩] = .ok v ∧
    nanLoglik (exSolve 1) exUnitWalk [exRow 1, exNaN false, exRow 2] = .ok (v - 1) := by
  have hf := exFills false
  cases hf with
  | cons h1 h =>
    cases h with
    | cons h2 h3 =>
      rcases C101_value (exSolve_solves 1) (exSolve_spreads 1) one_pos exUnitWalk
        (pre := [exRow 1]) (.cons h1 .nil) h2 h3 (by
          intro q hq
          rw [List.mem_singleton] at hq
          subst hq
          rintro ⟨-, i, hi⟩
          simp [exRow] at hi) exNaN_bad with ⟨e, -, e2⟩ | ⟨v, e1, e2⟩
      · obtain ⟨w, hw⟩ := kfLoglik_returns (p := exUnitWalk)
          (os := [⟨![1], fun _ => false⟩] ++ ⟨![7], fun _ => false⟩ :: [⟨![2], fun _ => false⟩])
          (definedFor_iff_covers.mpr (exUnitWalk_covers _)) (exUnitWalk_psd _) rfl PosDef.one
        rw [hw] at e2
        cases e2
      · refine ⟨v, e1, ?_⟩
        have : usedRows [exNaN false, exRow 2] = 2 := by
          simp [usedRows, NObs.missing, exNaN, exRow]
        rw [this] at e2
        norm_num at e2
        exact e2

/-- **C101**: `nan` is not treated as missing.  With `nan` in the first of two rows the result is -1,
whatever the second row is; with the first row masked it is the log density of the second. -/
theorem C101_not_as_missing (x : ℝ) :
    nanLoglik (exSolve 1) exUnitWalk [exNaN false, exRow x] = .ok (-1) ∧
    nanLoglik (exSolve 1) exUnitWalk [exNaN true, exRow x]
      = .ok (-(1 / 2) * (Real.log (2 * Real.pi) + Real.log 3 + x ^ 2 / 3)) := by
  constructor
  · rw [C101_first_row (exSolve_solves 1) (exSolve_spreads 1) one_pos exNaN_bad [exRow x]
      (definedFor_iff_covers.mpr (exUnitWalk_covers _)) (exUnitWalk_psd _) rfl PosDef.one]
    have : usedRows [exNaN false, exRow x] = 2 := by
      simp [usedRows, NObs.missing, exNaN, exRow]
    rw [this]
    norm_num
  · have hf : List.Forall₂ Fills [exNaN true, exRow x]
        [⟨![7], fun _ => true⟩, ⟨![x], fun _ => false⟩] := by
      refine .cons ⟨rfl, fun _ i y h => ?_⟩ (.cons ⟨rfl, fun _ i y h => ?_⟩ .nil)
      · simp [exNaN] at h
      · simp only [exRow, Option.some.injEq] at h; subst h; fin_cases i; rfl
    rw [C101_masked_nan (exSolve_solves 1) one_pos exUnitWalk hf (by
      intro o ho
      simp only [List.mem_cons, List.not_mem_nil, or_false] at ho
      rcases ho with rfl | rfl
      · rintro ⟨h, -⟩
        have := h 0
        simp [exNaN] at this
      · rintro ⟨-, i, hi⟩
        simp [exRow] at hi)]
    have hpd : exUnitWalk.PD 2 := by
      refine ⟨fun t _ Q h => ?_, fun t _ R h => ?_, PosDef.one⟩
      · obtain rfl := Except.ok.inj h; exact PosDef.one
      · obtain rfl := Except.ok.inj h; exact PosDef.one
    rw [kfLoglik_predLL (os := [⟨![7], fun _ => true⟩, ⟨![x], fun _ => false⟩]) (by simp)
      (exUnitWalk_covers _) hpd ⟨_, rfl⟩]
    congr 1
    rw [show List.length [(⟨![7], fun _ => true⟩ : Obs 1), ⟨![x], fun _ => false⟩] - 1 = 1 from rfl,
      PFun.predLL, Finset.sum_range_succ, Finset.sum_range_one]
    generalize hz : obsFn [(⟨![7], fun _ => true⟩ : Obs 1), ⟨![x], fun _ => false⟩] = z
    have hz0 : z 0 = ⟨![7], fun _ => true⟩ := by rw [← hz]; rfl
    have hz1 : z 1 = ⟨![x], fun _ => false⟩ := by rw [← hz]; rfl
    have hw0 : (z 0).w = 0 := Obs.w_missing (by rw [hz0]; exact ⟨0, rfl⟩)
    have hw1 : (z 1).w = 1 := Obs.w_observed (by rw [hz1]; rintro ⟨i, hi⟩; simp at hi)
    have hm1 : (exUnitWalk.fn.kf z 1).predMean = 0 ∧ (exUnitWalk.fn.kf z 1).predCov = 1 + 1 := by
      have h0 : exUnitWalk.fn.kf z 0 = ⟨0, 1, 0, 0, 1⟩ := by
        rw [PFun.kf, hz0]
        rfl
      rw [PFun.kf, h0]
      refine ⟨?_, ?_⟩
      · simp [PFun.next, PFun.correct, filterPredict, exUnitWalk, Params.fn, TV.get]
      · simp [PFun.next, PFun.correct, filterPredict, exUnitWalk, Params.fn, TV.get]
    rw [hw0, hw1, zero_mul, zero_add, one_mul, hm1.1, hm1.2, hz1]
    have h3 := logN_scalar x 0 (s := 3) (by norm_num)
    rw [sub_zero] at h3
    rw [← h3]
    congr 1
    · ext i
      fin_cases i
      simp [exUnitWalk, Params.fn, TV.get]
    · ext i j
      fin_cases i; fin_cases j
      simp only [exUnitWalk, Params.fn, TV.get, Matrix.one_mul, Matrix.mul_one, Matrix.transpose_one]
      simp [Matrix.add_apply]
      norm_num

end Verif
