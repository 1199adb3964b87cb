import Verif.Proofs.NaN
import Verif.Proofs.Runs
import Verif.Proofs.UnscentedTransform
import Verif.Spec.NaNLoglik

/-!
# Lemmas about `loglikelihood` on data with `nan`
-/

open Matrix

namespace Verif

variable {n m : ℕ} {solve : Mat m m → NVec m → NVec m}

theorem maskedQuadratic_real {sol : NVec m} {w : Vec m} (h : IsReal sol w) (rest : ℝ) :
    maskedQuadratic sol rest = -0.5 * (∑ i, w i ^ 2 + rest) := by
  have : ¬ ((∃ i, sol i = none) ∧ ∀ i, sol i = none) := by
    rintro ⟨⟨i, hi⟩, -⟩
    rw [h i] at hi
    cases hi
  rw [maskedQuadratic, if_neg this]
  congr 2
  refine Finset.sum_congr rfl fun i _ => ?_
  rw [h i]
  rfl

theorem maskedQuadratic_nan {sol : NVec m} (h : AllNaN sol) (i : Fin m) (rest : ℝ) :
    maskedQuadratic sol rest = -0.5 := by
  rw [maskedQuadratic, if_pos ⟨⟨i, h i⟩, h⟩]

/-- The Cholesky factor that `log_multivariate_normal_density` uses, or its exception. -/
noncomputable def densityFactor (S : Mat m m) : Res (Mat m m) :=
  match cholesky S with
  | .ok L => pure L
  | .error _ => cholesky (S + (1e-7 : ℝ) • (1 : Mat m m))

theorem nanLogMvn_eq (x mu : NVec m) (S : Mat m m) :
    nanLogMvn solve x mu S = (densityFactor S).map fun L =>
      maskedQuadratic (solve L fun i => nsub (x i) (mu i))
        (m * Real.log (2 * Real.pi) + 2 * ∑ i, Real.log (L i i)) := by
  unfold nanLogMvn densityFactor
  cases cholesky S with
  | ok L => rfl
  | error e => cases cholesky (S + (1e-7 : ℝ) • (1 : Mat m m)) <;> rfl

theorem logMvn_eq (u v : Vec m) (S : Mat m m) :
    logMvn u v S = (densityFactor S).map fun L =>
      -0.5 * (∑ i, (L⁻¹ *ᵥ (u - v)) i ^ 2 + m * Real.log (2 * Real.pi)
          + 2 * ∑ i, Real.log (L i i)) := by
  unfold logMvn densityFactor
  cases cholesky S with
  | ok L => rfl
  | error e => cases cholesky (S + (1e-7 : ℝ) • (1 : Mat m m)) <;> rfl

theorem nanLogMvn_real (hs : SolvesNaN solve) {x mu : NVec m} {u v : Vec m} (hx : IsReal x u)
    (hmu : IsReal mu v) (S : Mat m m) : nanLogMvn solve x mu S = logMvn u v S := by
  have hd : IsReal (fun i => nsub (x i) (mu i)) (u - v) := by
    intro i
    beta_reduce
    rw [hx i, hmu i]
    rfl
  rw [nanLogMvn_eq, logMvn_eq]
  congr 1
  funext L
  rw [maskedQuadratic_real (hs.real L _ _ hd), add_assoc]

/-- A row for which the solution consists of `nan` counts as `-0.5`; the exceptions are those of the
covariance. -/
theorem nanLogMvn_nan {x mu : NVec m} (i : Fin m)
    (h : ∀ L, AllNaN (solve L fun i => nsub (x i) (mu i))) (S : Mat m m) (u v : Vec m) :
    nanLogMvn solve x mu S = (logMvn u v S).map fun _ => -0.5 := by
  rw [nanLogMvn_eq, logMvn_eq]
  cases densityFactor S with
  | error e => rfl
  | ok L => exact congrArg Except.ok (maskedQuadratic_nan (h L) i _)

/-- Contributions of the rows: `b` says whether a `nan` has been used before. -/
inductive LsSim (sp : Prop) : Prop → List (NObs m) → List ℝ → List ℝ → Prop
  | nil (b : Prop) : LsSim sp b [] [] []
  | cons {b : Prop} {o : NObs m} {os : List (NObs m)} {x y : ℝ} {xs ys : List ℝ}
      (real : ¬ (b ∨ o.Bad) → x = y) (nan : b → x = if o.missing then 0 else -0.5)
      (bad : sp → o.Bad → x = -0.5) (rest : LsSim sp (b ∨ o.Bad) os xs ys) :
      LsSim sp b (o :: os) (x :: xs) (y :: ys)

theorem nanLoglikStep_sim (hs : SolvesNaN solve) (hn : 0 < n) (p : Params n m) (t : ℕ) {b : Prop}
    {s : NStep n m} {s' : Step n m} {o : NObs m} {o' : Obs m} (ho : Fills o o')
    (hcov : s.predCov = s'.predCov) (hp : PredSim b s s') (hbm : b → 0 < m) :
    (∃ e, nanLoglikStep solve p t s o = .error e ∧ loglikStep p t s' o' = .error e) ∨
    ∃ x y, nanLoglikStep solve p t s o = .ok x ∧ loglikStep p t s' o' = .ok y ∧
      (¬ (b ∨ o.Bad) → x = y) ∧ (b → x = if o.missing then 0 else -0.5) ∧
      (SpreadsNaN solve → o.Bad → x = -0.5) := by
  have hm : o.missing ↔ o'.missing := by simp [NObs.missing, Obs.missing, ho.mask]
  by_cases h : o.missing
  · refine .inr ⟨0, 0, ?_, ?_, fun _ => rfl, fun _ => by rw [if_pos h], ?_⟩
    · rw [nanLoglikStep, if_neg (not_not.mpr h)]; rfl
    · rw [loglikStep, if_neg (not_not.mpr (hm.mp h))]; rfl
    · rintro - ⟨e, -⟩
      obtain ⟨i, hi⟩ := h
      rw [e i] at hi
      cases hi
  · have hmask : ∀ i, o.mask i = false := by
      intro i
      by_contra e
      exact h ⟨i, by simpa using e⟩
    rw [nanLoglikStep, if_pos h, loglikStep, if_pos (fun e => h (hm.mpr e))]
    cases lastDims p.C t with
    | error e => exact .inl ⟨e, rfl, rfl⟩
    | ok C =>
      cases lastDims p.d t with
      | error e => exact .inl ⟨e, rfl, rfl⟩
      | ok d =>
        cases p.R with
        | seq _ => exact .inl ⟨_, rfl, rfl⟩
        | const R =>
          show (∃ e, nanLogMvn solve o.val (fun i => nadd (ndot C s.predMean i) (some (d i)))
              (C * (s.predCov * Cᵀ) + R) = .error e ∧
              logMvn o'.val (C *ᵥ s'.predMean + d) (C * (s'.predCov * Cᵀ) + R) = .error e) ∨ ∃ x y,
            nanLogMvn solve o.val (fun i => nadd (ndot C s.predMean i) (some (d i)))
              (C * (s.predCov * Cᵀ) + R) = .ok x ∧
            logMvn o'.val (C *ᵥ s'.predMean + d) (C * (s'.predCov * Cᵀ) + R) = .ok y ∧ _
          rw [← hcov]
          generalize C * (s.predCov * Cᵀ) + R = S
          by_cases hb : b ∨ o.Bad
          · -- all of the solution is `nan`, or the row itself has a `nan`
            by_cases hb' : b
            · have i : Fin m := ⟨0, hbm hb'⟩
              have hall : AllNaN fun i => nsub (o.val i) (nadd (ndot C s.predMean i) (some (d i))) := by
                intro j
                beta_reduce
                rw [ndot_none C (hp.2 hb' ⟨0, hn⟩) j]
                exact nsub_none_right _
              rw [nanLogMvn_nan i (fun L => hs.nan L _ hall) S o'.val (C *ᵥ s'.predMean + d)]
              cases logMvn o'.val (C *ᵥ s'.predMean + d) S with
              | error e => exact .inl ⟨e, rfl, rfl⟩
              | ok y =>
                exact .inr ⟨_, y, rfl, rfl, fun h' => absurd hb h', fun _ => by rw [if_neg h],
                  fun _ _ => rfl⟩
            · obtain ⟨-, i, hi⟩ := hb.resolve_left hb'
              rw [nanLogMvn_eq, logMvn_eq]
              cases densityFactor S with
              | error e => exact .inl ⟨e, rfl, rfl⟩
              | ok L =>
                refine .inr ⟨_, _, rfl, rfl, fun h' => absurd hb h', fun h' => absurd h' hb',
                  fun sp _ => maskedQuadratic_nan (sp L _ ⟨i, ?_⟩) i _⟩
                beta_reduce
                rw [hi]
                rfl
          · push Not at hb
            have hv : IsReal o.val o'.val := by
              intro i
              cases hi : o.val i with
              | none => exact absurd ⟨hmask, i, hi⟩ hb.2
              | some x => rw [ho.val hmask i x hi]
            have hmu : IsReal (fun i => nadd (ndot C s.predMean i) (some (d i)))
                (C *ᵥ s'.predMean + d) := by
              intro j
              beta_reduce
              rw [ndot_real C (hp.1 hb.1) j]
              rfl
            rw [nanLogMvn_real hs hv hmu]
            cases logMvn o'.val (C *ᵥ s'.predMean + d) S with
            | error e => exact .inl ⟨e, rfl, rfl⟩
            | ok y =>
              exact .inr ⟨y, y, rfl, rfl, fun _ => rfl, fun h' => absurd h' hb.1,
                fun _ h' => absurd h' hb.2⟩

theorem nanLoglikLoop_sim (hs : SolvesNaN solve) (hn : 0 < n) (p : Params n m) {b : Prop}
    {os : List (NObs m)} {l : List (NStep n m)} {l' : List (Step n m)} (h : RowsSim b os l l') :
    ∀ (t : ℕ) {os' : List (Obs m)}, List.Forall₂ Fills os os' → (b → 0 < m) →
    (∃ e, nanLoglikLoop solve p t l os = .error e ∧ loglikLoop p t l' os' = .error e) ∨
    ∃ xs ys, nanLoglikLoop solve p t l os = .ok xs ∧ loglikLoop p t l' os' = .ok ys ∧
      LsSim (SpreadsNaN solve) b os xs ys := by
  induction h with
  | nil b =>
    intro t os' ho _
    cases ho
    exact .inr ⟨[], [], rfl, rfl, .nil b⟩
  | @cons b o os s s' l l' h hp hl ih =>
    intro t os' ho hbm
    cases ho with
    | cons ho hos =>
      simp only [nanLoglikLoop, loglikLoop]
      rcases nanLoglikStep_sim hs hn p t ho h.predCov hp hbm with
        ⟨e, e1, e2⟩ | ⟨x, y, e1, e2, h1, h2, h3⟩
      · exact .inl ⟨e, by rw [e1]; rfl, by rw [e2]; rfl⟩
      · have hbm' : b ∨ o.Bad → 0 < m := by
          rintro (h' | ⟨-, i, -⟩)
          · exact hbm h'
          · exact Fin.pos i
        rcases ih (t + 1) hos hbm' with ⟨e, e3, e4⟩ | ⟨xs, ys, e3, e4, hls⟩
        · exact .inl ⟨e, by rw [e1, e3]; rfl, by rw [e2, e4]; rfl⟩
        · exact .inr ⟨x :: xs, y :: ys, by rw [e1, e3]; rfl, by rw [e2, e4]; rfl,
            .cons h1 h2 h3 hls⟩

/-- Once a `nan` has been used, every used row counts as `-0.5`. -/
theorem LsSim.sum_nan {sp b : Prop} {os : List (NObs m)} {xs ys : List ℝ}
    (h : LsSim sp b os xs ys) (hb : b) : xs.sum = -0.5 * usedRows os := by
  induction h with
  | nil b => simp [usedRows]
  | @cons b o os x y xs ys h1 h2 h3 h4 ih =>
    rw [List.sum_cons, ih (.inl hb), h2 hb]
    by_cases ho : o.missing
    · simp [usedRows, ho]
    · simp only [usedRows, ho, if_false, not_false_eq_true, decide_true, List.filter_cons_of_pos,
        List.length_cons, Nat.cast_add, Nat.cast_one]
      ring

/-- The rows before the first `nan` that is used contribute what they contribute without it. -/
theorem LsSim.split {sp : Prop} {o : NObs m} {post : List (NObs m)} :
    ∀ {pre : List (NObs m)} {b : Prop} {xs ys : List ℝ}, LsSim sp b (pre ++ o :: post) xs ys →
    ¬ b → (∀ o' ∈ pre, ¬ o'.Bad) → o.Bad → ∃ (x : ℝ) (xs' : List ℝ), xs = ys.take pre.length ++ x :: xs' ∧
      (sp → x = -0.5) ∧ xs'.sum = -0.5 * usedRows post
  | [], b, _, _, .cons h1 h2 h3 h4, hb, _, ho =>
    ⟨_, _, rfl, fun hsp => h3 hsp ho, h4.sum_nan (.inr ho)⟩
  | o' :: pre, b, _, _, .cons (x := x) (y := y) h1 h2 h3 h4, hb, hpre, ho => by
    have hno : ¬ o'.Bad := hpre o' List.mem_cons_self
    have hb' : ¬ (b ∨ o'.Bad) := by tauto
    obtain ⟨z, zs, e, e1, e2⟩ := h4.split hb' (fun q hq => hpre q (List.mem_cons_of_mem _ hq)) ho
    refine ⟨z, zs, ?_, e1, e2⟩
    rw [e, h1 hb']
    rfl

theorem LsSim.real {sp b : Prop} {os : List (NObs m)} {xs ys : List ℝ} (h : LsSim sp b os xs ys)
    (hb : ¬ b) (ho : ∀ o ∈ os, ¬ o.Bad) : xs = ys := by
  induction h with
  | nil => rfl
  | cons h1 h2 h3 h4 ih =>
    have hno := ho _ List.mem_cons_self
    rw [h1 (by tauto), ih (by tauto) fun o' h' => ho o' (List.mem_cons_of_mem _ h')]

theorem loglikLoop_take {p : Params n m} {ys : List (Obs m)} :
    ∀ {xs : List (Obs m)} {t : ℕ} {ss : List (Step n m)} {ls : List ℝ},
    loglikLoop p t ss (xs ++ ys) = .ok ls →
    loglikLoop p t (ss.take xs.length) xs = .ok (ls.take xs.length)
  | [], t, ss, ls, _ => by cases ss <;> rfl
  | x :: xs, t, [], ls, h => by
    obtain rfl := Except.ok.inj h
    rfl
  | x :: xs, t, s :: ss, ls, h => by
    simp only [List.cons_append, loglikLoop] at h
    cases e1 : loglikStep p t s x with
    | error e => rw [e1] at h; cases h
    | ok l =>
      rw [e1] at h
      cases e2 : loglikLoop p (t + 1) ss (xs ++ ys) with
      | error e => rw [e2] at h; cases h
      | ok ls' =>
        rw [e2] at h
        obtain rfl := Except.ok.inj h
        simp only [List.length_cons, List.take_succ_cons, loglikLoop, e1, loglikLoop_take e2]
        rfl

theorem filterLoop_take {p : Params n m} {ys : List (Obs m)} :
    ∀ {xs : List (Obs m)} {t : ℕ} {prev : Option (Step n m)} {l : List (Step n m)},
    filterLoop p t prev (xs ++ ys) = .ok l → filterLoop p t prev xs = .ok (l.take xs.length)
  | [], t, prev, l, _ => rfl
  | x :: xs, t, prev, l, h => by
    simp only [List.cons_append, filterLoop] at h
    cases e1 : filterStep p t prev x with
    | error e => rw [e1] at h; cases h
    | ok s =>
      rw [e1] at h
      cases e2 : filterLoop p (t + 1) (some s) (xs ++ ys) with
      | error e =>
        simp only [bind, Except.bind, e2] at h
        cases h
      | ok l' =>
        simp only [bind, Except.bind, e2] at h
        obtain rfl := Except.ok.inj h
        simp only [List.length_cons, List.take_succ_cons, filterLoop, e1, bind, Except.bind,
          filterLoop_take e2]
        rfl

/-- The log-likelihood of the first rows is the sum of their contributions. -/
theorem kfLoglik_take {p : Params n m} {xs ys : List (Obs m)} {steps : List (Step n m)}
    {ls : List ℝ} (h1 : filterLoop p 0 none (xs ++ ys) = .ok steps)
    (h2 : loglikLoop p 0 steps (xs ++ ys) = .ok ls) :
    kfLoglik p xs = .ok (ls.take xs.length).sum := by
  simp only [kfLoglik, filterFull, filterLoop_take h1, bind, Except.bind, loglikLoop_take h2]
  rfl

/-! ### Two records with the same first rows -/

/-- Two rows after a `nan`: the covariances agree, and all means are `nan`. -/
structure AfterNaN (s s' : NStep n m) : Prop where
  predCov : s.predCov = s'.predCov
  filtCov : s.filtCov = s'.filtCov
  pred : AllNaN s.predMean ∧ AllNaN s'.predMean
  filt : AllNaN s.filtMean ∧ AllNaN s'.filtMean

theorem nanCorrect_allNaN (C : Mat m n) (R : Mat m m) (d : Vec m) {mean : NVec n} (h : AllNaN mean)
    (cov : Mat n n) (o : NObs m) : AllNaN (nanCorrect C R d mean cov o).2.1 := by
  unfold nanCorrect
  by_cases ho : o.missing
  · rw [if_neg (not_not.mpr ho)]
    exact h
  · rw [if_pos ho]
    intro i
    show nadd (mean i) _ = none
    rw [h i]
    rfl

theorem nanCorrect_cov (C : Mat m n) (R : Mat m m) (d : Vec m) (mean mean' : NVec n)
    (cov : Mat n n) {o o' : NObs m} (h : SameMissing o o') :
    (nanCorrect C R d mean cov o).2.2 = (nanCorrect C R d mean' cov o').2.2 := by
  unfold nanCorrect
  by_cases ho : o.missing
  · rw [if_neg (not_not.mpr ho), if_neg (not_not.mpr (h.mp ho))]
  · rw [if_pos ho, if_pos fun e => ho (h.mpr e)]

theorem nanPredict_allNaN (A Q : Mat n n) (b : Vec n) {mean : NVec n} (h : AllNaN mean)
    (cov : Mat n n) : AllNaN (nanPredict A Q b mean cov).1 := by
  intro i
  show nadd (ndot A mean i) _ = none
  rw [ndot_none A (h i) i]
  rfl

theorem nanStep_after (p : Params n m) (t : ℕ) {s s' : NStep n m} (hc : s.filtCov = s'.filtCov)
    (hn : AllNaN s.filtMean) (hn' : AllNaN s'.filtMean) {o o' : NObs m} (ho : SameMissing o o') :
    (∃ e, nanStep p t (some s) o = .error e ∧ nanStep p t (some s') o' = .error e) ∨
    ∃ r r', nanStep p t (some s) o = .ok r ∧ nanStep p t (some s') o' = .ok r' ∧
      AfterNaN r r' := by
  simp only [nanStep, bind, Except.bind, pure, Except.pure]
  cases lastDims p.A (t - 1) with
  | error e => exact .inl ⟨e, rfl, rfl⟩
  | ok A =>
    cases lastDims p.Q (t - 1) with
    | error e => exact .inl ⟨e, rfl, rfl⟩
    | ok Q =>
      cases lastDims p.b (t - 1) with
      | error e => exact .inl ⟨e, rfl, rfl⟩
      | ok b0 =>
        cases lastDims p.C t with
        | error e => exact .inl ⟨e, rfl, rfl⟩
        | ok C =>
          cases lastDims p.R t with
          | error e => exact .inl ⟨e, rfl, rfl⟩
          | ok R =>
            cases lastDims p.d t with
            | error e => exact .inl ⟨e, rfl, rfl⟩
            | ok d =>
              have a1 := nanPredict_allNaN A Q b0 hn s.filtCov
              have a2 := nanPredict_allNaN A Q b0 hn' s'.filtCov
              have a3 : (nanPredict A Q b0 s.filtMean s.filtCov).2
                  = (nanPredict A Q b0 s'.filtMean s'.filtCov).2 := by
                simp only [nanPredict, hc]
              refine .inr ⟨_, _, rfl, rfl, a3, ?_, ⟨a1, a2⟩, nanCorrect_allNaN _ _ _ a1 _ _,
                nanCorrect_allNaN _ _ _ a2 _ _⟩
              simp only
              rw [a3]
              exact nanCorrect_cov C R d _ _ _ ho

theorem nanLoop_after (p : Params n m) {os os' : List (NObs m)}
    (ho : List.Forall₂ SameMissing os os') :
    ∀ (t : ℕ) {s s' : NStep n m}, s.filtCov = s'.filtCov → AllNaN s.filtMean →
    AllNaN s'.filtMean →
    (∃ e, nanLoop p t (some s) os = .error e ∧ nanLoop p t (some s') os' = .error e) ∨
    ∃ l l', nanLoop p t (some s) os = .ok l ∧ nanLoop p t (some s') os' = .ok l' ∧
      List.Forall₂ AfterNaN l l' := by
  induction ho with
  | nil => intro t s s' _ _ _; exact .inr ⟨[], [], rfl, rfl, .nil⟩
  | cons h _ ih =>
    intro t s s' hc hn hn'
    simp only [nanLoop, bind, Except.bind]
    rcases nanStep_after p t hc hn hn' h with ⟨e, e1, e2⟩ | ⟨r, r', e1, e2, hr⟩
    · exact .inl ⟨e, by rw [e1], by rw [e2]⟩
    · rcases ih (t + 1) hr.filtCov hr.filt.1 hr.filt.2 with ⟨e, e3, e4⟩ | ⟨l, l', e3, e4, hl⟩
      · exact .inl ⟨e, by rw [e1]; simp only [e3], by rw [e2]; simp only [e4]⟩
      · exact .inr ⟨r :: l, r' :: l', by rw [e1]; simp only [e3]; rfl,
          by rw [e2]; simp only [e4]; rfl, .cons hr hl⟩

theorem nanLoglikStep_after (hs : SolvesNaN solve) (hn : 0 < n) (hm : 0 < m) (p : Params n m)
    (t : ℕ) {s s' : NStep n m} (h : AfterNaN s s') {o o' : NObs m} (ho : SameMissing o o') :
    nanLoglikStep solve p t s o = nanLoglikStep solve p t s' o' := by
  by_cases hmi : o.missing
  · rw [nanLoglikStep, if_neg (not_not.mpr hmi), nanLoglikStep,
      if_neg (not_not.mpr (ho.mp hmi))]
  · rw [nanLoglikStep, if_pos hmi, nanLoglikStep, if_pos fun e => hmi (ho.mpr e)]
    refine congrArg (Bind.bind (lastDims p.C t)) (funext fun C => ?_)
    refine congrArg (Bind.bind (lastDims p.d t)) (funext fun d => ?_)
    cases p.R with
    | seq _ => rfl
    | const R =>
      show nanLogMvn solve o.val (fun i => nadd (ndot C s.predMean i) (some (d i)))
          (C * (s.predCov * Cᵀ) + R)
        = nanLogMvn solve o'.val (fun i => nadd (ndot C s'.predMean i) (some (d i)))
          (C * (s'.predCov * Cᵀ) + R)
      have key {s : NStep n m} (hs' : AllNaN s.predMean) (x : NVec m) :
          AllNaN fun i => nsub (x i) (nadd (ndot C s.predMean i) (some (d i))) := by
        intro j
        beta_reduce
        rw [ndot_none C (hs' ⟨0, hn⟩) j]
        exact nsub_none_right _
      rw [nanLogMvn_nan ⟨0, hm⟩ (fun L => hs.nan L _ (key h.pred.1 _)) _ 0 0,
        nanLogMvn_nan ⟨0, hm⟩ (fun L => hs.nan L _ (key h.pred.2 _)) _ 0 0, h.predCov]

theorem nanLoglikLoop_after (hs : SolvesNaN solve) (hn : 0 < n) (hm : 0 < m) (p : Params n m)
    {l l' : List (NStep n m)} (h : List.Forall₂ AfterNaN l l') :
    ∀ (t : ℕ) {os os' : List (NObs m)}, List.Forall₂ SameMissing os os' →
    nanLoglikLoop solve p t l os = nanLoglikLoop solve p t l' os' := by
  induction h with
  | nil =>
    intro t os os' ho
    simp [nanLoglikLoop]
  | cons h _ ih =>
    intro t os os' ho
    cases ho with
    | nil => rfl
    | cons ho hos =>
      simp only [nanLoglikLoop]
      rw [nanLoglikStep_after hs hn hm p t h ho, ih (t + 1) hos]

/-- The step at a row that contains `nan` and is used. -/
theorem nanStep_bad (p : Params n m) (t : ℕ) {prev : Option (NStep n m)} {o : NObs m} (ho : o.Bad)
    {s : NStep n m} (h : nanStep p t prev o = .ok s) : AllNaN s.filtMean := by
  have key (C : Mat m n) (R : Mat m m) (d : Vec m) (mean : NVec n) (cov : Mat n n) :
      AllNaN (nanCorrect C R d mean cov o).2.1 := by
    obtain ⟨h1, j, hj⟩ := ho
    have hmi : ¬ o.missing := by
      rintro ⟨i, hi⟩
      rw [h1 i] at hi
      cases hi
    unfold nanCorrect
    rw [if_pos hmi]
    intro i
    show nadd (mean i) (ndot _ _ i) = none
    rw [ndot_none _ (j := j) (by beta_reduce; rw [hj]; rfl) i]
    exact nadd_none_right _
  unfold nanStep at h
  cases prev with
  | none =>
    obtain ⟨_, -, h⟩ := ok_bind_iff.mp h
    obtain ⟨C, -, h⟩ := ok_bind_iff.mp h
    obtain ⟨R, -, h⟩ := ok_bind_iff.mp h
    obtain ⟨d, -, h⟩ := ok_bind_iff.mp h
    obtain rfl := Except.ok.inj h
    exact key C R d _ _
  | some q =>
    obtain ⟨_, -, h⟩ := ok_bind_iff.mp h
    obtain ⟨_, -, h⟩ := ok_bind_iff.mp h
    obtain ⟨_, -, h⟩ := ok_bind_iff.mp h
    obtain ⟨_, -, h⟩ := ok_bind_iff.mp h
    obtain ⟨C, -, h⟩ := ok_bind_iff.mp h
    obtain ⟨R, -, h⟩ := ok_bind_iff.mp h
    obtain ⟨d, -, h⟩ := ok_bind_iff.mp h
    obtain rfl := Except.ok.inj h
    exact key C R d _ _

theorem nanLoglik_after (hs : SolvesNaN solve) (hn : 0 < n) (p : Params n m) {o : NObs m}
    (ho : o.Bad) {post post' : List (NObs m)} (hpost : List.Forall₂ SameMissing post post') :
    ∀ (pre : List (NObs m)) (t : ℕ) (prev : Option (NStep n m)),
    (∃ e, nanLoop p t prev (pre ++ o :: post) = .error e ∧
      nanLoop p t prev (pre ++ o :: post') = .error e) ∨
    ∃ l l', nanLoop p t prev (pre ++ o :: post) = .ok l ∧
      nanLoop p t prev (pre ++ o :: post') = .ok l' ∧
      nanLoglikLoop solve p t l (pre ++ o :: post) = nanLoglikLoop solve p t l' (pre ++ o :: post')
  | [], t, prev => by
    simp only [List.nil_append, nanLoop, bind, Except.bind]
    cases e0 : nanStep p t prev o with
    | error e => exact .inl ⟨e, rfl, rfl⟩
    | ok s =>
      have hf := nanStep_bad p t ho e0
      have hm : 0 < m := by
        obtain ⟨-, i, -⟩ := ho
        exact Fin.pos i
      simp only
      rcases nanLoop_after p hpost (t + 1) (s := s) (s' := s) rfl hf hf with
        ⟨e, e1, e2⟩ | ⟨l, l', e1, e2, hl⟩
      · exact .inl ⟨e, by rw [e1], by rw [e2]⟩
      · refine .inr ⟨s :: l, s :: l', by rw [e1]; rfl, by rw [e2]; rfl, ?_⟩
        simp only [nanLoglikLoop, nanLoglikLoop_after hs hn hm p hl (t + 1) hpost]
  | q :: pre, t, prev => by
    simp only [List.cons_append, nanLoop, bind, Except.bind]
    cases nanStep p t prev q with
    | error e => exact .inl ⟨e, rfl, rfl⟩
    | ok s =>
      simp only
      rcases nanLoglik_after hs hn p ho hpost pre (t + 1) (some s) with
        ⟨e, e1, e2⟩ | ⟨l, l', e1, e2, hl⟩
      · exact .inl ⟨e, by rw [e1], by rw [e2]⟩
      · refine .inr ⟨s :: l, s :: l', by rw [e1]; rfl, by rw [e2]; rfl, ?_⟩
        simp only [nanLoglikLoop, hl]

end Verif
