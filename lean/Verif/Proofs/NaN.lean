import Verif.Spec.NaN

/-!
# Lemmas about arithmetic with `nan`
-/

open Matrix

namespace Verif

variable {n m : ℕ}

theorem foldr_nadd_some (l : List ℝ) : (l.map some).foldr nadd (some 0) = some l.sum := by
  induction l with
  | nil => rfl
  | cons a l ih => simp [ih, nadd]

theorem foldr_nadd_none {l : List (Option ℝ)} (h : none ∈ l) : l.foldr nadd (some 0) = none := by
  induction l with
  | nil => simp at h
  | cons a l ih =>
    rcases List.mem_cons.mp h with rfl | h
    · rfl
    · rw [List.foldr_cons, ih h]
      cases a <;> rfl

theorem ndot_real {k l : ℕ} (M : Mat k l) {v : NVec l} {u : Vec l} (h : IsReal v u) :
    IsReal (ndot M v) (M *ᵥ u) := by
  intro i
  have : (List.ofFn fun j => (v j).map (M i j * ·))
      = (List.ofFn fun j => M i j * u j).map some := by
    rw [List.map_ofFn]
    congr 1
    funext j
    simp [h j]
  rw [ndot, this, foldr_nadd_some, List.sum_ofFn]
  rfl

theorem ndot_none {k l : ℕ} (M : Mat k l) {v : NVec l} {j : Fin l} (h : v j = none) (i : Fin k) :
    ndot M v i = none := by
  refine foldr_nadd_none ?_
  rw [List.mem_ofFn]
  exact ⟨j, by simp [h]⟩

theorem nadd_none_right (x : Option ℝ) : nadd x none = none := by cases x <;> rfl

theorem nsub_none_right (x : Option ℝ) : nsub x none = none := by cases x <;> rfl

/-- What a row of the two filters has in common: `b` says whether a `nan` has been used so far. -/
structure StepSim (b : Prop) (s : NStep n m) (s' : Step n m) : Prop where
  predCov : s.predCov = s'.predCov
  gain : s.gain = s'.gain
  filtCov : s.filtCov = s'.filtCov
  real : ¬ b → IsReal s.predMean s'.predMean ∧ IsReal s.filtMean s'.filtMean
  nan : b → AllNaN s.filtMean

/-- The predicted mean: `b` says whether a `nan` has been used before this row. -/
def PredSim (b : Prop) (s : NStep n m) (s' : Step n m) : Prop :=
  (¬ b → IsReal s.predMean s'.predMean) ∧ (b → AllNaN s.predMean)

theorem nanCorrect_sim (C : Mat m n) (R : Mat m m) (d : Vec m) {mean : NVec n} {mean' : Vec n}
    (cov : Mat n n) {o : NObs m} {o' : Obs m} (ho : Fills o o') {b : Prop}
    (h1 : ¬ b → IsReal mean mean') (h2 : b → AllNaN mean) :
    (nanCorrect C R d mean cov o).1 = (filterCorrect C R d mean' cov o').1 ∧
    (nanCorrect C R d mean cov o).2.2 = (filterCorrect C R d mean' cov o').2.2 ∧
    (¬ (b ∨ o.Bad) →
      IsReal (nanCorrect C R d mean cov o).2.1 (filterCorrect C R d mean' cov o').2.1) ∧
    (b ∨ o.Bad → AllNaN (nanCorrect C R d mean cov o).2.1) := by
  have hm : o.missing ↔ o'.missing := by simp [NObs.missing, Obs.missing, ho.mask]
  by_cases h : o.missing
  · have h' := hm.mp h
    have hb : ¬ o.Bad := by
      rintro ⟨e, -⟩
      obtain ⟨i, hi⟩ := h
      rw [e i] at hi; cases hi
    simp only [nanCorrect, filterCorrect, h, h', not_true_eq_false, if_false, hb, or_false]
    exact ⟨trivial, trivial, h1, h2⟩
  · have h' : ¬ o'.missing := fun e => h (hm.mpr e)
    have hmask : ∀ i, o.mask i = false := by
      intro i
      by_contra e
      exact h ⟨i, by simpa using e⟩
    simp only [nanCorrect, filterCorrect, h, h', not_false_eq_true, if_true]
    refine ⟨trivial, trivial, ?_, ?_⟩
    · intro hb
      push Not at hb
      have hr := h1 hb.1
      have hv : IsReal o.val o'.val := by
        intro i
        cases hi : o.val i with
        | none => exact absurd ⟨hmask, i, hi⟩ hb.2
        | some x => rw [ho.val hmask i x hi]
      have e1 : IsReal (fun j => nsub (o.val j) (nadd (ndot C mean j) (some (d j))))
          (o'.val - (C *ᵥ mean' + d)) := by
        intro j
        beta_reduce
        rw [hv j, ndot_real C hr j]
        rfl
      intro i
      beta_reduce
      rw [hr i, ndot_real _ e1 i]
      rfl
    · intro hb i
      beta_reduce
      by_cases hbb : b
      · rw [h2 hbb i]; rfl
      · obtain ⟨-, j, hj⟩ := hb.resolve_left hbb
        rw [ndot_none _ (j := j) (by beta_reduce; rw [hj]; rfl) i]
        exact nadd_none_right _

theorem nanPredict_sim (A Q : Mat n n) (b0 : Vec n) {mean : NVec n} {mean' : Vec n} (cov : Mat n n)
    {b : Prop} (h1 : ¬ b → IsReal mean mean') (h2 : b → AllNaN mean) :
    (nanPredict A Q b0 mean cov).2 = (filterPredict A Q b0 mean' cov).2 ∧
    (¬ b → IsReal (nanPredict A Q b0 mean cov).1 (filterPredict A Q b0 mean' cov).1) ∧
    (b → AllNaN (nanPredict A Q b0 mean cov).1) := by
  refine ⟨rfl, fun hb i => ?_, fun hb i => ?_⟩
  · simp only [nanPredict, ndot_real A (h1 hb) i]
    rfl
  · simp only [nanPredict]
    rw [ndot_none A (h2 hb i) i]
    rfl

theorem nanStep_sim (p : Params n m) (t : ℕ) {b : Prop} {prev : Option (NStep n m)}
    {prev' : Option (Step n m)}
    (hp : (prev = none ∧ prev' = none ∧ ¬ b) ∨ ∃ s s', prev = some s ∧ prev' = some s' ∧
      StepSim b s s') {o : NObs m} {o' : Obs m} (ho : Fills o o') :
    (∃ e, nanStep p t prev o = .error e ∧ filterStep p t prev' o' = .error e) ∨
    ∃ s s', nanStep p t prev o = .ok s ∧ filterStep p t prev' o' = .ok s' ∧
      StepSim (b ∨ o.Bad) s s' ∧ PredSim b s s' := by
  have key (pred : NVec n × Mat n n) (pred' : Vec n × Mat n n) (e : pred.2 = pred'.2)
      (h1 : ¬ b → IsReal pred.1 pred'.1) (h2 : b → AllNaN pred.1) (C : Mat m n) (R : Mat m m)
      (d : Vec m) :
      StepSim (b ∨ o.Bad)
        (⟨pred.1, pred.2, (nanCorrect C R d pred.1 pred.2 o).1,
          (nanCorrect C R d pred.1 pred.2 o).2.1, (nanCorrect C R d pred.1 pred.2 o).2.2⟩ :
          NStep n m)
        ⟨pred'.1, pred'.2, (filterCorrect C R d pred'.1 pred'.2 o').1,
          (filterCorrect C R d pred'.1 pred'.2 o').2.1,
          (filterCorrect C R d pred'.1 pred'.2 o').2.2⟩ := by
    rw [e]
    obtain ⟨a1, a2, a3, a4⟩ := nanCorrect_sim C R d pred'.2 ho h1 h2
    exact ⟨rfl, a1, a2, fun hb => ⟨h1 fun hb' => hb (.inl hb'), a3 hb⟩, a4⟩
  rcases hp with ⟨rfl, rfl, hb⟩ | ⟨s, s', rfl, rfl, hs⟩
  · simp only [nanStep, filterStep, bind, Except.bind, pure, Except.pure]
    cases lastDims p.C t with
    | error e => exact .inl ⟨e, rfl, rfl⟩
    | ok C =>
      cases lastDims p.R t with
      | error e => exact .inl ⟨e, rfl, rfl⟩
      | ok R =>
        cases lastDims p.d t with
        | error e => exact .inl ⟨e, rfl, rfl⟩
        | ok d =>
          exact .inr ⟨_, _, rfl, rfl, key (reals p.mu0, p.S0) (p.mu0, p.S0) rfl
            (fun _ i => rfl) (fun h => absurd h hb) C R d, fun _ i => rfl, fun h => absurd h hb⟩
  · simp only [nanStep, filterStep, bind, Except.bind, pure, Except.pure]
    cases lastDims p.A (t - 1) with
    | error e => exact .inl ⟨e, rfl, rfl⟩
    | ok A =>
      cases lastDims p.Q (t - 1) with
      | error e => exact .inl ⟨e, rfl, rfl⟩
      | ok Q =>
        cases lastDims p.b (t - 1) with
        | error e => exact .inl ⟨e, rfl, rfl⟩
        | ok b0 =>
          cases lastDims p.C t with
          | error e => exact .inl ⟨e, rfl, rfl⟩
          | ok C =>
            cases lastDims p.R t with
            | error e => exact .inl ⟨e, rfl, rfl⟩
            | ok R =>
              cases lastDims p.d t with
              | error e => exact .inl ⟨e, rfl, rfl⟩
              | ok d =>
                obtain ⟨c1, c2, c3⟩ := nanPredict_sim A Q b0 s'.filtCov (mean := s.filtMean)
                  (mean' := s'.filtMean) (b := b) (fun h => (hs.real h).2) hs.nan
                rw [← hs.filtCov] at c1 c2 c3
                have := key (nanPredict A Q b0 s.filtMean s.filtCov)
                  (filterPredict A Q b0 s'.filtMean s'.filtCov)
                  (by rw [← hs.filtCov]; exact c1) (by rw [← hs.filtCov]; exact c2) c3 C R d
                exact .inr ⟨_, _, rfl, rfl, this, by rw [← hs.filtCov]; exact c2, c3⟩

/-- Rows of the two filters, side by side. -/
inductive RowsSim : Prop → List (NObs m) → List (NStep n m) → List (Step n m) → Prop
  | nil (b : Prop) : RowsSim b [] [] []
  | cons {b : Prop} {o : NObs m} {os : List (NObs m)} {s : NStep n m} {s' : Step n m}
      {l : List (NStep n m)} {l' : List (Step n m)} (h : StepSim (b ∨ o.Bad) s s') (hp : PredSim b s s')
      (hl : RowsSim (b ∨ o.Bad) os l l') : RowsSim b (o :: os) (s :: l) (s' :: l')

theorem nanLoop_sim (p : Params n m) {os : List (NObs m)} {os' : List (Obs m)}
    (ho : List.Forall₂ Fills os os') :
    ∀ (t : ℕ) {b : Prop} {prev : Option (NStep n m)} {prev' : Option (Step n m)},
    ((prev = none ∧ prev' = none ∧ ¬ b) ∨ ∃ s s', prev = some s ∧ prev' = some s' ∧
      StepSim b s s') →
    (∃ e, nanLoop p t prev os = .error e ∧ filterLoop p t prev' os' = .error e) ∨
    ∃ l l', nanLoop p t prev os = .ok l ∧ filterLoop p t prev' os' = .ok l' ∧
      RowsSim b os l l' := by
  induction ho with
  | nil =>
    intro t b prev prev' _
    exact .inr ⟨[], [], rfl, rfl, .nil b⟩
  | cons h _ ih =>
    intro t b prev prev' hp
    simp only [nanLoop, filterLoop, bind, Except.bind]
    rcases nanStep_sim p t hp h with ⟨e, e1, e2⟩ | ⟨s, s', e1, e2, hs, hps⟩
    · exact .inl ⟨e, by rw [e1], by rw [e2]⟩
    · rcases ih (t + 1) (.inr ⟨s, s', rfl, rfl, hs⟩) with ⟨e, e3, e4⟩ | ⟨l, l', e3, e4, hl⟩
      · exact .inl ⟨e, by rw [e1]; simp only [e3], by rw [e2]; simp only [e4]⟩
      · exact .inr ⟨s :: l, s' :: l', by rw [e1]; simp only [e3]; rfl,
          by rw [e2]; simp only [e4]; rfl, .cons hs hps hl⟩

theorem RowsSim.length {b : Prop} {os : List (NObs m)} {l : List (NStep n m)}
    {l' : List (Step n m)} (h : RowsSim b os l l') : l.length = os.length ∧ l'.length = os.length := by
  induction h with
  | nil => exact ⟨rfl, rfl⟩
  | cons _ _ _ ih => simp [ih.1, ih.2]

/-- Row `t`. -/
theorem RowsSim.get {b : Prop} {os : List (NObs m)} {l : List (NStep n m)}
    {l' : List (Step n m)} (h : RowsSim b os l l') :
    ∀ t, t < os.length → ∃ s s', l[t]? = some s ∧ l'[t]? = some s' ∧
      StepSim (b ∨ ∃ i ≤ t, ∃ o, os[i]? = some o ∧ o.Bad) s s' := by
  induction h with
  | nil => intro t ht; simp at ht
  | @cons b o os s s' l l' h _ hl ih =>
    intro t ht
    cases t with
    | zero =>
      refine ⟨s, s', rfl, rfl, ?_⟩
      have : (b ∨ ∃ i ≤ 0, ∃ o', (o :: os)[i]? = some o' ∧ o'.Bad) ↔ (b ∨ o.Bad) := by
        refine or_congr Iff.rfl ⟨?_, fun hb => ⟨0, le_rfl, o, rfl, hb⟩⟩
        rintro ⟨i, hi, o', e, hb⟩
        obtain rfl : i = 0 := by omega
        simp only [List.getElem?_cons_zero, Option.some.injEq] at e
        rw [e]; exact hb
      rw [propext this]
      exact h
    | succ t =>
      obtain ⟨r, r', e1, e2, e3⟩ := ih t (by simpa using ht)
      refine ⟨r, r', by simpa using e1, by simpa using e2, ?_⟩
      have : ((b ∨ o.Bad) ∨ ∃ i ≤ t, ∃ o', os[i]? = some o' ∧ o'.Bad) ↔
          (b ∨ ∃ i ≤ t + 1, ∃ o', (o :: os)[i]? = some o' ∧ o'.Bad) := by
        constructor
        · rintro ((hb | hb) | ⟨i, hi, o', e, hb⟩)
          · exact .inl hb
          · exact .inr ⟨0, by omega, o, rfl, hb⟩
          · exact .inr ⟨i + 1, by omega, o', by simpa using e, hb⟩
        · rintro (hb | ⟨i, hi, o', e, hb⟩)
          · exact .inl (.inl hb)
          · cases i with
            | zero =>
              simp only [List.getElem?_cons_zero, Option.some.injEq] at e
              exact .inl (.inr (e ▸ hb))
            | succ i => exact .inr ⟨i, by omega, o', by simpa using e, hb⟩
      rw [propext this] at e3
      exact e3

/-- The smoother: `b` says whether any `nan` has been used in the whole record. -/
theorem nanSmoothLoop_sim (A : TV (Mat n n)) {os : List (NObs m)} {l : List (NStep n m)}
    {l' : List (Step n m)} {b : Prop} (h : RowsSim b os l l') :
    ∀ (t : ℕ) {c : Prop} (s : NStep n m) (s' : Step n m), StepSim c s s' → (c → b) →
    (¬ (b ∨ ∃ o ∈ os, o.Bad) → ¬ c) → (l = [] → b → c) →
    (∃ e, nanSmoothLoop A t s l = .error e ∧ smoothLoop A t s' l' = .error e) ∨
    ∃ r r', nanSmoothLoop A t s l = .ok r ∧ smoothLoop A t s' l' = .ok r' ∧
      List.Forall₂ (fun (x : NVec n × Mat n n) (y : SStep n) => x.2 = y.cov ∧
        (¬ (b ∨ ∃ o ∈ os, o.Bad) → IsReal x.1 y.mean) ∧
        ((b ∨ ∃ o ∈ os, o.Bad) → AllNaN x.1)) (r.1 :: r.2) (r'.1 :: r'.2) := by
  induction h with
  | nil b =>
    intro t c s s' hs hcb hn hl
    refine .inr ⟨_, _, rfl, rfl, .cons ⟨hs.filtCov, fun hb => (hs.real (hn hb)).2, fun hb => ?_⟩ .nil⟩
    exact hs.nan (hl rfl (by simpa using hb))
  | @cons b o os s1 s1' l l' h1 _ hl ih =>
    intro t c s s' hs hcb hn _
    have hiff : ((b ∨ o.Bad) ∨ ∃ o' ∈ os, o'.Bad) ↔ (b ∨ ∃ o' ∈ o :: os, o'.Bad) := by
      simp only [List.mem_cons, exists_eq_or_imp]
      tauto
    have hrec := ih (t + 1) s1 s1' h1 id (fun hb hb' => hb (.inl hb')) (fun _ hb => hb)
    rw [propext hiff] at hrec
    simp only [nanSmoothLoop, smoothLoop, bind, Except.bind]
    rcases hrec with ⟨e, e1, e2⟩ | ⟨r, r', e1, e2, hr⟩
    · exact .inl ⟨e, by rw [e1], by rw [e2]⟩
    · rw [e1, e2]
      simp only
      cases lastDims A t with
      | error e => exact .inl ⟨e, rfl, rfl⟩
      | ok At =>
        refine .inr ⟨_, _, rfl, rfl, .cons ?_ hr⟩
        cases hr with
        | cons hhead _ =>
          obtain ⟨a1, a2, a3⟩ := hhead
          refine ⟨?_, fun hb i => ?_, fun hb i => ?_⟩
          · simp only [nanSmoothUpdate, smoothUpdate, hs.filtCov, h1.predCov, a1]
          · have hnb : ¬ (b ∨ o.Bad) := fun hb' => hb (hiff.mp (.inl hb'))
            have hd : IsReal (fun j => nsub (r.1.1 j) (s1.predMean j))
                (r'.1.mean - s1'.predMean) := by
              intro j
              beta_reduce
              rw [a2 hb j, (h1.real hnb).1 j]
              rfl
            simp only [nanSmoothUpdate, smoothUpdate]
            rw [(hs.real (hn hb)).2 i, ndot_real _ hd i, hs.filtCov, h1.predCov]
            rfl
          · simp only [nanSmoothUpdate]
            rw [ndot_none _ (j := i) (by beta_reduce; rw [a3 hb i]; rfl) i]
            exact nadd_none_right _

theorem nanSmoothLoop_length {A : TV (Mat n n)} {l : List (NStep n m)} :
    ∀ {t : ℕ} {s : NStep n m} {r : (NVec n × Mat n n) × List (NVec n × Mat n n)},
    nanSmoothLoop A t s l = .ok r → r.2.length = l.length := by
  induction l with
  | nil =>
    intro t s r h
    obtain rfl := Except.ok.inj h
    rfl
  | cons s1 l ih =>
    intro t s r h
    simp only [nanSmoothLoop, bind, Except.bind] at h
    cases e : nanSmoothLoop A (t + 1) s1 l with
    | error _ => rw [e] at h; cases h
    | ok r1 =>
      rw [e] at h
      simp only at h
      cases e2 : lastDims A t with
      | error _ => rw [e2] at h; cases h
      | ok At =>
        rw [e2] at h
        obtain rfl := Except.ok.inj h
        simp [ih e]

end Verif
