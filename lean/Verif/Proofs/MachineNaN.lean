import Verif.Spec.MachineNaN
import Verif.Proofs.MachineSqrt

/-!
# Lemmas on `nan` on the numbers of a machine
-/

namespace Verif

variable {n m k l : ℕ}

theorem raises_iff {α : Type} {r : Res α} : Raises r ↔ ∀ a, r ≠ .ok a := by
  cases r with
  | error e => exact ⟨fun _ a h => (by cases h), fun _ => ⟨e, rfl⟩⟩
  | ok a => exact ⟨fun ⟨e, h⟩ => (by cases h), fun h => (h a rfl).elim⟩

theorem raises_bind {α β : Type} {r : Res α} {f : α → Res β}
    (h : ∀ a, r = .ok a → Raises (f a)) : Raises (r >>= f) := by
  rw [raises_iff]
  intro b hb
  obtain ⟨a, ha, hb⟩ := ok_bind_iff.mp hb
  exact raises_iff.mp (h a ha) b hb

theorem Raises.bind {α β : Type} {r : Res α} (h : Raises r) (f : α → Res β) :
    Raises (r >>= f) := by
  obtain ⟨e, rfl⟩ := h
  exact ⟨e, rfl⟩

namespace UMachine

variable {σ ο : Type} {step : ℕ → Option σ → ο → Res σ}

theorem run_always {P : σ → Prop} (h2 : ∀ t s o s', step t (some s) o = .ok s' → P s → P s')
    {os : List ο} {t : ℕ} {s : σ} {l : List σ} (h : run step t (some s) os = .ok l) (hs : P s) :
    ∀ x ∈ l, P x := by
  induction os generalizing t s l with
  | nil => cases h; simp
  | cons o os ih =>
    rw [run] at h
    obtain ⟨s', hs', h⟩ := ok_bind_iff.mp h
    obtain ⟨r, hr, h⟩ := ok_bind_iff.mp h
    cases h
    have := h2 _ _ _ _ hs' hs
    intro x hx
    rcases List.mem_cons.mp hx with rfl | hx
    · exact this
    · exact ih hr this x hx

/-- A property that some rows bring about and that stays. -/
theorem run_inv {P : σ → Prop} {B : ο → Prop}
    (h1 : ∀ t prev o s, step t prev o = .ok s → B o → P s)
    (h2 : ∀ t s o s', step t (some s) o = .ok s' → P s → P s')
    {os : List ο} {t : ℕ} {prev : Option σ} {l : List σ} (h : run step t prev os = .ok l) {i : ℕ}
    (hi : i < os.length) (hb : B os[i]) {j : ℕ} (hij : i ≤ j) (hj : j < l.length) : P l[j] := by
  induction os generalizing t prev l i j with
  | nil => simp at hi
  | cons o os ih =>
    rw [run] at h
    obtain ⟨s, hs, h⟩ := ok_bind_iff.mp h
    obtain ⟨r, hr, h⟩ := ok_bind_iff.mp h
    cases h
    cases i with
    | zero =>
      have hp := h1 _ _ _ _ hs (by simpa using hb)
      cases j with
      | zero => simpa using hp
      | succ j => simpa using run_always h2 hr hp _ (List.getElem_mem (by simpa using hj))
    | succ i =>
      obtain ⟨j, rfl⟩ : ∃ j', j = j' + 1 := ⟨j - 1, by omega⟩
      simpa using ih hr (by simpa using hi) (by simpa using hb) (by omega) (by simpa using hj)

/-- A loop whose step raises on some row. -/
theorem run_never {P : Option σ → Prop} {B : ο → Prop}
    (h1 : ∀ t prev o, P prev → B o → Raises (step t prev o))
    (h2 : ∀ t prev o s, P prev → step t prev o = .ok s → P (some s)) {os : List ο} {t : ℕ}
    {prev : Option σ} (hp : P prev) (hb : ∃ o ∈ os, B o) : Raises (run step t prev os) := by
  induction os generalizing t prev with
  | nil => obtain ⟨o, ho, -⟩ := hb; simp at ho
  | cons o os ih =>
    rw [run]
    refine raises_bind fun s hs => Raises.bind ?_ _
    have hps := h2 _ _ _ _ hp hs
    obtain ⟨x, hx, hbx⟩ := hb
    rcases List.mem_cons.mp hx with rfl | hx
    · exact (raises_iff.mp (h1 t prev x hp hbx) s hs).elim
    · exact ih hps ⟨x, hx, hbx⟩

/-- A property that some rows bring about and with which no further row is possible. -/
theorem run_stops {P : σ → Prop} {B : ο → Prop}
    (h1 : ∀ t prev o s, step t prev o = .ok s → B o → P s)
    (h2 : ∀ t s o, P s → Raises (step t (some s) o))
    {os : List ο} {t : ℕ} {prev : Option σ} {i : ℕ} (hi : i + 1 < os.length) (hb : B os[i]) :
    Raises (run step t prev os) := by
  induction os generalizing t prev i with
  | nil => simp at hi
  | cons o os ih =>
    rw [run]
    refine raises_bind fun s hs => Raises.bind ?_ _
    cases i with
    | zero =>
      have hp := h1 _ _ _ _ hs (by simpa using hb)
      cases os with
      | nil => simp at hi
      | cons o' os => rw [run]; exact Raises.bind (h2 _ _ _ hp) _
    | succ i => exact ih (by simpa using hi) (by simpa using hb)

theorem run_second {os : List ο} {t : ℕ} {prev : Option σ} {l : List σ}
    (h : run step t prev os = .ok l) (h2 : 2 ≤ os.length) :
    ∃ s o s' r, step (t + 1) (some s) o = .ok s' ∧ l = s :: s' :: r := by
  rcases os with _ | ⟨o, _ | ⟨o', os⟩⟩
  · simp at h2
  · simp at h2
  · rw [run] at h
    obtain ⟨s, hs, h⟩ := ok_bind_iff.mp h
    obtain ⟨r, hr, h⟩ := ok_bind_iff.mp h
    cases h
    rw [run] at hr
    obtain ⟨s', hs', h⟩ := ok_bind_iff.mp hr
    obtain ⟨r', hr', h⟩ := ok_bind_iff.mp h
    cases h
    exact ⟨s, o', s', r', hs', rfl⟩

end UMachine

namespace Machine

variable {M : Machine} {bad : M.F → Prop}

theorem Row.Used.not_missing {o : M.Row m} (h : o.Used) : ¬ o.missing := by
  rintro ⟨i, hi⟩
  rw [h i] at hi
  cases hi

theorem Row.used_of_not_missing {o : M.Row m} (h : ¬ o.missing) : o.Used := by
  intro i
  by_contra hi
  exact h ⟨i, by simpa using hi⟩

theorem loop_eq_run (p : M.Par n m) (t : ℕ) (prev : Option (M.St n m)) (os : List (M.Row m)) :
    M.loop p t prev os = UMachine.run (M.step p) t prev os := by
  induction os generalizing t prev with
  | nil => rfl
  | cons o os ih => simp only [loop, UMachine.run, ih]

theorem full_eq_run (p : M.Par n m) (os : List (M.Row m)) :
    M.full p os = UMachine.run (M.step p) 0 none os := loop_eq_run p 0 none os

theorem step_ok {p : M.Par n m} {t : ℕ} {prev : Option (M.St n m)} {o : M.Row m} {s : M.St n m}
    (h : M.step p t prev o = .ok s) :
    (match prev with
      | none => s.predMean = p.mu0 ∧ s.predCov = p.S0
      | some q => ∃ A Q b, lastDims p.A (t - 1) = .ok A ∧ lastDims p.Q (t - 1) = .ok Q ∧
          lastDims p.b (t - 1) = .ok b ∧
          (s.predMean, s.predCov) = M.predict A Q b q.filtMean q.filtCov) ∧
    ∃ C R d, lastDims p.C t = .ok C ∧ lastDims p.R t = .ok R ∧ lastDims p.d t = .ok d ∧
      M.correct C R d s.predMean s.predCov o = .ok (s.gain, s.filtMean, s.filtCov) := by
  cases prev with
  | none =>
    simp only [step] at h
    obtain ⟨pr, hpr, h⟩ := ok_bind_iff.mp h
    cases hpr
    obtain ⟨C, hC, h⟩ := ok_bind_iff.mp h
    obtain ⟨R, hR, h⟩ := ok_bind_iff.mp h
    obtain ⟨d, hd, h⟩ := ok_bind_iff.mp h
    obtain ⟨c, hc, h⟩ := ok_bind_iff.mp h
    cases h
    exact ⟨⟨rfl, rfl⟩, C, R, d, hC, hR, hd, hc⟩
  | some q =>
    simp only [step] at h
    obtain ⟨A, hA, h⟩ := ok_bind_iff.mp h
    obtain ⟨Q, hQ, h⟩ := ok_bind_iff.mp h
    obtain ⟨b, hb, h⟩ := ok_bind_iff.mp h
    obtain ⟨pr, hpr, h⟩ := ok_bind_iff.mp h
    cases hpr
    obtain ⟨C, hC, h⟩ := ok_bind_iff.mp h
    obtain ⟨R, hR, h⟩ := ok_bind_iff.mp h
    obtain ⟨d, hd, h⟩ := ok_bind_iff.mp h
    obtain ⟨c, hc, h⟩ := ok_bind_iff.mp h
    cases h
    exact ⟨⟨A, Q, b, hA, hQ, hb, rfl⟩, C, R, d, hC, hR, hd, hc⟩

variable (h : M.NaN bad)

include h

theorem NaN.predict_mean (hn : 0 < n) {A Q : M.A n n} {b mean : M.V n} {cov : M.A n n}
    (hm : AllBad bad mean) : AllBad bad (M.predict A Q b mean cov).1 :=
  fun i => h.add_left _ (h.dotV_right A (hm ⟨0, hn⟩) i)

theorem NaN.correct_bad {C : M.A m n} {R : M.A m m} {d : M.V m} {mean : M.V n} {cov : M.A n n}
    {o : M.Row m} {r : M.A n m × M.V n × M.A n n} (hr : M.correct C R d mean cov o = .ok r)
    (ho : o.HasNaN bad) : AllBad bad r.2.1 := by
  obtain ⟨hu, j, hj⟩ := ho
  rw [correct, if_pos hu.not_missing] at hr
  obtain ⟨inv, -, hr⟩ := ok_bind_iff.mp hr
  cases hr
  exact fun i => h.add_right _ (h.dotV_right _ (h.sub_left _ hj) i)

theorem NaN.correct_mean {C : M.A m n} {R : M.A m m} {d : M.V m} {mean : M.V n} {cov : M.A n n}
    {o : M.Row m} {r : M.A n m × M.V n × M.A n n} (hr : M.correct C R d mean cov o = .ok r)
    (hm : AllBad bad mean) : AllBad bad r.2.1 := by
  by_cases ho : o.missing
  · rw [correct, if_neg (not_not.mpr ho)] at hr
    cases hr
    exact hm
  · rw [correct, if_pos ho] at hr
    obtain ⟨inv, -, hr⟩ := ok_bind_iff.mp hr
    cases hr
    exact fun i => h.add_left _ (hm i)

theorem NaN.step_bad {p : M.Par n m} {t : ℕ} {prev : Option (M.St n m)} {o : M.Row m}
    {s : M.St n m} (hs : M.step p t prev o = .ok s) (ho : o.HasNaN bad) :
    AllBad bad s.filtMean := by
  obtain ⟨-, C, R, d, -, -, -, hc⟩ := step_ok hs
  exact h.correct_bad hc ho

theorem NaN.step_mean (hn : 0 < n) {p : M.Par n m} {t : ℕ} {q : M.St n m} {o : M.Row m}
    {s : M.St n m} (hs : M.step p t (some q) o = .ok s) (hq : AllBad bad q.filtMean) :
    AllBad bad s.filtMean := by
  obtain ⟨⟨A, Q, b, -, -, -, e⟩, C, R, d, -, -, -, hc⟩ := step_ok hs
  have := congrArg Prod.fst e
  exact h.correct_mean hc (by
    rw [show s.predMean = _ from this]; exact h.predict_mean hn hq)

theorem NaN.full_bad (hn : 0 < n) {p : M.Par n m} {os : List (M.Row m)} {l : List (M.St n m)}
    (hl : M.full p os = .ok l) {t : ℕ} (ht : t < os.length) (hb : os[t].HasNaN bad) {s : ℕ}
    (hts : t ≤ s) (hs : s < l.length) : AllBad bad l[s].filtMean := by
  rw [full_eq_run] at hl
  exact UMachine.run_inv (P := fun s => AllBad bad s.filtMean) (B := Row.HasNaN bad)
    (fun _ _ _ _ => h.step_bad) (fun _ _ _ _ => h.step_mean hn) hl ht hb hts hs

/-! ### Smoothing -/

theorem NaN.smoothLoop_bad (hn : 0 < n) {A : TV (M.A n n)} {rest : List (M.St n m)} {t : ℕ}
    {s : M.St n m} {r : M.SSt n × List (M.SSt n)} (hr : M.smoothLoop A t s rest = .ok r)
    (hlast : ∀ x, (s :: rest).getLast? = some x → AllBad bad x.filtMean) :
    ∀ x ∈ r.1 :: r.2, AllBad bad x.mean := by
  induction rest generalizing t s r with
  | nil =>
    cases hr
    intro x hx
    simp only [List.mem_singleton] at hx
    subst hx
    exact hlast s rfl
  | cons s' rest ih =>
    rw [smoothLoop] at hr
    obtain ⟨r', hr', hr⟩ := ok_bind_iff.mp hr
    obtain ⟨At, -, hr⟩ := ok_bind_iff.mp hr
    obtain ⟨u, hu, hr⟩ := ok_bind_iff.mp hr
    cases hr
    have hall := ih hr' (by simpa [List.getLast?_cons_cons] using hlast)
    intro x hx
    rcases List.mem_cons.mp hx with rfl | hx
    · rw [smoothUpdate] at hu
      obtain ⟨inv, -, hu⟩ := ok_bind_iff.mp hu
      cases hu
      exact fun i => h.add_right _ (h.dotV_right _ (j := ⟨0, hn⟩)
        (h.sub_left _ (hall r'.1 (by simp) _)) i)
    · exact hall x (by simpa using hx)

theorem NaN.smoothFull_bad (hn : 0 < n) {A : TV (M.A n n)} {rows : List (M.St n m)}
    {sm : List (M.SSt n)} (hs : M.smoothFull A rows = .ok sm)
    (hlast : ∀ x, rows.getLast? = some x → AllBad bad x.filtMean) :
    ∀ x ∈ sm, AllBad bad x.mean := by
  cases rows with
  | nil => cases hs
  | cons s rest =>
    rw [smoothFull] at hs
    obtain ⟨r, hr, hs⟩ := ok_bind_iff.mp hs
    cases hs
    exact h.smoothLoop_bad hn hr hlast

omit h in
theorem smoothLoop_length {A : TV (M.A n n)} {rest : List (M.St n m)} {t : ℕ} {s : M.St n m}
    {r : M.SSt n × List (M.SSt n)} (hr : M.smoothLoop A t s rest = .ok r) :
    r.2.length = rest.length := by
  induction rest generalizing t s r with
  | nil => cases hr; rfl
  | cons s' rest ih =>
    rw [smoothLoop] at hr
    obtain ⟨r', hr', hr⟩ := ok_bind_iff.mp hr
    obtain ⟨At, -, hr⟩ := ok_bind_iff.mp hr
    obtain ⟨u, hu, hr⟩ := ok_bind_iff.mp hr
    cases hr
    simp [ih hr']

omit h in
theorem smoothFull_length {A : TV (M.A n n)} {rows : List (M.St n m)} {sm : List (M.SSt n)}
    (hs : M.smoothFull A rows = .ok sm) : sm.length = rows.length := by
  cases rows with
  | nil => cases hs
  | cons s rest =>
    rw [smoothFull] at hs
    obtain ⟨r, hr, hs⟩ := ok_bind_iff.mp hs
    cases hs
    simp [smoothLoop_length hr]

omit h in
theorem pair_length (sm : List (M.SSt n)) : (M.pair sm).length = sm.length := by
  have aux : ∀ (rest : List (M.SSt n)) (s), (M.pairAux s rest).length = rest.length := by
    intro rest
    induction rest with
    | nil => intro s; rfl
    | cons s' rest ih => intro s; simp [pairAux, ih]
  cases sm with
  | nil => rfl
  | cons s rest => simp [pair, aux]

/-- The statistics of smoothed rows. -/
theorem NaN.stats_bad (hn : 0 < n) {A : TV (M.A n n)} {rows : List (M.St n m)}
    {sm : List (M.SSt n)} (hs : M.smoothFull A rows = .ok sm)
    (hlast : ∀ x, rows.getLast? = some x → AllBad bad x.filtMean) {ss : List (M.Stats n)}
    (hss : ss = (sm.zip (M.pair sm)).map fun q => ⟨q.1.mean, q.1.cov, q.2⟩) :
    ss.length = rows.length ∧ ∀ s ∈ ss, AllBad bad s.mean := by
  subst hss
  refine ⟨by simp [pair_length, smoothFull_length hs], fun s hs' => ?_⟩
  obtain ⟨q, hq, rfl⟩ := List.mem_map.mp hs'
  exact h.smoothFull_bad hn hs hlast q.1 (List.of_mem_zip hq).1

omit h in
theorem smoothFull_raises (h : M.NaN bad) {A : TV (M.A n n)} {s s' : M.St n m}
    {rest : List (M.St n m)} (hn : 0 < n) (hs : AllBad₂ bad s'.predCov) :
    Raises (M.smoothFull A (s :: s' :: rest)) := by
  rw [smoothFull]
  refine Raises.bind ?_ _
  rw [smoothLoop]
  refine raises_bind fun r _ => raises_bind fun At _ => Raises.bind ?_ _
  rw [smoothUpdate, h.pinv (hs ⟨0, hn⟩ ⟨0, hn⟩)]
  exact ⟨_, rfl⟩

/-! ### EM -/

theorem NaN.obsMatLoop_bad {d : TV (M.V m)} {os : List (M.Row m)} {t : ℕ}
    {ss : List (M.Stats n)} {r1 : M.A m n} {r2 : M.A n n} {r : M.A m n × M.A n n}
    (hr : M.obsMatLoop d t ss os r1 r2 = .ok r) (hlen : ss.length = os.length)
    (hss : ∀ s ∈ ss, AllBad bad s.mean) (hb : AllBad₂ bad r2 ∨ ∃ o ∈ os, o.Used) :
    AllBad₂ bad r.2 := by
  induction os generalizing t ss r1 r2 with
  | nil =>
    cases ss with
    | nil => cases hr; simpa using hb
    | cons => simp at hlen
  | cons o os ih =>
    cases ss with
    | nil => simp at hlen
    | cons s ss =>
      have hlen' : ss.length = os.length := by simpa using hlen
      have hss' : ∀ x ∈ ss, AllBad bad x.mean := fun x hx => hss x (by simp [hx])
      by_cases ho : o.missing
      · rw [obsMatLoop, if_neg (not_not.mpr ho)] at hr
        refine ih hr hlen' hss' ?_
        rcases hb with hb | ⟨x, hx, hu⟩
        · exact .inl hb
        · rcases List.mem_cons.mp hx with rfl | hx
          · exact (hu.not_missing ho).elim
          · exact .inr ⟨x, hx, hu⟩
      · rw [obsMatLoop, if_pos ho] at hr
        obtain ⟨dt, -, hr⟩ := ok_bind_iff.mp hr
        exact ih hr hlen' hss' (.inl fun i j => h.add_right _ (h.add_right _
          (h.mul_left _ (hss s (by simp) i))))

theorem NaN.obsMat_raises (hn : 0 < n) {d : TV (M.V m)} {os : List (M.Row m)}
    {ss : List (M.Stats n)} (hlen : ss.length = os.length)
    (hss : ∀ s ∈ ss, AllBad bad s.mean) (hb : ∃ o ∈ os, o.Used) :
    Raises (M.obsMat d ss os) := by
  rw [obsMat]
  refine raises_bind fun r hr => ?_
  rw [h.pinv (h.obsMatLoop_bad hr hlen hss (.inr hb) ⟨0, hn⟩ ⟨0, hn⟩)]
  exact ⟨_, rfl⟩

theorem NaN.obsCovLoop_bad (hn : 0 < n) {C : TV (M.A m n)} {d : TV (M.V m)} {os : List (M.Row m)}
    {t : ℕ} {ss : List (M.Stats n)} {r0 : M.A m m} {k : ℕ} {r : M.A m m × ℕ}
    (hr : M.obsCovLoop C d t ss os r0 k = .ok r) (hlen : ss.length = os.length)
    (hss : ∀ s ∈ ss, AllBad bad s.mean) (hb : AllBad₂ bad r0 ∨ ∃ o ∈ os, o.Used) :
    AllBad₂ bad r.1 := by
  induction os generalizing t ss r0 k with
  | nil =>
    cases ss with
    | nil => cases hr; simpa using hb
    | cons => simp at hlen
  | cons o os ih =>
    cases ss with
    | nil => simp at hlen
    | cons s ss =>
      have hlen' : ss.length = os.length := by simpa using hlen
      have hss' : ∀ x ∈ ss, AllBad bad x.mean := fun x hx => hss x (by simp [hx])
      by_cases ho : o.missing
      · rw [obsCovLoop, if_neg (not_not.mpr ho)] at hr
        refine ih hr hlen' hss' ?_
        rcases hb with hb | ⟨x, hx, hu⟩
        · exact .inl hb
        · rcases List.mem_cons.mp hx with rfl | hx
          · exact (hu.not_missing ho).elim
          · exact .inr ⟨x, hx, hu⟩
      · rw [obsCovLoop, if_pos ho] at hr
        obtain ⟨Ct, -, hr⟩ := ok_bind_iff.mp hr
        obtain ⟨dt, -, hr⟩ := ok_bind_iff.mp hr
        exact ih hr hlen' hss' (.inl fun i j => h.add_right _ (h.add_left _ (h.mul_left _
          (h.sub_left _ (h.sub_right _ (h.dotV_right _ (hss s (by simp) ⟨0, hn⟩) i))))))

theorem NaN.obsCov_bad (hn : 0 < n) {C : TV (M.A m n)} {d : TV (M.V m)} {os : List (M.Row m)}
    {ss : List (M.Stats n)} {R : M.A m m} (hR : M.obsCov C d ss os = .ok R)
    (hlen : ss.length = os.length) (hss : ∀ s ∈ ss, AllBad bad s.mean)
    (hb : ∃ o ∈ os, o.Used) : AllBad₂ bad R := by
  rw [obsCov] at hR
  obtain ⟨r, hr, hR⟩ := ok_bind_iff.mp hR
  have := h.obsCovLoop_bad hn hr hlen hss (.inr hb)
  by_cases hk : r.2 > 0
  · rw [if_pos hk] at hR; cases hR
    exact fun i j => h.mul_right _ (this i j)
  · rw [if_neg hk] at hR; cases hR
    exact this

theorem NaN.obsOffLoop_bad (hn : 0 < n) {C : TV (M.A m n)} {os : List (M.Row m)}
    {t : ℕ} {ss : List (M.Stats n)} {r0 : M.V m} {k : ℕ} {r : M.V m × ℕ}
    (hr : M.obsOffLoop C t ss os r0 k = .ok r) (hlen : ss.length = os.length)
    (hss : ∀ s ∈ ss, AllBad bad s.mean) (hb : AllBad bad r0 ∨ ∃ o ∈ os, o.Used) :
    AllBad bad r.1 := by
  induction os generalizing t ss r0 k with
  | nil =>
    cases ss with
    | nil => cases hr; simpa using hb
    | cons => simp at hlen
  | cons o os ih =>
    cases ss with
    | nil => simp at hlen
    | cons s ss =>
      have hlen' : ss.length = os.length := by simpa using hlen
      have hss' : ∀ x ∈ ss, AllBad bad x.mean := fun x hx => hss x (by simp [hx])
      by_cases ho : o.missing
      · rw [obsOffLoop, if_neg (not_not.mpr ho)] at hr
        refine ih hr hlen' hss' ?_
        rcases hb with hb | ⟨x, hx, hu⟩
        · exact .inl hb
        · rcases List.mem_cons.mp hx with rfl | hx
          · exact (hu.not_missing ho).elim
          · exact .inr ⟨x, hx, hu⟩
      · rw [obsOffLoop, if_pos ho] at hr
        obtain ⟨Ct, -, hr⟩ := ok_bind_iff.mp hr
        exact ih hr hlen' hss' (.inl fun i => h.add_right _ (h.sub_right _
          (h.dotV_right _ (hss s (by simp) ⟨0, hn⟩) i)))

theorem NaN.obsOff_bad (hn : 0 < n) {C : TV (M.A m n)} {os : List (M.Row m)}
    {ss : List (M.Stats n)} {d : M.V m} (hd : M.obsOff C ss os = .ok d)
    (hlen : ss.length = os.length) (hss : ∀ s ∈ ss, AllBad bad s.mean)
    (hb : ∃ o ∈ os, o.Used) : AllBad bad d := by
  rw [obsOff] at hd
  obtain ⟨r, hr, hd⟩ := ok_bind_iff.mp hd
  have := h.obsOffLoop_bad hn hr hlen hss (.inr hb)
  by_cases hk : r.2 > 0
  · rw [if_pos hk] at hd; cases hd
    exact fun i => h.mul_right _ (this i)
  · rw [if_neg hk] at hd; cases hd
    exact this

theorem NaN.transMatLoop_bad {b : TV (M.V n)} {ss : List (M.Stats n)} {t : ℕ}
    {prev : M.Stats n} {r1 r2 : M.A n n} {r : M.A n n × M.A n n}
    (hr : M.transMatLoop b t prev ss r1 r2 = .ok r) (hp : AllBad bad prev.mean)
    (hss : ∀ s ∈ ss, AllBad bad s.mean) (hb : AllBad₂ bad r2 ∨ ss ≠ []) : AllBad₂ bad r.2 := by
  induction ss generalizing t prev r1 r2 with
  | nil => cases hr; simpa using hb
  | cons s ss ih =>
    rw [transMatLoop] at hr
    obtain ⟨bt, -, hr⟩ := ok_bind_iff.mp hr
    exact ih hr (hss s (by simp)) (fun x hx => hss x (by simp [hx]))
      (.inl fun i j => h.add_right _ (h.add_right _ (h.mul_left _ (hp i))))

theorem NaN.transMat_raises (hn : 0 < n) {b : TV (M.V n)} {ss : List (M.Stats n)}
    (hlen : 2 ≤ ss.length) (hss : ∀ s ∈ ss, AllBad bad s.mean) : Raises (M.transMat b ss) := by
  rcases ss with _ | ⟨s, _ | ⟨s', ss⟩⟩
  · simp at hlen
  · simp at hlen
  · rw [transMat]
    refine raises_bind fun r hr => ?_
    rw [h.pinv (h.transMatLoop_bad hr (hss s (by simp)) (fun x hx => hss x (by simp [hx]))
      (.inr (by simp)) ⟨0, hn⟩ ⟨0, hn⟩)]
    exact ⟨_, rfl⟩

theorem NaN.transCovLoop_bad {A : TV (M.A n n)} {b : TV (M.V n)} {ss : List (M.Stats n)} {t : ℕ}
    {prev : M.Stats n} {r0 r : M.A n n} (hr : M.transCovLoop A b t prev ss r0 = .ok r)
    (hss : ∀ s ∈ ss, AllBad bad s.mean) (hb : AllBad₂ bad r0 ∨ ss ≠ []) : AllBad₂ bad r := by
  induction ss generalizing t prev r0 with
  | nil => cases hr; simpa using hb
  | cons s ss ih =>
    rw [transCovLoop] at hr
    obtain ⟨At, -, hr⟩ := ok_bind_iff.mp hr
    obtain ⟨bt, -, hr⟩ := ok_bind_iff.mp hr
    exact ih hr (fun x hx => hss x (by simp [hx]))
      (.inl fun i j => h.add_right _ (h.sub_left _ (h.sub_left _ (h.add_left _ (h.add_left _
        (h.mul_left _ (h.sub_left _ (h.sub_left _ (hss s (by simp) i)))))))))

theorem NaN.transCov_bad {A : TV (M.A n n)} {b : TV (M.V n)} {ss : List (M.Stats n)}
    {Q : M.A n n} (hQ : M.transCov A b ss = .ok Q) (hlen : 2 ≤ ss.length)
    (hss : ∀ s ∈ ss, AllBad bad s.mean) : AllBad₂ bad Q := by
  rcases ss with _ | ⟨s, _ | ⟨s', ss⟩⟩
  · simp at hlen
  · simp at hlen
  · rw [transCov] at hQ
    obtain ⟨r, hr, hQ⟩ := ok_bind_iff.mp hQ
    rw [if_pos (by simp)] at hQ
    cases hQ
    exact fun i j => h.mul_right _ (h.transCovLoop_bad hr (fun x hx => hss x (by simp [hx]))
      (.inr (by simp)) i j)

theorem NaN.transOffLoop_bad {A : TV (M.A n n)} {ss : List (M.Stats n)} {t : ℕ}
    {prev : M.Stats n} {r0 r : M.V n} (hr : M.transOffLoop A t prev ss r0 = .ok r)
    (hss : ∀ s ∈ ss, AllBad bad s.mean) (hb : AllBad bad r0 ∨ ss ≠ []) : AllBad bad r := by
  induction ss generalizing t prev r0 with
  | nil => cases hr; simpa using hb
  | cons s ss ih =>
    rw [transOffLoop] at hr
    obtain ⟨At, -, hr⟩ := ok_bind_iff.mp hr
    exact ih hr (fun x hx => hss x (by simp [hx]))
      (.inl fun i => h.add_right _ (h.sub_left _ (hss s (by simp) i)))

theorem NaN.transOff_bad {A : TV (M.A n n)} {ss : List (M.Stats n)}
    {b : M.V n} (hb : M.transOff A ss = .ok b) (hlen : 2 ≤ ss.length)
    (hss : ∀ s ∈ ss, AllBad bad s.mean) : AllBad bad b := by
  rcases ss with _ | ⟨s, _ | ⟨s', ss⟩⟩
  · simp at hlen
  · simp at hlen
  · rw [transOff] at hb
    obtain ⟨r, hr, hb⟩ := ok_bind_iff.mp hb
    rw [if_pos (by simp)] at hb
    cases hb
    exact fun i => h.mul_right _ (h.transOffLoop_bad hr (fun x hx => hss x (by simp [hx]))
      (.inr (by simp)) i)

omit h in
theorem emPick_true {α : Type} {sel : Bool} {e : Res α} {g a : α} (hs : emPick sel e g = .ok a)
    (h : sel = true) : e = .ok a := by
  rw [emPick, if_pos h] at hs
  exact hs

omit h in
theorem emConst_ok {α : Type} {e : Res α} {a : TV α} (h : emConst e = .ok a) :
    ∃ x, e = .ok x ∧ a = .const x := by
  obtain ⟨x, hx, h⟩ := ok_bind_iff.mp h
  cases h
  exact ⟨x, hx, rfl⟩

theorem NaN.emStep_bad (hn : 0 < n) {given old p' : M.Par n m} {vars : EmVar → Bool}
    {ss : List (M.Stats n)} {os : List (M.Row m)} (he : M.emStep given vars old ss os = .ok p')
    (hlen : ss.length = os.length) (hss : ∀ s ∈ ss, AllBad bad s.mean)
    (hb : ∃ o ∈ os, o.Used) : p'.SelectedNaN bad vars os.length := by
  rw [emStep] at he
  obtain ⟨C, hC, he⟩ := ok_bind_iff.mp he
  obtain ⟨R, hR, he⟩ := ok_bind_iff.mp he
  obtain ⟨A, hA, he⟩ := ok_bind_iff.mp he
  obtain ⟨Q, hQ, he⟩ := ok_bind_iff.mp he
  obtain ⟨mu0, hmu0, he⟩ := ok_bind_iff.mp he
  obtain ⟨S0, hS0, he⟩ := ok_bind_iff.mp he
  obtain ⟨b, hbb, he⟩ := ok_bind_iff.mp he
  obtain ⟨d, hd, he⟩ := ok_bind_iff.mp he
  cases he
  have hne : ss ≠ [] := by
    rintro rfl
    obtain ⟨o, ho, -⟩ := hb
    rw [List.length_nil] at hlen
    rw [List.length_eq_zero_iff.mp hlen.symm] at ho
    simp at ho
  refine ⟨?_, ?_, ?_, ?_, ?_, ?_, ?_, ?_⟩
  · by_contra hv
    obtain ⟨x, hx, -⟩ := emConst_ok (emPick_true hC (by simpa using hv))
    exact raises_iff.mp (h.obsMat_raises hn hlen hss hb) x hx
  · intro hv
    by_contra hT
    obtain ⟨x, hx, -⟩ := emConst_ok (emPick_true hA hv)
    exact raises_iff.mp (h.transMat_raises hn (by omega) hss) x hx
  · intro hv
    obtain ⟨x, hx, e⟩ := emConst_ok (emPick_true hR hv)
    exact ⟨x, e, h.obsCov_bad hn hx hlen hss hb⟩
  · intro hv hT
    obtain ⟨x, hx, e⟩ := emConst_ok (emPick_true hQ hv)
    exact ⟨x, e, h.transCov_bad hx (by omega) hss⟩
  · intro hv
    have hx := emPick_true hmu0 hv
    cases ss with
    | nil => cases hx
    | cons s ss => cases hx; exact hss s (by simp)
  · intro hv
    have hx := emPick_true hS0 hv
    cases ss with
    | nil => cases hx
    | cons s ss =>
      cases hx
      exact fun i j => h.add_left _ (h.sub_right _ (h.mul_left _ (hss s (by simp) i)))
  · intro hv hT
    obtain ⟨x, hx, e⟩ := emConst_ok (emPick_true hbb hv)
    exact ⟨x, e, h.transOff_bad hx (by omega) hss⟩
  · intro hv
    obtain ⟨x, hx, e⟩ := emConst_ok (emPick_true hd hv)
    exact ⟨x, e, h.obsOff_bad hn hx hlen hss hb⟩

/-! ### `KalmanFilter.em` -/

omit h in
theorem getLast?_bad {α : Type} {l : List α} {P : α → Prop} {t : ℕ} (ht : t < l.length)
    (hP : ∀ s, t ≤ s → (hs : s < l.length) → P l[s]) : ∀ x, l.getLast? = some x → P x := by
  intro x hx
  rw [List.getLast?_eq_getElem?] at hx
  obtain ⟨h1, rfl⟩ := List.getElem?_eq_some_iff.mp hx
  exact hP _ (by omega) h1

theorem NaN.em_iter (hn : 0 < n) {given q p' : M.Par n m} {vars : EmVar → Bool}
    {os : List (M.Row m)} {t : ℕ} (ht : t < os.length) (hb : os[t].HasNaN bad)
    (he : (M.stats q os >>= fun ss => M.emStep given vars q ss os) = .ok p') :
    p'.SelectedNaN bad vars os.length := by
  obtain ⟨ss, hss, he⟩ := ok_bind_iff.mp he
  rw [stats] at hss
  obtain ⟨l, hl, hss⟩ := ok_bind_iff.mp hss
  obtain ⟨sm, hsm, hss⟩ := ok_bind_iff.mp hss
  have hlen : l.length = os.length := loop_length hl
  obtain ⟨h1, h2⟩ := h.stats_bad hn hsm
    (getLast?_bad (P := fun x => AllBad bad x.filtMean) (by omega : t < l.length)
      fun s hts hs => h.full_bad hn hl ht hb hts hs) (Except.ok.inj hss).symm
  exact h.emStep_bad hn he (h1.trans hlen) h2 ⟨os[t], List.getElem_mem ht, hb.1⟩

theorem NaN.predict_cov (hn : 0 < n) {A Q : M.A n n} {b mean : M.V n} {cov : M.A n n}
    (hc : AllBad₂ bad cov) : AllBad₂ bad (M.predict A Q b mean cov).2 := fun i j =>
  h.add_left _ (h.dotM_right A (j := ⟨0, hn⟩) (h.dotM_left _ (hc ⟨0, hn⟩ ⟨0, hn⟩) j) i)

theorem NaN.predict_noise {A Q : M.A n n} {b mean : M.V n} {cov : M.A n n}
    (hQ : AllBad₂ bad Q) : AllBad₂ bad (M.predict A Q b mean cov).2 :=
  fun i j => h.add_right _ (hQ i j)

theorem NaN.correct_raises_noise (hm : 0 < m) {C : M.A m n} {R : M.A m m} {d : M.V m} {mean : M.V n}
    {cov : M.A n n} {o : M.Row m} (ho : o.Used) (hR : AllBad₂ bad R) :
    Raises (M.correct C R d mean cov o) := by
  rw [correct, if_pos ho.not_missing]
  refine Raises.bind ⟨.valueError, h.pinv (i := ⟨0, hm⟩) (j := ⟨0, hm⟩) ?_⟩ _
  exact h.add_right _ (hR _ _)

theorem NaN.correct_raises_cov (hn : 0 < n) (hm : 0 < m) {C : M.A m n} {R : M.A m m} {d : M.V m}
    {mean : M.V n} {cov : M.A n n} {o : M.Row m} (ho : o.Used) (hc : AllBad₂ bad cov) :
    Raises (M.correct C R d mean cov o) := by
  rw [correct, if_pos ho.not_missing]
  refine Raises.bind ⟨.valueError, h.pinv (i := ⟨0, hm⟩) (j := ⟨0, hm⟩) ?_⟩ _
  exact h.add_left _ (h.dotM_right _ (j := ⟨0, hn⟩) (h.dotM_left _ (hc ⟨0, hn⟩ ⟨0, hn⟩) _) _)

theorem NaN.full_raises_noise (hm : 0 < m) {p : M.Par n m} {R : M.A m m} (hR : p.R = .const R)
    (hRb : AllBad₂ bad R) {os : List (M.Row m)} (ho : ∃ o ∈ os, o.Used) :
    Raises (M.full p os) := by
  rw [full_eq_run]
  refine UMachine.run_never (P := fun _ => True) (B := Row.Used) (fun t prev o _ hu => ?_)
    (fun _ _ _ _ _ _ => trivial) trivial ho
  rw [raises_iff]
  intro s hs
  obtain ⟨-, C, R', d, -, hR', -, hc⟩ := step_ok hs
  rw [hR] at hR'
  cases hR'
  exact raises_iff.mp (h.correct_raises_noise hm hu hRb) _ hc

theorem NaN.full_raises_initial (hn : 0 < n) (hm : 0 < m) {p : M.Par n m} (hS : AllBad₂ bad p.S0)
    {os : List (M.Row m)} (ho : ∃ o ∈ os, o.Used) : Raises (M.full p os) := by
  rw [full_eq_run]
  have hpred : ∀ t prev o s, (∀ q, prev = some q → AllBad₂ bad q.filtCov) →
      M.step p t prev o = .ok s → AllBad₂ bad s.predCov := by
    intro t prev o s hp hs
    obtain ⟨h1, -⟩ := step_ok hs
    cases prev with
    | none => rw [h1.2]; exact hS
    | some q =>
      obtain ⟨A, Q, b, -, -, -, e⟩ := h1
      rw [show s.predCov = _ from congrArg Prod.snd e]
      exact h.predict_cov hn (hp q rfl)
  refine UMachine.run_never (P := fun prev => ∀ q, prev = some q → AllBad₂ bad q.filtCov)
    (B := Row.Used) (fun t prev o hp hu => ?_) (fun t prev o s hp hs q hq => ?_)
    (fun q hq => by cases hq) ho
  · rw [raises_iff]
    intro s hs
    obtain ⟨-, C, R', d, -, hR', -, hc⟩ := step_ok hs
    exact raises_iff.mp (h.correct_raises_cov hn hm hu (hpred _ _ _ _ hp hs)) _ hc
  · cases hq
    obtain ⟨-, C, R', d, -, hR', -, hc⟩ := step_ok hs
    have hb := hpred _ _ _ _ hp hs
    by_cases hmis : o.missing
    · rw [correct, if_neg (not_not.mpr hmis)] at hc
      have e : s.predCov = s.filtCov := congrArg (fun x => x.2.2) (Except.ok.inj hc)
      rw [← e]
      exact hb
    · exact (raises_iff.mp (h.correct_raises_cov hn hm (Row.used_of_not_missing hmis) hb) _ hc).elim

theorem NaN.smooth_raises_transition (hn : 0 < n) {p : M.Par n m} {Q : M.A n n}
    (hQ : p.Q = .const Q) (hQb : AllBad₂ bad Q) {os : List (M.Row m)} (h2 : 2 ≤ os.length)
    (A : TV (M.A n n)) : Raises (M.full p os >>= M.smoothFull A) := by
  refine raises_bind fun l hl => ?_
  rw [full_eq_run] at hl
  obtain ⟨s, o, s', r, hs, rfl⟩ := UMachine.run_second hl h2
  obtain ⟨⟨A', Q', b, -, hQ', -, e⟩, -⟩ := step_ok hs
  rw [hQ] at hQ'
  cases hQ'
  refine smoothFull_raises h hn ?_
  rw [show s'.predCov = _ from congrArg Prod.snd e]
  exact h.predict_noise hQb

theorem NaN.stats_raises (hn : 0 < n) (hm : 0 < m) {vars : EmVar → Bool} {p : M.Par n m}
    {os : List (M.Row m)} (hp : p.SelectedNaN bad vars os.length) (ho : ∃ o ∈ os, o.Used)
    (hv : vars .observationCovariance = true ∨ vars .initialStateCovariance = true ∨
      vars .transitionCovariance = true ∧ 2 ≤ os.length) : Raises (M.stats p os) := by
  rw [stats]
  rcases hv with hv | hv | ⟨hv, h2⟩
  · obtain ⟨R, hR, hRb⟩ := hp.R hv
    exact Raises.bind (h.full_raises_noise hm hR hRb ho) _
  · exact Raises.bind (h.full_raises_initial hn hm (hp.S0 hv) ho) _
  · obtain ⟨Q, hQ, hQb⟩ := hp.Q hv h2
    have := h.smooth_raises_transition hn hQ hQb h2 p.A
    rw [← bind_assoc]
    exact Raises.bind this _

omit h in
/-- The last of several iterations. -/
theorem emLoop_last {given : M.Par n m} {vars : EmVar → Bool} {os : List (M.Row m)} {k : ℕ}
    {p p' : M.Par n m} (he : M.emLoop given vars os (k + 1) p = .ok p') :
    ∃ q, (M.stats q os >>= fun ss => M.emStep given vars q ss os) = .ok p' := by
  induction k generalizing p with
  | zero =>
    rw [emLoop] at he
    obtain ⟨ss, hss, he⟩ := ok_bind_iff.mp he
    obtain ⟨q, hq, he⟩ := ok_bind_iff.mp he
    cases he
    exact ⟨p, ok_bind_iff.mpr ⟨ss, hss, hq⟩⟩
  | succ k ih =>
    rw [emLoop] at he
    obtain ⟨ss, hss, he⟩ := ok_bind_iff.mp he
    obtain ⟨q, hq, he⟩ := ok_bind_iff.mp he
    exact ih he

end Machine

/-! ### Square root filters -/

namespace SMachine

open Machine

variable {M : SMachine} {bad : M.F → Prop}

theorem cholStep_ok {p : M.Par n m} {Q2 : M.A n n} {R2 : M.A m m} {S2 : M.A n n} {t : ℕ}
    {prev : Option (M.CSt n)} {o : M.Row m} {s : M.CSt n}
    (h : cholStep p Q2 R2 S2 t prev o = .ok s) :
    (∀ q, prev = some q → ∃ A b, (s.predMean : M.V n) = M.vadd (M.dotV n n A q.filtMean) b) ∧
    ∃ C d, cholCorrect C R2 d s.predMean s.predCov2 o = .ok (s.filtMean, s.filtCov2) := by
  cases prev with
  | none =>
    simp only [cholStep] at h
    obtain ⟨pr, hpr, h⟩ := ok_bind_iff.mp h
    cases hpr
    obtain ⟨C, hC, h⟩ := ok_bind_iff.mp h
    obtain ⟨d, hd, h⟩ := ok_bind_iff.mp h
    obtain ⟨c, hc, h⟩ := ok_bind_iff.mp h
    cases h
    exact ⟨fun q hq => (by cases hq), C, d, hc⟩
  | some q =>
    simp only [cholStep] at h
    obtain ⟨A, hA, h⟩ := ok_bind_iff.mp h
    obtain ⟨b, hb, h⟩ := ok_bind_iff.mp h
    obtain ⟨pr, hpr, h⟩ := ok_bind_iff.mp h
    rw [cholPredict] at hpr
    obtain ⟨T, hT, hpr⟩ := ok_bind_iff.mp hpr
    cases hpr
    obtain ⟨C, hC, h⟩ := ok_bind_iff.mp h
    obtain ⟨d, hd, h⟩ := ok_bind_iff.mp h
    obtain ⟨c, hc, h⟩ := ok_bind_iff.mp h
    cases h
    exact ⟨fun q' hq => (by cases hq; exact ⟨A, b, rfl⟩), C, d, hc⟩

variable (h : M.Spread bad)

include h

theorem Spread.cholCorrect_bad {C : M.A m n} {R2 : M.A m m} {d : M.V m} {mean : M.V n}
    {cov : M.A n n} {o : M.Row m} {r : M.V n × M.A n n}
    (hr : cholCorrect C R2 d mean cov o = .ok r) (ho : o.HasNaN bad ∨ AllBad bad mean) :
    AllBad bad r.1 := by
  by_cases hmis : o.missing
  · rw [cholCorrect, if_neg (not_not.mpr hmis)] at hr
    cases hr
    rcases ho with ho | ho
    · exact (ho.1.not_missing hmis).elim
    · exact ho
  · rw [cholCorrect, if_pos hmis] at hr
    obtain ⟨S, -, hr⟩ := ok_bind_iff.mp hr
    obtain ⟨inv, -, hr⟩ := ok_bind_iff.mp hr
    cases hr
    rcases ho with ⟨-, j, hj⟩ | ho
    · exact fun i => h.add_right _ (h.dotV_right _ (j := j)
        (h.dotV_right _ (h.sub_left _ hj) j) i)
    · exact fun i => h.add_left _ (ho i)

theorem Spread.cholFull_bad (hn : 0 < n) {p : M.Par n m} {os : List (M.Row m)} {l : List (M.CSt n)}
    (hl : cholFull p os = .ok l) {t : ℕ} (ht : t < os.length) (hb : os[t].HasNaN bad) {s : ℕ}
    (hts : t ≤ s) (hs : s < l.length) : AllBad bad l[s].filtMean := by
  rw [cholFull] at hl
  obtain ⟨Q2, -, hl⟩ := ok_bind_iff.mp hl
  obtain ⟨R2, -, hl⟩ := ok_bind_iff.mp hl
  obtain ⟨S2, -, hl⟩ := ok_bind_iff.mp hl
  refine UMachine.run_inv (P := fun s => AllBad bad s.filtMean) (B := Row.HasNaN bad)
    (fun t prev o s hs ho => ?_) (fun t q o s hs hq => ?_) hl ht hb hts hs
  · obtain ⟨-, C, d, hc⟩ := cholStep_ok hs
    exact h.cholCorrect_bad hc (.inl ho)
  · obtain ⟨h1, C, d, hc⟩ := cholStep_ok hs
    obtain ⟨A, b, e⟩ := h1 q rfl
    refine h.cholCorrect_bad hc (.inr ?_)
    rw [e]
    exact fun i => h.add_left _ (h.dotV_right _ (hq ⟨0, hn⟩) i)

theorem Spread.cholRows_bad (hn : 0 < n) {p : M.Par n m} {os : List (M.Row m)} {l : List (M.St n m)}
    (hl : cholRows p os = .ok l) {t : ℕ} (ht : t < os.length) (hb : os[t].HasNaN bad) {s : ℕ}
    (hts : t ≤ s) (hs : s < l.length) : AllBad bad l[s].filtMean := by
  rw [cholRows] at hl
  obtain ⟨r, hr, hl⟩ := ok_bind_iff.mp hl
  cases hl
  simp only [List.getElem_map, CSt.st]
  exact h.cholFull_bad hn hr ht hb hts (by simpa using hs)

theorem Spread.cholFull_raises (hn : 0 < n) (hm : 0 < m) {p : M.Par n m} (os : List (M.Row m))
    (hp : (∃ Q, p.Q = .const Q ∧ AllBad₂ bad Q) ∨ (∃ R, p.R = .const R ∧ AllBad₂ bad R) ∨
      AllBad₂ bad p.S0) : Raises (cholFull p os) := by
  rw [cholFull]
  rcases hp with ⟨Q, hQ, hb⟩ | ⟨R, hR, hb⟩ | hb
  · refine Raises.bind ⟨.valueError, ?_⟩ _
    rw [hQ]
    exact h.cholL (hb ⟨0, hn⟩ ⟨0, hn⟩)
  · refine raises_bind fun Q2 _ => Raises.bind ⟨.valueError, ?_⟩ _
    rw [hR]
    exact h.cholL (hb ⟨0, hm⟩ ⟨0, hm⟩)
  · exact raises_bind fun Q2 _ => raises_bind fun R2 _ =>
      Raises.bind ⟨.valueError, h.cholL (hb ⟨0, hn⟩ ⟨0, hn⟩)⟩ _

theorem Spread.rows_iter (hn : 0 < n) {rowsOf : M.Par n m → Res (List (M.St n m))}
    {given q p' : M.Par n m} {vars : EmVar → Bool} {os : List (M.Row m)} {t : ℕ}
    (ht : t < os.length) (hu : os[t].Used)
    (hrows : ∀ l, rowsOf q = .ok l → l.length = os.length ∧
      ∀ s, t ≤ s → (hs : s < l.length) → AllBad bad l[s].filtMean)
    (he : (rowsOf q >>= statsOf q >>= fun ss => M.emStep given vars q ss os) = .ok p') :
    p'.SelectedNaN bad vars os.length := by
  obtain ⟨ss, hss, he⟩ := ok_bind_iff.mp he
  obtain ⟨l, hl, hss⟩ := ok_bind_iff.mp hss
  rw [statsOf] at hss
  obtain ⟨sm, hsm, hss⟩ := ok_bind_iff.mp hss
  obtain ⟨hlen, hbad⟩ := hrows l hl
  obtain ⟨h1, h2⟩ := h.stats_bad hn hsm
    (getLast?_bad (P := fun x => AllBad bad x.filtMean) (by omega : t < l.length) hbad)
    (Except.ok.inj hss).symm
  exact h.emStep_bad hn he (h1.trans hlen) h2 ⟨os[t], List.getElem_mem ht, hu⟩

/-! ### `BiermanKalmanFilter` -/

omit h in
theorem NaN.udu_raises (h : M.NaN bad) {store : M.F → M.F} {X : M.A n n} {i j : Fin n} (hb : bad (X i j)) :
    udu store X = .error .assertionError := by
  rw [udu, h.allClose hb]
  rfl

theorem Spread.bierOne_mean {C : M.A m n} {R : M.A m m} {d z : M.V m} {s : M.V n × M.UD n} {i : Fin m}
    (hb : bad (z i) ∨ AllBad bad s.1) : AllBad bad (bierCorrectOne C R d z s i).1 := by
  rcases hb with hb | hb
  · exact fun q => h.add_right _ (h.mul_right _ (h.sub_left _ hb))
  · exact fun q => h.add_left _ (hb q)

theorem Spread.bierFold_mean {C : M.A m n} {R : M.A m m} {d z : M.V m} (l : List (Fin m))
    (s : M.V n × M.UD n) (hb : AllBad bad s.1 ∨ ∃ i ∈ l, bad (z i)) :
    AllBad bad (l.foldl (bierCorrectOne C R d z) s).1 := by
  induction l generalizing s with
  | nil => simpa using hb
  | cons i l ih =>
    rw [List.foldl_cons]
    refine ih _ ?_
    rcases hb with hb | ⟨j, hj, hb⟩
    · exact .inl (h.bierOne_mean (.inr hb))
    · rcases List.mem_cons.mp hj with rfl | hj
      · exact .inl (h.bierOne_mean (.inl hb))
      · exact .inr ⟨j, hj, hb⟩

theorem Spread.bierCorrect_bad {C : M.A m n} {R : M.A m m} {d : M.V m} {mean : M.V n} {cov : M.UD n}
    {o : M.Row m} (ho : o.HasNaN bad ∨ AllBad bad mean) :
    AllBad bad (bierCorrect C R d mean cov o).1 := by
  by_cases hmis : o.missing
  · rw [bierCorrect, if_neg (not_not.mpr hmis)]
    rcases ho with ho | ho
    · exact (ho.1.not_missing hmis).elim
    · exact ho
  · rw [bierCorrect, if_pos hmis]
    refine h.bierFold_mean _ _ ?_
    rcases ho with ⟨-, j, hj⟩ | ho
    · exact .inr ⟨j, List.mem_finRange j, hj⟩
    · exact .inl ho

omit h in
theorem bierStep_ok {p : M.Par n m} {C : TV (M.A m n)} {d : TV (M.V m)} {S0 : M.UD n} {t : ℕ}
    {prev : Option (M.BSt n)} {o : M.Row m} {s : M.BSt n}
    (h : bierStep p C d S0 t prev o = .ok s) :
    (∀ q, prev = some q → ∃ A Q b, (p.Q = .const Q) ∧
      bierPredict A Q b q.filtMean q.filtCov = .ok (s.predMean, s.predCov)) ∧
    ∃ C' d', (s.filtMean, s.filtCov) = bierCorrect C' eye d' s.predMean s.predCov o := by
  cases prev with
  | none =>
    simp only [bierStep] at h
    obtain ⟨pr, hpr, h⟩ := ok_bind_iff.mp h
    cases hpr
    obtain ⟨C, hC, h⟩ := ok_bind_iff.mp h
    obtain ⟨d, hd, h⟩ := ok_bind_iff.mp h
    cases h
    exact ⟨fun q hq => (by cases hq), C, d, rfl⟩
  | some q =>
    simp only [bierStep] at h
    obtain ⟨A, hA, h⟩ := ok_bind_iff.mp h
    obtain ⟨b, hb, h⟩ := ok_bind_iff.mp h
    cases hQ : p.Q with
    | seq l =>
      rw [hQ] at h
      cases h
    | const Q =>
      rw [hQ] at h
      obtain ⟨Q', hQ', h⟩ := ok_bind_iff.mp h
      cases hQ'
      obtain ⟨pr, hpr, h⟩ := ok_bind_iff.mp h
      obtain ⟨C, hC, h⟩ := ok_bind_iff.mp h
      obtain ⟨d, hd, h⟩ := ok_bind_iff.mp h
      cases h
      exact ⟨fun q' hq => (by cases hq; exact ⟨A, Q, b, rfl, hpr⟩), C, d, rfl⟩

theorem Spread.bierFull_bad (hn : 0 < n) {store : M.F → M.F} {p : M.Par n m} {os : List (M.Row m)}
    {l : List (M.BSt n)} (hl : bierFull store p os = .ok l) {t : ℕ} (ht : t < os.length)
    (hb : os[t].HasNaN bad) {s : ℕ} (hts : t ≤ s) (hs : s < l.length) :
    AllBad bad l[s].filtMean := by
  rw [bierFull] at hl
  obtain ⟨S0, -, hl⟩ := ok_bind_iff.mp hl
  obtain ⟨r, hr, hl⟩ := ok_bind_iff.mp hl
  rw [decorrelate] at hr
  obtain ⟨R2, -, hr⟩ := ok_bind_iff.mp hr
  obtain ⟨inv, -, hr⟩ := ok_bind_iff.mp hr
  cases hr
  have ht' : t < (dotRowsMasked inv os).length := by rwa [dotRowsMasked_length]
  refine UMachine.run_inv (P := fun s => AllBad bad s.filtMean) (B := Row.HasNaN bad)
    (fun t prev o s hs ho => ?_) (fun t q o s hs hq => ?_) hl ht' ?_ hts hs
  · obtain ⟨-, C, d, hc⟩ := bierStep_ok hs
    rw [show s.filtMean = _ from congrArg Prod.fst hc]
    exact h.bierCorrect_bad (.inl ho)
  · obtain ⟨h1, C, d, hc⟩ := bierStep_ok hs
    obtain ⟨A, Q, b, -, e⟩ := h1 q rfl
    rw [show s.filtMean = _ from congrArg Prod.fst hc]
    refine h.bierCorrect_bad (.inr ?_)
    rw [bierPredict] at e
    obtain ⟨c, -, e⟩ := ok_bind_iff.mp e
    rw [← show _ = s.predMean from congrArg Prod.fst (Except.ok.inj e)]
    exact fun i => h.add_left _ (h.dotV_right _ (hq ⟨0, hn⟩) i)
  · rw [dotRowsMasked_getElem inv os t ht' ht]
    obtain ⟨hu, j, hj⟩ := hb
    refine ⟨hu, j, ?_⟩
    dsimp only
    rw [dotRows_getElem inv _ t _ (by simpa using ht)]
    refine h.dotM_right _ (j := j) ?_ j
    simpa using hj

theorem Spread.bierRows_bad (hn : 0 < n) {store : M.F → M.F} {p : M.Par n m} {os : List (M.Row m)}
    {l : List (M.St n m)} (hl : bierRows store p os = .ok l) {t : ℕ} (ht : t < os.length)
    (hb : os[t].HasNaN bad) {s : ℕ} (hts : t ≤ s) (hs : s < l.length) :
    AllBad bad l[s].filtMean := by
  obtain ⟨r, hr, rfl, -⟩ := bierRows_ok hl
  simp only [List.getElem_map, BSt.st]
  exact h.bierFull_bad hn hr ht hb hts (by simpa using hs)

omit h in
theorem NaN.bierFull_raises (h : M.NaN bad) (hn : 0 < n) (hm : 0 < m) {store : M.F → M.F} {p : M.Par n m}
    (os : List (M.Row m))
    (hp : (∃ Q, p.Q = .const Q ∧ AllBad₂ bad Q) ∧ 2 ≤ os.length ∨
      (∃ R, p.R = .const R ∧ AllBad₂ bad R) ∨ AllBad₂ bad p.S0) :
    Raises (bierFull store p os) := by
  rw [bierFull]
  rcases hp with ⟨⟨Q, hQ, hb⟩, h2⟩ | ⟨R, hR, hb⟩ | hb
  · refine raises_bind fun S0 _ => raises_bind fun r hr => ?_
    rw [decorrelate] at hr
    obtain ⟨R2, -, hr⟩ := ok_bind_iff.mp hr
    obtain ⟨inv, -, hr⟩ := ok_bind_iff.mp hr
    cases hr
    rw [raises_iff]
    intro l hl
    obtain ⟨s, o, s', r, hs, rfl⟩ := UMachine.run_second hl (by rwa [dotRowsMasked_length])
    obtain ⟨h1, -⟩ := bierStep_ok hs
    obtain ⟨A, Q', b, hQ', e⟩ := h1 s rfl
    rw [hQ] at hQ'
    cases hQ'
    rw [bierPredict, h.udu_raises (i := ⟨0, hn⟩) (j := ⟨0, hn⟩)] at e
    · cases e
    · exact h.add_right _ (hb _ _)
  · refine raises_bind fun S0 _ => Raises.bind ?_ _
    rw [decorrelate]
    refine Raises.bind ⟨.valueError, ?_⟩ _
    rw [hR]
    exact h.cholL (hb ⟨0, hm⟩ ⟨0, hm⟩)
  · exact Raises.bind ⟨.assertionError, h.udu_raises (hb ⟨0, hn⟩ ⟨0, hn⟩)⟩ _

end SMachine

/-! ### Iterations -/

/-- When the second iteration is impossible, the object keeps the parameters of the first. -/
theorem storedBy_second {α : Type} {iter : α → Res α} {p p1 : α} (h1 : iter p = .ok p1)
    (h2 : Raises (iter p1)) (k : ℕ) : storedBy iter (k + 1) p = p1 := by
  rw [storedBy, h1]
  cases k with
  | zero => rfl
  | succ k =>
    obtain ⟨e, he⟩ := h2
    simp only [storedBy, he]

namespace Machine

variable {M : Machine} {bad : M.F → Prop}

theorem em_one {p p1 : M.Par n m} {os : List (M.Row m)} {vars : EmVar → Bool}
    (h : M.em p os 1 vars = .ok p1) :
    (M.stats p os >>= fun ss => M.emStep p vars p ss os) = .ok p1 := by
  rw [em, emLoop] at h
  obtain ⟨ss, hss, h⟩ := ok_bind_iff.mp h
  obtain ⟨q, hq, h⟩ := ok_bind_iff.mp h
  cases h
  exact ok_bind_iff.mpr ⟨ss, hss, hq⟩

theorem em_two {p p1 : M.Par n m} {os : List (M.Row m)} {vars : EmVar → Bool}
    (h : (M.stats p os >>= fun ss => M.emStep p vars p ss os) = .ok p1)
    (h2 : Raises (M.stats p1 os)) (k : ℕ) : Raises (M.em p os (k + 2) vars) := by
  rw [em, emLoop]
  obtain ⟨ss, hss, h⟩ := ok_bind_iff.mp h
  refine raises_bind fun ss' hss' => raises_bind fun q hq => ?_
  rw [hss] at hss'
  cases hss'
  rw [h] at hq
  cases hq
  rw [emLoop]
  exact h2.bind _

end Machine

namespace SMachine

open Machine

variable {M : SMachine} {bad : M.F → Prop}

theorem cholEmLoop_last {given : M.Par n m} {vars : EmVar → Bool} {os : List (M.Row m)} {k : ℕ}
    {p p' : M.Par n m} (he : cholEmLoop given vars os (k + 1) p = .ok p') :
    ∃ q, (cholRows q os >>= statsOf q >>= fun ss => M.emStep given vars q ss os) = .ok p' := by
  induction k generalizing p with
  | zero =>
    rw [cholEmLoop] at he
    obtain ⟨l, hl, he⟩ := ok_bind_iff.mp he
    obtain ⟨ss, hss, he⟩ := ok_bind_iff.mp he
    obtain ⟨q, hq, he⟩ := ok_bind_iff.mp he
    cases he
    exact ⟨p, ok_bind_iff.mpr ⟨ss, ok_bind_iff.mpr ⟨l, hl, hss⟩, hq⟩⟩
  | succ k ih =>
    rw [cholEmLoop] at he
    obtain ⟨l, hl, he⟩ := ok_bind_iff.mp he
    obtain ⟨ss, hss, he⟩ := ok_bind_iff.mp he
    obtain ⟨q, hq, he⟩ := ok_bind_iff.mp he
    exact ih he

theorem cholEm_one {p p1 : M.Par n m} {os : List (M.Row m)} {vars : EmVar → Bool}
    (h : cholEm p os 1 vars = .ok p1) :
    (cholRows p os >>= statsOf p >>= fun ss => M.emStep p vars p ss os) = .ok p1 := by
  rw [cholEm, cholEmLoop] at h
  obtain ⟨l, hl, h⟩ := ok_bind_iff.mp h
  obtain ⟨ss, hss, h⟩ := ok_bind_iff.mp h
  obtain ⟨q, hq, h⟩ := ok_bind_iff.mp h
  cases h
  exact ok_bind_iff.mpr ⟨ss, ok_bind_iff.mpr ⟨l, hl, hss⟩, hq⟩

theorem cholEm_two {p p1 : M.Par n m} {os : List (M.Row m)} {vars : EmVar → Bool}
    (h : (cholRows p os >>= statsOf p >>= fun ss => M.emStep p vars p ss os) = .ok p1)
    (h2 : Raises (cholRows p1 os)) (k : ℕ) : Raises (cholEm p os (k + 2) vars) := by
  rw [cholEm, cholEmLoop]
  obtain ⟨ss, hl, h⟩ := ok_bind_iff.mp h
  obtain ⟨l, hl, hss⟩ := ok_bind_iff.mp hl
  refine raises_bind fun l' hl' => raises_bind fun ss' hss' => raises_bind fun q hq => ?_
  rw [hl] at hl'
  cases hl'
  rw [hss] at hss'
  cases hss'
  rw [h] at hq
  cases hq
  rw [cholEmLoop]
  exact h2.bind _

theorem bierEmLoop_last {given : M.Par n m} {vars : EmVar → Bool} {os : List (M.Row m)} {k : ℕ}
    {store : M.F → M.F} {p p' : M.Par n m}
    (he : bierEmLoop store given vars os (k + 1) p = .ok p') :
    ∃ store' q, (bierRows store' q os >>= statsOf q >>=
      fun ss => M.emStep given vars q ss os) = .ok p' := by
  induction k generalizing p store with
  | zero =>
    rw [bierEmLoop] at he
    obtain ⟨l, hl, he⟩ := ok_bind_iff.mp he
    obtain ⟨ss, hss, he⟩ := ok_bind_iff.mp he
    obtain ⟨q, hq, he⟩ := ok_bind_iff.mp he
    cases he
    exact ⟨store, p, ok_bind_iff.mpr ⟨ss, ok_bind_iff.mpr ⟨l, hl, hss⟩, hq⟩⟩
  | succ k ih =>
    rw [bierEmLoop] at he
    obtain ⟨l, hl, he⟩ := ok_bind_iff.mp he
    obtain ⟨ss, hss, he⟩ := ok_bind_iff.mp he
    obtain ⟨q, hq, he⟩ := ok_bind_iff.mp he
    exact ih he

theorem bierEm_one {store : M.F → M.F} {p p1 : M.Par n m} {os : List (M.Row m)}
    {vars : EmVar → Bool} (h : bierEm store p os 1 vars = .ok p1) :
    (bierRows store p os >>= statsOf p >>= fun ss => M.emStep p vars p ss os) = .ok p1 := by
  rw [bierEm, bierEmLoop] at h
  obtain ⟨l, hl, h⟩ := ok_bind_iff.mp h
  obtain ⟨ss, hss, h⟩ := ok_bind_iff.mp h
  obtain ⟨q, hq, h⟩ := ok_bind_iff.mp h
  cases h
  exact ok_bind_iff.mpr ⟨ss, ok_bind_iff.mpr ⟨l, hl, hss⟩, hq⟩

theorem bierEm_two {store : M.F → M.F} {p p1 : M.Par n m} {os : List (M.Row m)}
    {vars : EmVar → Bool}
    (h : (bierRows store p os >>= statsOf p >>= fun ss => M.emStep p vars p ss os) = .ok p1)
    (h2 : ∀ store', Raises (bierRows store' p1 os)) (k : ℕ) :
    Raises (bierEm store p os (k + 2) vars) := by
  rw [bierEm, bierEmLoop]
  obtain ⟨ss, hl, h⟩ := ok_bind_iff.mp h
  obtain ⟨l, hl, hss⟩ := ok_bind_iff.mp hl
  refine raises_bind fun l' hl' => raises_bind fun ss' hss' => raises_bind fun q hq => ?_
  rw [hl] at hl'
  cases hl'
  rw [hss] at hss'
  cases hss'
  rw [h] at hq
  cases hq
  rw [bierEmLoop]
  exact (h2 _).bind _

theorem Spread.chol_iter (h : M.Spread bad) (hn : 0 < n) {given q p' : M.Par n m} {vars : EmVar → Bool}
    {os : List (M.Row m)} {t : ℕ} (ht : t < os.length) (hb : os[t].HasNaN bad)
    (he : (cholRows q os >>= statsOf q >>= fun ss => M.emStep given vars q ss os) = .ok p') :
    p'.SelectedNaN bad vars os.length :=
  h.rows_iter hn (rowsOf := fun q => cholRows q os) ht hb.1
    (fun _ hl => ⟨cholRows_length hl, fun _ hts hs => h.cholRows_bad hn hl ht hb hts hs⟩) he

theorem Spread.bier_iter (h : M.Spread bad) (hn : 0 < n) {store : M.F → M.F} {given q p' : M.Par n m}
    {vars : EmVar → Bool} {os : List (M.Row m)} {t : ℕ} (ht : t < os.length)
    (hb : os[t].HasNaN bad)
    (he : (bierRows store q os >>= statsOf q >>= fun ss => M.emStep given vars q ss os) = .ok p') :
    p'.SelectedNaN bad vars os.length :=
  h.rows_iter hn (rowsOf := fun q => bierRows store q os) ht hb.1
    (fun _ hl => ⟨bierRows_length hl, fun _ hts hs => h.bierRows_bad hn hl ht hb hts hs⟩) he

theorem Spread.cholRows_raises (h : M.Spread bad) (hn : 0 < n) (hm : 0 < m) {vars : EmVar → Bool}
    {T : ℕ} {p : M.Par n m} (os : List (M.Row m)) (hp : p.SelectedNaN bad vars T)
    (hv : vars .observationCovariance = true ∨ vars .initialStateCovariance = true ∨
      vars .transitionCovariance = true ∧ 2 ≤ T) : Raises (cholRows p os) := by
  rw [cholRows]
  refine Raises.bind (h.cholFull_raises hn hm os ?_) _
  rcases hv with hv | hv | ⟨hv, h2⟩
  · exact .inr (.inl (hp.R hv))
  · exact .inr (.inr (hp.S0 hv))
  · exact .inl (hp.Q hv h2)

theorem NaN.bierRows_raises (h : M.NaN bad) (hn : 0 < n) (hm : 0 < m) {vars : EmVar → Bool}
    {T : ℕ} {store : M.F → M.F} {p : M.Par n m} (os : List (M.Row m))
    (hp : p.SelectedNaN bad vars T)
    (hv : vars .observationCovariance = true ∨ vars .initialStateCovariance = true ∨
      vars .transitionCovariance = true ∧ 2 ≤ T ∧ 2 ≤ os.length) :
    Raises (bierRows store p os) := by
  rw [bierRows]
  refine Raises.bind (h.bierFull_raises hn hm os ?_) _
  rcases hv with hv | hv | ⟨hv, h2, h3⟩
  · exact .inr (.inl (hp.R hv))
  · exact .inr (.inr (hp.S0 hv))
  · exact .inl ⟨hp.Q hv h2, h3⟩

end SMachine

end Verif
