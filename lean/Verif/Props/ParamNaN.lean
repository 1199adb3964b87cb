import Verif.Proofs.ParamNaN
import Verif.Props.MachineNaN

/-!
# C107: `nan` in the parameters

A parameter that contains `nan` (one entry is enough) and is used is never lost: either the call
raises, or `nan` is in the results.  Parameters that are not used do not matter.  As in C102 nothing is
assumed about the arithmetic of the other numbers.
-/

namespace Verif

open Machine UMachine SMachine

variable {n m : ℕ}

/-! ### The linear classes: matrices -/

theorem Machine.em_raises {M : Machine} {p : M.Par n m} {os : List (M.Row m)} {nIter : ℕ}
    (hk : 0 < nIter) (vars : EmVar → Bool) (h : Raises (M.full p os >>= M.smoothFull p.A)) :
    Raises (M.em p os nIter vars) := by
  obtain ⟨k, rfl⟩ := Nat.exists_eq_succ_of_ne_zero hk.ne'
  rw [em, emLoop]
  refine Raises.bind ?_ _
  rw [stats, ← bind_assoc]
  exact Raises.bind h _

theorem SMachine.cholEm_raises {M : SMachine} {p : M.Par n m} {os : List (M.Row m)} {nIter : ℕ}
    (hk : 0 < nIter) (vars : EmVar → Bool) (h : Raises (SMachine.cholFull p os)) :
    Raises (SMachine.cholEm p os nIter vars) := by
  obtain ⟨k, rfl⟩ := Nat.exists_eq_succ_of_ne_zero hk.ne'
  rw [cholEm, cholEmLoop, cholRows]
  exact Raises.bind (Raises.bind h _) _

theorem SMachine.bierEm_raises {M : SMachine} {store : M.F → M.F} {p : M.Par n m}
    {os : List (M.Row m)} {nIter : ℕ} (hk : 0 < nIter) (vars : EmVar → Bool)
    (h : Raises (SMachine.bierFull store p os)) : Raises (SMachine.bierEm store p os nIter vars) := by
  obtain ⟨k, rfl⟩ := Nat.exists_eq_succ_of_ne_zero hk.ne'
  rw [bierEm, bierEmLoop, bierRows]
  exact Raises.bind (Raises.bind h _) _

/-- **C107.** `nan` in one of the matrices: if a row `u` is used, and there is `nan` in
`initial_state_covariance`, in the observation covariance of time `u`, or in a transition matrix or
transition covariance of a time before `u`, then no method of the three linear classes returns. -/
theorem C107_matrices {M : SMachine} {bad : M.F → Prop} (h : M.NaN bad) (hm : 0 < m)
    (p : M.Par n m) {os : List (M.Row m)} {u : ℕ} (hu : u < os.length) (ho : os[u].Used)
    (hp : HasBad₂ bad p.S0 ∨ p.R.AtTime (HasBad₂ bad) u ∨
      ∃ t < u, p.A.AtTime (HasBad₂ bad) t ∨ p.Q.AtTime (HasBad₂ bad) t) :
    NothingReturns M p os := by
  have h1 : Raises (M.full p os) := NaN.full_raises_matrices h.base hm hu ho (by
    rcases hp with hp | hp | hp
    · exact .inl hp
    · exact .inr (.inl hp)
    · exact .inr (.inr (.inr hp)))
  have h2 : Raises (SMachine.cholFull p os) := h.cholFull_raises_matrices (by
    rcases hp with hp | hp | ⟨t, ht, hp | hp⟩
    · exact .inl hp
    · exact .inr (.inl ⟨u, hp⟩)
    · exact .inr (.inr (.inr (.inl ⟨t, by omega, hp⟩)))
    · exact .inr (.inr (.inl ⟨t, hp⟩)))
  have h3 : ∀ store, Raises (SMachine.bierFull store p os) := fun store => h.bierFull_raises_matrices (by
    rcases hp with hp | hp | ⟨t, ht, hp⟩
    · exact .inl hp
    · exact .inr (.inl ⟨u, hp⟩)
    · exact .inr (.inr ⟨t, by omega, hp⟩))
  refine ⟨⟨h1.bind _, (h2.bind _).bind _, fun store => ((h3 store).bind _).bind _⟩,
    ⟨h1.bind _, (h2.bind _).bind _, fun store => ((h3 store).bind _).bind _⟩,
    ⟨h1.bind _, (h2.bind _).bind _, fun store => ((h3 store).bind _).bind _⟩,
    fun nIter vars hk => ⟨em_raises hk vars (h1.bind _), cholEm_raises hk vars h2,
      fun store => bierEm_raises hk vars (h3 store)⟩⟩

/-- **C107.** `nan` in the observation matrix of a row that is used: no method of `KalmanFilter` and of
`CholeskyKalmanFilter` returns. -/
theorem C107_observation_matrices {M : SMachine} {bad : M.F → Prop} (h : M.Spread bad) (hm : 0 < m)
    (p : M.Par n m) {os : List (M.Row m)} {u : ℕ} (hu : u < os.length) (ho : os[u].Used)
    (hp : p.C.AtTime (HasBad₂ bad) u) :
    (Raises (M.filter p os) ∧ Raises (M.smooth p os) ∧ Raises (M.loglik p os) ∧
      ∀ nIter vars, 0 < nIter → Raises (M.em p os nIter vars)) ∧
    Raises (SMachine.cholFilter p os) ∧ Raises (SMachine.cholSmooth p os) ∧
      Raises (SMachine.cholLoglik p os) ∧
      ∀ nIter vars, 0 < nIter → Raises (SMachine.cholEm p os nIter vars) := by
  have h1 : Raises (M.full p os) :=
    NaN.full_raises_matrices h.base hm hu ho (.inr (.inr (.inl hp)))
  have h2 : Raises (SMachine.cholFull p os) :=
    h.cholFull_raises_matrices (.inr (.inr (.inr (.inr ⟨u, hu, ho, hp⟩))))
  exact ⟨⟨h1.bind _, h1.bind _, h1.bind _, fun nIter vars hk => em_raises hk vars (h1.bind _)⟩,
    (h2.bind _).bind _, (h2.bind _).bind _, (h2.bind _).bind _,
    fun nIter vars hk => cholEm_raises hk vars h2⟩

/-- **C107.** The same for `BiermanKalmanFilter`: from that row on all components of all filtered means
are `nan`, and all components of all smoothed means (if the calls return). -/
theorem C107_observation_matrices_bierman {M : SMachine} {bad : M.F → Prop} (h : M.SpreadDot bad)
    (hn : 0 < n) (hm : 0 < m) (p : M.Par n m) {os : List (M.Row m)} {u : ℕ} (hu : u < os.length)
    (ho : os[u].Used) (hp : p.C.AtTime (HasBad₂ bad) u) (store : M.F → M.F)
    {out : List (M.V n × M.A n n)} :
    (SMachine.bierFilter store p os = .ok out → out.length = os.length ∧
      ∀ s, u ≤ s → (hs : s < out.length) → ∀ i, bad (out[s].1 i)) ∧
    (SMachine.bierSmooth store p os = .ok out → out.length = os.length ∧
      ∀ r ∈ out, ∀ i, bad (r.1 i)) := by
  have key : ∀ l, SMachine.bierRows store p os = .ok l → l.length = os.length ∧
      ∀ s, u ≤ s → (hs : s < l.length) → AllBad bad l[s].filtMean := by
    intro l hl
    obtain ⟨hf, hC⟩ := h.bierFlow hm hl
    exact ⟨hf.len, fun s hus hs => hf.all_from hn hus hs (hC u (by omega) hu ho hp)⟩
  constructor
  · intro h1
    rw [SMachine.bierFilter] at h1
    obtain ⟨l, hl, h1⟩ := ok_bind_iff.mp h1
    cases h1
    obtain ⟨hlen, hall⟩ := key l hl
    refine ⟨by rw [List.length_map, hlen], fun s hus hs => ?_⟩
    simp only [List.getElem_map]
    exact hall s hus (by simpa using hs)
  · intro h1
    rw [SMachine.bierSmooth] at h1
    obtain ⟨l, hl, h1⟩ := ok_bind_iff.mp h1
    obtain ⟨sm, hsm, h1⟩ := ok_bind_iff.mp h1
    cases h1
    obtain ⟨hlen, hall⟩ := key l hl
    refine ⟨by rw [List.length_map, smoothFull_length hsm, hlen], fun r hr => ?_⟩
    obtain ⟨s, hs, rfl⟩ := List.mem_map.mp hr
    exact NaN.smoothFull_bad h.base hn hsm
      (getLast?_bad (t := u) (by omega) fun s hts hs => hall s hts hs) s hs

/-- **C107.** `smooth` and `em` need no row that is used: `nan` in a transition matrix or transition
covariance between two rows, or in `initial_state_covariance` when there are two rows, makes them raise
in all three classes, whatever is masked. -/
theorem C107_smooth_raises {M : SMachine} {bad : M.F → Prop} (h : M.NaN bad) (hm : 0 < m)
    (p : M.Par n m) {os : List (M.Row m)}
    (hp : (HasBad₂ bad p.S0 ∧ 1 < os.length) ∨
      ∃ t, t + 1 < os.length ∧ (p.A.AtTime (HasBad₂ bad) t ∨ p.Q.AtTime (HasBad₂ bad) t)) :
    (Raises (M.smooth p os) ∧ Raises (SMachine.cholSmooth p os) ∧
      ∀ store, Raises (SMachine.bierSmooth store p os)) ∧
    ∀ nIter vars, 0 < nIter → Raises (M.em p os nIter vars) ∧
      Raises (SMachine.cholEm p os nIter vars) ∧
      ∀ store, Raises (SMachine.bierEm store p os nIter vars) := by
  have h1 : Raises (M.full p os >>= M.smoothFull p.A) := NaN.full_smooth_raises h.base hm hp
  have h2 : Raises (SMachine.cholFull p os) := h.cholFull_raises_matrices (by
    rcases hp with ⟨hp, -⟩ | ⟨t, ht, hp | hp⟩
    · exact .inl hp
    · exact .inr (.inr (.inr (.inl ⟨t, by omega, hp⟩)))
    · exact .inr (.inr (.inl ⟨t, hp⟩)))
  have h3 : ∀ store, Raises (SMachine.bierFull store p os) := fun store => h.bierFull_raises_matrices (by
    rcases hp with ⟨hp, -⟩ | hp
    · exact .inl hp
    · exact .inr (.inr hp))
  refine ⟨⟨?_, (h2.bind _).bind _, fun store => ((h3 store).bind _).bind _⟩,
    fun nIter vars hk => ⟨em_raises hk vars h1, cholEm_raises hk vars h2,
      fun store => bierEm_raises hk vars (h3 store)⟩⟩
  rw [Machine.smooth, ← bind_assoc]
  exact h1.bind _

/-- **C107.** `filter` when no row after the `nan` is used: `KalmanFilter` returns covariances with
`nan` (if it returns); the other two classes raise. -/
theorem C107_predicted_covariances {M : SMachine} {bad : M.F → Prop} (h : M.NaN bad) (hm : 0 < m)
    (p : M.Par n m) {os : List (M.Row m)} {u : ℕ} (hu : u < os.length)
    (hp : HasBad₂ bad p.S0 ∨ ∃ t < u, p.A.AtTime (HasBad₂ bad) t ∨ p.Q.AtTime (HasBad₂ bad) t) :
    (∀ out, M.filter p os = .ok out → ∃ hs : u < out.length, HasBad₂ bad out[u].2) ∧
    Raises (SMachine.cholFilter p os) ∧ ∀ store, Raises (SMachine.bierFilter store p os) := by
  refine ⟨fun out ho => ?_, ?_, fun store => ?_⟩
  · obtain ⟨l, hl, rfl⟩ := Machine.filter_ok ho
    have hlen : l.length = os.length := loop_length hl
    refine ⟨by rw [List.length_map]; omega, ?_⟩
    simp only [List.getElem_map]
    exact (NaN.full_cov h.base hm hl (by omega) hp).2
  · refine ((h.cholFull_raises_matrices (p := p) (os := os) ?_).bind _).bind _
    rcases hp with hp | ⟨t, ht, hp | hp⟩
    · exact .inl hp
    · exact .inr (.inr (.inr (.inl ⟨t, by omega, hp⟩)))
    · exact .inr (.inr (.inl ⟨t, hp⟩))
  · refine ((h.bierFull_raises_matrices (store := store) (p := p) (os := os) ?_).bind _).bind _
    rcases hp with hp | ⟨t, ht, hp⟩
    · exact .inl hp
    · exact .inr (.inr ⟨t, by omega, hp⟩)

/-! ### The linear classes: means and offsets -/

/-- The filtered rows of one of the three classes. -/
theorem SMachine.SpreadDot.flow {M : SMachine} {bad : M.F → Prop} (h : M.SpreadDot bad) (hm : 0 < m)
    {p : M.Par n m} {os : List (M.Row m)} {l : List (M.St n m)}
    (hl : M.full p os = .ok l ∨ SMachine.cholRows p os = .ok l ∨ ∃ store, SMachine.bierRows store p os = .ok l) :
    MeanFlow bad p os l := by
  rcases hl with hl | hl | ⟨store, hl⟩
  · exact NaN.meanFlow h.base hm hl
  · exact h.cholFlow hm hl
  · exact (h.bierFlow hm hl).1

/-- **C107.** `nan` in a mean or offset: if row `u` is used, and there is `nan` in
`initial_state_mean`, in a transition offset of a time before `u`, or in the observation offset of time
`u`, then from row `u` on all components of all filtered means are `nan`, in all three classes (if the
call returns). -/
theorem C107_offsets {M : SMachine} {bad : M.F → Prop} (h : M.SpreadDot bad) (hn : 0 < n) (hm : 0 < m)
    (p : M.Par n m) {os : List (M.Row m)} {u : ℕ} (hu : u < os.length) (ho : os[u].Used)
    (hp : HasBad bad p.mu0 ∨ (∃ t < u, p.b.AtTime (HasBad bad) t) ∨ p.d.AtTime (HasBad bad) u)
    {out : List (M.V n × M.A n n)}
    (hr : M.filter p os = .ok out ∨ SMachine.cholFilter p os = .ok out ∨
      ∃ store, SMachine.bierFilter store p os = .ok out) :
    out.length = os.length ∧ ∀ s, u ≤ s → (hs : s < out.length) → ∀ i, bad (out[s].1 i) := by
  obtain ⟨l, hl, rfl⟩ : ∃ l : List (M.St n m), (M.full p os = .ok l ∨ SMachine.cholRows p os = .ok l ∨
      ∃ store, SMachine.bierRows store p os = .ok l) ∧ out = l.map fun s => (s.filtMean, s.filtCov) := by
    rcases hr with hr | hr | ⟨store, hr⟩
    · obtain ⟨l, hl, rfl⟩ := Machine.filter_ok hr
      exact ⟨l, .inl hl, rfl⟩
    · rw [SMachine.cholFilter] at hr
      obtain ⟨l, hl, hr⟩ := ok_bind_iff.mp hr
      cases hr
      exact ⟨l, .inr (.inl hl), rfl⟩
    · rw [SMachine.bierFilter] at hr
      obtain ⟨l, hl, hr⟩ := ok_bind_iff.mp hr
      cases hr
      exact ⟨l, .inr (.inr ⟨store, hl⟩), rfl⟩
  have hf := h.flow hm hl
  refine ⟨by rw [List.length_map, hf.len], fun s hus hs => ?_⟩
  simp only [List.getElem_map]
  exact hf.all_bad hn hu ho hp hus (by simpa using hs)

/-- **C107.** The same for `smooth`: all components of all smoothed means are `nan`, at every time. -/
theorem C107_offsets_smooth {M : SMachine} {bad : M.F → Prop} (h : M.SpreadDot bad) (hn : 0 < n)
    (hm : 0 < m) (p : M.Par n m) {os : List (M.Row m)} {u : ℕ} (hu : u < os.length) (ho : os[u].Used)
    (hp : HasBad bad p.mu0 ∨ (∃ t < u, p.b.AtTime (HasBad bad) t) ∨ p.d.AtTime (HasBad bad) u)
    {out : List (M.V n × M.A n n)}
    (hr : M.smooth p os = .ok out ∨ SMachine.cholSmooth p os = .ok out ∨
      ∃ store, SMachine.bierSmooth store p os = .ok out) :
    out.length = os.length ∧ ∀ r ∈ out, ∀ i, bad (r.1 i) := by
  obtain ⟨l, sm, hl, hsm, rfl⟩ : ∃ (l : List (M.St n m)) (sm : List (M.toMachine.SSt n)),
      (M.full p os = .ok l ∨ SMachine.cholRows p os = .ok l ∨ ∃ store, SMachine.bierRows store p os = .ok l) ∧
      M.smoothFull p.A l = .ok sm ∧ out = sm.map fun s => (s.mean, s.cov) := by
    rcases hr with hr | hr | ⟨store, hr⟩
    · rw [Machine.smooth] at hr
      obtain ⟨l, hl, hr⟩ := ok_bind_iff.mp hr
      obtain ⟨sm, hsm, hr⟩ := ok_bind_iff.mp hr
      cases hr
      exact ⟨l, sm, .inl hl, hsm, rfl⟩
    · rw [SMachine.cholSmooth] at hr
      obtain ⟨l, hl, hr⟩ := ok_bind_iff.mp hr
      obtain ⟨sm, hsm, hr⟩ := ok_bind_iff.mp hr
      cases hr
      exact ⟨l, sm, .inr (.inl hl), hsm, rfl⟩
    · rw [SMachine.bierSmooth] at hr
      obtain ⟨l, hl, hr⟩ := ok_bind_iff.mp hr
      obtain ⟨sm, hsm, hr⟩ := ok_bind_iff.mp hr
      cases hr
      exact ⟨l, sm, .inr (.inr ⟨store, hl⟩), hsm, rfl⟩
  have hf := h.flow hm hl
  have hlen := hf.len
  refine ⟨by rw [List.length_map, smoothFull_length hsm, hlen], fun r hr => ?_⟩
  obtain ⟨s, hs, rfl⟩ := List.mem_map.mp hr
  exact NaN.smoothFull_bad h.base hn hsm
    (getLast?_bad (t := u) (by omega) fun s hts hs => hf.all_bad hn hu ho hp hts hs) s hs

/-- **C107.** Whether or not any row is used: every filtered mean after the `nan` in a mean or transition
offset has `nan` in it, in all three classes. -/
theorem C107_predicted_means {M : SMachine} {bad : M.F → Prop} (h : M.SpreadDot bad) (hm : 0 < m)
    (p : M.Par n m) {os : List (M.Row m)} {u : ℕ} (hu : u < os.length)
    (hp : HasBad bad p.mu0 ∨ ∃ t < u, p.b.AtTime (HasBad bad) t)
    {out : List (M.V n × M.A n n)}
    (hr : M.filter p os = .ok out ∨ SMachine.cholFilter p os = .ok out ∨
      ∃ store, SMachine.bierFilter store p os = .ok out) :
    ∃ hs : u < out.length, HasBad bad out[u].1 := by
  obtain ⟨l, hl, rfl⟩ : ∃ l : List (M.St n m), (M.full p os = .ok l ∨ SMachine.cholRows p os = .ok l ∨
      ∃ store, SMachine.bierRows store p os = .ok l) ∧ out = l.map fun s => (s.filtMean, s.filtCov) := by
    rcases hr with hr | hr | ⟨store, hr⟩
    · obtain ⟨l, hl, rfl⟩ := Machine.filter_ok hr
      exact ⟨l, .inl hl, rfl⟩
    · rw [SMachine.cholFilter] at hr
      obtain ⟨l, hl, hr⟩ := ok_bind_iff.mp hr
      cases hr
      exact ⟨l, .inr (.inl hl), rfl⟩
    · rw [SMachine.bierFilter] at hr
      obtain ⟨l, hl, hr⟩ := ok_bind_iff.mp hr
      cases hr
      exact ⟨l, .inr (.inr ⟨store, hl⟩), rfl⟩
  have hf := h.flow hm hl
  have hlen := hf.len
  refine ⟨by rw [List.length_map]; omega, ?_⟩
  simp only [List.getElem_map]
  exact hf.masked u (by omega) (hf.pred_bad (by omega) hp)

/-! ### The linear classes: `filter_update` -/

/-- **C107.** `filter_update`, `nan` in a matrix that is in force.  In the covariance given, the
transition matrix, the transition covariance or the observation covariance it makes the two square root
classes raise, and `KalmanFilter` if something is observed.  In the observation matrix, if something is
observed, it makes `KalmanFilter` and `CholeskyKalmanFilter` raise. -/
theorem C107_update_raises {M : SMachine} {bad : M.F → Prop} (h : M.NaN bad) (hm : 0 < m)
    (p : M.Par n m) (mean : M.V n) (cov : M.A n n) (observation : Option (M.Row m))
    (a : M.toMachine.Args n m) :
    ((∃ o, observation = some o ∧ o.Used) → (HasBad₂ bad cov ∨ InForce (HasBad₂ bad) a.A p.A ∨
        InForce (HasBad₂ bad) a.Q p.Q ∨ InForce (HasBad₂ bad) a.C p.C ∨
        InForce (HasBad₂ bad) a.R p.R) → Raises (M.update p mean cov observation a)) ∧
    ((HasBad₂ bad cov ∨ InForce (HasBad₂ bad) a.A p.A ∨ InForce (HasBad₂ bad) a.Q p.Q ∨
        InForce (HasBad₂ bad) a.R p.R) → Raises (SMachine.cholUpdate p mean cov observation a) ∧
        ∀ store, Raises (SMachine.bierUpdate store p mean cov observation a)) ∧
    ((∃ o, observation = some o ∧ o.Used) → InForce (HasBad₂ bad) a.C p.C →
      Raises (SMachine.cholUpdate p mean cov observation a)) := by
  refine ⟨?_, fun hp => ⟨?_, fun store => ?_⟩, ?_⟩
  · rintro ⟨o, rfl, ho⟩ hp
    rw [Machine.update]
    refine raises_bind fun b _ => raises_bind fun d _ => raises_bind fun A hA =>
      raises_bind fun C hC => raises_bind fun Q hQ => raises_bind fun R hR => Raises.bind ?_ _
    refine NaN.correct_raises_one h.base hm ho ?_
    rcases hp with hp | hp | hp | hp | hp
    · exact .inl (NaN.predict_cov_one h.base (.inl hp))
    · exact .inl (NaN.predict_cov_one h.base (.inr (.inl (hp.spec hA))))
    · exact .inl (NaN.predict_cov_one h.base (.inr (.inr (hp.spec hQ))))
    · exact .inr (.inl (hp.spec hC))
    · exact .inr (.inr (hp.spec hR))
  · rw [SMachine.cholUpdate]
    refine raises_bind fun b _ => raises_bind fun d _ => raises_bind fun A hA =>
      raises_bind fun C hC => raises_bind fun Q hQ => raises_bind fun R hR => ?_
    rcases hp with ⟨i, j, hp⟩ | hp | hp | hp
    · exact raises_bind fun _ _ => raises_bind fun _ _ => Raises.bind ⟨.valueError, h.cholL hp⟩ _
    · exact raises_bind fun _ _ => raises_bind fun _ _ => raises_bind fun _ _ =>
        Raises.bind (h.cholPredict_raises (hp.spec hA)) _
    · obtain ⟨i, j, hp⟩ := hp.spec hQ
      exact Raises.bind ⟨.valueError, h.cholL hp⟩ _
    · obtain ⟨i, j, hp⟩ := hp.spec hR
      exact raises_bind fun _ _ => Raises.bind ⟨.valueError, h.cholL hp⟩ _
  · rw [SMachine.bierUpdate]
    refine raises_bind fun b _ => raises_bind fun d _ => raises_bind fun A hA =>
      raises_bind fun C hC => raises_bind fun Q hQ => raises_bind fun R hR => ?_
    rcases hp with ⟨i, j, hp⟩ | hp | hp | hp
    · exact Raises.bind ⟨.assertionError, h.udu_raises hp⟩ _
    · exact raises_bind fun _ _ => raises_bind fun _ _ => raises_bind fun _ _ =>
        Raises.bind (h.bierPredict_raises (.inl (hp.spec hA))) _
    · exact raises_bind fun _ _ => raises_bind fun _ _ => raises_bind fun _ _ =>
        Raises.bind (h.bierPredict_raises (.inr (hp.spec hQ))) _
    · obtain ⟨i, j, hp⟩ := hp.spec hR
      exact raises_bind fun _ _ => Raises.bind ⟨.valueError, h.cholL hp⟩ _
  · rintro ⟨o, rfl, ho⟩ hp
    rw [SMachine.cholUpdate]
    refine raises_bind fun b _ => raises_bind fun d _ => raises_bind fun A hA =>
      raises_bind fun C hC => raises_bind fun Q hQ => raises_bind fun R hR =>
      raises_bind fun _ _ => raises_bind fun _ _ => raises_bind fun _ _ => raises_bind fun _ _ =>
      Raises.bind (h.cholCorrect_raises ho (hp.spec hC)) _

/-- **C107.** `filter_update` of `KalmanFilter` with nothing observed: `nan` in the covariance given, the
transition matrix or the transition covariance is in the covariance returned. -/
theorem C107_update_covariance {M : Machine} {bad : M.F → Prop} (h : M.NaN bad)
    (p : M.Par n m) (hm : 0 < m) {mean : M.V n} {cov : M.A n n} {observation : Option (M.Row m)}
    {a : M.Args n m} (hp : HasBad₂ bad cov ∨ InForce (HasBad₂ bad) a.A p.A ∨
      InForce (HasBad₂ bad) a.Q p.Q) {r : M.V n × M.A n n}
    (hr : M.update p mean cov observation a = .ok r) : HasBad₂ bad r.2 := by
  simp only [Machine.update] at hr
  obtain ⟨b, -, hr⟩ := ok_bind_iff.mp hr
  obtain ⟨d, -, hr⟩ := ok_bind_iff.mp hr
  obtain ⟨A, hA, hr⟩ := ok_bind_iff.mp hr
  obtain ⟨C, -, hr⟩ := ok_bind_iff.mp hr
  obtain ⟨Q, hQ, hr⟩ := ok_bind_iff.mp hr
  obtain ⟨R, -, hr⟩ := ok_bind_iff.mp hr
  obtain ⟨c, hc, hr⟩ := ok_bind_iff.mp hr
  cases hr
  have hb : HasBad₂ bad (M.predict A Q b mean cov).2 := h.predict_cov_one (by
    rcases hp with hp | hp | hp
    · exact .inl hp
    · exact .inr (.inl (hp.spec hA))
    · exact .inr (.inr (hp.spec hQ)))
  obtain ⟨o, hc⟩ : ∃ o, M.correct C R d (M.predict A Q b mean cov).1 (M.predict A Q b mean cov).2 o =
      .ok c := ⟨_, hc⟩
  by_cases hmis : o.missing
  · rw [correct, if_neg (not_not.mpr hmis)] at hc
    cases hc
    exact hb
  · exact (raises_iff.mp (h.correct_raises_one hm (Row.used_of_not_missing hmis) (.inl hb)) _ hc).elim

/-- **C107.** `filter_update` of the three classes, `nan` in a mean or offset that is in force: in the mean
given or the transition offset it is in the mean returned, and in all its components if something is
observed; so is `nan` in the observation offset. -/
theorem C107_update_mean {M : SMachine} {bad : M.F → Prop} (h : M.SpreadDot bad) (hm : 0 < m)
    (p : M.Par n m) {mean : M.V n} {cov : M.A n n} {observation : Option (M.Row m)}
    {a : M.toMachine.Args n m} {r : M.V n × M.A n n}
    (hr : M.update p mean cov observation a = .ok r ∨
      SMachine.cholUpdate p mean cov observation a = .ok r ∨
      ∃ store, SMachine.bierUpdate store p mean cov observation a = .ok r) :
    (HasBad bad mean ∨ InForce (HasBad bad) a.b p.b → HasBad bad r.1) ∧
    ((∃ o, observation = some o ∧ o.Used) → (HasBad bad mean ∨ InForce (HasBad bad) a.b p.b ∨
      InForce (HasBad bad) a.d p.d) → ∀ i, bad (r.1 i)) := by
  rcases hr with hr | hr | ⟨store, hr⟩
  · simp only [Machine.update] at hr
    obtain ⟨b, hb, hr⟩ := ok_bind_iff.mp hr
    obtain ⟨d, hd, hr⟩ := ok_bind_iff.mp hr
    obtain ⟨A, -, hr⟩ := ok_bind_iff.mp hr
    obtain ⟨C, -, hr⟩ := ok_bind_iff.mp hr
    obtain ⟨Q, -, hr⟩ := ok_bind_iff.mp hr
    obtain ⟨R, -, hr⟩ := ok_bind_iff.mp hr
    obtain ⟨c, hc, hr⟩ := ok_bind_iff.mp hr
    cases hr
    have hpred : HasBad bad mean ∨ InForce (HasBad bad) a.b p.b →
        HasBad bad (M.predict A Q b mean cov).1 := by
      rintro (⟨i, hi⟩ | hp)
      · exact ⟨i, h.add_left _ (h.dotV_right _ hi _)⟩
      · obtain ⟨i, hi⟩ := hp.spec hb
        exact ⟨i, h.add_right _ hi⟩
    constructor
    · intro hp
      obtain ⟨i, hi⟩ := hpred hp
      obtain ⟨o, hc⟩ : ∃ o, M.correct C R d (M.predict A Q b mean cov).1 (M.predict A Q b mean cov).2 o =
          .ok c := ⟨_, hc⟩
      by_cases hmis : o.missing
      · rw [correct, if_neg (not_not.mpr hmis)] at hc
        cases hc
        exact ⟨i, hi⟩
      · rw [correct, if_pos hmis] at hc
        obtain ⟨inv, -, hc⟩ := ok_bind_iff.mp hc
        cases hc
        exact ⟨i, h.add_left _ hi⟩
    · rintro ⟨o, rfl, ho⟩ hp
      dsimp only at hc
      rw [correct, if_pos ho.not_missing] at hc
      obtain ⟨inv, -, hc⟩ := ok_bind_iff.mp hc
      cases hc
      obtain ⟨j, hj⟩ : ∃ j, bad (M.vadd (M.dotV m n C (M.predict A Q b mean cov).1) d j) := by
        rcases hp with hp | hp | hp
        · obtain ⟨i, hi⟩ := hpred (.inl hp)
          exact ⟨⟨0, hm⟩, h.add_left _ (h.dotV_right _ hi _)⟩
        · obtain ⟨i, hi⟩ := hpred (.inr hp)
          exact ⟨⟨0, hm⟩, h.add_left _ (h.dotV_right _ hi _)⟩
        · obtain ⟨j, hj⟩ := hp.spec hd
          exact ⟨j, h.add_right _ hj⟩
      exact fun i => h.add_right _ (h.dotV_right _ (h.sub_right _ hj) i)
  · simp only [SMachine.cholUpdate] at hr
    obtain ⟨b, hb, hr⟩ := ok_bind_iff.mp hr
    obtain ⟨d, hd, hr⟩ := ok_bind_iff.mp hr
    obtain ⟨A, -, hr⟩ := ok_bind_iff.mp hr
    obtain ⟨C, -, hr⟩ := ok_bind_iff.mp hr
    obtain ⟨Q, -, hr⟩ := ok_bind_iff.mp hr
    obtain ⟨R, -, hr⟩ := ok_bind_iff.mp hr
    obtain ⟨Q2, -, hr⟩ := ok_bind_iff.mp hr
    obtain ⟨R2, -, hr⟩ := ok_bind_iff.mp hr
    obtain ⟨S2, -, hr⟩ := ok_bind_iff.mp hr
    obtain ⟨pr, hpr, hr⟩ := ok_bind_iff.mp hr
    obtain ⟨c, hc, hr⟩ := ok_bind_iff.mp hr
    cases hr
    rw [SMachine.cholPredict] at hpr
    obtain ⟨T, -, hpr⟩ := ok_bind_iff.mp hpr
    have e : pr.1 = M.vadd (M.dotV n n A mean) b := (congrArg Prod.fst (Except.ok.inj hpr)).symm
    have hpred : HasBad bad mean ∨ InForce (HasBad bad) a.b p.b → HasBad bad pr.1 := by
      rw [e]
      rintro (⟨i, hi⟩ | hp)
      · exact ⟨i, h.add_left _ (h.dotV_right _ hi _)⟩
      · obtain ⟨i, hi⟩ := hp.spec hb
        exact ⟨i, h.add_right _ hi⟩
    constructor
    · intro hp
      obtain ⟨i, hi⟩ := hpred hp
      by_cases hmis : (UMachine.observed observation).missing
      · rw [SMachine.cholCorrect, if_neg (not_not.mpr hmis)] at hc
        cases hc
        exact ⟨i, hi⟩
      · rw [SMachine.cholCorrect, if_pos hmis] at hc
        obtain ⟨S, -, hc⟩ := ok_bind_iff.mp hc
        obtain ⟨inv, -, hc⟩ := ok_bind_iff.mp hc
        cases hc
        exact ⟨i, h.add_left _ hi⟩
    · rintro ⟨o, rfl, ho⟩ hp
      rw [SMachine.cholCorrect, if_pos (show ¬ (UMachine.observed (some o)).missing from ho.not_missing)] at hc
      obtain ⟨S, -, hc⟩ := ok_bind_iff.mp hc
      obtain ⟨inv, -, hc⟩ := ok_bind_iff.mp hc
      cases hc
      obtain ⟨j, hj⟩ : ∃ j, bad (M.vadd (M.dotV m n C pr.1) d j) := by
        rcases hp with hp | hp | hp
        · obtain ⟨i, hi⟩ := hpred (.inl hp)
          exact ⟨⟨0, hm⟩, h.add_left _ (h.dotV_right _ hi _)⟩
        · obtain ⟨i, hi⟩ := hpred (.inr hp)
          exact ⟨⟨0, hm⟩, h.add_left _ (h.dotV_right _ hi _)⟩
        · obtain ⟨j, hj⟩ := hp.spec hd
          exact ⟨j, h.add_right _ hj⟩
      exact fun i => h.add_right _ (h.dotV_right _ (j := j) (h.dotV_right _ (h.sub_right _ hj) _) i)
  · simp only [SMachine.bierUpdate] at hr
    obtain ⟨b, hb, hr⟩ := ok_bind_iff.mp hr
    obtain ⟨d, hd, hr⟩ := ok_bind_iff.mp hr
    obtain ⟨A, -, hr⟩ := ok_bind_iff.mp hr
    obtain ⟨C, -, hr⟩ := ok_bind_iff.mp hr
    obtain ⟨Q, -, hr⟩ := ok_bind_iff.mp hr
    obtain ⟨R, -, hr⟩ := ok_bind_iff.mp hr
    obtain ⟨S, -, hr⟩ := ok_bind_iff.mp hr
    obtain ⟨R2, -, hr⟩ := ok_bind_iff.mp hr
    obtain ⟨inv, -, hr⟩ := ok_bind_iff.mp hr
    obtain ⟨pr, hpr, hr⟩ := ok_bind_iff.mp hr
    cases hr
    rw [SMachine.bierPredict] at hpr
    obtain ⟨T, -, hpr⟩ := ok_bind_iff.mp hpr
    have e : pr.1 = M.vadd (M.dotV n n A mean) b := (congrArg Prod.fst (Except.ok.inj hpr)).symm
    have hpred : HasBad bad mean ∨ InForce (HasBad bad) a.b p.b → HasBad bad pr.1 := by
      rw [e]
      rintro (⟨i, hi⟩ | hp)
      · exact ⟨i, h.add_left _ (h.dotV_right _ hi _)⟩
      · obtain ⟨i, hi⟩ := hp.spec hb
        exact ⟨i, h.add_right _ hi⟩
    constructor
    · intro hp
      obtain ⟨i, hi⟩ := hpred hp
      refine ⟨i, ?_⟩
      rw [SMachine.bierCorrect]
      split_ifs
      · exact hi
      · exact SMachine.Spread.bierFold_keep h.sbase _ _ _ hi
    · rintro ⟨o, rfl, ho⟩ hp
      have hmis : ¬ (⟨M.dotV m m inv (UMachine.observed (some o)).val,
        (UMachine.observed (some o)).mask⟩ : M.Row m).missing := Row.Used.not_missing ho
      rw [SMachine.bierCorrect, if_pos hmis]
      refine h.bierFold_bad _ _ ?_
      have hne : List.finRange m ≠ [] := List.ne_nil_of_mem (List.mem_finRange ⟨0, hm⟩)
      rcases hp with hp | hp | hp
      · exact .inr (.inl ⟨hne, hpred (.inl hp)⟩)
      · exact .inr (.inl ⟨hne, hpred (.inr hp)⟩)
      · obtain ⟨j, hj⟩ := hp.spec hd
        exact .inr (.inr ⟨⟨0, hm⟩, List.mem_finRange _, .inr (h.dotV_right _ hj _)⟩)

/-- **C107.** `filter_update` of `BiermanKalmanFilter`, `nan` in the observation matrix in force and
something observed: all components of the mean returned are `nan`. -/
theorem C107_update_bierman {M : SMachine} {bad : M.F → Prop} (h : M.SpreadDot bad) (hm : 0 < m)
    (p : M.Par n m) {mean : M.V n} {cov : M.A n n} {o : M.Row m} (ho : o.Used)
    {a : M.toMachine.Args n m} (hp : InForce (HasBad₂ bad) a.C p.C) {store : M.F → M.F}
    {r : M.V n × M.A n n} (hr : SMachine.bierUpdate store p mean cov (some o) a = .ok r) :
    ∀ i, bad (r.1 i) := by
  simp only [SMachine.bierUpdate] at hr
  obtain ⟨b, -, hr⟩ := ok_bind_iff.mp hr
  obtain ⟨d, -, hr⟩ := ok_bind_iff.mp hr
  obtain ⟨A, -, hr⟩ := ok_bind_iff.mp hr
  obtain ⟨C, hC, hr⟩ := ok_bind_iff.mp hr
  obtain ⟨Q, -, hr⟩ := ok_bind_iff.mp hr
  obtain ⟨R, -, hr⟩ := ok_bind_iff.mp hr
  obtain ⟨S, -, hr⟩ := ok_bind_iff.mp hr
  obtain ⟨R2, -, hr⟩ := ok_bind_iff.mp hr
  obtain ⟨inv, -, hr⟩ := ok_bind_iff.mp hr
  obtain ⟨pr, -, hr⟩ := ok_bind_iff.mp hr
  cases hr
  have hmis : ¬ (⟨M.dotV m m inv (UMachine.observed (some o)).val,
    (UMachine.observed (some o)).mask⟩ : M.Row m).missing := Row.Used.not_missing ho
  rw [SMachine.bierCorrect, if_pos hmis]
  obtain ⟨i, j, hij⟩ := hp.spec hC
  exact h.bierFold_bad _ _ (.inr (.inr ⟨⟨0, hm⟩, List.mem_finRange _, .inl ⟨j, h.dotM_right _ hij _⟩⟩))

/-! ### Parameters that are not used -/

/-- **C107.** Observation matrices, offsets and covariances of the times of rows with something masked do
not matter, `nan` or not: `filter` and `smooth` of `KalmanFilter` give the same (on any machine), and
those of `CholeskyKalmanFilter` (whose covariances do not depend on time). -/
theorem C107_unused {M : SMachine} (p p' : M.Par n m) (os : List (M.Row m))
    (hA : p.A = p'.A) (hb : p.b = p'.b) (hQ : p.Q = p'.Q) (hmu : p.mu0 = p'.mu0) (hS : p.S0 = p'.S0)
    (hC : ∀ t (ht : t < os.length), p.C.AgreeWhenUsed os[t].Used p'.C t)
    (hd : ∀ t (ht : t < os.length), p.d.AgreeWhenUsed os[t].Used p'.d t)
    (hR : ∀ t (ht : t < os.length), p.R.AgreeWhenUsed os[t].Used p'.R t) :
    (M.filter p os = M.filter p' os ∧ M.smooth p os = M.smooth p' os) ∧
    (p.R = p'.R → SMachine.cholFilter p os = SMachine.cholFilter p' os ∧
      SMachine.cholSmooth p os = SMachine.cholSmooth p' os) := by
  have h1 : M.full p os = M.full p' os := by
    rw [full_eq_run, full_eq_run]
    refine run_congr fun i hi prev => ?_
    simp only [Nat.zero_add]
    obtain ⟨C, C', e1, e2, eC⟩ := (hC i hi).spec
    obtain ⟨d, d', e3, e4, ed⟩ := (hd i hi).spec
    obtain ⟨R, R', e5, e6, eR⟩ := (hR i hi).spec
    have key : ∀ mean cov, M.correct C R d mean cov os[i] = M.correct C' R' d' mean cov os[i] := by
      intro mean cov
      by_cases hmis : os[i].missing
      · simp only [correct, if_neg (not_not.mpr hmis)]
      · have hu := Row.used_of_not_missing hmis
        rw [eC hu, ed hu, eR hu]
    cases prev with
    | none =>
      simp only [step, e1, e2, e3, e4, e5, e6, hmu, hS, Bind.bind, Except.bind, pure, Except.pure, key]
    | some s =>
      simp only [step, e1, e2, e3, e4, e5, e6, hA, hb, hQ, Bind.bind, Except.bind, pure, Except.pure,
        key]
  refine ⟨⟨?_, ?_⟩, fun hR' => ?_⟩
  · rw [Machine.filter, Machine.filter, h1]
  · rw [Machine.smooth, Machine.smooth, h1, hA]
  · have h2 : SMachine.cholFull p os = SMachine.cholFull p' os := by
      rw [SMachine.cholFull, SMachine.cholFull, hQ, hR', hS]
      congr 1
      funext Q2
      congr 1
      funext R2
      congr 1
      funext S2
      refine run_congr fun i hi prev => ?_
      simp only [Nat.zero_add]
      obtain ⟨C, C', e1, e2, eC⟩ := (hC i hi).spec
      obtain ⟨d, d', e3, e4, ed⟩ := (hd i hi).spec
      have key : ∀ mean cov, SMachine.cholCorrect C R2 d mean cov os[i] =
          SMachine.cholCorrect C' R2 d' mean cov os[i] := by
        intro mean cov
        by_cases hmis : os[i].missing
        · simp only [SMachine.cholCorrect, if_neg (not_not.mpr hmis)]
        · have hu := Row.used_of_not_missing hmis
          rw [eC hu, ed hu]
      cases prev with
      | none =>
        simp only [SMachine.cholStep, e1, e2, e3, e4, hmu, Bind.bind, Except.bind, pure, Except.pure, key]
      | some s =>
        simp only [SMachine.cholStep, e1, e2, e3, e4, hA, hb, Bind.bind, Except.bind, pure, Except.pure, key]
    have h3 : SMachine.cholRows p os = SMachine.cholRows p' os := by
      rw [SMachine.cholRows, SMachine.cholRows, h2]
    exact ⟨by rw [SMachine.cholFilter, SMachine.cholFilter, h3],
      by rw [SMachine.cholSmooth, SMachine.cholSmooth, h3, hA]⟩

/-! ### The unscented classes -/

/-- **C107.** `AdditiveUnscentedKalmanFilter`: `nan` in `initial_state_covariance` makes `filter` and
`smooth` raise; in the transition covariance or in `initial_state_mean`, when there are two rows; in the
observation covariance, when a row is used. -/
theorem C107_additive {M : UMachine} {bad : M.F → Prop} (h : M.NaN bad) (p : M.UPar n m)
    {os : List (M.Row m)}
    (hp : HasBad₂ bad p.S0 ∧ os ≠ [] ∨ HasBad₂ bad p.Q ∧ 2 ≤ os.length ∨
      HasBad bad p.mu0 ∧ 2 ≤ os.length ∨ HasBad₂ bad p.R ∧ ∃ o ∈ os, o.Used) :
    Raises (UMachine.aukfFilter p os) ∧ Raises (UMachine.aukfSmooth p os) := by
  have h1 : Raises (UMachine.aukfFilter p os) := by
    rw [UMachine.aukfFilter]
    rcases hp with ⟨⟨i, j, hp⟩, hos⟩ | ⟨hp, h2⟩ | ⟨⟨c, hp⟩, h2⟩ | ⟨hp, ho⟩
    · refine run_first_raises hos fun o => ?_
      simp only [UMachine.aukfStep]
      exact Raises.bind (NaN.moments2points_raises h (x := ⟨p.mu0, p.S0⟩) hp) _
    · rw [raises_iff]
      intro l hl
      have hlen := run_length hl
      exact raises_iff.mp (NaN.aukfStep_raises_noise h hp) _
        ((run_rows hl).2 0 (by omega) (by omega))
    · rw [raises_iff]
      intro l hl
      have hlen := run_length hl
      obtain ⟨e1, e2⟩ := run_rows hl
      have hb := NaN.aukf_first_cov h.base (e1 (by omega) (by omega)) hp
      have e3 := e2 0 (by omega) (by omega)
      simp only [UMachine.aukfStep, Option.getD_some] at e3
      exact raises_iff.mp ((NaN.moments2points_raises h hb).bind _) _ e3
    · exact run_never (P := fun _ => True) (B := Row.Used)
        (fun t prev o _ hu => NaN.aukfStep_raises_obs h.base hp hu) (fun _ _ _ _ _ _ => trivial) trivial
        ho
  exact ⟨h1, h1.bind _⟩

/-- **C107.** `UnscentedKalmanFilter`: `nan` in one of the three covariances makes `filter` and `smooth`
raise, masked or not; in `initial_state_mean`, when there are two rows. -/
theorem C107_general {M : UMachine} {bad : M.F → Prop} (h : M.NaN bad) (p : M.GPar n m)
    {os : List (M.Row m)} (hos : os ≠ [])
    (hp : HasBad₂ bad p.S0 ∨ HasBad₂ bad p.Q ∨ HasBad₂ bad p.R ∨
      HasBad bad p.mu0 ∧ 2 ≤ os.length) :
    Raises (UMachine.ukfFilter p os) ∧ Raises (UMachine.ukfSmooth p os) := by
  have h1 : Raises (UMachine.ukfFilter p os) := by
    rw [UMachine.ukfFilter]
    have key : (HasBad₂ bad p.S0 ∨ HasBad₂ bad p.Q ∨ HasBad₂ bad p.R) →
        Raises (run (UMachine.ukfStep p) 0 none os) := by
      intro hp
      refine run_first_raises hos fun o => ?_
      simp only [UMachine.ukfStep]
      exact Raises.bind (NaN.augFilterPoints_raises_noise h (x := ⟨p.mu0, p.S0⟩) hp) _
    rcases hp with hp | hp | hp | ⟨⟨c, hp⟩, h2⟩
    · exact key (.inl hp)
    · exact key (.inr (.inl hp))
    · exact key (.inr (.inr hp))
    · rw [raises_iff]
      intro l hl
      have hlen := run_length hl
      obtain ⟨e1, e2⟩ := run_rows hl
      have hb := NaN.ukf_first_cov h.base (e1 (by omega) (by omega)) hp
      exact raises_iff.mp (NaN.ukfStep_raises h ⟨c, hb⟩) _ (e2 0 (by omega) (by omega))
  exact ⟨h1, h1.bind _⟩

/-- **C107.** The square root class: `nan` in the transition or observation covariance makes `filter` and
`smooth` raise; in `initial_state_mean` or `initial_state_covariance`, when there is a row. -/
theorem C107_sqrt {M : SMachine} {bad : M.F → Prop} (h : M.Spread bad) (p : M.UPar n m)
    {os : List (M.Row m)}
    (hp : HasBad₂ bad p.Q ∨ HasBad₂ bad p.R ∨ (HasBad₂ bad p.S0 ∨ HasBad bad p.mu0) ∧ os ≠ []) :
    Raises (SMachine.sqFilter p os) ∧ Raises (SMachine.sqSmooth p os) := by
  have h1 : Raises (SMachine.sqFull p os) := by
    rw [SMachine.sqFull]
    rcases hp with ⟨i, j, hp⟩ | ⟨i, j, hp⟩ | ⟨⟨i, j, hp⟩ | ⟨c, hp⟩, hos⟩
    · exact Raises.bind ⟨.valueError, h.chol hp⟩ _
    · exact raises_bind fun _ _ => Raises.bind ⟨.valueError, h.chol hp⟩ _
    · refine raises_bind fun _ _ => raises_bind fun _ _ => run_first_raises hos fun o => ?_
      simp only [SMachine.sqStep]
      exact Raises.bind ⟨.valueError, h.chol hp⟩ _
    · refine raises_bind fun _ _ => raises_bind fun _ _ => run_first_raises hos fun o => ?_
      simp only [SMachine.sqStep]
      refine raises_bind fun S2 _ => Raises.bind ?_ _
      exact h.sqPoints2moments_raises (j := 0)
        (h.sqMoments2points_points (x := ⟨p.mu0, S2⟩) hp 0) none
  exact ⟨h1.bind _, h1.bind _⟩

/-- **C107.** `filter_update` of the unscented classes raises when there is `nan` in the covariance given
or in the transition covariance, and when there is `nan` in the observation covariance (for the class
with additive noise if something is observed). -/
theorem C107_unscented_update {M : SMachine} {bad : M.F → Prop} (h : M.Spread bad) (x : M.Mom n)
    (observation : Option (M.Row m)) :
    (∀ (p : M.UPar n m) (a : M.UArgs n m), (HasBad₂ bad x.cov ∨ HasBad₂ bad (a.Q.getD p.Q) ∨
      HasBad₂ bad (a.R.getD p.R) ∧ ∃ o, observation = some o ∧ o.Used) →
      Raises (UMachine.aukfUpdate p x observation a)) ∧
    (∀ (p : M.GPar n m) (a : M.GArgs n m), (HasBad₂ bad x.cov ∨ HasBad₂ bad (a.Q.getD p.Q) ∨
      HasBad₂ bad (a.R.getD p.R)) → Raises (UMachine.ukfUpdate p x observation a)) ∧
    ∀ (p : M.UPar n m) (a : M.UArgs n m), (HasBad₂ bad x.cov ∨ HasBad₂ bad (a.Q.getD p.Q) ∨
      HasBad₂ bad (a.R.getD p.R)) → Raises (SMachine.sqUpdate p x observation a) := by
  refine ⟨fun p a hp => ?_, fun p a hp => ?_, fun p a hp => ?_⟩
  · rw [UMachine.aukfUpdate]
    refine raises_bind fun f _ => raises_bind fun g _ => ?_
    rcases hp with ⟨i, j, hp⟩ | ⟨i, j, hp⟩ | ⟨hp, o, rfl, ho⟩
    · exact Raises.bind (NaN.moments2points_raises h.ubase hp) _
    · exact raises_bind fun _ _ => raises_bind fun q _ =>
        Raises.bind (NaN.moments2points_raises h.ubase (NaN.points2moments_noise h.base q hp)) _
    · refine raises_bind fun _ _ => raises_bind fun q _ => raises_bind fun pts' _ => ?_
      rw [UMachine.ufCorrect]
      exact raises_bind fun q _ => NaN.finish_raises h.base ho hp
  · rw [UMachine.ukfUpdate]
    exact raises_bind fun f _ => raises_bind fun g _ =>
      Raises.bind (NaN.augFilterPoints_raises_noise h.ubase hp) _
  · rw [SMachine.sqUpdate]
    refine raises_bind fun f _ => raises_bind fun g _ => ?_
    rcases hp with ⟨i, j, hp⟩ | ⟨i, j, hp⟩ | ⟨i, j, hp⟩
    · exact Raises.bind ⟨.valueError, h.chol hp⟩ _
    · exact raises_bind fun _ _ => Raises.bind ⟨.valueError, h.chol hp⟩ _
    · exact raises_bind fun _ _ => raises_bind fun _ _ => Raises.bind ⟨.valueError, h.chol hp⟩ _

/-! ### The hypotheses can be met -/

/-- The assumptions on `nan` can be met with any arithmetic. -/
theorem adjoinNaN_dot (M : SMachine) : (adjoinNaN M).SpreadDot (fun x : Option M.F => x = none) where
  sbase := (adjoinNaN_nan M).spread
  dot_left _ _ h := nanDot_left _ _ h
  dot_right _ _ _ h := nanDot_right _ _ h

/-- Three rows: used, masked, used. -/
def exParamRows : List ((adjoinNaN edge).Row 1) :=
  [⟨fun _ => some (5 : ℤ), fun _ => false⟩, ⟨fun _ => some (5 : ℤ), fun _ => true⟩,
    ⟨fun _ => some (5 : ℤ), fun _ => false⟩]

/-- The transition matrix of time 1 is `nan`. -/
def exParamA : (adjoinNaN edge).Par 1 1 :=
  { exNaNEdge with A := .seq [fun _ _ => some (1 : ℤ), fun _ _ => none] }

/-- The hypotheses of `C107_matrices` (`u = 2`), `C107_smooth_raises` and
`C107_predicted_covariances`.  Without `nan` the calls return, and with only the first two rows (of
which the second is masked) `filter` does. -/
example : (2 < exParamRows.length ∧ exParamRows[2].Used) ∧
    exParamA.A.AtTime (HasBad₂ fun x : Option ℤ => x = none) 1 ∧
    (∃ out, (adjoinNaN edge).filter exNaNEdge exParamRows = .ok out) ∧
    ∃ out, (adjoinNaN edge).filter exParamA (exParamRows.take 2) = .ok out :=
  ⟨⟨by decide, fun _ => rfl⟩, .inr ⟨_, _, rfl, rfl, 0, 0, rfl⟩, ⟨_, rfl⟩, ⟨_, rfl⟩⟩

/-- `C107_predicted_covariances`: with `nan` in `initial_state_covariance` and all rows masked `filter`
returns. -/
example : ∃ out, (adjoinNaN edge).filter { exNaNEdge with S0 := fun _ _ => none }
    [exParamRows[1], exParamRows[1]] = .ok out ∧
    (out.map fun r => (r.2 0 0 : Option ℤ).isSome) = [false, false] := ⟨_, rfl, rfl⟩

/-- The hypotheses of `C107_observation_matrices` and `C107_observation_matrices_bierman`: with `nan`
in the observation matrix `BiermanKalmanFilter` returns. -/
example : (∃ out, SMachine.bierFilter id { exNaNEdge with C := .const fun _ _ => none }
      (exParamRows.drop 1) = .ok out ∧ (out.map fun r => (r.1 0 : Option ℤ).isSome) = [true, false]) ∧
    (∃ out, SMachine.bierSmooth id { exNaNEdge with C := .const fun _ _ => none }
      (exParamRows.take 1) = .ok out) ∧
    Raises (SMachine.cholFilter { exNaNEdge with C := .const fun _ _ => none } exParamRows) :=
  ⟨⟨_, rfl, rfl⟩, ⟨_, rfl⟩, _, rfl⟩

/-- The transition offset of time 0 is `nan`. -/
def exParamB : (adjoinNaN edge).Par 1 1 :=
  { exNaNEdge with b := .seq [fun _ => none, fun _ => some (0 : ℤ)] }

/-- Those of `C107_offsets`, `C107_offsets_smooth` and `C107_predicted_means`: the calls return, and
the first filtered mean is not `nan`. -/
example : exParamB.b.AtTime (HasBad fun x : Option ℤ => x = none) 0 ∧
    (∃ out, (adjoinNaN edge).filter exParamB exParamRows = .ok out ∧
      (out.map fun r => (r.1 0 : Option ℤ).isSome) = [true, false, false]) ∧
    (∃ out, SMachine.cholFilter exParamB exParamRows = .ok out) ∧
    (∃ out, SMachine.bierFilter id exParamB exParamRows = .ok out) ∧
    (∃ out, (adjoinNaN edge).smooth exParamB exParamRows = .ok out) ∧
    (∃ out, SMachine.cholSmooth exParamB exParamRows = .ok out) ∧
    ∃ out, SMachine.bierSmooth id exParamB exParamRows = .ok out :=
  ⟨.inr ⟨_, _, rfl, rfl, 0, rfl⟩, ⟨_, rfl, rfl⟩, ⟨_, rfl⟩, ⟨_, rfl⟩, ⟨_, rfl⟩, ⟨_, rfl⟩, ⟨_, rfl⟩⟩

/-- Those of the theorems on `filter_update`: a transition matrix given as argument, the transition
offset of the object, and calls that return. -/
example : InForce (HasBad₂ fun x : Option ℤ => x = none)
      (some fun (_ _ : Fin 1) => (none : Option ℤ)) exNaNEdge.A ∧
    InForce (HasBad fun x : Option ℤ => x = none) none
      (TV.const fun (_ : Fin 1) => (none : Option ℤ)) ∧
    (∃ r, (adjoinNaN edge).update exNaNEdge (fun _ => some (0 : ℤ)) (fun _ _ => some (1 : ℤ)) none
      { A := some fun _ _ => none } = .ok r) ∧
    (∃ r, (adjoinNaN edge).update exNaNEdge (fun _ => none) (fun _ _ => some (1 : ℤ))
      (some exParamRows[0]) {} = .ok r) ∧
    (∃ r, SMachine.cholUpdate exNaNEdge (fun _ => none) (fun _ _ => some (1 : ℤ))
      (some exParamRows[0]) {} = .ok r) ∧
    (∃ r, SMachine.bierUpdate id exNaNEdge (fun _ => some (0 : ℤ)) (fun _ _ => some (1 : ℤ))
      (some exParamRows[0]) { C := some fun _ _ => none } = .ok r) ∧
    ∃ r, SMachine.bierUpdate id exNaNEdge (fun _ => none) (fun _ _ => some (1 : ℤ))
      (some exParamRows[0]) {} = .ok r :=
  ⟨.inl ⟨_, rfl, 0, 0, rfl⟩, .inr ⟨rfl, _, rfl, 0, rfl⟩, ⟨_, rfl⟩, ⟨_, rfl⟩, ⟨_, rfl⟩, ⟨_, rfl⟩,
    ⟨_, rfl⟩⟩

/-- Those of `C107_unused`: the observation matrix of the masked row is `nan` in one of two models. -/
example : ∀ t (ht : t < exParamRows.length),
    TV.AgreeWhenUsed exParamRows[t].Used
      (TV.seq [fun (_ _ : Fin 1) => some (1 : ℤ), fun _ _ => none, fun _ _ => some 1])
      (TV.seq [fun (_ _ : Fin 1) => some (1 : ℤ), fun _ _ => some 1, fun _ _ => some 1]) t := by
  intro t ht
  match t, ht with
  | 0, _ => exact ⟨_, _, .inr ⟨_, _, rfl, rfl, rfl⟩, .inr ⟨_, _, rfl, rfl, rfl⟩, fun _ => rfl⟩
  | 1, _ => exact ⟨_, _, .inr ⟨_, _, rfl, rfl, rfl⟩, .inr ⟨_, _, rfl, rfl, rfl⟩,
      fun h => absurd (h 0) (show ¬ true = false by decide)⟩
  | 2, _ => exact ⟨_, _, .inr ⟨_, _, rfl, rfl, rfl⟩, .inr ⟨_, _, rfl, rfl, rfl⟩, fun _ => rfl⟩

/-- The theorems on the unscented classes: without `nan` the calls return.  `nan` that is not used
does not matter: the class with additive noise does not use the transition covariance when there is
one row, nor the observation covariance when all rows are masked. -/
example : (∃ out, UMachine.aukfFilter exUNaN exParamRows = .ok out) ∧
    (∃ out, UMachine.ukfFilter exGNaN exParamRows = .ok out) ∧
    (∃ out, SMachine.sqFilter exUNaN exParamRows = .ok out) ∧
    (∃ out, UMachine.aukfFilter { exUNaN with Q := fun _ _ => none } [exParamRows[0]] = .ok out) ∧
    (∃ out, UMachine.aukfFilter { exUNaN with R := fun _ _ => none } [exParamRows[1], exParamRows[1]] =
      .ok out) ∧
    (∃ out, UMachine.aukfFilter { exUNaN with mu0 := fun _ => none } [exParamRows[1]] = .ok out) ∧
    (∃ r, UMachine.aukfUpdate exUNaN ⟨fun _ => some (0 : ℤ), fun _ _ => some (1 : ℤ)⟩
      (some exParamRows[0]) {} = .ok r) ∧
    (∃ r, UMachine.ukfUpdate exGNaN ⟨fun _ => some (0 : ℤ), fun _ _ => some (1 : ℤ)⟩
      (some exParamRows[0]) {} = .ok r) ∧
    ∃ r, SMachine.sqUpdate exUNaN ⟨fun _ => some (0 : ℤ), fun _ _ => some (1 : ℤ)⟩
      (some exParamRows[0]) {} = .ok r :=
  ⟨⟨_, rfl⟩, ⟨_, rfl⟩, ⟨_, rfl⟩, ⟨_, rfl⟩, ⟨_, rfl⟩, ⟨_, rfl⟩, ⟨_, rfl⟩, ⟨_, rfl⟩, ⟨_, rfl⟩⟩

end Verif
