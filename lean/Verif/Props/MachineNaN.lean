import Verif.Proofs.MachineNaNUnscented
import Verif.Props.EmMonotone
import Verif.Props.MachineSqrt

/-!
# C102: `nan` on the numbers of any machine

What one `nan` in a row that is used (not masked) does to the results of all classes.  The numbers
are of any type; the only assumptions on the operations are that `nan` spreads through them and that
the routines of `scipy.linalg` raise when they find it (`Machine.NaN`, `UMachine.NaN`, `SMachine.NaN`).
-/

namespace Verif

open Machine UMachine SMachine

variable {n m : ℕ}

/-! ### The linear classes: `filter`, `smooth`, `filter_update` -/

/-- **C102.** `filter` of the three linear classes: from the row with `nan` on, all components of all
means are `nan` (if the call returns). -/
theorem C102_filter {M : SMachine} {bad : M.F → Prop} (h : M.Spread bad) (hn : 0 < n)
    (p : M.Par n m) {os : List (M.Row m)} {t : ℕ} (ht : t < os.length) (hb : os[t].HasNaN bad)
    {out : List (M.V n × M.A n n)}
    (ho : M.filter p os = .ok out ∨ SMachine.cholFilter p os = .ok out ∨
      ∃ store, SMachine.bierFilter store p os = .ok out) :
    out.length = os.length ∧
    ∀ s, t ≤ s → (hs : s < out.length) → ∀ i, bad (out[s].1 i) := by
  rcases ho with ho | ho | ⟨store, ho⟩
  · obtain ⟨l, hl, rfl⟩ := Machine.filter_ok ho
    refine ⟨by rw [List.length_map]; exact loop_length hl, fun s hts hs => ?_⟩
    simp only [List.length_map] at hs
    simp only [List.getElem_map]
    exact NaN.full_bad h.base hn hl ht hb hts hs
  · rw [SMachine.cholFilter] at ho
    obtain ⟨l, hl, ho⟩ := ok_bind_iff.mp ho
    cases ho
    refine ⟨by rw [List.length_map]; exact cholRows_length hl, fun s hts hs => ?_⟩
    simp only [List.length_map] at hs
    simp only [List.getElem_map]
    exact h.cholRows_bad hn hl ht hb hts hs
  · rw [SMachine.bierFilter] at ho
    obtain ⟨l, hl, ho⟩ := ok_bind_iff.mp ho
    cases ho
    refine ⟨by rw [List.length_map]; exact bierRows_length hl, fun s hts hs => ?_⟩
    simp only [List.length_map] at hs
    simp only [List.getElem_map]
    exact h.bierRows_bad hn hl ht hb hts hs

/-- **C102.** `smooth` of the three linear classes: all components of all means are `nan`, at every
time (if the call returns). -/
theorem C102_smooth {M : SMachine} {bad : M.F → Prop} (h : M.Spread bad) (hn : 0 < n)
    (p : M.Par n m) {os : List (M.Row m)} {t : ℕ} (ht : t < os.length) (hb : os[t].HasNaN bad)
    {out : List (M.V n × M.A n n)}
    (ho : M.smooth p os = .ok out ∨ SMachine.cholSmooth p os = .ok out ∨
      ∃ store, SMachine.bierSmooth store p os = .ok out) :
    out.length = os.length ∧ ∀ r ∈ out, ∀ i, bad (r.1 i) := by
  have key : ∀ (l : List (M.St n m)) (sm : List (M.toMachine.SSt n)), l.length = os.length →
      (∀ s, t ≤ s → (hs : s < l.length) → AllBad bad l[s].filtMean) →
      M.smoothFull p.A l = .ok sm →
      (sm.map fun s => (s.mean, s.cov)).length = os.length ∧
        ∀ r ∈ sm.map fun s => (s.mean, s.cov), ∀ i, bad (r.1 i) := by
    intro l sm hlen hl hsm
    refine ⟨by rw [List.length_map, smoothFull_length hsm, hlen], fun r hr => ?_⟩
    obtain ⟨s, hs, rfl⟩ := List.mem_map.mp hr
    exact NaN.smoothFull_bad h.base hn hsm
      (getLast?_bad (P := fun x => AllBad bad x.filtMean) (by omega : t < l.length) hl) s hs
  rcases ho with ho | ho | ⟨store, ho⟩
  · rw [Machine.smooth] at ho
    obtain ⟨l, hl, ho⟩ := ok_bind_iff.mp ho
    obtain ⟨sm, hsm, ho⟩ := ok_bind_iff.mp ho
    cases ho
    exact key l sm (loop_length hl) (fun s hts hs => NaN.full_bad h.base hn hl ht hb hts hs) hsm
  · rw [SMachine.cholSmooth] at ho
    obtain ⟨l, hl, ho⟩ := ok_bind_iff.mp ho
    obtain ⟨sm, hsm, ho⟩ := ok_bind_iff.mp ho
    cases ho
    exact key l sm (cholRows_length hl) (fun s hts hs => h.cholRows_bad hn hl ht hb hts hs) hsm
  · rw [SMachine.bierSmooth] at ho
    obtain ⟨l, hl, ho⟩ := ok_bind_iff.mp ho
    obtain ⟨sm, hsm, ho⟩ := ok_bind_iff.mp ho
    cases ho
    exact key l sm (bierRows_length hl) (fun s hts hs => h.bierRows_bad hn hl ht hb hts hs) hsm

/-- **C102.** `filter_update` of the three linear classes: an observation with `nan` makes all
components of the mean `nan`, and a mean of `nan`s stays one, whatever is observed (or nothing). -/
theorem C102_update {M : SMachine} {bad : M.F → Prop} (h : M.Spread bad) (hn : 0 < n)
    (p : M.Par n m) {mean : M.V n} {cov : M.A n n} {observation : Option (M.Row m)}
    {a : M.toMachine.Args n m} {r : M.V n × M.A n n}
    (hb : (∃ o, observation = some o ∧ o.HasNaN bad) ∨ ∀ i, bad (mean i))
    (hr : M.update p mean cov observation a = .ok r ∨
      SMachine.cholUpdate p mean cov observation a = .ok r ∨
      ∃ store, SMachine.bierUpdate store p mean cov observation a = .ok r) : ∀ i, bad (r.1 i) := by
  rcases hr with hr | hr | ⟨store, hr⟩
  · simp only [Machine.update] at hr
    obtain ⟨b, -, hr⟩ := ok_bind_iff.mp hr
    obtain ⟨d, -, hr⟩ := ok_bind_iff.mp hr
    obtain ⟨A, -, hr⟩ := ok_bind_iff.mp hr
    obtain ⟨C, -, hr⟩ := ok_bind_iff.mp hr
    obtain ⟨Q, -, hr⟩ := ok_bind_iff.mp hr
    obtain ⟨R, -, hr⟩ := ok_bind_iff.mp hr
    obtain ⟨c, hc, hr⟩ := ok_bind_iff.mp hr
    cases hr
    rcases hb with ⟨o, rfl, hb⟩ | hb
    · exact NaN.correct_bad h.base hc hb
    · exact NaN.correct_mean h.base hc (NaN.predict_mean h.base hn hb)
  · rw [SMachine.cholUpdate] at hr
    obtain ⟨b, -, hr⟩ := ok_bind_iff.mp hr
    obtain ⟨d, -, hr⟩ := ok_bind_iff.mp hr
    obtain ⟨A, -, hr⟩ := ok_bind_iff.mp hr
    obtain ⟨C, -, hr⟩ := ok_bind_iff.mp hr
    obtain ⟨Q, -, hr⟩ := ok_bind_iff.mp hr
    obtain ⟨R, -, hr⟩ := ok_bind_iff.mp hr
    obtain ⟨Q2, -, hr⟩ := ok_bind_iff.mp hr
    obtain ⟨R2, -, hr⟩ := ok_bind_iff.mp hr
    obtain ⟨S2, -, hr⟩ := ok_bind_iff.mp hr
    obtain ⟨pred, hp, hr⟩ := ok_bind_iff.mp hr
    obtain ⟨c, hc, hr⟩ := ok_bind_iff.mp hr
    cases hr
    show AllBad bad c.1
    refine h.cholCorrect_bad hc ?_
    rcases hb with ⟨o, rfl, hb⟩ | hb
    · exact .inl hb
    · refine .inr ?_
      rw [SMachine.cholPredict] at hp
      obtain ⟨q, -, hp⟩ := ok_bind_iff.mp hp
      cases hp
      exact fun i => h.add_left _ (h.dotV_right A (hb ⟨0, hn⟩) i)
  · rw [SMachine.bierUpdate] at hr
    obtain ⟨b, -, hr⟩ := ok_bind_iff.mp hr
    obtain ⟨d, -, hr⟩ := ok_bind_iff.mp hr
    obtain ⟨A, -, hr⟩ := ok_bind_iff.mp hr
    obtain ⟨C, -, hr⟩ := ok_bind_iff.mp hr
    obtain ⟨Q, -, hr⟩ := ok_bind_iff.mp hr
    obtain ⟨R, -, hr⟩ := ok_bind_iff.mp hr
    obtain ⟨S, -, hr⟩ := ok_bind_iff.mp hr
    obtain ⟨R2, -, hr⟩ := ok_bind_iff.mp hr
    obtain ⟨inv, -, hr⟩ := ok_bind_iff.mp hr
    obtain ⟨pred, hp, hr⟩ := ok_bind_iff.mp hr
    cases hr
    refine h.bierCorrect_bad ?_
    rcases hb with ⟨o, rfl, hu, j, hb⟩ | hb
    · exact .inl ⟨hu, j, h.dotV_right inv hb j⟩
    · refine .inr ?_
      rw [SMachine.bierPredict] at hp
      obtain ⟨q, -, hp⟩ := ok_bind_iff.mp hp
      cases hp
      exact fun i => h.add_left _ (h.dotV_right A (hb ⟨0, hn⟩) i)

/-! ### `em` -/

/-- **C102.** `em` of the three linear classes with at least one iteration: if it returns, every
parameter that was selected and estimated is `nan` in all entries. -/
theorem C102_em_selected {M : SMachine} {bad : M.F → Prop} (h : M.Spread bad) (hn : 0 < n)
    (p : M.Par n m) {os : List (M.Row m)} {t : ℕ} (ht : t < os.length) (hb : os[t].HasNaN bad)
    {nIter : ℕ} (hk : 0 < nIter) {vars : EmVar → Bool} {p' : M.Par n m}
    (he : M.em p os nIter vars = .ok p' ∨ SMachine.cholEm p os nIter vars = .ok p' ∨
      ∃ store, SMachine.bierEm store p os nIter vars = .ok p') :
    p'.SelectedNaN bad vars os.length := by
  obtain ⟨k, rfl⟩ := Nat.exists_eq_succ_of_ne_zero hk.ne'
  rcases he with he | he | ⟨store, he⟩
  · obtain ⟨q, hq⟩ := emLoop_last he
    exact NaN.em_iter h.base hn ht hb hq
  · obtain ⟨q, hq⟩ := cholEmLoop_last he
    exact h.chol_iter hn ht hb hq
  · obtain ⟨store', q, hq⟩ := bierEmLoop_last he
    exact h.bier_iter hn ht hb hq

/-- **C102.** `em` raises when `observation_matrices` are selected, and when `transition_matrices` are
and there are at least two rows. -/
theorem C102_em_matrices {M : SMachine} {bad : M.F → Prop} (h : M.Spread bad) (hn : 0 < n)
    (p : M.Par n m) {os : List (M.Row m)} {t : ℕ} (ht : t < os.length) (hb : os[t].HasNaN bad)
    {nIter : ℕ} (hk : 0 < nIter) {vars : EmVar → Bool}
    (hv : vars .observationMatrices = true ∨
      vars .transitionMatrices = true ∧ 2 ≤ os.length) :
    Raises (M.em p os nIter vars) ∧ Raises (SMachine.cholEm p os nIter vars) ∧
      ∀ store, Raises (SMachine.bierEm store p os nIter vars) := by
  have key : ∀ p' : M.Par n m, ¬ p'.SelectedNaN bad vars os.length := by
    intro p' hp'
    rcases hv with hv | ⟨hv, h2⟩
    · rw [hp'.C] at hv
      cases hv
    · exact absurd (hp'.A hv) (by omega)
  refine ⟨raises_iff.mpr fun p' he => key p' ?_, raises_iff.mpr fun p' he => key p' ?_,
    fun store => raises_iff.mpr fun p' he => key p' ?_⟩
  · exact C102_em_selected h hn p ht hb hk (.inl he)
  · exact C102_em_selected h hn p ht hb hk (.inr (.inl he))
  · exact C102_em_selected h hn p ht hb hk (.inr (.inr ⟨store, he⟩))

/-- **C102.** `em` with two or more iterations raises when a covariance matrix is selected (as by
default), in all three classes. -/
theorem C102_em_raises {M : SMachine} {bad : M.F → Prop} (h : M.NaN bad) (hn : 0 < n) (hm : 0 < m)
    (p : M.Par n m) {os : List (M.Row m)} {t : ℕ} (ht : t < os.length) (hb : os[t].HasNaN bad)
    {nIter : ℕ} (hk : 2 ≤ nIter) {vars : EmVar → Bool}
    (hv : vars .observationCovariance = true ∨ vars .initialStateCovariance = true ∨
      vars .transitionCovariance = true ∧ 2 ≤ os.length) :
    Raises (M.em p os nIter vars) ∧ Raises (SMachine.cholEm p os nIter vars) ∧
      ∀ store, Raises (SMachine.bierEm store p os nIter vars) := by
  obtain ⟨k, rfl⟩ := Nat.exists_eq_add_of_le' hk
  refine ⟨?_, ?_, fun store => ?_⟩
  · cases he : M.em p os 1 vars with
    | ok p1 =>
      have := em_one he
      exact em_two this (NaN.stats_raises h.base hn hm (NaN.em_iter h.base hn ht hb this)
        ⟨_, List.getElem_mem ht, hb.1⟩ hv) k
    | error e =>
      refine raises_iff.mpr fun p' he' => ?_
      rw [Machine.em, Machine.emLoop] at he'
      obtain ⟨ss, hss, he'⟩ := ok_bind_iff.mp he'
      obtain ⟨q, hq, he'⟩ := ok_bind_iff.mp he'
      rw [Machine.em, Machine.emLoop, hss] at he
      simp only [Bind.bind, Except.bind, hq, Machine.emLoop] at he
      cases he
  · cases he : SMachine.cholEm p os 1 vars with
    | ok p1 =>
      have := cholEm_one he
      exact cholEm_two this (h.cholRows_raises hn hm os (h.chol_iter hn ht hb this) hv) k
    | error e =>
      refine raises_iff.mpr fun p' he' => ?_
      rw [SMachine.cholEm, SMachine.cholEmLoop] at he'
      obtain ⟨l, hl, he'⟩ := ok_bind_iff.mp he'
      obtain ⟨ss, hss, he'⟩ := ok_bind_iff.mp he'
      obtain ⟨q, hq, he'⟩ := ok_bind_iff.mp he'
      rw [SMachine.cholEm, SMachine.cholEmLoop, hl] at he
      simp only [Bind.bind, Except.bind, hss, hq, SMachine.cholEmLoop] at he
      cases he
  · cases he : SMachine.bierEm store p os 1 vars with
    | ok p1 =>
      have := bierEm_one he
      refine bierEm_two this (fun store' => h.bierRows_raises hn hm os
        (h.bier_iter hn ht hb this) ?_) k
      exact hv.imp_right (Or.imp_right fun hv => ⟨hv.1, hv.2, hv.2⟩)
    | error e =>
      refine raises_iff.mpr fun p' he' => ?_
      rw [SMachine.bierEm, SMachine.bierEmLoop] at he'
      obtain ⟨l, hl, he'⟩ := ok_bind_iff.mp he'
      obtain ⟨ss, hss, he'⟩ := ok_bind_iff.mp he'
      obtain ⟨q, hq, he'⟩ := ok_bind_iff.mp he'
      rw [SMachine.bierEm, SMachine.bierEmLoop, hl] at he
      simp only [Bind.bind, Except.bind, hss, hq, SMachine.bierEmLoop] at he
      cases he

/-- **C102.** `em` as it is called by default (`em_vars` of the constructor, `n_iter=10`) raises. -/
theorem C102_em_default {M : SMachine} {bad : M.F → Prop} (h : M.NaN bad) (hn : 0 < n) (hm : 0 < m)
    (p : M.Par n m) {os : List (M.Row m)} {t : ℕ} (ht : t < os.length) (hb : os[t].HasNaN bad) :
    Raises (M.em p os 10 defaultVars) ∧ Raises (SMachine.cholEm p os 10 defaultVars) ∧
      ∀ store, Raises (SMachine.bierEm store p os 10 defaultVars) :=
  C102_em_raises h hn hm p ht hb (by omega) (.inl rfl)

/-- **C102.** An `em` that raised because of `nan` destroys the object: if one iteration returns, then
with any number of iterations the object afterwards has the parameters of that iteration, with a
noise covariance of `nan`s, and from then on `filter` raises on every data with a row that is used. -/
theorem C102_em_destroys {M : SMachine} {bad : M.F → Prop} (h : M.NaN bad) (hn : 0 < n) (hm : 0 < m)
    (p : M.Par n m) {os : List (M.Row m)} {t : ℕ} (ht : t < os.length) (hb : os[t].HasNaN bad)
    {vars : EmVar → Bool} (hv : vars .observationCovariance = true) {p1 : M.Par n m} (k : ℕ) :
    (M.em p os 1 vars = .ok p1 →
      M.emStored p os (k + 1) vars = p1 ∧ (∃ R, p1.R = .const R ∧ ∀ i j, bad (R i j)) ∧
      ∀ os' : List (M.Row m), (∃ o ∈ os', o.Used) → Raises (M.filter p1 os')) ∧
    (SMachine.cholEm p os 1 vars = .ok p1 →
      M.cholEmStored p os (k + 1) vars = p1 ∧ (∃ R, p1.R = .const R ∧ ∀ i j, bad (R i j)) ∧
      ∀ os' : List (M.Row m), Raises (SMachine.cholFilter p1 os')) ∧
    ∀ store, SMachine.bierEm store p os 1 vars = .ok p1 →
      M.bierEmStored store p os (k + 1) vars = p1 ∧
      (∃ R, p1.R = .const R ∧ ∀ i j, bad (R i j)) ∧
      ∀ store' (os' : List (M.Row m)), Raises (SMachine.bierFilter store' p1 os') := by
  refine ⟨fun he => ?_, fun he => ?_, fun store he => ?_⟩
  · have h1 := em_one he
    have hp := NaN.em_iter h.base hn ht hb h1
    refine ⟨?_, hp.R hv, fun os' ho => ?_⟩
    · exact storedBy_second h1 (Raises.bind (NaN.stats_raises h.base hn hm hp
        ⟨_, List.getElem_mem ht, hb.1⟩ (.inl hv)) _) k
    · obtain ⟨R, hR, hRb⟩ := hp.R hv
      rw [Machine.filter]
      exact Raises.bind (NaN.full_raises_noise h.base hm hR hRb ho) _
  · have h1 := cholEm_one he
    have hp := h.chol_iter hn ht hb h1
    refine ⟨?_, hp.R hv, fun os' => ?_⟩
    · exact storedBy_second h1 (Raises.bind (Raises.bind
        (h.cholRows_raises hn hm os hp (.inl hv)) _) _) k
    · rw [SMachine.cholFilter]
      exact Raises.bind (h.cholRows_raises hn hm os' hp (.inl hv)) _
  · have h1 := bierEm_one he
    have hp := h.bier_iter hn ht hb h1
    refine ⟨?_, hp.R hv, fun store' os' => ?_⟩
    · rw [SMachine.bierEmStored]
      refine congrArg Prod.snd (storedBy_second (p1 := (if vars .initialStateCovariance then id
        else store, p1)) ?_ ?_ k)
      · obtain ⟨ss, hss, h1⟩ := ok_bind_iff.mp h1
        exact ok_bind_iff.mpr ⟨ss, hss, ok_bind_iff.mpr ⟨p1, h1, rfl⟩⟩
      · exact Raises.bind (Raises.bind (h.bierRows_raises hn hm os hp (.inl hv)) _) _
    · rw [SMachine.bierFilter]
      exact Raises.bind (h.bierRows_raises hn hm os' hp (.inl hv)) _

/-! ### The unscented classes -/

/-- **C102.** The two classes with additive noise: if the transition functions do not hide `nan`, then
`nan` in a used row other than the last makes `filter` and `smooth` raise. -/
theorem C102_additive_raises {M : SMachine} {bad : M.F → Prop} (h : M.Spread bad)
    (p : M.UPar n m) (hf : ∀ t f, p.f.at t = .ok f →
      ShowsNaN (M := M.toMachine) (α := Unit) bad fun x _ => f x)
    {os : List (M.Row m)} {t : ℕ} (ht : t + 1 < os.length)
    (hb : os[t].HasNaN bad) :
    Raises (UMachine.aukfFilter p os) ∧ Raises (UMachine.aukfSmooth p os) ∧ Raises (SMachine.sqFilter p os) ∧
      Raises (SMachine.sqSmooth p os) := by
  have hf' : ∀ t f, p.f.at t = .ok f → ∀ x y, (∀ i, bad (x i)) → f x = .ok y → ∃ i, bad (y i) :=
    fun t f e x y hx hy => hf t f e x () y hx hy
  have h1 : Raises (UMachine.aukfFilter p os) := by
    rw [UMachine.aukfFilter]
    exact run_stops (step := UMachine.aukfStep p) (P := fun s : M.Mom n => AllBad bad s.mean)
      (B := Row.HasNaN bad) (fun _ _ _ _ => NaN.aukfStep_bad h.base)
      (fun _ _ _ hs => NaN.aukfStep_raises h.ubase hf' hs) ht hb
  have h2 : Raises (SMachine.sqFull p os) := by
    rw [SMachine.sqFull]
    refine raises_bind fun Q2 _ => raises_bind fun R2 _ => ?_
    exact run_stops (step := SMachine.sqStep p Q2 R2) (P := fun s : M.Mom n => AllBad bad s.mean)
      (B := Row.HasNaN bad) (fun _ _ _ _ => h.sqStep_bad) (fun _ _ _ hs => h.sqStep_raises hf' hs) ht hb
  exact ⟨h1, h1.bind _, h2.bind _, h2.bind _⟩

/-- **C102.** Whatever the functions are: if `filter` returns, the means of the rows with `nan` are
`nan`, in all three unscented classes. -/
theorem C102_unscented_row {M : SMachine} {bad : M.F → Prop} (h : M.Spread bad)
    {os : List (M.Row m)} {t : ℕ} (ht : t < os.length) (hb : os[t].HasNaN bad)
    {out : List (M.Mom n)}
    (ho : (∃ p : M.UPar n m, UMachine.aukfFilter p os = .ok out ∨ SMachine.sqFilter p os = .ok out) ∨
      ∃ p : M.GPar n m, UMachine.ukfFilter p os = .ok out) :
    ∃ ht' : t < out.length, ∀ i, bad (out[t].mean i) := by
  have key : ∀ {step : ℕ → Option (M.Mom n) → M.Row m → Res (M.Mom n)} {l : List (M.Mom n)},
      (∀ t prev o s, step t prev o = .ok s → o.HasNaN bad → AllBad bad s.mean) →
      UMachine.run step 0 none os = .ok l → ∃ ht' : t < l.length, AllBad bad l[t].mean := by
    intro step l hstep hl
    have hlen := run_length hl
    refine ⟨by omega, ?_⟩
    have : ∀ (os : List (M.Row m)) (k : ℕ) (prev : Option (M.Mom n)) (l : List (M.Mom n)) (t : ℕ)
        (ht : t < os.length) (ht' : t < l.length), UMachine.run step k prev os = .ok l →
        os[t].HasNaN bad → AllBad bad l[t].mean := by
      intro os
      induction os with
      | nil => intro k prev l t ht; simp at ht
      | cons o os ih =>
        intro k prev l t ht ht' hl hb
        rw [UMachine.run] at hl
        obtain ⟨s, hs, hl⟩ := ok_bind_iff.mp hl
        obtain ⟨r, hr, hl⟩ := ok_bind_iff.mp hl
        cases hl
        cases t with
        | zero => exact hstep _ _ _ _ hs (by simpa using hb)
        | succ t =>
          simp only [List.getElem_cons_succ]
          exact ih _ _ _ t (by simpa using ht) (by simpa using ht') hr (by simpa using hb)
    exact this os 0 none l t ht (by omega) hl hb
  rcases ho with ⟨p, ho | ho⟩ | ⟨p, ho⟩
  · exact key (fun _ _ _ _ => NaN.aukfStep_bad h.base) ho
  · rw [SMachine.sqFilter, SMachine.sqFull] at ho
    obtain ⟨l, hl, ho⟩ := ok_bind_iff.mp ho
    obtain ⟨Q2, -, hl⟩ := ok_bind_iff.mp hl
    obtain ⟨R2, -, hl⟩ := ok_bind_iff.mp hl
    cases ho
    obtain ⟨h1, h2⟩ := key (fun _ _ _ _ => h.sqStep_bad) hl
    exact ⟨by simpa using h1, fun i => by simpa [SMachine.unroot] using h2 i⟩
  · exact key (fun _ _ _ _ => NaN.ukfStep_bad h.base) ho

/-- **C102.** `nan` in the last row (used): if `smooth` returns, all components of all means are `nan`,
in all three unscented classes and whatever the functions are. -/
theorem C102_unscented_smooth {M : SMachine} {bad : M.F → Prop} (h : M.Spread bad) (hn : 0 < n)
    {os : List (M.Row m)} {o : M.Row m} (hb : o.HasNaN bad) {out : List (M.Mom n)}
    (ho : (∃ p : M.UPar n m, UMachine.aukfSmooth p (os ++ [o]) = .ok out ∨
        SMachine.sqSmooth p (os ++ [o]) = .ok out) ∨
      ∃ p : M.GPar n m, UMachine.ukfSmooth p (os ++ [o]) = .ok out) :
    ∀ s ∈ out, ∀ i, bad (s.mean i) := by
  have hlt : os.length < (os ++ [o]).length := by simp
  have hbo : (os ++ [o])[os.length].HasNaN bad := by simpa using hb
  have key : ∀ l : List (M.Mom n), l.length = os.length + 1 →
      (∃ ht : os.length < l.length, ∀ i, bad (l[os.length].mean i)) →
      ∀ x, l.getLast? = some x → AllBad bad x.mean := by
    rintro l hl ⟨h1, h2⟩ x hx
    rw [List.getLast?_eq_getElem?, hl, Nat.add_sub_cancel, List.getElem?_eq_getElem h1] at hx
    cases hx
    exact h2
  rcases ho with ⟨p, ho | ho⟩ | ⟨p, ho⟩
  · rw [UMachine.aukfSmooth] at ho
    obtain ⟨l, hl, ho⟩ := ok_bind_iff.mp ho
    refine backFull_always (P := fun s : M.Mom n => AllBad bad s.mean) ?_ ho
      (key l (by simpa using run_length hl) (C102_unscented_row h hlt hbo (.inl ⟨p, .inl hl⟩)))
    intro t s next r hr hx
    rw [UMachine.aukfSmoothStep] at hr
    obtain ⟨pts, -, hr⟩ := ok_bind_iff.mp hr
    obtain ⟨f, -, hr⟩ := ok_bind_iff.mp hr
    obtain ⟨q, -, hr⟩ := ok_bind_iff.mp hr
    exact NaN.ufSmooth_bad h.base hn hr hx
  · rw [SMachine.sqSmooth] at ho
    obtain ⟨l, hl, ho⟩ := ok_bind_iff.mp ho
    obtain ⟨Q2, -, ho⟩ := ok_bind_iff.mp ho
    obtain ⟨l', hl', ho⟩ := ok_bind_iff.mp ho
    cases ho
    have hrow := C102_unscented_row h (n := n) hlt hbo (.inl ⟨p, .inr (show SMachine.sqFilter p _ =
      .ok (l.map SMachine.unroot) by rw [SMachine.sqFilter, hl]; rfl)⟩)
    have hlen : l.length = os.length + 1 := by
      rw [SMachine.sqFull] at hl
      obtain ⟨Q2, -, hl⟩ := ok_bind_iff.mp hl
      obtain ⟨R2, -, hl⟩ := ok_bind_iff.mp hl
      simpa using run_length hl
    have hall := backFull_always (P := fun s : M.Mom n => AllBad bad s.mean)
      (fun t s next r hr hx => h.sqSmoothStep_bad hn hr hx) hl' (key l hlen ?_)
    · intro s hs
      obtain ⟨x, hx, rfl⟩ := List.mem_map.mp hs
      exact hall x hx
    · obtain ⟨h1, h2⟩ := hrow
      exact ⟨by omega, by simpa [SMachine.unroot] using h2⟩
  · rw [UMachine.ukfSmooth] at ho
    obtain ⟨l, hl, ho⟩ := ok_bind_iff.mp ho
    refine backFull_always (P := fun s : M.Mom n => AllBad bad s.mean) ?_ ho
      (key l (by simpa using run_length hl) (C102_unscented_row h hlt hbo (.inr ⟨p, hl⟩)))
    intro t s next r hr hx
    rw [UMachine.ukfSmoothStep] at hr
    obtain ⟨pts, -, hr⟩ := ok_bind_iff.mp hr
    obtain ⟨f, -, hr⟩ := ok_bind_iff.mp hr
    obtain ⟨q, -, hr⟩ := ok_bind_iff.mp hr
    exact NaN.ufSmooth_bad h.base hn hr hx

/-- **C102.** `UnscentedKalmanFilter`: if the transition functions do not hide `nan`, then `nan` in a
used row that is followed by at least two makes `filter` and `smooth` raise. -/
theorem C102_general_raises {M : SMachine} {bad : M.F → Prop} (h : M.Spread bad)
    (p : M.GPar n m) (hf : ∀ t f, p.f.at t = .ok f → ShowsNaN (M := M.toMachine) bad f)
    {os : List (M.Row m)} {t : ℕ} (ht : t + 2 < os.length) (hb : os[t].HasNaN bad) :
    Raises (UMachine.ukfFilter p os) ∧ Raises (UMachine.ukfSmooth p os) := by
  have h1 : Raises (UMachine.ukfFilter p os) := by
    rw [UMachine.ukfFilter]
    exact run_stops₂ (step := UMachine.ukfStep p) (P := fun s : M.Mom n => AllBad bad s.mean)
      (P' := fun s : M.Mom n => ∃ c, bad (s.cov c c)) (B := Row.HasNaN bad)
      (fun _ _ _ _ => NaN.ukfStep_bad h.base)
      (fun _ _ _ _ hs hx => NaN.ukfStep_cov h.base hf hs hx)
      (fun _ _ _ hx => NaN.ukfStep_raises h.ubase hx) ht hb
  exact ⟨h1, h1.bind _⟩

/-- **C102.** `filter_update` of the unscented classes from a mean of `nan`s: the classes with additive
noise raise; `UnscentedKalmanFilter` returns a covariance with `nan` if it returns, and raises when
called with that. -/
theorem C102_unscented_update {M : SMachine} {bad : M.F → Prop} (h : M.NaN bad)
    {x : M.Mom n} (observation : Option (M.Row m)) :
    ((∀ i, bad (x.mean i)) → ∀ (p : M.UPar n m) (a : M.UArgs n m),
      (∀ f, defaultFunction a.f p.f = .ok f →
        ShowsNaN (M := M.toMachine) (α := Unit) bad fun x _ => f x) →
      Raises (UMachine.aukfUpdate p x observation a) ∧ Raises (SMachine.sqUpdate p x observation a)) ∧
    ((∀ i, bad (x.mean i)) → ∀ (p : M.GPar n m) (a : M.GArgs n m),
      (∀ f, defaultFunction a.f p.f = .ok f → ShowsNaN (M := M.toMachine) bad f) →
      ∀ r, UMachine.ukfUpdate p x observation a = .ok r → ∃ c, bad (r.cov c c)) ∧
    ((∃ c, bad (x.cov c c)) → ∀ (p : M.GPar n m) (a : M.GArgs n m),
      Raises (UMachine.ukfUpdate p x observation a)) := by
  refine ⟨fun hx p a hf => ⟨?_, ?_⟩, fun hx p a hf r hr => ?_, fun hx p a => ?_⟩
  · rw [UMachine.aukfUpdate]
    refine raises_bind fun f hf' => raises_bind fun g _ => raises_bind fun pts hpts =>
      raises_bind fun q hq => ?_
    exact Raises.bind (NaN.aukf_predict_raises h.ubase hx
      (fun x y hx hy => hf f hf' x () y hx hy) hpts hq _) _
  · rw [SMachine.sqUpdate]
    refine raises_bind fun f hf' => raises_bind fun g _ => raises_bind fun P2 _ =>
      raises_bind fun Q2 _ => raises_bind fun R2 _ => raises_bind fun q hq => ?_
    exact Raises.bind (h.sq_predict_raises (x := ⟨x.mean, P2⟩) hx
      (fun x y hx hy => hf f hf' x () y hx hy) hq _) _
  · rw [UMachine.ukfUpdate] at hr
    obtain ⟨f, hf', hr⟩ := ok_bind_iff.mp hr
    obtain ⟨g, -, hr⟩ := ok_bind_iff.mp hr
    obtain ⟨pts, hpts, hr⟩ := ok_bind_iff.mp hr
    obtain ⟨q, hq, hr⟩ := ok_bind_iff.mp hr
    rw [UMachine.ufCorrect₂] at hr
    obtain ⟨q', -, hr⟩ := ok_bind_iff.mp hr
    obtain ⟨c, hc⟩ := hf f hf' _ _ _ (NaN.augFilterPoints_left h.base hpts hx 0)
      (through₂_ok hq 0)
    exact ⟨c, NaN.correct_cov h.base hr (NaN.points2moments_bad h.base hc none)⟩
  · obtain ⟨c, hc⟩ := hx
    rw [UMachine.ukfUpdate]
    refine raises_bind fun f _ => raises_bind fun g _ => ?_
    exact Raises.bind (NaN.augFilterPoints_raises h.ubase hc) _

/-! ### The assumptions and the hypotheses can be met -/

/-- Every number of an array is a number. -/
def allNumbers {α : Type} {k l : ℕ} (X : Fin k → Fin l → Option α) : Bool :=
  (List.finRange k).all fun i => (List.finRange l).all fun j => (X i j).isSome

theorem allNumbers_false {α : Type} {k l : ℕ} {X : Fin k → Fin l → Option α} {i : Fin k} {j : Fin l}
    (h : X i j = none) : allNumbers X = false := by
  by_contra hc
  rw [Bool.not_eq_false, allNumbers, List.all_eq_true] at hc
  have := List.all_eq_true.mp (hc i (List.mem_finRange i)) j (List.mem_finRange j)
  rw [h] at this
  cases this

/-- An operation on numbers, `nan` if one of them is. -/
def nanOp {α : Type} (f : α → α → α) : Option α → Option α → Option α
  | some x, some y => some (f x y)
  | _, _ => none

/-- A routine that raises `ValueError` if an entry is `nan`. -/
def nanRoutine {α : Type} {k l r s : ℕ} (zero : α)
    (f : (Fin k → Fin l → α) → Res (Fin r → Fin s → α)) (X : Fin k → Fin l → Option α) :
    Res (Fin r → Fin s → Option α) :=
  if allNumbers X then
    match f fun i j => (X i j).getD zero with
    | .ok Y => .ok fun i j => some (Y i j)
    | .error e => .error e
  else .error .valueError

theorem nanRoutine_error {α : Type} {k l r s : ℕ} (zero : α)
    (f : (Fin k → Fin l → α) → Res (Fin r → Fin s → α)) {X : Fin k → Fin l → Option α} {i : Fin k}
    {j : Fin l} (h : X i j = none) : nanRoutine zero f X = .error .valueError := by
  rw [nanRoutine, allNumbers_false h]
  rfl

/-- `np.dot` of a row and a column: `nan` if one of the entries is. -/
def nanDot {α : Type} {l : ℕ} (x y : Fin l → Option α) (v : α) : Option α :=
  if allNumbers fun (_ : Fin 1) j => x j then
    if allNumbers fun (_ : Fin 1) j => y j then some v else none
  else none

theorem nanDot_left {α : Type} {l : ℕ} {x : Fin l → Option α} (y : Fin l → Option α) (v : α)
    {j : Fin l} (h : x j = none) : nanDot x y v = none := by
  rw [nanDot, allNumbers_false (i := (0 : Fin 1)) (j := j) h]
  rfl

theorem nanDot_right {α : Type} {l : ℕ} (x : Fin l → Option α) {y : Fin l → Option α} (v : α)
    {j : Fin l} (h : y j = none) : nanDot x y v = none := by
  rw [nanDot, allNumbers_false (X := fun (_ : Fin 1) j => y j) (i := (0 : Fin 1)) (j := j) h]
  split <;> rfl

/-- Any machine, with one more number, `nan`. -/
def adjoinNaN (M : SMachine) : SMachine where
  F := Option M.F
  zero := some M.zero
  one := some M.one
  count k := some (M.count k)
  add := nanOp M.add
  sub := nanOp M.sub
  mul := nanOp M.mul
  div := nanOp M.div
  dotV k l X v := fun i =>
    nanDot (X i) v (M.dotV k l (fun i j => (X i j).getD M.zero) (fun j => (v j).getD M.zero) i)
  dotM k l r X Y := fun i c =>
    nanDot (X i) (fun j => Y j c) (M.dotM k l r (fun i j => (X i j).getD M.zero)
      (fun j c => (Y j c).getD M.zero) i c)
  pinv k X := nanRoutine M.zero (M.pinv k) X
  logpdf _ _ _ _ := .ok none
  sum _ := none
  three := some M.three
  half := some M.half
  sqrt x := x.map M.sqrt
  chol k X := nanRoutine M.zero (M.chol k) X
  cholL k X := nanRoutine M.zero (M.cholL k) X
  qr k l X := nanRoutine M.zero (M.qr k l) X
  lstsq a b c X Y :=
    if allNumbers X then
      nanRoutine M.zero (M.lstsq a b c fun i j => (X i j).getD M.zero) Y
    else .error .valueError
  dotVM k l v X := fun j =>
    nanDot v (fun i => X i j) (M.dotVM k l (fun i => (v i).getD M.zero)
      (fun i j => (X i j).getD M.zero) j)
  dot k x y := nanDot x y (M.dot k (fun i => (x i).getD M.zero) (fun i => (y i).getD M.zero))
  allClose k X := allNumbers X && M.allClose k fun i j => (X i j).getD M.zero
  positive x := x.elim false M.positive
  negative x := x.elim false M.negative
  square x := x.map M.square
  abs x := x.map M.abs
  sign x := x.map M.sign
  minusOne := some M.minusOne

/-- The assumptions on `nan` can be met with any arithmetic. -/
theorem adjoinNaN_nan (M : SMachine) : (adjoinNaN M).NaN (fun x : Option M.F => x = none) where
  add_left y h := by subst h; rfl
  add_right x y h := by subst h; cases x <;> rfl
  sub_left y h := by subst h; rfl
  sub_right x y h := by subst h; cases x <;> rfl
  mul_left y h := by subst h; rfl
  mul_right x y h := by subst h; cases x <;> rfl
  dotV_right _ _ _ h _ := nanDot_right _ _ h
  dotV_left _ _ _ h := nanDot_left _ _ h
  dotM_left _ _ _ h _ := nanDot_left _ _ h
  dotM_right _ _ _ _ h _ := nanDot_right _ (y := fun j => _) _ h
  pinv h := nanRoutine_error _ _ h
  chol h := nanRoutine_error _ _ h
  cholL h := nanRoutine_error _ _ h
  qr h := nanRoutine_error _ _ h
  allClose h := by
    show (_ && _) = _
    rw [allNumbers_false h]
    rfl

/-- One state and one sensor, all matrices one, on the machine `edge` with `nan`. -/
def exNaNEdge : (adjoinNaN edge).Par 1 1 :=
  ⟨.const fun _ _ => some (1 : ℤ), .const fun _ => some (0 : ℤ), .const fun _ _ => some (1 : ℤ),
    .const fun _ _ => some (1 : ℤ), .const fun _ => some (0 : ℤ), .const fun _ _ => some (1 : ℤ),
    fun _ => some (0 : ℤ), fun _ _ => some (1 : ℤ)⟩

/-- Four rows, none masked; the second is `nan`. -/
def exNaNRows : List ((adjoinNaN edge).Row 1) :=
  [⟨fun _ => some (5 : ℤ), fun _ => false⟩, ⟨fun _ => none, fun _ => false⟩,
    ⟨fun _ => some (5 : ℤ), fun _ => false⟩, ⟨fun _ => some (5 : ℤ), fun _ => false⟩]

/-- The row with `nan` is used and has `nan`. -/
theorem exNaNRows_hasNaN :
    exNaNRows[1].HasNaN (M := (adjoinNaN edge).toMachine) (fun x : Option ℤ => x = none) :=
  ⟨fun _ => rfl, 0, rfl⟩

/-- The hypotheses of `C102_filter`, `C102_smooth` and `C102_em_destroys`: the calls return, and the
first filtered mean is not `nan`. -/
example : (∃ out, (adjoinNaN edge).filter exNaNEdge exNaNRows = .ok out ∧
      (out.map fun r => (r.1 0 : Option ℤ).isSome) = [true, false, false, false]) ∧
    (∃ out, SMachine.cholFilter exNaNEdge exNaNRows = .ok out) ∧
    (∃ out, SMachine.bierFilter id exNaNEdge exNaNRows = .ok out) ∧
    (∃ out, (adjoinNaN edge).smooth exNaNEdge exNaNRows = .ok out) ∧
    (∃ out, SMachine.cholSmooth exNaNEdge exNaNRows = .ok out) ∧
    (∃ out, SMachine.bierSmooth id exNaNEdge exNaNRows = .ok out) ∧
    (∃ p1, (adjoinNaN edge).em exNaNEdge exNaNRows 1 defaultVars = .ok p1) ∧
    (∃ p1, SMachine.cholEm exNaNEdge exNaNRows 1 defaultVars = .ok p1) ∧
    ∃ p1, SMachine.bierEm id exNaNEdge exNaNRows 1 defaultVars = .ok p1 :=
  ⟨⟨_, rfl, rfl⟩, ⟨_, rfl⟩, ⟨_, rfl⟩, ⟨_, rfl⟩, ⟨_, rfl⟩, ⟨_, rfl⟩, ⟨_, rfl⟩, ⟨_, rfl⟩, ⟨_, rfl⟩⟩

/-- Those of `C102_update`. -/
example : ∃ r, (adjoinNaN edge).update exNaNEdge (fun _ => some (0 : ℤ)) (fun _ _ => some (1 : ℤ))
    (some exNaNRows[1]) {} = .ok r := ⟨_, rfl⟩

/-- An additive model with functions that do not hide `nan` (`1 + x` and `x`). -/
def exUNaN : (adjoinNaN edge).UPar 1 1 :=
  ⟨.flat [fun x => .ok fun _ => (adjoinNaN edge).add (adjoinNaN edge).one (x 0)], .flat [fun x => .ok x],
    fun _ _ => some (1 : ℤ), fun _ _ => some (1 : ℤ), fun _ => some (2 : ℤ),
    fun _ _ => some (1 : ℤ)⟩

/-- The same with general noise. -/
def exGNaN : (adjoinNaN edge).GPar 1 1 :=
  ⟨.flat [fun x w => .ok fun _ => (adjoinNaN edge).add (x 0) (w 0)],
    .flat [fun x w => .ok fun _ => (adjoinNaN edge).add (x 0) (w 0)],
    fun _ _ => some (1 : ℤ), fun _ _ => some (1 : ℤ), fun _ => some (2 : ℤ),
    fun _ _ => some (1 : ℤ)⟩

/-- The hypotheses of `C102_additive_raises` and `C102_general_raises`. -/
example : (∀ t f, exUNaN.f.at t = .ok f → ShowsNaN (M := (adjoinNaN edge).toMachine) (α := Unit)
      (fun x : Option ℤ => x = none) fun x _ => f x) ∧
    (∀ t f, exGNaN.f.at t = .ok f → ShowsNaN (M := (adjoinNaN edge).toMachine)
      (fun x : Option ℤ => x = none) f) ∧ 1 + 2 < exNaNRows.length := by
  refine ⟨fun t f hf => ?_, fun t f hf => ?_, by decide⟩
  · cases hf
    intro x w y hx hy
    cases hy
    exact ⟨0, (adjoinNaN_nan edge).add_right _ (hx 0)⟩
  · cases hf
    intro x w y hx hy
    cases hy
    exact ⟨0, (adjoinNaN_nan edge).add_left _ (hx 0)⟩

/-- Those of `C102_unscented_row` and `C102_unscented_smooth`: with `nan` in the last row the calls
return. -/
example : (∃ out, UMachine.aukfFilter exUNaN (exNaNRows.take 2) = .ok out) ∧
    (∃ out, UMachine.aukfSmooth exUNaN (exNaNRows.take 2) = .ok out) ∧
    (∃ out, UMachine.ukfFilter exGNaN (exNaNRows.take 2) = .ok out) ∧
    (∃ out, UMachine.ukfSmooth exGNaN (exNaNRows.take 2) = .ok out) ∧
    (∃ out, SMachine.sqFilter exUNaN (exNaNRows.take 2) = .ok out) ∧
    (∃ out, SMachine.sqSmooth exUNaN (exNaNRows.take 2) = .ok out) :=
  ⟨⟨_, rfl⟩, ⟨_, rfl⟩, ⟨_, rfl⟩, ⟨_, rfl⟩, ⟨_, rfl⟩, ⟨_, rfl⟩⟩

/-- `UnscentedKalmanFilter` with exactly one row after the one with `nan` may return (a covariance
with `nan`). -/
example : ∃ out, UMachine.ukfFilter exGNaN (exNaNRows.take 1 ++ [exNaNRows[1],
      ⟨fun _ => some (5 : ℤ), fun _ => true⟩]) = .ok out ∧
    (out.map fun r => (r.cov 0 0 : Option ℤ).isSome) = [true, true, false] := ⟨_, rfl, rfl⟩

end Verif
