import Verif.Spec.ParamNaN
import Verif.Proofs.MachineNaNUnscented

/-!
# Lemmas for C107: `nan` in the parameters
-/

namespace Verif

variable {n m k l : ℕ}

theorem TV.AtTime.spec {α : Type} {P : α → Prop} {x : TV α} {t : ℕ} (h : x.AtTime P t) {a : α}
    (ha : lastDims x t = .ok a) : P a := by
  rcases h with ⟨b, rfl, hb⟩ | ⟨l, b, rfl, hl, hb⟩
  · cases ha; exact hb
  · simp only [lastDims, hl] at ha
    cases ha
    exact hb

theorem TV.atTime_iff {α : Type} {P : α → Prop} {x : TV α} {t : ℕ} :
    x.AtTime P t ↔ ∃ a, lastDims x t = .ok a ∧ P a := by
  constructor
  · rintro (⟨a, rfl, h⟩ | ⟨l, a, rfl, hl, h⟩)
    · exact ⟨a, rfl, h⟩
    · exact ⟨a, by simp only [lastDims, hl], h⟩
  · rintro ⟨a, ha, h⟩
    cases x with
    | const b => cases ha; exact .inl ⟨_, rfl, h⟩
    | seq l =>
      cases hl : l[t]? with
      | none => simp only [lastDims, hl] at ha; cases ha
      | some b =>
        simp only [lastDims, hl] at ha
        cases ha
        exact .inr ⟨l, _, rfl, hl, h⟩

theorem InForce.spec {α : Type} {P : α → Prop} {arg : Option α} {own : TV α} (h : InForce P arg own)
    {a : α} (ha : argOrDefault arg own = .ok a) : P a := by
  rcases h with ⟨b, rfl, hb⟩ | ⟨rfl, b, rfl, hb⟩
  · cases ha; exact hb
  · cases ha; exact hb

theorem TV.AgreeWhenUsed.spec {α : Type} {used : Prop} {x y : TV α} {t : ℕ}
    (h : x.AgreeWhenUsed used y t) :
    ∃ a b, lastDims x t = .ok a ∧ lastDims y t = .ok b ∧ (used → a = b) := by
  obtain ⟨a, b, ha, hb, hab⟩ := h
  obtain ⟨a', ha', rfl⟩ := TV.atTime_iff.mp ha
  obtain ⟨b', hb', rfl⟩ := TV.atTime_iff.mp hb
  exact ⟨_, _, ha', hb', hab⟩

theorem run_congr {σ ο : Type} {step step' : ℕ → Option σ → ο → Res σ} {os : List ο} {t : ℕ}
    {prev : Option σ} (h : ∀ i (hi : i < os.length) prev, step (t + i) prev os[i] = step' (t + i) prev os[i]) :
    UMachine.run step t prev os = UMachine.run step' t prev os := by
  induction os generalizing t prev with
  | nil => rfl
  | cons o os ih =>
    have h0 := h 0 (by simp) prev
    simp only [Nat.add_zero, List.getElem_cons_zero] at h0
    rw [UMachine.run, UMachine.run, h0]
    congr 1
    funext s
    rw [ih fun i hi prev => by
      have := h (i + 1) (by simpa using hi) prev
      simpa only [List.getElem_cons_succ, show t + (i + 1) = t + 1 + i from by omega] using this]

/-- The first row cannot be done. -/
theorem run_first_raises {σ ο : Type} {step : ℕ → Option σ → ο → Res σ} {os : List ο} {t : ℕ}
    {prev : Option σ} (hos : os ≠ []) (h : ∀ o, Raises (step t prev o)) :
    Raises (UMachine.run step t prev os) := by
  cases os with
  | nil => exact (hos rfl).elim
  | cons o os => exact Raises.bind (h o) _

/-- The rows of a run, one by one. -/
theorem run_rows {σ ο : Type} {step : ℕ → Option σ → ο → Res σ} {os : List ο} {t : ℕ}
    {prev : Option σ} {l : List σ} (h : UMachine.run step t prev os = .ok l) :
    (∀ (h0 : 0 < os.length) (h0' : 0 < l.length), step t prev os[0] = .ok l[0]) ∧
    ∀ s (hs : s + 1 < os.length) (hs' : s + 1 < l.length),
      step (t + (s + 1)) (some l[s]) os[s + 1] = .ok l[s + 1] := by
  induction os generalizing t prev l with
  | nil => exact ⟨fun h0 => absurd h0 (by simp), fun s hs => absurd hs (by simp)⟩
  | cons o os ih =>
    rw [UMachine.run] at h
    obtain ⟨x, hx, h⟩ := ok_bind_iff.mp h
    obtain ⟨r, hr, h⟩ := ok_bind_iff.mp h
    cases h
    obtain ⟨h1, h2⟩ := ih hr
    refine ⟨fun _ _ => hx, fun s hs hs' => ?_⟩
    cases s with
    | zero =>
      simp only [List.length_cons] at hs hs'
      exact h1 (by omega) (by omega)
    | succ s =>
      simp only [List.length_cons] at hs hs'
      have := h2 s (by omega) (by omega)
      simp only [List.getElem_cons_succ]
      rwa [show t + (s + 1 + 1) = t + 1 + (s + 1) from by omega]

/-- What the filtered rows of each of the three classes have in common: how `nan` goes through the
means. -/
structure MeanFlow {M : Machine} (bad : M.F → Prop) (p : M.Par n m) (os : List (M.Row m))
    (l : List (M.St n m)) : Prop where
  len : l.length = os.length
  init : HasBad bad p.mu0 → ∀ h0 : 0 < l.length, HasBad bad l[0].predMean
  step : ∀ s (hs : s + 1 < l.length), HasBad bad l[s].filtMean → Machine.AllBad bad l[s + 1].predMean
  off : ∀ s (hs : s + 1 < l.length), p.b.AtTime (HasBad bad) s → HasBad bad l[s + 1].predMean
  masked : ∀ s (hs : s < l.length), HasBad bad l[s].predMean → HasBad bad l[s].filtMean
  kept : ∀ s (hs : s < l.length), Machine.AllBad bad l[s].predMean → Machine.AllBad bad l[s].filtMean
  used : ∀ s (hs : s < l.length) (hs' : s < os.length), os[s].Used → HasBad bad l[s].predMean →
    Machine.AllBad bad l[s].filtMean
  obsOff : ∀ s (hs : s < l.length) (hs' : s < os.length), os[s].Used → p.d.AtTime (HasBad bad) s →
    Machine.AllBad bad l[s].filtMean

namespace MeanFlow

variable {M : Machine} {bad : M.F → Prop} {p : M.Par n m} {os : List (M.Row m)} {l : List (M.St n m)}

theorem pred_bad (h : MeanFlow bad p os l) {u : ℕ} (hu : u < l.length)
    (hp : HasBad bad p.mu0 ∨ ∃ t < u, p.b.AtTime (HasBad bad) t) : HasBad bad l[u].predMean := by
  have fwd : ∀ d s (hs : s + d < l.length), HasBad bad (l[s]'(by omega)).predMean →
      HasBad bad l[s + d].predMean := by
    intro d
    induction d with
    | zero => intro s _ hb; exact hb
    | succ d ih =>
      intro s hs hb
      have := h.step (s + d) (by omega) (h.masked _ (by omega) (ih s (by omega) hb))
      obtain ⟨i, -⟩ := hb
      exact ⟨i, this i⟩
  rcases hp with hp | ⟨t, ht, hp⟩
  · have := fwd u 0 (by omega) (h.init hp (by omega))
    simpa using this
  · have := fwd (u - (t + 1)) (t + 1) (by omega) (h.off t (by omega) hp)
    have e : t + 1 + (u - (t + 1)) = u := by omega
    simpa only [e] using this

theorem all_from (h : MeanFlow bad p os l) (hn : 0 < n) {u s : ℕ} (hus : u ≤ s) (hs : s < l.length)
    (hb : Machine.AllBad bad (l[u]'(by omega)).filtMean) : Machine.AllBad bad l[s].filtMean := by
  obtain ⟨d, rfl⟩ := Nat.exists_eq_add_of_le hus
  induction d with
  | zero => exact hb
  | succ d ih =>
    exact h.kept _ hs (h.step (u + d) hs ⟨⟨0, hn⟩, ih (by omega) (by omega) hb _⟩)

theorem all_bad (h : MeanFlow bad p os l) (hn : 0 < n) {u : ℕ} (hu : u < os.length)
    (ho : os[u].Used) (hp : HasBad bad p.mu0 ∨ (∃ t < u, p.b.AtTime (HasBad bad) t) ∨
      p.d.AtTime (HasBad bad) u) {s : ℕ} (hus : u ≤ s) (hs : s < l.length) :
    Machine.AllBad bad l[s].filtMean := by
  refine h.all_from hn hus hs ?_
  have hu' : u < l.length := by omega
  rcases hp with hp | hp | hp
  · exact h.used u hu' hu ho (h.pred_bad hu' (.inl hp))
  · exact h.used u hu' hu ho (h.pred_bad hu' (.inr hp))
  · exact h.obsOff u hu' hu ho hp

end MeanFlow

namespace Machine

variable {M : Machine} {bad : M.F → Prop}

/-- The rows of `_filter`, one by one. -/
theorem full_rows {p : M.Par n m} {os : List (M.Row m)} {l : List (M.St n m)}
    (hl : M.full p os = .ok l) :
    (∀ h0 : 0 < l.length, l[0].predMean = p.mu0 ∧ l[0].predCov = p.S0) ∧
    (∀ s (hs : s + 1 < l.length), ∃ A Q b, lastDims p.A s = .ok A ∧ lastDims p.Q s = .ok Q ∧
      lastDims p.b s = .ok b ∧
      (l[s + 1].predMean, l[s + 1].predCov) = M.predict A Q b l[s].filtMean l[s].filtCov) ∧
    ∀ s (hs : s < l.length) (hs' : s < os.length), ∃ C R d, lastDims p.C s = .ok C ∧
      lastDims p.R s = .ok R ∧ lastDims p.d s = .ok d ∧
      M.correct C R d l[s].predMean l[s].predCov os[s] =
        .ok (l[s].gain, l[s].filtMean, l[s].filtCov) := by
  have hlen : l.length = os.length := loop_length hl
  rw [full_eq_run] at hl
  obtain ⟨h1, h2⟩ := run_rows hl
  refine ⟨fun h0 => (step_ok (h1 (by omega) h0)).1, fun s hs => ?_, fun s hs hs' => ?_⟩
  · have := (step_ok (h2 s (by omega) hs)).1
    simpa only [Nat.zero_add, Nat.add_sub_cancel] using this
  · cases s with
    | zero => exact (step_ok (h1 hs' hs)).2
    | succ s =>
      have := (step_ok (h2 s hs' hs)).2
      simpa only [Nat.zero_add] using this

variable (h : M.NaN bad)

include h

theorem NaN.meanFlow (hm : 0 < m) {p : M.Par n m} {os : List (M.Row m)} {l : List (M.St n m)}
    (hl : M.full p os = .ok l) : MeanFlow bad p os l := by
  obtain ⟨h1, h2, h3⟩ := full_rows hl
  have hlen : l.length = os.length := loop_length hl
  have hcor : ∀ s (hs : s < l.length) (hs' : s < os.length), os[s].Used →
      (HasBad bad l[s].predMean ∨ p.d.AtTime (HasBad bad) s) → AllBad bad l[s].filtMean := by
    intro s hs hs' hu hb
    obtain ⟨C, R, d, -, -, hd, hc⟩ := h3 s hs hs'
    rw [correct, if_pos hu.not_missing] at hc
    obtain ⟨inv, -, hc⟩ := ok_bind_iff.mp hc
    have e := congrArg (fun x => x.2.1) (Except.ok.inj hc)
    rw [← show _ = l[s].filtMean from e]
    obtain ⟨j, hj⟩ : ∃ j, bad (M.vadd (M.dotV m n C l[s].predMean) d j) := by
      rcases hb with ⟨i, hi⟩ | hb
      · exact ⟨⟨0, hm⟩, h.add_left _ (h.dotV_right _ hi _)⟩
      · obtain ⟨j, hj⟩ := hb.spec hd
        exact ⟨j, h.add_right _ hj⟩
    exact fun i => h.add_right _ (h.dotV_right _ (h.sub_right _ hj) i)
  refine ⟨hlen, fun hb h0 => ?_, fun s hs hb => ?_, fun s hs hb => ?_, fun s hs hb => ?_,
    fun s hs hb => ?_, fun s hs hs' hu hb => hcor s hs hs' hu (.inl hb),
    fun s hs hs' hu hb => hcor s hs hs' hu (.inr hb)⟩
  · rwa [(h1 h0).1]
  · obtain ⟨A, Q, b, -, -, -, e⟩ := h2 s hs
    obtain ⟨i, hi⟩ := hb
    rw [show l[s + 1].predMean = _ from congrArg Prod.fst e]
    exact fun j => h.add_left _ (h.dotV_right _ hi j)
  · obtain ⟨A, Q, b, -, -, hb', e⟩ := h2 s hs
    obtain ⟨i, hi⟩ := hb.spec hb'
    rw [show l[s + 1].predMean = _ from congrArg Prod.fst e]
    exact ⟨i, h.add_right _ hi⟩
  · by_cases hmis : os[s].missing
    · obtain ⟨C, R, d, -, -, hd, hc⟩ := h3 s hs (by omega)
      rw [correct, if_neg (not_not.mpr hmis)] at hc
      rw [← show _ = l[s].filtMean from congrArg (fun x => x.2.1) (Except.ok.inj hc)]
      exact hb
    · obtain ⟨i, hi⟩ := hb
      exact ⟨i, hcor s hs (by omega) (Row.used_of_not_missing hmis) (.inl ⟨i, hi⟩) i⟩
  · by_cases hmis : os[s].missing
    · obtain ⟨C, R, d, -, -, hd, hc⟩ := h3 s hs (by omega)
      rw [correct, if_neg (not_not.mpr hmis)] at hc
      rw [← show _ = l[s].filtMean from congrArg (fun x => x.2.1) (Except.ok.inj hc)]
      exact hb
    · exact fun i => hcor s hs (by omega) (Row.used_of_not_missing hmis) (.inl ⟨i, hb i⟩) i

theorem NaN.predict_cov_one {A Q : M.A n n} {b mean : M.V n} {cov : M.A n n}
    (hb : HasBad₂ bad cov ∨ HasBad₂ bad A ∨ HasBad₂ bad Q) :
    HasBad₂ bad (M.predict A Q b mean cov).2 := by
  rcases hb with ⟨i, j, hb⟩ | ⟨i, j, hb⟩ | ⟨i, j, hb⟩
  · exact ⟨i, i, h.add_left _ (h.dotM_right A (j := i) (h.dotM_left _ hb i) i)⟩
  · have h1 : bad (M.dotM n n n cov (M.tr A) j i) := h.dotM_right cov (j := j) hb j
    exact ⟨i, i, h.add_left _ (h.dotM_right A h1 i)⟩
  · exact ⟨i, j, h.add_right _ hb⟩

theorem NaN.correct_raises_one (hm : 0 < m) {C : M.A m n} {R : M.A m m} {d : M.V m} {mean : M.V n}
    {cov : M.A n n} {o : M.Row m} (ho : o.Used)
    (hb : HasBad₂ bad cov ∨ HasBad₂ bad C ∨ HasBad₂ bad R) :
    Raises (M.correct C R d mean cov o) := by
  rw [correct, if_pos ho.not_missing]
  rcases hb with ⟨i, j, hb⟩ | ⟨i, j, hb⟩ | ⟨i, j, hb⟩
  · refine Raises.bind ⟨.valueError, h.pinv (i := ⟨0, hm⟩) (j := ⟨0, hm⟩) ?_⟩ _
    exact h.add_left _ (h.dotM_right _ (j := i) (h.dotM_left _ hb _) _)
  · refine Raises.bind ⟨.valueError, h.pinv (i := i) (j := i) ?_⟩ _
    have h1 : bad (M.dotM n n m cov (M.tr C) j i) := h.dotM_right cov (j := j) hb j
    exact h.add_left _ (h.dotM_right _ h1 _)
  · exact Raises.bind ⟨.valueError, h.pinv (i := i) (j := j) (h.add_right _ hb)⟩ _

/-- `nan` in a covariance stays: after it no row is used, and all covariances have `nan`. -/
theorem NaN.full_cov (hm : 0 < m) {p : M.Par n m} {os : List (M.Row m)} {l : List (M.St n m)}
    (hl : M.full p os = .ok l) {u : ℕ} (hu : u < l.length)
    (hp : HasBad₂ bad p.S0 ∨ ∃ t < u, p.A.AtTime (HasBad₂ bad) t ∨ p.Q.AtTime (HasBad₂ bad) t) :
    HasBad₂ bad l[u].predCov ∧ HasBad₂ bad l[u].filtCov := by
  obtain ⟨h1, h2, h3⟩ := full_rows hl
  have hlen : l.length = os.length := loop_length hl
  have hfilt : ∀ s (hs : s < l.length), HasBad₂ bad l[s].predCov → HasBad₂ bad l[s].filtCov := by
    intro s hs hb
    obtain ⟨C, R, d, -, -, hd, hc⟩ := h3 s hs (by omega)
    by_cases hmis : os[s].missing
    · rw [correct, if_neg (not_not.mpr hmis)] at hc
      rw [← show _ = l[s].filtCov from congrArg (fun x => x.2.2) (Except.ok.inj hc)]
      exact hb
    · exact (raises_iff.mp (h.correct_raises_one hm (Row.used_of_not_missing hmis) (.inl hb)) _
        hc).elim
  have fwd : ∀ d s (hs : s + d < l.length), HasBad₂ bad (l[s]'(by omega)).predCov →
      HasBad₂ bad l[s + d].predCov := by
    intro d
    induction d with
    | zero => intro s _ hb; exact hb
    | succ d ih =>
      intro s hs hb
      obtain ⟨A, Q, b, -, -, -, e⟩ := h2 (s + d) hs
      rw [show l[s + (d + 1)].predCov = _ from congrArg Prod.snd e]
      exact h.predict_cov_one (.inl (hfilt _ (by omega) (ih s (by omega) hb)))
  have key : HasBad₂ bad l[u].predCov := by
    rcases hp with hp | ⟨t, ht, hp⟩
    · have := fwd u 0 (by omega) (by rwa [(h1 (by omega)).2])
      simpa using this
    · have := fwd (u - (t + 1)) (t + 1) (by omega) (by
        obtain ⟨A, Q, b, hA, hQ, -, e⟩ := h2 t (by omega)
        rw [show l[t + 1].predCov = _ from congrArg Prod.snd e]
        exact h.predict_cov_one (.inr (hp.imp (fun hp => hp.spec hA) (fun hp => hp.spec hQ))))
      have e : t + 1 + (u - (t + 1)) = u := by omega
      simpa only [e] using this
  exact ⟨key, hfilt u hu key⟩

theorem NaN.full_raises_matrices (hm : 0 < m) {p : M.Par n m} {os : List (M.Row m)} {u : ℕ}
    (hu : u < os.length) (ho : os[u].Used)
    (hp : HasBad₂ bad p.S0 ∨ p.R.AtTime (HasBad₂ bad) u ∨ p.C.AtTime (HasBad₂ bad) u ∨
      ∃ t < u, p.A.AtTime (HasBad₂ bad) t ∨ p.Q.AtTime (HasBad₂ bad) t) :
    Raises (M.full p os) := by
  rw [raises_iff]
  intro l hl
  have hlen : l.length = os.length := loop_length hl
  obtain ⟨h1, h2, h3⟩ := full_rows hl
  obtain ⟨C, R, d, hC, hR, hd, hc⟩ := h3 u (by omega) hu
  refine raises_iff.mp (h.correct_raises_one hm ho ?_) _ hc
  rcases hp with hp | hp | hp | hp
  · exact .inl (h.full_cov hm hl (by omega) (.inl hp)).1
  · exact .inr (.inr (hp.spec hR))
  · exact .inr (.inl (hp.spec hC))
  · exact .inl (h.full_cov hm hl (by omega) (.inr hp)).1

/-- `_smooth` inverts every predicted covariance but the first. -/
theorem NaN.smoothFull_raises_row {A : TV (M.A n n)} {rows : List (M.St n m)} {u : ℕ}
    (hu : u + 1 < rows.length) (hb : HasBad₂ bad rows[u + 1].predCov) :
    Raises (M.smoothFull A rows) := by
  have aux : ∀ (rest : List (M.St n m)) (t : ℕ) (s : M.St n m) (u : ℕ) (hu : u < rest.length),
      HasBad₂ bad rest[u].predCov → Raises (M.smoothLoop A t s rest) := by
    intro rest
    induction rest with
    | nil => intro t s u hu; exact absurd hu (by simp)
    | cons s' rest ih =>
      intro t s u hu hb
      rw [smoothLoop]
      cases u with
      | zero =>
        refine raises_bind fun r _ => raises_bind fun At _ => Raises.bind ?_ _
        obtain ⟨i, j, hb⟩ := hb
        exact Raises.bind ⟨.valueError, h.pinv hb⟩ _
      | succ u =>
        simp only [List.length_cons] at hu
        exact Raises.bind (ih _ _ u (by omega) hb) _
  cases rows with
  | nil => exact absurd hu (by simp)
  | cons s rest =>
    rw [smoothFull]
    simp only [List.length_cons] at hu
    exact Raises.bind (aux rest 0 s u (by omega) hb) _

theorem NaN.full_smooth_raises (hm : 0 < m) {p : M.Par n m} {os : List (M.Row m)}
    (hp : (HasBad₂ bad p.S0 ∧ 1 < os.length) ∨
      ∃ t, t + 1 < os.length ∧ (p.A.AtTime (HasBad₂ bad) t ∨ p.Q.AtTime (HasBad₂ bad) t)) :
    Raises (M.full p os >>= M.smoothFull p.A) := by
  refine raises_bind fun l hl => ?_
  have hlen : l.length = os.length := loop_length hl
  rcases hp with ⟨hp, h2⟩ | ⟨t, ht, hp⟩
  · exact h.smoothFull_raises_row (u := 0) (by omega)
      (h.full_cov hm hl (by omega) (.inl hp)).1
  · exact h.smoothFull_raises_row (u := t) (by omega)
      (h.full_cov hm hl (by omega) (.inr ⟨t, by omega, hp⟩)).1

end Machine

namespace SMachine

open Machine

variable {M : SMachine} {bad : M.F → Prop}

/-- The rows of `_filter` of `CholeskyKalmanFilter`, one by one. -/
theorem cholFull_rows {p : M.Par n m} {os : List (M.Row m)} {l : List (M.CSt n)}
    (hl : cholFull p os = .ok l) :
    ∃ Q2 R2 S2, cholParam p.Q = .ok Q2 ∧ cholParam p.R = .ok R2 ∧ M.cholL n p.S0 = .ok S2 ∧
    (∀ h0 : 0 < l.length, l[0].predMean = p.mu0) ∧
    (∀ s (hs : s + 1 < l.length), ∃ A b, lastDims p.A s = .ok A ∧ lastDims p.b s = .ok b ∧
      cholPredict A Q2 b l[s].filtMean l[s].filtCov2 = .ok (l[s + 1].predMean, l[s + 1].predCov2)) ∧
    ∀ s (hs : s < l.length) (hs' : s < os.length), ∃ C d, lastDims p.C s = .ok C ∧
      lastDims p.d s = .ok d ∧ cholCorrect C R2 d l[s].predMean l[s].predCov2 os[s] =
        .ok (l[s].filtMean, l[s].filtCov2) := by
  have hlen := cholFull_length hl
  rw [cholFull] at hl
  obtain ⟨Q2, hQ, hl⟩ := ok_bind_iff.mp hl
  obtain ⟨R2, hR, hl⟩ := ok_bind_iff.mp hl
  obtain ⟨S2, hS, hl⟩ := ok_bind_iff.mp hl
  obtain ⟨h1, h2⟩ := run_rows hl
  have hn : ∀ {t o s}, cholStep p Q2 R2 S2 t none o = .ok s → s.predMean = p.mu0 ∧
      ∃ C d, lastDims p.C t = .ok C ∧ lastDims p.d t = .ok d ∧
        cholCorrect C R2 d s.predMean s.predCov2 o = .ok (s.filtMean, s.filtCov2) := by
    intro t o s h
    simp only [cholStep] at h
    obtain ⟨pr, hpr, h⟩ := ok_bind_iff.mp h
    cases hpr
    obtain ⟨C, hC, h⟩ := ok_bind_iff.mp h
    obtain ⟨d, hd, h⟩ := ok_bind_iff.mp h
    obtain ⟨c, hc, h⟩ := ok_bind_iff.mp h
    cases h
    exact ⟨rfl, C, d, hC, hd, hc⟩
  have hsome : ∀ {t q o s}, cholStep p Q2 R2 S2 t (some q) o = .ok s →
      (∃ A b, lastDims p.A (t - 1) = .ok A ∧ lastDims p.b (t - 1) = .ok b ∧
        cholPredict A Q2 b q.filtMean q.filtCov2 = .ok (s.predMean, s.predCov2)) ∧
      ∃ C d, lastDims p.C t = .ok C ∧ lastDims p.d t = .ok d ∧
        cholCorrect C R2 d s.predMean s.predCov2 o = .ok (s.filtMean, s.filtCov2) := by
    intro t q o s h
    simp only [cholStep] at h
    obtain ⟨A, hA, h⟩ := ok_bind_iff.mp h
    obtain ⟨b, hb, h⟩ := ok_bind_iff.mp h
    obtain ⟨pr, hpr, h⟩ := ok_bind_iff.mp h
    obtain ⟨C, hC, h⟩ := ok_bind_iff.mp h
    obtain ⟨d, hd, h⟩ := ok_bind_iff.mp h
    obtain ⟨c, hc, h⟩ := ok_bind_iff.mp h
    cases h
    exact ⟨⟨A, b, hA, hb, hpr⟩, C, d, hC, hd, hc⟩
  refine ⟨Q2, R2, S2, hQ, hR, hS, fun h0 => (hn (h1 (by omega) h0)).1, fun s hs => ?_,
    fun s hs hs' => ?_⟩
  · have := (hsome (h2 s (by omega) hs)).1
    simpa only [Nat.zero_add, Nat.add_sub_cancel] using this
  · cases s with
    | zero => exact (hn (h1 hs' hs)).2
    | succ s =>
      have := (hsome (h2 s hs' hs)).2
      simpa only [Nat.zero_add] using this

variable (h : M.Spread bad)

include h

theorem Spread.cholFlow (hm : 0 < m) {p : M.Par n m} {os : List (M.Row m)} {l : List (M.St n m)}
    (hl : cholRows p os = .ok l) : MeanFlow bad p os l := by
  have hlen' := cholRows_length hl
  rw [cholRows] at hl
  obtain ⟨r, hr, e⟩ := ok_bind_iff.mp hl
  cases e
  clear hl
  rename' r => l, hr => hl
  have hlen : l.length = os.length := cholFull_length hl
  obtain ⟨Q2, R2, S2, -, -, -, h1, h2, h3⟩ := cholFull_rows hl
  have hcor : ∀ s (hs : s < l.length) (hs' : s < os.length), os[s].Used →
      (HasBad bad l[s].predMean ∨ p.d.AtTime (HasBad bad) s) → AllBad bad l[s].filtMean := by
    intro s hs hs' hu hb
    obtain ⟨C, d, -, hd, hc⟩ := h3 s hs hs'
    rw [cholCorrect, if_pos hu.not_missing] at hc
    obtain ⟨S, -, hc⟩ := ok_bind_iff.mp hc
    obtain ⟨inv, -, hc⟩ := ok_bind_iff.mp hc
    rw [← show _ = l[s].filtMean from congrArg Prod.fst (Except.ok.inj hc)]
    obtain ⟨j, hj⟩ : ∃ j, bad (M.vadd (M.dotV m n C l[s].predMean) d j) := by
      rcases hb with ⟨i, hi⟩ | hb
      · exact ⟨⟨0, hm⟩, h.add_left _ (h.dotV_right _ hi _)⟩
      · obtain ⟨j, hj⟩ := hb.spec hd
        exact ⟨j, h.add_right _ hj⟩
    exact fun i => h.add_right _ (h.dotV_right _ (j := j) (h.dotV_right _ (h.sub_right _ hj) _) i)
  have hmask : ∀ s (hs : s < l.length) (hs' : s < os.length), os[s].missing →
      l[s].filtMean = l[s].predMean := by
    intro s hs hs' hmis
    obtain ⟨C, d, -, hd, hc⟩ := h3 s hs hs'
    rw [cholCorrect, if_neg (not_not.mpr hmis)] at hc
    exact (congrArg Prod.fst (Except.ok.inj hc)).symm
  have hpred : ∀ s (hs : s + 1 < l.length), ∃ A b, lastDims p.b s = .ok b ∧
      l[s + 1].predMean = M.vadd (M.dotV n n A l[s].filtMean) b := by
    intro s hs
    obtain ⟨A, b, -, hb, e⟩ := h2 s hs
    rw [cholPredict] at e
    obtain ⟨T, -, e⟩ := ok_bind_iff.mp e
    exact ⟨A, b, hb, (congrArg Prod.fst (Except.ok.inj e)).symm⟩
  refine ⟨hlen', fun hb h0 => ?_, fun s hs hb => ?_, fun s hs hb => ?_, fun s hs hb => ?_,
    fun s hs hb => ?_, fun s hs hs' hu hb => ?_, fun s hs hs' hu hb => ?_⟩ <;>
    simp only [List.getElem_map, CSt.st] at *
  · rwa [h1 (by simpa using h0)]
  · obtain ⟨A, b, -, e⟩ := hpred s (by simpa using hs)
    obtain ⟨i, hi⟩ := hb
    rw [e]
    exact fun j => h.add_left _ (h.dotV_right _ hi j)
  · obtain ⟨A, b, hb', e⟩ := hpred s (by simpa using hs)
    obtain ⟨i, hi⟩ := hb.spec hb'
    rw [e]
    exact ⟨i, h.add_right _ hi⟩
  · have hs : s < l.length := by simpa using hs
    by_cases hmis : os[s].missing
    · rwa [hmask s hs (by omega) hmis]
    · obtain ⟨i, hi⟩ := hb
      exact ⟨i, hcor s hs (by omega) (Row.used_of_not_missing hmis) (.inl ⟨i, hi⟩) i⟩
  · have hs : s < l.length := by simpa using hs
    by_cases hmis : os[s].missing
    · rwa [hmask s hs (by omega) hmis]
    · exact fun i => hcor s hs (by omega) (Row.used_of_not_missing hmis) (.inl ⟨i, hb i⟩) i
  · exact hcor s (by simpa using hs) hs' hu (.inl hb)
  · exact hcor s (by simpa using hs) hs' hu (.inr hb)

theorem Spread.cholParam_raises {X : TV (M.A k k)} {t : ℕ} (hX : X.AtTime (HasBad₂ bad) t) :
    Raises (cholParam X) := by
  rcases hX with ⟨a, rfl, i, j, hb⟩ | ⟨l, a, rfl, -⟩
  · exact ⟨.valueError, h.cholL hb⟩
  · exact ⟨.valueError, rfl⟩

theorem Spread.cholPredict_raises {A Q2 : M.A n n} {b mean : M.V n} {cov : M.A n n}
    (hA : HasBad₂ bad A) : Raises (cholPredict A Q2 b mean cov) := by
  obtain ⟨i, j, hb⟩ := hA
  rw [cholPredict]
  refine Raises.bind ⟨.valueError, h.qr (i := Fin.castAdd n i) (j := i) ?_⟩ _
  simp only [tr, hstack, Fin.append_left]
  exact h.dotM_left _ hb i

theorem Spread.cholCorrect_raises {C : M.A m n} {R2 : M.A m m} {d : M.V m} {mean : M.V n}
    {cov : M.A n n} {o : M.Row m} (ho : o.Used) (hC : HasBad₂ bad C) :
    Raises (cholCorrect C R2 d mean cov o) := by
  obtain ⟨i, j, hb⟩ := hC
  rw [cholCorrect, if_pos ho.not_missing]
  refine Raises.bind ⟨.valueError, h.qr (i := Fin.natAdd m j) (j := Fin.castAdd n i) ?_⟩ _
  simp only [cholCorrectM, Fin.append_right, Fin.append_left, tr]
  exact h.dotM_left _ hb j

theorem Spread.cholFull_raises_matrices {p : M.Par n m} {os : List (M.Row m)}
    (hp : HasBad₂ bad p.S0 ∨ (∃ t, p.R.AtTime (HasBad₂ bad) t) ∨ (∃ t, p.Q.AtTime (HasBad₂ bad) t) ∨
      (∃ t, t + 1 < os.length ∧ p.A.AtTime (HasBad₂ bad) t) ∨
      ∃ u, ∃ hu : u < os.length, os[u].Used ∧ p.C.AtTime (HasBad₂ bad) u) :
    Raises (cholFull p os) := by
  rw [raises_iff]
  intro l hl
  have hlen : l.length = os.length := cholFull_length hl
  obtain ⟨Q2, R2, S2, hQ, hR, hS, h1, h2, h3⟩ := cholFull_rows hl
  rcases hp with ⟨i, j, hb⟩ | ⟨t, hp⟩ | ⟨t, hp⟩ | ⟨t, ht, hp⟩ | ⟨u, hu, ho, hp⟩
  · rw [h.cholL hb] at hS
    cases hS
  · exact raises_iff.mp (h.cholParam_raises hp) _ hR
  · exact raises_iff.mp (h.cholParam_raises hp) _ hQ
  · obtain ⟨A, b, hA, -, e⟩ := h2 t (by omega)
    exact raises_iff.mp (h.cholPredict_raises (hp.spec hA)) _ e
  · obtain ⟨C, d, hC, -, e⟩ := h3 u (by omega) hu
    exact raises_iff.mp (h.cholCorrect_raises ho (hp.spec hC)) _ e

/-! ### `BiermanKalmanFilter` -/

omit h in
theorem TV_map_lastDims {α β : Type} (f : α → β) (x : TV α) {t : ℕ} {c : β}
    (hc : lastDims (x.map f) t = .ok c) : ∃ a, lastDims x t = .ok a ∧ c = f a := by
  cases x with
  | const a => cases hc; exact ⟨a, rfl, rfl⟩
  | seq l =>
    simp only [TV.map, lastDims, List.getElem?_map] at hc
    cases hl : l[t]? with
    | none => rw [hl] at hc; cases hc
    | some a =>
      rw [hl] at hc
      cases hc
      exact ⟨a, by simp only [lastDims, hl], rfl⟩

omit h in
/-- The rows of `_filter` of `BiermanKalmanFilter`, one by one. -/
theorem bierFull_rows {store : M.F → M.F} {p : M.Par n m} {os : List (M.Row m)} {l : List (M.BSt n)}
    (hl : bierFull store p os = .ok l) :
    ∃ S0 R2 inv, udu store p.S0 = .ok S0 ∧ cholParam p.R = .ok R2 ∧ M.pinv m R2 = .ok inv ∧
    (∀ h0 : 0 < l.length, l[0].predMean = p.mu0) ∧
    (∀ s (hs : s + 1 < l.length), ∃ A Q b, lastDims p.A s = .ok A ∧ p.Q = .const Q ∧
      lastDims p.b s = .ok b ∧
      bierPredict A Q b l[s].filtMean l[s].filtCov = .ok (l[s + 1].predMean, l[s + 1].predCov)) ∧
    ∀ s (hs : s < l.length) (hs' : s < os.length), ∃ C d z, lastDims p.C s = .ok C ∧
      lastDims (dotOffsets inv p.d) s = .ok d ∧
      (l[s].filtMean, l[s].filtCov) = bierCorrect (M.dotM m m n inv C) eye d l[s].predMean
        l[s].predCov ⟨z, os[s].mask⟩ := by
  have hlen : l.length = os.length := bierFull_length hl
  rw [bierFull] at hl
  obtain ⟨S0, hS, hl⟩ := ok_bind_iff.mp hl
  obtain ⟨r, hr, hl⟩ := ok_bind_iff.mp hl
  rw [decorrelate] at hr
  obtain ⟨R2, hR, hr⟩ := ok_bind_iff.mp hr
  obtain ⟨inv, hinv, hr⟩ := ok_bind_iff.mp hr
  cases hr
  dsimp only at hl
  obtain ⟨h1, h2⟩ := run_rows hl
  have hlen2 : (dotRowsMasked inv os).length = os.length := dotRowsMasked_length inv os
  have hn : ∀ {t o s}, bierStep p (p.C.map fun X => M.dotM m m n inv X) (dotOffsets inv p.d) S0 t none
      o = .ok s → s.predMean = p.mu0 ∧ ∃ C d, lastDims p.C t = .ok C ∧
        lastDims (dotOffsets inv p.d) t = .ok d ∧ (s.filtMean, s.filtCov) =
          bierCorrect (M.dotM m m n inv C) eye d s.predMean s.predCov o := by
    intro t o s h
    simp only [bierStep] at h
    obtain ⟨pr, hpr, h⟩ := ok_bind_iff.mp h
    cases hpr
    obtain ⟨C, hC, h⟩ := ok_bind_iff.mp h
    obtain ⟨C', hC', rfl⟩ := TV_map_lastDims _ _ hC
    obtain ⟨d, hd, h⟩ := ok_bind_iff.mp h
    cases h
    exact ⟨rfl, C', d, hC', hd, rfl⟩
  have hsome : ∀ {t q o s}, bierStep p (p.C.map fun X => M.dotM m m n inv X) (dotOffsets inv p.d) S0 t
      (some q) o = .ok s →
      (∃ A Q b, lastDims p.A (t - 1) = .ok A ∧ p.Q = .const Q ∧ lastDims p.b (t - 1) = .ok b ∧
        bierPredict A Q b q.filtMean q.filtCov = .ok (s.predMean, s.predCov)) ∧
      ∃ C d, lastDims p.C t = .ok C ∧ lastDims (dotOffsets inv p.d) t = .ok d ∧
        (s.filtMean, s.filtCov) =
          bierCorrect (M.dotM m m n inv C) eye d s.predMean s.predCov o := by
    intro t q o s h
    simp only [bierStep] at h
    obtain ⟨A, hA, h⟩ := ok_bind_iff.mp h
    obtain ⟨b, hb, h⟩ := ok_bind_iff.mp h
    cases hQ : p.Q with
    | seq l =>
      rw [hQ] at h
      cases h
    | const Q =>
      rw [hQ] at h
      obtain ⟨Q', hQ', h⟩ := ok_bind_iff.mp h
      cases hQ'
      obtain ⟨pr, hpr, h⟩ := ok_bind_iff.mp h
      obtain ⟨C, hC, h⟩ := ok_bind_iff.mp h
      obtain ⟨C', hC', rfl⟩ := TV_map_lastDims _ _ hC
      obtain ⟨d, hd, h⟩ := ok_bind_iff.mp h
      cases h
      exact ⟨⟨A, Q, b, hA, rfl, hb, hpr⟩, C', d, hC', hd, rfl⟩
  refine ⟨S0, R2, inv, hS, hR, hinv, fun h0 => (hn (h1 (by omega) h0)).1, fun s hs => ?_,
    fun s hs hs' => ?_⟩
  · have := (hsome (h2 s (by omega) hs)).1
    simpa only [Nat.zero_add, Nat.add_sub_cancel] using this
  · cases s with
    | zero =>
      obtain ⟨C, d, hC, hd, e⟩ := (hn (h1 (by omega) hs)).2
      rw [dotRowsMasked_getElem inv os 0 (by omega) hs'] at e
      exact ⟨C, d, _, hC, hd, e⟩
    | succ s =>
      obtain ⟨C, d, hC, hd, e⟩ := (hsome (h2 s (by omega) hs)).2
      rw [dotRowsMasked_getElem inv os (s + 1) (by omega) hs'] at e
      simp only [Nat.zero_add] at hC hd
      exact ⟨C, d, _, hC, hd, e⟩

theorem Spread.dotOffsets_bad {inv : M.A m m} {d : TV (M.V m)} {t : ℕ} (hd : d.AtTime (HasBad bad) t)
    {d' : M.V m} (hd' : lastDims (dotOffsets inv d) t = .ok d') : AllBad bad d' := by
  rcases hd with ⟨a, rfl, j, hb⟩ | ⟨l, a, rfl, hl, j, hb⟩
  · cases hd'
    exact fun i => h.dotV_right _ hb i
  · obtain ⟨ht, rfl⟩ := List.getElem?_eq_some_iff.mp hl
    have ht' : t < (dotRows inv l).length := by rwa [dotRows_length]
    simp only [dotOffsets, lastDims, List.getElem?_eq_getElem ht'] at hd'
    cases hd'
    intro i
    rw [dotRows_getElem inv l t ht' ht]
    exact h.dotM_right _ (j := j) (by simpa using hb) i

omit h in
/-- Components of the mean that are `nan` stay `nan` in the correction. -/
theorem Spread.bierFold_keep (h : M.Spread bad) {C : M.A m n} {R : M.A m m} {d z : M.V m}
    (l : List (Fin m)) (s : M.V n × M.UD n) (q : Fin n) (hb : bad (s.1 q)) :
    bad ((l.foldl (bierCorrectOne C R d z) s).1 q) := by
  induction l generalizing s with
  | nil => exact hb
  | cons i l ih => exact ih _ (h.add_left _ hb)

omit h in
theorem SpreadDot.bierFold_bad (h : M.SpreadDot bad) {C : M.A m n} {R : M.A m m} {d z : M.V m}
    (l : List (Fin m)) (s : M.V n × M.UD n)
    (hb : AllBad bad s.1 ∨ l ≠ [] ∧ HasBad bad s.1 ∨ ∃ i ∈ l, HasBad bad (C i) ∨ bad (d i)) :
    AllBad bad (l.foldl (bierCorrectOne C R d z) s).1 := by
  induction l generalizing s with
  | nil =>
    rcases hb with hb | ⟨hl, -⟩ | ⟨i, hi, -⟩
    · exact hb
    · exact (hl rfl).elim
    · simp at hi
  | cons i l ih =>
    rw [List.foldl_cons]
    refine ih _ ?_
    have hp : bad (M.add (M.dot n (C i) s.1) (d i)) → AllBad bad (bierCorrectOne C R d z s i).1 :=
      fun hp q => h.add_right _ (h.mul_right _ (h.sub_right _ hp))
    rcases hb with hb | ⟨-, q, hb⟩ | ⟨j, hj, hb⟩
    · exact .inl fun q => h.add_left _ (hb q)
    · exact .inl (hp (h.add_left _ (h.dot_right _ hb)))
    · rcases List.mem_cons.mp hj with rfl | hj
      · refine .inl (hp ?_)
        rcases hb with ⟨q, hb⟩ | hb
        · exact h.add_left _ (h.dot_left _ hb)
        · exact h.add_right _ hb
      · exact .inr (.inr ⟨j, hj, hb⟩)

omit h in
theorem SpreadDot.bierFlow (h : M.SpreadDot bad) (hm : 0 < m) {store : M.F → M.F} {p : M.Par n m}
    {os : List (M.Row m)} {l : List (M.St n m)} (hl : bierRows store p os = .ok l) :
    MeanFlow bad p os l ∧ ∀ s (hs : s < l.length) (hs' : s < os.length), os[s].Used →
      p.C.AtTime (HasBad₂ bad) s → AllBad bad l[s].filtMean := by
  have hlen' := bierRows_length hl
  obtain ⟨r, hr, rfl, -⟩ := bierRows_ok hl
  clear hl
  rename' r => l, hr => hl
  have hlen : l.length = os.length := bierFull_length hl
  obtain ⟨S0, R2, inv, -, -, -, h1, h2, h3⟩ := bierFull_rows hl
  have hcor : ∀ s (hs : s < l.length) (hs' : s < os.length), os[s].Used →
      (HasBad bad l[s].predMean ∨ p.d.AtTime (HasBad bad) s ∨ p.C.AtTime (HasBad₂ bad) s) →
      AllBad bad l[s].filtMean := by
    intro s hs hs' hu hb
    obtain ⟨C, d, z, hC, hd, hc⟩ := h3 s hs hs'
    have hmis : ¬ (⟨z, os[s].mask⟩ : M.Row m).missing := Row.Used.not_missing hu
    rw [bierCorrect, if_pos hmis] at hc
    rw [show l[s].filtMean = _ from congrArg Prod.fst hc]
    refine h.bierFold_bad _ _ ?_
    rcases hb with hb | hb | hb
    · refine .inr (.inl ⟨?_, hb⟩)
      exact List.ne_nil_of_mem (List.mem_finRange ⟨0, hm⟩)
    · exact .inr (.inr ⟨⟨0, hm⟩, List.mem_finRange _, .inr (h.dotOffsets_bad hb hd _)⟩)
    · obtain ⟨i, j, hij⟩ := hb.spec hC
      exact .inr (.inr ⟨⟨0, hm⟩, List.mem_finRange _, .inl ⟨j, h.dotM_right _ hij _⟩⟩)
  have hmask : ∀ s (hs : s < l.length) (hs' : s < os.length), os[s].missing →
      l[s].filtMean = l[s].predMean := by
    intro s hs hs' hmis
    obtain ⟨C, d, z, -, hd, hc⟩ := h3 s hs hs'
    have hmis' : (⟨z, os[s].mask⟩ : M.Row m).missing := hmis
    rw [bierCorrect, if_neg (not_not.mpr hmis')] at hc
    exact congrArg Prod.fst hc
  have hpred : ∀ s (hs : s + 1 < l.length), ∃ A b, lastDims p.b s = .ok b ∧
      l[s + 1].predMean = M.vadd (M.dotV n n A l[s].filtMean) b := by
    intro s hs
    obtain ⟨A, Q, b, -, -, hb, e⟩ := h2 s hs
    rw [bierPredict] at e
    obtain ⟨T, -, e⟩ := ok_bind_iff.mp e
    exact ⟨A, b, hb, (congrArg Prod.fst (Except.ok.inj e)).symm⟩
  refine ⟨⟨hlen', fun hb h0 => ?_, fun s hs hb => ?_, fun s hs hb => ?_, fun s hs hb => ?_,
    fun s hs hb => ?_, fun s hs hs' hu hb => ?_, fun s hs hs' hu hb => ?_⟩,
    fun s hs hs' hu hb => ?_⟩ <;>
    simp only [List.getElem_map, BSt.st] at *
  · rwa [h1 (by simpa using h0)]
  · obtain ⟨A, b, -, e⟩ := hpred s (by simpa using hs)
    obtain ⟨i, hi⟩ := hb
    rw [e]
    exact fun j => h.add_left _ (h.dotV_right _ hi j)
  · obtain ⟨A, b, hb', e⟩ := hpred s (by simpa using hs)
    obtain ⟨i, hi⟩ := hb.spec hb'
    rw [e]
    exact ⟨i, h.add_right _ hi⟩
  · have hs : s < l.length := by simpa using hs
    by_cases hmis : os[s].missing
    · rwa [hmask s hs (by omega) hmis]
    · obtain ⟨i, hi⟩ := hb
      exact ⟨i, hcor s hs (by omega) (Row.used_of_not_missing hmis) (.inl ⟨i, hi⟩) i⟩
  · have hs : s < l.length := by simpa using hs
    by_cases hmis : os[s].missing
    · rwa [hmask s hs (by omega) hmis]
    · exact fun i => hcor s hs (by omega) (Row.used_of_not_missing hmis) (.inl ⟨i, hb i⟩) i
  · exact hcor s (by simpa using hs) hs' hu (.inl hb)
  · exact hcor s (by simpa using hs) hs' hu (.inr (.inl hb))
  · exact hcor s (by simpa using hs) hs' hu (.inr (.inr hb))

omit h in
theorem NaN.bierPredict_raises (h : M.NaN bad) {A Q : M.A n n} {b mean : M.V n} {cov : M.UD n}
    (hb : HasBad₂ bad A ∨ HasBad₂ bad Q) : Raises (bierPredict A Q b mean cov) := by
  rw [bierPredict]
  rcases hb with ⟨i, j, hb⟩ | ⟨i, j, hb⟩
  · refine Raises.bind ⟨.assertionError, h.udu_raises (i := i) (j := i) ?_⟩ _
    exact h.add_left _ (h.dotM_left _ (j := i) (h.dotM_left _ hb _) _)
  · exact Raises.bind ⟨.assertionError, h.udu_raises (i := i) (j := j) (h.add_right _ hb)⟩ _

omit h in
theorem NaN.bierFull_raises_matrices (h : M.NaN bad) {store : M.F → M.F} {p : M.Par n m} {os : List (M.Row m)}
    (hp : HasBad₂ bad p.S0 ∨ (∃ t, p.R.AtTime (HasBad₂ bad) t) ∨
      ∃ t, t + 1 < os.length ∧ (p.A.AtTime (HasBad₂ bad) t ∨ p.Q.AtTime (HasBad₂ bad) t)) :
    Raises (bierFull store p os) := by
  rw [raises_iff]
  intro l hl
  have hlen : l.length = os.length := bierFull_length hl
  obtain ⟨S0, R2, inv, hS, hR, -, h1, h2, h3⟩ := bierFull_rows hl
  rcases hp with ⟨i, j, hb⟩ | ⟨t, hp⟩ | ⟨t, ht, hp⟩
  · rw [h.udu_raises hb] at hS
    cases hS
  · exact raises_iff.mp (h.cholParam_raises hp) _ hR
  · obtain ⟨A, Q, b, hA, hQ, -, e⟩ := h2 t (by omega)
    refine raises_iff.mp (h.bierPredict_raises ?_) _ e
    refine hp.imp (fun hp => hp.spec hA) (fun hp => hp.spec (t := t) ?_)
    rw [hQ]
    rfl

end SMachine


/-! ### The unscented classes -/

namespace UMachine

open Machine

variable {M : UMachine} {bad : M.F → Prop}

theorem NaN.augFilterPoints_raises_noise (h : M.NaN bad) {x : M.Mom n} {Q : M.A n n} {R : M.A m m}
    (hb : HasBad₂ bad x.cov ∨ HasBad₂ bad Q ∨ HasBad₂ bad R) : Raises (augFilterPoints x Q R) := by
  rcases hb with ⟨i, j, hb⟩ | ⟨i, j, hb⟩ | ⟨i, j, hb⟩
  · exact NaN.augFilterPoints_raises h hb
  · rw [augFilterPoints]
    refine Raises.bind (NaN.moments2points_raises h
      (i := Fin.castAdd m (Fin.natAdd n i)) (j := Fin.castAdd m (Fin.natAdd n j)) ?_) _
    simp only [blockDiag, Fin.append_left, Fin.append_right]
    exact hb
  · rw [augFilterPoints]
    refine Raises.bind (NaN.moments2points_raises h
      (i := Fin.natAdd (n + n) i) (j := Fin.natAdd (n + n) j) ?_) _
    simp only [blockDiag, Fin.append_right]
    exact hb

theorem NaN.augFilterPoints_one (h : M.toMachine.NaN bad) {x : M.Mom n} {Q : M.A n n} {R : M.A m m}
    {s : M.Pts ((n + n + m) + (n + n + m) + 1) n × M.Pts ((n + n + m) + (n + n + m) + 1) n
      × M.Pts ((n + n + m) + (n + n + m) + 1) m}
    (hs : augFilterPoints x Q R = .ok s) {c : Fin n} (hx : bad (x.mean c))
    (i : Fin ((n + n + m) + (n + n + m) + 1)) : bad (s.1.points i c) := by
  rw [augFilterPoints] at hs
  obtain ⟨u, hu, hs⟩ := ok_bind_iff.mp hs
  cases hs
  refine NaN.moments2points_points h hu (c := Fin.castAdd m (Fin.castAdd n c)) ?_ i
  simp only [Fin.append_left]
  exact hx

theorem NaN.points2moments_noise (h : M.toMachine.NaN bad) {N : ℕ} (s : M.Pts N k) {S : M.A k k}
    {i j : Fin k} (hS : bad (S i j)) : bad ((points2moments s (some S)).cov i j) :=
  h.add_right _ hS

theorem NaN.finish_raises (h : M.toMachine.NaN bad) {N : ℕ} {pred : M.Mom n} {pts : M.Pts N n}
    {q : M.Pts N m} {o : M.Row m} (ho : o.Used) {R : M.A m m} (hR : HasBad₂ bad R) :
    Raises (finish pred pts q (some R) o) := by
  obtain ⟨i, j, hR⟩ := hR
  rw [finish]
  rw [unscentedCorrect, if_pos ho.not_missing]
  exact Raises.bind ⟨.valueError, h.pinv (NaN.points2moments_noise h q hR)⟩ _

theorem NaN.aukfStep_raises_noise (h : M.NaN bad) {p : M.UPar n m} (hQ : HasBad₂ bad p.Q) {t : ℕ}
    {x : M.Mom n} {o : M.Row m} : Raises (aukfStep p t (some x) o) := by
  obtain ⟨i, j, hQ⟩ := hQ
  simp only [aukfStep]
  exact raises_bind fun pts _ => raises_bind fun f _ => raises_bind fun q _ =>
    Raises.bind (NaN.moments2points_raises h (NaN.points2moments_noise h.base q hQ)) _

theorem NaN.aukfStep_raises_obs (h : M.toMachine.NaN bad) {p : M.UPar n m} (hR : HasBad₂ bad p.R)
    {t : ℕ} {prev : Option (M.Mom n)} {o : M.Row m} (ho : o.Used) : Raises (aukfStep p t prev o) := by
  cases prev with
  | none =>
    simp only [aukfStep]
    refine raises_bind fun pts _ => raises_bind fun g _ => ?_
    rw [ufCorrect]
    exact raises_bind fun q _ => NaN.finish_raises h ho hR
  | some x =>
    simp only [aukfStep]
    refine raises_bind fun pts _ => raises_bind fun f _ => raises_bind fun q _ =>
      raises_bind fun pts' _ => raises_bind fun g _ => ?_
    rw [ufCorrect]
    exact raises_bind fun q _ => NaN.finish_raises h ho hR

theorem NaN.aukf_first_cov (h : M.toMachine.NaN bad) {p : M.UPar n m} {t : ℕ} {o : M.Row m}
    {s : M.Mom n} (hs : aukfStep p t none o = .ok s) {c : Fin n} (hb : bad (p.mu0 c)) :
    bad (s.cov c c) := by
  simp only [aukfStep] at hs
  obtain ⟨pts, hpts, hs⟩ := ok_bind_iff.mp hs
  obtain ⟨g, -, hs⟩ := ok_bind_iff.mp hs
  rw [ufCorrect] at hs
  obtain ⟨q, -, hs⟩ := ok_bind_iff.mp hs
  exact NaN.correct_cov h hs (NaN.points2moments_bad h (j := 0)
    (NaN.moments2points_points h hpts (x := ⟨p.mu0, p.S0⟩) hb 0) none)

theorem NaN.ukf_first_cov (h : M.toMachine.NaN bad) {p : M.GPar n m} {t : ℕ} {o : M.Row m}
    {s : M.Mom n} (hs : ukfStep p t none o = .ok s) {c : Fin n} (hb : bad (p.mu0 c)) :
    bad (s.cov c c) := by
  simp only [ukfStep] at hs
  obtain ⟨pts, hpts, hs⟩ := ok_bind_iff.mp hs
  obtain ⟨g, -, hs⟩ := ok_bind_iff.mp hs
  rw [ufCorrect₂] at hs
  obtain ⟨q, -, hs⟩ := ok_bind_iff.mp hs
  exact NaN.correct_cov h hs (NaN.points2moments_bad h (j := 0)
    (NaN.augFilterPoints_one h hpts (x := ⟨p.mu0, p.S0⟩) hb 0) none)

end UMachine

end Verif
