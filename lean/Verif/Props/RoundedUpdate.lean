import Verif.Proofs.RoundedUpdate
import Verif.Props.RoundedUnscented
import Verif.Props.Runs
import Verif.Props.Structure

/-!
# C104: rounding errors in programs of `filter_update` calls

A program calls `filter_update` once for each observation (or without one), each time with the mean
and covariance returned by the call before.  The results stay within a constant times the size of
the errors.
-/

open Matrix Topology

namespace Verif

variable {n m : ℕ}

/-! ### From the limit to constants -/

/-- Arithmetic with errors up to `u`, and moments up to `κ u` from the exact ones. -/
def Started (X : ℝ → Type) (κ : ℝ) (r : Vec n × Mat n n) (u : ℝ) : Type :=
  X u × { x : Vec n × Mat n n // PairWithin (κ * u) x r }

theorem ow_of_started {X : ℝ → Type} {κ a : ℝ} {f : (u : ℝ) × X u → ℝ}
    (h : ∀ x, |f x - a| ≤ κ * x.1) : Ow (smallErr X) (fun x => x.1) f a := by
  refine Asymptotics.IsBigO.of_bound |κ| (Filter.Eventually.of_forall fun x => ?_)
  rw [Real.norm_eq_abs, Real.norm_eq_abs, ← abs_mul]
  exact (h x).trans (le_abs_self _)

theorem pairNear_started (X : ℝ → Type) (κ : ℝ) (r : Vec n × Mat n n) :
    PairNear (smallErr (Started X κ r)) (fun x => x.1) (fun x => x.2.2.1) r :=
  ⟨fun i => ow_of_started fun x => x.2.2.2.1 i, fun i j => ow_of_started fun x => x.2.2.2.2 i j⟩

theorem small_of_pairs {X : ℝ → Type} {q : Vec n × Mat n n → Prop}
    {g : (u : ℝ) × X u → List (Vec n × Mat n n)} {l : List (Vec n × Mat n n)}
    (h : LNear (fun g v => PairNear (smallErr X) (fun x => x.1) g v ∧ q v) g l) :
    Small fun e x => WithinErr e (g x) l := by
  induction h with
  | nil => exact ⟨0, 1, one_pos, fun u _ _ ar => .nil⟩
  | @cons f a g l h ht ih =>
    have h1 := (small_of_owV h.1.1).and (small_of_owM h.1.2)
      (fun _ _ _ e h i => (h i).trans e) fun _ _ _ e h i j => (h i j).trans e
    obtain ⟨K, u₀, h0, hK⟩ := h1.and ih
      (fun _ _ _ e h => ⟨fun i => (h.1 i).trans e, fun i j => (h.2 i j).trans e⟩)
      (fun _ _ _ e h => List.Forall₂.imp
        (fun _ _ h => ⟨fun i => (h.1 i).trans e, fun i j => (h.2 i j).trans e⟩) h)
    exact ⟨K, u₀, h0, fun u hu hu' ar => .cons (hK u hu hu' ar).1 (hK u hu hu' ar).2⟩

theorem exists_const_of_pairs {X : ℝ → Type} {q : Vec n × Mat n n → Prop}
    {f : (u : ℝ) × X u → Res (List (Vec n × Mat n n))} {l : List (Vec n × Mat n n)}
    (h : EvNear (smallErr X) (LNear fun g v => PairNear (smallErr X) (fun x => x.1) g v ∧ q v) f
      (.ok l)) :
    ∃ K u₀ : ℝ, 0 < u₀ ∧ ∀ u, 0 ≤ u → u ≤ u₀ → ∀ x : X u, ∃ l', f ⟨u, x⟩ = .ok l' ∧
      WithinErr (K * u) l' l := by
  obtain ⟨v, g, hv, hg, hR⟩ := h
  cases hv
  obtain ⟨K, u₀, h0, hK⟩ := small_of_pairs hR
  obtain ⟨u₁, h1, hg⟩ := smallErr_eventually hg
  exact ⟨K, min u₀ u₁, lt_min h0 h1, fun u hu hu' x =>
    ⟨_, hg u hu (hu'.trans (min_le_right _ _)) x, hK u hu (hu'.trans (min_le_left _ _)) x⟩⟩

/-! ### The linear classes -/

/-- **C104.** `KalmanFilter`: the program starts with moments that differ from `r` by at most `κ u`.
If the covariance in `r` and those of the state noise are positive semidefinite, those of the noise of
the observations made are positive definite, and the exact program raises no exception, then there are
`K` and `u₀ > 0` such that for all errors `u ≤ u₀` the program raises no exception and all its results
differ from the exact ones by at most `K u`. -/
theorem C104_standard (c : ℕ → ℝ) (κ : ℝ) {p : Params n m} {a : ℕ → UpdateArgs n m}
    {r : Vec n × Mat n n} {os : List (Option (Obs m))} (hr : r.2.PosSemidef)
    (hQ : ∀ t < os.length, ∀ Q, argOrDefault (a t).Q p.Q = .ok Q → Q.PosSemidef)
    (hR : ∀ t o, os[t]? = some o → Observed o → ∀ R, argOrDefault (a t).R p.R = .ok R → R.PosDef)
    {l : List (Vec n × Mat n n)} (hl : kfProgram p a r os = .ok l) :
    ∃ K u₀ : ℝ, 0 < u₀ ∧ ∀ u, 0 ≤ u → u ≤ u₀ → ∀ (ar : Arith c u) (r' : Vec n × Mat n n),
      PairWithin (κ * u) r' r → ∃ l', flProgram ar p a r' os = .ok l' ∧ WithinErr (K * u) l' l := by
  have h := near_calls (F := smallErr (Started (Arith c) κ r))
    (R := fun g v => PairNear (smallErr (Started (Arith c) κ r)) (fun x => x.1) g v ∧
      v.2.PosSemidef)
    (up := fun x t y o => flUpdate x.2.1 p y.1 y.2 o (a t))
    (up' := fun t y o => filterUpdate p y.1 y.2 o (a t))
    (P := fun t _ o => (∀ Q, argOrDefault (a t).Q p.Q = .ok Q → Q.PosSemidef) ∧
      (Observed o → ∀ R, argOrDefault (a t).R p.R = .ok R → R.PosDef))
    (fun t g v o r hg hP hv => near_flUpdate smallErr_tendsto hP.1 hP.2 hg.1 hg.2 hv) os 0
    (g := fun x => x.2.2.1) ⟨pairNear_started _ _ _, hr⟩ hl
    fun j o x ho _ => by
      rw [zero_add]
      exact ⟨hQ j (List.getElem?_eq_some_iff.mp ho).1, hR j o ho⟩
  obtain ⟨K, u₀, h0, hK⟩ := exists_const_of_pairs h
  exact ⟨K, u₀, h0, fun u hu hu' ar r' hr' => hK u hu hu' ⟨ar, r', hr'⟩⟩

/-- **C104.** `CholeskyKalmanFilter`: the same, compared with the exact program for `KalmanFilter`, if
all covariances are positive definite.  (Every call factors the covariance that the call before has
multiplied out.) -/
theorem C104_cholesky (c : ℕ → ℝ) (κ : ℝ) {p : Params n m} {a : ℕ → UpdateArgs n m}
    {r : Vec n × Mat n n} {os : List (Option (Obs m))} (hr : r.2.PosDef)
    (ha : ∀ t < os.length, (a t).PosDef p)
    {l : List (Vec n × Mat n n)} (hl : kfProgram p a r os = .ok l) :
    ∃ K u₀ : ℝ, 0 < u₀ ∧ ∀ u, 0 ≤ u → u ≤ u₀ → ∀ (ar : ArithC c u) (r' : Vec n × Mat n n),
      PairWithin (κ * u) r' r →
      ∃ l', flCholProgram ar p a r' os = .ok l' ∧ WithinErr (K * u) l' l := by
  have h := near_calls (F := smallErr (Started (ArithC c) κ r))
    (R := fun g v => PairNear (smallErr (Started (ArithC c) κ r)) (fun x => x.1) g v ∧ v.2.PosDef)
    (up := fun x t y o => (flCholUpdate x.2.1 p y.1 y.2 o (a t)).map fun q => (q.1, q.2 0))
    (up' := fun t y o => filterUpdate p y.1 y.2 o (a t)) (P := fun t _ _ => (a t).PosDef p)
    (fun t g v o r hg hP hv => near_flCholUpdate smallErr_tendsto hP hg.1 hg.2 hv) os 0
    (g := fun x => x.2.2.1) ⟨pairNear_started _ _ _, hr⟩ hl
    fun j o x ho _ => by
      rw [zero_add]
      exact ha j (List.getElem?_eq_some_iff.mp ho).1
  obtain ⟨K, u₀, h0, hK⟩ := exists_const_of_pairs h
  exact ⟨K, u₀, h0, fun u hu hu' ar r' hr' => hK u hu hu' ⟨ar, r', hr'⟩⟩

/-- **C104.** The same for `BiermanKalmanFilter`. -/
theorem C104_bierman (c : ℕ → ℝ) (κ : ℝ) (hn : 0 < n) {p : Params n m} {a : ℕ → UpdateArgs n m}
    {r : Vec n × Mat n n} {os : List (Option (Obs m))} (hr : r.2.PosDef)
    (ha : ∀ t < os.length, (a t).PosDef p)
    {l : List (Vec n × Mat n n)} (hl : kfProgram p a r os = .ok l) :
    ∃ K u₀ : ℝ, 0 < u₀ ∧ ∀ u, 0 ≤ u → u ≤ u₀ → ∀ (ar : ArithEL c u) (r' : Vec n × Mat n n),
      PairWithin (κ * u) r' r →
      ∃ l', flBierProgram ar p a r' os = .ok l' ∧ WithinErr (K * u) l' l := by
  have h := near_calls (F := smallErr (Started (ArithEL c) κ r))
    (R := fun g v => PairNear (smallErr (Started (ArithEL c) κ r)) (fun x => x.1) g v ∧ v.2.PosDef)
    (up := fun x t y o => (flBierUpdate x.2.1 p y.1 y.2 o (a t)).map fun q => (q.1, q.2 0))
    (up' := fun t y o => filterUpdate p y.1 y.2 o (a t)) (P := fun t _ _ => (a t).PosDef p)
    (fun t g v o r hg hP hv => near_flBierUpdate smallErr_tendsto hn hP hg.1 hg.2 hv) os 0
    (g := fun x => x.2.2.1) ⟨pairNear_started _ _ _, hr⟩ hl
    fun j o x ho _ => by
      rw [zero_add]
      exact ha j (List.getElem?_eq_some_iff.mp ho).1
  obtain ⟨K, u₀, h0, hK⟩ := exists_const_of_pairs h
  exact ⟨K, u₀, h0, fun u hu hu' ar r' hr' => hK u hu hu' ⟨ar, r', hr'⟩⟩

/-! ### A batch, then online -/

/-- The exact program continues the rows of `filter`. -/
theorem calls_filter (p : Params n m) (os : List (Obs m)) {out : List (Vec n × Mat n n)}
    (h : kfFilter p os = .ok out) (a : ℕ → UpdateArgs n m) (s : ℕ) (hs : s < os.length)
    (ha : ∀ t, s + t + 1 < os.length → (a t).SuppliedAt p (s + t)) {j : ℕ}
    {r : Vec n × Mat n n} (hr : out[s + j]? = some r) :
    UMachine.calls (fun t x o => filterUpdate p x.1 x.2 o (a t)) j r
      ((os.drop (s + j + 1)).map some) = .ok (out.drop (s + j + 1)) := by
  have hlen : out.length = os.length := by rw [kfFilter_ok h]; simp
  have key : ∀ (k j : ℕ) (r : Vec n × Mat n n), os.length = s + j + 1 + k → out[s + j]? = some r →
      UMachine.calls (fun t x o => filterUpdate p x.1 x.2 o (a t)) j r
        ((os.drop (s + j + 1)).map some) = .ok (out.drop (s + j + 1)) := by
    intro k
    induction k with
    | zero =>
      intro j r hk _
      rw [List.drop_of_length_le (by omega), List.drop_of_length_le (by omega)]
      rfl
    | succ k ih =>
      intro j r hk hr
      have hlt : s + j + 1 < os.length := by omega
      have hj := ha j hlt
      obtain ⟨r', h1, h2⟩ := C12_update_is_next_row p os out h (s + j) r.1 r.2 hr
        os[s + j + 1] (List.getElem?_eq_getElem hlt) (a j) hj.A hj.b hj.Q hj.C hj.d hj.R
      rw [List.drop_eq_getElem_cons hlt, List.drop_eq_getElem_cons (by omega : s + j + 1 < out.length)]
      have e : out[s + j + 1] = r' := by
        rw [List.getElem?_eq_getElem (by omega)] at h1
        exact Option.some.inj h1
      rw [e]
      exact calls_cons_of h2 (ih (j + 1) r' (by omega) (by rw [← h1]; rfl))
  have hj : s + j < out.length := (List.getElem?_eq_some_iff.mp hr).1
  exact key (os.length - (s + j + 1)) j r (by omega) hr

theorem WithinErr.mono {a b : ℝ} (hab : a ≤ b) {l l' : List (Vec n × Mat n n)}
    (h : WithinErr a l l') : WithinErr b l l' :=
  List.Forall₂.imp (fun _ _ h => ⟨fun i => (h.1 i).trans hab, fun i j => (h.2 i j).trans hab⟩) h

theorem WithinErr.last {e : ℝ} {l l' : List (Vec n × Mat n n)} (h : WithinErr e l l')
    {r : Vec n × Mat n n} (hr : l'.getLast? = some r) :
    ∃ r', l.getLast? = some r' ∧ PairWithin e r' r := by
  induction h with
  | nil => cases hr
  | @cons x y l l' hxy ht ih =>
    cases ht with
    | nil =>
      simp only [List.getLast?_singleton, Option.some.injEq] at hr
      subst hr
      exact ⟨x, rfl, hxy⟩
    | cons h1 h2 =>
      rw [List.getLast?_cons_cons] at hr ⊢
      exact ih hr

/-- A batch and a program that starts from its last row. -/
theorem batch_then_online {X : ℝ → Type} {fil : ∀ u, X u → Res (List (Vec n × Mat n n))}
    {prog : ∀ u, X u → Vec n × Mat n n → Res (List (Vec n × Mat n n))}
    {out out' : List (Vec n × Mat n n)} {r : Vec n × Mat n n}
    (h1 : ∃ K u₀ : ℝ, 0 < u₀ ∧ ∀ u, 0 ≤ u → u ≤ u₀ → ∀ x : X u, ∃ l, fil u x = .ok l ∧
      WithinErr (K * u) l out) (hr : out.getLast? = some r)
    (h2 : ∀ κ : ℝ, ∃ K u₀ : ℝ, 0 < u₀ ∧ ∀ u, 0 ≤ u → u ≤ u₀ → ∀ (x : X u) (r' : Vec n × Mat n n),
      PairWithin (κ * u) r' r → ∃ l, prog u x r' = .ok l ∧ WithinErr (K * u) l out') :
    ∃ K u₀ : ℝ, 0 < u₀ ∧ ∀ u, 0 ≤ u → u ≤ u₀ → ∀ x : X u, ∃ l r' l', fil u x = .ok l ∧
      l.getLast? = some r' ∧ prog u x r' = .ok l' ∧ WithinErr (K * u) (l ++ l') (out ++ out') := by
  obtain ⟨K, u₀, h0, h1⟩ := h1
  obtain ⟨K', u₁, h0', h2⟩ := h2 K
  refine ⟨max K K', min u₀ u₁, lt_min h0 h0', fun u hu hu' x => ?_⟩
  obtain ⟨l, e1, w1⟩ := h1 u hu (hu'.trans (min_le_left _ _)) x
  obtain ⟨r', e2, w2⟩ := w1.last hr
  obtain ⟨l', e3, w3⟩ := h2 u hu (hu'.trans (min_le_right _ _)) x r' w2
  exact ⟨l, r', l', e1, e2, e3, List.rel_append
    (w1.mono (mul_le_mul_of_nonneg_right (le_max_left _ _) hu))
    (w3.mono (mul_le_mul_of_nonneg_right (le_max_right _ _) hu))⟩

theorem filter_split {p : Params n m} {os os' : List (Obs m)} (hne : os ≠ [])
    (hdef : p.DefinedFor (os ++ os').length) {a : ℕ → UpdateArgs n m}
    (ha : ∀ t < os'.length, (a t).SuppliedAt p (os.length - 1 + t)) :
    ∃ out out' r, kfFilter p os = .ok out ∧ kfFilter p (os ++ os') = .ok (out ++ out') ∧
      out.getLast? = some r ∧ kfProgram p a r (os'.map some) = .ok out' := by
  have hc := definedFor_iff_covers.mp hdef
  have hpos := List.length_pos_iff.mpr hne
  have h := kfFilter_eq hc
  set full := (List.range (os ++ os').length).map
    (fun t => ((p.fn.kf (obsFn (os ++ os')) t).filtMean, (p.fn.kf (obsFn (os ++ os')) t).filtCov))
    with hfull
  have hlen : full.length = os.length + os'.length := by simp [hfull]
  have h1 : kfFilter p os = .ok (full.take os.length) := by
    have := C11_filter_causal p (os ++ os') os.length full h
    rwa [List.take_left] at this
  obtain ⟨r, hr⟩ : ∃ r, full[os.length - 1]? = some r :=
    ⟨full[os.length - 1]'(by omega), List.getElem?_eq_getElem _⟩
  have h2 := calls_filter p (os ++ os') h a (os.length - 1) (by simp; omega)
    (fun t ht => ha t (by simp at ht; omega)) (j := 0) hr
  rw [show os.length - 1 + 0 + 1 = os.length by omega, List.drop_left] at h2
  refine ⟨full.take os.length, full.drop os.length, r, h1, by rw [List.take_append_drop]; exact h,
    ?_, h2⟩
  rw [List.getLast?_eq_getElem?, List.length_take, hlen, Nat.min_eq_left (by omega),
    List.getElem?_take_of_lt (by omega), hr]

theorem SuppliedAt.posDef {p : Params n m} (hp : p.PosDef) {a : UpdateArgs n m} {t : ℕ}
    (ha : a.SuppliedAt p t) : a.PosDef p := by
  obtain ⟨⟨Q, hQ, hQp⟩, ⟨R, hR, hRp⟩, -⟩ := hp
  constructor
  · intro Q' h
    rw [argOrDefault_supplied ha.Q (by rw [hQ]; rfl)] at h
    cases h
    exact hQp
  · intro R' h
    rw [argOrDefault_supplied ha.R (by rw [hR]; rfl)] at h
    cases h
    exact hRp

/-- **C104.** `KalmanFilter`: a program filters the observations `os` with `filter` and each further
one with `filter_update`, with the parameters of the time step, starting with the last row.  All rows
are within `K u` of those of the exact `filter` on all observations. -/
theorem C104_standard_online (c : ℕ → ℝ) {p : Params n m} {os os' : List (Obs m)} (hne : os ≠ [])
    (hdef : p.DefinedFor (os ++ os').length) (hpsd : p.PSD (os ++ os').length)
    (hR : ∀ t o, (os ++ os')[t]? = some o → ¬ o.missing → ∀ R, lastDims p.R t = .ok R → R.PosDef)
    {a : ℕ → UpdateArgs n m} (ha : ∀ t < os'.length, (a t).SuppliedAt p (os.length - 1 + t)) :
    ∃ l, kfFilter p (os ++ os') = .ok l ∧
    ∃ K u₀ : ℝ, 0 < u₀ ∧ ∀ u, 0 ≤ u → u ≤ u₀ → ∀ ar : Arith c u, ∃ l₁ r l₂,
      flFilter ar p os = .ok l₁ ∧ l₁.getLast? = some r ∧
      flProgram ar p a r (os'.map some) = .ok l₂ ∧ WithinErr (K * u) (l₁ ++ l₂) l := by
  have hpos := List.length_pos_iff.mpr hne
  obtain ⟨out, out', r, h1, h2, h3, h4⟩ := filter_split hne hdef ha
  refine ⟨_, h2, batch_then_online (X := Arith c) (fil := fun u ar => flFilter ar p os)
    (prog := fun u ar r => flProgram ar p a r (os'.map some)) ?_ h3 fun κ => ?_⟩
  · have hd : p.DefinedFor os.length := definedFor_iff_covers.mpr
      ((definedFor_iff_covers.mp hdef).mono (by simp))
    obtain ⟨K, u₀, h0, h⟩ := C79_filter c hd
      ⟨fun t ht => hpsd.Q t (by simp; omega), fun t ht => hpsd.R t (by simp; omega), hpsd.S0⟩
      fun t o ho => hR t o (by
        rw [List.getElem?_append_left (List.getElem?_eq_some_iff.mp ho).1]; exact ho)
    refine ⟨K, u₀, h0, fun u hu hu' ar => ?_⟩
    obtain ⟨l, l', e1, e2, e3⟩ := h u hu hu' ar
    rw [h1] at e2
    cases e2
    exact ⟨l, e1, e3⟩
  · refine C104_standard c κ ?_ (fun t ht Q hQ => ?_) (fun t o ho hobs R hR' => ?_) h4
    · have hr := h3
      rw [List.getLast?_eq_getElem?] at hr
      obtain ⟨hlt, hc, rfl⟩ := kfFilter_row h1 hr
      exact (PFun.PSD.filt ((Params.PSD.fn (T := os.length)
        ⟨fun t ht => hpsd.Q t (by simp; omega), fun t ht => hpsd.R t (by simp; omega), hpsd.S0⟩ hc))
        hlt _)
    · rw [List.length_map] at ht
      have hlt : os.length - 1 + t + 1 < (os ++ os').length := by simp; omega
      obtain ⟨Q', hQ'⟩ := hdef.Q (os.length - 1 + t) hlt
      rw [argOrDefault_supplied (ha t ht).Q hQ'] at hQ
      cases hQ
      exact hpsd.Q _ hlt _ hQ'
    · obtain ⟨x, rfl, hx⟩ := hobs
      rw [List.getElem?_map] at ho
      obtain ⟨y, hy, e⟩ := Option.map_eq_some_iff.mp ho
      cases e
      have ht : t < os'.length := (List.getElem?_eq_some_iff.mp hy).1
      have hlt : os.length - 1 + t + 1 < (os ++ os').length := by simp; omega
      obtain ⟨R', hR''⟩ := hdef.R (os.length - 1 + t + 1) hlt
      rw [argOrDefault_supplied (ha t ht).R hR''] at hR'
      cases hR'
      refine hR _ x ?_ hx _ hR''
      rw [List.getElem?_append_right (by omega), show os.length - 1 + t + 1 - os.length = t by omega]
      exact hy

/-- **C104.** The same program with `CholeskyKalmanFilter`, if the three covariances are positive
definite. -/
theorem C104_cholesky_online (c : ℕ → ℝ) {p : Params n m} {os os' : List (Obs m)} (hne : os ≠ [])
    (hdef : p.DefinedFor (os ++ os').length) (hp : p.PosDef)
    {a : ℕ → UpdateArgs n m} (ha : ∀ t < os'.length, (a t).SuppliedAt p (os.length - 1 + t)) :
    ∃ l, kfFilter p (os ++ os') = .ok l ∧
    ∃ K u₀ : ℝ, 0 < u₀ ∧ ∀ u, 0 ≤ u → u ≤ u₀ → ∀ ar : ArithC c u, ∃ l₁ r l₂,
      flCholFilter ar p os = .ok l₁ ∧ l₁.getLast? = some r ∧
      flCholProgram ar p a r (os'.map some) = .ok l₂ ∧ WithinErr (K * u) (l₁ ++ l₂) l := by
  have hpos := List.length_pos_iff.mpr hne
  obtain ⟨out, out', r, h1, h2, h3, h4⟩ := filter_split hne hdef ha
  refine ⟨_, h2, batch_then_online (X := ArithC c) (fil := fun u ar => flCholFilter ar p os)
    (prog := fun u ar r => flCholProgram ar p a r (os'.map some)) ?_ h3 fun κ => ?_⟩
  · have hd : p.DefinedFor os.length := definedFor_iff_covers.mpr
      ((definedFor_iff_covers.mp hdef).mono (by simp))
    obtain ⟨K, u₀, h0, h⟩ := C80_filter c hd hp
    refine ⟨K, u₀, h0, fun u hu hu' ar => ?_⟩
    obtain ⟨l, l', e1, e2, e3⟩ := h u hu hu' ar
    rw [h1] at e2
    cases e2
    exact ⟨l, e1, e3⟩
  · refine C104_cholesky c κ ?_ (fun t ht => SuppliedAt.posDef hp (ha t (by simpa using ht))) h4
    have hr := h3
    rw [List.getLast?_eq_getElem?] at hr
    obtain ⟨hlt, hc, rfl⟩ := kfFilter_row h1 hr
    exact (((hp.pdAt os.length).fn hc).filt _ hlt).2

/-- **C104.** The same program with `BiermanKalmanFilter`, if the three covariances are positive
definite. -/
theorem C104_bierman_online (c : ℕ → ℝ) (hn : 0 < n) {p : Params n m} {os os' : List (Obs m)}
    (hne : os ≠ []) (hdef : p.DefinedFor (os ++ os').length) (hp : p.PosDef)
    {a : ℕ → UpdateArgs n m} (ha : ∀ t < os'.length, (a t).SuppliedAt p (os.length - 1 + t)) :
    ∃ l, kfFilter p (os ++ os') = .ok l ∧
    ∃ K u₀ : ℝ, 0 < u₀ ∧ ∀ u, 0 ≤ u → u ≤ u₀ → ∀ ar : ArithEL c u, ∃ l₁ r l₂,
      flBierFilter ar p os = .ok l₁ ∧ l₁.getLast? = some r ∧
      flBierProgram ar p a r (os'.map some) = .ok l₂ ∧ WithinErr (K * u) (l₁ ++ l₂) l := by
  have hpos := List.length_pos_iff.mpr hne
  obtain ⟨out, out', r, h1, h2, h3, h4⟩ := filter_split hne hdef ha
  refine ⟨_, h2, batch_then_online (X := ArithEL c) (fil := fun u ar => flBierFilter ar p os)
    (prog := fun u ar r => flBierProgram ar p a r (os'.map some)) ?_ h3 fun κ => ?_⟩
  · have hd : p.DefinedFor os.length := definedFor_iff_covers.mpr
      ((definedFor_iff_covers.mp hdef).mono (by simp))
    obtain ⟨K, u₀, h0, h⟩ := C94_filter c hn hne hd hp
    refine ⟨K, u₀, h0, fun u hu hu' ar => ?_⟩
    obtain ⟨l, l', e1, e2, e3⟩ := h u hu hu' ar
    rw [h1] at e2
    cases e2
    exact ⟨l, e1, e3⟩
  · refine C104_bierman c κ hn ?_ (fun t ht => SuppliedAt.posDef hp (ha t (by simpa using ht))) h4
    have hr := h3
    rw [List.getLast?_eq_getElem?] at hr
    obtain ⟨hlt, hc, rfl⟩ := kfFilter_row h1 hr
    exact (((hp.pdAt os.length).fn hc).filt _ hlt).2

/-! ### The unscented classes -/

/-- Arithmetic, computed functions and arguments with errors up to `u`, and moments up to `κ u` from
the exact ones. -/
structure UStarted (c : ℕ → ℝ) (κ : ℝ) (κf κg : Vec n → ℝ) (p : UParams n m)
    (a : ℕ → UUpdateArgs n m) (M : Moments n) (k : ℕ) (u : ℝ) where
  ar : ArithU c u
  f : Fns (Vec n → Vec n)
  g : Fns (Vec n → Vec m)
  a' : ℕ → UUpdateArgs n m
  M' : Moments n
  hf : f.Within (FnErr κf u) p.f
  hg : g.Within (FnErr κg u) p.g
  ha : ∀ t < k, (a' t).Within κf κg u (a t)
  hM : MomentsWithin (κ * u) [M'] [M]

theorem momNear_started {X : ℝ → Type} {κ : ℝ} {M : Moments n} (hM : M.covᵀ = M.cov)
    {g : (u : ℝ) × X u → Moments n} (h : ∀ x, MomentsWithin (κ * x.1) [g x] [M]) :
    MomNear (smallErr X) (fun x => x.1) g M := by
  have h' : ∀ x, (∀ i, |(g x).mean i - M.mean i| ≤ κ * x.1) ∧
      ∀ i j, |(g x).cov i j - M.cov i j| ≤ κ * x.1 := fun x => (List.forall₂_cons.mp (h x)).1
  exact ⟨fun i => ow_of_started fun x => (h' x).1 i, fun i j => ow_of_started fun x => (h' x).2 i j, hM⟩

/-- **C104.** `AdditiveUnscentedKalmanFilter`: if all functions are locally Lipschitz, the covariances
symmetric, the exact program raises no exception, and in the calls with an observation the covariance
predicted for it is regular, then there are `K` and `u₀ > 0` such that for all errors `u ≤ u₀`, in every
arithmetic with errors up to `u`, for all computed functions that differ from the exact ones by at most
`u κ(x)` and from every start within `κ u`, the program raises no exception and returns moments that
differ from the exact ones by at most `K u`. -/
theorem C104_additive (c : ℕ → ℝ) (κ : ℝ) {p : UParams n m} {a : ℕ → UUpdateArgs n m} {M : Moments n}
    {os : List (Option (Obs m))} (hQ : ∀ t < os.length, ((a t).Q.getD p.Q)ᵀ = (a t).Q.getD p.Q)
    (hR : ∀ t < os.length, ((a t).R.getD p.R)ᵀ = (a t).R.getD p.R) (hM : M.covᵀ = M.cov)
    (lf : p.f.All LocallyLipschitz) (lg : p.g.All LocallyLipschitz)
    (af : ∀ t < os.length, ∀ f ∈ (a t).f, LocallyLipschitz f)
    (ag : ∀ t < os.length, ∀ g ∈ (a t).g, LocallyLipschitz g)
    {κf κg : Vec n → ℝ} (cf : Continuous κf) (cg : Continuous κg)
    {l : List (Moments n)} (hl : aukfProgram p a M os = .ok l)
    (hreg : CallsRegular (fun t => p.updateObsMoments (a t)) M os l) :
    ∃ K u₀ : ℝ, 0 < u₀ ∧ ∀ u, 0 ≤ u → u ≤ u₀ → ∀ (ar : ArithU c u) (f : Fns (Vec n → Vec n))
      (g : Fns (Vec n → Vec m)) (a' : ℕ → UUpdateArgs n m) (M' : Moments n),
      f.Within (FnErr κf u) p.f → g.Within (FnErr κg u) p.g →
      (∀ t < os.length, (a' t).Within κf κg u (a t)) → MomentsWithin (κ * u) [M'] [M] →
      ∃ l', flAukfProgram ar { p with f := f, g := g } a' M' os = .ok l' ∧
        MomentsWithin (K * u) l' l := by
  have h := near_calls (F := smallErr (UStarted c κ κf κg p a M os.length))
    (R := MomNear (smallErr (UStarted c κ κf κg p a M os.length)) fun x => x.1)
    (up := fun x t y o => flAukfUpdate x.2.ar { p with f := x.2.f, g := x.2.g } y o (x.2.a' t))
    (up' := fun t y o => aukfUpdate p y o (a t))
    (P := fun t y o => t < os.length ∧ (Observed o → ∀ x, p.updateObsMoments (a t) y = .ok x → IsUnit x.cov.det))
    (fun t g v o r hg hP hv => near_flAukfUpdate (w := fun x => x.1)
      (ar := fun x => x.2.ar) (f := fun x => x.2.f) (g := fun x => x.2.g)
      (a := fun x => x.2.a' t) (a' := a t) (M := g) (M' := v) smallErr_tendsto
      (show UFnsNear κf κg p _ _ _ from ⟨cf, cg, fun x => x.2.hf, fun x => x.2.hg, lf, lg⟩)
      (fun x => x.2.ha t hP.1) (hQ t hP.1) (hR t hP.1) (af t hP.1) (ag t hP.1) hg hP.2 hv) os 0
    (g := fun x => x.2.M') (momNear_started hM fun x => x.2.hM) hl
    fun j o x ho hx => by
      rw [zero_add]
      exact ⟨(List.getElem?_eq_some_iff.mp ho).1, fun hobs y hy => hreg j o x ho hobs hx y hy⟩
  obtain ⟨K, u₀, h0, hK⟩ := exists_const_of_ev h rfl
  exact ⟨K, u₀, h0, fun u hu hu' ar f g a' M' hf hg ha hM' =>
    hK u hu hu' ⟨ar, f, g, a', M', hf, hg, ha, hM'⟩⟩

/-- Likewise for `UnscentedKalmanFilter`. -/
structure GStarted (c : ℕ → ℝ) (κ : ℝ) (κf : Vec n × Vec n → ℝ) (κg : Vec n × Vec m → ℝ)
    (p : GParams n m) (a : ℕ → GUpdateArgs n m) (M : Moments n) (k : ℕ) (u : ℝ) where
  ar : ArithU c u
  f : Fns (Vec n → Vec n → Vec n)
  g : Fns (Vec n → Vec m → Vec m)
  a' : ℕ → GUpdateArgs n m
  M' : Moments n
  hf : f.Within (fun a b => FnErr κf u (fun x => a x.1 x.2) fun x => b x.1 x.2) p.f
  hg : g.Within (fun a b => FnErr κg u (fun x => a x.1 x.2) fun x => b x.1 x.2) p.g
  ha : ∀ t < k, (a' t).Within κf κg u (a t)
  hM : MomentsWithin (κ * u) [M'] [M]

/-- **C104.** The same for `UnscentedKalmanFilter`, whose functions take the noise as an argument. -/
theorem C104_general (c : ℕ → ℝ) (κ : ℝ) {p : GParams n m} {a : ℕ → GUpdateArgs n m} {M : Moments n}
    {os : List (Option (Obs m))} (hQ : ∀ t < os.length, ((a t).Q.getD p.Q)ᵀ = (a t).Q.getD p.Q)
    (hR : ∀ t < os.length, ((a t).R.getD p.R)ᵀ = (a t).R.getD p.R) (hM : M.covᵀ = M.cov)
    (lf : p.f.All fun f => LocallyLipschitz fun x : Vec n × Vec n => f x.1 x.2)
    (lg : p.g.All fun g => LocallyLipschitz fun x : Vec n × Vec m => g x.1 x.2)
    (af : ∀ t < os.length, ∀ f ∈ (a t).f, LocallyLipschitz fun x : Vec n × Vec n => f x.1 x.2)
    (ag : ∀ t < os.length, ∀ g ∈ (a t).g, LocallyLipschitz fun x : Vec n × Vec m => g x.1 x.2)
    {κf : Vec n × Vec n → ℝ} {κg : Vec n × Vec m → ℝ} (cf : Continuous κf) (cg : Continuous κg)
    {l : List (Moments n)} (hl : ukfProgram p a M os = .ok l)
    (hreg : CallsRegular (fun t => p.updateObsMoments (a t)) M os l) :
    ∃ K u₀ : ℝ, 0 < u₀ ∧ ∀ u, 0 ≤ u → u ≤ u₀ → ∀ (ar : ArithU c u)
      (f : Fns (Vec n → Vec n → Vec n)) (g : Fns (Vec n → Vec m → Vec m))
      (a' : ℕ → GUpdateArgs n m) (M' : Moments n),
      f.Within (fun a b => FnErr κf u (fun x => a x.1 x.2) fun x => b x.1 x.2) p.f →
      g.Within (fun a b => FnErr κg u (fun x => a x.1 x.2) fun x => b x.1 x.2) p.g →
      (∀ t < os.length, (a' t).Within κf κg u (a t)) → MomentsWithin (κ * u) [M'] [M] →
      ∃ l', flUkfProgram ar { p with f := f, g := g } a' M' os = .ok l' ∧
        MomentsWithin (K * u) l' l := by
  have h := near_calls (F := smallErr (GStarted c κ κf κg p a M os.length))
    (R := MomNear (smallErr (GStarted c κ κf κg p a M os.length)) fun x => x.1)
    (up := fun x t y o => flUkfUpdate x.2.ar { p with f := x.2.f, g := x.2.g } y o (x.2.a' t))
    (up' := fun t y o => ukfUpdate p y o (a t))
    (P := fun t y o => t < os.length ∧ (Observed o → ∀ x, p.updateObsMoments (a t) y = .ok x → IsUnit x.cov.det))
    (fun t g v o r hg hP hv => near_flUkfUpdate (w := fun x => x.1)
      (ar := fun x => x.2.ar) (f := fun x => x.2.f) (g := fun x => x.2.g)
      (a := fun x => x.2.a' t) (a' := a t) (M := g) (M' := v) smallErr_tendsto
      (show GFnsNear κf κg p _ _ _ from ⟨cf, cg, fun x => x.2.hf, fun x => x.2.hg, lf, lg⟩)
      (fun x => x.2.ha t hP.1) (hQ t hP.1) (hR t hP.1) (af t hP.1) (ag t hP.1) hg hP.2 hv) os 0
    (g := fun x => x.2.M') (momNear_started hM fun x => x.2.hM) hl
    fun j o x ho hx => by
      rw [zero_add]
      exact ⟨(List.getElem?_eq_some_iff.mp ho).1, fun hobs y hy => hreg j o x ho hobs hx y hy⟩
  obtain ⟨K, u₀, h0, hK⟩ := exists_const_of_ev h rfl
  exact ⟨K, u₀, h0, fun u hu hu' ar f g a' M' hf hg ha hM' =>
    hK u hu hu' ⟨ar, f, g, a', M', hf, hg, ha, hM'⟩⟩

/-! ### Up to three state dimensions -/

theorem aukfUpdate_posDef (hn : n ≤ 3) {p : UParams n m} {a : UUpdateArgs n m}
    (hQ : (a.Q.getD p.Q).PosDef) (hR : (a.R.getD p.R).PosDef)
    (hf : ∃ f, defaultFunction a.f p.f = .ok f) (hg : ∃ g, defaultFunction a.g p.g = .ok g)
    {M : Moments n} (hM : M.cov.PosDef) (o : Option (Obs m)) :
    ∃ r, aukfUpdate p M o a = .ok r ∧ r.cov.PosDef := by
  obtain ⟨f, hf⟩ := hf
  obtain ⟨g, hg⟩ := hg
  rw [aukfUpdate_one, hf, hg]
  exact aukfStep_posDef hn (u := { p.one a f g with S0 := 1 }) hQ hR PosDef.one
    (by rintro _ ⟨⟩; exact hM) _ rfl fun _ => ⟨_, rfl⟩

theorem aukfProgram_posDef (hn : n ≤ 3) {p : UParams n m} {a : ℕ → UUpdateArgs n m}
    {T : ℕ} (hQ : ∀ t < T, ((a t).Q.getD p.Q).PosDef) (hR : ∀ t < T, ((a t).R.getD p.R).PosDef)
    (hf : ∀ t < T, ∃ f, defaultFunction (a t).f p.f = .ok f)
    (hg : ∀ t < T, ∃ g, defaultFunction (a t).g p.g = .ok g) (os : List (Option (Obs m))) (t : ℕ)
    (hT : t + os.length ≤ T)
    {M : Moments n} (hM : M.cov.PosDef) :
    ∃ l, UMachine.calls (fun t x o => aukfUpdate p x o (a t)) t M os = .ok l ∧
      ∀ x ∈ l, x.cov.PosDef := by
  induction os generalizing t M with
  | nil => exact ⟨[], rfl, by simp⟩
  | cons o os ih =>
    have ht : t < T := by simp at hT; omega
    obtain ⟨r, h1, h2⟩ := aukfUpdate_posDef hn (hQ t ht) (hR t ht) (hf t ht) (hg t ht) hM o
    obtain ⟨l, h3, h4⟩ := ih (t + 1) (by simp at hT; omega) h2
    exact ⟨r :: l, calls_cons_of h1 h3, by
      intro x hx
      rcases List.mem_cons.mp hx with rfl | hx
      exacts [h2, h4 x hx]⟩

/-- **C104.** With at most three state dimensions and positive definite covariances nothing has to be
assumed about the program: if every call finds its functions, no call raises an exception, all
covariances are positive definite, and the computed moments differ from them by at most `K u`. -/
theorem C104_three_dimensions (c : ℕ → ℝ) (κ : ℝ) (hn : n ≤ 3) {p : UParams n m}
    {a : ℕ → UUpdateArgs n m} {M : Moments n} {os : List (Option (Obs m))}
    (hQ : ∀ t < os.length, ((a t).Q.getD p.Q).PosDef)
    (hR : ∀ t < os.length, ((a t).R.getD p.R).PosDef) (hM : M.cov.PosDef)
    (hf : ∀ t < os.length, ∃ f, defaultFunction (a t).f p.f = .ok f)
    (hg : ∀ t < os.length, ∃ g, defaultFunction (a t).g p.g = .ok g)
    (lf : p.f.All LocallyLipschitz) (lg : p.g.All LocallyLipschitz)
    (af : ∀ t < os.length, ∀ f ∈ (a t).f, LocallyLipschitz f)
    (ag : ∀ t < os.length, ∀ g ∈ (a t).g, LocallyLipschitz g)
    {κf κg : Vec n → ℝ} (cf : Continuous κf) (cg : Continuous κg) :
    ∃ l, aukfProgram p a M os = .ok l ∧ (∀ x ∈ l, x.cov.PosDef) ∧
    ∃ K u₀ : ℝ, 0 < u₀ ∧ ∀ u, 0 ≤ u → u ≤ u₀ → ∀ (ar : ArithU c u) (f : Fns (Vec n → Vec n))
      (g : Fns (Vec n → Vec m)) (a' : ℕ → UUpdateArgs n m) (M' : Moments n),
      f.Within (FnErr κf u) p.f → g.Within (FnErr κg u) p.g →
      (∀ t < os.length, (a' t).Within κf κg u (a t)) → MomentsWithin (κ * u) [M'] [M] →
      ∃ l', flAukfProgram ar { p with f := f, g := g } a' M' os = .ok l' ∧
        MomentsWithin (K * u) l' l := by
  obtain ⟨l, h1, h2⟩ := aukfProgram_posDef hn hQ hR hf hg os 0 (by omega) hM
  refine ⟨l, h1, h2, C104_additive c κ (fun t ht => symm_of_posSemidef (hQ t ht).posSemidef)
    (fun t ht => symm_of_posSemidef (hR t ht).posSemidef) (symm_of_posSemidef hM.posSemidef) lf lg af ag cf
    cg h1 ?_⟩
  intro t o x ho _ hx M' hM'
  have ht := (List.getElem?_eq_some_iff.mp ho).1
  have hx' : x.cov.PosDef := by
    rcases List.mem_cons.mp (List.mem_of_getElem? hx) with rfl | hx
    exacts [hM, h2 x hx]
  simp only [UParams.updateObsMoments] at hM'
  obtain ⟨f, -, hM'⟩ := ok_bind_iff.mp hM'
  obtain ⟨g, -, hM'⟩ := ok_bind_iff.mp hM'
  obtain ⟨pts, h1, hM'⟩ := ok_bind_iff.mp hM'
  obtain ⟨pts', h2, hM'⟩ := ok_bind_iff.mp hM'
  cases hM'
  obtain ⟨s, e1, -, e3⟩ := moments2points_good hn x hx'
  rw [e1] at h1
  cases h1
  obtain ⟨s', d1, -, d3⟩ := moments2points_good hn _ (predict_posDef e3 f (hQ t ht))
  rw [d1] at h2
  cases h2
  exact (predict_posDef d3 g (hR t ht)).det_pos.ne'.isUnit

/-! ### A batch, then online: the unscented classes -/

theorem supplied_function {α : Type} {arg : Option α} {fns : Fns α} {t : ℕ}
    (h : FnSupplied arg fns t) : ∃ f, defaultFunction arg fns = .ok f ∧ fns.at t = .ok f := by
  rcases h with ⟨f, rfl, h⟩ | ⟨rfl, f, rfl⟩
  · refine ⟨f, ?_, h⟩
    cases fns <;> rfl
  · exact ⟨f, rfl, rfl⟩

theorem getD_supplied {α : Type} {a : Option α} {b : α} (h : a = none ∨ a = some b) :
    a.getD b = b := by
  rcases h with h | h <;> rw [h] <;> rfl

theorem supplied_all {α : Type} {q : α → Prop} {arg : Option α} {fns : Fns α} {t : ℕ}
    (h : FnSupplied arg fns t) (ha : fns.All q) : ∀ f ∈ arg, q f := by
  rintro f rfl
  rcases h with ⟨f', h1, h2⟩ | ⟨h1, -⟩
  · cases h1
    exact Fns.All.at ha h2
  · cases h1

theorem aukfUpdate_supplied {p : UParams n m} {a : UUpdateArgs n m} {t : ℕ} (h : a.SuppliedAt p t)
    (M : Moments n) (o : Obs m) : aukfUpdate p M (some o) a = aukfStep p (t + 1) (some M) o := by
  obtain ⟨f, hf1, hf2⟩ := supplied_function h.f
  obtain ⟨g, hg1, hg2⟩ := supplied_function h.g
  simp only [aukfStep, aukfUpdate, hf1, hg1, hf2, hg2, getD_supplied h.Q, getD_supplied h.R, bind,
    Except.bind, Option.getD_some, Nat.add_sub_cancel]

theorem ukfUpdate_supplied {p : GParams n m} {a : GUpdateArgs n m} {t : ℕ} (h : a.SuppliedAt p t)
    (M : Moments n) (o : Obs m) : ukfUpdate p M (some o) a = ukfStep p (t + 1) (some M) o := by
  obtain ⟨f, hf1, hf2⟩ := supplied_function h.f
  obtain ⟨g, hg1, hg2⟩ := supplied_function h.g
  simp only [ukfStep, ukfUpdate, hf1, hg1, hf2, hg2, getD_supplied h.Q, getD_supplied h.R, bind,
    Except.bind, Option.getD_some, Nat.add_sub_cancel]

theorem updateObsMoments_supplied {p : UParams n m} {a : UUpdateArgs n m} {t : ℕ}
    (h : a.SuppliedAt p t) (M : Moments n) :
    p.updateObsMoments a M = p.obsMoments (t + 1) (some M) := by
  obtain ⟨f, hf1, hf2⟩ := supplied_function h.f
  obtain ⟨g, hg1, hg2⟩ := supplied_function h.g
  simp only [UParams.updateObsMoments, UParams.obsMoments, hf1, hg1, hf2, hg2, getD_supplied h.Q,
    getD_supplied h.R, bind, Except.bind, Nat.add_sub_cancel]

theorem updateObsMoments_supplied₂ {p : GParams n m} {a : GUpdateArgs n m} {t : ℕ}
    (h : a.SuppliedAt p t) (M : Moments n) :
    p.updateObsMoments a M = p.obsMoments (t + 1) (some M) := by
  obtain ⟨f, hf1, hf2⟩ := supplied_function h.f
  obtain ⟨g, hg1, hg2⟩ := supplied_function h.g
  simp only [GParams.updateObsMoments, GParams.obsMoments, hf1, hg1, hf2, hg2, getD_supplied h.Q,
    getD_supplied h.R, bind, Except.bind, Nat.add_sub_cancel]

theorem runLoop_calls {σ : Type} {step : ℕ → Option σ → Obs m → Res σ}
    {up : ℕ → σ → Option (Obs m) → Res σ} {s k : ℕ}
    (h : ∀ t < k, ∀ x o, up t x (some o) = step (s + t) (some x) o) (os : List (Obs m)) (t : ℕ)
    (hk : t + os.length ≤ k) (x : σ) :
    UMachine.calls up t x (os.map some) = runLoop step (s + t) (some x) os := by
  induction os generalizing t x with
  | nil => rfl
  | cons o os ih =>
    simp only [List.map_cons, UMachine.calls, runLoop]
    rw [h t (by simp at hk; omega)]
    cases step (s + t) (some x) o with
    | error e => rfl
    | ok r =>
      have := ih (t + 1) (by simp at hk; omega) r
      simp only [bind, Except.bind, pure, Except.pure]
      rw [this, add_assoc]
      cases runLoop step (s + (t + 1)) (some r) os <;> rfl

/-- The rows of a loop on `os ++ os'` are those on `os` and those of the program from the last. -/
theorem runLoop_split {σ : Type} {step : ℕ → Option σ → Obs m → Res σ}
    {up : ℕ → σ → Option (Obs m) → Res σ} {os os' : List (Obs m)} (hne : os ≠ [])
    (h : ∀ t < os'.length, ∀ x o, up t x (some o) = step (os.length - 1 + t + 1) (some x) o)
    {l : List σ} (hl : runLoop step 0 none (os ++ os') = .ok l) :
    ∃ out out' r, runLoop step 0 none os = .ok out ∧ l = out ++ out' ∧ out.length = os.length ∧
      out.getLast? = some r ∧ UMachine.calls up 0 r (os'.map some) = .ok out' := by
  have hpos := List.length_pos_iff.mpr hne
  rw [runLoop_append] at hl
  obtain ⟨out, h1, hl⟩ := ok_bind_iff.mp hl
  have hlen : out.length = os.length := runLoop_length h1
  obtain ⟨r, hr⟩ : ∃ r, out.getLast? = some r := by
    cases e : out.getLast? with
    | none =>
      rw [List.getLast?_eq_none_iff] at e
      subst e
      simp at hlen
      omega
    | some r => exact ⟨r, rfl⟩
  rw [hr] at hl
  cases e : runLoop step (0 + os.length) (some r) os' with
  | error x => simp only [e] at hl; cases hl
  | ok out' =>
    simp only [e] at hl
    cases hl
    refine ⟨out, out', r, h1, rfl, hlen, hr, ?_⟩
    rw [runLoop_calls (s := os.length) (k := os'.length) (step := step) ?_ os' 0 (by omega) r]
    · rw [← e, add_comm]
    · intro t ht x o
      rw [h t ht, show os.length - 1 + t + 1 = os.length + t by omega]

theorem MomentsWithin.last {e : ℝ} {l l' : List (Moments n)} (h : MomentsWithin e l l')
    {r : Moments n} (hr : l'.getLast? = some r) :
    ∃ r', l.getLast? = some r' ∧ MomentsWithin e [r'] [r] := by
  induction h with
  | nil => cases hr
  | @cons x y l l' hxy ht ih =>
    cases ht with
    | nil =>
      simp only [List.getLast?_singleton, Option.some.injEq] at hr
      subst hr
      exact ⟨x, rfl, .cons hxy .nil⟩
    | cons h1 h2 =>
      rw [List.getLast?_cons_cons] at hr ⊢
      exact ih hr

/-- A batch and a program that starts from its last row. -/
theorem batch_then_online_moments {X : ℝ → Type} {fil : ∀ u, X u → Res (List (Moments n))}
    {prog : ∀ u, X u → Moments n → Res (List (Moments n))}
    {out out' : List (Moments n)} {r : Moments n}
    (h1 : ∃ K u₀ : ℝ, 0 < u₀ ∧ ∀ u, 0 ≤ u → u ≤ u₀ → ∀ x : X u, ∃ l, fil u x = .ok l ∧
      MomentsWithin (K * u) l out) (hr : out.getLast? = some r)
    (h2 : ∀ κ : ℝ, ∃ K u₀ : ℝ, 0 < u₀ ∧ ∀ u, 0 ≤ u → u ≤ u₀ → ∀ (x : X u) (r' : Moments n),
      MomentsWithin (κ * u) [r'] [r] → ∃ l, prog u x r' = .ok l ∧ MomentsWithin (K * u) l out') :
    ∃ K u₀ : ℝ, 0 < u₀ ∧ ∀ u, 0 ≤ u → u ≤ u₀ → ∀ x : X u, ∃ l r' l', fil u x = .ok l ∧
      l.getLast? = some r' ∧ prog u x r' = .ok l' ∧
      MomentsWithin (K * u) (l ++ l') (out ++ out') := by
  obtain ⟨K, u₀, h0, h1⟩ := h1
  obtain ⟨K', u₁, h0', h2⟩ := h2 K
  refine ⟨max K K', min u₀ u₁, lt_min h0 h0', fun u hu hu' x => ?_⟩
  obtain ⟨l, e1, w1⟩ := h1 u hu (hu'.trans (min_le_left _ _)) x
  obtain ⟨r', e2, w2⟩ := w1.last hr
  obtain ⟨l', e3, w3⟩ := h2 u hu (hu'.trans (min_le_right _ _)) x r' w2
  exact ⟨l, r', l', e1, e2, e3, List.rel_append
    (w1.mono (mul_le_mul_of_nonneg_right (le_max_left _ _) hu))
    (w3.mono (mul_le_mul_of_nonneg_right (le_max_right _ _) hu))⟩

theorem obsRegular_left {om : ℕ → Option (Moments n) → Res (Moments m)} {os os' : List (Obs m)}
    {l l' : List (Moments n)} (hlen : l.length = os.length)
    (h : ObsRegular om (os ++ os') (l ++ l')) : ObsRegular om os l := by
  intro t o ho hm M hM
  have ht := (List.getElem?_eq_some_iff.mp ho).1
  refine h t o (by rw [List.getElem?_append_left ht]; exact ho) hm M ?_
  rw [← hM]
  unfold rowBefore
  split_ifs with h0
  · rfl
  · rw [List.getElem?_append_left (by omega)]

theorem callsRegular_right {om : ℕ → Option (Moments n) → Res (Moments m)}
    {up : ℕ → Moments n → Res (Moments m)} {os os' : List (Obs m)} (hne : os ≠ [])
    {l l' : List (Moments n)} (hlen : l.length = os.length) {r : Moments n}
    (hr : l.getLast? = some r)
    (hup : ∀ t < os'.length, ∀ x, up t x = om (os.length - 1 + t + 1) (some x))
    (h : ObsRegular om (os ++ os') (l ++ l')) : CallsRegular up r (os'.map some) l' := by
  have hpos := List.length_pos_iff.mpr hne
  rintro t o x ho ⟨o', rfl, hm⟩ hx M' hM'
  rw [List.getElem?_map] at ho
  obtain ⟨y, hy, e⟩ := Option.map_eq_some_iff.mp ho
  cases e
  have ht : t < os'.length := (List.getElem?_eq_some_iff.mp hy).1
  rw [hup t ht] at hM'
  refine h (os.length - 1 + t + 1) o' ?_ hm M' ?_
  · rw [List.getElem?_append_right (by omega), show os.length - 1 + t + 1 - os.length = t by omega]
    exact hy
  · rw [← hM']
    congr 1
    unfold rowBefore
    rw [if_neg (by omega), Nat.add_sub_cancel, ← hx]
    cases t with
    | zero =>
      rw [add_zero, List.getElem?_append_left (by omega), List.getElem?_cons_zero, ← hr,
        List.getLast?_eq_getElem?, hlen]
    | succ t =>
      rw [List.getElem?_append_right (by omega), List.getElem?_cons_succ]
      congr 1
      omega

theorem ukfLoop_symm (p : GParams n m) (os : List (Obs m))
    {t : ℕ} {prev : Option (Moments n)} {l : List (Moments n)}
    (hl : runLoop (ukfStep p) t prev os = .ok l) : ∀ M ∈ l, M.covᵀ = M.cov := by
  induction os generalizing t prev l with
  | nil => cases hl; simp
  | cons o os ih =>
    simp only [runLoop] at hl
    obtain ⟨s, hs, hl⟩ := ok_bind_iff.mp hl
    obtain ⟨r, hr, hl⟩ := ok_bind_iff.mp hl
    cases hl
    have h1 : s.covᵀ = s.cov := by
      simp only [ukfStep] at hs
      obtain ⟨pts, -, hs⟩ := ok_bind_iff.mp hs
      cases prev with
      | none =>
        obtain ⟨g, -, hs⟩ := ok_bind_iff.mp hs
        cases hs
        exact unscentedCorrect_transpose _ (points2moments_transpose _ (by simp))
          (points2moments_transpose _ (by simp)) _
      | some M =>
        obtain ⟨f, -, hs⟩ := ok_bind_iff.mp hs
        obtain ⟨g, -, hs⟩ := ok_bind_iff.mp hs
        cases hs
        exact unscentedCorrect_transpose _ (points2moments_transpose _ (by simp))
          (points2moments_transpose _ (by simp)) _
    intro M hM
    rcases List.mem_cons.mp hM with rfl | hM
    · exact h1
    · exact ih hr M hM

/-- Arithmetic, computed functions and arguments with errors up to `u`. -/
structure UOnline (c : ℕ → ℝ) (κf κg : Vec n → ℝ) (p : UParams n m) (a : ℕ → UUpdateArgs n m) (k : ℕ)
    (u : ℝ) extends URounded c κf κg p u where
  a' : ℕ → UUpdateArgs n m
  ha : ∀ t < k, (a' t).Within κf κg u (a t)

/-- **C104.** `AdditiveUnscentedKalmanFilter`: a program filters the observations `os` with `filter` and
each further one with `filter_update`, with the functions of the time step, starting with the last row.
If the exact `filter` succeeds on all observations, with regular covariances of the observations, then
all rows are within `K u` of its rows. -/
theorem C104_additive_online (c : ℕ → ℝ) {p : UParams n m} (hQ : p.Qᵀ = p.Q) (hR : p.Rᵀ = p.R)
    (hS : p.S0ᵀ = p.S0) (lf : p.f.All LocallyLipschitz) (lg : p.g.All LocallyLipschitz)
    {κf κg : Vec n → ℝ} (cf : Continuous κf) (cg : Continuous κg) {os os' : List (Obs m)}
    (hne : os ≠ []) {l : List (Moments n)} (hl : aukfFilter p (os ++ os') = .ok l)
    (hreg : ObsRegular p.obsMoments (os ++ os') l) {a : ℕ → UUpdateArgs n m}
    (ha : ∀ t < os'.length, (a t).SuppliedAt p (os.length - 1 + t)) :
    ∃ K u₀ : ℝ, 0 < u₀ ∧ ∀ u, 0 ≤ u → u ≤ u₀ → ∀ (ar : ArithU c u) (f : Fns (Vec n → Vec n))
      (g : Fns (Vec n → Vec m)) (a' : ℕ → UUpdateArgs n m),
      f.Within (FnErr κf u) p.f → g.Within (FnErr κg u) p.g →
      (∀ t < os'.length, (a' t).Within κf κg u (a t)) →
      ∃ l₁ M l₂, flAukfFilter ar { p with f := f, g := g } os = .ok l₁ ∧ l₁.getLast? = some M ∧
        flAukfProgram ar { p with f := f, g := g } a' M (os'.map some) = .ok l₂ ∧
        MomentsWithin (K * u) (l₁ ++ l₂) l := by
  obtain ⟨out, out', r, h1, rfl, hlen, h3, h4⟩ := runLoop_split (step := aukfStep p)
    (up := fun t x o => aukfUpdate p x o (a t)) hne
    (fun t ht x o => aukfUpdate_supplied (ha t ht) x o) hl
  have hrs : r.covᵀ = r.cov := aukfLoop_symm hQ hR os h1 r (List.mem_of_getLast? h3)
  obtain ⟨K, u₀, h0, hK⟩ := batch_then_online_moments (X := UOnline c κf κg p a os'.length)
    (fil := fun u x => flAukfFilter x.ar { p with f := x.f, g := x.g } os)
    (prog := fun u x r => flAukfProgram x.ar { p with f := x.f, g := x.g } x.a' r (os'.map some))
    (out := out) (out' := out') (r := r)
    (by
      obtain ⟨K, u₀, h0, h⟩ := C95_additive_filter c hQ hR hS lf lg cf cg h1
        (obsRegular_left hlen hreg)
      exact ⟨K, u₀, h0, fun u hu hu' x => h u hu hu' x.ar x.f x.g x.hf x.hg⟩)
    h3 (fun κ => by
      obtain ⟨K, u₀, h0, h⟩ := C104_additive c κ (p := p) (a := a) (os := os'.map some)
        (fun t ht => by rw [getD_supplied (ha t (by simpa using ht)).Q, hQ])
        (fun t ht => by rw [getD_supplied (ha t (by simpa using ht)).R, hR]) hrs lf lg
        (fun t ht => supplied_all (ha t (by simpa using ht)).f lf)
        (fun t ht => supplied_all (ha t (by simpa using ht)).g lg) cf cg h4
        (callsRegular_right hne hlen h3 (fun t ht x => updateObsMoments_supplied (ha t ht) x) hreg)
      exact ⟨K, u₀, h0, fun u hu hu' x r' hr' => h u hu hu' x.ar x.f x.g x.a' r' x.hf x.hg
        (fun t ht => x.ha t (by simpa using ht)) hr'⟩)
  exact ⟨K, u₀, h0, fun u hu hu' ar f g a' hf hg ha' =>
    hK u hu hu' ⟨⟨ar, f, g, hf, hg⟩, a', ha'⟩⟩

/-- **C104.** With at most three state dimensions and positive definite covariances nothing has to be
assumed about the run. -/
theorem C104_three_dimensions_online (c : ℕ → ℝ) (hn : n ≤ 3) {p : UParams n m} (hQ : p.Q.PosDef)
    (hR : p.R.PosDef) (hS : p.S0.PosDef) (lf : p.f.All LocallyLipschitz)
    (lg : p.g.All LocallyLipschitz) {κf κg : Vec n → ℝ} (cf : Continuous κf) (cg : Continuous κg)
    {os os' : List (Obs m)} (hne : os ≠ [])
    (hf : ∀ t, t + 1 < (os ++ os').length → ∃ f, p.f.at t = .ok f)
    (hg : ∀ t, t < (os ++ os').length → ∃ g, p.g.at t = .ok g) {a : ℕ → UUpdateArgs n m}
    (ha : ∀ t < os'.length, (a t).SuppliedAt p (os.length - 1 + t)) :
    ∃ l, aukfFilter p (os ++ os') = .ok l ∧
    ∃ K u₀ : ℝ, 0 < u₀ ∧ ∀ u, 0 ≤ u → u ≤ u₀ → ∀ (ar : ArithU c u) (f : Fns (Vec n → Vec n))
      (g : Fns (Vec n → Vec m)) (a' : ℕ → UUpdateArgs n m),
      f.Within (FnErr κf u) p.f → g.Within (FnErr κg u) p.g →
      (∀ t < os'.length, (a' t).Within κf κg u (a t)) →
      ∃ l₁ M l₂, flAukfFilter ar { p with f := f, g := g } os = .ok l₁ ∧ l₁.getLast? = some M ∧
        flAukfProgram ar { p with f := f, g := g } a' M (os'.map some) = .ok l₂ ∧
        MomentsWithin (K * u) (l₁ ++ l₂) l := by
  obtain ⟨⟨l, hl, hpd⟩, -⟩ := C52_posDef hn hQ hR hS (os ++ os') hf hg
  exact ⟨l, hl, C104_additive_online c (symm_of_posSemidef hQ.posSemidef)
    (symm_of_posSemidef hR.posSemidef) (symm_of_posSemidef hS.posSemidef) lf lg cf cg hne hl
    (obsRegular_three hn hQ hR hS (os ++ os') hpd) ha⟩

/-- Likewise for `UnscentedKalmanFilter`. -/
structure GOnline (c : ℕ → ℝ) (κf : Vec n × Vec n → ℝ) (κg : Vec n × Vec m → ℝ) (p : GParams n m)
    (a : ℕ → GUpdateArgs n m) (k : ℕ) (u : ℝ) extends GRounded c κf κg p u where
  a' : ℕ → GUpdateArgs n m
  ha : ∀ t < k, (a' t).Within κf κg u (a t)

/-- **C104.** The same program with `UnscentedKalmanFilter`. -/
theorem C104_general_online (c : ℕ → ℝ) {p : GParams n m} (hQ : p.Qᵀ = p.Q) (hR : p.Rᵀ = p.R)
    (hS : p.S0ᵀ = p.S0) (lf : p.f.All fun f => LocallyLipschitz fun x : Vec n × Vec n => f x.1 x.2)
    (lg : p.g.All fun g => LocallyLipschitz fun x : Vec n × Vec m => g x.1 x.2)
    {κf : Vec n × Vec n → ℝ} {κg : Vec n × Vec m → ℝ} (cf : Continuous κf) (cg : Continuous κg)
    {os os' : List (Obs m)} (hne : os ≠ []) {l : List (Moments n)}
    (hl : ukfFilter p (os ++ os') = .ok l) (hreg : ObsRegular p.obsMoments (os ++ os') l)
    {a : ℕ → GUpdateArgs n m} (ha : ∀ t < os'.length, (a t).SuppliedAt p (os.length - 1 + t)) :
    ∃ K u₀ : ℝ, 0 < u₀ ∧ ∀ u, 0 ≤ u → u ≤ u₀ → ∀ (ar : ArithU c u)
      (f : Fns (Vec n → Vec n → Vec n)) (g : Fns (Vec n → Vec m → Vec m))
      (a' : ℕ → GUpdateArgs n m),
      f.Within (fun a b => FnErr κf u (fun x => a x.1 x.2) fun x => b x.1 x.2) p.f →
      g.Within (fun a b => FnErr κg u (fun x => a x.1 x.2) fun x => b x.1 x.2) p.g →
      (∀ t < os'.length, (a' t).Within κf κg u (a t)) →
      ∃ l₁ M l₂, flUkfFilter ar { p with f := f, g := g } os = .ok l₁ ∧ l₁.getLast? = some M ∧
        flUkfProgram ar { p with f := f, g := g } a' M (os'.map some) = .ok l₂ ∧
        MomentsWithin (K * u) (l₁ ++ l₂) l := by
  obtain ⟨out, out', r, h1, rfl, hlen, h3, h4⟩ := runLoop_split (step := ukfStep p)
    (up := fun t x o => ukfUpdate p x o (a t)) hne
    (fun t ht x o => ukfUpdate_supplied (ha t ht) x o) hl
  have hrs : r.covᵀ = r.cov := ukfLoop_symm p os h1 r (List.mem_of_getLast? h3)
  obtain ⟨K, u₀, h0, hK⟩ := batch_then_online_moments (X := GOnline c κf κg p a os'.length)
    (fil := fun u x => flUkfFilter x.ar { p with f := x.f, g := x.g } os)
    (prog := fun u x r => flUkfProgram x.ar { p with f := x.f, g := x.g } x.a' r (os'.map some))
    (out := out) (out' := out') (r := r)
    (by
      obtain ⟨K, u₀, h0, h⟩ := C95_general_filter c hQ hR hS lf lg cf cg h1
        (obsRegular_left hlen hreg)
      exact ⟨K, u₀, h0, fun u hu hu' x => h u hu hu' x.ar x.f x.g x.hf x.hg⟩)
    h3 (fun κ => by
      obtain ⟨K, u₀, h0, h⟩ := C104_general c κ (p := p) (a := a) (os := os'.map some)
        (fun t ht => by rw [getD_supplied (ha t (by simpa using ht)).Q, hQ])
        (fun t ht => by rw [getD_supplied (ha t (by simpa using ht)).R, hR]) hrs lf lg
        (fun t ht => supplied_all
          (q := fun f => LocallyLipschitz fun x : Vec n × Vec n => f x.1 x.2)
          (ha t (by simpa using ht)).f lf)
        (fun t ht => supplied_all
          (q := fun g => LocallyLipschitz fun x : Vec n × Vec m => g x.1 x.2)
          (ha t (by simpa using ht)).g lg) cf cg h4
        (callsRegular_right hne hlen h3 (fun t ht x => updateObsMoments_supplied₂ (ha t ht) x) hreg)
      exact ⟨K, u₀, h0, fun u hu hu' x r' hr' => h u hu hu' x.ar x.f x.g x.a' r' x.hf x.hg
        (fun t ht => x.ha t (by simpa using ht)) hr'⟩)
  exact ⟨K, u₀, h0, fun u hu hu' ar f g a' hf hg ha' =>
    hK u hu hu' ⟨⟨ar, f, g, hf, hg⟩, a', ha'⟩⟩

/-- **C104.** For functions that are affine in state and noise, with positive definite covariances, the
rows of this program are those of the exact Kalman filter on all observations up to `K u`. -/
theorem C104_general_affine_online (c : ℕ → ℝ) {v : GParams n m} {p : Params n m} (h : v.AffineAs p)
    (hQ : v.Q.PosDef) (hR : v.R.PosDef) (hS : v.S0.PosDef) {os os' : List (Obs m)} (hne : os ≠ [])
    (hdef : p.DefinedFor (os ++ os').length)
    (hQ' : ∀ t Q, t + 1 < (os ++ os').length → lastDims p.Q t = .ok Q → Q.PosDef)
    (hR' : ∀ t R, t < (os ++ os').length → lastDims p.R t = .ok R → R.PosDef)
    (lf : v.f.All fun f => LocallyLipschitz fun x : Vec n × Vec n => f x.1 x.2)
    (lg : v.g.All fun g => LocallyLipschitz fun x : Vec n × Vec m => g x.1 x.2)
    {κf : Vec n × Vec n → ℝ} {κg : Vec n × Vec m → ℝ} (cf : Continuous κf) (cg : Continuous κg)
    {a : ℕ → GUpdateArgs n m} (ha : ∀ t < os'.length, (a t).SuppliedAt v (os.length - 1 + t)) :
    ∃ l, kfFilter p (os ++ os') = .ok l ∧
    ∃ K u₀ : ℝ, 0 < u₀ ∧ ∀ u, 0 ≤ u → u ≤ u₀ → ∀ (ar : ArithU c u)
      (f : Fns (Vec n → Vec n → Vec n)) (g : Fns (Vec n → Vec m → Vec m))
      (a' : ℕ → GUpdateArgs n m),
      f.Within (fun a b => FnErr κf u (fun x => a x.1 x.2) fun x => b x.1 x.2) v.f →
      g.Within (fun a b => FnErr κg u (fun x => a x.1 x.2) fun x => b x.1 x.2) v.g →
      (∀ t < os'.length, (a' t).Within κf κg u (a t)) →
      ∃ l₁ M l₂, flUkfFilter ar { v with f := f, g := g } os = .ok l₁ ∧ l₁.getLast? = some M ∧
        flUkfProgram ar { v with f := f, g := g } a' M (os'.map some) = .ok l₂ ∧
        MomentsWithin (K * u) (l₁ ++ l₂) (l.map toMoments) := by
  have hc := definedFor_iff_covers.mp hdef
  have hk1 := kfFilter_eq (p := p) hc
  have hl := (C37_eq_kalman h hQ hR hS hQ' hR').1 _ hk1
  obtain ⟨r1, -⟩ := regular_general_affine h hQ hR hS hQ' hR' hc
  refine ⟨_, hk1, C104_general_online c (symm_of_posSemidef hQ.posSemidef)
    (symm_of_posSemidef hR.posSemidef) (symm_of_posSemidef hS.posSemidef) lf lg cf cg hne hl ?_ ha⟩
  rw [List.map_map]
  exact r1

/-! ### Examples -/

/-- The transition matrix of the time step is given, the other arguments are omitted. -/
def exUpdateArgs (t : ℕ) : UpdateArgs 2 1 :=
  { A := some (if t = 0 then !![1, 1; 0, 1] else !![1, 2; 0, 1]) }

theorem exUpdateArgs_supplied (t : ℕ) (ht : t < 2) : (exUpdateArgs t).SuppliedAt exPosDef (0 + t) := by
  refine ⟨Or.inl ⟨_, rfl, ?_⟩, Or.inr ⟨rfl, _, rfl⟩, Or.inr ⟨rfl, _, rfl⟩, Or.inr ⟨rfl, _, rfl⟩,
    Or.inr ⟨rfl, _, rfl⟩, Or.inr ⟨rfl, _, rfl⟩⟩
  interval_cases t <;> rfl

/-- A model with a transition matrix that changes; the first observation is filtered as a batch, then
there are two calls, one with a masked observation. -/
example (c : ℕ → ℝ) : ∃ l, kfFilter exPosDef exThree = .ok l ∧
    ∃ K u₀ : ℝ, 0 < u₀ ∧ ∀ u, 0 ≤ u → u ≤ u₀ → ∀ ar : ArithEL c u, ∃ l₁ r l₂,
      flBierFilter ar exPosDef (exThree.take 1) = .ok l₁ ∧ l₁.getLast? = some r ∧
      flBierProgram ar exPosDef exUpdateArgs r ((exThree.drop 1).map some) = .ok l₂ ∧
      WithinErr (K * u) (l₁ ++ l₂) l :=
  C104_bierman_online c (by norm_num) (os := exThree.take 1) (os' := exThree.drop 1)
    (by simp [exThree])
    (definedFor_iff_covers.mpr
      (show exPosDef.Covers 3 from ⟨le_refl 2, trivial, trivial, trivial, trivial, trivial⟩))
    exPosDef_posDef exUpdateArgs_supplied

example (c : ℕ → ℝ) : ∃ l, kfFilter exPosDef exThree = .ok l ∧
    ∃ K u₀ : ℝ, 0 < u₀ ∧ ∀ u, 0 ≤ u → u ≤ u₀ → ∀ ar : ArithC c u, ∃ l₁ r l₂,
      flCholFilter ar exPosDef (exThree.take 1) = .ok l₁ ∧ l₁.getLast? = some r ∧
      flCholProgram ar exPosDef exUpdateArgs r ((exThree.drop 1).map some) = .ok l₂ ∧
      WithinErr (K * u) (l₁ ++ l₂) l :=
  C104_cholesky_online c (os := exThree.take 1) (os' := exThree.drop 1)
    (by simp [exThree])
    (definedFor_iff_covers.mpr
      (show exPosDef.Covers 3 from ⟨le_refl 2, trivial, trivial, trivial, trivial, trivial⟩))
    exPosDef_posDef exUpdateArgs_supplied

/-- A program without a batch: the covariance at the start is singular, the second call has no
observation, and the start is off by three times the size of the errors. -/
example (c : ℕ → ℝ) : ∃ l, kfProgram exPosDef exUpdateArgs (![1, 2], 0)
      [some ⟨![4], ![false]⟩, none] = .ok l ∧
    ∃ K u₀ : ℝ, 0 < u₀ ∧ ∀ u, 0 ≤ u → u ≤ u₀ → ∀ (ar : Arith c u) (r' : Vec 2 × Mat 2 2),
      PairWithin (3 * u) r' (![1, 2], 0) →
      ∃ l', flProgram ar exPosDef exUpdateArgs r' [some ⟨![4], ![false]⟩, none] = .ok l' ∧
        WithinErr (K * u) l' l := by
  obtain ⟨Q, hQ, hQ'⟩ := exPosDef_posDef.Q
  obtain ⟨R, hR, hR'⟩ := exPosDef_posDef.R
  refine ⟨_, rfl, C104_standard c 3 Matrix.PosSemidef.zero (fun t _ Q'' h => ?_)
    (fun t o _ _ R'' h => ?_) rfl⟩
  · rw [show argOrDefault (exUpdateArgs t).Q exPosDef.Q = .ok Q by rw [hQ]; rfl] at h
    cases h
    exact hQ'.posSemidef
  · rw [show argOrDefault (exUpdateArgs t).R exPosDef.R = .ok R by rw [hR]; rfl] at h
    cases h
    exact hR'

/-- A transition function with a sine and an observation function with a square, given to every call;
the second call has no observation. -/
example (c : ℕ → ℝ) : ∃ l, aukfProgram (n := 1) (m := 1) ⟨.nested [], .flat [fun x _ => x 0 ^ 2], 1, 1, 0, 1⟩
      (fun _ => { f := some fun x _ => Real.sin (x 0) }) ⟨0, 1⟩ [some ⟨![3], ![false]⟩, none] = .ok l ∧
    (∀ x ∈ l, x.cov.PosDef) ∧
    ∃ K u₀ : ℝ, 0 < u₀ ∧ ∀ u, 0 ≤ u → u ≤ u₀ → ∀ ar : ArithU c u,
      ∃ l', flAukfProgram (n := 1) (m := 1) ar ⟨.nested [], .flat [fun x _ => x 0 ^ 2], 1, 1, 0, 1⟩
        (fun _ => { f := some fun x _ => Real.sin (x 0) + u * x 0 }) ⟨0, 1⟩
        [some ⟨![3], ![false]⟩, none] = .ok l' ∧ MomentsWithin (K * u) l' l := by
  have lf : LocallyLipschitz fun (x : Vec 1) (_ : Fin 1) => Real.sin (x 0) := by
    have : ContDiff ℝ 1 fun (x : Vec 1) (_ : Fin 1) => Real.sin (x 0) :=
      contDiff_pi.mpr fun _ => Real.contDiff_sin.comp (contDiff_apply ℝ ℝ 0)
    exact this.locallyLipschitz
  have lg : (Fns.flat [fun (x : Vec 1) (_ : Fin 1) => x 0 ^ 2]).All LocallyLipschitz := by
    intro f hf
    rw [List.mem_singleton.mp hf]
    have : ContDiff ℝ 1 fun (x : Vec 1) (_ : Fin 1) => x 0 ^ 2 :=
      contDiff_pi.mpr fun _ => (contDiff_apply ℝ ℝ 0).pow 2
    exact this.locallyLipschitz
  obtain ⟨l, h1, h2, K, u₀, h0, h⟩ := C104_three_dimensions c 0 (by norm_num)
    (p := ⟨.nested [], .flat [fun x _ => x 0 ^ 2], 1, 1, 0, 1⟩)
    (a := fun _ => { f := some fun x _ => Real.sin (x 0) }) (M := ⟨0, 1⟩)
    (os := [some ⟨![3], ![false]⟩, none])
    (fun _ _ => PosDef.one) (fun _ _ => PosDef.one) PosDef.one (fun _ _ => ⟨_, rfl⟩)
    (fun _ _ => ⟨_, rfl⟩) (by intro r hr; cases hr) lg (by rintro _ - f ⟨⟩; exact lf)
    (by rintro _ - g ⟨⟩) (κf := fun x => |x 0|) (κg := fun _ => 0)
    (continuous_abs.comp (continuous_apply 0)) continuous_const
  refine ⟨l, h1, h2, K, u₀, h0, fun u hu hu' ar => ?_⟩
  refine h u hu hu' ar (.nested []) (.flat [fun x _ => x 0 ^ 2])
    (fun _ => { f := some fun x _ => Real.sin (x 0) + u * x 0 }) ⟨0, 1⟩ .nil
    (.cons (fun x i => by simp) .nil) (fun t _ => ⟨fun x i => ?_, rfl, trivial, rfl⟩)
    (.cons ⟨by simp, by simp⟩ .nil)
  show |Real.sin (x 0) + u * x 0 - Real.sin (x 0)| ≤ u * |x 0|
  rw [add_sub_cancel_left, abs_mul, abs_of_nonneg hu]

/-- Noise that enters through matrices; all arguments are omitted. -/
example (t : ℕ) : (({} : GUpdateArgs 2 1)).SuppliedAt exGPosDef t :=
  ⟨Or.inr ⟨rfl, _, rfl⟩, Or.inr ⟨rfl, _, rfl⟩, Or.inl rfl, Or.inl rfl⟩

end Verif
