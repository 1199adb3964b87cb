import Verif.Proofs.NotFinite
import Verif.Props.ParamNaN

/-!
# C108: infinite numbers and overflow

The rules of IEEE 754 say what the elementary operations do with numbers that are not finite
(`SMachine.IEEE`).  Here is what that means for the results: nothing that is not finite gets lost, so it
is enough to look at the last row to know that no observation that was used was infinite or `nan` and
that no mean has overflowed on the way.
-/

namespace Verif

open Machine UMachine SMachine

variable {n m : ℕ}

/-- The rows behind the results of `filter`. -/
theorem SMachine.filter_rows {M : SMachine} {p : M.Par n m} {os : List (M.Row m)}
    {out : List (M.V n × M.A n n)}
    (hr : M.filter p os = .ok out ∨ SMachine.cholFilter p os = .ok out ∨
      ∃ store, SMachine.bierFilter store p os = .ok out) :
    ∃ l : List (M.St n m), (M.full p os = .ok l ∨ SMachine.cholRows p os = .ok l ∨
      ∃ store, SMachine.bierRows store p os = .ok l) ∧
      out = l.map fun s => (s.filtMean, s.filtCov) := by
  rcases hr with hr | hr | ⟨store, hr⟩
  · obtain ⟨l, hl, rfl⟩ := Machine.filter_ok hr
    exact ⟨l, .inl hl, rfl⟩
  · rw [SMachine.cholFilter] at hr
    obtain ⟨l, hl, hr⟩ := ok_bind_iff.mp hr
    cases hr
    exact ⟨l, .inr (.inl hl), rfl⟩
  · rw [SMachine.bierFilter] at hr
    obtain ⟨l, hl, hr⟩ := ok_bind_iff.mp hr
    cases hr
    exact ⟨l, .inr (.inr ⟨store, hl⟩), rfl⟩

variable {M : SMachine} {nan inf : M.F → Prop} {fma : M.F → M.F → M.F → M.F}

/-- **C108.** One finite component in one filtered mean is enough: if a component of row `t` is finite,
then all components of all filtered means before are, and all observations of the rows up to `t` that
were used; in all three linear classes. -/
theorem C108_last_row (h : M.IEEE nan inf fma) (hm : 0 < m) (p : M.Par n m) {os : List (M.Row m)}
    {out : List (M.V n × M.A n n)}
    (hr : M.filter p os = .ok out ∨ SMachine.cholFilter p os = .ok out ∨
      ∃ store, SMachine.bierFilter store p os = .ok out)
    {t : ℕ} (ht : t < out.length) {i : Fin n} (hfin : ¬ NotFinite nan inf (out[t].1 i)) :
    (∀ s (hs : s < t), ∀ j, ¬ NotFinite nan inf (out[s].1 j)) ∧
    ∀ s (_ : s ≤ t) (hs : s < os.length), os[s].Used → ∀ j, ¬ NotFinite nan inf (os[s].val j) := by
  constructor
  · intro s hs j hb
    obtain ⟨l, hl, rfl⟩ := SMachine.filter_rows hr
    have hf := h.spread.flow hm hl
    simp only [List.length_map] at ht
    simp only [List.getElem_map] at hb hfin
    exact hfin (hf.after hs ht ⟨j, hb⟩ i)
  · intro s hst hs hu j hb
    exact hfin ((C102_filter h.spread.sbase i.pos p hs ⟨hu, j, hb⟩ hr).2 t hst ht i)

/-- **C108.** `filter_update`: if a component of the mean returned is finite, then the mean given was
finite, and the observation if it was used. -/
theorem C108_filter_update (h : M.IEEE nan inf fma) (hm : 0 < m) (p : M.Par n m) {mean : M.V n}
    {cov : M.A n n} {o : M.Row m} (ho : o.Used) {a : M.toMachine.Args n m} {r : M.V n × M.A n n}
    (hr : M.update p mean cov (some o) a = .ok r ∨
      SMachine.cholUpdate p mean cov (some o) a = .ok r ∨
      ∃ store, SMachine.bierUpdate store p mean cov (some o) a = .ok r)
    {i : Fin n} (hfin : ¬ NotFinite nan inf (r.1 i)) :
    (∀ j, ¬ NotFinite nan inf (mean j)) ∧ ∀ j, ¬ NotFinite nan inf (o.val j) :=
  ⟨fun j hb => hfin ((C107_update_mean h.spread hm p hr).2 ⟨o, rfl, ho⟩ (.inl ⟨j, hb⟩) i),
    fun j hb => hfin (C102_update h.spread.sbase i.pos p (.inl ⟨o, rfl, ho, j, hb⟩) hr i)⟩

/-- **C108.** If `KalmanFilter.filter` returns, every filtered covariance before a row that is used is
finite; those after a covariance that is not finite are not finite either. -/
theorem C108_covariances (h : M.IEEE nan inf fma) (hm : 0 < m) (p : M.Par n m) {os : List (M.Row m)}
    {out : List (M.V n × M.A n n)} (hr : M.filter p os = .ok out) {s t : ℕ} (hst : s < t)
    (ht : t < out.length) :
    ((∃ ht' : t < os.length, os[t].Used) → ∀ i j, ¬ NotFinite nan inf (out[s].2 i j)) ∧
    ((∃ i j, NotFinite nan inf (out[s].2 i j)) → ∃ i j, NotFinite nan inf (out[t].2 i j)) := by
  obtain ⟨l, hl, rfl⟩ := Machine.filter_ok hr
  simp only [List.length_map] at ht
  simp only [List.getElem_map]
  have hs : s < l.length := by omega
  have key := fun (i j : Fin n) (hb : NotFinite nan inf (l[s].filtCov i j)) =>
    NaN.full_cov_after h.spread.base hm hl hs ⟨i, j, hb⟩ hst ht
  constructor
  · rintro ⟨ht', hu⟩ i j hb
    obtain ⟨-, -, _, hnu⟩ := key i j hb
    exact hnu hu
  · rintro ⟨i, j, hb⟩
    exact (key i j hb).2.1

/-- **C108.** If `KalmanFilter.smooth` returns, every filtered covariance but the last is finite. -/
theorem C108_smooth_covariances (h : M.IEEE nan inf fma) (hm : 0 < m) (p : M.Par n m)
    {os : List (M.Row m)} {out : List (M.V n × M.A n n)} (hr : M.smooth p os = .ok out) :
    ∃ filt, M.filter p os = .ok filt ∧ filt.length = os.length ∧
      ∀ s (hs : s < filt.length), s + 1 < os.length → ∀ i j, ¬ NotFinite nan inf (filt[s].2 i j) := by
  rw [Machine.smooth] at hr
  obtain ⟨l, hl, hr⟩ := ok_bind_iff.mp hr
  obtain ⟨sm, hsm, -⟩ := ok_bind_iff.mp hr
  have hlen : l.length = os.length := loop_length hl
  refine ⟨l.map fun s => (s.filtMean, s.filtCov), ?_, by rw [List.length_map, hlen], ?_⟩
  · rw [Machine.filter, hl]
    rfl
  · intro s hs hs1 i j hb
    simp only [List.getElem_map] at hb
    simp only [List.length_map] at hs
    have hp := (NaN.full_cov_after h.spread.base hm hl (s := s) hs ⟨i, j, hb⟩ (t := s + 1) (by omega)
      (by omega)).1
    exact raises_iff.mp (NaN.smoothFull_raises_row h.spread.base (A := p.A) (by omega) hp) _ hsm

/-- **C108.** `smooth` of the three classes: if one component of one smoothed mean (but the last) is
finite, then all filtered means are finite, and all observations that were used. -/
theorem C108_smooth (h : M.IEEE nan inf fma) (hm : 0 < m) (p : M.Par n m) {os : List (M.Row m)}
    {out filt : List (M.V n × M.A n n)}
    (hr : (M.smooth p os = .ok out ∧ M.filter p os = .ok filt) ∨
      (SMachine.cholSmooth p os = .ok out ∧ SMachine.cholFilter p os = .ok filt) ∨
      ∃ store, SMachine.bierSmooth store p os = .ok out ∧ SMachine.bierFilter store p os = .ok filt)
    {t : ℕ} (ht : t + 1 < out.length) {i : Fin n} (hfin : ¬ NotFinite nan inf (out[t].1 i)) :
    (∀ r ∈ filt, ∀ j, ¬ NotFinite nan inf (r.1 j)) ∧
    ∀ o ∈ os, o.Used → ∀ j, ¬ NotFinite nan inf (o.val j) := by
  have hn := i.pos
  constructor
  · obtain ⟨l, sm, hl, hsm, rfl, rfl⟩ : ∃ (l : List (M.St n m)) (sm : List (M.toMachine.SSt n)),
        (M.full p os = .ok l ∨ SMachine.cholRows p os = .ok l ∨
          ∃ store, SMachine.bierRows store p os = .ok l) ∧
        M.smoothFull p.A l = .ok sm ∧ (out = sm.map fun s => (s.mean, s.cov)) ∧
        filt = l.map fun s => (s.filtMean, s.filtCov) := by
      rcases hr with ⟨hr, hf⟩ | ⟨hr, hf⟩ | ⟨store, hr, hf⟩
      · rw [Machine.smooth] at hr
        obtain ⟨l, hl, hr⟩ := ok_bind_iff.mp hr
        obtain ⟨sm, hsm, hr⟩ := ok_bind_iff.mp hr
        cases hr
        rw [Machine.filter, hl] at hf
        cases hf
        exact ⟨l, sm, .inl hl, hsm, rfl, rfl⟩
      · rw [SMachine.cholSmooth] at hr
        obtain ⟨l, hl, hr⟩ := ok_bind_iff.mp hr
        obtain ⟨sm, hsm, hr⟩ := ok_bind_iff.mp hr
        cases hr
        rw [SMachine.cholFilter, hl] at hf
        cases hf
        exact ⟨l, sm, .inr (.inl hl), hsm, rfl, rfl⟩
      · rw [SMachine.bierSmooth] at hr
        obtain ⟨l, hl, hr⟩ := ok_bind_iff.mp hr
        obtain ⟨sm, hsm, hr⟩ := ok_bind_iff.mp hr
        cases hr
        rw [SMachine.bierFilter, hl] at hf
        cases hf
        exact ⟨l, sm, .inr (.inr ⟨store, hl⟩), hsm, rfl, rfl⟩
    have hf := h.spread.flow hm hl
    intro r hr j hb
    obtain ⟨s, hs, rfl⟩ := List.mem_map.mp hr
    obtain ⟨k, hk, rfl⟩ := List.getElem_of_mem hs
    have hlast : ∀ x, l.getLast? = some x → HasBad (NotFinite nan inf) x.filtMean := by
      intro x hx
      rw [List.getLast?_eq_getElem?, List.getElem?_eq_some_iff] at hx
      obtain ⟨hlt, rfl⟩ := hx
      rcases Nat.lt_or_ge k (l.length - 1) with hlt' | hge
      · exact ⟨⟨0, hn⟩, hf.after hlt' hlt ⟨j, hb⟩ _⟩
      · have e : k = l.length - 1 := by omega
        subst e
        exact ⟨j, hb⟩
    have := (NaN.smoothFull_last h.spread.base hn hsm hlast).2
    simp only [List.length_map] at ht
    simp only [List.getElem_map] at hfin
    refine hfin (this sm[t] ?_ i)
    have hd : t < sm.dropLast.length := by rw [List.length_dropLast]; omega
    have e : sm.dropLast[t] = sm[t] := by rw [List.getElem_dropLast]
    rw [← e]
    exact List.getElem_mem hd
  · intro o ho hu j hb
    obtain ⟨k, hk, rfl⟩ := List.getElem_of_mem ho
    have hr' : M.smooth p os = .ok out ∨ SMachine.cholSmooth p os = .ok out ∨
        ∃ store, SMachine.bierSmooth store p os = .ok out := by
      rcases hr with ⟨hr, -⟩ | ⟨hr, -⟩ | ⟨store, hr, -⟩
      · exact .inl hr
      · exact .inr (.inl hr)
      · exact .inr (.inr ⟨store, hr⟩)
    exact hfin ((C102_smooth h.spread.sbase hn p hk ⟨hu, j, hb⟩ hr').2 _ (List.getElem_mem _) i)

/-- **C108.** Matrices with infinite entries: if row `u` is used, and there is an entry that is not
finite in `initial_state_covariance`, in the observation matrix or covariance of time `u`, or in a
transition matrix or covariance of a time before `u`, then `filter`, `smooth`, `loglikelihood` and `em` of
`KalmanFilter` and `CholeskyKalmanFilter` raise. -/
theorem C108_matrices (h : M.IEEE nan inf fma) (hm : 0 < m) (p : M.Par n m) {os : List (M.Row m)}
    {u : ℕ} (hu : u < os.length) (ho : os[u].Used)
    (hp : HasBad₂ (NotFinite nan inf) p.S0 ∨ p.R.AtTime (HasBad₂ (NotFinite nan inf)) u ∨
      p.C.AtTime (HasBad₂ (NotFinite nan inf)) u ∨
      ∃ t < u, p.A.AtTime (HasBad₂ (NotFinite nan inf)) t ∨
        p.Q.AtTime (HasBad₂ (NotFinite nan inf)) t) :
    (Raises (M.filter p os) ∧ Raises (M.smooth p os) ∧ Raises (M.loglik p os) ∧
      ∀ nIter vars, 0 < nIter → Raises (M.em p os nIter vars)) ∧
    Raises (SMachine.cholFilter p os) ∧ Raises (SMachine.cholSmooth p os) ∧
      Raises (SMachine.cholLoglik p os) ∧
      ∀ nIter vars, 0 < nIter → Raises (SMachine.cholEm p os nIter vars) := by
  have h1 : Raises (M.full p os) := NaN.full_raises_matrices h.spread.base hm hu ho hp
  have h2 : Raises (SMachine.cholFull p os) := h.spread.cholFull_raises_matrices (by
    rcases hp with hp | hp | hp | ⟨t, ht, hp | hp⟩
    · exact .inl hp
    · exact .inr (.inl ⟨u, hp⟩)
    · exact .inr (.inr (.inr (.inr ⟨u, hu, ho, hp⟩)))
    · exact .inr (.inr (.inr (.inl ⟨t, by omega, hp⟩)))
    · exact .inr (.inr (.inl ⟨t, hp⟩)))
  exact ⟨⟨h1.bind _, h1.bind _, h1.bind _, fun nIter vars hk => em_raises hk vars (h1.bind _)⟩,
    (h2.bind _).bind _, (h2.bind _).bind _, (h2.bind _).bind _,
    fun nIter vars hk => cholEm_raises hk vars h2⟩

/-- **C108.** Means and offsets with infinite entries: if a component of the filtered mean of row `t` is
finite, then `initial_state_mean` and all transition offsets before `t` are finite if a row up to `t` after
them is used, and the observation offsets of the rows up to `t` that are used. -/
theorem C108_offsets (h : M.IEEE nan inf fma) (hm : 0 < m) (p : M.Par n m) {os : List (M.Row m)}
    {out : List (M.V n × M.A n n)}
    (hr : M.filter p os = .ok out ∨ SMachine.cholFilter p os = .ok out ∨
      ∃ store, SMachine.bierFilter store p os = .ok out)
    {t : ℕ} (ht : t < out.length) {i : Fin n} (hfin : ¬ NotFinite nan inf (out[t].1 i))
    {u : ℕ} (hut : u ≤ t) (hu : u < os.length) (ho : os[u].Used) :
    (∀ j, ¬ NotFinite nan inf (p.mu0 j)) ∧
    (∀ s < u, ¬ p.b.AtTime (HasBad (NotFinite nan inf)) s) ∧
    ¬ p.d.AtTime (HasBad (NotFinite nan inf)) u := by
  have key := fun hp => hfin ((C107_offsets h.spread i.pos hm p hu ho hp hr).2 t hut ht i)
  exact ⟨fun j hb => key (.inl ⟨j, hb⟩), fun s hs hb => key (.inr (.inl ⟨s, hs, hb⟩)),
    fun hb => key (.inr (.inr hb))⟩

/-- **C108.** The unscented classes: if `filter` returns, all filtered covariances but the last are
finite (classes that do not work with square roots). -/
theorem C108_unscented_covariances (h : M.IEEE nan inf fma) {os : List (M.Row m)}
    {out : List (M.Mom n)}
    (hr : (∃ p : M.UPar n m, UMachine.aukfFilter p os = .ok out) ∨
      ∃ p : M.GPar n m, UMachine.ukfFilter p os = .ok out)
    {t : ℕ} (ht : t + 1 < out.length) (i j : Fin n) : ¬ NotFinite nan inf (out[t].cov i j) := by
  intro hb
  rcases hr with ⟨p, hr⟩ | ⟨p, hr⟩
  · rw [UMachine.aukfFilter] at hr
    have hlen := run_length hr
    have e := (run_rows hr).2 t (by omega) (by omega)
    simp only [UMachine.aukfStep, Option.getD_some] at e
    exact raises_iff.mp ((NaN.moments2points_raises h.spread.ubase hb).bind _) _ e
  · rw [UMachine.ukfFilter] at hr
    have hlen := run_length hr
    have e := (run_rows hr).2 t (by omega) (by omega)
    simp only [UMachine.ukfStep, Option.getD_some] at e
    exact raises_iff.mp ((NaN.augFilterPoints_raises_noise h.spread.ubase (.inl ⟨i, j, hb⟩)).bind _) _ e

/-- **C108.** The unscented classes raise on parameters that are not finite, when they are used. -/
theorem C108_unscented_parameters (h : M.IEEE nan inf fma) {os : List (M.Row m)} :
    (∀ p : M.UPar n m, (HasBad₂ (NotFinite nan inf) p.S0 ∧ os ≠ [] ∨
        HasBad₂ (NotFinite nan inf) p.Q ∧ 2 ≤ os.length ∨
        HasBad (NotFinite nan inf) p.mu0 ∧ 2 ≤ os.length ∨
        HasBad₂ (NotFinite nan inf) p.R ∧ ∃ o ∈ os, o.Used) →
      Raises (UMachine.aukfFilter p os) ∧ Raises (UMachine.aukfSmooth p os)) ∧
    (∀ p : M.GPar n m, os ≠ [] → (HasBad₂ (NotFinite nan inf) p.S0 ∨
        HasBad₂ (NotFinite nan inf) p.Q ∨ HasBad₂ (NotFinite nan inf) p.R ∨
        HasBad (NotFinite nan inf) p.mu0 ∧ 2 ≤ os.length) →
      Raises (UMachine.ukfFilter p os) ∧ Raises (UMachine.ukfSmooth p os)) ∧
    ∀ p : M.UPar n m, (HasBad₂ (NotFinite nan inf) p.Q ∨ HasBad₂ (NotFinite nan inf) p.R ∨
        (HasBad₂ (NotFinite nan inf) p.S0 ∨ HasBad (NotFinite nan inf) p.mu0) ∧ os ≠ []) →
      Raises (SMachine.sqFilter p os) ∧ Raises (SMachine.sqSmooth p os) :=
  ⟨fun p hp => C107_additive h.spread.ubase p hp,
    fun p hos hp => C107_general h.spread.ubase p hos hp, fun p hp => C107_sqrt h.spread.sbase p hp⟩

/-! ### A machine that overflows -/

/-- Integers up to a thousand, `∞`, `-∞` and `nan`. -/
inductive Clipped
  | num (x : ℤ)
  | inf (neg : Bool)
  | nan
  deriving DecidableEq

namespace Clipped

/-- Rounding: what is larger than a thousand is infinite. -/
def ofInt (x : ℤ) : Clipped :=
  if x > 1000 then .inf false else if x < -1000 then .inf true else .num x

/-- Addition. -/
def add : Clipped → Clipped → Clipped
  | .num x, .num y => ofInt (x + y)
  | .nan, _ => .nan
  | _, .nan => .nan
  | .inf s, .num _ => .inf s
  | .num _, .inf s => .inf s
  | .inf s, .inf t => if s = t then .inf s else .nan

/-- Minus. -/
def neg : Clipped → Clipped
  | .num x => .num (-x)
  | .inf s => .inf (!s)
  | .nan => .nan

/-- Multiplication. -/
def mul : Clipped → Clipped → Clipped
  | .num x, .num y => ofInt (x * y)
  | .nan, _ => .nan
  | _, .nan => .nan
  | .inf s, .num y => if y = 0 then .nan else .inf (s ^^ decide (y < 0))
  | .num x, .inf s => if x = 0 then .nan else .inf (s ^^ decide (x < 0))
  | .inf s, .inf t => .inf (s ^^ t)

/-- Sum of products, from the last one on. -/
def dotL : List (Clipped × Clipped) → Clipped
  | [] => .num 0
  | [q] => mul q.1 q.2
  | q :: l => add (mul q.1 q.2) (dotL l)

/-- Is finite. -/
def isNum : Clipped → Bool
  | .num _ => true
  | _ => false

/-- A routine that refuses what is not finite, and otherwise returns the first columns as they are. -/
def refuse {k l r s : ℕ} (X : Fin k → Fin l → Clipped) (Y : Fin r → Fin s → Clipped) :
    Res (Fin r → Fin s → Clipped) :=
  if (List.finRange k).all fun i => (List.finRange l).all fun j => (X i j).isNum then .ok Y
  else .error .valueError

theorem refuse_error {k l r s : ℕ} {X : Fin k → Fin l → Clipped} (Y : Fin r → Fin s → Clipped)
    {i : Fin k} {j : Fin l} (h : (X i j).isNum = false) : refuse X Y = .error .valueError := by
  rw [refuse, if_neg]
  intro hc
  have := List.all_eq_true.mp (List.all_eq_true.mp hc i (List.mem_finRange i)) j (List.mem_finRange j)
  rw [h] at this
  cases this

end Clipped

/-- A machine with numbers that overflow. -/
def small : SMachine where
  F := Clipped
  zero := .num 0
  one := .num 1
  count k := .num k
  add := Clipped.add
  sub x y := Clipped.add x (Clipped.neg y)
  mul := Clipped.mul
  div x _ := x
  dotV _ _ X v i := Clipped.dotL (List.ofFn fun j => (X i j, v j))
  dotM _ _ _ X Y i c := Clipped.dotL (List.ofFn fun j => (X i j, Y j c))
  pinv _ X := Clipped.refuse X fun _ _ => .num 0
  logpdf k x mu _ :=
    if (List.finRange k).all fun i => (Clipped.add (x i) (Clipped.neg (mu i))).isNum then
      .ok (Clipped.neg (Clipped.dotL (List.ofFn fun i =>
        (Clipped.add (x i) (Clipped.neg (mu i)), Clipped.add (x i) (Clipped.neg (mu i))))))
    else .ok (.num (-1))
  sum l := l.foldr Clipped.add (.num 0)
  three := .num 3
  half := .num 0
  sqrt x := x
  chol _ X := Clipped.refuse X X
  cholL _ X := Clipped.refuse X X
  qr _ _ X := Clipped.refuse X X
  lstsq _ _ _ X _ := Clipped.refuse X fun _ _ => .num 0
  dotVM _ _ v X j := Clipped.dotL (List.ofFn fun i => (v i, X i j))
  dot _ x y := Clipped.dotL (List.ofFn fun i => (x i, y i))
  allClose _ _ := true
  positive | .num x => decide (x > 0) | .inf s => !s | .nan => false
  negative | .num x => decide (x < 0) | .inf s => s | .nan => false
  square x := Clipped.mul x x
  abs x := x
  sign x := x
  minusOne := .num (-1)

theorem small_dotOf : ∀ l : List (Clipped × Clipped), l ≠ [] →
    DotOf small.toMachine (fun a b x => Clipped.add (Clipped.mul a b) x) (Multiset.ofList l) (Clipped.dotL l)
  | [], h => (h rfl).elim
  | [q], _ => DotOf.mul (M := small.toMachine) q.1 q.2
  | q :: q' :: l, _ => by
    have h1 : DotOf small.toMachine (fun a b x => Clipped.add (Clipped.mul a b) x) {q}
        (Clipped.mul q.1 q.2) := DotOf.mul (M := small.toMachine) q.1 q.2
    have := h1.add (small_dotOf (q' :: l) (by simp))
    exact this

/-- The assumptions of C108 can be met. -/
theorem small_ieee : small.IEEE (fun x : Clipped => x = .nan) (fun x : Clipped => ∃ s, x = .inf s)
    (fun a b x => Clipped.add (Clipped.mul a b) x) := by
  have num : ∀ {x : Clipped}, ¬ NotFinite (fun x : Clipped => x = .nan) (fun x => ∃ s, x = .inf s) x →
      ∃ y, x = .num y := by
    intro x hx
    cases x with
    | num y => exact ⟨y, rfl⟩
    | inf s => exact (hx (.inr ⟨s, rfl⟩)).elim
    | nan => exact (hx (.inl rfl)).elim
  have isNum : ∀ {x : Clipped}, NotFinite (fun x : Clipped => x = .nan) (fun x => ∃ s, x = .inf s) x →
      x.isNum = false := by
    rintro x (rfl | ⟨s, rfl⟩) <;> rfl
  have sums : ∀ {x y : Clipped}, (∃ s, x = .inf s) → (∃ s, y = .inf s) →
      NotFinite (fun x : Clipped => x = .nan) (fun x => ∃ s, x = .inf s) (Clipped.add x y) := by
    rintro _ _ ⟨s, rfl⟩ ⟨t, rfl⟩
    cases s <;> cases t
    · exact .inr ⟨_, rfl⟩
    · exact .inl rfl
    · exact .inl rfl
    · exact .inr ⟨_, rfl⟩
  have addBad : ∀ {x y : Clipped},
      NotFinite (fun x : Clipped => x = .nan) (fun x => ∃ s, x = .inf s) x ∨
      NotFinite (fun x : Clipped => x = .nan) (fun x => ∃ s, x = .inf s) y →
      NotFinite (fun x : Clipped => x = .nan) (fun x => ∃ s, x = .inf s) (Clipped.add x y) := by
    intro x y h
    cases x with
    | nan => exact .inl rfl
    | num a =>
      cases y with
      | nan => exact .inl rfl
      | inf t => exact .inr ⟨_, rfl⟩
      | num b =>
        rcases h with (h | ⟨_, h⟩) | h | ⟨_, h⟩ <;> cases h
    | inf s =>
      cases y with
      | nan => exact .inl rfl
      | num b => exact .inr ⟨_, rfl⟩
      | inf t => exact sums ⟨s, rfl⟩ ⟨t, rfl⟩
  have mulBad : ∀ {x y : Clipped}, (∃ s, x = .inf s) ∨ (∃ s, y = .inf s) →
      NotFinite (fun x : Clipped => x = .nan) (fun x => ∃ s, x = .inf s) (Clipped.mul x y) := by
    intro x y h
    cases x with
    | nan => exact .inl rfl
    | num a =>
      cases y with
      | nan => exact .inl rfl
      | inf t =>
        simp only [Clipped.mul]
        split
        · exact .inl rfl
        · exact .inr ⟨_, rfl⟩
      | num b => rcases h with ⟨_, h⟩ | ⟨_, h⟩ <;> cases h
    | inf s =>
      cases y with
      | nan => exact .inl rfl
      | num b =>
        simp only [Clipped.mul]
        split
        · exact .inl rfl
        · exact .inr ⟨_, rfl⟩
      | inf t => exact .inr ⟨_, rfl⟩
  exact {
    nan_add := fun y h => by subst h; cases y <;> rfl
    add_nan := fun x y h => by subst h; cases x <;> rfl
    nan_sub := fun y h => by subst h; cases y <;> rfl
    sub_nan := fun x y h => by subst h; cases x <;> rfl
    nan_mul := fun y h => by subst h; cases y <;> rfl
    mul_nan := fun x y h => by subst h; cases x <;> rfl
    inf_add := fun h hy => by
      obtain ⟨s, rfl⟩ := h
      obtain ⟨y, rfl⟩ := num hy
      exact ⟨s, rfl⟩
    add_inf := fun hx h => by
      obtain ⟨s, rfl⟩ := h
      obtain ⟨x, rfl⟩ := num hx
      exact ⟨s, rfl⟩
    inf_add_inf := fun hx hy => sums hx hy
    inf_sub := fun h hy => by
      obtain ⟨s, rfl⟩ := h
      obtain ⟨y, rfl⟩ := num hy
      exact ⟨s, rfl⟩
    sub_inf := fun hx h => by
      obtain ⟨s, rfl⟩ := h
      obtain ⟨x, rfl⟩ := num hx
      exact ⟨!s, rfl⟩
    inf_sub_inf := fun {x y} hx hy => by
      obtain ⟨t, rfl⟩ := hy
      exact sums hx (y := Clipped.neg (.inf t)) ⟨!t, rfl⟩
    inf_mul := fun hx _ => mulBad (.inl hx)
    mul_inf := fun _ hy => mulBad (.inr hy)
    fma_mul := fun a b x h => addBad (.inl h)
    fma_add := fun a b x h => addBad (.inr h)
    dotV := fun X v i hl => small_dotOf _ fun e => by
      have := congrArg List.length e
      rw [List.length_ofFn] at this
      exact absurd this (Nat.pos_iff_ne_zero.mp ‹_›)
    dotM := fun X Y i c hl => small_dotOf _ fun e => by
      have := congrArg List.length e
      rw [List.length_ofFn] at this
      exact absurd this (Nat.pos_iff_ne_zero.mp ‹_›)
    dot := fun x y hk => small_dotOf _ fun e => by
      have := congrArg List.length e
      rw [List.length_ofFn] at this
      exact absurd this (Nat.pos_iff_ne_zero.mp ‹_›)
    pinv := fun h => Clipped.refuse_error _ (isNum h)
    chol := fun h => Clipped.refuse_error _ (isNum h)
    cholL := fun h => Clipped.refuse_error _ (isNum h)
    qr := fun h => Clipped.refuse_error _ (isNum h) }

/-- The state is multiplied by a hundred in every step. -/
def exGrow : small.Par 1 1 :=
  { A := .const fun _ _ => .num 100, b := .const fun _ => .num 0, Q := .const fun _ _ => .num 0,
    C := .const fun _ _ => .num 1, d := .const fun _ => .num 0, R := .const fun _ _ => .num 1,
    mu0 := fun _ => .num 3, S0 := fun _ _ => .num 0 }

/-- An observation, two masked ones, of which the second has the value `∞`, and an observation. -/
def exGrowRows : List (small.Row 1) :=
  [⟨fun _ => .num 3, fun _ => false⟩, ⟨fun _ => .num 0, fun _ => true⟩,
    ⟨fun _ => .inf false, fun _ => true⟩, ⟨fun _ => .num 5, fun _ => false⟩]

/-- An observation that is infinite. -/
def exInfRows : List (small.Row 1) :=
  [⟨fun _ => .num 3, fun _ => false⟩, ⟨fun _ => .inf true, fun _ => false⟩]

/-- The hypotheses of `C108_last_row` and `C108_offsets`: the mean overflows in the third row, the second
is finite.  With an infinite observation the calls return, too. -/
example : (∃ out, small.filter exGrow exGrowRows = .ok out ∧
      (out.map fun r => (r.1 0 : Clipped)) = [.num 3, .num 300, .inf false, .nan]) ∧
    (∃ out, SMachine.cholFilter exGrow exGrowRows = .ok out ∧
      (out.map fun r => (r.1 0 : Clipped)) = [.num 3, .num 300, .inf false, .nan]) ∧
    (∃ out, SMachine.bierFilter id exGrow (exGrowRows.take 2) = .ok out ∧
      (out.map fun r => (r.1 0 : Clipped)) = [.num 3, .num 300]) ∧
    ∃ out, small.filter exGrow exInfRows = .ok out ∧
      (out.map fun r => (r.1 0 : Clipped)) = [.num 3, .nan] :=
  ⟨⟨_, rfl, rfl⟩, ⟨_, rfl, rfl⟩, ⟨_, rfl, rfl⟩, ⟨_, rfl, rfl⟩⟩

/-- Those of `C108_filter_update`. -/
example : (exGrowRows[3]).Used ∧
    (∃ r, small.update exGrow (fun _ => .num 2) (fun _ _ => .num 0) (some exGrowRows[3]) {} = .ok r ∧
      (r.1 0 : Clipped) = .num 200) ∧
    (∃ r, small.update exGrow (fun _ => .inf true) (fun _ _ => .num 0) (some exGrowRows[3]) {} = .ok r ∧
      (r.1 0 : Clipped) = .nan) ∧
    ∃ r, SMachine.cholUpdate exGrow (fun _ => .num 2) (fun _ _ => .num 0) (some exGrowRows[3]) {}
      = .ok r ∧ (r.1 0 : Clipped) = .num 200 :=
  ⟨fun _ => rfl, ⟨_, rfl, rfl⟩, ⟨_, rfl, rfl⟩, ⟨_, rfl, rfl⟩⟩

/-- Those of `C108_smooth` and `C108_smooth_covariances`: two rows are smoothed; with all four rows,
the first smoothed mean is `nan`. -/
example : (∃ out, small.smooth exGrow (exGrowRows.take 2) = .ok out ∧
      (out.map fun r => (r.1 0 : Clipped)) = [.num 3, .num 300]) ∧
    (∃ out, SMachine.cholSmooth exGrow (exGrowRows.take 2) = .ok out ∧
      (out.map fun r => (r.1 0 : Clipped)) = [.num 3, .num 300]) ∧
    ∃ out, small.smooth exGrow exGrowRows = .ok out ∧
      (out.map fun r => (r.1 0 : Clipped)) = [.nan, .nan, .nan, .nan] :=
  ⟨⟨_, rfl, rfl⟩, ⟨_, rfl, rfl⟩, ⟨_, rfl, rfl⟩⟩

/-- Those of `C108_covariances`: with noise the variance overflows, and stays infinite as long as rows are
masked; `smooth` raises, and so does `filter` as soon as a row is used. -/
example : (∃ out, small.filter { exGrow with Q := .const fun _ _ => .num 1 } (exGrowRows.take 3) = .ok out ∧
      (out.map fun r => (r.2 0 0 : Clipped)) = [.num 0, .num 1, .inf false]) ∧
    Raises (small.filter { exGrow with Q := .const fun _ _ => .num 1 } exGrowRows) ∧
    (∃ out, small.smooth { exGrow with Q := .const fun _ _ => .num 1 } (exGrowRows.take 2) = .ok out) ∧
    Raises (small.smooth { exGrow with Q := .const fun _ _ => .num 1 } (exGrowRows.take 3)) :=
  ⟨⟨_, rfl, rfl⟩, ⟨_, rfl⟩, ⟨_, rfl⟩, ⟨_, rfl⟩⟩

/-- Those of `C108_matrices`; without the infinite entry the calls return. -/
example : (3 < exGrowRows.length ∧ (exGrowRows[3]).Used) ∧
    ({ exGrow with Q := .const fun _ _ => .inf false } : small.Par 1 1).Q.AtTime
      (HasBad₂ (NotFinite (fun x : Clipped => x = .nan) fun x => ∃ s, x = .inf s)) 2 ∧
    ∃ out, small.filter exGrow exGrowRows = .ok out :=
  ⟨⟨by decide, fun _ => rfl⟩, .inl ⟨_, rfl, 0, 0, .inr ⟨_, rfl⟩⟩, _, rfl⟩

/-- A model for the unscented classes. -/
def exGrowU : small.UPar 1 1 :=
  { f := .flat [fun x => .ok x], g := .flat [fun x => .ok x], Q := fun _ _ => .num 0, R := fun _ _ => .num 1,
    mu0 := fun _ => .num 3, S0 := fun _ _ => .num 0 }

/-- Those of `C108_unscented_covariances` and `C108_unscented_parameters`: the call returns, and with an
infinite variance of the initial state it raises. -/
example : (∃ out, UMachine.aukfFilter exGrowU (exGrowRows.take 3) = .ok out ∧ out.length = 3) ∧
    (∃ out, SMachine.sqFilter exGrowU (exGrowRows.take 3) = .ok out ∧ out.length = 3) ∧
    Raises (UMachine.aukfFilter { exGrowU with S0 := fun _ _ => .inf false } (exGrowRows.take 3)) :=
  ⟨⟨_, rfl, rfl⟩, ⟨_, rfl, rfl⟩, ⟨_, rfl⟩⟩

end Verif
