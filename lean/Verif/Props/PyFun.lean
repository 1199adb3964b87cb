import Verif.Proofs.PyFun
import Verif.Props.Unscented

/-!
# C99: the user's functions are Python functions

The functions handed to the unscented classes may overwrite their arguments, remember earlier calls and
return an array that they use again.
-/

open Matrix

namespace Verif

variable {σ : Type} {n m : ℕ}

/-! ### Functions that return `F` of what they get -/

/-- **C99.** `AdditiveUnscentedKalmanFilter.filter`: whatever the functions remember, and whatever the
transition functions leave in the arrays they get, the results are those of the functions of
mathematics they compute. -/
theorem C99_filter {p : PyUParams σ n m} {u : UParams n m} (h : p.Computes u) (s : σ)
    (os : List (Obs m)) : (pyAukfFilter p s os).map (List.map Prod.fst) = aukfFilter u os :=
  pyAukfFilter_fst h s os

/-- **C99.** `smooth` reads the sigma points after the calls: if the transition functions leave them
alone, the results are right. -/
theorem C99_smooth {p : PyUParams σ n m} {u : UParams n m} (h : p.Computes u)
    (hk : p.f.All PyFun.Keeps) (s : σ) (os : List (Obs m)) :
    (pyAukfSmooth p s os).map (List.map Prod.fst) = aukfSmooth u os :=
  pyAukfSmooth_fst h hk s os

/-- **C99.** `filter_update`, with functions of the filter or of the call. -/
theorem C99_filter_update {p : PyUParams σ n m} {u : UParams n m} (h : p.Computes u) (s : σ)
    (M : Moments n) (o : Option (Obs m)) {a : PyUUpdateArgs σ n m} {b : UUpdateArgs n m}
    (hf : Option.Rel (fun f F => f.Returns F) a.f b.f)
    (hg : Option.Rel (fun g G => g.Returns G ∧ g.Keeps) a.g b.g) (hQ : a.Q = b.Q) (hR : a.R = b.R) :
    (pyAukfUpdate p s M o a).map Prod.fst = aukfUpdate u M o b :=
  pyAukfUpdate_fst h s M o hf hg hQ hR

/-- **C99.** `UnscentedKalmanFilter`: noise arrays may be overwritten as well. -/
theorem C99_general {p : PyGParams σ n m} {u : GParams n m} (h : p.Computes u) (s : σ)
    (os : List (Obs m)) :
    (pyUkfFilter p s os).map (List.map Prod.fst) = ukfFilter u os ∧
    (p.f.All PyFun.KeepsState →
      (pyUkfSmooth p s os).map (List.map Prod.fst) = ukfSmooth u os) :=
  ⟨pyUkfFilter_fst h s os, fun hk => pyUkfSmooth_fst h hk s os⟩

/-- **C99.** The square root filter. -/
theorem C99_sqrt_filter (qr : QR) {p : PyUParams σ n m} {u : UParams n m} (h : p.Computes u) (s : σ)
    (os : List (Obs m)) : (pySqFilter qr p s os).map (List.map Prod.fst) = sqFilter qr u os :=
  pySqFilter_fst qr h s os

/-- **C99.** What functions remember from an earlier call of `filter` does not matter either. -/
theorem C99_filter_again {p : PyUParams σ n m} {u : UParams n m} (h : p.Computes u) (s s' : σ)
    (os : List (Obs m)) :
    (pyAukfFilter p s os).map (List.map Prod.fst) = (pyAukfFilter p s' os).map (List.map Prod.fst) := by
  rw [C99_filter h, C99_filter h]

/-- **C99.** `sample` when the transition functions leave `h x` in place of `x`: observations and last
state are right, every earlier state that is returned is `h` of the right one. -/
theorem C99_sample {ρ : Type} (rng : Rng ρ) {p : PyUParams σ n m} {u : UParams n m}
    (h : p.Computes u) {hh : Vec n → Vec n} (hl : p.f.All fun f => ∀ s x, (f s x).2.1 = hh x)
    (T : ℕ) (initial : Option (Vec n)) (s : σ) (r : ρ) {out : List (Vec n × Vec m)}
    (ho : aukfSample rng u T initial r = .ok out) :
    ∃ out', pyAukfSample rng p T initial s r = .ok out' ∧ out'.length = out.length ∧
      ∀ t x z, out[t]? = some (x, z) →
        out'[t]? = some (if t + 1 < out.length then hh x else x, z) := by
  refine ⟨leftOver hh out, ?_, leftOver_length hh out, fun t x z hx => leftOver_getElem? hh out t hx⟩
  rw [pyAukfSample_eq rng h hl, ho]
  rfl

/-- **C99.** `sample` when no function overwrites its argument. -/
theorem C99_sample_keeps {ρ : Type} (rng : Rng ρ) {p : PyUParams σ n m} {u : UParams n m}
    (h : p.Computes u) (hk : p.f.All PyFun.Keeps) (T : ℕ) (initial : Option (Vec n)) (s : σ) (r : ρ) :
    pyAukfSample rng p T initial s r = aukfSample rng u T initial r := by
  rw [pyAukfSample_eq rng h (hh := fun x => x) hk]
  cases aukfSample rng u T initial r with
  | error e => rfl
  | ok l => exact congrArg Except.ok (leftOver_id l)

/-! ### Any functions at all -/

private theorem unscentedCorrect_sim {o o' : Obs m} (h : o.Sim o') (c : Mat n m) (p : Moments n)
    (q : Moments m) : unscentedCorrect c p q o = unscentedCorrect c p q o' := by
  rw [unscentedCorrect, unscentedCorrect]
  by_cases ho : o.missing
  · have ho' : o'.missing := h.1.mp ho
    simp only [ho, ho', not_true_eq_false, if_false]
  · have ho' : ¬ o'.missing := fun h' => ho (h.1.mpr h')
    simp only [ho, ho', not_false_eq_true, if_true, h.2 ho]

private theorem pyAukfStep_sim (p : PyUParams σ n m) (s : σ) (t : ℕ)
    (prev : Option (Moments n × σ)) (o o' : Obs m) (h : o.Sim o') :
    pyAukfStep p s t prev o = pyAukfStep p s t prev o' := by
  cases prev <;> simp only [pyAukfStep, pyCorrect, unscentedCorrect_sim h]

private theorem pyUkfStep_sim (p : PyGParams σ n m) (s : σ) (t : ℕ)
    (prev : Option (Moments n × σ)) (o o' : Obs m) (h : o.Sim o') :
    pyUkfStep p s t prev o = pyUkfStep p s t prev o' := by
  cases prev <;> simp only [pyUkfStep, pyCorrect₂, unscentedCorrect_sim h]

/-- **C99.** Whatever the functions do, values under the mask influence neither the results nor what
the functions remember afterwards. -/
theorem C99_masked_values {os os' : List (Obs m)} (h : SameData os os') (s : σ) :
    (∀ p : PyUParams σ n m,
      pyAukfFilter p s os = pyAukfFilter p s os' ∧ pyAukfSmooth p s os = pyAukfSmooth p s os') ∧
    ∀ p : PyGParams σ n m,
      pyUkfFilter p s os = pyUkfFilter p s os' ∧ pyUkfSmooth p s os = pyUkfSmooth p s os' := by
  have h1 : ∀ p : PyUParams σ n m, pyAukfFilter p s os = pyAukfFilter p s os' := fun p =>
    runLoop_congr (pyAukfStep_sim p s) h 0 none
  have h2 : ∀ p : PyGParams σ n m, pyUkfFilter p s os = pyUkfFilter p s os' := fun p =>
    runLoop_congr (pyUkfStep_sim p s) h 0 none
  exact ⟨fun p => ⟨h1 p, by rw [pyAukfSmooth, pyAukfSmooth, h1]⟩,
    fun p => ⟨h2 p, by rw [pyUkfSmooth, pyUkfSmooth, h2]⟩⟩

/-- **C99.** Whatever the functions do, later observations do not change earlier rows. -/
theorem C99_causal (os os' : List (Obs m)) (s : σ) :
    (∀ (p : PyUParams σ n m) l, pyAukfFilter p s (os ++ os') = .ok l →
      pyAukfFilter p s os = .ok (l.take os.length)) ∧
    ∀ (p : PyGParams σ n m) l, pyUkfFilter p s (os ++ os') = .ok l →
      pyUkfFilter p s os = .ok (l.take os.length) :=
  ⟨fun _ _ h => runLoop_take h, fun _ _ h => runLoop_take h⟩

private theorem defaultFunction_supplied {α : Type} {arg : Option α} {fns : Fns α} {t : ℕ}
    (h : FnSupplied arg fns t) : ∃ f, defaultFunction arg fns = .ok f ∧ fns.at t = .ok f := by
  rcases h with ⟨f, rfl, h⟩ | ⟨rfl, f, rfl⟩
  · refine ⟨f, ?_, h⟩
    cases fns <;> rfl
  · exact ⟨f, rfl, rfl⟩

/-- **C99.** Whatever the functions do, one more row of `filter` is one `filter_update` of its last
row, if the functions still remember what they remembered at the end of `filter`. -/
theorem C99_online {p : PyUParams σ n m} {s s' : σ} {os : List (Obs m)} {l : List (Moments n × σ)}
    {M : Moments n} (h : pyAukfFilter p s os = .ok (l ++ [(M, s')])) (o : Obs m)
    {a : PyUUpdateArgs σ n m} (hf : FnSupplied a.f p.f (os.length - 1))
    (hg : FnSupplied a.g p.g os.length) (hQ : a.Q = none ∨ a.Q = some p.Q)
    (hR : a.R = none ∨ a.R = some p.R) :
    pyAukfFilter p s (os ++ [o])
      = (pyAukfUpdate p s' M (some o) a).map fun r => l ++ [(M, s')] ++ [r] := by
  obtain ⟨f, hf1, hf2⟩ := defaultFunction_supplied hf
  obtain ⟨g, hg1, hg2⟩ := defaultFunction_supplied hg
  have hQ' : a.Q.getD p.Q = p.Q := by rcases hQ with h | h <;> rw [h] <;> rfl
  have hR' : a.R.getD p.R = p.R := by rcases hR with h | h <;> rw [h] <;> rfl
  rw [pyAukfFilter] at h
  rw [pyAukfFilter, runLoop_snoc h]
  congr 1
  simp only [pyAukfStep, pyAukfUpdate, hf1, hg1, hf2, hg2, hQ', hR', bind, Except.bind,
    Option.getD_some]

/-- **C99.** The same for `UnscentedKalmanFilter`. -/
theorem C99_general_online {p : PyGParams σ n m} {s s' : σ} {os : List (Obs m)}
    {l : List (Moments n × σ)} {M : Moments n} (h : pyUkfFilter p s os = .ok (l ++ [(M, s')]))
    (o : Obs m) {a : PyGUpdateArgs σ n m} (hf : FnSupplied a.f p.f (os.length - 1))
    (hg : FnSupplied a.g p.g os.length) (hQ : a.Q = none ∨ a.Q = some p.Q)
    (hR : a.R = none ∨ a.R = some p.R) :
    pyUkfFilter p s (os ++ [o])
      = (pyUkfUpdate p s' M (some o) a).map fun r => l ++ [(M, s')] ++ [r] := by
  obtain ⟨f, hf1, hf2⟩ := defaultFunction_supplied hf
  obtain ⟨g, hg1, hg2⟩ := defaultFunction_supplied hg
  have hQ' : a.Q.getD p.Q = p.Q := by rcases hQ with h | h <;> rw [h] <;> rfl
  have hR' : a.R.getD p.R = p.R := by rcases hR with h | h <;> rw [h] <;> rfl
  rw [pyUkfFilter] at h
  rw [pyUkfFilter, runLoop_snoc h]
  congr 1
  simp only [pyUkfStep, pyUkfUpdate, hf1, hg1, hf2, hg2, hQ', hR', bind, Except.bind,
    Option.getD_some]

/-- **C99.** A call of `filter_update` without observation is one with a masked observation, and
remembers the same. -/
theorem C99_no_observation {o : Obs m} (ho : o.missing) (s : σ) (M : Moments n) :
    (∀ (p : PyUParams σ n m) a, pyAukfUpdate p s M none a = pyAukfUpdate p s M (some o) a) ∧
    ∀ (p : PyGParams σ n m) a, pyUkfUpdate p s M none a = pyUkfUpdate p s M (some o) a := by
  have hs : (⟨0, fun _ => true⟩ : Obs m).Sim o := by
    have : (⟨0, fun _ => true⟩ : Obs m).missing := by
      obtain ⟨i, hi⟩ := ho
      exact ⟨i, rfl⟩
    exact ⟨⟨fun _ => ho, fun _ => this⟩, fun h => absurd this h⟩
  exact ⟨fun p a => by simp only [pyAukfUpdate, pyCorrect, unscentedCorrect_sim hs],
    fun p a => by simp only [pyUkfUpdate, pyCorrect₂, unscentedCorrect_sim hs]⟩

/-- **C99.** Whatever the functions do, the last smoothed row is the last filtered row, and there are as
many rows as observations. -/
theorem C99_last_smoothed (os : List (Obs m)) (s : σ) :
    (∀ (p : PyUParams σ n m) l', pyAukfSmooth p s os = .ok l' → ∃ l, pyAukfFilter p s os = .ok l ∧
      l'.getLast? = l.getLast? ∧ l'.length = os.length) ∧
    ∀ (p : PyGParams σ n m) l', pyUkfSmooth p s os = .ok l' → ∃ l, pyUkfFilter p s os = .ok l ∧
      l'.getLast? = l.getLast? ∧ l'.length = os.length := by
  constructor
  all_goals
    intro p l' h
    simp only [pyAukfSmooth, pyUkfSmooth] at h
    obtain ⟨l, hf, h⟩ := ok_bind_iff.mp h
    obtain ⟨h1, h2, -⟩ := backFull_last h
    exact ⟨l, hf, h1, by rw [h2]; exact runLoop_length hf⟩

/-! ### Functions that count their calls -/

/-- **C99.** In `filter` on `T` rows the transition function is called `2n+1` times for each row but the
first, the observation function `2n+1` times for each row (masked or not), in the order of time.  So two
functions that count their calls can be given instead of functions for each time step (compare C39),
the counters starting from zero. -/
theorem C99_counting {u : UParams n m} {F : ℕ → Vec n → Vec n} {G : ℕ → Vec n → Vec m}
    (os : List (Obs m)) (hf : ∀ t, t + 1 < os.length → u.f.at t = .ok (F t))
    (hg : ∀ t, t < os.length → u.g.at t = .ok (G t)) :
    pyAukfFilter ⟨.flat [.countFst (2 * n + 1) F], .flat [.countSnd (2 * n + 1) G], u.Q, u.R, u.mu0,
        u.S0⟩ (0, 0) os
      = (aukfFilter u os).map
        (List.mapIdx fun t M => (M, t * (2 * n + 1), (t + 1) * (2 * n + 1))) := by
  rw [two_mul]
  exact pyAukf_counting os hf hg

/-- **C99.** `smooth` on `T` rows runs `filter` first and then calls the transition function `2n+1` times
for each row but the last, the last of them first: before it returns row `t` there have been
`(T - 1 + T - 1 - t) (2n + 1)` calls.  So functions that count their calls do not replace functions for
each time step here. -/
theorem C99_counting_smooth {u : UParams n m} {F : ℕ → Vec n → Vec n} {G : ℕ → Vec n → Vec m}
    (os : List (Obs m)) (hf : ∀ t, t + 1 < os.length → u.f.at t = .ok (F t))
    (hg : ∀ t, t < os.length → u.g.at t = .ok (G t)) {l : List (Moments n × ℕ × ℕ)}
    (h : pyAukfSmooth ⟨.flat [.countFst (2 * n + 1) F], .flat [.countSnd (2 * n + 1) G], u.Q, u.R,
      u.mu0, u.S0⟩ (0, 0) os = .ok l) {t : ℕ} {r : Moments n × ℕ × ℕ} (hr : l[t]? = some r) :
    r.2 = ((os.length - 1 + (os.length - 1 - t)) * (2 * n + 1), os.length * (2 * n + 1)) := by
  rw [pyAukfSmooth, C99_counting os hf hg] at h
  obtain ⟨l₀, hl₀, h⟩ := ok_bind_iff.mp h
  cases hu : aukfFilter u os with
  | error e => rw [hu] at hl₀; cases hl₀
  | ok l₁ =>
    rw [hu] at hl₀
    simp only [Except.map, Except.ok.injEq] at hl₀
    have hlen : l₁.length = os.length := runLoop_length hu
    rw [two_mul] at h hl₀ ⊢
    set p : PyUParams (ℕ × ℕ) n m := ⟨.flat [.countFst (n + n + 1) F],
      .flat [.countSnd (n + n + 1) G], u.Q, u.R, u.mu0, u.S0⟩ with hp
    have step : ∀ t x y k b, y.2 = (k * (n + n + 1), b) → ∀ r, pyAukfSmoothStep p t x y = .ok r →
        r.2 = ((k + 1) * (n + n + 1), b) := by
      intro t x y k b hy r hr
      simp only [pyAukfSmoothStep, hp] at hr
      obtain ⟨pts, -, hr⟩ := ok_bind_iff.mp hr
      obtain ⟨f, hf, hr⟩ := ok_bind_iff.mp hr
      cases hf
      rw [hy] at hr
      simp only [callAll_countFst, pure, Except.pure, Except.ok.injEq] at hr
      rw [← hr]
    have key : ∀ (rest : List (Moments n × ℕ × ℕ)) (t : ℕ) (x : Moments n × ℕ × ℕ) K b
        (r : (Moments n × ℕ × ℕ) × List (Moments n × ℕ × ℕ)),
        (∀ z ∈ (x :: rest).getLast?, z.2 = (K * (n + n + 1), b)) →
        backLoop (pyAukfSmoothStep p) t x rest = .ok r →
        ∀ j z, (r.1 :: r.2)[j]? = some z → z.2 = ((K + (rest.length - j)) * (n + n + 1), b) := by
      intro rest
      induction rest with
      | nil =>
        intro t x K b r hz hr j z hj
        cases hr
        cases j with
        | zero =>
          simp only [List.getElem?_cons_zero, Option.some.injEq] at hj
          subst hj
          simpa using hz x (by simp)
        | succ j => simp at hj
      | cons y rest ih =>
        intro t x K b r hz hr j z hj
        rw [backLoop] at hr
        obtain ⟨q, hq, hr⟩ := ok_bind_iff.mp hr
        obtain ⟨w, hw, hr⟩ := ok_bind_iff.mp hr
        cases hr
        have ih' := ih (t + 1) y K b q (fun z hz' => hz z (by
          rw [List.getLast?_cons_cons]; exact hz')) hq
        cases j with
        | zero =>
          simp only [List.getElem?_cons_zero, Option.some.injEq] at hj
          subst hj
          have h0 := ih' 0 q.1 rfl
          rw [step t x q.1 _ b h0 w hw]
          simp only [List.length_cons, Nat.sub_zero, add_assoc]
        | succ j =>
          rw [ih' j z (by simpa using hj)]
          simp only [List.length_cons, Nat.add_sub_add_right]
    cases l₀ with
    | nil => cases h
    | cons x rest =>
      rw [backFull] at h
      obtain ⟨q, hq, h⟩ := ok_bind_iff.mp h
      cases h
      have hlr : rest.length + 1 = os.length := by
        rw [← hlen, ← List.length_mapIdx (l := l₁), hl₀, List.length_cons]
      have := key rest 0 x (os.length - 1) (os.length * (n + n + 1)) q (fun z hz => by
        rw [← hl₀, List.getLast?_eq_getElem?, List.length_mapIdx, List.getElem?_mapIdx,
          Option.mem_def, Option.map_eq_some_iff] at hz
        obtain ⟨M, -, rfl⟩ := hz
        have : l₁.length - 1 + 1 = os.length := by omega
        simp only [this]
        rw [hlen]) hq t r hr
      rw [this, ← hlr, Nat.add_sub_cancel]

/-! ### Functions that overwrite what they get -/

/-- **C99.** An affine observation function that works in the array it gets (`x *= 2; return x`): the
gain has `C S Cᵀ` where it should have `S Cᵀ`. -/
theorem C99_observation_inPlace {p : PyUParams σ n n} {C : Mat n n} {d : Vec n} (hS : p.S0.PosDef)
    (hg : p.g = .flat [.inPlace fun x => C *ᵥ x + d]) (s : σ) {o : Obs n} (ho : ¬ o.missing) :
    pyAukfFilter p s [o] = .ok [(⟨p.mu0 + (C * p.S0 * Cᵀ * pinv (C * p.S0 * Cᵀ + p.R)) *ᵥ
        (o.val - (C *ᵥ p.mu0 + d)),
      p.S0 - C * p.S0 * Cᵀ * pinv (C * p.S0 * Cᵀ + p.R) * (C * p.S0 * Cᵀ)ᵀ⟩, s)] := by
  obtain ⟨pts, h1, h2⟩ := moments2points_default (⟨p.mu0, p.S0⟩ : Moments n) hS
  have h3 := h2.points2moments
  have h4 := pyCorrect_inPlace (R := p.R) (C := C) (d := d) h2 (g := fun x => C *ᵥ x + d)
    (fun _ => rfl) s o
  simp only at h3 h4
  simp only [pyAukfFilter, runLoop, pyAukfStep, Option.getD_none, h1, bind, Except.bind, hg, Fns.at,
    first, h3, h4, pure, Except.pure, unscentedCorrect, ho, not_false_eq_true, if_true]

/-- **C99.** An affine transition function that works in the array it gets: the gain of the smoother has
`A S Aᵀ` where it should have `S Aᵀ`. -/
theorem C99_transition_inPlace {p : PyUParams σ n m} {A : Mat n n} {b : Vec n} (hS : p.S0.PosDef)
    (hf : p.f = .flat [.inPlace fun x => A *ᵥ x + b]) (s : σ) {o₀ o₁ : Obs m} (ho : o₀.missing)
    {r₀ r₁ : Moments n × σ} (h : pyAukfFilter p s [o₀, o₁] = .ok [r₀, r₁]) :
    ∃ s', pyAukfSmooth p s [o₀, o₁] = .ok [(⟨p.mu0 +
        (A * p.S0 * Aᵀ * pinv (A * p.S0 * Aᵀ + p.Q)) *ᵥ (r₁.1.mean - (A *ᵥ p.mu0 + b)),
      p.S0 + A * p.S0 * Aᵀ * pinv (A * p.S0 * Aᵀ + p.Q) * (r₁.1.cov - (A * p.S0 * Aᵀ + p.Q)) *
        (A * p.S0 * Aᵀ * pinv (A * p.S0 * Aᵀ + p.Q))ᵀ⟩, s'), r₁] := by
  obtain ⟨pts, h1, h2⟩ := moments2points_default (⟨p.mu0, p.S0⟩ : Moments n) hS
  have h3 := h2.points2moments
  simp only at h3
  have hr : r₀.1 = ⟨p.mu0, p.S0⟩ := by
    simp only [pyAukfFilter, runLoop, pyAukfStep, Option.getD_none, h1, bind, Except.bind, h3] at h
    cases hg : p.g.at 0 with
    | error e => rw [hg] at h; cases h
    | ok g =>
      rw [hg] at h
      simp only [pure, Except.pure, pyCorrect, unscentedCorrect, ho, not_true, if_false] at h
      split at h
      · cases h
      · simp only [Except.ok.injEq, List.cons.injEq] at h
        rw [← h.1]
  have h5 := (h2.map A b (F := fun x => A *ᵥ x + b) fun _ => rfl).points2moments_some p.Q
  have h6 := ufSmooth_inPlace h2 (moments2points_oneWeight h1) (A := A) (b := b)
    (f := fun x => A *ᵥ x + b) (fun _ => rfl) (A * p.S0 * Aᵀ + p.Q) p.S0 r₁.1
  have e : pts.withRows (fun i => A *ᵥ pts.points i + b) = pts.map fun x => A *ᵥ x + b := rfl
  have e' : (A * p.S0 * Aᵀ)ᵀ = A * p.S0 * Aᵀ := by
    simp only [transpose_mul, transpose_transpose, symm_of_posSemidef hS.posSemidef,
      Matrix.mul_assoc]
  simp only [e'] at h6
  refine ⟨r₁.2, ?_⟩
  simp only [pyAukfSmooth, h, bind, Except.bind, backFull, backLoop, pyAukfSmoothStep, pure,
    Except.pure, hr, h1, hf, Fns.at, first, callAll_inPlace, e, h5, h6]

theorem pinv_one_one {a : ℝ} (ha : a ≠ 0) : pinv (!![a] : Mat 1 1) = !![a⁻¹] := by
  have hd : IsUnit (!![a] : Mat 1 1).det := by simpa using ha
  rw [pinv_eq_inv hd]
  refine Matrix.inv_eq_right_inv ?_
  ext i j
  fin_cases i; fin_cases j
  simp [Matrix.mul_apply, ha]

/-- **C99, what fails.** `x *= 2; return x` returns `2x` as `lambda x: 2 * x` does, but as observation
function it gives another mean and a negative variance. -/
theorem C99_observation_inPlace_fails : ∃ (p : PyUParams Unit 1 1) (u : UParams 1 1) (o : Obs 1),
    Fns.Within (fun f F => f.Returns F) p.f u.f ∧ Fns.Within (fun g G => g.Returns G) p.g u.g ∧
    p.Q = u.Q ∧ p.R = u.R ∧ p.mu0 = u.mu0 ∧ p.S0 = u.S0 ∧
    aukfFilter u [o] = .ok [⟨![2 / 5], !![1 / 5]⟩] ∧
    pyAukfFilter p () [o] = .ok [(⟨![4 / 5], !![-11 / 5]⟩, ())] := by
  let H : Vec 1 → Vec 1 := fun x => !![(2 : ℝ)] *ᵥ x + 0
  let p : PyUParams Unit 1 1 := ⟨.flat [.ofFun fun x => x], .flat [.inPlace H], 1, 1, 0, 1⟩
  let u : UParams 1 1 := ⟨.flat [fun x => x], .flat [H], 1, 1, 0, 1⟩
  have ho : ¬ (⟨![1], fun _ => false⟩ : Obs 1).missing := by simp [Obs.missing]
  have e4 : !![(2 : ℝ)] * (1 : Mat 1 1) * !![(2 : ℝ)]ᵀ = !![4] := by
    ext i j; fin_cases i; fin_cases j; norm_num [Matrix.mul_apply]
  have e5 : pinv (!![(4 : ℝ)] + (1 : Mat 1 1)) = !![1 / 5] := by
    have : !![(4 : ℝ)] + (1 : Mat 1 1) = !![5] := by
      ext i j; fin_cases i; fin_cases j; norm_num
    rw [this, pinv_one_one (by norm_num)]
    norm_num
  refine ⟨p, u, ⟨![1], fun _ => false⟩, ?_, ?_, rfl, rfl, rfl, rfl, ?_, ?_⟩
  · exact .cons (fun s x s' => rfl) .nil
  · exact .cons (fun s x s' => rfl) .nil
  · obtain ⟨pts, h1, h2⟩ := moments2points_default (⟨0, 1⟩ : Moments 1) PosDef.one
    have h3 := h2.points2moments
    have h4 := (h2.map !![(2 : ℝ)] 0 (F := H) fun _ => rfl).points2moments_some 1
    have h5 := h2.crossCov (F := fun x => x) (1 : Mat 1 1) 0 (by simp) !![(2 : ℝ)] 0 (G := H)
      fun _ => rfl
    simp only [SigmaPoints.map_id, one_mulVec, add_zero, Matrix.one_mul] at h5
    simp only [e4, add_zero] at h3 h4
    simp only [aukfFilter, runLoop, aukfStep, Option.getD_none, bind, Except.bind, u, h1, Fns.at,
      first, h3, ufCorrect, h4, h5, pure, Except.pure, unscentedCorrect, ho, not_false_eq_true,
      if_true, e5]
    congr 3
    · funext i; fin_cases i; norm_num [Matrix.mulVec, dotProduct, Matrix.mul_apply]
    · ext i j; fin_cases i; fin_cases j; norm_num [Matrix.mul_apply]
  · have := C99_observation_inPlace (p := p) (C := !![2]) (d := 0) PosDef.one rfl () ho
    rw [this]
    simp only [p, e4, e5]
    congr 4
    · funext i; fin_cases i; norm_num [Matrix.mulVec, dotProduct, Matrix.mul_apply]
    · ext i j; fin_cases i; fin_cases j; norm_num [Matrix.mul_apply, vecMul, dotProduct]

/-- **C99, what fails.** The same function as transition function: the smoother moves the first state
twice as far as it should, and its variance becomes negative. -/
theorem C99_transition_inPlace_fails : ∃ (p : PyUParams Unit 1 1) (u : UParams 1 1) (os : List (Obs 1)),
    p.Computes u ∧ (aukfSmooth u os).map List.head? = .ok (some ⟨![2], !![1 / 3]⟩) ∧
    ∃ s, (pyAukfSmooth p () os).map List.head? = .ok (some (⟨![4], !![-5 / 3]⟩, s)) := by
  let H : Vec 1 → Vec 1 := fun x => !![(2 : ℝ)] *ᵥ x + 0
  let p : PyUParams Unit 1 1 := ⟨.flat [.inPlace H], .flat [.ofFun fun x => x], 1, 1, 0, 1⟩
  let u : UParams 1 1 := ⟨.flat [H], .flat [fun x => x], 1, 1, 0, 1⟩
  let o₀ : Obs 1 := ⟨0, fun _ => true⟩
  let o₁ : Obs 1 := ⟨![6], fun _ => false⟩
  have ho : o₀.missing := ⟨0, rfl⟩
  have ho₁ : ¬ o₁.missing := by simp [Obs.missing, o₁]
  have hc : p.Computes u :=
    ⟨.cons (fun s x s' => rfl) .nil, .cons ⟨fun s x s' => rfl, fun s x => rfl⟩ .nil,
      rfl, rfl, rfl, rfl⟩
  have e4 : !![(2 : ℝ)] * (1 : Mat 1 1) * !![(2 : ℝ)]ᵀ = !![4] := by
    ext i j; fin_cases i; fin_cases j; norm_num [Matrix.mul_apply]
  have e5 : !![(4 : ℝ)] + (1 : Mat 1 1) = !![5] := by
    ext i j; fin_cases i; fin_cases j; norm_num
  have e6 : !![(5 : ℝ)] + (1 : Mat 1 1) = !![6] := by
    ext i j; fin_cases i; fin_cases j; norm_num
  have i5 : pinv !![(5 : ℝ)] = !![1 / 5] := by rw [pinv_one_one (by norm_num)]; norm_num
  have i6 : pinv !![(6 : ℝ)] = !![1 / 6] := by rw [pinv_one_one (by norm_num)]; norm_num
  obtain ⟨pts, h1, h2⟩ := moments2points_default (⟨0, 1⟩ : Moments 1) PosDef.one
  have h3 := h2.points2moments
  have h4 := (h2.map !![(2 : ℝ)] 0 (F := H) fun _ => rfl).points2moments_some 1
  simp only [e4, e5, add_zero, mulVec_zero] at h3 h4
  have p5 : (!![(5 : ℝ)] : Mat 1 1).PosDef := by
    have : !![(5 : ℝ)] = (5 : ℝ) • (1 : Mat 1 1) := by
      ext i j; fin_cases i; fin_cases j; norm_num
    rw [this]
    exact PosDef.one.smul (by norm_num)
  obtain ⟨pts', k1, k2⟩ := moments2points_default (⟨0, !![5]⟩ : Moments 1) p5
  have k4 := (k2.map (1 : Mat 1 1) 0 (F := fun x => x) (by simp)).points2moments_some 1
  have k5 := k2.crossCov (F := fun x => x) (1 : Mat 1 1) 0 (by simp) (1 : Mat 1 1) 0
    (G := fun x => x) (by simp)
  simp only [SigmaPoints.map_id, one_mulVec, add_zero, Matrix.one_mul, Matrix.transpose_one,
    Matrix.mul_one, e6] at k4 k5
  have hF : aukfFilter u [o₀, o₁] = .ok [⟨0, 1⟩, ⟨![5], !![5 / 6]⟩] := by
    simp only [aukfFilter, runLoop, aukfStep, Option.getD_none, bind, Except.bind, u, h1, Fns.at,
      first, h3, ufCorrect, pure, Except.pure, unscentedCorrect, ho, not_true, if_false,
      Option.getD_some, h4, k1, SigmaPoints.map_id, k4, k5, ho₁, not_false_eq_true, if_true, i6]
    congr 4
    · funext i; fin_cases i; norm_num [Matrix.mulVec, dotProduct, Matrix.mul_apply, o₁]
    · ext i j; fin_cases i; fin_cases j
      norm_num [Matrix.mul_apply, vecMul, dotProduct, Matrix.transpose_apply]
  have hP : ∃ s₀ s₁, pyAukfFilter p () [o₀, o₁]
      = .ok [(⟨0, 1⟩, s₀), (⟨![5], !![5 / 6]⟩, s₁)] := by
    have := C99_filter hc () [o₀, o₁]
    rw [hF] at this
    match h : pyAukfFilter p () [o₀, o₁] with
    | .error e => rw [h] at this; cases this
    | .ok [] => rw [h] at this; simp [Except.map] at this
    | .ok [_] => rw [h] at this; simp [Except.map] at this
    | .ok (_ :: _ :: _ :: _) => rw [h] at this; simp [Except.map] at this
    | .ok [a, b] =>
      rw [h] at this
      simp only [Except.map, List.map, Except.ok.injEq, List.cons.injEq, and_true] at this
      exact ⟨a.2, b.2, by rw [← this.1, ← this.2]⟩
  refine ⟨p, u, [o₀, o₁], hc, ?_, ?_⟩
  · have h7 := h2.pair !![(2 : ℝ)] 0 (F := H) (fun _ => rfl) (1 : Mat 1 1) 0 (G := fun x => x) (by simp)
    simp only [SigmaPoints.map_id, one_mulVec, add_zero, mulVec_zero, Matrix.transpose_one,
      Matrix.mul_one] at h7
    simp only [aukfSmooth, hF, bind, Except.bind, backFull, backLoop, aukfSmoothStep, pure,
      Except.pure, h1, u, Fns.at, first, h4, ufSmooth, h7, Except.map, List.head?, i5]
    congr 3
    · funext i; fin_cases i
      norm_num [Matrix.mulVec, dotProduct, Matrix.mul_apply, Matrix.transpose_apply]
    · ext i j; fin_cases i; fin_cases j
      norm_num [Matrix.mul_apply, vecMul, dotProduct, Matrix.transpose_apply]
  · obtain ⟨s₀, s₁, hP⟩ := hP
    obtain ⟨s', h⟩ := C99_transition_inPlace (p := p) (A := !![2]) (b := 0) PosDef.one rfl () ho hP
    refine ⟨s', ?_⟩
    rw [h]
    simp only [p, e4, e5, i5, Except.map, List.head?]
    congr 4
    · funext i; fin_cases i; norm_num [Matrix.mulVec, dotProduct, Matrix.mul_apply]
    · ext i j; fin_cases i; fin_cases j
      norm_num [Matrix.mul_apply, vecMul, dotProduct, Matrix.transpose_apply]

/-! ### One output array for all calls -/

/-- **C99, what fails.** An observation function that writes its result into the same array each time
and returns that array: the measurements are all ignored, without any warning. -/
theorem C99_shared_output {p : PyUParams (Vec m) n m} {u : UParams n m} (hm : 0 < m)
    (hf : Fns.Within (fun f F => f.Returns F) p.f u.f) {G G' : Vec n → Vec m}
    (hg : p.g = .flat [.sharedOutput G]) (hg' : u.g = .flat [G']) (hQ : p.Q = u.Q)
    (h0 : p.mu0 = u.mu0) (hS : p.S0 = u.S0) (s : Vec m) (os : List (Obs m)) :
    (pyAukfFilter p s os).map (List.map Prod.fst)
      = aukfFilter u (os.map fun o => ⟨o.val, fun _ => true⟩) :=
  ((runLoop_map (step := pyAukfStep p s) (step' := aukfStep u) (φ := Prod.fst)
    (ψ := fun o => ⟨o.val, fun _ => true⟩) (I := fun _ => True)
    (fun t prev o _ => ⟨pyAukfStep_shared hm hf hg hg' hQ h0 hS s t prev o, fun _ _ => trivial⟩)
    os 0 none (by simp)).1).symm

/-- **C99, what fails.** A transition function that returns the same array each time: at a missing row
the covariance is `Q`, as if the state before had been known exactly. -/
theorem C99_shared_transition {p : PyUParams (Vec n) n m} {F : Vec n → Vec n}
    (hf : p.f = .flat [.sharedOutput F]) (s : Vec n) {os : List (Obs m)}
    {l : List (Moments n × Vec n)} (h : pyAukfFilter p s os = .ok l) {t : ℕ} {o : Obs m}
    (ho : os[t + 1]? = some o) (hmis : o.missing) :
    ∃ r, l[t + 1]? = some r ∧ r.1.cov = p.Q := by
  have step : ∀ k x r, pyAukfStep p s k (some x) o = .ok r → r.1.cov = p.Q := by
    intro k x r hr
    simp only [pyAukfStep, Option.getD_some, bind, Except.bind, hf, Fns.at, first] at hr
    cases hp : moments2points x.1 with
    | error e => rw [hp] at hr; cases hr
    | ok pts =>
      rw [hp] at hr
      simp only [callAll_shared, points2moments_const (moments2points_sum hp)] at hr
      split at hr
      · cases hr
      · split at hr
        · cases hr
        · simp only [pure, Except.pure, pyCorrect, unscentedCorrect, hmis, not_true, if_false,
            Except.ok.injEq] at hr
          rw [← hr]
  have key : ∀ (os : List (Obs m)) k prev l, runLoop (pyAukfStep p s) k prev os = .ok l →
      ∀ t, os[t]? = some o → (prev.isSome ∨ 0 < t) → ∃ r, l[t]? = some r ∧ r.1.cov = p.Q := by
    intro os
    induction os with
    | nil => intro k prev l _ t ht; simp at ht
    | cons a os ih =>
      intro k prev l hl t ht hpos
      simp only [runLoop] at hl
      obtain ⟨r, hr, hl⟩ := ok_bind_iff.mp hl
      obtain ⟨l', hl', hl⟩ := ok_bind_iff.mp hl
      cases hl
      cases t with
      | zero =>
        simp only [List.getElem?_cons_zero, Option.some.injEq] at ht
        subst ht
        obtain ⟨x, rfl⟩ := Option.isSome_iff_exists.mp (hpos.resolve_right (lt_irrefl 0))
        exact ⟨r, rfl, step k x r hr⟩
      | succ t => exact ih (k + 1) (some r) l' hl' t (by simpa using ht) (.inl rfl)
  exact key os 0 none l h (t + 1) ho (.inr (Nat.succ_pos t))

/-! ### The hypotheses can be met -/

/-- A transition function in place, one that counts its calls as observation function. -/
example : PyUParams.Computes (σ := ℕ) (n := 2) (m := 1)
    ⟨.flat [.inPlace fun x => Real.sin (x 0) • x],
      .flat [fun k x => (k + 1, x, fun _ _ => ![x 0 * x 1])], 1, 1, 0, 1⟩
    ⟨.flat [fun x => Real.sin (x 0) • x], .flat [fun x => ![x 0 * x 1]], 1, 1, 0, 1⟩ :=
  ⟨.cons (fun _ _ _ => rfl) .nil, .cons ⟨fun _ _ _ => rfl, fun _ _ => rfl⟩ .nil, rfl, rfl, rfl, rfl⟩

/-- The same with transition functions that keep their arguments, and with noise. -/
example : (∃ (p : PyUParams ℕ 2 1) (u : UParams 2 1), p.Computes u ∧ p.f.All PyFun.Keeps) ∧
    ∃ (p : PyGParams ℕ 2 1) (u : GParams 2 1), p.Computes u ∧ p.f.All PyFun.KeepsState := by
  refine ⟨⟨⟨.flat [.ofFun fun x => Real.sin (x 0) • x],
      .flat [fun k x => (k + 1, x, fun _ _ => ![x 0 * x 1])], 1, 1, 0, 1⟩,
    ⟨.flat [fun x => Real.sin (x 0) • x], .flat [fun x => ![x 0 * x 1]], 1, 1, 0, 1⟩,
    ⟨.cons (fun _ _ _ => rfl) .nil, .cons ⟨fun _ _ _ => rfl, fun _ _ => rfl⟩ .nil,
      rfl, rfl, rfl, rfl⟩, ?_⟩,
    ⟨.flat [fun k x => (k, (x.1, x.1 + x.2), fun _ y => y.2)],
      .flat [fun k x => (k + 1, (x.1, 0), fun _ _ => ![x.1 0 * x.2 0])], 1, 1, 0, 1⟩,
    ⟨.flat [fun x w => x + w], .flat [fun x v => ![x 0 * v 0]], 1, 1, 0, 1⟩,
    ⟨.cons (fun _ _ _ => rfl) .nil, .cons ⟨fun _ _ _ => rfl, fun _ _ => rfl⟩ .nil,
      rfl, rfl, rfl, rfl⟩, ?_⟩
  · intro f hf s x
    obtain rfl := List.mem_singleton.mp hf
    rfl
  · intro f hf s x
    obtain rfl := List.mem_singleton.mp hf
    rfl

/-- Per-time functions for `C99_counting`; shared output arrays. -/
example : (∀ t, t + 1 < 3 → exUPosDef.f.at t
      = .ok (fun x => !![1, (t : ℝ) + 1; 0, 1] *ᵥ x + ![0, 1])) ∧
    ∃ p : PyUParams (Vec 1) 1 1, p.g = .flat [.sharedOutput fun x => x] ∧
      p.f = .flat [.sharedOutput fun x => x + x] ∧ p.S0.PosDef := by
  refine ⟨fun t ht => ?_, ⟨⟨.flat [.sharedOutput fun x => x + x], .flat [.sharedOutput fun x => x],
    1, 1, 0, 1⟩, rfl, rfl, PosDef.one⟩⟩
  match t with
  | 0 => simp [exUPosDef, Fns.at, first]
  | 1 => simp [exUPosDef, Fns.at, first]; norm_num
  | t + 2 => omega

/-- Functions that count their calls, one of them in place: runs for `C99_online`. -/
example : ∃ (p : PyUParams ℕ 2 1) (l : List (Moments 2 × ℕ)) (M : Moments 2) (s' : ℕ),
    pyAukfFilter p 0 [⟨![2], fun _ => false⟩, ⟨0, fun _ => true⟩] = .ok (l ++ [(M, s')]) ∧
    FnSupplied none p.f 1 ∧ FnSupplied none p.g 2 := by
  let u : UParams 2 1 := ⟨.flat [fun x i => Real.sin (x i)], .flat [fun x _ => x 0 * x 1], 1, 1, 0, 1⟩
  let p : PyUParams ℕ 2 1 := ⟨.flat [fun k x => (k + 1, fun i => Real.sin (x i), fun _ y => y)],
    .flat [fun k x => (k + 1, x, fun _ _ _ => x 0 * x 1)], 1, 1, 0, 1⟩
  have hc : p.Computes u :=
    ⟨.cons (fun _ _ _ => rfl) .nil, .cons ⟨fun _ _ _ => rfl, fun _ _ => rfl⟩ .nil, rfl, rfl, rfl, rfl⟩
  obtain ⟨⟨l, h, -⟩, -⟩ := C52_posDef (n := 2) (by norm_num) (u := u) PosDef.one PosDef.one PosDef.one
    [⟨![2], fun _ => false⟩, ⟨0, fun _ => true⟩] (fun t _ => ⟨_, rfl⟩) (fun t _ => ⟨_, rfl⟩)
  rw [← C99_filter hc 0] at h
  cases hp : pyAukfFilter p 0 [⟨![2], fun _ => false⟩, ⟨0, fun _ => true⟩] with
  | error e => rw [hp] at h; cases h
  | ok l' =>
    have hl := runLoop_length hp
    match l', hl with
    | [a, b], _ => exact ⟨p, [a], b.1, b.2, hp, .inr ⟨rfl, _, rfl⟩, .inr ⟨rfl, _, rfl⟩⟩

end Verif
