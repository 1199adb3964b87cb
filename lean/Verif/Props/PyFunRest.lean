import Verif.Proofs.PyFunRest
import Verif.Props.PyFun

/-!
# C99 for the square root class and for `sample` with general noise
-/

open Matrix

namespace Verif

variable {σ : Type} {n m : ℕ}

/-- **C99.** `smooth` of the square root class: if the transition functions leave the sigma points
alone, the results are right, whatever the functions remember. -/
theorem C99_sqrt_smooth (qr : QR) {p : PyUParams σ n m} {u : UParams n m} (h : p.Computes u)
    (hk : p.f.All PyFun.Keeps) (s : σ) (os : List (Obs m)) :
    (pySqSmooth qr p s os).map (List.map Prod.fst) = sqSmooth qr u os :=
  pySqSmooth_fst qr h hk s os

/-- **C99.** `filter_update` of the square root class, with functions of the filter or of the call. -/
theorem C99_sqrt_filter_update (qr : QR) {p : PyUParams σ n m} {u : UParams n m} (h : p.Computes u)
    (s : σ) (M : Moments n) (o : Option (Obs m)) {a : PyUUpdateArgs σ n m} {b : UUpdateArgs n m}
    (hf : Option.Rel (fun f F => f.Returns F) a.f b.f)
    (hg : Option.Rel (fun g G => g.Returns G ∧ g.Keeps) a.g b.g) (hQ : a.Q = b.Q) (hR : a.R = b.R) :
    (pySqUpdate qr p s M o a).map Prod.fst = sqUpdate qr u M o b :=
  pySqUpdate_fst qr h s M o hf hg hQ hR

/-- **C99.** `UnscentedKalmanFilter.sample` when the transition functions leave `h x` in place of the
state `x` (the noise arrays may be overwritten too): observations and last state are right, every
earlier state that is returned is `h` of the right one. -/
theorem C99_general_sample {ρ : Type} (rng : Rng ρ) {p : PyGParams σ n m} {u : GParams n m}
    (h : p.Computes u) {hh : Vec n → Vec n} (hl : p.f.All fun f => ∀ s x, (f s x).2.1.1 = hh x.1)
    (T : ℕ) (initial : Option (Vec n)) (s : σ) (r : ρ) {out : List (Vec n × Vec m)}
    (ho : ukfSample rng u T initial r = .ok out) :
    ∃ out', pyUkfSample rng p T initial s r = .ok out' ∧ out'.length = out.length ∧
      ∀ t x z, out[t]? = some (x, z) →
        out'[t]? = some (if t + 1 < out.length then hh x else x, z) := by
  refine ⟨leftOver hh out, ?_, leftOver_length hh out, fun t x z hx => leftOver_getElem? hh out t hx⟩
  rw [pyUkfSample_eq rng h hl, ho]
  rfl

/-- **C99.** `UnscentedKalmanFilter.sample` when no function overwrites the state. -/
theorem C99_general_sample_keeps {ρ : Type} (rng : Rng ρ) {p : PyGParams σ n m} {u : GParams n m}
    (h : p.Computes u) (hk : p.f.All PyFun.KeepsState) (T : ℕ) (initial : Option (Vec n)) (s : σ)
    (r : ρ) : pyUkfSample rng p T initial s r = ukfSample rng u T initial r := by
  rw [pyUkfSample_eq rng h (hh := fun x => x) hk]
  cases ukfSample rng u T initial r with
  | error e => rfl
  | ok l => exact congrArg Except.ok (leftOver_id l)

/-! ### Any functions at all -/

private theorem sqUnscentedCorrect_sim {o o' : Obs m} (h : o.Sim o') (c : Mat n m) (p : Moments n)
    (ob : Moments m) : sqUnscentedCorrect c p ob o = sqUnscentedCorrect c p ob o' := by
  rw [sqUnscentedCorrect, sqUnscentedCorrect]
  by_cases ho : o.missing
  · have ho' : o'.missing := h.1.mp ho
    simp only [ho, ho', not_true_eq_false, if_false]
  · have ho' : ¬ o'.missing := fun h' => ho (h.1.mpr h')
    simp only [ho, ho', not_false_eq_true, if_true, h.2 ho]

private theorem pySqStep_sim (qr : QR) (p : PyUParams σ n m) (Q2 : Mat n n) (R2 : Mat m m) (s : σ)
    (t : ℕ) (prev : Option (Moments n × σ)) (o o' : Obs m) (h : o.Sim o') :
    pySqStep qr p Q2 R2 s t prev o = pySqStep qr p Q2 R2 s t prev o' := by
  cases prev <;> simp only [pySqStep, pySqCorrect, sqUnscentedCorrect_sim h]

/-- **C99.** The square root class with any functions: what is under the mask does not matter, for the
estimates and for what the functions remember. -/
theorem C99_sqrt_masked_values (qr : QR) {os os' : List (Obs m)} (h : SameData os os')
    (p : PyUParams σ n m) (s : σ) :
    pySqFilter qr p s os = pySqFilter qr p s os' ∧ pySqSmooth qr p s os = pySqSmooth qr p s os' := by
  have e : pySqFull qr p s os = pySqFull qr p s os' := by
    simp only [pySqFull]
    cases cholUpper p.Q with
    | error e => rfl
    | ok Q2 =>
      cases cholUpper p.R with
      | error e => rfl
      | ok R2 => exact runLoop_congr (pySqStep_sim qr p Q2 R2 s) h 0 none
  simp only [pySqFilter, pySqSmooth, e, and_self]

/-- **C99.** The square root class with any functions: `filter` on the first rows gives the first
rows. -/
theorem C99_sqrt_causal (qr : QR) (os os' : List (Obs m)) (s : σ) (p : PyUParams σ n m)
    {l : List (Moments n × σ)} (h : pySqFilter qr p s (os ++ os') = .ok l) :
    pySqFilter qr p s os = .ok (l.take os.length) := by
  simp only [pySqFilter, pySqFull] at h ⊢
  obtain ⟨l', h1, h'⟩ := ok_bind_iff.mp h
  obtain ⟨Q2, hQ, h2⟩ := ok_bind_iff.mp h1
  obtain ⟨R2, hR, h3⟩ := ok_bind_iff.mp h2
  cases h'
  simp only [hQ, hR, bind, Except.bind, runLoop_take h3, List.map_take]
  rfl

/-- **C99.** The square root class with any functions: the last smoothed row is the last filtered row,
and there are as many rows as observations. -/
theorem C99_sqrt_last_smoothed (qr : QR) (os : List (Obs m)) (s : σ) (p : PyUParams σ n m)
    {l' : List (Moments n × σ)} (h : pySqSmooth qr p s os = .ok l') :
    ∃ l, pySqFilter qr p s os = .ok l ∧ l'.getLast? = l.getLast? ∧ l'.length = os.length := by
  simp only [pySqSmooth] at h
  obtain ⟨l, hf, h⟩ := ok_bind_iff.mp h
  obtain ⟨Q2, hQ, h⟩ := ok_bind_iff.mp h
  obtain ⟨k, h, h'⟩ := ok_bind_iff.mp h
  obtain ⟨h1, h2, -⟩ := backFull_last h
  obtain rfl := Except.ok.inj h'
  refine ⟨l.map fun r => (r.1.unroot, r.2), by rw [pySqFilter, hf]; rfl, ?_, ?_⟩
  · rw [List.getLast?_map, List.getLast?_map, h1]
  · rw [List.length_map, h2]
    simp only [pySqFull] at hf
    obtain ⟨_, -, hf⟩ := ok_bind_iff.mp hf
    obtain ⟨_, -, hf⟩ := ok_bind_iff.mp hf
    exact runLoop_length hf

/-- **C99.** `filter_update` of the square root class without observation is one with a masked
observation. -/
theorem C99_sqrt_no_observation (qr : QR) {o : Obs m} (ho : o.missing) (s : σ) (M : Moments n)
    (p : PyUParams σ n m) (a : PyUUpdateArgs σ n m) :
    pySqUpdate qr p s M none a = pySqUpdate qr p s M (some o) a := by
  have hs : (⟨0, fun _ => true⟩ : Obs m).Sim o := by
    have : (⟨0, fun _ => true⟩ : Obs m).missing := by
      obtain ⟨i, hi⟩ := ho
      exact ⟨i, rfl⟩
    exact ⟨⟨fun _ => ho, fun _ => this⟩, fun h => absurd this h⟩
  simp only [pySqUpdate, pySqCorrect, sqUnscentedCorrect_sim hs]

/-! ### How often the functions are called -/

/-- **C99.** `AdditiveUnscentedKalmanFilter`: by row `t` of `filter` the functions have been called
`(2n+1)(2t+1)` times, masked rows included; `smooth` calls them `2n+1` times more for each row but the
last, from the end. -/
theorem C99_calls {p : PyUParams ℕ n m} (hf : p.f.All PyFun.Counts) (hg : p.g.All PyFun.Counts)
    (s : ℕ) (os : List (Obs m)) :
    (∀ l, pyAukfFilter p s os = .ok l → ∀ (t : ℕ) r, l[t]? = some r →
      r.2 = s + (2 * n + 1) * (2 * t + 1)) ∧
    ∀ l, pyAukfSmooth p s os = .ok l → ∀ (t : ℕ) r, l[t]? = some r →
      r.2 = s + (2 * n + 1) * (2 * (os.length - 1) + 1) + (2 * n + 1) * (os.length - 1 - t) := by
  have key : ∀ l, pyAukfFilter p s os = .ok l → ∀ (t : ℕ) r, l[t]? = some r →
      r.2 = s + (2 * n + 1) * (2 * t + 1) := by
    intro l h t r hr
    rw [runLoop_count (fun t o r h => (pyAukfStep_count hf hg s t o).1 r h)
      (fun t x o r h => (pyAukfStep_count hf hg s t o).2 x r h) h t r hr]
    ring
  refine ⟨key, fun l' h t r hr => ?_⟩
  simp only [pyAukfSmooth] at h
  obtain ⟨l, hl, h⟩ := ok_bind_iff.mp h
  have hlen : l.length = os.length := runLoop_length hl
  rw [backFull_count (c := 2 * n + 1) (fun t x y r h => by
      simp only [pyAukfSmoothStep] at h
      obtain ⟨pts, -, h⟩ := ok_bind_iff.mp h
      obtain ⟨f, hft, h⟩ := ok_bind_iff.mp h
      cases h
      simp only [callAll_counts (hf.entry hft), two_mul]) h
    (fun r hr => last_of_rows (key l hl) hr) t r hr, (backFull_last h).2.1, hlen]
  ring

/-- **C99.** `UnscentedKalmanFilter`: the same with `2(2n+m)+1` calls in `filter` and `4n+1` in
`smooth`. -/
theorem C99_general_calls {p : PyGParams ℕ n m} (hf : p.f.All PyFun.Counts)
    (hg : p.g.All PyFun.Counts) (s : ℕ) (os : List (Obs m)) :
    (∀ l, pyUkfFilter p s os = .ok l → ∀ (t : ℕ) r, l[t]? = some r →
      r.2 = s + (2 * (2 * n + m) + 1) * (2 * t + 1)) ∧
    ∀ l, pyUkfSmooth p s os = .ok l → ∀ (t : ℕ) r, l[t]? = some r →
      r.2 = s + (2 * (2 * n + m) + 1) * (2 * (os.length - 1) + 1)
        + (4 * n + 1) * (os.length - 1 - t) := by
  have key : ∀ l, pyUkfFilter p s os = .ok l → ∀ (t : ℕ) r, l[t]? = some r →
      r.2 = s + (2 * (2 * n + m) + 1) * (2 * t + 1) := by
    intro l h t r hr
    rw [runLoop_count (fun t o r h => (pyUkfStep_count hf hg s t o).1 r h)
      (fun t x o r h => (pyUkfStep_count hf hg s t o).2 x r h) h t r hr]
    ring
  refine ⟨key, fun l' h t r hr => ?_⟩
  simp only [pyUkfSmooth] at h
  obtain ⟨l, hl, h⟩ := ok_bind_iff.mp h
  have hlen : l.length = os.length := runLoop_length hl
  rw [backFull_count (c := 4 * n + 1) (fun t x y r h => by
      simp only [pyUkfSmoothStep] at h
      obtain ⟨pts, -, h⟩ := ok_bind_iff.mp h
      obtain ⟨f, hft, h⟩ := ok_bind_iff.mp h
      cases h
      simp only [callAll₂, callAll_counts (hf.entry hft)]
      omega) h
    (fun r hr => last_of_rows (key l hl) hr) t r hr, (backFull_last h).2.1, hlen]
  ring

/-- **C99.** The square root class calls the functions as often as the other additive class. -/
theorem C99_sqrt_calls (qr : QR) {p : PyUParams ℕ n m} (hf : p.f.All PyFun.Counts)
    (hg : p.g.All PyFun.Counts) (s : ℕ) (os : List (Obs m)) :
    (∀ l, pySqFilter qr p s os = .ok l → ∀ (t : ℕ) r, l[t]? = some r →
      r.2 = s + (2 * n + 1) * (2 * t + 1)) ∧
    ∀ l, pySqSmooth qr p s os = .ok l → ∀ (t : ℕ) r, l[t]? = some r →
      r.2 = s + (2 * n + 1) * (2 * (os.length - 1) + 1) + (2 * n + 1) * (os.length - 1 - t) := by
  have key : ∀ l, pySqFull qr p s os = .ok l → l.length = os.length ∧ ∀ (t : ℕ) r, l[t]? = some r →
      r.2 = s + (2 * n + 1) * (2 * t + 1) := by
    intro l h
    simp only [pySqFull] at h
    obtain ⟨Q2, -, h⟩ := ok_bind_iff.mp h
    obtain ⟨R2, -, h⟩ := ok_bind_iff.mp h
    refine ⟨runLoop_length h, fun t r hr => ?_⟩
    rw [runLoop_count (fun t o r h => (pySqStep_count qr hf hg Q2 R2 s t o).1 r h)
      (fun t x o r h => (pySqStep_count qr hf hg Q2 R2 s t o).2 x r h) h t r hr]
    ring
  constructor
  · intro l' h t r hr
    simp only [pySqFilter] at h
    obtain ⟨l, hl, h⟩ := ok_bind_iff.mp h
    cases h
    rw [List.getElem?_map, Option.map_eq_some_iff] at hr
    obtain ⟨x, hx, rfl⟩ := hr
    exact (key l hl).2 t x hx
  · intro l' h t r hr
    simp only [pySqSmooth] at h
    obtain ⟨l, hl, h⟩ := ok_bind_iff.mp h
    obtain ⟨Q2, -, h⟩ := ok_bind_iff.mp h
    obtain ⟨k, hk, h'⟩ := ok_bind_iff.mp h
    cases h'
    rw [List.getElem?_map, Option.map_eq_some_iff] at hr
    obtain ⟨x, hx, rfl⟩ := hr
    simp only
    rw [backFull_count (c := 2 * n + 1) (pySqSmoothStep_count qr hf Q2) hk
      (fun r hr => last_of_rows (key l hl).2 hr) t x hx, (backFull_last hk).2.1, (key l hl).1]
    ring

/-- **C99.** In `sample` of `T` time steps both functions are called once for each step (but for the
transition into the first), in the order of time: functions that count their calls sample what a list of
functions samples. -/
theorem C99_counting_sample {ρ : Type} (rng : Rng ρ) (T : ℕ) (initial : Option (Vec n)) (r : ρ) :
    (∀ (u : UParams n m) (F : ℕ → Vec n → Vec n) (G : ℕ → Vec n → Vec m),
      (∀ t, t + 1 < T → u.f.at t = .ok (F t)) → (∀ t < T, u.g.at t = .ok (G t)) →
      pyAukfSample rng ⟨.flat [.countFst 1 F], .flat [.countSnd 1 G], u.Q, u.R, u.mu0, u.S0⟩ T initial
        (0, 0) r = aukfSample rng u T initial r) ∧
    ∀ (u : GParams n m) (F : ℕ → Vec n × Vec n → Vec n) (G : ℕ → Vec n × Vec m → Vec m),
      (∀ t, t + 1 < T → u.f.at t = .ok fun x w => F t (x, w)) →
      (∀ t < T, u.g.at t = .ok fun x v => G t (x, v)) →
      pyUkfSample rng ⟨.flat [.countFst 1 F], .flat [.countSnd 1 G], u.Q, u.R, u.mu0, u.S0⟩ T initial
        (0, 0) r = ukfSample rng u T initial r :=
  ⟨fun _ _ _ hf hg => pyAukfSample_counting rng T hf hg initial r,
    fun _ _ _ hf hg => pyUkfSample_counting rng T hf hg initial r⟩

/-! ### Functions that leave the same numbers in every array -/

/-- **C99, what fails.** An observation function that leaves the same numbers in every array it gets (as
`x[:] = 0` before its `return` does), whatever it returns: all measurements are ignored, without any
warning. -/
theorem C99_observation_wipes (c : Vec n) (s : σ) (os : List (Obs m)) :
    (∀ p : PyUParams σ n m, (p.g.All fun g => g.Wipes c) →
      pyAukfFilter p s os = pyAukfFilter p s (os.map fun o => ⟨o.val, fun _ => true⟩)) ∧
    ∀ p : PyGParams σ n m, (p.g.All fun g => g.WipesState c) →
      pyUkfFilter p s os = pyUkfFilter p s (os.map fun o => ⟨o.val, fun _ => true⟩) := by
  have hrel : List.Forall₂ (fun o o' : Obs m => o' = ⟨o.val, fun _ => true⟩) os
      (os.map fun o => ⟨o.val, fun _ => true⟩) := by
    induction os with
    | nil => exact .nil
    | cons o os ih => exact .cons rfl ih
  constructor
  · intro p hg
    refine runLoop_congr (fun t prev o o' _ => ?_) hrel 0 none
    have hc : ∀ {g : PyFun σ (Vec n) (Vec m)} {s} {pred : Moments n} {M pts},
        moments2points M = .ok pts → p.g.at t = .ok g →
        pyCorrect g s pred pts o p.R = pyCorrect g s pred pts o' p.R := fun h1 h2 =>
      Prod.ext (by rw [pyCorrect_wiped (hg.entry h2) _ _ (moments2points_sum h1),
        pyCorrect_wiped (hg.entry h2) _ _ (moments2points_sum h1)]) rfl
    simp only [pyAukfStep]
    cases h1 : moments2points (prev.getD (⟨p.mu0, p.S0⟩, s)).1 with
    | error e => rfl
    | ok pts =>
      cases prev with
      | none =>
        cases h2 : p.g.at t with
        | error e => rfl
        | ok g => exact congrArg Except.ok (hc h1 h2)
      | some x =>
        simp only [bind, Except.bind]
        cases p.f.at (t - 1) with
        | error e => rfl
        | ok f =>
          simp only [Option.getD_some]
          cases h3 : moments2points
            (points2moments (pts.withRows (callAll f x.2 pts.points).res) (some p.Q)) with
          | error e => rfl
          | ok pts' =>
            cases h2 : p.g.at t with
            | error e => rfl
            | ok g => exact congrArg Except.ok (hc h3 h2)
  · intro p hg
    refine runLoop_congr (fun t prev o o' _ => ?_) hrel 0 none
    have hc : ∀ {g : PyFun σ (Vec n × Vec m) (Vec m)} {s} {pred : Moments n}
        {pts : SigmaPoints ((n + n + m) + (n + n + m) + 1) n} {w},
        ∑ i, pts.wm i = 1 → p.g.at t = .ok g →
        pyCorrect₂ g s pred pts o w = pyCorrect₂ g s pred pts o' w := fun h1 h2 =>
      Prod.ext (by rw [pyCorrect₂_wiped (hg.entry h2) _ _ h1,
        pyCorrect₂_wiped (hg.entry h2) _ _ h1]) rfl
    simp only [pyUkfStep]
    cases h1 : augFilterPoints (prev.getD (⟨p.mu0, p.S0⟩, s)).1 p.Q p.R with
    | error e => rfl
    | ok pts =>
      cases prev with
      | none =>
        cases h2 : p.g.at t with
        | error e => rfl
        | ok g => exact congrArg Except.ok (hc (augFilterPoints_sum h1) h2)
      | some x =>
        simp only [bind, Except.bind]
        cases p.f.at (t - 1) with
        | error e => rfl
        | ok f =>
          cases h2 : p.g.at t with
          | error e => rfl
          | ok g => exact congrArg Except.ok (hc (augFilterPoints_sum h1) h2)

/-- **C99, what fails.** A transition function that leaves the same numbers in every array it gets:
`smooth` returns the filtered estimates. -/
theorem C99_transition_wipes (c : Vec n) (s : σ) (os : List (Obs m)) :
    (∀ p : PyUParams σ n m, (p.f.All fun f => f.Wipes c) →
      ∀ l', pyAukfSmooth p s os = .ok l' →
        (pyAukfFilter p s os).map (List.map Prod.fst) = .ok (l'.map Prod.fst)) ∧
    ∀ p : PyGParams σ n m, (p.f.All fun f => f.WipesState c) →
      ∀ l', pyUkfSmooth p s os = .ok l' →
        (pyUkfFilter p s os).map (List.map Prod.fst) = .ok (l'.map Prod.fst) := by
  have key : ∀ {step : ℕ → Moments n × σ → Moments n × σ → Res (Moments n × σ)}
      {l l' : List (Moments n × σ)}, (∀ t x y r, step t x y = .ok r → r.1 = x.1) →
      backFull step l = .ok l' → l.map Prod.fst = l'.map Prod.fst := by
    intro step l l' hstep h
    obtain ⟨hn, hlen, hlast, hs⟩ := backFull_iff.mp h
    refine List.ext_getElem (by simp [hlen]) fun i h1 h2 => ?_
    simp only [List.getElem_map]
    simp only [List.length_map] at h1 h2
    by_cases hi : i + 1 < l.length
    · exact (hstep _ _ _ _ (hs i hi (by omega))).symm
    · have e : i = l.length - 1 := by omega
      rw [List.getLast?_eq_getElem?, List.getLast?_eq_getElem?, hlen, ← e,
        List.getElem?_eq_getElem h1, List.getElem?_eq_getElem h2] at hlast
      rw [Option.some.inj hlast]
  constructor
  · intro p hf l' h
    simp only [pyAukfSmooth] at h
    obtain ⟨l, hl, h⟩ := ok_bind_iff.mp h
    rw [hl]
    refine congrArg Except.ok (key (fun t x y r hr => ?_) h)
    simp only [pyAukfSmoothStep] at hr
    obtain ⟨pts, hp, hr⟩ := ok_bind_iff.mp hr
    obtain ⟨f, hft, hr⟩ := ok_bind_iff.mp hr
    cases hr
    simp only [callAll_wipes (hf.entry hft)]
    exact ufSmooth_wiped (moments2points_sum hp) (moments2points_oneWeight hp) _ _ _ _ _
  · intro p hf l' h
    simp only [pyUkfSmooth] at h
    obtain ⟨l, hl, h⟩ := ok_bind_iff.mp h
    rw [hl]
    refine congrArg Except.ok (key (fun t x y r hr => ?_) h)
    simp only [pyUkfSmoothStep] at hr
    obtain ⟨pts, hp, hr⟩ := ok_bind_iff.mp hr
    obtain ⟨f, hft, hr⟩ := ok_bind_iff.mp hr
    cases hr
    have e : (fun i => ((callAll₂ f y.2 pts.1 pts.2).args i).1) = fun _ => c :=
      funext fun _ => hf.entry hft _ _
    simp only [e]
    have hw : pts.1.OneWeight := by
      simp only [augPoints, ok_bind_iff, pure_ok_iff] at hp
      obtain ⟨q, h1, rfl⟩ := hp
      exact moments2points_oneWeight h1
    exact ufSmooth_wiped (augPoints_sum hp) hw _ _ _ _ _

private theorem sq_sum (M : Moments n) : ∑ i, (sqMoments2points M).wm i = 1 :=
  (isSigma_sigmaPoints M.mean M.covᵀ none none none default_spread).sum

private theorem sqPoints2moments_mean {N k : ℕ} {qr : QR} {q : SigmaPoints N k}
    {noise : Option (Mat k k)} {M : Moments k} (h : sqPoints2moments qr q noise = .ok M) :
    M.mean = (Matrix.of q.points)ᵀ *ᵥ q.wm := by
  cases noise <;>
  · simp only [sqPoints2moments] at h
    obtain ⟨S, -, h⟩ := ok_bind_iff.mp h
    cases h
    rfl

/-- **C99, what fails.** The square root class: with an observation function that leaves the same numbers
in every array, `filter_update` returns the mean of a call without observation; with such a transition
function `smooth` returns the means of `filter`. -/
theorem C99_sqrt_wipes (qr : QR) (c : Vec n) (s : σ) (p : PyUParams σ n m) :
    ((p.g.All fun g => g.Wipes c) → ∀ (M : Moments n) (o : Obs m) (a : PyUUpdateArgs σ n m) r r',
      a.g = none → pySqUpdate qr p s M (some o) a = .ok r → pySqUpdate qr p s M none a = .ok r' →
      r.1.mean = r'.1.mean) ∧
    ((p.f.All fun f => f.Wipes c) → ∀ (os : List (Obs m)) l l',
      pySqFilter qr p s os = .ok l → pySqSmooth qr p s os = .ok l' →
      l'.map (fun r => r.1.mean) = l.map fun r => r.1.mean) := by
  constructor
  · intro hg M o a r r' ha h h'
    have step : ∀ {o : Option (Obs m)} {r}, pySqUpdate qr p s M o a = .ok r →
        ∃ f P2 Q2 pred, defaultFunction a.f p.f = .ok f ∧ cholUpper M.cov = .ok P2 ∧
          cholUpper (a.Q.getD p.Q) = .ok Q2 ∧
          sqPoints2moments qr ((sqMoments2points ⟨M.mean, P2⟩).withRows
            (callAll f s (sqMoments2points ⟨M.mean, P2⟩).points).res) (some Q2) = .ok pred ∧
          r.1.mean = pred.mean := by
      intro o r h
      simp only [pySqUpdate] at h
      obtain ⟨f, h1, h⟩ := ok_bind_iff.mp h
      obtain ⟨g, h2, h⟩ := ok_bind_iff.mp h
      obtain ⟨P2, h3, h⟩ := ok_bind_iff.mp h
      obtain ⟨Q2, h4, h⟩ := ok_bind_iff.mp h
      obtain ⟨R2, h5, h⟩ := ok_bind_iff.mp h
      obtain ⟨pred, h6, h⟩ := ok_bind_iff.mp h
      obtain ⟨q, h7, h⟩ := ok_bind_iff.mp h
      cases h
      refine ⟨f, P2, Q2, pred, h1, h3, h4, h6, ?_⟩
      have hgw : g.Wipes c := by
        have : p.g.at 0 = .ok g := by
          rw [ha] at h2
          revert h2
          cases p.g with
          | flat l =>
            match l with
            | [] => intro h; cases h
            | [x] => intro h; cases h; rfl
            | _ :: _ :: _ => intro h; cases h
          | nested l =>
            intro h
            simp only [defaultFunction] at h
            split at h <;> cases h
        exact hg.entry this
      simp only [pySqCorrect] at h7
      obtain ⟨ob, h8, h7⟩ := ok_bind_iff.mp h7
      obtain ⟨M', h9, h7⟩ := ok_bind_iff.mp h7
      cases h7
      have e := crossCov_wiped (sq_sum pred) c pred.mean
        (callAll g (callAll f s (sqMoments2points ⟨M.mean, P2⟩).points).state
          (sqMoments2points pred).points).res
      rw [callAll_wipes hgw, sqPoints2moments_mean h8] at h9
      simp only [SigmaPoints.withRows] at e h9
      rw [e, sqUnscentedCorrect] at h9
      split_ifs at h9
      · cases h9; rfl
      · obtain ⟨S, -, h9⟩ := ok_bind_iff.mp h9
        cases h9
        simp [Moments.unroot, lstsq]
    obtain ⟨f, P2, Q2, pred, h1, h2, h3, h4, h5⟩ := step h
    obtain ⟨f', P2', Q2', pred', h1', h2', h3', h4', h5'⟩ := step h'
    cases h1.symm.trans h1'
    cases h2.symm.trans h2'
    cases h3.symm.trans h3'
    cases h4.symm.trans h4'
    rw [h5, h5']
  · intro hf os l l' hl h
    simp only [pySqFilter] at hl
    obtain ⟨k, hk, hl⟩ := ok_bind_iff.mp hl
    cases hl
    simp only [pySqSmooth, hk] at h
    obtain ⟨k₁, hk₁, h⟩ := ok_bind_iff.mp h
    cases hk₁
    obtain ⟨Q2, -, h⟩ := ok_bind_iff.mp h
    obtain ⟨k', hk', h'⟩ := ok_bind_iff.mp h
    cases h'
    obtain ⟨hn, hlen, hlast, hs⟩ := backFull_iff.mp hk'
    simp only [List.map_map]
    refine List.ext_getElem (by simp [hlen]) fun i h1 h2 => ?_
    simp only [List.getElem_map, Function.comp_apply]
    simp only [List.length_map] at h1 h2
    by_cases hi : i + 1 < k.length
    · have hr := hs i hi (by omega)
      simp only [pySqSmoothStep] at hr
      obtain ⟨f, hft, hr⟩ := ok_bind_iff.mp hr
      obtain ⟨pred, hp, hr⟩ := ok_bind_iff.mp hr
      obtain ⟨U, -, hr⟩ := ok_bind_iff.mp hr
      obtain ⟨S, -, hr⟩ := ok_bind_iff.mp hr
      have hr := Except.ok.inj hr
      rw [← hr, callAll_wipes (hf.entry hft), sqPoints2moments_mean hp]
      have e := pair_wiped (sq_sum (k[i]).1) (oneWeight_sigmaPoints (k[i]).1.mean (k[i]).1.covᵀ) c
        (k[i]).1.mean (callAll f (k'[i + 1]).2 (sqMoments2points (k[i]).1).points).res
      simp only [Moments.unroot, pairCov, SigmaPoints.withRows, lstsq]
      simp only [sqMoments2points] at e ⊢
      rw [e]
      simp
    · have e : i = k.length - 1 := by omega
      rw [List.getLast?_eq_getElem?, List.getLast?_eq_getElem?, hlen, ← e,
        List.getElem?_eq_getElem h1, List.getElem?_eq_getElem h2] at hlast
      rw [Option.some.inj hlast]

/-! ### `sample` with an observation function that overwrites the state -/

private theorem pyAukfSampleLoop_wiped {ρ : Type} (rng : Rng ρ) {p : PyUParams σ n m} {c : Vec n}
    (hf : p.f.All PyFun.Keeps) (hg : p.g.All fun g => g.Wipes c) :
    ∀ (k t : ℕ) (s : σ) (r : ρ) {o}, pyAukfSampleLoop rng p k t c s r = .ok o →
      o.1 = c ∧ ∀ q ∈ o.2, q.1 = c := by
  intro k
  induction k with
  | zero =>
    intro t s r o h
    cases h
    exact ⟨rfl, by simp⟩
  | succ k ih =>
    intro t s r o h
    obtain ⟨f, h1, h⟩ := ok_bind_iff.mp h
    obtain ⟨g, h2, h⟩ := ok_bind_iff.mp h
    obtain ⟨rest, h3, h⟩ := ok_bind_iff.mp h
    cases h
    rw [hg.entry h2] at h3
    obtain ⟨e1, e2⟩ := ih _ _ _ h3
    refine ⟨hf.entry h1 _ _, fun q hq => ?_⟩
    rcases List.mem_cons.mp hq with rfl | hq
    · exact e1
    · exact e2 q hq

private theorem pyUkfSampleLoop_wiped {ρ : Type} (rng : Rng ρ) {p : PyGParams σ n m} {c : Vec n}
    (hf : p.f.All PyFun.KeepsState) (hg : p.g.All fun g => g.WipesState c) :
    ∀ (k t : ℕ) (s : σ) (r : ρ) {o}, pyUkfSampleLoop rng p k t c s r = .ok o →
      o.1 = c ∧ ∀ q ∈ o.2, q.1 = c := by
  intro k
  induction k with
  | zero =>
    intro t s r o h
    cases h
    exact ⟨rfl, by simp⟩
  | succ k ih =>
    intro t s r o h
    obtain ⟨f, h1, h⟩ := ok_bind_iff.mp h
    obtain ⟨g, h2, h⟩ := ok_bind_iff.mp h
    obtain ⟨rest, h3, h⟩ := ok_bind_iff.mp h
    cases h
    rw [hg.entry h2] at h3
    obtain ⟨e1, e2⟩ := ih _ _ _ h3
    refine ⟨hf.entry h1 _ _, fun q hq => ?_⟩
    rcases List.mem_cons.mp hq with rfl | hq
    · exact e1
    · exact e2 q hq

/-- **C99, what fails.** `sample` with an observation function that leaves the same numbers in every
array it gets: these numbers stand in place of all sampled states, whatever was drawn. -/
theorem C99_sample_wipes {ρ : Type} (rng : Rng ρ) (c : Vec n) (T : ℕ) (initial : Option (Vec n)) (s : σ)
    (r : ρ) (out : List (Vec n × Vec m)) :
    (∀ p : PyUParams σ n m, p.f.All PyFun.Keeps → (p.g.All fun g => g.Wipes c) →
      pyAukfSample rng p T initial s r = .ok out → ∀ q ∈ out, q.1 = c) ∧
    ∀ p : PyGParams σ n m, p.f.All PyFun.KeepsState → (p.g.All fun g => g.WipesState c) →
      pyUkfSample rng p T initial s r = .ok out → ∀ q ∈ out, q.1 = c := by
  constructor
  · intro p hf hg h
    cases T with
    | zero => cases h; simp
    | succ k =>
      obtain ⟨g, h2, h⟩ := ok_bind_iff.mp h
      obtain ⟨rest, h3, h⟩ := ok_bind_iff.mp h
      cases h
      rw [hg.entry h2] at h3
      obtain ⟨e1, e2⟩ := pyAukfSampleLoop_wiped rng hf hg _ _ _ _ h3
      intro q hq
      rcases List.mem_cons.mp hq with rfl | hq
      · exact e1
      · exact e2 q hq
  · intro p hf hg h
    cases T with
    | zero => cases h; simp
    | succ k =>
      obtain ⟨g, h2, h⟩ := ok_bind_iff.mp h
      obtain ⟨rest, h3, h⟩ := ok_bind_iff.mp h
      cases h
      rw [hg.entry h2] at h3
      obtain ⟨e1, e2⟩ := pyUkfSampleLoop_wiped rng hf hg _ _ _ _ h3
      intro q hq
      rcases List.mem_cons.mp hq with rfl | hq
      · exact e1
      · exact e2 q hq

/-- Two sampled states with such functions, in both classes. -/
example {ρ : Type} (rng : Rng ρ) (s : ℕ) (r : ρ) :
    ∃ (p : PyUParams ℕ 2 1) (q : PyGParams ℕ 2 1) (l l' : List (Vec 2 × Vec 1)),
      p.f.All PyFun.Keeps ∧ (p.g.All fun g => g.Wipes 0) ∧ pyAukfSample rng p 2 none s r = .ok l ∧
      l.length = 2 ∧ q.f.All PyFun.KeepsState ∧ (q.g.All fun g => g.WipesState 0) ∧
      pyUkfSample rng q 2 none s r = .ok l' ∧ l'.length = 2 := by
  refine ⟨⟨.flat [.ofFun fun x => x], .flat [fun k x => (k + 1, 0, fun _ _ _ => x 0 * x 1)], 1, 1, 0, 1⟩,
    ⟨.flat [.ofFun fun x => x.1 + x.2],
      .flat [fun k x => (k + 1, (0, x.2), fun _ _ _ => x.1 0 * x.2 0)], 1, 1, 0, 1⟩, _, _, ?_, ?_, rfl, rfl,
      ?_, ?_, rfl, rfl⟩
  all_goals
    intro g hg s x
    obtain rfl := List.mem_singleton.mp hg
    rfl

/-! ### The hypotheses can be met -/

/-- Functions that count their calls, the transition function clears its argument: a run. -/
example : ∃ p : PyUParams ℕ 2 1, p.f.All PyFun.Counts ∧ p.g.All PyFun.Counts ∧
    (p.f.All fun f => f.Wipes 0) ∧
    ∃ l, pyAukfFilter p 0 [⟨![2], fun _ => false⟩, ⟨0, fun _ => true⟩] = .ok l ∧ l.length = 2 := by
  let u : UParams 2 1 := ⟨.flat [fun x i => Real.sin (x i)], .flat [fun x _ => x 0 * x 1], 1, 1, 0, 1⟩
  let p : PyUParams ℕ 2 1 := ⟨.flat [fun k x => (k + 1, 0, fun _ _ i => Real.sin (x i))],
    .flat [fun k x => (k + 1, x, fun _ _ _ => x 0 * x 1)], 1, 1, 0, 1⟩
  have hc : p.Computes u :=
    ⟨.cons (fun _ _ _ => rfl) .nil, .cons ⟨fun _ _ _ => rfl, fun _ _ => rfl⟩ .nil, rfl, rfl, rfl, rfl⟩
  refine ⟨p, ?_, ?_, ?_, ?_⟩
  · intro f hf s x
    obtain rfl := List.mem_singleton.mp hf
    rfl
  · intro g hg s x
    obtain rfl := List.mem_singleton.mp hg
    rfl
  · intro f hf s x
    obtain rfl := List.mem_singleton.mp hf
    rfl
  · obtain ⟨⟨l, h, -⟩, -⟩ := C52_posDef (n := 2) (by norm_num) (u := u) PosDef.one PosDef.one
      PosDef.one [⟨![2], fun _ => false⟩, ⟨0, fun _ => true⟩] (fun t _ => ⟨_, rfl⟩)
      (fun t _ => ⟨_, rfl⟩)
    rw [← C99_filter hc 0] at h
    cases hp : pyAukfFilter p 0 [⟨![2], fun _ => false⟩, ⟨0, fun _ => true⟩] with
    | error e => rw [hp] at h; cases h
    | ok l' => exact ⟨l', rfl, runLoop_length hp⟩

/-- Observation functions that clear their argument. -/
example : ∃ (p : PyUParams ℕ 2 1) (q : PyGParams ℕ 2 1), (p.g.All fun g => g.Wipes 0) ∧
    q.g.All fun g => g.WipesState 0 := by
  refine ⟨⟨.flat [.ofFun fun x => x], .flat [fun k x => (k + 1, 0, fun _ _ _ => x 0 * x 1)], 1, 1, 0, 1⟩,
    ⟨.flat [.ofFun fun x => x.1 + x.2],
      .flat [fun k x => (k + 1, (0, x.2), fun _ _ _ => x.1 0 * x.2 0)], 1, 1, 0, 1⟩, ?_, ?_⟩
  · intro g hg s x
    obtain rfl := List.mem_singleton.mp hg
    rfl
  · intro g hg s x
    obtain rfl := List.mem_singleton.mp hg
    rfl

/-- A transition function that overwrites state and noise, an observation function that overwrites the
noise: `sample` of three steps. -/
example {ρ : Type} (rng : Rng ρ) (r : ρ) : ∃ (p : PyGParams ℕ 2 1) (u : GParams 2 1),
    p.Computes u ∧ (p.f.All fun f => ∀ s x, (f s x).2.1.1 = fun i => Real.sin (x.1 i)) ∧
    ∃ out, ukfSample rng u 3 none r = .ok out := by
  refine ⟨⟨.flat [fun k x => (k + 1, (fun i => Real.sin (x.1 i), 0), fun _ y => y.1 + x.2)],
      .flat [fun k x => (k + 1, (x.1, 0), fun _ _ => ![x.1 0 * x.2 0])], 1, 1, 0, 1⟩,
    ⟨.flat [fun x w => (fun i => Real.sin (x i)) + w], .flat [fun x v => ![x 0 * v 0]], 1, 1, 0, 1⟩,
    ⟨.cons (fun _ _ _ => rfl) .nil, .cons ⟨fun _ _ _ => rfl, fun _ _ => rfl⟩ .nil,
      rfl, rfl, rfl, rfl⟩, ?_, _, rfl⟩
  intro f hf s x
  obtain rfl := List.mem_singleton.mp hf
  rfl

end Verif
