import Verif.Proofs.PyFun

/-!
# Python functions: the square root smoother, `filter_update` and `sample` with general noise
-/

open Matrix

namespace Verif

variable {σ : Type} {n m : ℕ}

theorem pySqSmoothStep_fst (qr : QR) {p : PyUParams σ n m} {u : UParams n m} (h : p.Computes u)
    (hk : p.f.All PyFun.Keeps) (Q2 : Mat n n) (t : ℕ) (s next : Moments n × σ) :
    sqSmoothStep qr u Q2 t s.1 next.1 = (pySqSmoothStep qr p Q2 t s next).map Prod.fst := by
  simp only [sqSmoothStep, pySqSmoothStep]
  rcases h.f.entry t with ⟨e, f1, f2⟩ | ⟨f, F, f1, f2, f3⟩
  · simp only [bind, Except.bind, f1, f2]; rfl
  · have hf : f.Keeps := hk.entry f1
    have e : (sqMoments2points s.1).withRows (callAll f next.2 (sqMoments2points s.1).points).res
        = (sqMoments2points s.1).map F := by
      rw [callAll_res f3]; rfl
    have e' : (sqMoments2points s.1).withRows (callAll f next.2 (sqMoments2points s.1).points).args
        = sqMoments2points s.1 := by
      rw [callAll_args hf]; rfl
    simp only [bind, Except.bind, f1, f2, e, e']
    cases sqPoints2moments qr ((sqMoments2points s.1).map F) (some Q2) with
    | error e => rfl
    | ok pred =>
      simp only []
      cases cholupdate pred.cov next.1.cov (-1.0) with
      | error e => rfl
      | ok U =>
        simp only []
        generalize cholupdate s.1.cov _ (-1.0) = q
        cases q <;> rfl

theorem pySqSmooth_fst (qr : QR) {p : PyUParams σ n m} {u : UParams n m} (h : p.Computes u)
    (hk : p.f.All PyFun.Keeps) (s : σ) (os : List (Obs m)) :
    (pySqSmooth qr p s os).map (List.map Prod.fst) = sqSmooth qr u os := by
  simp only [pySqSmooth, sqSmooth, sqSmoothFull, ← pySqFull_fst qr h s os, h.Q]
  cases pySqFull qr p s os with
  | error e => rfl
  | ok l =>
    simp only [Except.map, bind, Except.bind]
    cases cholUpper u.Q with
    | error e => rfl
    | ok Q2 =>
      have := backFull_map l fun i x _ _ next => pySqSmoothStep_fst qr h hk Q2 i x next
      simp only [this]
      cases backFull (pySqSmoothStep qr p Q2) l with
      | error e => rfl
      | ok l' =>
        simp only [Except.map, pure, Except.pure, List.map_map]
        rfl

theorem pySqUpdate_fst (qr : QR) {p : PyUParams σ n m} {u : UParams n m} (h : p.Computes u) (s : σ)
    (M : Moments n) (o : Option (Obs m)) {a : PyUUpdateArgs σ n m} {b : UUpdateArgs n m}
    (hf : Option.Rel (fun f F => f.Returns F) a.f b.f)
    (hg : Option.Rel (fun g G => g.Returns G ∧ g.Keeps) a.g b.g) (hQ : a.Q = b.Q) (hR : a.R = b.R) :
    (pySqUpdate qr p s M o a).map Prod.fst = sqUpdate qr u M o b := by
  simp only [pySqUpdate, sqUpdate]
  rcases defaultFunction_within h.f hf with ⟨e, f1, f2⟩ | ⟨f, F, f1, f2, f3⟩
  · simp only [f1, f2]; rfl
  rcases defaultFunction_within h.g hg with ⟨e, h1, h2⟩ | ⟨g, G, h1, h2, h3⟩
  · simp only [f1, f2, h1, h2]; rfl
  simp only [f1, f2, h1, h2, bind, Except.bind, hQ, h.Q, hR, h.R]
  cases cholUpper M.cov with
  | error e => rfl
  | ok P2 =>
  simp only []
  cases cholUpper (b.Q.getD u.Q) with
  | error e => rfl
  | ok Q2 =>
  simp only []
  cases cholUpper (b.R.getD u.R) with
  | error e => rfl
  | ok R2 =>
  have e : (sqMoments2points ⟨M.mean, P2⟩).withRows
      (callAll f s (sqMoments2points ⟨M.mean, P2⟩).points).res
      = (sqMoments2points ⟨M.mean, P2⟩).map F := by
    rw [callAll_res f3]; rfl
  simp only [e]
  cases sqPoints2moments qr ((sqMoments2points ⟨M.mean, P2⟩).map F) (some Q2) with
  | error e => rfl
  | ok pred =>
    simp only [← pySqCorrect_fst qr h3.1 h3.2
      (callAll f s (sqMoments2points ⟨M.mean, P2⟩).points).state]
    cases o <;>
    · simp only []
      generalize pySqCorrect qr g _ pred _ _ R2 = q
      cases q <;> rfl

/-! ### `sample` with general noise -/

theorem pyUkfSampleLoop_eq {ρ : Type} (rng : Rng ρ) {p : PyGParams σ n m} {u : GParams n m}
    (h : p.Computes u) {hh : Vec n → Vec n} (hl : p.f.All fun f => ∀ s x, (f s x).2.1.1 = hh x.1)
    (k t : ℕ) (prev : Vec n) (z : Vec m) (s : σ) (r : ρ) :
    (pyUkfSampleLoop rng p k t prev s r).map (fun q => (q.1, z) :: q.2)
      = (ukfSampleLoop rng u k t prev r).map fun l => leftOver hh ((prev, z) :: l) := by
  induction k generalizing t prev z s r with
  | zero => rfl
  | succ k ih =>
    simp only [pyUkfSampleLoop, ukfSampleLoop, h.Q, h.R]
    rcases h.f.entry (t - 1) with ⟨e, f1, f2⟩ | ⟨f, F, f1, f2, f3⟩
    · simp only [bind, Except.bind, f1, f2]; rfl
    rcases h.g.entry t with ⟨e, h1, h2⟩ | ⟨g, G, h1, h2, h3⟩
    · simp only [bind, Except.bind, f1, f2, h1, h2]; rfl
    generalize rng.normal n 0 u.Q r = w
    have hf := f3 s (prev, w.1) (f s (prev, w.1)).1
    have hx := hl.entry f1 s (prev, w.1)
    simp only [bind, Except.bind, f1, f2, h1, h2, hf]
    generalize rng.normal m 0 u.R w.2 = v
    have hg := h3.1 (f s (prev, w.1)).1 (F prev w.1, v.1)
    simp only [hg]
    simp only [h3.2 _ _, hx]
    have := ih (t + 1) (F prev w.1) (G (F prev w.1) v.1)
      (g (f s (prev, w.1)).1 (F prev w.1, v.1)).1 v.2
    revert this
    cases pyUkfSampleLoop rng p k (t + 1) (F prev w.1)
      (g (f s (prev, w.1)).1 (F prev w.1, v.1)).1 v.2 with
    | error e =>
      cases ukfSampleLoop rng u k (t + 1) (F prev w.1) v.2 with
      | error e' => intro this; cases this; rfl
      | ok l => intro this; cases this
    | ok q =>
      cases ukfSampleLoop rng u k (t + 1) (F prev w.1) v.2 with
      | error e' => intro this; cases this
      | ok l =>
        intro this
        simp only [Except.map, Except.ok.injEq] at this
        simp only [Except.map, pure, Except.pure, this, leftOver]

theorem pyUkfSample_eq {ρ : Type} (rng : Rng ρ) {p : PyGParams σ n m} {u : GParams n m}
    (h : p.Computes u) {hh : Vec n → Vec n} (hl : p.f.All fun f => ∀ s x, (f s x).2.1.1 = hh x.1)
    (T : ℕ) (initial : Option (Vec n)) (s : σ) (r : ρ) :
    pyUkfSample rng p T initial s r = (ukfSample rng u T initial r).map (leftOver hh) := by
  cases T with
  | zero => cases initial <;> rfl
  | succ k =>
    have key : ∀ i : Vec n × ρ, (do
        let g ← p.g.at 0
        let v := rng.normal m 0 p.R i.2
        let c := g s (i.1, v.1)
        let z := c.2.2 c.1 c.2.1
        let rest ← pyUkfSampleLoop rng p k 1 c.2.1.1 c.1 v.2
        pure ((rest.1, z) :: rest.2) : Res (List (Vec n × Vec m)))
        = (do
        let g ← u.g.at 0
        let v := rng.normal m 0 u.R i.2
        let z := g i.1 v.1
        let rest ← ukfSampleLoop rng u k 1 i.1 v.2
        pure ((i.1, z) :: rest) : Res (List (Vec n × Vec m))).map (leftOver hh) := by
      intro i
      rcases h.g.entry 0 with ⟨e, h1, h2⟩ | ⟨g, G, h1, h2, h3⟩
      · simp only [bind, Except.bind, h1, h2]; rfl
      simp only [h.R]
      generalize rng.normal m 0 u.R i.2 = v
      have hg := h3.1 s (i.1, v.1)
      simp only [bind, Except.bind, h1, h2, hg]
      simp only [h3.2 _ _]
      have := pyUkfSampleLoop_eq rng h hl k 1 i.1 (G i.1 v.1) (g s (i.1, v.1)).1 v.2
      revert this
      cases pyUkfSampleLoop rng p k 1 i.1 (g s (i.1, v.1)).1 v.2 with
      | error e =>
        cases ukfSampleLoop rng u k 1 i.1 v.2 with
        | error e' => intro this; cases this; rfl
        | ok l => intro this; cases this
      | ok q =>
        cases ukfSampleLoop rng u k 1 i.1 v.2 with
        | error e' => intro this; cases this
        | ok l => exact fun this => this
    cases initial with
    | none =>
      simp only [pyUkfSample, ukfSample, h.mu0, h.S0]
      exact key _
    | some x => exact key (x, r)

/-! ### Functions that count their calls -/

section
variable {α β : Type} {N : ℕ}

theorem callState_counts {f : PyFun ℕ α β} (h : f.Counts) (s : ℕ) (x : Fin N → α) (i : ℕ)
    (hi : i ≤ N) : callState f s x i = s + i := by
  induction i with
  | zero => rfl
  | succ i ih =>
    rw [callState, dif_pos (by omega), h, ih (by omega)]
    omega

theorem callAll_counts {f : PyFun ℕ α β} (h : f.Counts) (s : ℕ) (x : Fin N → α) :
    (callAll f s x).state = s + N := callState_counts h s x N le_rfl

theorem runLoop_count {τ : Type} {step : ℕ → Option (τ × ℕ) → Obs m → Res (τ × ℕ)} {s a b : ℕ}
    (h0 : ∀ t o r, step t none o = .ok r → r.2 = s + a)
    (h1 : ∀ t x o r, step t (some x) o = .ok r → r.2 = x.2 + b)
    {os : List (Obs m)} {l : List (τ × ℕ)} (h : runLoop step 0 none os = .ok l) :
    ∀ (t : ℕ) r, l[t]? = some r → r.2 = s + a + t * b := by
  obtain ⟨hl, k0, k1⟩ := runLoop_iff.mp h
  intro t
  induction t with
  | zero =>
    intro r hr
    obtain ⟨h', rfl⟩ := List.getElem?_eq_some_iff.mp hr
    rw [h0 _ _ _ (k0 (by omega) h'), zero_mul, add_zero]
  | succ t ih =>
    intro r hr
    obtain ⟨h', rfl⟩ := List.getElem?_eq_some_iff.mp hr
    rw [h1 _ _ _ _ (k1 t (by omega) h'), ih _ (List.getElem?_eq_getElem (by omega))]
    ring

theorem backFull_count {τ : Type} {step : ℕ → τ × ℕ → τ × ℕ → Res (τ × ℕ)} {c K : ℕ}
    (h1 : ∀ t x y r, step t x y = .ok r → r.2 = y.2 + c)
    {l l' : List (τ × ℕ)} (h : backFull step l = .ok l') (hK : ∀ r, l.getLast? = some r → r.2 = K) :
    ∀ (t : ℕ) r, l'[t]? = some r → r.2 = K + (l'.length - 1 - t) * c := by
  obtain ⟨hn, hlen, hlast, hs⟩ := backFull_iff.mp h
  have key : ∀ (d t : ℕ) r, t + d + 1 = l'.length → l'[t]? = some r → r.2 = K + d * c := by
    intro d
    induction d with
    | zero =>
      intro t r ht hr
      rw [zero_mul, add_zero]
      refine hK r ?_
      rw [← hlast, List.getLast?_eq_getElem?, ← hr]
      congr 1
      omega
    | succ d ih =>
      intro t r ht hr
      obtain ⟨h', rfl⟩ := List.getElem?_eq_some_iff.mp hr
      rw [h1 _ _ _ _ (hs t (by omega) (by omega)),
        ih (t + 1) _ (by omega) (List.getElem?_eq_getElem (by omega))]
      ring
  intro t r hr
  obtain ⟨h', -⟩ := List.getElem?_eq_some_iff.mp hr
  exact key _ t r (by omega) hr

end

theorem last_of_rows {τ : Type} {l : List τ} {P : ℕ → τ → Prop}
    (h : ∀ (t : ℕ) r, l[t]? = some r → P t r) {r : τ} (hr : l.getLast? = some r) :
    P (l.length - 1) r :=
  h _ _ (by rw [← hr, List.getLast?_eq_getElem?])

theorem pyAukfStep_count {p : PyUParams ℕ n m} (hf : p.f.All PyFun.Counts) (hg : p.g.All PyFun.Counts)
    (s t : ℕ) (o : Obs m) :
    (∀ r, pyAukfStep p s t none o = .ok r → r.2 = s + (2 * n + 1)) ∧
    ∀ x r, pyAukfStep p s t (some x) o = .ok r → r.2 = x.2 + 2 * (2 * n + 1) := by
  constructor
  · intro r h
    simp only [pyAukfStep, Option.getD_none] at h
    obtain ⟨pts, -, h⟩ := ok_bind_iff.mp h
    obtain ⟨g, hgt, h⟩ := ok_bind_iff.mp h
    cases h
    simp only [pyCorrect, callAll_counts (hg.entry hgt), two_mul]
  · intro x r h
    simp only [pyAukfStep, Option.getD_some] at h
    obtain ⟨pts, -, h⟩ := ok_bind_iff.mp h
    obtain ⟨f, hft, h⟩ := ok_bind_iff.mp h
    obtain ⟨pts', -, h⟩ := ok_bind_iff.mp h
    obtain ⟨g, hgt, h⟩ := ok_bind_iff.mp h
    cases h
    simp only [pyCorrect, callAll_counts (hg.entry hgt), callAll_counts (hf.entry hft)]
    omega

theorem pyUkfStep_count {p : PyGParams ℕ n m} (hf : p.f.All PyFun.Counts) (hg : p.g.All PyFun.Counts)
    (s t : ℕ) (o : Obs m) :
    (∀ r, pyUkfStep p s t none o = .ok r → r.2 = s + (2 * (2 * n + m) + 1)) ∧
    ∀ x r, pyUkfStep p s t (some x) o = .ok r → r.2 = x.2 + 2 * (2 * (2 * n + m) + 1) := by
  constructor
  · intro r h
    simp only [pyUkfStep, Option.getD_none] at h
    obtain ⟨pts, -, h⟩ := ok_bind_iff.mp h
    obtain ⟨g, hgt, h⟩ := ok_bind_iff.mp h
    cases h
    simp only [pyCorrect₂, callAll₂, callAll_counts (hg.entry hgt)]
    omega
  · intro x r h
    simp only [pyUkfStep, Option.getD_some] at h
    obtain ⟨pts, -, h⟩ := ok_bind_iff.mp h
    obtain ⟨f, hft, h⟩ := ok_bind_iff.mp h
    obtain ⟨g, hgt, h⟩ := ok_bind_iff.mp h
    cases h
    simp only [pyCorrect₂, callAll₂, callAll_counts (hg.entry hgt), callAll_counts (hf.entry hft)]
    omega

theorem pySqStep_count (qr : QR) {p : PyUParams ℕ n m} (hf : p.f.All PyFun.Counts)
    (hg : p.g.All PyFun.Counts) (Q2 : Mat n n) (R2 : Mat m m) (s t : ℕ) (o : Obs m) :
    (∀ r, pySqStep qr p Q2 R2 s t none o = .ok r → r.2 = s + (2 * n + 1)) ∧
    ∀ x r, pySqStep qr p Q2 R2 s t (some x) o = .ok r → r.2 = x.2 + 2 * (2 * n + 1) := by
  constructor
  · intro r h
    simp only [pySqStep] at h
    obtain ⟨S2, -, h⟩ := ok_bind_iff.mp h
    obtain ⟨pred, -, h⟩ := ok_bind_iff.mp h
    obtain ⟨g, hgt, h⟩ := ok_bind_iff.mp h
    simp only [pySqCorrect] at h
    obtain ⟨ob, -, h⟩ := ok_bind_iff.mp h
    obtain ⟨M, -, h⟩ := ok_bind_iff.mp h
    cases h
    simp only [callAll_counts (hg.entry hgt), two_mul]
  · intro x r h
    simp only [pySqStep] at h
    obtain ⟨f, hft, h⟩ := ok_bind_iff.mp h
    obtain ⟨pred, -, h⟩ := ok_bind_iff.mp h
    obtain ⟨g, hgt, h⟩ := ok_bind_iff.mp h
    simp only [pySqCorrect] at h
    obtain ⟨ob, -, h⟩ := ok_bind_iff.mp h
    obtain ⟨M, -, h⟩ := ok_bind_iff.mp h
    cases h
    simp only [callAll_counts (hg.entry hgt), callAll_counts (hf.entry hft)]
    omega

theorem pySqSmoothStep_count (qr : QR) {p : PyUParams ℕ n m} (hf : p.f.All PyFun.Counts)
    (Q2 : Mat n n) (t : ℕ) (x y r : Moments n × ℕ) (h : pySqSmoothStep qr p Q2 t x y = .ok r) :
    r.2 = y.2 + (2 * n + 1) := by
  simp only [pySqSmoothStep] at h
  obtain ⟨f, hft, h⟩ := ok_bind_iff.mp h
  obtain ⟨pred, -, h⟩ := ok_bind_iff.mp h
  obtain ⟨U, -, h⟩ := ok_bind_iff.mp h
  obtain ⟨S, -, h⟩ := ok_bind_iff.mp h
  cases h
  simp only [callAll_counts (hf.entry hft), two_mul]

theorem flat_at {α : Type} (a : α) (t : ℕ) : (Fns.flat [a]).at t = .ok a := rfl

theorem pyAukfSampleLoop_counting {ρ : Type} (rng : Rng ρ) {u : UParams n m} {F : ℕ → Vec n → Vec n}
    {G : ℕ → Vec n → Vec m} (k t : ℕ) (hf : ∀ i < k, u.f.at (t + i) = .ok (F (t + i)))
    (hg : ∀ i < k, u.g.at (t + 1 + i) = .ok (G (t + 1 + i))) (prev : Vec n) (z : Vec m) (r : ρ) :
    (pyAukfSampleLoop rng ⟨.flat [.countFst 1 F], .flat [.countSnd 1 G], u.Q, u.R, u.mu0, u.S0⟩ k
        (t + 1) prev (t, t + 1) r).map (fun q => (q.1, z) :: q.2)
      = (aukfSampleLoop rng u k (t + 1) prev r).map ((prev, z) :: ·) := by
  induction k generalizing t prev z r with
  | zero => rfl
  | succ k ih =>
    have h1 := hf 0 (by omega)
    have h2 := hg 0 (by omega)
    simp only [add_zero] at h1 h2
    simp only [pyAukfSampleLoop, aukfSampleLoop, Nat.add_sub_cancel, h1, h2, flat_at, bind,
      Except.bind, PyFun.countFst, PyFun.countSnd, Nat.div_one]
    generalize rng.normal n 0 u.Q r = w
    generalize rng.normal m 0 u.R w.2 = v
    have := ih (t + 1) (fun i hi => by
        have := hf (i + 1) (by omega)
        rwa [show t + (i + 1) = t + 1 + i by omega] at this)
      (fun i hi => by
        have := hg (i + 1) (by omega)
        rwa [show t + 1 + (i + 1) = t + 1 + 1 + i by omega] at this)
      (F t prev + w.1) (G (t + 1) (F t prev + w.1) + v.1) v.2
    revert this
    generalize pyAukfSampleLoop rng _ k (t + 1 + 1) _ _ _ = q
    generalize aukfSampleLoop rng u k (t + 1 + 1) _ _ = q'
    cases q with
    | error e =>
      cases q' with
      | error e' => intro this; cases this; rfl
      | ok l => intro this; cases this
    | ok q =>
      cases q' with
      | error e' => intro this; cases this
      | ok l =>
        intro this
        simp only [Except.map, Except.ok.injEq] at this
        simp only [Except.map, pure, Except.pure, this]

theorem pyAukfSample_counting {ρ : Type} (rng : Rng ρ) {u : UParams n m} {F : ℕ → Vec n → Vec n}
    {G : ℕ → Vec n → Vec m} (T : ℕ) (hf : ∀ t, t + 1 < T → u.f.at t = .ok (F t))
    (hg : ∀ t < T, u.g.at t = .ok (G t)) (initial : Option (Vec n)) (r : ρ) :
    pyAukfSample rng ⟨.flat [.countFst 1 F], .flat [.countSnd 1 G], u.Q, u.R, u.mu0, u.S0⟩ T initial
        (0, 0) r = aukfSample rng u T initial r := by
  cases T with
  | zero => rfl
  | succ k =>
    have h2 := hg 0 (by omega)
    have key : ∀ i : Vec n × ρ, (do
        let g ← (Fns.flat [PyFun.countSnd 1 G]).at 0
        let v := rng.normal m 0 u.R i.2
        let c := g (0, 0) i.1
        let z := c.2.2 c.1 c.2.1 + v.1
        let rest ← pyAukfSampleLoop rng ⟨.flat [.countFst 1 F], .flat [.countSnd 1 G], u.Q, u.R, u.mu0,
          u.S0⟩ k 1 c.2.1 c.1 v.2
        pure ((rest.1, z) :: rest.2) : Res (List (Vec n × Vec m)))
        = (do
        let g ← u.g.at 0
        let v := rng.normal m 0 u.R i.2
        let z := g i.1 + v.1
        let rest ← aukfSampleLoop rng u k 1 i.1 v.2
        pure ((i.1, z) :: rest) : Res (List (Vec n × Vec m))) := by
      intro i
      simp only [h2, flat_at, bind, Except.bind, PyFun.countSnd, Nat.div_one]
      generalize rng.normal m 0 u.R i.2 = v
      have := pyAukfSampleLoop_counting rng (u := u) (F := F) (G := G) k 0
        (fun j hj => by simpa using hf j (by omega))
        (fun j hj => by simpa [Nat.add_comm] using hg (j + 1) (by omega)) i.1 (G 0 i.1 + v.1) v.2
      revert this
      generalize pyAukfSampleLoop rng _ k _ _ _ _ = q
      generalize aukfSampleLoop rng u k _ _ _ = q'
      cases q with
      | error e =>
        cases q' with
        | error e' => intro this; cases this; rfl
        | ok l => intro this; cases this
      | ok q =>
        cases q' with
        | error e' => intro this; cases this
        | ok l => exact fun this => this
    cases initial with
    | none => exact key _
    | some x => exact key (x, r)

theorem pyUkfSampleLoop_counting {ρ : Type} (rng : Rng ρ) {u : GParams n m} {F : ℕ → Vec n × Vec n → Vec n}
    {G : ℕ → Vec n × Vec m → Vec m} (k t : ℕ) (hf : ∀ i < k, u.f.at (t + i) = .ok (fun x w => F (t + i) (x, w)))
    (hg : ∀ i < k, u.g.at (t + 1 + i) = .ok (fun x v => G (t + 1 + i) (x, v))) (prev : Vec n) (z : Vec m) (r : ρ) :
    (pyUkfSampleLoop rng ⟨.flat [.countFst 1 F], .flat [.countSnd 1 G], u.Q, u.R, u.mu0, u.S0⟩ k
        (t + 1) prev (t, t + 1) r).map (fun q => (q.1, z) :: q.2)
      = (ukfSampleLoop rng u k (t + 1) prev r).map ((prev, z) :: ·) := by
  induction k generalizing t prev z r with
  | zero => rfl
  | succ k ih =>
    have h1 := hf 0 (by omega)
    have h2 := hg 0 (by omega)
    simp only [add_zero] at h1 h2
    simp only [pyUkfSampleLoop, ukfSampleLoop, Nat.add_sub_cancel, h1, h2, flat_at, bind,
      Except.bind, PyFun.countFst, PyFun.countSnd, Nat.div_one]
    generalize rng.normal n 0 u.Q r = w
    generalize rng.normal m 0 u.R w.2 = v
    have := ih (t + 1) (fun i hi => by
        have := hf (i + 1) (by omega)
        rwa [show t + (i + 1) = t + 1 + i by omega] at this)
      (fun i hi => by
        have := hg (i + 1) (by omega)
        rwa [show t + 1 + (i + 1) = t + 1 + 1 + i by omega] at this)
      (F t (prev, w.1)) (G (t + 1) (F t (prev, w.1), v.1)) v.2
    revert this
    generalize pyUkfSampleLoop rng _ k (t + 1 + 1) _ _ _ = q
    generalize ukfSampleLoop rng u k (t + 1 + 1) _ _ = q'
    cases q with
    | error e =>
      cases q' with
      | error e' => intro this; cases this; rfl
      | ok l => intro this; cases this
    | ok q =>
      cases q' with
      | error e' => intro this; cases this
      | ok l =>
        intro this
        simp only [Except.map, Except.ok.injEq] at this
        simp only [Except.map, pure, Except.pure, this]

theorem pyUkfSample_counting {ρ : Type} (rng : Rng ρ) {u : GParams n m} {F : ℕ → Vec n × Vec n → Vec n}
    {G : ℕ → Vec n × Vec m → Vec m} (T : ℕ) (hf : ∀ t, t + 1 < T → u.f.at t = .ok (fun x w => F t (x, w)))
    (hg : ∀ t < T, u.g.at t = .ok (fun x v => G t (x, v))) (initial : Option (Vec n)) (r : ρ) :
    pyUkfSample rng ⟨.flat [.countFst 1 F], .flat [.countSnd 1 G], u.Q, u.R, u.mu0, u.S0⟩ T initial
        (0, 0) r = ukfSample rng u T initial r := by
  cases T with
  | zero => rfl
  | succ k =>
    have h2 := hg 0 (by omega)
    have key : ∀ i : Vec n × ρ, (do
        let g ← (Fns.flat [PyFun.countSnd 1 G]).at 0
        let v := rng.normal m 0 u.R i.2
        let c := g (0, 0) (i.1, v.1)
        let z := c.2.2 c.1 c.2.1
        let rest ← pyUkfSampleLoop rng ⟨.flat [.countFst 1 F], .flat [.countSnd 1 G], u.Q, u.R, u.mu0,
          u.S0⟩ k 1 c.2.1.1 c.1 v.2
        pure ((rest.1, z) :: rest.2) : Res (List (Vec n × Vec m)))
        = (do
        let g ← u.g.at 0
        let v := rng.normal m 0 u.R i.2
        let z := g i.1 v.1
        let rest ← ukfSampleLoop rng u k 1 i.1 v.2
        pure ((i.1, z) :: rest) : Res (List (Vec n × Vec m))) := by
      intro i
      simp only [h2, flat_at, bind, Except.bind, PyFun.countSnd, Nat.div_one]
      generalize rng.normal m 0 u.R i.2 = v
      have := pyUkfSampleLoop_counting rng (u := u) (F := F) (G := G) k 0
        (fun j hj => by simpa using hf j (by omega))
        (fun j hj => by simpa [Nat.add_comm] using hg (j + 1) (by omega)) i.1 (G 0 (i.1, v.1)) v.2
      revert this
      generalize pyUkfSampleLoop rng _ k _ _ _ _ = q
      generalize ukfSampleLoop rng u k _ _ _ = q'
      cases q with
      | error e =>
        cases q' with
        | error e' => intro this; cases this; rfl
        | ok l => intro this; cases this
      | ok q =>
        cases q' with
        | error e' => intro this; cases this
        | ok l => exact fun this => this
    cases initial with
    | none => exact key _
    | some x => exact key (x, r)

/-! ### Functions that leave the same numbers in every array -/

section
variable {N k l : ℕ}

/-- Deviations from the mean cancel. -/
theorem sum_dev {w : Vec N} (hw : ∑ i, w i = 1) (x : Fin N → Vec l) (j : Fin l) :
    ∑ i, w i * (x i j - ((Matrix.of x)ᵀ *ᵥ w) j) = 0 := by
  simp only [mulVec, dotProduct, transpose_apply, of_apply, mul_sub, Finset.sum_sub_distrib,
    ← Finset.sum_mul, hw, one_mul]
  rw [sub_eq_zero]
  exact Finset.sum_congr rfl fun i _ => mul_comm _ _

theorem crossCov_wiped {pts : SigmaPoints N n} (hs : ∑ i, pts.wm i = 1) (c mu : Vec n)
    (x : Fin N → Vec m) :
    crossCov (pts.withRows fun _ => c) mu (pts.withRows x) ((Matrix.of x)ᵀ *ᵥ pts.wm) = 0 := by
  ext i j
  rw [crossCov, Matrix.mul_apply]
  simp only [SigmaPoints.withRows, mul_diagonal, of_apply, Matrix.zero_apply, mul_assoc]
  rw [← Finset.mul_sum, sum_dev hs, mul_zero]

theorem pair_wiped {pts : SigmaPoints N k} (hs : ∑ i, pts.wm i = 1) (hw : pts.OneWeight) (c mu : Vec n)
    (x : Fin N → Vec n) :
    ((Matrix.of fun i j => x j i - ((Matrix.of x)ᵀ *ᵥ pts.wm) i : Mat n N) * diagonal pts.wc
      * (Matrix.of fun _ i => c i - mu i : Mat N n))ᵀ = 0 := by
  have hw : pts.wc = pts.wm := hw
  ext i j
  rw [transpose_apply, Matrix.mul_apply, hw]
  simp only [mul_diagonal, of_apply, Matrix.zero_apply]
  rw [← Finset.sum_mul]
  have := sum_dev hs x j
  simp only [mul_comm (pts.wm _)] at this
  rw [this, zero_mul]

theorem callAll_wipes {σ α β : Type} {f : PyFun σ α β} {c : α} (h : f.Wipes c) (s : σ)
    (x : Fin N → α) : (callAll f s x).args = fun _ => c := funext fun _ => h _ _

theorem points2moments_mean' (s : SigmaPoints N k) (noise : Option (Mat k k)) :
    (points2moments s noise).mean = (Matrix.of s.points)ᵀ *ᵥ s.wm := by
  cases noise <;> rfl

theorem pyCorrect_wiped {σ : Type} {g : PyFun σ (Vec n) (Vec m)} {c : Vec n} (h : g.Wipes c) (s : σ)
    (pred : Moments n) {pts : SigmaPoints N n} (hs : ∑ i, pts.wm i = 1) (o : Obs m) (R : Mat m m) :
    (pyCorrect g s pred pts o R).1 = pred := by
  simp only [pyCorrect, callAll_wipes h, points2moments_mean']
  have := crossCov_wiped hs c pred.mean (callAll g s pts.points).res
  simp only [SigmaPoints.withRows] at this ⊢
  rw [this, unscentedCorrect_zero]

theorem pyCorrect₂_wiped {σ : Type} {g : PyFun σ (Vec n × Vec m) (Vec m)} {c : Vec n}
    (h : g.WipesState c) (s : σ) (pred : Moments n) {pts : SigmaPoints N n} (hs : ∑ i, pts.wm i = 1)
    (o : Obs m) (w : SigmaPoints N m) :
    (pyCorrect₂ g s pred pts o w).1 = pred := by
  have e : (fun i => ((callAll₂ g s pts w).args i).1) = fun _ => c := funext fun _ => h _ _
  simp only [pyCorrect₂, e, points2moments_mean']
  have := crossCov_wiped hs c pred.mean (callAll₂ g s pts w).res
  simp only [SigmaPoints.withRows] at this ⊢
  rw [this, unscentedCorrect_zero]

theorem ufSmooth_wiped {pts : SigmaPoints N k} (hs : ∑ i, pts.wm i = 1) (hw : pts.OneWeight)
    (filt next : Moments n) (c : Vec n) (x : Fin N → Vec n) (noise : Option (Mat n n)) :
    ufSmooth filt (pts.withRows fun _ => c) (pts.withRows x)
      (points2moments (pts.withRows x) noise) next = filt := by
  have := pair_wiped hs hw c filt.mean x
  simp only [ufSmooth, points2moments_mean']
  simp only [SigmaPoints.withRows] at this ⊢
  rw [this]
  simp only [Matrix.zero_mul, zero_mulVec, add_zero]

end

end Verif
