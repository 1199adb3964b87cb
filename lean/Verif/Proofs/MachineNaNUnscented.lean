import Verif.Proofs.MachineNaN

/-!
# Lemmas on `nan` in unscented filters on the numbers of a machine
-/

namespace Verif

variable {n m k l N : ℕ}

namespace UMachine

open Machine

variable {M : UMachine} {bad : M.F → Prop}

theorem comprehension_inv {α : Type} : ∀ {N : ℕ} {f : Fin N → Res α} {q : Fin N → α},
    comprehension f = .ok q → ∀ i, f i = .ok (q i)
  | 0, _, _, _, i => i.elim0
  | N + 1, f, q, h, i => by
    rw [comprehension] at h
    obtain ⟨a, ha, h⟩ := ok_bind_iff.mp h
    obtain ⟨r, hr, h⟩ := ok_bind_iff.mp h
    cases h
    refine Fin.cases ha (fun j => ?_) i
    exact comprehension_inv hr j

theorem through_ok {s : M.Pts N k} {f : M.V k → Res (M.V l)} {q : M.Pts N l}
    (h : s.through f = .ok q) : ∀ i, f (s.points i) = .ok (q.points i) := by
  rw [Pts.through] at h
  obtain ⟨r, hr, h⟩ := ok_bind_iff.mp h
  cases h
  exact comprehension_inv hr

theorem through₂_ok {c : ℕ} {s : M.Pts N k} {w : M.Pts N c} {f : M.V k → M.V c → Res (M.V l)}
    {q : M.Pts N l} (h : s.through₂ w f = .ok q) :
    ∀ i, f (s.points i) (w.points i) = .ok (q.points i) := by
  rw [Pts.through₂] at h
  obtain ⟨r, hr, h⟩ := ok_bind_iff.mp h
  cases h
  exact comprehension_inv hr

variable (h : Machine.NaN M.toMachine bad)

include h

theorem NaN.correct_mean {cross : M.A n m} {pred : M.Mom n} {obs : M.Mom m} {o : M.Row m}
    {r : M.Mom n} (hr : unscentedCorrect cross pred obs o = .ok r) (ho : o.HasNaN bad) :
    AllBad bad r.mean := by
  obtain ⟨hu, j, hj⟩ := ho
  rw [unscentedCorrect, if_pos hu.not_missing] at hr
  obtain ⟨inv, -, hr⟩ := ok_bind_iff.mp hr
  cases hr
  exact fun i => h.add_right _ (h.dotV_right _ (h.sub_left _ hj) i)

/-- A component that is `nan` at one point is `nan` in the moments. -/
theorem NaN.points2moments_bad {s : M.Pts N k} {j : Fin N} {c : Fin k} (hb : bad (s.points j c))
    (noise : Option (M.A k k)) : bad ((points2moments s noise).cov c c) := by
  have hmu : bad (M.dotV k N (fun i j => s.points j i) s.wm c) := h.dotV_left _ (j := j) hb
  have hd : ∀ q, bad (centred s (M.dotV k N (fun i j => s.points j i) s.wm) c q) :=
    fun q => h.sub_right _ hmu
  have hs : bad (M.dotM k N k (M.dotM k N N (centred s
      (M.dotV k N (fun i j => s.points j i) s.wm)) (M.diag s.wc))
      (M.tr (centred s (M.dotV k N (fun i j => s.points j i) s.wm))) c c) :=
    h.dotM_left _ (j := j) (h.dotM_left _ (j := j) (hd j) j) c
  cases noise with
  | none => exact hs
  | some S => exact h.add_left _ hs

theorem NaN.moments2points_points {x : M.Mom n} {s : M.Pts (n + n + 1) n}
    (hs : moments2points x = .ok s) {c : Fin n} (hx : bad (x.mean c)) (i : Fin (n + n + 1)) :
    bad (s.points i c) := by
  rw [moments2points] at hs
  obtain ⟨upper, -, hs⟩ := ok_bind_iff.mp hs
  cases hs
  refine Fin.cases hx (fun j => ?_) i
  refine Fin.addCases (fun j => ?_) (fun j => ?_) j
  · simp only [Fin.cons_succ, Fin.append_left]
    exact h.add_left _ hx
  · simp only [Fin.cons_succ, Fin.append_right]
    exact h.sub_left _ hx

theorem NaN.augFilterPoints_left {x : M.Mom n} {Q : M.A n n} {R : M.A m m}
    {s : M.Pts ((n + n + m) + (n + n + m) + 1) n × M.Pts ((n + n + m) + (n + n + m) + 1) n
      × M.Pts ((n + n + m) + (n + n + m) + 1) m}
    (hs : augFilterPoints x Q R = .ok s) (hx : AllBad bad x.mean)
    (i : Fin ((n + n + m) + (n + n + m) + 1)) : AllBad bad (s.1.points i) := by
  rw [augFilterPoints] at hs
  obtain ⟨u, hu, hs⟩ := ok_bind_iff.mp hs
  cases hs
  intro c
  simp only [Pts.left]
  refine NaN.moments2points_points h hu ?_ i
  simpa using hx c

omit h in
theorem NaN.moments2points_raises (h : M.NaN bad) {x : M.Mom n} {i j : Fin n}
    (hb : bad (x.cov i j)) : Raises (moments2points x) := by
  rw [moments2points, h.chol hb]
  exact ⟨_, rfl⟩

omit h in
theorem NaN.augFilterPoints_raises (h : M.NaN bad) {x : M.Mom n} {Q : M.A n n} {R : M.A m m}
    {i j : Fin n} (hb : bad (x.cov i j)) : Raises (augFilterPoints x Q R) := by
  rw [augFilterPoints]
  refine Raises.bind (NaN.moments2points_raises h
    (i := Fin.castAdd m (Fin.castAdd n i)) (j := Fin.castAdd m (Fin.castAdd n j)) ?_) _
  simp only [blockDiag, Fin.append_left]
  exact hb

theorem NaN.aukfStep_bad {p : M.UPar n m} {t : ℕ} {prev : Option (M.Mom n)} {o : M.Row m}
    {s : M.Mom n} (hs : aukfStep p t prev o = .ok s) (ho : o.HasNaN bad) : AllBad bad s.mean := by
  cases prev with
  | none =>
    simp only [aukfStep] at hs
    obtain ⟨pts, -, hs⟩ := ok_bind_iff.mp hs
    obtain ⟨g, -, hs⟩ := ok_bind_iff.mp hs
    rw [ufCorrect] at hs
    obtain ⟨q, -, hs⟩ := ok_bind_iff.mp hs
    exact NaN.correct_mean h hs ho
  | some x =>
    simp only [aukfStep] at hs
    obtain ⟨pts, -, hs⟩ := ok_bind_iff.mp hs
    obtain ⟨f, -, hs⟩ := ok_bind_iff.mp hs
    obtain ⟨q, -, hs⟩ := ok_bind_iff.mp hs
    obtain ⟨pts', -, hs⟩ := ok_bind_iff.mp hs
    obtain ⟨g, -, hs⟩ := ok_bind_iff.mp hs
    rw [ufCorrect] at hs
    obtain ⟨q, -, hs⟩ := ok_bind_iff.mp hs
    exact NaN.correct_mean h hs ho

omit h in
/-- The prediction of `AdditiveUnscentedKalmanFilter` from a mean of `nan`s. -/
theorem NaN.aukf_predict_raises (h : M.NaN bad) {x : M.Mom n} (hx : AllBad bad x.mean)
    {f : M.V n → Res (M.V n)}
    (hf : ∀ x y, (∀ i, bad (x i)) → f x = .ok y → ∃ i, bad (y i)) {pts : M.Pts (n + n + 1) n}
    (hpts : moments2points x = .ok pts) {q : M.Pts (n + n + 1) n} (hq : pts.through f = .ok q)
    (Q : M.A n n) : Raises (moments2points (points2moments q (some Q))) := by
  obtain ⟨c, hc⟩ := hf _ _ (fun i => NaN.moments2points_points h.base hpts (hx i) 0)
    (through_ok hq 0)
  exact NaN.moments2points_raises h (NaN.points2moments_bad h.base hc _)

omit h in
theorem NaN.aukfStep_raises (h : M.NaN bad) {p : M.UPar n m}
    (hf : ∀ t f, p.f.at t = .ok f → ∀ x y, (∀ i, bad (x i)) → f x = .ok y → ∃ i, bad (y i))
    {t : ℕ} {x : M.Mom n} {o : M.Row m} (hx : AllBad bad x.mean) :
    Raises (aukfStep p t (some x) o) := by
  simp only [aukfStep]
  refine raises_bind fun pts hpts => raises_bind fun f hf' => raises_bind fun q hq => ?_
  exact Raises.bind (NaN.aukf_predict_raises h hx (hf _ f hf') hpts hq _) _

theorem NaN.ukfStep_bad {p : M.GPar n m} {t : ℕ} {prev : Option (M.Mom n)} {o : M.Row m}
    {s : M.Mom n} (hs : ukfStep p t prev o = .ok s) (ho : o.HasNaN bad) : AllBad bad s.mean := by
  cases prev with
  | none =>
    simp only [ukfStep] at hs
    obtain ⟨pts, -, hs⟩ := ok_bind_iff.mp hs
    obtain ⟨g, -, hs⟩ := ok_bind_iff.mp hs
    rw [ufCorrect₂] at hs
    obtain ⟨q, -, hs⟩ := ok_bind_iff.mp hs
    exact NaN.correct_mean h hs ho
  | some x =>
    simp only [ukfStep] at hs
    obtain ⟨pts, -, hs⟩ := ok_bind_iff.mp hs
    obtain ⟨f, -, hs⟩ := ok_bind_iff.mp hs
    obtain ⟨q, -, hs⟩ := ok_bind_iff.mp hs
    obtain ⟨g, -, hs⟩ := ok_bind_iff.mp hs
    rw [ufCorrect₂] at hs
    obtain ⟨q, -, hs⟩ := ok_bind_iff.mp hs
    exact NaN.correct_mean h hs ho

theorem NaN.correct_cov {cross : M.A n m} {pred : M.Mom n} {obs : M.Mom m} {o : M.Row m}
    {r : M.Mom n} (hr : unscentedCorrect cross pred obs o = .ok r) {i j : Fin n}
    (hb : bad (pred.cov i j)) : bad (r.cov i j) := by
  by_cases ho : o.missing
  · rw [unscentedCorrect, if_neg (not_not.mpr ho)] at hr
    cases hr
    exact hb
  · rw [unscentedCorrect, if_pos ho] at hr
    obtain ⟨inv, -, hr⟩ := ok_bind_iff.mp hr
    cases hr
    exact h.sub_left _ hb

theorem NaN.ukfStep_cov {p : M.GPar n m}
    (hf : ∀ t f, p.f.at t = .ok f → ShowsNaN (M := M.toMachine) bad f)
    {t : ℕ} {x s : M.Mom n} {o : M.Row m} (hs : ukfStep p t (some x) o = .ok s)
    (hx : AllBad bad x.mean) : ∃ c, bad (s.cov c c) := by
  simp only [ukfStep] at hs
  obtain ⟨pts, hpts, hs⟩ := ok_bind_iff.mp hs
  obtain ⟨f, hf', hs⟩ := ok_bind_iff.mp hs
  obtain ⟨q, hq, hs⟩ := ok_bind_iff.mp hs
  obtain ⟨g, -, hs⟩ := ok_bind_iff.mp hs
  rw [ufCorrect₂] at hs
  obtain ⟨q', -, hs⟩ := ok_bind_iff.mp hs
  obtain ⟨c, hc⟩ := hf _ f hf' _ _ _ (NaN.augFilterPoints_left h hpts hx 0) (through₂_ok hq 0)
  exact ⟨c, NaN.correct_cov h hs (NaN.points2moments_bad h hc none)⟩

omit h in
theorem NaN.ukfStep_raises (h : M.NaN bad) {p : M.GPar n m} {t : ℕ} {x : M.Mom n} {o : M.Row m}
    (hx : ∃ c, bad (x.cov c c)) : Raises (ukfStep p t (some x) o) := by
  obtain ⟨c, hc⟩ := hx
  simp only [ukfStep]
  exact Raises.bind (NaN.augFilterPoints_raises h hc) _

omit h in
/-- Two rows after a bad one no further row is possible. -/
theorem run_stops₂ {σ ο : Type} {step : ℕ → Option σ → ο → Res σ} {P P' : σ → Prop}
    {B : ο → Prop} (h1 : ∀ t prev o s, step t prev o = .ok s → B o → P s)
    (h2 : ∀ t s o s', step t (some s) o = .ok s' → P s → P' s')
    (h3 : ∀ t s o, P' s → Raises (step t (some s) o))
    {os : List ο} {t : ℕ} {prev : Option σ} {i : ℕ} (hi : i + 2 < os.length) (hb : B os[i]) :
    Raises (run step t prev os) := by
  induction os generalizing t prev i with
  | nil => simp at hi
  | cons o os ih =>
    rw [run]
    refine raises_bind fun s hs => Raises.bind ?_ _
    cases i with
    | zero =>
      have hp := h1 _ _ _ _ hs (by simpa using hb)
      rcases os with _ | ⟨o', _ | ⟨o'', os⟩⟩
      · simp at hi
      · simp at hi
      · rw [run]
        refine raises_bind fun s' hs' => Raises.bind ?_ _
        rw [run]
        exact Raises.bind (h3 _ _ _ (h2 _ _ _ _ hs' hp)) _
    | succ i => exact ih (i := i) (by simp only [List.length_cons] at hi; omega) (by simpa using hb)

omit h in
theorem backLoop_always {σ : Type} {step : ℕ → σ → σ → Res σ} {P : σ → Prop}
    (hstep : ∀ t s next r, step t s next = .ok r → P next → P r) {rest : List σ} {t : ℕ} {s : σ}
    {r : σ × List σ} (hr : backLoop step t s rest = .ok r)
    (hlast : ∀ x, (s :: rest).getLast? = some x → P x) : ∀ x ∈ r.1 :: r.2, P x := by
  induction rest generalizing t s r with
  | nil =>
    cases hr
    intro x hx
    simp only [List.mem_singleton] at hx
    subst hx
    exact hlast _ rfl
  | cons s' rest ih =>
    rw [backLoop] at hr
    obtain ⟨r', hr', hr⟩ := ok_bind_iff.mp hr
    obtain ⟨u, hu, hr⟩ := ok_bind_iff.mp hr
    cases hr
    have hall := ih hr' (by simpa [List.getLast?_cons_cons] using hlast)
    intro x hx
    rcases List.mem_cons.mp hx with rfl | hx
    · exact hstep _ _ _ _ hu (hall r'.1 (by simp))
    · exact hall x (by simpa using hx)

omit h in
theorem backFull_always {σ : Type} {step : ℕ → σ → σ → Res σ} {P : σ → Prop}
    (hstep : ∀ t s next r, step t s next = .ok r → P next → P r) {l out : List σ}
    (hr : backFull step l = .ok out) (hlast : ∀ x, l.getLast? = some x → P x) :
    ∀ x ∈ out, P x := by
  cases l with
  | nil => cases hr
  | cons s rest =>
    rw [backFull] at hr
    obtain ⟨r, hr', hr⟩ := ok_bind_iff.mp hr
    cases hr
    exact backLoop_always hstep hr' hlast

theorem NaN.ufSmooth_bad (hn : 0 < n) {filt : M.Mom n} {pts ptsPred : M.Pts N n}
    {pred next r : M.Mom n} (hr : ufSmooth filt pts ptsPred pred next = .ok r)
    (hx : AllBad bad next.mean) : AllBad bad r.mean := by
  rw [ufSmooth] at hr
  obtain ⟨inv, -, hr⟩ := ok_bind_iff.mp hr
  cases hr
  exact fun i => h.add_right _ (h.dotV_right _ (h.sub_left _ (hx ⟨0, hn⟩)) i)

end UMachine

namespace SMachine

open Machine UMachine

variable {M : SMachine} {bad : M.F → Prop} (h : M.Spread bad)

include h

theorem Spread.sqCorrect_mean {cross : M.A n m} {pred : M.Mom n} {obs : M.Mom m} {o : M.Row m}
    {r : M.Mom n} (hr : sqUnscentedCorrect cross pred obs o = .ok r) (ho : o.HasNaN bad) :
    AllBad bad r.mean := by
  obtain ⟨hu, j, hj⟩ := ho
  rw [sqUnscentedCorrect, if_pos hu.not_missing] at hr
  obtain ⟨K1, -, hr⟩ := ok_bind_iff.mp hr
  obtain ⟨K2, -, hr⟩ := ok_bind_iff.mp hr
  cases hr
  exact fun i => h.add_right _ (h.dotV_right _ (h.sub_left _ hj) i)

theorem Spread.sqMoments2points_points {x : M.Mom n} {c : Fin n} (hx : bad (x.mean c))
    (i : Fin (n + n + 1)) : bad ((sqMoments2points x).points i c) := by
  refine Fin.cases hx (fun j => ?_) i
  refine Fin.addCases (fun j => ?_) (fun j => ?_) j
  · simp only [sqMoments2points, Fin.cons_succ, Fin.append_left]
    exact h.add_left _ hx
  · simp only [sqMoments2points, Fin.cons_succ, Fin.append_right]
    exact h.sub_left _ hx

theorem Spread.qrSquare_raises {L : ℕ} {X : M.A N L} {i : Fin N} {j : Fin L} (hb : bad (X i j)) :
    Raises (qrSquare X) := by
  by_cases hN : N ≥ L
  · rw [qrSquare, dif_pos hN, h.qr hb]
    exact ⟨_, rfl⟩
  · rw [qrSquare, dif_neg hN]
    exact ⟨_, rfl⟩

theorem Spread.sqPoints2moments_raises {s : M.Pts N k} {j : Fin N} {c : Fin k}
    (hb : bad (s.points j c)) (noise : Option (M.A k k)) : Raises (sqPoints2moments s noise) := by
  have hp : bad (qrPoints s (M.dotV k N (fun i j => s.points j i) s.wm) c j) :=
    h.mul_right _ (h.sub_left _ hb)
  cases noise with
  | none =>
    simp only [sqPoints2moments]
    exact Raises.bind (h.qrSquare_raises (i := j) (j := c) hp) _
  | some S =>
    simp only [sqPoints2moments]
    refine Raises.bind (h.qrSquare_raises (i := Fin.castAdd k j) (j := c) ?_) _
    simp only [tr, hstack, Fin.append_left]
    exact hp

theorem Spread.sqStep_bad {p : M.UPar n m} {Q2 : M.A n n} {R2 : M.A m m} {t : ℕ}
    {prev : Option (M.Mom n)} {o : M.Row m}
    {s : M.Mom n} (hs : sqStep p Q2 R2 t prev o = .ok s) (ho : o.HasNaN bad) :
    AllBad bad s.mean := by
  cases prev with
  | none =>
    simp only [sqStep] at hs
    obtain ⟨S2, -, hs⟩ := ok_bind_iff.mp hs
    obtain ⟨pred, -, hs⟩ := ok_bind_iff.mp hs
    obtain ⟨g, -, hs⟩ := ok_bind_iff.mp hs
    rw [sqCorrect] at hs
    obtain ⟨q, -, hs⟩ := ok_bind_iff.mp hs
    obtain ⟨obs, -, hs⟩ := ok_bind_iff.mp hs
    exact h.sqCorrect_mean hs ho
  | some x =>
    simp only [sqStep] at hs
    obtain ⟨f, -, hs⟩ := ok_bind_iff.mp hs
    obtain ⟨q, -, hs⟩ := ok_bind_iff.mp hs
    obtain ⟨pred, -, hs⟩ := ok_bind_iff.mp hs
    obtain ⟨g, -, hs⟩ := ok_bind_iff.mp hs
    rw [sqCorrect] at hs
    obtain ⟨q, -, hs⟩ := ok_bind_iff.mp hs
    obtain ⟨obs, -, hs⟩ := ok_bind_iff.mp hs
    exact h.sqCorrect_mean hs ho

theorem Spread.sq_predict_raises {x : M.Mom n} (hx : AllBad bad x.mean) {f : M.V n → Res (M.V n)}
    (hf : ∀ x y, (∀ i, bad (x i)) → f x = .ok y → ∃ i, bad (y i)) {q : M.Pts (n + n + 1) n}
    (hq : (sqMoments2points x).through f = .ok q) (Q2 : M.A n n) :
    Raises (sqPoints2moments q (some Q2)) := by
  obtain ⟨c, hc⟩ := hf _ _ (fun i => h.sqMoments2points_points (hx i) 0) (through_ok hq 0)
  exact h.sqPoints2moments_raises hc _

theorem Spread.sqStep_raises {p : M.UPar n m} {Q2 : M.A n n} {R2 : M.A m m}
    (hf : ∀ t f, p.f.at t = .ok f → ∀ x y, (∀ i, bad (x i)) → f x = .ok y → ∃ i, bad (y i))
    {t : ℕ} {x : M.Mom n} {o : M.Row m} (hx : AllBad bad x.mean) :
    Raises (sqStep p Q2 R2 t (some x) o) := by
  simp only [sqStep]
  refine raises_bind fun f hf' => raises_bind fun q hq => ?_
  exact Raises.bind (h.sq_predict_raises hx (hf _ f hf') hq _) _

theorem Spread.sqSmoothStep_bad (hn : 0 < n) {p : M.UPar n m} {Q2 : M.A n n} {t : ℕ}
    {s next r : M.Mom n} (hr : sqSmoothStep p Q2 t s next = .ok r) (hx : AllBad bad next.mean) :
    AllBad bad r.mean := by
  rw [sqSmoothStep] at hr
  obtain ⟨f, -, hr⟩ := ok_bind_iff.mp hr
  obtain ⟨q, -, hr⟩ := ok_bind_iff.mp hr
  obtain ⟨pred, -, hr⟩ := ok_bind_iff.mp hr
  obtain ⟨g1, -, hr⟩ := ok_bind_iff.mp hr
  obtain ⟨g2, -, hr⟩ := ok_bind_iff.mp hr
  cases hr
  exact fun i => h.add_right _ (h.dotV_right _ (h.sub_left _ (hx ⟨0, hn⟩)) i)

end SMachine

end Verif
