import Verif.Proofs.UnscentedPos
import Verif.Props.Cholesky

/-!
# C34–C39, C52: the unscented filters
-/

open Matrix

namespace Verif

variable {n m k : ℕ}

/-! ### C34 -/

/-- **C34.** For a positive definite covariance and any `alpha`, `beta`, `kappa` (given or default)
with `n + lambda = alpha² (n + kappa) > 0`, `moments2points` returns points whose mean weights sum to
one and whose weighted mean and covariance (with either family of weights) are the given moments;
`points2moments` recovers the moments. -/
theorem C34_moments (M : Moments n) (hM : M.cov.PosDef) (alpha beta kappa : Option ℝ)
    (hc : 0 < alpha.getD 1 ^ 2 * (n + kappa.getD (3 - n))) :
    ∃ s : SigmaPoints (n + n + 1) n, moments2points M alpha beta kappa = .ok s ∧
      ∑ i, s.wm i = 1 ∧ ∑ i, s.wm i • s.points i = M.mean ∧
      ∑ i, s.wc i • vecMulVec (s.points i - M.mean) (s.points i - M.mean) = M.cov ∧
      ∑ i, s.wm i • vecMulVec (s.points i - M.mean) (s.points i - M.mean) = M.cov ∧
      points2moments s none = M := by
  have e1 : (1.0 : ℝ) = 1 := by norm_num
  have e3 : (3.0 : ℝ) = 3 := by norm_num
  obtain ⟨L, -, h1, h2⟩ := moments2points_of_posDef M hM alpha beta kappa (by rwa [e1, e3])
  have hcov : ∀ w : Fin (n + n + 1) → ℝ, ∀ p : Fin (n + n + 1) → Vec n,
      ∑ i, w i • vecMulVec (p i - M.mean) (p i - M.mean)
        = diffs p M.mean * diagonal w * (diffs p M.mean)ᵀ := by
    intro w p
    ext i j
    rw [Matrix.sum_apply, Matrix.mul_apply]
    refine Finset.sum_congr rfl fun x _ => ?_
    rw [mul_diagonal]
    simp only [Matrix.smul_apply, vecMulVec_apply, diffs, of_apply, transpose_apply, smul_eq_mul,
      Pi.sub_apply]
    ring
  refine ⟨_, h1, h2.sum, ?_, ?_, ?_, ?_⟩
  · refine Eq.trans ?_ h2.mean
    funext i
    simp [mulVec, dotProduct, mul_comm]
  · rw [hcov, h2.covc]
  · rw [hcov, h2.covm]
  · rw [h2.points2moments]

/-- **C34.** The unscented transform of an affine function is exact: the transformed points have
mean `M mu + v` and covariance `M S Mᵀ` plus the noise. -/
theorem C34_affine (Mo : Moments n) (hM : Mo.cov.PosDef) (alpha beta kappa : Option ℝ)
    (hc : 0 < alpha.getD 1 ^ 2 * (n + kappa.getD (3 - n)))
    {F : Vec n → Vec k} (A : Mat k n) (v : Vec k) (hF : ∀ x, F x = A *ᵥ x + v) (Q : Mat k k) :
    ∃ s, moments2points Mo alpha beta kappa = .ok s ∧
      points2moments (s.map F) none = ⟨A *ᵥ Mo.mean + v, A * Mo.cov * Aᵀ⟩ ∧
      points2moments (s.map F) (some Q) = ⟨A *ᵥ Mo.mean + v, A * Mo.cov * Aᵀ + Q⟩ := by
  have e1 : (1.0 : ℝ) = 1 := by norm_num
  have e3 : (3.0 : ℝ) = 3 := by norm_num
  obtain ⟨L, -, h1, h2⟩ := moments2points_of_posDef Mo hM alpha beta kappa (by rwa [e1, e3])
  exact ⟨_, h1, (h2.map A v hF).points2moments, (h2.map A v hF).points2moments_some Q⟩

/-- **C34.** A symmetric covariance that is not positive definite is refused with `LinAlgError`. -/
theorem C34_not_posDef {M : Moments n} (hs : M.covᵀ = M.cov) (hM : ¬ M.cov.PosDef)
    (alpha beta kappa : Option ℝ) :
    moments2points M alpha beta kappa = .error .linAlgError :=
  moments2points_error hs hM alpha beta kappa

/-! ### C35, C36: additive noise, affine functions -/

private theorem steps_posDef {p : Params n m} {os : List (Obs m)} {steps : List (Step n m)}
    (h : filterFull p os = .ok steps) (hp : ∀ s ∈ steps, s.predCov.PosDef)
    (hf : ∀ t (ht : t + 1 < steps.length), (steps[t]).filtCov.PosDef) :
    p.fn.RunPosDef (obsFn os) os.length := by
  have hl := filterFull_ok h
  subst hl
  refine ⟨fun t ht => hp _ ?_, fun t ht => ?_⟩
  · simp only [List.mem_map, List.mem_range]
    exact ⟨t, ht, rfl⟩
  · have := hf t (by simpa using ht)
    simpa using this

/-- **C35.** For affine functions the additive unscented filter returns the filtered moments of the
linear model, provided the covariances it factorises (predicted ones, and all filtered ones but the
last) are positive definite. -/
theorem C35_filter_eq {u : UParams n m} {p : Params n m} (h : u.AffineAs p) {os : List (Obs m)}
    {steps : List (Step n m)} (hs : filterFull p os = .ok steps)
    (hp : ∀ s ∈ steps, s.predCov.PosDef)
    (hf : ∀ t (ht : t + 1 < steps.length), (steps[t]).filtCov.PosDef) :
    aukfFilter u os = .ok (steps.map fun s => ⟨s.filtMean, s.filtCov⟩) := by
  rcases filterFull_ok_iff.mp ⟨_, hs⟩ with rfl | hc
  · cases hs; rfl
  · rw [aukfFilter_affine h hc (steps_posDef hs hp hf), filterFull_ok hs, List.map_map]
    rfl

/-- **C35.** With positive definite covariances the additive unscented filter of affine functions
returns what `KalmanFilter.filter` returns. -/
theorem C35_filter_eq_kalman {u : UParams n m} {p : Params n m} (h : u.AffineAs p) (hp : p.PosDef)
    {os : List (Obs m)} {out : List (Vec n × Mat n n)} (ho : kfFilter p os = .ok out) :
    aukfFilter u os = .ok (out.map toMoments) := by
  rw [kfFilter_ok ho, List.map_map]
  cases hf : filterFull p os with
  | error e => rw [kfFilter, hf] at ho; cases ho
  | ok steps =>
    rcases filterFull_ok_iff.mp ⟨_, hf⟩ with rfl | hc
    · rfl
    · rw [aukfFilter_affine h hc (hp.runPosDef _ _)]
      rfl

/-- **C35.** A symmetric initial covariance that is not positive definite makes the unscented filter
raise `LinAlgError`, whatever the functions. -/
theorem C35_not_posDef (u : UParams n m) (hs : u.S0ᵀ = u.S0) (hS : ¬ u.S0.PosDef) (o : Obs m)
    (os : List (Obs m)) : aukfFilter u (o :: os) = .error .linAlgError := by
  rw [aukfFilter, runLoop, aukfStep]
  simp only [Option.getD_none, bind, Except.bind,
    moments2points_error (M := (⟨u.mu0, u.S0⟩ : Moments n)) hs hS]

/-- **C36.** With positive definite covariances the additive unscented smoother of affine functions
returns what `KalmanFilter.smooth` returns. -/
theorem C36_smooth_eq_kalman {u : UParams n m} {p : Params n m} (h : u.AffineAs p) (hp : p.PosDef)
    {os : List (Obs m)} {out : List (Vec n × Mat n n)} (ho : kfSmooth p os = .ok out) :
    aukfSmooth u os = .ok (out.map toMoments) := by
  obtain ⟨hne, hc, rfl⟩ := kfSmooth_ok ho
  rw [aukfSmooth_affine h hne hc (hp.runPosDef _ _), List.map_map]
  rfl

/-- **C36.** Likewise if only the covariances that are factorised are positive definite. -/
theorem C36_smooth_eq {u : UParams n m} {p : Params n m} (h : u.AffineAs p) {os : List (Obs m)}
    {steps : List (Step n m)} (hs : filterFull p os = .ok steps)
    (hp : ∀ s ∈ steps, s.predCov.PosDef)
    (hf : ∀ t (ht : t + 1 < steps.length), (steps[t]).filtCov.PosDef)
    {out : List (Vec n × Mat n n)} (ho : kfSmooth p os = .ok out) :
    aukfSmooth u os = .ok (out.map toMoments) := by
  obtain ⟨hne, hc, rfl⟩ := kfSmooth_ok ho
  rw [aukfSmooth_affine h hne hc (steps_posDef hs hp hf), List.map_map]
  rfl

/-! ### C37: general noise, affine functions -/

/-- **C37.** For functions that are affine in state and noise, `UnscentedKalmanFilter.filter` and
`smooth` return the moments of the linear model with noise covariances `G Q Gᵀ` and `H R Hᵀ`, provided
the covariances that are factorised (`Q`, `R`, the initial covariance and all filtered ones but the
last) are positive definite. -/
theorem C37_filter_eq {u : GParams n m} {p : Params n m} (h : u.AffineAs p) (hQ : u.Q.PosDef)
    (hR : u.R.PosDef) (hS : u.S0.PosDef) {os : List (Obs m)}
    {steps : List (Step n m)} (hs : filterFull p os = .ok steps)
    (hf : ∀ t (ht : t + 1 < steps.length), (steps[t]).filtCov.PosDef) :
    ukfFilter u os = .ok (steps.map fun s => ⟨s.filtMean, s.filtCov⟩) ∧
    ∀ out, kfSmooth p os = .ok out → ukfSmooth u os = .ok (out.map toMoments) := by
  rcases filterFull_ok_iff.mp ⟨_, hs⟩ with rfl | hc
  · cases hs
    refine ⟨rfl, fun out ho => ?_⟩
    exact absurd rfl (kfSmooth_ok ho).1
  · have hl := filterFull_ok hs
    subst hl
    have hp : u.RunPosDef p.fn (obsFn os) os.length :=
      ⟨hQ, hR, hS, fun t ht => by simpa using hf t (by simpa using ht)⟩
    constructor
    · rw [ukfFilter_affine h hc hp, List.map_map]
      rfl
    · intro out ho
      obtain ⟨hne, hc, rfl⟩ := kfSmooth_ok ho
      rw [ukfSmooth_affine h hne hc hp, List.map_map]
      rfl

/-- **C37.** If also the resulting noise covariances are positive definite,
`UnscentedKalmanFilter.filter` and `smooth` return what `KalmanFilter.filter` and `smooth` return. -/
theorem C37_eq_kalman {u : GParams n m} {p : Params n m} (h : u.AffineAs p) (hQ : u.Q.PosDef)
    (hR : u.R.PosDef) (hS : u.S0.PosDef) {os : List (Obs m)}
    (hQ' : ∀ t Q, t + 1 < os.length → lastDims p.Q t = .ok Q → Q.PosDef)
    (hR' : ∀ t R, t < os.length → lastDims p.R t = .ok R → R.PosDef) :
    (∀ out, kfFilter p os = .ok out → ukfFilter u os = .ok (out.map toMoments)) ∧
    ∀ out, kfSmooth p os = .ok out → ukfSmooth u os = .ok (out.map toMoments) := by
  have key : ∀ steps, filterFull p os = .ok steps →
      ∀ t (ht : t + 1 < steps.length), (steps[t]).filtCov.PosDef := by
    intro steps hs t ht
    rcases filterFull_ok_iff.mp ⟨_, hs⟩ with rfl | hc
    · cases hs; simp at ht
    · have hl := filterFull_ok hs
      subst hl
      have hr := PFun.runPosDef p.fn (obsFn os) os.length
        (by rw [show p.fn.S0 = u.S0 from h.S0]; exact hS)
        (fun t ht => hQ' t _ ht (lastDims_eq_ok (hc.Q.mono (by omega))))
        (fun t ht => hR' t _ ht (lastDims_eq_ok (hc.R.mono ht)))
      simpa using hr.filt t (by simpa using ht)
  constructor
  · intro out ho
    cases hs : filterFull p os with
    | error e => rw [kfFilter, hs] at ho; cases ho
    | ok steps =>
      rw [(C37_filter_eq h hQ hR hS hs (key _ hs)).1, kfFilter_ok ho, filterFull_ok hs, List.map_map,
        List.map_map]
      rfl
  · intro out ho
    cases hs : filterFull p os with
    | error e => rw [kfSmooth, hs] at ho; cases ho
    | ok steps => exact (C37_filter_eq h hQ hR hS hs (key _ hs)).2 out ho

/-! ### C38: arbitrary functions -/

private theorem unscentedCorrect_sim {o o' : Obs m} (h : o.Sim o') (c : Mat n m) (p : Moments n)
    (q : Moments m) : unscentedCorrect c p q o = unscentedCorrect c p q o' := by
  rw [unscentedCorrect, unscentedCorrect]
  by_cases ho : o.missing
  · have ho' : o'.missing := h.1.mp ho
    simp only [ho, ho', not_true_eq_false, if_false]
  · have ho' : ¬ o'.missing := fun h' => ho (h.1.mpr h')
    simp only [ho, ho', not_false_eq_true, if_true, h.2 ho]

private theorem aukfStep_sim (u : UParams n m) (t : ℕ) (prev : Option (Moments n)) (o o' : Obs m)
    (h : o.Sim o') : aukfStep u t prev o = aukfStep u t prev o' := by
  cases prev <;> simp only [aukfStep, ufCorrect, unscentedCorrect_sim h]

private theorem ukfStep_sim (u : GParams n m) (t : ℕ) (prev : Option (Moments n)) (o o' : Obs m)
    (h : o.Sim o') : ukfStep u t prev o = ukfStep u t prev o' := by
  cases prev <;> simp only [ukfStep, ufCorrect₂, unscentedCorrect_sim h]

/-- **C38.** Values under the mask (and the values of partly masked rows) have no influence on
either unscented filter or smoother, for arbitrary functions. -/
theorem C38_masked_values {os os' : List (Obs m)} (h : SameData os os') :
    (∀ u : UParams n m, aukfFilter u os = aukfFilter u os' ∧ aukfSmooth u os = aukfSmooth u os') ∧
    ∀ u : GParams n m, ukfFilter u os = ukfFilter u os' ∧ ukfSmooth u os = ukfSmooth u os' := by
  have h1 : ∀ u : UParams n m, aukfFilter u os = aukfFilter u os' := fun u =>
    runLoop_congr (aukfStep_sim u) h 0 none
  have h2 : ∀ u : GParams n m, ukfFilter u os = ukfFilter u os' := fun u =>
    runLoop_congr (ukfStep_sim u) h 0 none
  exact ⟨fun u => ⟨h1 u, by rw [aukfSmooth, aukfSmooth, h1]⟩,
    fun u => ⟨h2 u, by rw [ukfSmooth, ukfSmooth, h2]⟩⟩

/-- **C38.** Both unscented filters are causal for arbitrary functions: appending observations does
not change earlier rows. -/
theorem C38_causal (os os' : List (Obs m)) :
    (∀ (u : UParams n m) l, aukfFilter u (os ++ os') = .ok l →
      aukfFilter u os = .ok (l.take os.length)) ∧
    ∀ (u : GParams n m) l, ukfFilter u (os ++ os') = .ok l →
      ukfFilter u os = .ok (l.take os.length) :=
  ⟨fun _ _ h => runLoop_take h, fun _ _ h => runLoop_take h⟩

private theorem defaultFunction_supplied {α : Type} {arg : Option α} {fns : Fns α} {t : ℕ}
    (h : FnSupplied arg fns t) : ∃ f, defaultFunction arg fns = .ok f ∧ fns.at t = .ok f := by
  rcases h with ⟨f, rfl, h⟩ | ⟨rfl, f, rfl⟩
  · refine ⟨f, ?_, h⟩
    cases fns <;> rfl
  · exact ⟨f, rfl, rfl⟩

/-- **C38.** One more row of the additive unscented filter is one `filter_update` of its last row,
for arbitrary functions (given to `filter_update`, or omitted if the filter has one function). -/
theorem C38_additive_online {u : UParams n m} {os : List (Obs m)} {l : List (Moments n)}
    {M : Moments n} (h : aukfFilter u os = .ok (l ++ [M])) (o : Obs m) {a : UUpdateArgs n m}
    (hf : FnSupplied a.f u.f (os.length - 1)) (hg : FnSupplied a.g u.g os.length)
    (hQ : a.Q = none ∨ a.Q = some u.Q) (hR : a.R = none ∨ a.R = some u.R) :
    aukfFilter u (os ++ [o]) = (aukfUpdate u M (some o) a).map fun M' => l ++ [M] ++ [M'] := by
  obtain ⟨f, hf1, hf2⟩ := defaultFunction_supplied hf
  obtain ⟨g, hg1, hg2⟩ := defaultFunction_supplied hg
  have hQ' : a.Q.getD u.Q = u.Q := by rcases hQ with h | h <;> rw [h] <;> rfl
  have hR' : a.R.getD u.R = u.R := by rcases hR with h | h <;> rw [h] <;> rfl
  rw [aukfFilter] at h
  rw [aukfFilter, runLoop_snoc h]
  congr 1
  simp only [aukfStep, aukfUpdate, hf1, hg1, hf2, hg2, hQ', hR', bind, Except.bind,
    Option.getD_some]

/-- **C38.** Likewise for `UnscentedKalmanFilter`. -/
theorem C38_online {u : GParams n m} {os : List (Obs m)} {l : List (Moments n)}
    {M : Moments n} (h : ukfFilter u os = .ok (l ++ [M])) (o : Obs m) {a : GUpdateArgs n m}
    (hf : FnSupplied a.f u.f (os.length - 1)) (hg : FnSupplied a.g u.g os.length)
    (hQ : a.Q = none ∨ a.Q = some u.Q) (hR : a.R = none ∨ a.R = some u.R) :
    ukfFilter u (os ++ [o]) = (ukfUpdate u M (some o) a).map fun M' => l ++ [M] ++ [M'] := by
  obtain ⟨f, hf1, hf2⟩ := defaultFunction_supplied hf
  obtain ⟨g, hg1, hg2⟩ := defaultFunction_supplied hg
  have hQ' : a.Q.getD u.Q = u.Q := by rcases hQ with h | h <;> rw [h] <;> rfl
  have hR' : a.R.getD u.R = u.R := by rcases hR with h | h <;> rw [h] <;> rfl
  rw [ukfFilter] at h
  rw [ukfFilter, runLoop_snoc h]
  congr 1
  simp only [ukfStep, ukfUpdate, hf1, hg1, hf2, hg2, hQ', hR', bind, Except.bind,
    Option.getD_some]

/-- **C38.** Omitting the observation in `filter_update` is the same as passing a masked row. -/
theorem C38_no_observation {o : Obs m} (ho : o.missing) :
    (∀ (u : UParams n m) M a, aukfUpdate u M none a = aukfUpdate u M (some o) a) ∧
    ∀ (u : GParams n m) M a, ukfUpdate u M none a = ukfUpdate u M (some o) a := by
  have hs : (⟨0, fun _ => true⟩ : Obs m).Sim o := by
    have : (⟨0, fun _ => true⟩ : Obs m).missing := by
      obtain ⟨i, hi⟩ := ho
      exact ⟨i, rfl⟩
    exact ⟨⟨fun _ => ho, fun _ => this⟩, fun h => absurd this h⟩
  constructor
  · intro u M a
    simp only [aukfUpdate, ufCorrect, unscentedCorrect_sim hs]
  · intro u M a
    simp only [ukfUpdate, ufCorrect₂, unscentedCorrect_sim hs]

/-- **C38.** The last smoothed row is the last filtered row, and there are as many rows as
observations. -/
theorem C38_last_smoothed (os : List (Obs m)) :
    (∀ (u : UParams n m) l', aukfSmooth u os = .ok l' → ∃ l, aukfFilter u os = .ok l ∧
      l'.getLast? = l.getLast? ∧ l.length = os.length ∧ l'.length = os.length) ∧
    ∀ (u : GParams n m) l', ukfSmooth u os = .ok l' → ∃ l, ukfFilter u os = .ok l ∧
      l'.getLast? = l.getLast? ∧ l.length = os.length ∧ l'.length = os.length := by
  constructor
  · intro u l' h
    rw [aukfSmooth] at h
    cases hf : aukfFilter u os with
    | error e => rw [hf] at h; cases h
    | ok l =>
      rw [hf] at h
      obtain ⟨h1, h2, -⟩ := backFull_last h
      exact ⟨l, rfl, h1, runLoop_length hf, by rw [h2, runLoop_length hf]⟩
  · intro u l' h
    rw [ukfSmooth] at h
    cases hf : ukfFilter u os with
    | error e => rw [hf] at h; cases h
    | ok l =>
      rw [hf] at h
      obtain ⟨h1, h2, -⟩ := backFull_last h
      exact ⟨l, rfl, h1, runLoop_length hf, by rw [h2, runLoop_length hf]⟩

/-! ### C52: no loss of positive definiteness up to three state dimensions -/

/-- **C52.** With at most three state dimensions and positive definite `Q`, `R` and initial
covariance, the additive unscented filter and smoother succeed for arbitrary (nonlinear) functions
and all data, and all their covariances are positive definite. -/
theorem C52_posDef (hn : n ≤ 3) {u : UParams n m} (hQ : u.Q.PosDef) (hR : u.R.PosDef)
    (hS : u.S0.PosDef) (os : List (Obs m))
    (hf : ∀ t, t + 1 < os.length → ∃ f, u.f.at t = .ok f)
    (hg : ∀ t, t < os.length → ∃ g, u.g.at t = .ok g) :
    (∃ l, aukfFilter u os = .ok l ∧ ∀ M ∈ l, M.cov.PosDef) ∧
    (os ≠ [] → ∃ l, aukfSmooth u os = .ok l ∧ ∀ M ∈ l, M.cov.PosDef) := by
  obtain ⟨l, h1, h2⟩ := aukfLoop_posDef hn hQ hR hS os (t := 0) (prev := none) (by simp)
    (fun i hi => by simpa using hg i hi)
    (fun i hi h => by
      rcases h with h | h
      · simp at h
      · exact hf (0 + i - 1) (by omega))
  refine ⟨⟨l, h1, h2⟩, fun hne => ?_⟩
  have hlen := runLoop_length h1
  cases l with
  | nil => exact absurd (List.length_eq_zero_iff.mp hlen.symm) hne
  | cons M l =>
    obtain ⟨r, h3, h4, h5⟩ := backLoop_posDef hn hQ l M 0 (h2 M (by simp))
      (fun M' h => h2 M' (by simp [h])) (fun i hi => by
        simpa using hf i (by rw [← hlen]; simpa using hi))
    refine ⟨r.1 :: r.2, ?_, by simpa using ⟨h4, h5⟩⟩
    rw [aukfSmooth, aukfFilter, h1]
    simp only [bind, Except.bind, backFull, h3, pure, Except.pure]

/-- A transition function that is far from affine: the squared norm in the first component. -/
def sqNorm (x : Vec n) : Vec n := fun i => if i.val = 0 then ∑ j, x j ^ 2 else 0

private theorem one_isCholesky : IsCholesky (1 : Mat n n) 1 :=
  ⟨fun i j h => by rw [Matrix.one_apply_ne (ne_of_lt h)], fun i => by simp, by simp⟩

private theorem moments2points_one (mu : Vec n) :
    moments2points (⟨mu, 1⟩ : Moments n) = .ok (sigmaPoints mu 1 none none none) := by
  rw [moments2points, cholUpperT]
  simp only [transpose_one, cholesky_eq_ok one_isCholesky]
  rfl

private theorem sqNorm_points (h0 : 0 < n) (j : Fin (n + n + 1)) :
    ((sigmaPoints (0 : Vec n) 1 none none none).map sqNorm).points j ⟨0, h0⟩
      = if j = 0 then 0 else 3 := by
  have hc : (n : ℝ) + ((none : Option ℝ).getD 1.0 * (none : Option ℝ).getD 1.0
      * (n + (none : Option ℝ).getD (3.0 - n)) - n) = 3 := by
    simp only [Option.getD_none]; norm_num
  have hs : Real.sqrt 3 ^ 2 = 3 := Real.sq_sqrt (by norm_num)
  have key : ∀ (i : Fin n) (e : ℝ), e ^ 2 = 3 →
      ∑ x, ((0 : Vec n) x + (1 : Mat n n) x i * e) ^ 2 = 3 := by
    intro i e he
    have : ∀ x, ((0 : Vec n) x + (1 : Mat n n) x i * e) ^ 2 = if x = i then 3 else 0 := by
      intro x
      by_cases hx : x = i
      · subst hx; simp [he]
      · simp [hx, Matrix.one_apply]
    rw [Finset.sum_congr rfl fun x _ => this x]
    simp
  simp only [SigmaPoints.map, sqNorm, sigmaPoints, if_true]
  rw [hc]
  refine Fin.cases ?_ (fun j => ?_) j
  · simp [sigmaRows]
  · rw [if_neg (Fin.succ_ne_zero j), sigmaRows]
    simp only [Fin.cons_succ]
    refine Fin.addCases (fun i => ?_) (fun i => ?_) j
    · simp only [Fin.append_left]
      exact key i _ hs
    · simp only [Fin.append_right]
      have := key i (-Real.sqrt 3) (by rw [neg_sq, hs])
      simpa [sub_eq_add_neg] using this

private theorem sqNorm_cov (h0 : 0 < n) :
    (points2moments ((sigmaPoints (0 : Vec n) 1 none none none).map sqNorm) (some 1)).cov
      ⟨0, h0⟩ ⟨0, h0⟩ = 1 + n * (3 - n) := by
  have hc : (n : ℝ) + ((none : Option ℝ).getD 1.0 * (none : Option ℝ).getD 1.0
      * (n + (none : Option ℝ).getD (3.0 - n)) - n) = 3 := by
    simp only [Option.getD_none]; norm_num
  have hl : ((none : Option ℝ).getD 1.0 * (none : Option ℝ).getD 1.0
      * ((n : ℝ) + (none : Option ℝ).getD (3.0 - n)) - n) = 3 - n := by
    simp only [Option.getD_none]; norm_num
  set s := (sigmaPoints (0 : Vec n) 1 none none none).map sqNorm with hs
  have w0 : s.wm 0 = (3 - n) / 3 := by
    simp only [hs, SigmaPoints.map, sigmaPoints, Fin.cons_zero]; rw [hc, hl]
  have c0 : s.wc 0 = (3 - n) / 3 := by
    simp only [hs, SigmaPoints.map, sigmaPoints, Fin.cons_zero]; rw [hc, hl]
    simp only [Option.getD_none]; norm_num
  have w1 : ∀ j : Fin (n + n), s.wm j.succ = 0.5 / 3 := fun j => by
    simp only [hs, SigmaPoints.map, sigmaPoints, Fin.cons_succ]; rw [hc]
  have c1 : ∀ j : Fin (n + n), s.wc j.succ = 0.5 / 3 := fun j => by
    simp only [hs, SigmaPoints.map, sigmaPoints, Fin.cons_succ]; rw [hc]
  have hm : ((Matrix.of s.points)ᵀ *ᵥ s.wm) ⟨0, h0⟩ = n := by
    simp only [mulVec, dotProduct, transpose_apply, of_apply]
    rw [Fin.sum_univ_succ]
    simp only [hs, sqNorm_points h0]
    rw [← hs]
    simp only [if_true, Fin.succ_ne_zero, if_false, w1, Finset.sum_const, Finset.card_univ,
      Fintype.card_fin, nsmul_eq_mul]
    push_cast
    ring
  simp only [points2moments, Matrix.add_apply, Matrix.one_apply_eq]
  rw [Matrix.mul_apply]
  simp only [mul_diagonal, transpose_apply, of_apply, hm]
  rw [Fin.sum_univ_succ, c0]
  simp only [hs, sqNorm_points h0]
  rw [← hs]
  simp only [if_true, Fin.succ_ne_zero, if_false, c1, Finset.sum_const, Finset.card_univ,
      Fintype.card_fin, nsmul_eq_mul]
  push_cast
  ring

/-- **C52 (limit of the claim).** From four state dimensions on the claim fails: the weight of the
central point is negative, and with identity covariances and the transition function `sqNorm` the
second step of the filter raises `LinAlgError`, whatever the observation function. -/
theorem C52_fails_from_four_dimensions (hn : 4 ≤ n) (g : Vec n → Vec m) (o o' : Obs m)
    (ho : o.missing) :
    aukfFilter (⟨.flat [sqNorm], .flat [g], 1, 1, 0, 1⟩ : UParams n m) [o, o']
      = .error .linAlgError := by
  have h0 : 0 < n := by omega
  have hn' : (4 : ℝ) ≤ n := by exact_mod_cast hn
  have hsg : IsSigma (sigmaPoints (0 : Vec n) 1 none none none) 0 1 := by
    simpa using isSigma_sigmaPoints (0 : Vec n) 1 none none none default_spread
  have step0 : aukfStep (⟨.flat [sqNorm], .flat [g], 1, 1, 0, 1⟩ : UParams n m) 0 none o
      = .ok ⟨0, 1⟩ := by
    simp only [aukfStep, Option.getD_none, moments2points_one, bind, Except.bind, Fns.at, first,
      pure, Except.pure, ufCorrect, unscentedCorrect, ho, not_true_eq_false, if_false,
      hsg.points2moments]
  have herr : moments2points (points2moments
      ((sigmaPoints (0 : Vec n) 1 none none none).map sqNorm) (some 1)) = .error .linAlgError := by
    apply moments2points_error
    · simp only [points2moments, transpose_add, transpose_one, transpose_mul, transpose_transpose,
        diagonal_transpose, Matrix.mul_assoc]
    · intro hpd
      have := hpd.diag_pos (i := ⟨0, h0⟩)
      rw [sqNorm_cov h0] at this
      nlinarith
  rw [aukfFilter, runLoop, step0]
  simp only [bind, Except.bind, runLoop, aukfStep, Option.getD_some, moments2points_one, Fns.at,
    first, herr]

/-! ### C39: functions per time step -/

/-- **C39 (finding).** If `transition_functions` is a list, every step of the filter uses its first
entry: later entries have no influence on filter or smoother; same for `observation_functions`. -/
theorem C39_flat_list_uses_first (u : UParams n m) (f : Vec n → Vec n) (fs : List (Vec n → Vec n))
    (g : Vec n → Vec m) (gs : List (Vec n → Vec m)) (os : List (Obs m)) :
    aukfFilter { u with f := .flat (f :: fs), g := .flat (g :: gs) } os
      = aukfFilter { u with f := .flat [f], g := .flat [g] } os ∧
    aukfSmooth { u with f := .flat (f :: fs), g := .flat (g :: gs) } os
      = aukfSmooth { u with f := .flat [f], g := .flat [g] } os := by
  have h : aukfStep { u with f := .flat (f :: fs), g := .flat (g :: gs) }
      = aukfStep { u with f := .flat [f], g := .flat [g] } := by
    funext t prev o
    cases prev <;> rfl
  have h' : aukfSmoothStep { u with f := .flat (f :: fs), g := .flat (g :: gs) }
      = aukfSmoothStep { u with f := .flat [f], g := .flat [g] } := rfl
  rw [aukfSmooth, aukfSmooth, aukfFilter, aukfFilter, h, h']
  exact ⟨rfl, rfl⟩

/-- **C39 (finding).** Likewise for `UnscentedKalmanFilter`. -/
theorem C39_general_flat_list_uses_first (u : GParams n m) (f : Vec n → Vec n → Vec n)
    (fs : List (Vec n → Vec n → Vec n)) (g : Vec n → Vec m → Vec m)
    (gs : List (Vec n → Vec m → Vec m)) (os : List (Obs m)) :
    ukfFilter { u with f := .flat (f :: fs), g := .flat (g :: gs) } os
      = ukfFilter { u with f := .flat [f], g := .flat [g] } os ∧
    ukfSmooth { u with f := .flat (f :: fs), g := .flat (g :: gs) } os
      = ukfSmooth { u with f := .flat [f], g := .flat [g] } os := by
  have h : ukfStep { u with f := .flat (f :: fs), g := .flat (g :: gs) }
      = ukfStep { u with f := .flat [f], g := .flat [g] } := by
    funext t prev o
    cases prev <;> rfl
  have h' : ukfSmoothStep { u with f := .flat (f :: fs), g := .flat (g :: gs) }
      = ukfSmoothStep { u with f := .flat [f], g := .flat [g] } := rfl
  rw [ukfSmooth, ukfSmooth, ukfFilter, ukfFilter, h, h']
  exact ⟨rfl, rfl⟩

/-- A two-step model that the documentation promises to support: `x₁ = x₀`, `x₂ = 2 x₁`. -/
noncomputable def exTwoFns : UParams 1 1 where
  f := .flat [fun x => x, fun x => (2 : ℝ) • x]
  g := .flat [fun x => x]
  Q := 1
  R := 1
  mu0 := 1
  S0 := 1

/-- The linear model it should agree with. -/
noncomputable def exTwoLin : Params 1 1 where
  A := .seq [1, (2 : ℝ) • 1]
  b := .const 0
  Q := .const 1
  C := .const 1
  d := .const 0
  R := .const 1
  mu0 := 1
  S0 := 1

/-- **C39 (finding).** The documented claim is false: with functions `[f₀, f₁]` that are the affine
functions of a linear model step by step, three masked observations and identity covariances, the
additive unscented filter does not return what `KalmanFilter.filter` returns (last mean 1 instead
of 2). -/
theorem C39_fails_for_lists : ∃ out l, kfFilter exTwoLin (List.replicate 3 ⟨0, fun _ => true⟩) = .ok out ∧
    aukfFilter exTwoFns (List.replicate 3 ⟨0, fun _ => true⟩) = .ok l ∧
    (out.map fun r => r.1 0) = [1, 1, 2] ∧ (l.map fun M => M.mean 0) = [1, 1, 1] := by
  have hm : (⟨0, fun _ => true⟩ : Obs 1).missing := ⟨0, rfl⟩
  have hpd : (1 : Mat 1 1).PosDef := PosDef.one
  have hob : ∀ t, t < 3 → obsFn (List.replicate 3 (⟨0, fun _ => true⟩ : Obs 1)) t
      = ⟨0, fun _ => true⟩ := by
    intro t ht
    rw [obsFn_eq (by simpa using ht)]
    exact List.getElem_replicate _
  have hc : exTwoLin.Covers (List.replicate 3 (⟨0, fun _ => true⟩ : Obs 1)).length :=
    ⟨le_refl 2, trivial, trivial, trivial, trivial, trivial⟩
  refine ⟨_, (List.range 3).map fun t =>
      ⟨((Params.fn { exTwoLin with A := .const 1 }).kf
          (obsFn (List.replicate 3 ⟨0, fun _ => true⟩)) t).filtMean,
        ((Params.fn { exTwoLin with A := .const 1 }).kf
          (obsFn (List.replicate 3 ⟨0, fun _ => true⟩)) t).filtCov⟩, kfFilter_eq hc, ?_, ?_, ?_⟩
  · have h : exTwoFns.AffineAs { exTwoLin with A := .const 1 } := by
      refine ⟨?_, ?_, rfl, rfl, rfl, rfl⟩
      · intro t A b hA hb
        cases hA; cases hb
        exact ⟨_, rfl, fun x => by simp⟩
      · intro t C d hC hd
        cases hC; cases hd
        exact ⟨_, rfl, fun x => by simp⟩
    have := aukfFilter_affine h (os := List.replicate 3 ⟨0, fun _ => true⟩)
      ⟨trivial, trivial, trivial, trivial, trivial, trivial⟩
      (Params.PosDef.runPosDef ⟨⟨1, rfl, hpd⟩, ⟨1, rfl, hpd⟩, hpd⟩ _ _)
    exact this
  · rw [show (List.replicate 3 (⟨0, fun _ => true⟩ : Obs 1)).length = 3 from rfl]
    generalize obsFn (List.replicate 3 (⟨0, fun _ => true⟩ : Obs 1)) = z at hob ⊢
    simp [List.range_succ, PFun.kf, PFun.next, PFun.correct, filterPredict, filterCorrect, hob, hm,
      Params.fn, exTwoLin, TV.get]
    rw [smul_mulVec, one_mulVec]
    simp
  · generalize obsFn (List.replicate 3 (⟨0, fun _ => true⟩ : Obs 1)) = z at hob ⊢
    simp [List.range_succ, PFun.kf, PFun.next, PFun.correct, filterPredict, filterCorrect, hob, hm,
      Params.fn, exTwoLin, TV.get]

/-- **C39.** What holds instead: with an array of functions that has a second axis of length one,
`[[f₀], [f₁], …]`, step `t` uses entry `t` (here: one more row of the filter is `filter_update` with
`f_{T-1}` and `g_T`).  Missing: the documented list of functions, for which the claim is false. -/
theorem C39_nested_partial {u : UParams n m} {fs : List (Vec n → Vec n)} {gs : List (Vec n → Vec m)}
    (hf : u.f = .nested (fs.map fun f => [f])) (hg : u.g = .nested (gs.map fun g => [g]))
    {os : List (Obs m)} {l : List (Moments n)} {M : Moments n}
    (h : aukfFilter u os = .ok (l ++ [M])) (o : Obs m)
    (h1 : os.length - 1 < fs.length) (h2 : os.length < gs.length) :
    aukfFilter u (os ++ [o])
      = (aukfUpdate u M (some o) { f := some fs[os.length - 1], g := some gs[os.length] }).map
        fun M' => l ++ [M] ++ [M'] := by
  refine C38_additive_online h o (Or.inl ⟨_, rfl, ?_⟩) (Or.inl ⟨_, rfl, ?_⟩) (Or.inl rfl) (Or.inl rfl)
  · simp [hf, Fns.at, h1, first]
  · simp [hg, Fns.at, h2, first]

/-! ### The hypotheses can be met -/

/-- Nested per-time functions of the linear model `exPosDef`, with time-varying matrices. -/
noncomputable def exUPosDef : UParams 2 1 where
  f := .nested [[fun x => !![1, 1; 0, 1] *ᵥ x + ![0, 1]], [fun x => !![1, 2; 0, 1] *ᵥ x + ![0, 1]]]
  g := .flat [fun x => !![1, 0] *ᵥ x + ![3]]
  Q := !![2, 0; 0, 1]
  R := !![2]
  mu0 := ![0, 5]
  S0 := 1

theorem exUPosDef_affine : exUPosDef.AffineAs exPosDef := by
  refine ⟨?_, ?_, rfl, rfl, rfl, rfl⟩
  · intro t A b hA hb
    cases hb
    match t with
    | 0 => cases hA; exact ⟨_, rfl, fun _ => rfl⟩
    | 1 => cases hA; exact ⟨_, rfl, fun _ => rfl⟩
    | t + 2 => cases hA
  · intro t C d hC hd
    cases hC; cases hd
    exact ⟨_, rfl, fun _ => rfl⟩

/-- Noise enters through a matrix `G`. -/
noncomputable def exGPosDef : GParams 2 1 where
  f := .flat [fun x w => !![1, 1; 0, 1] *ᵥ x + !![1, 0; 1, 1] *ᵥ w + ![0, 1]]
  g := .flat [fun x v => !![1, 0] *ᵥ x + !![3] *ᵥ v + ![3]]
  Q := 1
  R := 1
  mu0 := ![0, 5]
  S0 := 1

example : exUPosDef.AffineAs exPosDef ∧ exPosDef.PosDef ∧
    (∃ out, kfSmooth exPosDef (List.replicate 3 ⟨![2], fun _ => false⟩) = .ok out) ∧
    (∃ p : Params 2 1, exGPosDef.AffineAs p ∧ p.Covers 7 ∧ exGPosDef.Q.PosDef ∧ exGPosDef.R.PosDef ∧
      exGPosDef.S0.PosDef) := by
  refine ⟨exUPosDef_affine, exPosDef_posDef, ⟨_, kfSmooth_eq (by simp)
    ⟨le_refl 2, trivial, trivial, trivial, trivial, trivial⟩⟩,
    ⟨⟨.const !![1, 1; 0, 1], .const ![0, 1], .const (!![1, 0; 1, 1] * 1 * !![1, 0; 1, 1]ᵀ),
      .const !![1, 0], .const ![3], .const (!![3] * 1 * !![3]ᵀ), ![0, 5], 1⟩, ⟨?_, ?_, rfl, rfl⟩,
      ⟨trivial, trivial, trivial, trivial, trivial, trivial⟩, PosDef.one, PosDef.one, PosDef.one⟩⟩
  · intro t A b Q hA hb hQ
    cases hA; cases hb; cases hQ
    exact ⟨_, _, rfl, rfl, fun _ _ => rfl⟩
  · intro t C d R hC hd hR
    cases hC; cases hd; cases hR
    exact ⟨_, _, rfl, rfl, fun _ _ => rfl⟩

/-- Nonlinear functions, masked and unmasked rows: `C52_posDef` applies and gives runs for `C38`. -/
example : ∃ l M, aukfFilter (⟨.flat [fun x i => Real.sin (x i)], .flat [fun x _ => x 0 * x 1], 1, 1,
      0, 1⟩ : UParams 2 1) [⟨![2], fun _ => false⟩, ⟨0, fun _ => true⟩] = .ok (l ++ [M]) := by
  obtain ⟨⟨l, h, -⟩, -⟩ := C52_posDef (n := 2) (by norm_num)
    (u := (⟨.flat [fun x i => Real.sin (x i)], .flat [fun x _ => x 0 * x 1], 1, 1,
      0, 1⟩ : UParams 2 1)) PosDef.one PosDef.one PosDef.one
    [⟨![2], fun _ => false⟩, ⟨0, fun _ => true⟩] (fun t _ => ⟨_, rfl⟩) (fun t _ => ⟨_, rfl⟩)
  have hl := runLoop_length h
  match l, hl with
  | [a, b], _ => exact ⟨[a], b, h⟩

/-- A third of the weight parameters: `alpha = 1/2`, `kappa = 4` in two dimensions. -/
example : (0 : ℝ) < (some (1 / 2 : ℝ)).getD 1 ^ 2 * ((2 : ℕ) + (some (4 : ℝ)).getD (3 - (2 : ℕ))) := by
  norm_num

end Verif
