import Verif.Proofs.RoundedUnscented
import Verif.Proofs.UnscentedPos
import Verif.Props.RoundedBierman
import Verif.Props.Unscented

/-!
# C95: rounding errors in the unscented filters

The user's functions are locally Lipschitz (all continuously differentiable functions are) and are
themselves computed with an error.
-/

open Matrix Topology

namespace Verif

variable {n m : ℕ}

theorem MomentsWithin.mono {a b : ℝ} (hab : a ≤ b) {l l' : List (Moments n)}
    (h : MomentsWithin a l l') : MomentsWithin b l l' :=
  List.Forall₂.imp (fun _ _ h => ⟨fun i => (h.1 i).trans hab, fun i j => (h.2 i j).trans hab⟩) h

theorem small_of_rows {X : ℝ → Type} {g : (u : ℝ) × X u → List (Moments n)}
    {l : List (Moments n)} (h : LNear (MomNear (smallErr X) fun x => x.1) g l) :
    Small fun e x => MomentsWithin e (g x) l := by
  induction h with
  | nil => exact ⟨0, 1, one_pos, fun u _ _ ar => .nil⟩
  | @cons f a g l h ht ih =>
    have h1 := (small_of_owV h.mean).and (small_of_owM h.cov)
      (fun _ _ _ e h i => (h i).trans e) fun _ _ _ e h i j => (h i j).trans e
    obtain ⟨K, u₀, h0, hK⟩ := h1.and ih
      (fun _ _ _ e h => ⟨fun i => (h.1 i).trans e, fun i j => (h.2 i j).trans e⟩)
      (fun _ _ _ e h => h.mono e)
    exact ⟨K, u₀, h0, fun u hu hu' ar => .cons (hK u hu hu' ar).1 (hK u hu hu' ar).2⟩

/-- From the limit to constants. -/
theorem exists_const_of_ev {X : ℝ → Type} {f : (u : ℝ) × X u → Res (List (Moments n))}
    {a : Res (List (Moments n))}
    (h : EvNear (smallErr X) (LNear (MomNear (smallErr X) fun x => x.1)) f a)
    {l : List (Moments n)} (hl : a = .ok l) :
    ∃ K u₀ : ℝ, 0 < u₀ ∧ ∀ u, 0 ≤ u → u ≤ u₀ → ∀ x : X u, ∃ l', f ⟨u, x⟩ = .ok l' ∧
      MomentsWithin (K * u) l' l := by
  obtain ⟨v, g, hv, hg, hR⟩ := h
  obtain rfl : l = v := by rw [hl] at hv; cases hv; rfl
  obtain ⟨K, u₀, h0, hK⟩ := small_of_rows hR
  obtain ⟨u₁, h1, hg⟩ := smallErr_eventually hg
  exact ⟨K, min u₀ u₁, lt_min h0 h1, fun u hu hu' x =>
    ⟨_, hg u hu (hu'.trans (min_le_right _ _)) x, hK u hu (hu'.trans (min_le_left _ _)) x⟩⟩

/-! ### Additive noise -/

/-- Arithmetic and computed functions with errors up to `u`. -/
structure URounded (c : ℕ → ℝ) (κf κg : Vec n → ℝ) (p : UParams n m) (u : ℝ) where
  ar : ArithU c u
  f : Fns (Vec n → Vec n)
  g : Fns (Vec n → Vec m)
  hf : f.Within (FnErr κf u) p.f
  hg : g.Within (FnErr κg u) p.g

/-- **C95.** `AdditiveUnscentedKalmanFilter.filter`: if the functions are locally Lipschitz, the exact
call succeeds, and the predicted covariances of the observations are regular, then there are `K` and
`u₀ > 0` such that for all errors `u ≤ u₀`, in every arithmetic with errors up to `u` and for all
computed functions that differ from the exact ones by at most `u κ(x)`, the call raises no exception
and returns moments that differ from the exact ones by at most `K u`. -/
theorem C95_additive_filter (c : ℕ → ℝ) {p : UParams n m} (hQ : p.Qᵀ = p.Q) (hR : p.Rᵀ = p.R)
    (hS : p.S0ᵀ = p.S0) (lf : p.f.All LocallyLipschitz) (lg : p.g.All LocallyLipschitz)
    {κf κg : Vec n → ℝ} (cf : Continuous κf) (cg : Continuous κg) {os : List (Obs m)}
    {l : List (Moments n)} (hl : aukfFilter p os = .ok l) (hreg : ObsRegular p.obsMoments os l) :
    ∃ K u₀ : ℝ, 0 < u₀ ∧ ∀ u, 0 ≤ u → u ≤ u₀ → ∀ (ar : ArithU c u) (f : Fns (Vec n → Vec n))
      (g : Fns (Vec n → Vec m)), f.Within (FnErr κf u) p.f → g.Within (FnErr κg u) p.g →
      ∃ l', flAukfFilter ar { p with f := f, g := g } os = .ok l' ∧ MomentsWithin (K * u) l' l := by
  obtain ⟨K, u₀, h0, h⟩ := exists_const_of_ev (X := URounded c κf κg p)
    (near_aukfFilter (F := smallErr (URounded c κf κg p)) (ar := fun x => x.2.ar) smallErr_tendsto
      (p := p) (f := fun x => x.2.f) (g := fun x => x.2.g)
      ⟨cf, cg, fun x => x.2.hf, fun x => x.2.hg, lf, lg⟩ hQ hR hS hl hreg) hl
  exact ⟨K, u₀, h0, fun u hu hu' ar f g hf hg => h u hu hu' ⟨ar, f, g, hf, hg⟩⟩

/-- **C95.** Likewise for `AdditiveUnscentedKalmanFilter.smooth`. -/
theorem C95_additive_smooth (c : ℕ → ℝ) {p : UParams n m} (hQ : p.Qᵀ = p.Q) (hR : p.Rᵀ = p.R)
    (hS : p.S0ᵀ = p.S0) (lf : p.f.All LocallyLipschitz) (lg : p.g.All LocallyLipschitz)
    {κf κg : Vec n → ℝ} (cf : Continuous κf) (cg : Continuous κg) {os : List (Obs m)}
    {l ls : List (Moments n)} (hl : aukfFilter p os = .ok l) (hls : aukfSmooth p os = .ok ls)
    (hreg : ObsRegular p.obsMoments os l) :
    ∃ K u₀ : ℝ, 0 < u₀ ∧ ∀ u, 0 ≤ u → u ≤ u₀ → ∀ (ar : ArithU c u) (f : Fns (Vec n → Vec n))
      (g : Fns (Vec n → Vec m)), f.Within (FnErr κf u) p.f → g.Within (FnErr κg u) p.g →
      ∃ l', flAukfSmooth ar { p with f := f, g := g } os = .ok l' ∧
        MomentsWithin (K * u) l' ls := by
  obtain ⟨K, u₀, h0, h⟩ := exists_const_of_ev (X := URounded c κf κg p)
    (near_aukfSmooth (F := smallErr (URounded c κf κg p)) (ar := fun x => x.2.ar) smallErr_tendsto
      (p := p) (f := fun x => x.2.f) (g := fun x => x.2.g)
      ⟨cf, cg, fun x => x.2.hf, fun x => x.2.hg, lf, lg⟩ hQ hR hS hl hls hreg) hls
  exact ⟨K, u₀, h0, fun u hu hu' ar f g hf hg => h u hu hu' ⟨ar, f, g, hf, hg⟩⟩

theorem mem_of_rowBefore {l : List (Moments n)} {t : ℕ} {M : Moments n}
    (h : rowBefore l t = some M) : M ∈ l := by
  unfold rowBefore at h
  split_ifs at h
  exact List.mem_of_getElem? h

/-- Up to three state dimensions nothing has to be assumed about the run. -/
theorem obsRegular_three (hn : n ≤ 3) {p : UParams n m} (hQ : p.Q.PosDef) (hR : p.R.PosDef)
    (hS : p.S0.PosDef) (os : List (Obs m)) {l : List (Moments n)} (hl : ∀ M ∈ l, M.cov.PosDef) :
    ObsRegular p.obsMoments os l := by
  intro t o _ _ M hM
  cases e : rowBefore l t with
  | none =>
    rw [e] at hM
    simp only [UParams.obsMoments] at hM
    obtain ⟨pts, h1, hM⟩ := ok_bind_iff.mp hM
    obtain ⟨g, -, hM⟩ := ok_bind_iff.mp hM
    cases hM
    obtain ⟨s, e1, -, e3⟩ := moments2points_good hn ⟨p.mu0, p.S0⟩ hS
    rw [e1] at h1
    cases h1
    exact (predict_posDef e3 g hR).det_pos.ne'.isUnit
  | some M' =>
    rw [e] at hM
    simp only [UParams.obsMoments] at hM
    obtain ⟨pts, h1, hM⟩ := ok_bind_iff.mp hM
    obtain ⟨f, -, hM⟩ := ok_bind_iff.mp hM
    obtain ⟨pts', h2, hM⟩ := ok_bind_iff.mp hM
    obtain ⟨g, -, hM⟩ := ok_bind_iff.mp hM
    cases hM
    obtain ⟨s, e1, -, e3⟩ := moments2points_good hn M' (hl _ (mem_of_rowBefore e))
    rw [e1] at h1
    cases h1
    obtain ⟨s', d1, -, d3⟩ := moments2points_good hn _ (predict_posDef e3 f hQ)
    rw [d1] at h2
    cases h2
    exact (predict_posDef d3 g hR).det_pos.ne'.isUnit

/-- **C95.** With at most three state dimensions and positive definite covariances nothing has to be
assumed about the run: `filter` and `smooth` return the exact moments up to `K u`. -/
theorem C95_three_dimensions (c : ℕ → ℝ) (hn : n ≤ 3) {p : UParams n m} (hQ : p.Q.PosDef)
    (hR : p.R.PosDef) (hS : p.S0.PosDef) (lf : p.f.All LocallyLipschitz)
    (lg : p.g.All LocallyLipschitz) {κf κg : Vec n → ℝ} (cf : Continuous κf) (cg : Continuous κg)
    {os : List (Obs m)} (hne : os ≠ []) (hf : ∀ t, t + 1 < os.length → ∃ f, p.f.at t = .ok f)
    (hg : ∀ t, t < os.length → ∃ g, p.g.at t = .ok g) :
    ∃ K u₀ : ℝ, 0 < u₀ ∧ ∀ u, 0 ≤ u → u ≤ u₀ → ∀ (ar : ArithU c u) (f : Fns (Vec n → Vec n))
      (g : Fns (Vec n → Vec m)), f.Within (FnErr κf u) p.f → g.Within (FnErr κg u) p.g →
      ∃ l l' ls ls', flAukfFilter ar { p with f := f, g := g } os = .ok l' ∧
        aukfFilter p os = .ok l ∧ MomentsWithin (K * u) l' l ∧
        flAukfSmooth ar { p with f := f, g := g } os = .ok ls' ∧ aukfSmooth p os = .ok ls ∧
        MomentsWithin (K * u) ls' ls := by
  obtain ⟨⟨l, hl, hpd⟩, h⟩ := C52_posDef hn hQ hR hS os hf hg
  obtain ⟨ls, hls, -⟩ := h hne
  have hreg := obsRegular_three hn hQ hR hS os hpd
  obtain ⟨K, u₀, h0, h⟩ := C95_additive_filter c (symm_of_posSemidef hQ.posSemidef)
    (symm_of_posSemidef hR.posSemidef) (symm_of_posSemidef hS.posSemidef) lf lg cf cg hl hreg
  obtain ⟨K', u₁, h1, h'⟩ := C95_additive_smooth c (symm_of_posSemidef hQ.posSemidef)
    (symm_of_posSemidef hR.posSemidef) (symm_of_posSemidef hS.posSemidef) lf lg cf cg hl hls hreg
  refine ⟨max K K', min u₀ u₁, lt_min h0 h1, fun u hu hu' ar f g hf hg => ?_⟩
  obtain ⟨l', a1, a2⟩ := h u hu (hu'.trans (min_le_left _ _)) ar f g hf hg
  obtain ⟨ls', b1, b2⟩ := h' u hu (hu'.trans (min_le_right _ _)) ar f g hf hg
  exact ⟨l, l', ls, ls', a1, hl, a2.mono (mul_le_mul_of_nonneg_right (le_max_left _ _) hu), b1, hls,
    b2.mono (mul_le_mul_of_nonneg_right (le_max_right _ _) hu)⟩

theorem unscentedCorrect_transpose (X : Mat n m) {pr : Moments n} (h : pr.covᵀ = pr.cov) {ob : Moments m}
    (hob : ob.covᵀ = ob.cov) (o : Obs m) :
    (unscentedCorrect X pr ob o).covᵀ = (unscentedCorrect X pr ob o).cov := by
  unfold unscentedCorrect
  split_ifs
  · exact h
  · simp only [transpose_sub, h, transpose_mul, transpose_transpose, pinv_symm hob,
      Matrix.mul_assoc]

/-- The additive filter's covariances are symmetric. -/
theorem aukfLoop_symm {p : UParams n m} (hQ : p.Qᵀ = p.Q) (hR : p.Rᵀ = p.R) (os : List (Obs m))
    {t : ℕ} {prev : Option (Moments n)} {l : List (Moments n)}
    (hl : runLoop (aukfStep p) t prev os = .ok l) : ∀ M ∈ l, M.covᵀ = M.cov := by
  induction os generalizing t prev l with
  | nil => cases hl; simp
  | cons o os ih =>
    simp only [runLoop] at hl
    obtain ⟨s, hs, hl⟩ := ok_bind_iff.mp hl
    obtain ⟨r, hr, hl⟩ := ok_bind_iff.mp hl
    cases hl
    have h1 : s.covᵀ = s.cov := by
      simp only [aukfStep] at hs
      obtain ⟨pts, -, hs⟩ := ok_bind_iff.mp hs
      cases prev with
      | none =>
        obtain ⟨g, -, hs⟩ := ok_bind_iff.mp hs
        cases hs
        exact unscentedCorrect_transpose _ (points2moments_transpose _ (by simp))
          (points2moments_transpose _ (by simpa using hR)) _
      | some M =>
        obtain ⟨f, -, hs⟩ := ok_bind_iff.mp hs
        obtain ⟨pts', -, hs⟩ := ok_bind_iff.mp hs
        obtain ⟨g, -, hs⟩ := ok_bind_iff.mp hs
        cases hs
        exact unscentedCorrect_transpose _ (points2moments_transpose _ (by simpa using hQ))
          (points2moments_transpose _ (by simpa using hR)) _
    intro M hM
    rcases List.mem_cons.mp hM with rfl | hM
    · exact h1
    · exact ih hr M hM

theorem isSigma_of_ok {M : Moments n} (hs : M.covᵀ = M.cov) {s : SigmaPoints (n + n + 1) n}
    (h : moments2points M = .ok s) : M.cov.PosDef ∧ IsSigma s M.mean M.cov := by
  have hp := posDef_of_moments2points hs h
  obtain ⟨s', h1, h2⟩ := moments2points_default M hp
  rw [h] at h1
  cases h1
  exact ⟨hp, h2⟩

/-- Regularity for affine observation functions. -/
theorem obsRegular_affine {p : UParams n m} (hQ : p.Qᵀ = p.Q) (hR : p.R.PosDef)
    (hS : p.S0ᵀ = p.S0)
    (hg : p.g.All fun g => ∃ (C : Mat m n) (d : Vec m), ∀ x, g x = C *ᵥ x + d)
    {os : List (Obs m)} {l : List (Moments n)} (hl : aukfFilter p os = .ok l) :
    ObsRegular p.obsMoments os l := by
  have hsym := aukfLoop_symm hQ (symm_of_posSemidef hR.posSemidef) os hl
  have key : ∀ {M : Moments n} {s : SigmaPoints (n + n + 1) n} {t : ℕ} {g : Vec n → Vec m},
      M.covᵀ = M.cov → moments2points M = .ok s → p.g.at t = .ok g →
      IsUnit (points2moments (s.map g) (some p.R)).cov.det := by
    intro M s t g hM hs hgt
    obtain ⟨C, d, hC⟩ := hg.at hgt
    obtain ⟨h1, h2⟩ := isSigma_of_ok hM hs
    rw [(h2.map C d hC).points2moments_some]
    exact (Matrix.PosDef.posSemidef_add (posSemidef_conj' h1.posSemidef C) hR).det_pos.ne'.isUnit
  intro t o _ _ M hM
  cases e : rowBefore l t with
  | none =>
    rw [e] at hM
    simp only [UParams.obsMoments] at hM
    obtain ⟨pts, h1, hM⟩ := ok_bind_iff.mp hM
    obtain ⟨g, h2, hM⟩ := ok_bind_iff.mp hM
    cases hM
    exact key hS h1 h2
  | some M' =>
    rw [e] at hM
    simp only [UParams.obsMoments] at hM
    obtain ⟨pts, h1, hM⟩ := ok_bind_iff.mp hM
    obtain ⟨f, -, hM⟩ := ok_bind_iff.mp hM
    obtain ⟨pts', h2, hM⟩ := ok_bind_iff.mp hM
    obtain ⟨g, h3, hM⟩ := ok_bind_iff.mp hM
    cases hM
    exact key (points2moments_transpose _ (by simpa using hQ)) h2 h3

/-- **C95.** In any number of dimensions: with affine observation functions and a positive definite
observation covariance it is enough that the exact calls succeed. -/
theorem C95_affine_observations (c : ℕ → ℝ) {p : UParams n m} (hQ : p.Qᵀ = p.Q)
    (hR : p.R.PosDef) (hS : p.S0ᵀ = p.S0) (lf : p.f.All LocallyLipschitz)
    (hg : p.g.All fun g => ∃ (C : Mat m n) (d : Vec m), ∀ x, g x = C *ᵥ x + d)
    {κf κg : Vec n → ℝ} (cf : Continuous κf) (cg : Continuous κg) {os : List (Obs m)}
    {l ls : List (Moments n)} (hl : aukfFilter p os = .ok l) (hls : aukfSmooth p os = .ok ls) :
    ∃ K u₀ : ℝ, 0 < u₀ ∧ ∀ u, 0 ≤ u → u ≤ u₀ → ∀ (ar : ArithU c u) (f : Fns (Vec n → Vec n))
      (g : Fns (Vec n → Vec m)), f.Within (FnErr κf u) p.f → g.Within (FnErr κg u) p.g →
      ∃ l' ls', flAukfFilter ar { p with f := f, g := g } os = .ok l' ∧
        MomentsWithin (K * u) l' l ∧
        flAukfSmooth ar { p with f := f, g := g } os = .ok ls' ∧ MomentsWithin (K * u) ls' ls := by
  have lg : p.g.All LocallyLipschitz := by
    have : ∀ g : Vec n → Vec m, (∃ (C : Mat m n) (d : Vec m), ∀ x, g x = C *ᵥ x + d) →
        LocallyLipschitz g := by
      rintro g ⟨C, d, h⟩
      have e : g = fun x => (Matrix.mulVecLin C).toContinuousLinearMap x + d := by
        funext x
        exact h x
      rw [e]
      have hc : ContDiff ℝ 1 fun x => (Matrix.mulVecLin C).toContinuousLinearMap x + d :=
        (ContinuousLinearMap.contDiff _).add contDiff_const
      exact hc.locallyLipschitz
    cases hgg : p.g with
    | flat l => rw [hgg] at hg; exact fun g h => this g (hg g h)
    | nested l => rw [hgg] at hg; exact fun r hr g h => this g (hg r hr g h)
  have hreg := obsRegular_affine hQ hR hS hg hl
  obtain ⟨K, u₀, h0, h⟩ := C95_additive_filter c hQ (symm_of_posSemidef hR.posSemidef) hS lf lg cf
    cg hl hreg
  obtain ⟨K', u₁, h1, h'⟩ := C95_additive_smooth c hQ (symm_of_posSemidef hR.posSemidef) hS lf lg cf
    cg hl hls hreg
  refine ⟨max K K', min u₀ u₁, lt_min h0 h1, fun u hu hu' ar f g hf hg => ?_⟩
  obtain ⟨l', a1, a2⟩ := h u hu (hu'.trans (min_le_left _ _)) ar f g hf hg
  obtain ⟨ls', b1, b2⟩ := h' u hu (hu'.trans (min_le_right _ _)) ar f g hf hg
  exact ⟨l', ls', a1, a2.mono (mul_le_mul_of_nonneg_right (le_max_left _ _) hu), b1,
    b2.mono (mul_le_mul_of_nonneg_right (le_max_right _ _) hu)⟩

/-- **C95.** For affine functions and positive definite covariances the computed rows are those of the
exact Kalman filter and smoother up to `K u`. -/
theorem C95_additive_affine (c : ℕ → ℝ) {v : UParams n m} {p : Params n m} (h : v.AffineAs p)
    (hp : p.PosDef) (hQ : v.Q.PosDef) (hR : v.R.PosDef) (hS : v.S0.PosDef)
    (lf : v.f.All LocallyLipschitz)
    (hg : v.g.All fun g => ∃ (C : Mat m n) (d : Vec m), ∀ x, g x = C *ᵥ x + d)
    {κf κg : Vec n → ℝ} (cf : Continuous κf) (cg : Continuous κg) {os : List (Obs m)} (hne : os ≠ [])
    (hdef : p.DefinedFor os.length) :
    ∃ K u₀ : ℝ, 0 < u₀ ∧ ∀ u, 0 ≤ u → u ≤ u₀ → ∀ (ar : ArithU c u) (f : Fns (Vec n → Vec n))
      (g : Fns (Vec n → Vec m)), f.Within (FnErr κf u) v.f → g.Within (FnErr κg u) v.g →
      ∃ l l' ls ls', flAukfFilter ar { v with f := f, g := g } os = .ok l' ∧
        kfFilter p os = .ok l ∧ MomentsWithin (K * u) l' (l.map toMoments) ∧
        flAukfSmooth ar { v with f := f, g := g } os = .ok ls' ∧ kfSmooth p os = .ok ls ∧
        MomentsWithin (K * u) ls' (ls.map toMoments) := by
  have hc := definedFor_iff_covers.mp hdef
  have hk1 := kfFilter_eq (p := p) hc
  have hk2 := kfSmooth_eq (p := p) hne hc
  obtain ⟨K, u₀, h0, hh⟩ := C95_affine_observations c (symm_of_posSemidef hQ.posSemidef) hR
    (symm_of_posSemidef hS.posSemidef) lf hg cf cg (C35_filter_eq_kalman h hp hk1)
    (C36_smooth_eq_kalman h hp hk2)
  refine ⟨K, u₀, h0, fun u hu hu' ar f g hf hg => ?_⟩
  obtain ⟨l', ls', a1, a2, a3, a4⟩ := hh u hu hu' ar f g hf hg
  exact ⟨_, l', _, ls', a1, hk1, a2, a3, hk2, a4⟩

/-! ### General noise -/

/-- Arithmetic and computed functions with errors up to `u`. -/
structure GRounded (c : ℕ → ℝ) (κf : Vec n × Vec n → ℝ) (κg : Vec n × Vec m → ℝ) (p : GParams n m)
    (u : ℝ) where
  ar : ArithU c u
  f : Fns (Vec n → Vec n → Vec n)
  g : Fns (Vec n → Vec m → Vec m)
  hf : f.Within (fun a b => FnErr κf u (fun x => a x.1 x.2) fun x => b x.1 x.2) p.f
  hg : g.Within (fun a b => FnErr κg u (fun x => a x.1 x.2) fun x => b x.1 x.2) p.g

/-- **C95.** `UnscentedKalmanFilter.filter`: if the functions are locally Lipschitz in state and noise,
the exact call succeeds, and the predicted covariances of the observations are regular, then for small
errors the call raises no exception and returns the exact moments up to `K u`. -/
theorem C95_general_filter (c : ℕ → ℝ) {p : GParams n m} (hQ : p.Qᵀ = p.Q) (hR : p.Rᵀ = p.R)
    (hS : p.S0ᵀ = p.S0) (lf : p.f.All fun f => LocallyLipschitz fun x : Vec n × Vec n => f x.1 x.2)
    (lg : p.g.All fun g => LocallyLipschitz fun x : Vec n × Vec m => g x.1 x.2)
    {κf : Vec n × Vec n → ℝ} {κg : Vec n × Vec m → ℝ} (cf : Continuous κf) (cg : Continuous κg)
    {os : List (Obs m)} {l : List (Moments n)} (hl : ukfFilter p os = .ok l)
    (hreg : ObsRegular p.obsMoments os l) :
    ∃ K u₀ : ℝ, 0 < u₀ ∧ ∀ u, 0 ≤ u → u ≤ u₀ → ∀ (ar : ArithU c u)
      (f : Fns (Vec n → Vec n → Vec n)) (g : Fns (Vec n → Vec m → Vec m)),
      f.Within (fun a b => FnErr κf u (fun x => a x.1 x.2) fun x => b x.1 x.2) p.f →
      g.Within (fun a b => FnErr κg u (fun x => a x.1 x.2) fun x => b x.1 x.2) p.g →
      ∃ l', flUkfFilter ar { p with f := f, g := g } os = .ok l' ∧ MomentsWithin (K * u) l' l := by
  obtain ⟨K, u₀, h0, h⟩ := exists_const_of_ev (X := GRounded c κf κg p)
    (near_ukfFilter (F := smallErr (GRounded c κf κg p)) (ar := fun x => x.2.ar) smallErr_tendsto
      (p := p) (f := fun x => x.2.f) (g := fun x => x.2.g)
      ⟨cf, cg, fun x => x.2.hf, fun x => x.2.hg, lf, lg⟩ hQ hR hS hl hreg) hl
  exact ⟨K, u₀, h0, fun u hu hu' ar f g hf hg => h u hu hu' ⟨ar, f, g, hf, hg⟩⟩

/-- **C95.** Likewise for `UnscentedKalmanFilter.smooth`, if also the covariances of the next state
that it inverts are regular. -/
theorem C95_general_smooth (c : ℕ → ℝ) {p : GParams n m} (hQ : p.Qᵀ = p.Q) (hR : p.Rᵀ = p.R)
    (hS : p.S0ᵀ = p.S0) (lf : p.f.All fun f => LocallyLipschitz fun x : Vec n × Vec n => f x.1 x.2)
    (lg : p.g.All fun g => LocallyLipschitz fun x : Vec n × Vec m => g x.1 x.2)
    {κf : Vec n × Vec n → ℝ} {κg : Vec n × Vec m → ℝ} (cf : Continuous κf) (cg : Continuous κg)
    {os : List (Obs m)} {l ls : List (Moments n)} (hl : ukfFilter p os = .ok l)
    (hls : ukfSmooth p os = .ok ls) (hreg : ObsRegular p.obsMoments os l)
    (hnext : NextRegular p.nextMoments l) :
    ∃ K u₀ : ℝ, 0 < u₀ ∧ ∀ u, 0 ≤ u → u ≤ u₀ → ∀ (ar : ArithU c u)
      (f : Fns (Vec n → Vec n → Vec n)) (g : Fns (Vec n → Vec m → Vec m)),
      f.Within (fun a b => FnErr κf u (fun x => a x.1 x.2) fun x => b x.1 x.2) p.f →
      g.Within (fun a b => FnErr κg u (fun x => a x.1 x.2) fun x => b x.1 x.2) p.g →
      ∃ l', flUkfSmooth ar { p with f := f, g := g } os = .ok l' ∧
        MomentsWithin (K * u) l' ls := by
  obtain ⟨K, u₀, h0, h⟩ := exists_const_of_ev (X := GRounded c κf κg p)
    (near_ukfSmooth (F := smallErr (GRounded c κf κg p)) (ar := fun x => x.2.ar) smallErr_tendsto
      (p := p) (f := fun x => x.2.f) (g := fun x => x.2.g)
      ⟨cf, cg, fun x => x.2.hf, fun x => x.2.hg, lf, lg⟩ hQ hR hS hl hls hreg hnext) hls
  exact ⟨K, u₀, h0, fun u hu hu' ar f g hf hg => h u hu hu' ⟨ar, f, g, hf, hg⟩⟩

theorem augM_cov (A G P Q : Mat n n) (R : Mat m m) :
    (A * selX n m + G * selW n m) * blockDiag (blockDiag P Q) R * (A * selX n m + G * selW n m)ᵀ
      = A * P * Aᵀ + G * Q * Gᵀ := by
  have e : (A * selX n m + G * selW n m) * blockDiag (blockDiag P Q) R
        * (A * selX n m + G * selW n m)ᵀ
      = A * (selX n m * blockDiag (blockDiag P Q) R * (selX n m)ᵀ) * Aᵀ
        + A * (selX n m * blockDiag (blockDiag P Q) R * (selW n m)ᵀ) * Gᵀ
        + G * (selW n m * blockDiag (blockDiag P Q) R * (selX n m)ᵀ) * Aᵀ
        + G * (selW n m * blockDiag (blockDiag P Q) R * (selW n m)ᵀ) * Gᵀ := by
    rw [transpose_add, transpose_mul, transpose_mul]
    simp only [Matrix.add_mul, Matrix.mul_add, Matrix.mul_assoc]
    abel
  rw [e, selXX, selXW, selWX, selWW]
  simp

theorem augM_noise (A G P Q : Mat n n) (R : Mat m m) :
    (A * selX n m + G * selW n m) * blockDiag (blockDiag P Q) R * (selV n m)ᵀ = 0 ∧
    selV n m * blockDiag (blockDiag P Q) R * (A * selX n m + G * selW n m)ᵀ = 0 := by
  constructor
  · have e : (A * selX n m + G * selW n m) * blockDiag (blockDiag P Q) R * (selV n m)ᵀ
        = A * (selX n m * blockDiag (blockDiag P Q) R * (selV n m)ᵀ)
          + G * (selW n m * blockDiag (blockDiag P Q) R * (selV n m)ᵀ) := by
      simp only [Matrix.add_mul, Matrix.mul_assoc]
    rw [e, selXV, selWV]
    simp
  · have e : selV n m * blockDiag (blockDiag P Q) R * (A * selX n m + G * selW n m)ᵀ
        = (selV n m * blockDiag (blockDiag P Q) R * (selX n m)ᵀ) * Aᵀ
          + (selV n m * blockDiag (blockDiag P Q) R * (selW n m)ᵀ) * Gᵀ := by
      rw [transpose_add, transpose_mul, transpose_mul]
      simp only [Matrix.mul_add, Matrix.mul_assoc]
    rw [e, selVX, selVW]
    simp

/-- The predicted covariance of an affine observation. -/
theorem obsCov_affine {k N : ℕ} {s : SigmaPoints N k} {mu : Vec k} {S : Mat k k}
    (h : IsSigma s mu S) {M : Mat n k} {v : Vec n} {F : Vec k → Vec n}
    (hF : ∀ z, F z = M *ᵥ z + v) {Sv : Mat m k} {P : Mat n n} {R H : Mat m m} {C : Mat m n}
    {d : Vec m} {g : Vec n → Vec m → Vec m} (hg : ∀ x w, g x w = C *ᵥ x + H *ᵥ w + d)
    (h1 : M * S * Mᵀ = P) (h2 : M * S * Svᵀ = 0) (h3 : Sv * S * Mᵀ = 0)
    (h4 : Sv * S * Svᵀ = R) :
    (points2moments ((s.map F).map₂ (s.map fun z => Sv *ᵥ z) g) none).cov
      = C * P * Cᵀ + H * R * Hᵀ := by
  have hq : ∀ z, g (F z) (Sv *ᵥ z) = (C * M + H * Sv) *ᵥ z + (C *ᵥ v + d) := by
    intro z
    rw [hg, hF, mulVec_add, add_mulVec, mulVec_mulVec, mulVec_mulVec]
    abel
  have e : (C * M + H * Sv) * S * (C * M + H * Sv)ᵀ
      = C * (M * S * Mᵀ) * Cᵀ + C * (M * S * Svᵀ) * Hᵀ + H * (Sv * S * Mᵀ) * Cᵀ
        + H * (Sv * S * Svᵀ) * Hᵀ := by
    rw [transpose_add, transpose_mul, transpose_mul]
    simp only [Matrix.add_mul, Matrix.mul_add, Matrix.mul_assoc]
    abel
  have hp := congrArg Moments.cov (h.map _ _ hq).points2moments
  rw [e, h1, h2, h3, h4] at hp
  simp only [Matrix.mul_zero, Matrix.zero_mul, add_zero] at hp
  exact hp

theorem rowBefore_map {α : Type} {T t : ℕ} (f : ℕ → α) {x : α}
    (h : rowBefore ((List.range T).map f) t = some x) : ∃ j, t = j + 1 ∧ j < T ∧ x = f j := by
  unfold rowBefore at h
  split_ifs at h with h0
  obtain ⟨j, rfl⟩ : ∃ j, t = j + 1 := ⟨t - 1, by omega⟩
  obtain ⟨hj, e⟩ := List.getElem?_eq_some_iff.mp h
  simp only [List.length_map, List.length_range, Nat.add_sub_cancel] at hj
  refine ⟨j, rfl, hj, ?_⟩
  simpa using e.symm

/-- Regularity for functions that are affine in state and noise. -/
theorem regular_general_affine {u : GParams n m} {p : Params n m} (h : u.AffineAs p)
    (hQ : u.Q.PosDef) (hR : u.R.PosDef) (hS : u.S0.PosDef) {os : List (Obs m)}
    (hQ' : ∀ t Q, t + 1 < os.length → lastDims p.Q t = .ok Q → Q.PosDef)
    (hR' : ∀ t R, t < os.length → lastDims p.R t = .ok R → R.PosDef)
    (hc : p.Covers os.length) :
    ObsRegular u.obsMoments os ((List.range os.length).map fun t =>
      ⟨(p.fn.kf (obsFn os) t).filtMean, (p.fn.kf (obsFn os) t).filtCov⟩) ∧
    NextRegular u.nextMoments ((List.range os.length).map fun t =>
      ⟨(p.fn.kf (obsFn os) t).filtMean, (p.fn.kf (obsFn os) t).filtCov⟩) := by
  have hr := PFun.runPosDef p.fn (obsFn os) os.length
    (by rw [show p.fn.S0 = u.S0 from h.S0]; exact hS)
    (fun t ht => hQ' t _ ht (lastDims_eq_ok (hc.Q.mono (by omega))))
    (fun t ht => hR' t _ ht (lastDims_eq_ok (hc.R.mono ht)))
  constructor
  · intro t o ho _ M hM
    obtain ⟨ht, -⟩ := List.getElem?_eq_some_iff.mp ho
    obtain ⟨g, H, hg, hRH, hg'⟩ := h.g t (p.fn.C t) (p.fn.d t) (p.fn.R t)
      (lastDims_eq_ok (hc.C.mono ht)) (lastDims_eq_ok (hc.d.mono ht))
      (lastDims_eq_ok (hc.R.mono ht))
    have hRp : (p.fn.R t).PosDef := hR' t _ ht (lastDims_eq_ok (hc.R.mono ht))
    rw [hRH] at hRp
    cases e : rowBefore ((List.range os.length).map fun t =>
        (⟨(p.fn.kf (obsFn os) t).filtMean, (p.fn.kf (obsFn os) t).filtCov⟩ : Moments n)) t with
    | none =>
      rw [e] at hM
      obtain ⟨s, hs, hs'⟩ := augFilterPoints_ok (M := ⟨u.mu0, u.S0⟩) hS hQ hR
      simp only [GParams.obsMoments, hs, hg, bind, Except.bind, pure, Except.pure] at hM
      cases hM
      rw [obsCov_affine hs' (M := selX n m) (v := 0) (F := fun z => selX n m *ᵥ z) (by simp) hg'
        (selXX _ _ _) (selXV _ _ _) (selVX _ _ _) (selVV _ _ _)]
      exact (Matrix.PosDef.posSemidef_add (posSemidef_conj' hS.posSemidef _) hRp).det_pos.ne'.isUnit
    | some M' =>
      rw [e] at hM
      obtain ⟨j, rfl, hj, rfl⟩ := rowBefore_map _ e
      obtain ⟨f, G, hf, -, hf'⟩ := h.f j (p.fn.A j) (p.fn.b j) (p.fn.Q j)
        (lastDims_eq_ok (hc.A.mono (by omega))) (lastDims_eq_ok (hc.b.mono (by omega)))
        (lastDims_eq_ok (hc.Q.mono (by omega)))
      have hpd := hr.filt j ht
      obtain ⟨s, hs, hs'⟩ := augFilterPoints_ok
        (M := ⟨(p.fn.kf (obsFn os) j).filtMean, (p.fn.kf (obsFn os) j).filtCov⟩) hpd hQ hR
      simp only [GParams.obsMoments, hs, hg, hf, bind, Except.bind, pure, Except.pure,
        Nat.add_sub_cancel] at hM
      cases hM
      have hF : ∀ z, f (selX n m *ᵥ z) (selW n m *ᵥ z)
          = (p.fn.A j * selX n m + G * selW n m) *ᵥ z + p.fn.b j := by
        intro z
        rw [hf', add_mulVec, ← mulVec_mulVec, ← mulVec_mulVec]
      have hcov := obsCov_affine hs' hF hg' (augM_cov (m := m) _ _ _ _ _)
        (augM_noise _ _ _ _ _).1 (augM_noise _ _ _ _ _).2 (selVV _ _ _)
      refine (congrArg (fun X : Mat m m => IsUnit X.det) hcov).mpr ?_
      exact (Matrix.PosDef.posSemidef_add (posSemidef_conj' ((posSemidef_conj' hpd.posSemidef _).add
        (posSemidef_conj' hQ.posSemidef G)) _) hRp).det_pos.ne'.isUnit
  · intro t M' ht e M hM
    simp only [List.length_map, List.length_range] at ht
    rw [List.getElem?_map, List.getElem?_range (by omega)] at e
    obtain rfl := Option.some.inj e
    obtain ⟨f, G, hf, hQG, hf'⟩ := h.f t (p.fn.A t) (p.fn.b t) (p.fn.Q t)
      (lastDims_eq_ok (hc.A.mono (by omega))) (lastDims_eq_ok (hc.b.mono (by omega)))
      (lastDims_eq_ok (hc.Q.mono (by omega)))
    have hQp : (p.fn.Q t).PosDef := hQ' t _ ht (lastDims_eq_ok (hc.Q.mono (by omega)))
    rw [hQG] at hQp
    have hpd := hr.filt t ht
    obtain ⟨s, hs, hs'⟩ := augPoints_ok
      (M := ⟨(p.fn.kf (obsFn os) t).filtMean, (p.fn.kf (obsFn os) t).filtCov⟩) hpd hQ
    simp only [GParams.nextMoments, hs, hf, bind, Except.bind, pure, Except.pure] at hM
    cases hM
    have hF : ∀ z, f (selL n n *ᵥ z) (selR n n *ᵥ z)
        = (p.fn.A t * selL n n + G * selR n n) *ᵥ z + p.fn.b t := by
      intro z
      rw [hf', add_mulVec, ← mulVec_mulVec, ← mulVec_mulVec]
    have hcov := congrArg Moments.cov (hs'.map _ _ hF).points2moments
    have eM : (p.fn.A t * selL n n + G * selR n n)
        * blockDiag (p.fn.kf (obsFn os) t).filtCov u.Q * (p.fn.A t * selL n n + G * selR n n)ᵀ
        = p.fn.A t * (p.fn.kf (obsFn os) t).filtCov * (p.fn.A t)ᵀ + G * u.Q * Gᵀ := by
      have e : (p.fn.A t * selL n n + G * selR n n)
          * blockDiag (p.fn.kf (obsFn os) t).filtCov u.Q * (p.fn.A t * selL n n + G * selR n n)ᵀ
          = p.fn.A t * (selL n n * blockDiag (p.fn.kf (obsFn os) t).filtCov u.Q * (selL n n)ᵀ)
              * (p.fn.A t)ᵀ
            + p.fn.A t * (selL n n * blockDiag (p.fn.kf (obsFn os) t).filtCov u.Q * (selR n n)ᵀ)
              * Gᵀ
            + G * (selR n n * blockDiag (p.fn.kf (obsFn os) t).filtCov u.Q * (selL n n)ᵀ)
              * (p.fn.A t)ᵀ
            + G * (selR n n * blockDiag (p.fn.kf (obsFn os) t).filtCov u.Q * (selR n n)ᵀ)
              * Gᵀ := by
        rw [transpose_add, transpose_mul, transpose_mul]
        simp only [Matrix.add_mul, Matrix.mul_add, Matrix.mul_assoc]
        abel
      rw [e, blockDiag_ll, blockDiag_lr, blockDiag_rl, blockDiag_rr]
      simp
    refine (congrArg (fun X : Mat n n => IsUnit X.det) (hcov.trans eM)).mpr ?_
    exact (Matrix.PosDef.posSemidef_add (posSemidef_conj' hpd.posSemidef _)
      hQp).det_pos.ne'.isUnit

/-- **C95.** For functions that are affine in state and noise, with positive definite covariances,
`UnscentedKalmanFilter.filter` and `smooth` computed with errors return the exact posterior moments of
the linear model up to `K u`. -/
theorem C95_general_affine (c : ℕ → ℝ) {u : GParams n m} {p : Params n m} (h : u.AffineAs p)
    (hQ : u.Q.PosDef) (hR : u.R.PosDef) (hS : u.S0.PosDef) {os : List (Obs m)} (hne : os ≠ [])
    (hdef : p.DefinedFor os.length)
    (hQ' : ∀ t Q, t + 1 < os.length → lastDims p.Q t = .ok Q → Q.PosDef)
    (hR' : ∀ t R, t < os.length → lastDims p.R t = .ok R → R.PosDef)
    (lf : u.f.All fun f => LocallyLipschitz fun x : Vec n × Vec n => f x.1 x.2)
    (lg : u.g.All fun g => LocallyLipschitz fun x : Vec n × Vec m => g x.1 x.2)
    {κf : Vec n × Vec n → ℝ} {κg : Vec n × Vec m → ℝ} (cf : Continuous κf) (cg : Continuous κg) :
    ∃ K u₀ : ℝ, 0 < u₀ ∧ ∀ e, 0 ≤ e → e ≤ u₀ → ∀ (ar : ArithU c e)
      (f : Fns (Vec n → Vec n → Vec n)) (g : Fns (Vec n → Vec m → Vec m)),
      f.Within (fun a b => FnErr κf e (fun x => a x.1 x.2) fun x => b x.1 x.2) u.f →
      g.Within (fun a b => FnErr κg e (fun x => a x.1 x.2) fun x => b x.1 x.2) u.g →
      ∃ l l' ls ls', flUkfFilter ar { u with f := f, g := g } os = .ok l' ∧
        kfFilter p os = .ok l ∧ MomentsWithin (K * e) l' (l.map toMoments) ∧
        flUkfSmooth ar { u with f := f, g := g } os = .ok ls' ∧ kfSmooth p os = .ok ls ∧
        MomentsWithin (K * e) ls' (ls.map toMoments) := by
  have hc := definedFor_iff_covers.mp hdef
  obtain ⟨h1, h2⟩ := C37_eq_kalman h hQ hR hS hQ' hR'
  have hk1 := kfFilter_eq (p := p) hc
  have hk2 := kfSmooth_eq (p := p) hne hc
  have hl := h1 _ hk1
  have hls := h2 _ hk2
  obtain ⟨r1, r2⟩ := regular_general_affine h hQ hR hS hQ' hR' hc
  have eL : ((List.range os.length).map fun t =>
      (((p.fn.kf (obsFn os) t).filtMean, (p.fn.kf (obsFn os) t).filtCov) : Vec n × Mat n n)).map
      toMoments = (List.range os.length).map fun t =>
      (⟨(p.fn.kf (obsFn os) t).filtMean, (p.fn.kf (obsFn os) t).filtCov⟩ : Moments n) := by
    rw [List.map_map]
    rfl
  rw [← eL] at r1 r2
  obtain ⟨K, u₀, h0, hh⟩ := C95_general_filter c (symm_of_posSemidef hQ.posSemidef)
    (symm_of_posSemidef hR.posSemidef) (symm_of_posSemidef hS.posSemidef) lf lg cf cg hl r1
  obtain ⟨K', u₁, h1', hh'⟩ := C95_general_smooth c (symm_of_posSemidef hQ.posSemidef)
    (symm_of_posSemidef hR.posSemidef) (symm_of_posSemidef hS.posSemidef) lf lg cf cg hl hls r1 r2
  refine ⟨max K K', min u₀ u₁, lt_min h0 h1', fun e he he' ar f g hf hg => ?_⟩
  obtain ⟨l', a1, a2⟩ := hh e he (he'.trans (min_le_left _ _)) ar f g hf hg
  obtain ⟨ls', b1, b2⟩ := hh' e he (he'.trans (min_le_right _ _)) ar f g hf hg
  exact ⟨_, l', _, ls', a1, hk1, a2.mono (mul_le_mul_of_nonneg_right (le_max_left _ _) he), b1, hk2,
    b2.mono (mul_le_mul_of_nonneg_right (le_max_right _ _) he)⟩

/-! ### Functions that are not continuous -/

/-- An arithmetic that is exact but for square roots, which are too small. -/
noncomputable def scaledArithU (svd : SvdRoutine) {u : ℝ} (hu : 0 ≤ u) :
    ArithU (fun k => (k : ℝ) + 1) u where
  toArithEL := scaledArithEL svd hu (s := 1) (by simpa using hu)
  sqrt x := (1 - u) * Real.sqrt x
  sqrt_err x _ := by
    have := Real.sqrt_nonneg x
    rw [show (1 - u) * Real.sqrt x - Real.sqrt x = -(u * Real.sqrt x) by ring, abs_neg,
      abs_of_nonneg (by positivity)]
    nlinarith

/-- One for all points from `√3` on. -/
noncomputable def exStepFn (x : Vec 1) : Vec 1 := fun _ => if Real.sqrt 3 ≤ x 0 then 1 else 0

/-- A model with that transition function. -/
noncomputable def exStepModel : UParams 1 1 := ⟨.flat [exStepFn], .flat [fun x => x], 1, 1, 0, 1⟩

theorem dot_scaledArithU (svd : SvdRoutine) {u : ℝ} (hu : 0 ≤ u) (k : ℕ) (x y : Vec k) :
    (scaledArithU svd hu).dot k x y = x ⬝ᵥ y := one_mul _

theorem flPoints2moments_scaledArithU (svd : SvdRoutine) {u : ℝ} (hu : 0 ≤ u) {N k : ℕ}
    (s : SigmaPoints N k) (noise : Option (Mat k k)) :
    flPoints2moments (scaledArithU svd hu) s noise = points2moments s noise := by
  have h1 : ∀ {a b : ℕ} (M : Mat a b) (x : Vec b), (scaledArithU svd hu).mulV M x = M *ᵥ x := by
    intro a b M x
    funext i
    exact dot_scaledArithU svd hu _ _ _
  have h2 : ∀ {a b d : ℕ} (M : Mat a b) (X : Mat b d), (scaledArithU svd hu).mul M X = M * X := by
    intro a b d M X
    ext i j
    exact dot_scaledArithU svd hu _ _ _
  cases noise <;> simp only [flPoints2moments, points2moments, h1, h2] <;> rfl

theorem flSigmaPoints_scaledArithU (svd : SvdRoutine) {u : ℝ} (hu : 0 ≤ u) (mu : Vec n)
    (L : Mat n n) : flSigmaPoints (scaledArithU svd hu) mu L
      = sigmaPoints mu ((1 - u) • L) none none none := by
  have e : flSigmaRows (scaledArithU svd hu) mu L = sigmaRows mu ((1 - u) • L) := by
    funext s
    unfold flSigmaRows sigmaRows
    congr 2
    · funext j i
      show mu i + L i j * ((1 - u) * Real.sqrt s) = mu i + (1 - u) * L i j * Real.sqrt s
      ring
    · funext j i
      show mu i - L i j * ((1 - u) * Real.sqrt s) = mu i - (1 - u) * L i j * Real.sqrt s
      ring
  unfold flSigmaPoints sigmaPoints
  rw [e]
  rfl

theorem smul_one_isCholesky {a : ℝ} (ha : 0 < a) :
    IsCholesky ((a * a) • (1 : Mat n n)) (a • (1 : Mat n n)) :=
  ⟨fun i j h => by rw [Matrix.smul_apply, Matrix.one_apply_ne (ne_of_lt h), smul_zero],
    fun i => by simpa using ha, by
      rw [transpose_smul, transpose_one, Matrix.smul_mul, Matrix.mul_smul, smul_smul,
        Matrix.one_mul]⟩

theorem flMoments2points_scaledArithU (svd : SvdRoutine) {u : ℝ} (hu : 0 ≤ u) (mu : Vec n) {a : ℝ}
    (ha : 0 < a) : flMoments2points (scaledArithU svd hu) ⟨mu, (a * a) • 1⟩
      = .ok (sigmaPoints mu (((1 - u) * a) • 1) none none none) := by
  show (cholesky ((a * a) • (1 : Mat n n))ᵀ >>= fun L => pure (flSigmaPoints _ mu L)) = _
  rw [transpose_smul, transpose_one, cholesky_eq_ok (smul_one_isCholesky ha)]
  show Except.ok (flSigmaPoints _ mu _) = _
  rw [flSigmaPoints_scaledArithU, smul_smul]

theorem sigmaPoints_exStepFn {a : ℝ} (h0 : 0 < a) (h1 : a < 1) :
    ((sigmaPoints (0 : Vec 1) (a • 1) none none none).map exStepFn).points = fun _ => 0 := by
  have h3 : 0 < Real.sqrt 3 := Real.sqrt_pos.mpr (by norm_num)
  have hc : ((1 : ℕ) : ℝ) + ((none : Option ℝ).getD 1.0 * (none : Option ℝ).getD 1.0
      * ((1 : ℕ) + (none : Option ℝ).getD (3.0 - (1 : ℕ))) - (1 : ℕ)) = 3 := by
    simp only [Option.getD_none]; norm_num
  funext j
  funext i
  show (if Real.sqrt 3 ≤ sigmaRows (0 : Vec 1) (a • 1) _ j 0 then (1 : ℝ) else 0) = 0
  rw [if_neg]
  rw [hc, not_le, sigmaRows]
  refine Fin.cases ?_ (fun j => ?_) j
  · simpa using h3
  · rw [Fin.cons_succ]
    refine Fin.addCases (fun j => ?_) (fun j => ?_) j
    · rw [Fin.append_left, Subsingleton.elim j 0]
      simp
      nlinarith
    · rw [Fin.append_right, Subsingleton.elim j 0]
      simp
      nlinarith

theorem sigmaPoints_exStepFn_mean :
    (points2moments ((sigmaPoints (0 : Vec 1) 1 none none none).map exStepFn) (some 1)).mean 0
      = 1 / 6 := by
  have h3 : 0 < Real.sqrt 3 := Real.sqrt_pos.mpr (by norm_num)
  have hc : ((1 : ℕ) : ℝ) + ((none : Option ℝ).getD 1.0 * (none : Option ℝ).getD 1.0
      * ((1 : ℕ) + (none : Option ℝ).getD (3.0 - (1 : ℕ))) - (1 : ℕ)) = 3 := by
    simp only [Option.getD_none]; norm_num
  show ∑ j : Fin (1 + 1 + 1), (if Real.sqrt 3 ≤ sigmaRows (0 : Vec 1) 1 _ j 0 then (1 : ℝ) else 0)
    * (Fin.cons _ fun _ => 0.5 / _ : Fin (1 + 1 + 1) → ℝ) j = 1 / 6
  rw [hc, Fin.sum_univ_three]
  have e0 : sigmaRows (0 : Vec 1) 1 3 0 0 = 0 := rfl
  have e1 : sigmaRows (0 : Vec 1) 1 3 1 0 = Real.sqrt 3 := by
    show (0 : ℝ) + (1 : Mat 1 1) 0 0 * Real.sqrt 3 = _
    simp
  have e2 : sigmaRows (0 : Vec 1) 1 3 2 0 = -Real.sqrt 3 := by
    show (0 : ℝ) - (1 : Mat 1 1) 0 0 * Real.sqrt 3 = _
    simp
  rw [e0, e1, e2, if_neg (not_le.mpr h3), if_pos le_rfl, if_neg (not_le.mpr (by linarith))]
  show 0 * _ + 1 * (0.5 / 3) + 0 * _ = (1 : ℝ) / 6
  norm_num

/-- **C95**, why the functions have to be continuous: with a transition function that jumps, all
covariances the identity and nothing but missing observations, the second predicted mean is `1/6`, but
for every `u`, however small, there is an arithmetic with errors up to `u` in which it is zero. -/
theorem C95_discontinuous {u : ℝ} (h0 : 0 < u) (h1 : u < 1) :
    ∃ (ar : ArithU (fun k => (k : ℝ) + 1) u) (l l' : List (Moments 1)),
      aukfFilter exStepModel [⟨0, fun _ => true⟩, ⟨0, fun _ => true⟩] = .ok l ∧
      flAukfFilter ar exStepModel [⟨0, fun _ => true⟩, ⟨0, fun _ => true⟩] = .ok l' ∧
      ¬ MomentsWithin (1 / 7) l' l := by
  obtain ⟨svd⟩ := exists_svdRoutine
  have hm : (⟨0, fun _ => true⟩ : Obs 1).missing := by simp [Obs.missing]
  have one : ((1 : ℝ) * 1) • (1 : Mat 1 1) = 1 := by simp
  have hm1 : moments2points (⟨0, 1⟩ : Moments 1) = .ok (sigmaPoints 0 1 none none none) := by
    show (cholesky (1 : Mat 1 1)ᵀ >>= fun L => pure (sigmaPoints 0 L none none none)) = _
    have := cholesky_eq_ok (smul_one_isCholesky (n := 1) one_pos)
    rw [one, one_smul] at this
    rw [transpose_one, this]
    rfl
  have hs1 := isSigma_sigmaPoints (0 : Vec 1) 1 none none none default_spread
  rw [transpose_one, Matrix.one_mul] at hs1
  obtain ⟨s, e1, -, e3⟩ := moments2points_good (by norm_num) ⟨(0 : Vec 1), 1⟩ PosDef.one
  rw [hm1] at e1
  cases e1
  obtain ⟨s', e4, -⟩ := moments2points_good (by norm_num) _ (predict_posDef e3 exStepFn
    (PosDef.one (n := Fin 1) (R := ℝ)))
  have ha : 0 < 1 - u := by linarith
  have ha' : 1 - u < 1 := by linarith
  have hs2 := isSigma_sigmaPoints (0 : Vec 1) (((1 - u) * 1) • 1) none none none default_spread
  rw [show (((1 - u) * 1) • (1 : Mat 1 1)) * (((1 - u) * 1) • (1 : Mat 1 1))ᵀ
    = ((1 - u) * (1 - u)) • 1 by
      rw [transpose_smul, transpose_one, Matrix.smul_mul, Matrix.mul_smul, smul_smul,
        Matrix.one_mul, mul_one]] at hs2
  have hz : points2moments ((sigmaPoints (0 : Vec 1) (((1 - u) * (1 - u)) • 1) none none none).map
      exStepFn) (some 1) = ⟨0, 1⟩ := by
    have := sigmaPoints_exStepFn (a := (1 - u) * (1 - u)) (by positivity) (by nlinarith)
    simp only [points2moments, this]
    have z : (Matrix.of fun _ : Fin (1 + 1 + 1) => (0 : Vec 1)) = 0 := rfl
    simp only [z, transpose_zero, zero_mulVec, Pi.zero_apply, sub_zero]
    have z' : (Matrix.of fun (_ : Fin 1) (_ : Fin (1 + 1 + 1)) => (0 : ℝ)) = 0 := rfl
    rw [z']
    simp
  refine ⟨scaledArithU svd h0.le, [⟨0, 1⟩, points2moments ((sigmaPoints (0 : Vec 1) 1 none none
    none).map exStepFn) (some 1)], [⟨0, ((1 - u) * (1 - u)) • 1⟩, ⟨0, 1⟩], ?_, ?_, ?_⟩
  · simp only [aukfFilter, runLoop, aukfStep, exStepModel, Option.getD_none, Option.getD_some, hm1,
      bind, Except.bind, Fns.at, first, pure, Except.pure, ufCorrect, unscentedCorrect, hm,
      not_true_eq_false, if_false, hs1.points2moments, e4]
  · have hf1 := flMoments2points_scaledArithU svd h0.le (0 : Vec 1) one_pos
    rw [one] at hf1
    simp only [flAukfFilter, runLoop, flAukfStep, exStepModel, Option.getD_none, Option.getD_some,
      hf1, bind, Except.bind, Fns.at, first, pure, Except.pure, flUfCorrect, flUnscentedCorrect, hm,
      not_true_eq_false, if_false, flPoints2moments_scaledArithU, hs2.points2moments,
      flMoments2points_scaledArithU svd h0.le _ ha, hz]
  · intro h
    cases h with
    | cons _ h =>
      cases h with
      | cons h _ =>
        have := h.1 0
        rw [sigmaPoints_exStepFn_mean] at this
        norm_num at this

/-! ### Examples -/

/-- A transition function with a sine, an observation function with a square, one observation
missing: the constants exist, and there is an arithmetic in which square roots are wrong. -/
example : ∃ K u₀ : ℝ, 0 < u₀ ∧ ∀ u, 0 ≤ u → u ≤ u₀ →
    ∃ (ar : ArithU (fun k => (k : ℝ) + 1) u) (p : UParams 1 1) (l l' : List (Moments 1)),
      (∀ x, ar.sqrt x = (1 - u) * Real.sqrt x) ∧
      p.f = .flat [fun x _ => Real.sin (x 0) + u * x 0] ∧
      flAukfFilter ar p [⟨![3], ![false]⟩, ⟨0, ![true]⟩, ⟨![2], ![false]⟩] = .ok l' ∧
      aukfFilter ⟨.flat [fun x _ => Real.sin (x 0)], .flat [fun x _ => x 0 ^ 2], 1, 1, 0, 1⟩
        [⟨![3], ![false]⟩, ⟨0, ![true]⟩, ⟨![2], ![false]⟩] = .ok l ∧
      MomentsWithin (K * u) l' l := by
  obtain ⟨svd⟩ := exists_svdRoutine
  have lf : (Fns.flat [fun (x : Vec 1) (_ : Fin 1) => Real.sin (x 0)]).All LocallyLipschitz := by
    intro f hf
    rw [List.mem_singleton.mp hf]
    have : ContDiff ℝ 1 fun (x : Vec 1) (_ : Fin 1) => Real.sin (x 0) :=
      contDiff_pi.mpr fun _ => Real.contDiff_sin.comp (contDiff_apply ℝ ℝ 0)
    exact this.locallyLipschitz
  have lg : (Fns.flat [fun (x : Vec 1) (_ : Fin 1) => x 0 ^ 2]).All LocallyLipschitz := by
    intro f hf
    rw [List.mem_singleton.mp hf]
    have : ContDiff ℝ 1 fun (x : Vec 1) (_ : Fin 1) => x 0 ^ 2 :=
      contDiff_pi.mpr fun _ => (contDiff_apply ℝ ℝ 0).pow 2
    exact this.locallyLipschitz
  obtain ⟨K, u₀, h0, h⟩ := C95_three_dimensions (fun k => (k : ℝ) + 1) (by norm_num)
    (p := ⟨.flat [fun x _ => Real.sin (x 0)], .flat [fun x _ => x 0 ^ 2], 1, 1, 0, 1⟩)
    PosDef.one PosDef.one PosDef.one lf lg (κf := fun x => |x 0|) (κg := fun _ => 0)
    (continuous_abs.comp (continuous_apply 0)) continuous_const
    (os := [⟨![3], ![false]⟩, ⟨0, ![true]⟩, ⟨![2], ![false]⟩]) (by simp)
    (fun _ _ => ⟨_, rfl⟩) (fun _ _ => ⟨_, rfl⟩)
  refine ⟨K, u₀, h0, fun u hu hu' => ?_⟩
  obtain ⟨l, l', -, -, h1, h2, h3, -⟩ := h u hu hu' (scaledArithU svd hu)
    (.flat [fun x _ => Real.sin (x 0) + u * x 0]) (.flat [fun x _ => x 0 ^ 2])
    (.cons (fun x i => by
      show |Real.sin (x 0) + u * x 0 - Real.sin (x 0)| ≤ u * |x 0|
      rw [add_sub_cancel_left, abs_mul, abs_of_nonneg hu]) .nil)
    (.cons (fun x i => by simp) .nil)
  exact ⟨scaledArithU svd hu, _, l, l', fun _ => rfl, rfl, h1, h2, h3⟩

theorem locallyLipschitz_affine {E : Type} [NormedAddCommGroup E] [NormedSpace ℝ E]
    [FiniteDimensional ℝ E] (L : E →ₗ[ℝ] Vec m) (d : Vec m) :
    LocallyLipschitz fun x => L x + d := by
  have : ContDiff ℝ 1 fun x => L.toContinuousLinearMap x + d :=
    (ContinuousLinearMap.contDiff _).add contDiff_const
  exact this.locallyLipschitz

/-- Affine functions in more dimensions, with matrices that change over time. -/
example : exUPosDef.AffineAs exPosDef ∧ exPosDef.PosDef ∧ exUPosDef.Q.PosDef ∧ exUPosDef.R.PosDef ∧
    exUPosDef.S0.PosDef ∧ exUPosDef.f.All LocallyLipschitz ∧
    (exUPosDef.g.All fun g => ∃ (C : Mat 1 2) (d : Vec 1), ∀ x, g x = C *ᵥ x + d) ∧
    exPosDef.DefinedFor 3 := by
  have hp := exPosDef_posDef
  refine ⟨exUPosDef_affine, hp, ?_, ?_, ?_, ?_, ?_, definedFor_iff_covers.mpr
    ⟨le_refl 2, trivial, trivial, trivial, trivial, trivial⟩⟩
  · obtain ⟨Q, e, h⟩ := hp.Q
    cases e
    exact h
  · obtain ⟨R, e, h⟩ := hp.R
    cases e
    exact h
  · exact hp.S0
  · intro r hr f hf
    simp only [List.mem_cons, List.not_mem_nil, or_false] at hr
    rcases hr with rfl | rfl <;> rw [List.mem_singleton.mp hf]
    · exact locallyLipschitz_affine (mulVecLin !![1, 1; 0, 1]) ![0, 1]
    · exact locallyLipschitz_affine (mulVecLin !![1, 2; 0, 1]) ![0, 1]
  · intro g hg
    rw [List.mem_singleton.mp hg]
    exact ⟨_, _, fun _ => rfl⟩

/-- Noise that enters through matrices. -/
example : ∃ p : Params 2 1, exGPosDef.AffineAs p ∧ exGPosDef.Q.PosDef ∧ exGPosDef.R.PosDef ∧
    exGPosDef.S0.PosDef ∧ p.DefinedFor 7 ∧
    (∀ t Q, lastDims p.Q t = .ok Q → Q.PosDef) ∧ (∀ t R, lastDims p.R t = .ok R → R.PosDef) ∧
    (exGPosDef.f.All fun f => LocallyLipschitz fun x : Vec 2 × Vec 2 => f x.1 x.2) ∧
    (exGPosDef.g.All fun g => LocallyLipschitz fun x : Vec 2 × Vec 1 => g x.1 x.2) := by
  refine ⟨⟨.const !![1, 1; 0, 1], .const ![0, 1], .const (!![1, 0; 1, 1] * 1 * !![1, 0; 1, 1]ᵀ),
      .const !![1, 0], .const ![3], .const (!![3] * 1 * !![3]ᵀ), ![0, 5], 1⟩, ⟨?_, ?_, rfl, rfl⟩,
    PosDef.one, PosDef.one, PosDef.one, definedFor_iff_covers.mpr
      ⟨trivial, trivial, trivial, trivial, trivial, trivial⟩, ?_, ?_, ?_, ?_⟩
  · intro t A b Q hA hb hQ
    cases hA; cases hb; cases hQ
    exact ⟨_, _, rfl, rfl, fun _ _ => rfl⟩
  · intro t C d R hC hd hR
    cases hC; cases hd; cases hR
    exact ⟨_, _, rfl, rfl, fun _ _ => rfl⟩
  · intro t Q h
    cases h
    rw [Matrix.mul_one]
    have : Function.Injective (!![1, 0; 1, 1] : Mat 2 2).vecMul := by
      apply Matrix.vecMul_injective_of_isUnit
      rw [Matrix.isUnit_iff_isUnit_det]
      simp [Matrix.det_fin_two]
    simpa using Matrix.PosDef.mul_conjTranspose_self (!![1, 0; 1, 1] : Mat 2 2) this
  · intro t R h
    cases h
    rw [Matrix.mul_one]
    have : Function.Injective (!![3] : Mat 1 1).vecMul := by
      apply Matrix.vecMul_injective_of_isUnit
      rw [Matrix.isUnit_iff_isUnit_det]
      simp
    simpa using Matrix.PosDef.mul_conjTranspose_self (!![3] : Mat 1 1) this
  · intro f hf
    rw [List.mem_singleton.mp hf]
    exact locallyLipschitz_affine ((mulVecLin !![1, 1; 0, 1]).comp (LinearMap.fst ℝ (Vec 2) (Vec 2))
      + (mulVecLin !![1, 0; 1, 1]).comp (LinearMap.snd ℝ (Vec 2) (Vec 2))) ![0, 1]
  · intro g hg
    rw [List.mem_singleton.mp hg]
    exact locallyLipschitz_affine ((mulVecLin !![1, 0]).comp (LinearMap.fst ℝ (Vec 2) (Vec 1))
      + (mulVecLin !![3]).comp (LinearMap.snd ℝ (Vec 2) (Vec 1))) ![3]

end Verif
