import Verif.Proofs.RoundedSqrtUnscented
import Verif.Proofs.RoundedSqrtSmooth
import Verif.Spec.RoundedSqrtUnscented
import Verif.Props.RoundedCholesky
import Verif.Props.RoundedUpdate
import Verif.Props.SqrtUnscented

/-!
# C105: rounding errors in the square root `AdditiveUnscentedKalmanFilter`

With one observation dimension the filter of `sqrt/unscented.py` run with rounding errors returns what
it returns in exact arithmetic, up to a constant times the size of the errors.  The computed
triangular factors themselves need not converge: `qr` is free to choose the signs of their rows.  What
converges are the moments that the class returns.
-/

open Matrix Topology

namespace Verif

variable {n m : ℕ}

/-! ### The exact filter, for arbitrary transition covariances -/

/-- What the exact square root filter returns: the additive filter with `Q2 Q2ᵀ` in place of
`Q = Q2ᵀ Q2`. -/
theorem sqFilter_swapped (qr : QR) {u : UParams n 1} (hR : u.R.PosDef) (hS : u.S0.PosDef)
    {Q2 : Mat n n} (e2 : cholUpper u.Q = .ok Q2) (hu : StepFine { u with Q := Q2 * Q2ᵀ })
    {os : List (Obs 1)} {l : List (Moments n)}
    (hl : aukfFilter { u with Q := Q2 * Q2ᵀ } os = .ok l) : sqFilter qr u os = .ok l := by
  obtain ⟨R2, r1, -, -, r4, -⟩ := cholUpper_spec hR
  rw [← normal_one] at r4
  obtain ⟨l2, h1, h2⟩ := sqLoop_spec qr hu hS (Q2 := Q2) rfl r4 os 0 Option.Rel.none hl
  have e : sqStep qr { u with Q := Q2 * Q2ᵀ } Q2 R2 = sqStep qr u Q2 R2 := by
    funext t prev o
    cases prev <;> rfl
  rw [e] at h1
  simp only [sqFilter, sqFull, e2, r1, h1, bind, Except.bind, pure, Except.pure, root_map h2]

/-- `Q2 Q2ᵀ` is positive definite. -/
theorem swapped_posDef {Q Q2 : Mat n n} (hQ : Q.PosDef) (e2 : cholUpper Q = .ok Q2) :
    (Q2 * Q2ᵀ).PosDef := by
  obtain ⟨U, h1, h2, -⟩ := cholUpper_spec hQ
  obtain rfl : Q2 = U := by rw [e2] at h1; cases h1; rfl
  have := Matrix.PosDef.mul_conjTranspose_self Q2 (Matrix.vecMul_injective_of_isUnit
    ((isUnit_iff_isUnit_det _).mpr h2.isUnit_det))
  simpa [conjTranspose_eq_transpose_of_trivial] using this

/-- For independent transition noise it is `Q`. -/
theorem swapped_diagonal {q : Vec n} (hq : (diagonal q : Mat n n).PosDef) {Q2 : Mat n n}
    (e2 : cholUpper (diagonal q) = .ok Q2) : Q2 * Q2ᵀ = diagonal q := by
  rw [cholUpper_diagonal hq] at e2
  cases e2
  rw [diagonal_transpose, diagonal_mul_diagonal]
  congr 1
  funext i
  have : 0 < q i := by simpa using hq.diag_pos (i := i)
  exact Real.mul_self_sqrt this.le

theorem Fns.All.weaken {γ : Type} {q r : γ → Prop} {F : Fns γ} (h : F.All q) (hqr : ∀ f, q f → r f) :
    F.All r := by
  cases F with
  | flat l => exact fun f hf => hqr f (h f hf)
  | nested l => exact fun x hx f hf => hqr f (h x hx f hf)

/-! ### `filter` -/

/-- Arithmetic and computed functions with errors up to `u`. -/
structure SRounded (c : ℕ → ℝ) (κf κg : Vec n → ℝ) (p : UParams n m) (u : ℝ) where
  ar : ArithS c u
  f : Fns (Vec n → Vec n)
  g : Fns (Vec n → Vec m)
  hf : f.Within (FnErr κf u) p.f
  hg : g.Within (FnErr κg u) p.g

theorem sqFilter_rounded (c : ℕ → ℝ) {p : UParams n 1} (hQ : p.Q.PosDef) (hR : p.R.PosDef)
    (hS : p.S0.PosDef) {Q2 : Mat n n} (e2 : cholUpper p.Q = .ok Q2)
    (hu : StepFine { p with Q := Q2 * Q2ᵀ }) (lf : p.f.All LocallyLipschitz)
    (lg : p.g.All LocallyLipschitz) {κf κg : Vec n → ℝ} (cf : Continuous κf) (cg : Continuous κg)
    {os : List (Obs 1)} {l : List (Moments n)}
    (hl : aukfFilter { p with Q := Q2 * Q2ᵀ } os = .ok l) :
    ∃ K u₀ : ℝ, 0 < u₀ ∧ ∀ u, 0 ≤ u → u ≤ u₀ → ∀ (ar : ArithS c u) (f : Fns (Vec n → Vec n))
      (g : Fns (Vec n → Vec 1)), f.Within (FnErr κf u) p.f → g.Within (FnErr κg u) p.g →
      ∃ l', flSqFilter ar { p with f := f, g := g } os = .ok l' ∧ MomentsWithin (K * u) l' l := by
  have h := near_flSqFilter (F := smallErr (SRounded c κf κg p)) (w := fun x => x.1)
    (ar := fun x => x.2.ar) (f := fun x => x.2.f) (g := fun x => x.2.g) smallErr_tendsto hQ hR hS e2
    hu (show UFnsNear κf κg p _ _ _ from ⟨cf, cg, fun x => x.2.hf, fun x => x.2.hg, lf, lg⟩) hl
  obtain ⟨K, u₀, h0, hK⟩ := exists_const_of_ev h hl
  exact ⟨K, u₀, h0, fun u hu hu' ar f g hf hg => hK u hu hu' ⟨ar, f, g, hf, hg⟩⟩

/-- **C105.** `AdditiveUnscentedKalmanFilter.filter` of `sqrt/unscented.py` with at most three state
dimensions, one observation dimension, positive definite covariances (the noise may be correlated)
and locally Lipschitz functions: in exact arithmetic the call returns a list `l` that does not depend
on the signs that `qr` chooses, and there are `K` and `u₀ > 0` such that for all errors `u ≤ u₀`, in
every arithmetic with errors up to `u` and for all computed functions that differ from the exact ones
by at most `u κ(x)`, the call raises no exception, divides by no zero, and returns moments that differ
from `l` by at most `K u`. -/
theorem C105_filter (c : ℕ → ℝ) (hn : n ≤ 3) {p : UParams n 1} (hQ : p.Q.PosDef) (hR : p.R.PosDef)
    (hS : p.S0.PosDef) (lf : p.f.All LocallyLipschitz) (lg : p.g.All LocallyLipschitz)
    {κf κg : Vec n → ℝ} (cf : Continuous κf) (cg : Continuous κg) {os : List (Obs 1)}
    (hf : ∀ t, t + 1 < os.length → ∃ f, p.f.at t = .ok f)
    (hg : ∀ t, t < os.length → ∃ g, p.g.at t = .ok g) :
    ∃ l, (∀ qr, sqFilter qr p os = .ok l) ∧ (∀ M ∈ l, M.cov.PosDef) ∧
    ∃ K u₀ : ℝ, 0 < u₀ ∧ ∀ u, 0 ≤ u → u ≤ u₀ → ∀ (ar : ArithS c u) (f : Fns (Vec n → Vec n))
      (g : Fns (Vec n → Vec 1)), f.Within (FnErr κf u) p.f → g.Within (FnErr κg u) p.g →
      ∃ l', flSqFilter ar { p with f := f, g := g } os = .ok l' ∧ MomentsWithin (K * u) l' l := by
  obtain ⟨Q2, e2, -⟩ := cholUpper_spec hQ
  have hQ' := swapped_posDef hQ e2
  have hfine : StepFine { p with Q := Q2 * Q2ᵀ } := stepFine_of_le_three hn hQ' hR
  obtain ⟨l, hl, hpos⟩ := (C52_posDef hn (u := { p with Q := Q2 * Q2ᵀ }) hQ' hR hS os hf hg).1
  exact ⟨l, fun qr => sqFilter_swapped qr hR hS e2 hfine hl, hpos,
    sqFilter_rounded c hQ hR hS e2 hfine lf lg cf cg hl⟩

/-- **C105.** If moreover the transition noise is independent, the computed moments are within `K u`
of what the additive filter of `unscented.py` returns in exact arithmetic. -/
theorem C105_filter_additive (c : ℕ → ℝ) (hn : n ≤ 3) {p : UParams n 1} {q : Vec n}
    (hq : p.Q = diagonal q) (hQ : p.Q.PosDef) (hR : p.R.PosDef) (hS : p.S0.PosDef)
    (lf : p.f.All LocallyLipschitz) (lg : p.g.All LocallyLipschitz)
    {κf κg : Vec n → ℝ} (cf : Continuous κf) (cg : Continuous κg) {os : List (Obs 1)}
    (hf : ∀ t, t + 1 < os.length → ∃ f, p.f.at t = .ok f)
    (hg : ∀ t, t < os.length → ∃ g, p.g.at t = .ok g) :
    ∃ l, aukfFilter p os = .ok l ∧
    ∃ K u₀ : ℝ, 0 < u₀ ∧ ∀ u, 0 ≤ u → u ≤ u₀ → ∀ (ar : ArithS c u) (f : Fns (Vec n → Vec n))
      (g : Fns (Vec n → Vec 1)), f.Within (FnErr κf u) p.f → g.Within (FnErr κg u) p.g →
      ∃ l', flSqFilter ar { p with f := f, g := g } os = .ok l' ∧ MomentsWithin (K * u) l' l := by
  obtain ⟨Q2, e2, -⟩ := cholUpper_spec hQ
  have e : Q2 * Q2ᵀ = p.Q := by
    rw [hq] at e2 hQ ⊢
    exact swapped_diagonal hQ e2
  have hfine : StepFine p := stepFine_of_le_three hn hQ hR
  obtain ⟨l, hl, -⟩ := (C52_posDef hn hQ hR hS os hf hg).1
  exact ⟨l, hl, sqFilter_rounded c hQ hR hS e2 (by rw [e]; exact hfine) lf lg cf cg
    (by rw [e]; exact hl)⟩

/-- **C105.** For affine functions the number of state dimensions is arbitrary, and the computed
moments are within `K u` of those of the Kalman filter. -/
theorem C105_filter_affine (c : ℕ → ℝ) {v : UParams n 1} {p : Params n 1} (h : v.AffineAs p)
    (hp : p.PosDef) {q : Vec n} (hq : v.Q = diagonal q)
    (hf : v.f.All fun f => ∃ (A : Mat n n) (b : Vec n), ∀ x, f x = A *ᵥ x + b)
    (hg : v.g.All fun g => ∃ (C : Mat 1 n) (d : Vec 1), ∀ x, g x = C *ᵥ x + d)
    {κf κg : Vec n → ℝ} (cf : Continuous κf) (cg : Continuous κg) {os : List (Obs 1)}
    (hdef : p.DefinedFor os.length) :
    ∃ l, kfFilter p os = .ok l ∧
    ∃ K u₀ : ℝ, 0 < u₀ ∧ ∀ u, 0 ≤ u → u ≤ u₀ → ∀ (ar : ArithS c u) (f : Fns (Vec n → Vec n))
      (g : Fns (Vec n → Vec 1)), f.Within (FnErr κf u) v.f → g.Within (FnErr κg u) v.g →
      ∃ l', flSqFilter ar { v with f := f, g := g } os = .ok l' ∧
        MomentsWithin (K * u) l' (l.map toMoments) := by
  have hk := kfFilter_eq (p := p) (definedFor_iff_covers.mp hdef)
  have hQ : v.Q.PosDef := by
    obtain ⟨Q, e, hQ⟩ := hp.Q
    have := h.Q.symm.trans e
    cases this
    exact hQ
  have hR : v.R.PosDef := by
    obtain ⟨R, e, hR⟩ := hp.R
    have := h.R.symm.trans e
    cases this
    exact hR
  have hS : v.S0.PosDef := h.S0 ▸ hp.S0
  obtain ⟨Q2, e2, -⟩ := cholUpper_spec hQ
  have e : Q2 * Q2ᵀ = v.Q := by
    rw [hq] at e2 hQ ⊢
    exact swapped_diagonal hQ e2
  have hfine : StepFine v := stepFine_of_affine hQ hR (fun t f e => hf.at e) fun t g e => hg.at e
  have hl : ∀ {k l : ℕ} {f : Vec k → Vec l}, (∃ (A : Mat l k) (b : Vec l), ∀ x, f x = A *ᵥ x + b) →
      LocallyLipschitz f := by
    rintro k l f ⟨A, b, hA⟩
    rw [show f = fun x => mulVecLin A x + b from funext hA]
    exact locallyLipschitz_affine (mulVecLin A) b
  exact ⟨_, hk, sqFilter_rounded c hQ hR hS e2 (by rw [e]; exact hfine) (hf.weaken fun _ => hl)
    (hg.weaken fun _ => hl) cf cg (by rw [e]; exact C35_filter_eq_kalman h hp hk)⟩

/-! ### Programs of `filter_update` calls -/

/-- **C105.** `AdditiveUnscentedKalmanFilter.smooth` of `sqrt/unscented.py` with one state dimension
and one observation dimension: in exact arithmetic it returns what the smoother of `unscented.py`
returns, whatever signs `qr` chooses, and in every arithmetic with errors up to `u ≤ u₀` the two
downdates raise no exception and the moments differ from the exact ones by at most `K u`.  With more
dimensions the smoother may divide by zero in exact arithmetic already, see C40. -/
theorem C105_smooth (c : ℕ → ℝ) {p : UParams 1 1} (hQ : p.Q.PosDef) (hR : p.R.PosDef)
    (hS : p.S0.PosDef) (lf : p.f.All LocallyLipschitz) (lg : p.g.All LocallyLipschitz)
    {κf κg : Vec 1 → ℝ} (cf : Continuous κf) (cg : Continuous κg) {os : List (Obs 1)} (hos : os ≠ [])
    (hf : ∀ t, t + 1 < os.length → ∃ f, p.f.at t = .ok f)
    (hg : ∀ t, t < os.length → ∃ g, p.g.at t = .ok g) :
    ∃ l, aukfSmooth p os = .ok l ∧ (∀ qr, sqSmooth qr p os = .ok l) ∧ (∀ M ∈ l, M.cov.PosDef) ∧
    ∃ K u₀ : ℝ, 0 < u₀ ∧ ∀ u, 0 ≤ u → u ≤ u₀ → ∀ (ar : ArithS c u) (f : Fns (Vec 1 → Vec 1))
      (g : Fns (Vec 1 → Vec 1)), f.Within (FnErr κf u) p.f → g.Within (FnErr κg u) p.g →
      ∃ l', flSqSmooth ar { p with f := f, g := g } os = .ok l' ∧ MomentsWithin (K * u) l' l := by
  obtain ⟨l, hl, hpos⟩ := (C52_posDef (by norm_num) hQ hR hS os hf hg).2 hos
  refine ⟨l, hl, fun qr => C40_smooth_partial qr hQ hR hS hl, hpos, ?_⟩
  have h := near_flSqSmooth (F := smallErr (SRounded c κf κg p)) (w := fun x => x.1)
    (ar := fun x => x.2.ar) (f := fun x => x.2.f) (g := fun x => x.2.g) smallErr_tendsto hQ hR hS
    (show UFnsNear κf κg p _ _ _ from ⟨cf, cg, fun x => x.2.hf, fun x => x.2.hg, lf, lg⟩) hl
  obtain ⟨K, u₀, h0, hK⟩ := exists_const_of_ev h hl
  exact ⟨K, u₀, h0, fun u hu hu' ar f g hf hg => hK u hu hu' ⟨ar, f, g, hf, hg⟩⟩

/-- One exact call. -/
theorem sqUpdate_swapped (qr : QR) (hn : n ≤ 3) {p : UParams n 1} {M : Moments n}
    {o : Option (Obs 1)} {a : UUpdateArgs n 1} (hQ : (a.Q.getD p.Q).PosDef)
    (hR : (a.R.getD p.R).PosDef) (hM : M.cov.PosDef) {Q2 : Mat n n}
    (e2 : cholUpper (a.Q.getD p.Q) = .ok Q2) {r : Moments n}
    (h : aukfUpdate p M o { a with Q := some (Q2 * Q2ᵀ) } = .ok r) : sqUpdate qr p M o a = .ok r := by
  rw [aukfUpdate_one] at h
  obtain ⟨f, hf, h⟩ := ok_bind_iff.mp h
  obtain ⟨g, hg, h⟩ := ok_bind_iff.mp h
  obtain ⟨P2, p1, p2, -, p4, -⟩ := cholUpper_spec hM
  obtain ⟨R2, r1, -, -, r4, -⟩ := cholUpper_spec hR
  rw [← normal_one] at r4
  obtain ⟨M2, h1, h2⟩ := sqStep_spec qr
    (u := { p.one { a with Q := some (Q2 * Q2ᵀ) } f g with S0 := 1 })
    (stepFine_of_le_three hn (swapped_posDef hQ e2) hR) PosDef.one (Q2 := Q2) rfl r4 1
    (Option.Rel.some (a := M) (b := ⟨M.mean, P2⟩) ⟨rfl, p2, p4⟩) _ h
  simp only [sqStep, UParams.one, Fns.at, first, bind, Except.bind] at h1
  simp only [sqUpdate, hf, hg, p1, e2, r1, bind, Except.bind, pure, Except.pure]
  generalize sqPoints2moments qr ((sqMoments2points ⟨M.mean, P2⟩).map f) (some Q2) = x at h1 ⊢
  cases x with
  | error e => cases h1
  | ok pred =>
    simp only at h1 ⊢
    cases o <;>
    · simp only [updateObs] at h1
      rw [h1]
      simp only [h2.unroot]

/-- Arithmetic, computed functions, and a starting point with errors up to `u` and `κ u`. -/
structure SStarted (c : ℕ → ℝ) (κ : ℝ) (κf κg : Vec n → ℝ) (p : UParams n m)
    (a : ℕ → UUpdateArgs n m) (M : Moments n) (k : ℕ) (u : ℝ) where
  ar : ArithS c u
  f : Fns (Vec n → Vec n)
  g : Fns (Vec n → Vec m)
  a' : ℕ → UUpdateArgs n m
  M' : Moments n
  hf : f.Within (FnErr κf u) p.f
  hg : g.Within (FnErr κg u) p.g
  ha : ∀ t < k, (a' t).Within κf κg u (a t)
  hM : MomentsWithin (κ * u) [M'] [M]

/-- **C105.** Programs that call `filter_update` of `sqrt/unscented.py` again and again, each time with
the moments returned by the call before: at most three state dimensions, one observation dimension,
positive definite covariances in all calls, locally Lipschitz functions.  In exact arithmetic no call
raises an exception, and the results do not depend on the signs that `qr` chooses.  With errors up to
`u` and a start that is wrong by at most `κ u` no call raises an exception either, and all results are
within `K u` of the exact ones. -/
theorem C105_filter_update (c : ℕ → ℝ) (κ : ℝ) (hn : n ≤ 3) {p : UParams n 1}
    {a : ℕ → UUpdateArgs n 1} {M : Moments n} {os : List (Option (Obs 1))}
    (hQ : ∀ t < os.length, ((a t).Q.getD p.Q).PosDef)
    (hR : ∀ t < os.length, ((a t).R.getD p.R).PosDef) (hM : M.cov.PosDef)
    (hf : ∀ t < os.length, ∃ f, defaultFunction (a t).f p.f = .ok f)
    (hg : ∀ t < os.length, ∃ g, defaultFunction (a t).g p.g = .ok g)
    (lf : p.f.All LocallyLipschitz) (lg : p.g.All LocallyLipschitz)
    (af : ∀ t < os.length, ∀ f ∈ (a t).f, LocallyLipschitz f)
    (ag : ∀ t < os.length, ∀ g ∈ (a t).g, LocallyLipschitz g)
    {κf κg : Vec n → ℝ} (cf : Continuous κf) (cg : Continuous κg) :
    ∃ l, (∀ qr, sqProgram qr p a M os = .ok l) ∧ (∀ x ∈ l, x.cov.PosDef) ∧
    ∃ K u₀ : ℝ, 0 < u₀ ∧ ∀ u, 0 ≤ u → u ≤ u₀ → ∀ (ar : ArithS c u) (f : Fns (Vec n → Vec n))
      (g : Fns (Vec n → Vec 1)) (a' : ℕ → UUpdateArgs n 1) (M' : Moments n),
      f.Within (FnErr κf u) p.f → g.Within (FnErr κg u) p.g →
      (∀ t < os.length, (a' t).Within κf κg u (a t)) → MomentsWithin (κ * u) [M'] [M] →
      ∃ l', flSqProgram ar { p with f := f, g := g } a' M' os = .ok l' ∧
        MomentsWithin (K * u) l' l := by
  have h2 : ∀ t, ∃ Q2, t < os.length → cholUpper ((a t).Q.getD p.Q) = .ok Q2 := fun t => by
    by_cases ht : t < os.length
    · obtain ⟨Q2, e2, -⟩ := cholUpper_spec (hQ t ht)
      exact ⟨Q2, fun _ => e2⟩
    · exact ⟨0, fun h => absurd h ht⟩
  choose Q2 e2 using h2
  have hQ' : ∀ t < os.length, (Q2 t * (Q2 t)ᵀ).PosDef := fun t ht => swapped_posDef (hQ t ht) (e2 t ht)
  set a₂ : ℕ → UUpdateArgs n 1 := fun t => { a t with Q := some (Q2 t * (Q2 t)ᵀ) } with ha₂
  obtain ⟨l, h1, hpos⟩ := aukfProgram_posDef hn (p := p) (a := a₂) (T := os.length) hQ' hR hf hg os 0
    (by omega) hM
  refine ⟨l, fun qr => ?_, hpos, ?_⟩
  · have key : ∀ (os' : List (Option (Obs 1))) (t : ℕ) (M : Moments n) (l : List (Moments n)),
        t + os'.length ≤ os.length → M.cov.PosDef →
        UMachine.calls (fun t x o => aukfUpdate p x o (a₂ t)) t M os' = .ok l →
        UMachine.calls (fun t x o => sqUpdate qr p x o (a t)) t M os' = .ok l := by
      intro os'
      induction os' with
      | nil => intro t M l _ _ h; exact h
      | cons o os' ih =>
        intro t M l ht hM h
        have ht' : t < os.length := by simp at ht; omega
        obtain ⟨r, l', h1, h2, rfl⟩ := calls_cons_ok h
        obtain ⟨r', e1, e3⟩ := aukfUpdate_posDef hn (a := a₂ t) (hQ' t ht') (hR t ht') (hf t ht')
          (hg t ht') hM o
        obtain rfl : r = r' := by rw [h1] at e1; cases e1; rfl
        exact calls_cons_of (sqUpdate_swapped qr hn (hQ t ht') (hR t ht') hM (e2 t ht') h1)
          (ih (t + 1) r l' (by simp at ht; omega) e3 h2)
    exact key os 0 M l (by omega) hM h1
  · have h := near_calls (F := smallErr (SStarted c κ κf κg p a M os.length))
      (R := MomNear (smallErr (SStarted c κ κf κg p a M os.length)) fun x => x.1)
      (up := fun x t y o => flSqUpdate x.2.ar { p with f := x.2.f, g := x.2.g } y o (x.2.a' t))
      (up' := fun t y o => aukfUpdate p y o (a₂ t))
      (P := fun t y _ => t < os.length ∧ y.cov.PosDef)
      (fun t g v o r hg hP hv => near_flSqUpdate (w := fun x => x.1)
        (ar := fun x => x.2.ar) (f := fun x => x.2.f) (g := fun x => x.2.g)
        (a := fun x => x.2.a' t) (a' := a t) (M := g) (M' := v) smallErr_tendsto
        (show UFnsNear κf κg p _ _ _ from ⟨cf, cg, fun x => x.2.hf, fun x => x.2.hg, lf, lg⟩)
        (fun x => x.2.ha t hP.1) (hQ t hP.1) (hR t hP.1) (e2 t hP.1)
        (fun f g _ _ => stepFine_of_le_three hn (hQ' t hP.1) (hR t hP.1))
        (af t hP.1) (ag t hP.1) hg hP.2 hv) os 0
      (g := fun x => x.2.M') (momNear_started (symm_of_posSemidef hM.posSemidef) fun x => x.2.hM) h1
      fun j o x ho hx => by
        rw [zero_add]
        refine ⟨(List.getElem?_eq_some_iff.mp ho).1, ?_⟩
        rcases List.mem_cons.mp (List.mem_of_getElem? hx) with rfl | hx
        exacts [hM, hpos x hx]
    obtain ⟨K, u₀, h0, hK⟩ := exists_const_of_ev h rfl
    exact ⟨K, u₀, h0, fun u hu hu' ar f g a' M' hf hg ha hM' =>
      hK u hu hu' ⟨ar, f, g, a', M', hf, hg, ha, hM'⟩⟩

/-! ### Examples -/

/-- An arithmetic that is exact but for square roots, which are too small. -/
noncomputable def scaledArithS (svd : SvdRoutine) (qr : QR) {u : ℝ} (hu : 0 ≤ u) :
    ArithS (fun k => (k : ℝ) + 1) u where
  toArithC := scaledArithC svd qr hu (s := 1) (by simpa using hu)
  divr x y := x / y
  divr_err x y _ := by simp only [sub_self, abs_zero]; positivity
  sqrt x := (1 - u) * Real.sqrt x
  sqrt_err := (scaledArithU svd hu).sqrt_err
  lstsq k l A B := (scaledArith svd hu (s := 1) (by simpa using hu)).pinv k A * B
  lstsq_err k l A B := by
    refine ⟨_, (scaledArith svd hu (s := 1) (by simpa using hu)).pinv_err k A, fun i j => ?_⟩
    have h1 := sumAbs_nonneg ((scaledArith svd hu (s := 1) (by simpa using hu)).pinv k A)
    have h2 := sumAbs_nonneg B
    simp only [sub_self, abs_zero]
    positivity

/-- Two state dimensions with correlated transition noise, a transition function with a sine, one
observation missing: the constants exist, and there is an arithmetic in which square roots are
wrong. -/
example : ∃ K u₀ : ℝ, 0 < u₀ ∧ ∀ u, 0 ≤ u → u ≤ u₀ →
    ∃ (ar : ArithS (fun k => (k : ℝ) + 1) u) (p : UParams 2 1) (l l' : List (Moments 2)),
      (∀ x, ar.sqrt x = (1 - u) * Real.sqrt x) ∧
      p.f = .flat [fun x => ![Real.sin (x 1) + u * x 0, x 0]] ∧
      flSqFilter ar p [⟨![3], ![false]⟩, ⟨0, ![true]⟩, ⟨![2], ![false]⟩] = .ok l' ∧
      (∀ qr, sqFilter qr ⟨.flat [fun x => ![Real.sin (x 1), x 0]], .flat [fun x _ => x 0 ^ 2],
        !![2, 1; 1, 2], 1, 0, 1⟩ [⟨![3], ![false]⟩, ⟨0, ![true]⟩, ⟨![2], ![false]⟩] = .ok l) ∧
      MomentsWithin (K * u) l' l := by
  obtain ⟨svd⟩ := exists_svdRoutine
  obtain ⟨qr⟩ := exists_QR
  have lf : (Fns.flat [fun (x : Vec 2) => ![Real.sin (x 1), x 0]]).All LocallyLipschitz := by
    intro f hf
    rw [List.mem_singleton.mp hf]
    have : ContDiff ℝ 1 fun (x : Vec 2) => ![Real.sin (x 1), x 0] :=
      contDiff_pi.mpr fun i => by
        fin_cases i
        · exact Real.contDiff_sin.comp (contDiff_apply ℝ ℝ 1)
        · exact contDiff_apply ℝ ℝ 0
    exact this.locallyLipschitz
  have lg : (Fns.flat [fun (x : Vec 2) (_ : Fin 1) => x 0 ^ 2]).All LocallyLipschitz := by
    intro f hf
    rw [List.mem_singleton.mp hf]
    have : ContDiff ℝ 1 fun (x : Vec 2) (_ : Fin 1) => x 0 ^ 2 :=
      contDiff_pi.mpr fun _ => (contDiff_apply ℝ ℝ 0).pow 2
    exact this.locallyLipschitz
  have hQ : (!![2, 1; 1, 2] : Mat 2 2).PosDef := by
    rw [show (!![2, 1; 1, 2] : Mat 2 2) = 1 + (!![1; 1] : Matrix (Fin 2) (Fin 1) ℝ)
        * (!![1; 1] : Matrix (Fin 2) (Fin 1) ℝ)ᵀ by
      ext i j
      rw [Matrix.add_apply, Matrix.mul_apply, Fin.sum_univ_one]
      fin_cases i <;> fin_cases j <;> simp <;> norm_num]
    exact PosDef.one.add_posSemidef (by
      have := posSemidef_self_mul_conjTranspose (!![1; 1] : Matrix (Fin 2) (Fin 1) ℝ)
      rwa [conjTranspose_eq_transpose_of_trivial] at this)
  obtain ⟨l, hl, -, K, u₀, h0, h⟩ := C105_filter (fun k => (k : ℝ) + 1) (by norm_num)
    (p := ⟨.flat [fun x => ![Real.sin (x 1), x 0]], .flat [fun x _ => x 0 ^ 2],
        !![2, 1; 1, 2], 1, 0, 1⟩)
    hQ PosDef.one PosDef.one lf lg (κf := fun x => |x 0|) (κg := fun _ => 0)
    (continuous_abs.comp (continuous_apply 0)) continuous_const
    (os := [⟨![3], ![false]⟩, ⟨0, ![true]⟩, ⟨![2], ![false]⟩])
    (fun _ _ => ⟨_, rfl⟩) (fun _ _ => ⟨_, rfl⟩)
  refine ⟨K, u₀, h0, fun u hu hu' => ?_⟩
  obtain ⟨l', h1, h2⟩ := h u hu hu' (scaledArithS svd qr hu)
    (.flat [fun x => ![Real.sin (x 1) + u * x 0, x 0]]) (.flat [fun x _ => x 0 ^ 2])
    (.cons (fun x i => by
      fin_cases i
      · show |Real.sin (x 1) + u * x 0 - Real.sin (x 1)| ≤ u * |x 0|
        rw [add_sub_cancel_left, abs_mul, abs_of_nonneg hu]
      · show |x 0 - x 0| ≤ u * |x 0|
        rw [sub_self, abs_zero]
        positivity) .nil)
    (.cons (fun x i => by simp) .nil)
  exact ⟨scaledArithS svd qr hu, _, l, l', fun _ => rfl, rfl, h1, hl, h2⟩

/-- Affine functions that change over time, as in `C105_filter_affine`. -/
example : exUPosDef.AffineAs exPosDef ∧ exPosDef.PosDef ∧ (∃ q : Vec 2, exUPosDef.Q = diagonal q) ∧
    (exUPosDef.f.All fun f => ∃ (A : Mat 2 2) (b : Vec 2), ∀ x, f x = A *ᵥ x + b) ∧
    (exUPosDef.g.All fun g => ∃ (C : Mat 1 2) (d : Vec 1), ∀ x, g x = C *ᵥ x + d) ∧
    exPosDef.DefinedFor 3 := by
  refine ⟨exUPosDef_affine, exPosDef_posDef, ⟨![2, 1], ?_⟩, ?_, ?_, definedFor_iff_covers.mpr
    ⟨le_refl 2, trivial, trivial, trivial, trivial, trivial⟩⟩
  · ext i j
    fin_cases i <;> fin_cases j <;> simp [exUPosDef]
  · intro r hr f hf
    simp only [List.mem_cons, List.not_mem_nil, or_false] at hr
    rcases hr with rfl | rfl <;> rw [List.mem_singleton.mp hf] <;> exact ⟨_, _, fun _ => rfl⟩
  · intro g hg
    rw [List.mem_singleton.mp hg]
    exact ⟨_, _, fun _ => rfl⟩

/-- A program of calls, one without an observation, one with a function of its own, one with
covariances of its own. -/
example (c : ℕ → ℝ) (κ : ℝ) : ∃ l, (∀ qr, sqProgram qr
      (⟨.flat [fun x => (2 : ℝ) • x], .flat [fun x => x], 1, 1, 0, 1⟩ : UParams 1 1)
      (fun t => if t = 1 then ⟨some fun x => (3 : ℝ) • x, none, none, none⟩
        else ⟨none, some 1, none, none⟩)
      ⟨0, 1⟩ [some ⟨![3], ![false]⟩, none, some ⟨0, ![true]⟩] = .ok l) ∧
    (∀ x ∈ l, x.cov.PosDef) := by
  have hl : ∀ a : ℝ, LocallyLipschitz fun x : Vec 1 => a • x := fun a =>
    (lipschitzWith_smul a).locallyLipschitz
  obtain ⟨l, h1, h4, -⟩ := C105_filter_update c κ (by norm_num)
    (p := (⟨.flat [fun x => (2 : ℝ) • x], .flat [fun x => x], 1, 1, 0, 1⟩ : UParams 1 1))
    (a := fun t => if t = 1 then ⟨some fun x => (3 : ℝ) • x, none, none, none⟩
      else ⟨none, some 1, none, none⟩) (M := ⟨0, 1⟩)
    (os := [some ⟨![3], ![false]⟩, none, some ⟨0, ![true]⟩])
    (fun t _ => by dsimp only; split <;> exact PosDef.one)
    (fun t _ => by dsimp only; split <;> exact PosDef.one) PosDef.one
    (fun t _ => by dsimp only; split <;> exact ⟨_, rfl⟩)
    (fun t _ => by dsimp only; split <;> exact ⟨_, rfl⟩)
    (by rintro f hf; rw [List.mem_singleton.mp hf]; exact hl 2)
    (by rintro f hf; rw [List.mem_singleton.mp hf]; exact LocallyLipschitz.id)
    (fun t _ f hf => by
      split at hf
      · cases hf
        exact hl 3
      · cases hf)
    (fun t _ f hf => by
      split at hf <;> cases hf)
    (κf := fun _ => 0) (κg := fun _ => 0) continuous_const continuous_const
  exact ⟨l, h1, h4⟩

/-- A nonlinear observation of one state, with a missing row in the middle. -/
example (c : ℕ → ℝ) : ∃ l, (∀ qr, sqSmooth qr
      (⟨.flat [fun x => (2 : ℝ) • x], .flat [fun x _ => x 0 ^ 2], 1, 1, 0, 1⟩ : UParams 1 1)
      [⟨![3], ![false]⟩, ⟨0, ![true]⟩, ⟨![1], ![false]⟩] = .ok l) ∧ (∀ x ∈ l, x.cov.PosDef) := by
  obtain ⟨l, -, h1, h2, -⟩ := C105_smooth c
    (p := (⟨.flat [fun x => (2 : ℝ) • x], .flat [fun x _ => x 0 ^ 2], 1, 1, 0, 1⟩ : UParams 1 1))
    PosDef.one PosDef.one PosDef.one
    (by rintro f hf; rw [List.mem_singleton.mp hf]; exact (lipschitzWith_smul (2 : ℝ)).locallyLipschitz)
    (by
      rintro f hf
      rw [List.mem_singleton.mp hf]
      exact ContDiff.locallyLipschitz (contDiff_pi.mpr fun _ => (contDiff_apply ℝ ℝ 0).pow 2))
    (κf := fun _ => 0) (κg := fun _ => 0) continuous_const continuous_const
    (os := [⟨![3], ![false]⟩, ⟨0, ![true]⟩, ⟨![1], ![false]⟩]) (by simp)
    (fun t _ => ⟨_, rfl⟩) (fun t _ => ⟨_, rfl⟩)
  exact ⟨l, h1, h2⟩

end Verif
