import Verif.Spec.Rounded
import Verif.Proofs.RoundedEm
import Verif.Props.Rounded
import Verif.Props.EmMonotone
import Verif.Props.RoundedLoglik

/-!
# C92: rounding errors in `em`

In arithmetic with relative errors up to `u` in every operation the parameters after any number of
iterations of `em` differ from the exact ones by at most a constant times `u`.
-/

open Matrix Topology

namespace Verif

variable {n m : ℕ} {c : ℕ → ℝ}

theorem near_flEmLoop {ι : Type} {F : Filter ι} {w : ι → ℝ} {er : ∀ i, ArithE c (w i)}
    (hw : Filter.Tendsto w F (𝓝 0)) {given : Params n m} {vars : EmVar → Bool} {os : List (Obs m)}
    (hne : os ≠ []) (hg : given.Covers os.length)
    (hA : vars .transitionMatrices = true → 2 ≤ os.length)
    (hC : vars .observationMatrices = true → ∃ o ∈ os, ¬ o.missing) (k : ℕ)
    {f : ι → Params n m} {p : Params n m} (hp : PNear F w f p) (hc : p.Covers os.length)
    (hpd : ∀ j < k, ∀ q, emLoop given vars os j p = .ok q → q.PD os.length) :
    RNear (PNear F w) (fun i => flEmLoop (er i) given vars os k (f i))
      (emLoop given vars os k p) := by
  induction k generalizing f p with
  | zero => exact .pure hp
  | succ k ih =>
    have hP := (hpd 0 (by omega) p rfl).fn hc
    obtain ⟨p', e1, c1, -⟩ := emIter_ok (vars := vars) hne hc hg
    refine (near_flEmStats hw hp hne hc hP).bind fun ss ss' hss hs => ?_
    obtain ⟨r1, r2⟩ := em_sums_regular hne hc hP hss
    refine (near_flEmStep hw given vars hp hs os (fun e => r1 (hC e)) (fun e => r2 (hA e))).bind
      fun g q hq hgq => ?_
    have e2 : (do let ss ← emStats p os; emStep given vars p ss os) = .ok q := by
      rw [hss]; exact hq
    obtain rfl : p' = q := by rw [e1] at e2; cases e2; rfl
    refine ih hgq c1 fun j hj q' hq' => hpd (j + 1) (by omega) q' ?_
    rw [emLoop_succ, e1]
    exact hq'

/-- One constant for a bound that gets weaker with the constant. -/
def Small {X : ℝ → Type} (D : ℝ → (u : ℝ) × X u → Prop) : Prop :=
  ∃ K u₀ : ℝ, 0 < u₀ ∧ ∀ u, 0 ≤ u → u ≤ u₀ → ∀ ar : X u, D (K * u) ⟨u, ar⟩

theorem Small.and {X : ℝ → Type} {D E : ℝ → (u : ℝ) × X u → Prop} (hD : Small D) (hE : Small E)
    (mD : ∀ a b x, a ≤ b → D a x → D b x) (mE : ∀ a b x, a ≤ b → E a x → E b x) :
    Small fun e x => D e x ∧ E e x := by
  obtain ⟨K, u₀, h0, h⟩ := hD
  obtain ⟨K', u₁, h1, h'⟩ := hE
  refine ⟨max K K', min u₀ u₁, lt_min h0 h1, fun u hu hu' ar => ⟨?_, ?_⟩⟩
  · exact mD _ _ _ (mul_le_mul_of_nonneg_right (le_max_left _ _) hu)
      (h u hu (hu'.trans (min_le_left _ _)) ar)
  · exact mE _ _ _ (mul_le_mul_of_nonneg_right (le_max_right _ _) hu)
      (h' u hu (hu'.trans (min_le_right _ _)) ar)

theorem small_of_owV {X : ℝ → Type} {k : ℕ} {f : (u : ℝ) × X u → Vec k} {a : Vec k}
    (h : OwV (smallErr X) (fun x => x.1) f a) : Small fun e x => ∀ i, |f x i - a i| ≤ e := by
  obtain ⟨K, u₀, hu₀, hK⟩ := exists_const (Finset.univ : Finset (Fin k)) (f := fun j x => f x j)
    (a := a) fun j _ => h j
  exact ⟨K, u₀, hu₀, fun u h0 hu ar i => hK u h0 hu ar i (Finset.mem_univ _)⟩

theorem small_of_owM {X : ℝ → Type} {k l : ℕ} {f : (u : ℝ) × X u → Mat k l} {a : Mat k l}
    (h : OwM (smallErr X) (fun x => x.1) f a) : Small fun e x => ∀ i j, |f x i j - a i j| ≤ e := by
  obtain ⟨K, u₀, hu₀, hK⟩ := exists_const (Finset.univ : Finset (Fin k × Fin l))
    (f := fun j x => f x j.1 j.2) (a := fun j => a j.1 j.2) fun j _ => h j.1 j.2
  exact ⟨K, u₀, hu₀, fun u h0 hu ar i j => hK u h0 hu ar (i, j) (Finset.mem_univ _)⟩

theorem TV.Within.refl {α : Type} {d : α → α → Prop} (hd : ∀ a, d a a) (x : TV α) :
    x.Within d x := by
  cases x with
  | const a => exact hd a
  | seq l => exact List.forall₂_same.mpr fun a _ => hd a

theorem TV.Within.mono {α : Type} {d d' : α → α → Prop} (hd : ∀ a b, d a b → d' a b) {x y : TV α}
    (h : x.Within d y) : x.Within d' y := by
  cases x <;> cases y
  · exact hd _ _ h
  · exact h
  · exact h
  · exact List.Forall₂.imp hd h

theorem small_of_tv {X : ℝ → Type} {α : Type} {R : ((u : ℝ) × X u → α) → α → Prop}
    {d : ℝ → α → α → Prop} (hd : ∀ e, 0 ≤ e → ∀ a, d e a a)
    (hR : ∀ g v, R g v → Small fun e x => d e (g x) v) {f : (u : ℝ) × X u → TV α} {a : TV α}
    (h : TVNear R f a) : Small fun e x => (f x).Within (d e) a := by
  cases a with
  | const v =>
    obtain ⟨g, hg, hgR⟩ := h
    obtain ⟨K, u₀, h0, h⟩ := hR g v hgR
    refine ⟨K, u₀, h0, fun u hu hu' ar => ?_⟩
    show (f ⟨u, ar⟩).Within _ _
    rw [hg]
    exact h u hu hu' ar
  | seq l =>
    refine ⟨0, 1, one_pos, fun u hu hu' ar => ?_⟩
    show (f ⟨u, ar⟩).Within _ _
    rw [show f ⟨u, ar⟩ = .seq l from h _]
    exact TV.Within.refl (hd _ (by rw [zero_mul])) _

theorem small_of_pnear {X : ℝ → Type} {f : (u : ℝ) × X u → Params n m} {p : Params n m}
    (h : PNear (smallErr X) (fun x => x.1) f p) : Small fun e x => (f x).WithinErr e p := by
  have hM : ∀ {k l : ℕ} {f : (u : ℝ) × X u → TV (Mat k l)} {a : TV (Mat k l)},
      TVNear (OwM (smallErr X) fun x => x.1) f a →
      Small fun e x => (f x).Within (fun X Y => ∀ i j, |X i j - Y i j| ≤ e) a := fun h =>
    small_of_tv (d := fun e X Y => ∀ i j, |X i j - Y i j| ≤ e)
      (fun e he a i j => by rw [sub_self, abs_zero]; exact he) (fun _ _ => small_of_owM) h
  have hV : ∀ {k : ℕ} {f : (u : ℝ) × X u → TV (Vec k)} {a : TV (Vec k)},
      TVNear (OwV (smallErr X) fun x => x.1) f a →
      Small fun e x => (f x).Within (fun X Y => ∀ i, |X i - Y i| ≤ e) a := fun h =>
    small_of_tv (d := fun e X Y => ∀ i, |X i - Y i| ≤ e)
      (fun e he a i => by rw [sub_self, abs_zero]; exact he) (fun _ _ => small_of_owV) h
  have mM : ∀ {k l : ℕ} {x y : TV (Mat k l)} {a b : ℝ}, a ≤ b →
      x.Within (fun X Y => ∀ i j, |X i j - Y i j| ≤ a) y →
      x.Within (fun X Y => ∀ i j, |X i j - Y i j| ≤ b) y := fun hab h =>
    h.mono fun _ _ h i j => (h i j).trans hab
  have mV : ∀ {k : ℕ} {x y : TV (Vec k)} {a b : ℝ}, a ≤ b →
      x.Within (fun X Y => ∀ i, |X i - Y i| ≤ a) y →
      x.Within (fun X Y => ∀ i, |X i - Y i| ≤ b) y := fun hab h =>
    h.mono fun _ _ h i => (h i).trans hab
  have m1 : ∀ {k : ℕ} {x y : Vec k} {a b : ℝ}, a ≤ b → (∀ i, |x i - y i| ≤ a) →
      ∀ i, |x i - y i| ≤ b := fun hab h i => (h i).trans hab
  have m2 : ∀ {k l : ℕ} {x y : Mat k l} {a b : ℝ}, a ≤ b → (∀ i j, |x i j - y i j| ≤ a) →
      ∀ i j, |x i j - y i j| ≤ b := fun hab h i j => (h i j).trans hab
  have key := (hM h.A).and ((hV h.b).and ((hM h.Q).and ((hM h.C).and ((hV h.d).and ((hM h.R).and
    ((small_of_owV h.mu0).and (small_of_owM h.S0)
    (fun _ _ _ e h => m1 e h) fun _ _ _ e h => m2 e h)
    (fun _ _ _ e h => mM e h) fun _ _ _ e h => ⟨m1 e h.1, m2 e h.2⟩)
    (fun _ _ _ e h => mV e h) fun _ _ _ e h => ⟨mM e h.1, m1 e h.2.1, m2 e h.2.2⟩)
    (fun _ _ _ e h => mM e h) fun _ _ _ e h => ⟨mV e h.1, mM e h.2.1, m1 e h.2.2.1, m2 e h.2.2.2⟩)
    (fun _ _ _ e h => mM e h) fun _ _ _ e h =>
      ⟨mM e h.1, mV e h.2.1, mM e h.2.2.1, m1 e h.2.2.2.1, m2 e h.2.2.2.2⟩)
    (fun _ _ _ e h => mV e h) fun _ _ _ e h =>
      ⟨mM e h.1, mM e h.2.1, mV e h.2.2.1, mM e h.2.2.2.1, m1 e h.2.2.2.2.1, m2 e h.2.2.2.2.2⟩)
    (fun _ _ _ e h => mM e h) fun _ _ _ e h =>
      ⟨mV e h.1, mM e h.2.1, mM e h.2.2.1, mV e h.2.2.2.1, mM e h.2.2.2.2.1, m1 e h.2.2.2.2.2.1,
        m2 e h.2.2.2.2.2.2⟩
  obtain ⟨K, u₀, h0, hk⟩ := key
  refine ⟨K, u₀, h0, fun u hu hu' ar => ?_⟩
  obtain ⟨hA, hb, hQ, hC, hd, hR, hmu, hS⟩ := hk u hu hu' ar
  exact ⟨hA, hb, hQ, hC, hd, hR, hmu, hS⟩

/-- **C92.** `em` with any selection of parameters and any number of iterations, from positive
definite covariances: for errors up to some `u₀` it succeeds, and all parameters differ from the
exact ones by at most `K u`, where `K` and `u₀` depend on the model, the data and the number of
iterations only.  Assumed: at least two rows if the transition matrix is estimated; a row that is
not masked if the observation matrix is estimated; and that the estimates of the observation
covariance from which a further iteration starts are positive definite (the other covariances
always are). -/
theorem C92_em (c : ℕ → ℝ) {p : Params n m} {os : List (Obs m)} (hne : os ≠ [])
    (hdef : p.DefinedFor os.length) (hp : p.PD os.length) (vars : EmVar → Bool) (k : ℕ)
    (hA : vars .transitionMatrices = true → 2 ≤ os.length)
    (hC : vars .observationMatrices = true → ∃ o ∈ os, ¬ o.missing)
    (hR : vars .observationCovariance = true → ∀ j, 0 < j → j < k →
      ∀ q R, kfEm p os j vars = .ok q → q.R = .const R → R.PosDef) :
    ∃ K u₀ : ℝ, 0 < u₀ ∧ ∀ u, 0 ≤ u → u ≤ u₀ → ∀ ar : ArithE c u,
      ∃ q q', flEm ar p os k vars = .ok q ∧ kfEm p os k vars = .ok q' ∧
        q.WithinErr (K * u) q' := by
  have hc := definedFor_iff_covers.mp hdef
  have hpd : ∀ j < k, ∀ q, kfEm p os j vars = .ok q → q.PD os.length := by
    intro j
    induction j with
    | zero => intro _ q hq; cases hq; exact hp
    | succ j ih =>
      intro hj q hq
      obtain ⟨q0, h0, -⟩ := C23_em_succeeds hne hdef j vars
      have h1 := hq
      rw [C23_em_add p os vars j 1, h0] at h1
      exact C24_em_covariances_posDef (ih (by omega) q0 h0) h1
        fun hv R eR => hR hv (j + 1) (by omega) hj q R hq eR
  obtain ⟨q', hq', -⟩ := C23_em_succeeds hne hdef k vars
  have hnear := near_flEmLoop (er := fun x : (u : ℝ) × ArithE c u => x.2) smallErr_tendsto hne hc
    hA hC k (PNear.refl p) hc hpd
  have e : emLoop p vars os k p = .ok q' := hq'
  rw [e] at hnear
  obtain ⟨g, hg, hgq⟩ := hnear
  obtain ⟨K, u₀, h0, h⟩ := small_of_pnear hgq
  exact ⟨K, u₀, h0, fun u hu hu' ar => ⟨g ⟨u, ar⟩, q', hg ⟨u, ar⟩, hq', h u hu hu' ar⟩⟩

/-- **C92, nothing assumed of the computed parameters.**  As `C92_em`, if the observation covariance
is not selected, or selected with an observation matrix that is kept and has full row rank at an
unmasked row (the default selection keeps the observation matrix). -/
theorem C92_em_kept (c : ℕ → ℝ) {p : Params n m} {os : List (Obs m)} (hne : os ≠ [])
    (hdef : p.DefinedFor os.length) (hp : p.PD os.length) (vars : EmVar → Bool) (k : ℕ)
    (hA : vars .transitionMatrices = true → 2 ≤ os.length)
    (hC : vars .observationMatrices = true → ∃ o ∈ os, ¬ o.missing)
    (hrank : vars .observationCovariance = true →
      vars .observationMatrices = false ∧ KeepsObsCov p os) :
    ∃ K u₀ : ℝ, 0 < u₀ ∧ ∀ u, 0 ≤ u → u ≤ u₀ → ∀ ar : ArithE c u,
      ∃ q q', flEm ar p os k vars = .ok q ∧ kfEm p os k vars = .ok q' ∧
        q.WithinErr (K * u) q' := by
  refine C92_em c hne hdef hp vars k hA hC fun _ j _ _ q R hq eR => ?_
  obtain ⟨q', h1, h2⟩ := kfEm_posDef_all hne hdef hp hrank j
  rw [hq] at h1
  cases h1
  exact h2.R 0 (List.length_pos_iff.mpr hne) R (by rw [eR]; rfl)

/-- **C92, the likelihood does not get worse but for rounding.**  Where `loglikelihood` of the exact
iterates does not decrease (C05), the computed `loglikelihood` of the computed parameters after
`k + 1` iterations is at most `K u` below that of the computed parameters after `k`. -/
theorem C92_em_nearly_monotone (c : ℕ → ℝ) {p : Params n m} {os : List (Obs m)} (hne : os ≠ [])
    (hdef : p.DefinedFor os.length) (hp : p.PD os.length) (vars : EmVar → Bool) (k : ℕ)
    (hinv : p.EmInvariant vars) (hRc : p.R.IsConst)
    (hA : vars .transitionMatrices = true → 2 ≤ os.length)
    (hC : vars .observationMatrices = true → ∃ o ∈ os, ¬ o.missing)
    (hrank : vars .observationCovariance = true →
      vars .observationMatrices = false ∧ KeepsObsCov p os) :
    ∃ K u₀ : ℝ, 0 < u₀ ∧ ∀ u, 0 ≤ u → u ≤ u₀ → ∀ ar : ArithEL c u,
      ∃ q q' l l', flEm ar.toArithE p os k vars = .ok q ∧
        flEm ar.toArithE p os (k + 1) vars = .ok q' ∧ flLoglik ar.toArithL q os = .ok l ∧
        flLoglik ar.toArithL q' os = .ok l' ∧ l - K * u ≤ l' := by
  have hc := definedFor_iff_covers.mp hdef
  have hpd := kfEm_posDef_all hne hdef hp hrank
  obtain ⟨L, hmono, hL⟩ := C05_em_monotone_sequence_partial hne hdef hinv hRc hp hrank
  have key : ∀ j, ∃ (g : (u : ℝ) × ArithEL c u → Params n m) (v : (u : ℝ) × ArithEL c u → ℝ),
      (∀ x, flEm x.2.toArithE p os j vars = .ok (g x)) ∧
      (∀ᶠ x in smallErr (ArithEL c), flLoglik x.2.toArithL (g x) os = .ok (v x)) ∧
      Ow (smallErr (ArithEL c)) (fun x => x.1) v (L j) := by
    intro j
    have hnear := near_flEmLoop (er := fun x : (u : ℝ) × ArithEL c u => x.2.toArithE)
      smallErr_tendsto hne hc hA hC j (PNear.refl p) hc fun i _ q hq => by
        obtain ⟨q', h1, h2⟩ := hpd i
        have h1 : emLoop p vars os i p = .ok q' := h1
        rw [hq] at h1
        cases h1
        exact h2
    obtain ⟨q, h1, h2, h3⟩ := hL j
    have e : emLoop p vars os j p = .ok q := h1
    rw [e] at hnear
    obtain ⟨g, hg, hgq⟩ := hnear
    obtain ⟨q0, e0, d0⟩ := C23_em_succeeds hne hdef j vars
    rw [h1] at e0
    cases e0
    have hcq := definedFor_iff_covers.mp d0
    obtain ⟨v, L', hL', hok, hv⟩ := nearP_loglik
      (br := fun x : (u : ℝ) × ArithEL c u => x.2.toArithL) smallErr_tendsto hgq hcq
      (isConst_R_of_kfEm h1 hRc) (h2.fn hcq)
    rw [h3] at hL'
    cases hL'
    exact ⟨g, v, hg, hok, hv⟩
  obtain ⟨g, v, hg, hok, hv⟩ := key k
  obtain ⟨g', v', hg', hok', hv'⟩ := key (k + 1)
  obtain ⟨K, hK⟩ := (hv.sub hv').bound
  obtain ⟨u₀, hu₀, h⟩ := smallErr_eventually ((hok.and hok').and hK)
  refine ⟨K, u₀, hu₀, fun u h0 hu ar => ?_⟩
  obtain ⟨⟨h1, h2⟩, h3⟩ := h u h0 hu ar
  refine ⟨_, _, _, _, hg ⟨u, ar⟩, hg' ⟨u, ar⟩, h1, h2, ?_⟩
  rw [Real.norm_eq_abs, Real.norm_eq_abs, abs_of_nonneg h0] at h3
  have h4 := (abs_le.mp h3).2
  have h5 := hmono (Nat.le_succ k)
  simp only [Nat.succ_eq_add_one] at h5
  linarith

/-! ### Cases that meet the hypotheses -/

/-- Inner products, products and quotients too large or too small by the factor `s`. -/
noncomputable def scaledArithE (svd : SvdRoutine) {u s : ℝ} (hu : 0 ≤ u) (hs : |s - 1| ≤ u) :
    ArithE (fun k => (k : ℝ) + 1) u where
  toArith := scaledArith svd hu hs
  mulr x y := s * (x * y)
  divr x y := s * (x / y)
  mulr_err x y := by
    rw [show s * (x * y) - x * y = (s - 1) * (x * y) by ring, abs_mul]
    have := abs_nonneg (x * y)
    nlinarith
  divr_err x y _ := by
    rw [show s * (x / y) - x / y = (s - 1) * (x / y) by ring, abs_mul]
    have := abs_nonneg (x / y)
    nlinarith

/-- There are arithmetics with errors. -/
example : ∃ c : ℕ → ℝ, ∀ u, 0 ≤ u → ∃ ar : ArithE c u, ∀ x y, ar.mulr x y = (1 - u) * (x * y) := by
  obtain ⟨svd⟩ := exists_svdRoutine
  exact ⟨_, fun u hu => ⟨scaledArithE svd hu (abs_one_sub_sub_one hu), fun x y => rfl⟩⟩

/-- Three observations, one of them missing. -/
def exThree : List (Obs 1) := [⟨![2], ![false]⟩, ⟨![0], ![true]⟩, ⟨![5], ![false]⟩]

theorem exThree_keeps : KeepsObsCov exPlane exThree := by
  refine ⟨0, by simp [exThree], fun j => ?_, fun C hC y hy => ?_⟩
  · fin_cases j; rfl
  · cases hC
    have := congrFun hy 0
    ext i
    fin_cases i
    simpa [Matrix.mulVec, dotProduct] using this

/-- Ten iterations with the default selection. -/
example (c : ℕ → ℝ) : ∃ K u₀ : ℝ, 0 < u₀ ∧ ∀ u, 0 ≤ u → u ≤ u₀ → ∀ ar : ArithE c u,
    ∃ q q', flEm ar exPlane exThree 10 defaultVars = .ok q ∧
      kfEm exPlane exThree 10 defaultVars = .ok q' ∧ q.WithinErr (K * u) q' :=
  C92_em_kept (p := exPlane) c (by simp [exThree])
    (definedFor_iff_covers.mpr ⟨trivial, trivial, trivial, trivial, trivial, trivial⟩)
    ⟨fun t _ Q hQ => by cases hQ; exact PosDef.one, fun t _ R hR => by cases hR; exact PosDef.one,
      PosDef.one⟩ defaultVars 10 (fun h => by cases h) (fun h => by cases h)
    fun _ => ⟨rfl, exThree_keeps⟩

/-- One iteration with everything selected, for any two or more rows not all of which are masked. -/
example (c : ℕ → ℝ) (os : List (Obs 1)) (h2 : 2 ≤ os.length) (ho : ∃ o ∈ os, ¬ o.missing) :
    ∃ K u₀ : ℝ, 0 < u₀ ∧ ∀ u, 0 ≤ u → u ≤ u₀ → ∀ ar : ArithE c u,
      ∃ q q', flEm ar exPlane os 1 (fun _ => true) = .ok q ∧
        kfEm exPlane os 1 (fun _ => true) = .ok q' ∧ q.WithinErr (K * u) q' :=
  C92_em (p := exPlane) c (by rintro rfl; simp at h2)
    (definedFor_iff_covers.mpr ⟨trivial, trivial, trivial, trivial, trivial, trivial⟩)
    ⟨fun t _ Q hQ => by cases hQ; exact PosDef.one, fun t _ R hR => by cases hR; exact PosDef.one,
      PosDef.one⟩ _ 1 (fun _ => h2) (fun _ => ho) fun _ j h0 h1 => by omega

/-- The first ten iterations of that example. -/
example (c : ℕ → ℝ) : ∃ K u₀ : ℝ, 0 < u₀ ∧ ∀ u, 0 ≤ u → u ≤ u₀ → ∀ ar : ArithEL c u,
    ∃ q q' l l', flEm ar.toArithE exPlane exThree 9 defaultVars = .ok q ∧
      flEm ar.toArithE exPlane exThree 10 defaultVars = .ok q' ∧
      flLoglik ar.toArithL q exThree = .ok l ∧ flLoglik ar.toArithL q' exThree = .ok l' ∧
      l - K * u ≤ l' :=
  C92_em_nearly_monotone (p := exPlane) c (by simp [exThree])
    (definedFor_iff_covers.mpr ⟨trivial, trivial, trivial, trivial, trivial, trivial⟩)
    ⟨fun t _ Q hQ => by cases hQ; exact PosDef.one, fun t _ R hR => by cases hR; exact PosDef.one,
      PosDef.one⟩ defaultVars 9
    ⟨fun _ => ⟨_, rfl⟩, fun _ => ⟨_, rfl⟩, fun _ => ⟨_, rfl⟩, fun _ => ⟨_, rfl⟩,
      fun _ => ⟨_, rfl⟩, fun _ => ⟨_, rfl⟩⟩ ⟨1, rfl⟩ (fun h => by cases h) (fun h => by cases h)
    fun _ => ⟨rfl, exThree_keeps⟩

end Verif
