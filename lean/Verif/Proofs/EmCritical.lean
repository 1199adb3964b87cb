import Verif.Proofs.Smooth
import Verif.Spec.EmCurve
import Mathlib.Analysis.Calculus.LocalExtr.Basic
import Mathlib.Analysis.Calculus.FDeriv.Pi

/-!
# Fixed points of `em` are critical points of the likelihood
-/

open Matrix Filter Topology

namespace Verif

variable {n m : ℕ}

instance : Fintype EmVar :=
  ⟨{.transitionMatrices, .observationMatrices, .transitionOffsets, .observationOffsets,
    .transitionCovariance, .observationCovariance, .initialStateMean, .initialStateCovariance},
    fun v => by cases v <;> simp⟩

section
variable {p : Params n m} {vars : EmVar → Bool} {f : ℕ → EmStats n} {g : ℕ → Obs m} {T : ℕ}

/-- What one parameter of a fixed point is compared with. -/
def Competes {α : Type} [Inhabited α] (sel : Bool) (a : TV α) (ok : α → Prop) (a' : ℕ → α) : Prop :=
  if sel then ∃ c, ok c ∧ a' = fun _ => c else a' = a.get

variable (h : EmEqs p vars p f g T p) (hf : PairPSD f T) (hf' : ∀ t ≤ T, (f t).cov.PosSemidef)
  (hc : p.EmInvariant vars) (hp : p.fn.PD (T + 1))
include h hc hp

omit hf in
include hf' in
theorem fixed_C {C' : ℕ → Mat m n} (hC : Competes (vars .observationMatrices) p.C (fun _ => True) C') :
    eJoint f g T { p.fn with C := C' } ≤ eJoint f g T p.fn := by
  unfold Competes at hC
  have e := h.C
  split at hC
  · next hv =>
    obtain ⟨C, -, rfl⟩ := hC
    obtain ⟨R, eR⟩ := hc.R (Or.inl hv)
    rw [if_pos hv] at e
    have hR0 : (p.R.get 0).PosDef := hp.R 0 (by omega)
    rw [TV.get_of_eq_const eR] at hR0
    have := eObs_newC (g := g) (N := T + 1) (fun t ht => hf' t (by omega)) p.d.get hR0 C
    simp only [eJoint, Params.fn]
    rw [TV.get_of_eq_const e, TV.get_of_eq_const eR]
    linarith
  · rw [hC]; exact le_rfl

theorem fixed_R {R' : ℕ → Mat m m}
    (hR : Competes (vars .observationCovariance) p.R PosDef R') :
    eJoint f g T { p.fn with R := R' } ≤ eJoint f g T p.fn := by
  unfold Competes at hR
  have e := h.R
  split at hR
  · next hv =>
    obtain ⟨R, hR, rfl⟩ := hR
    rw [if_pos hv] at e
    have hR0 : (p.R.get 0).PosDef := hp.R 0 (by omega)
    rw [TV.get_of_eq_const e] at hR0
    have := eObs_newR (g := g) (N := T + 1) p.C.get p.d.get hR0 hR
    simp only [eJoint, Params.fn]
    rw [TV.get_of_eq_const e]
    linarith
  · rw [hR]; exact le_rfl

theorem fixed_d {d' : ℕ → Vec m}
    (hd : Competes (vars .observationOffsets) p.d (fun _ => True) d') :
    eJoint f g T { p.fn with d := d' } ≤ eJoint f g T p.fn := by
  unfold Competes at hd
  have e := h.d
  split at hd
  · next hv =>
    obtain ⟨d, -, rfl⟩ := hd
    obtain ⟨R, eR⟩ := hc.R (Or.inr (Or.inl hv))
    rw [if_pos hv] at e
    have hR0 : (p.R.get 0).PosDef := hp.R 0 (by omega)
    rw [TV.get_of_eq_const eR] at hR0
    have := eObs_newd (f := f) (g := g) (N := T + 1) p.C.get hR0 d
    simp only [eJoint, Params.fn]
    rw [TV.get_of_eq_const e, TV.get_of_eq_const eR]
    linarith
  · rw [hd]; exact le_rfl

include hf in
theorem fixed_A {A' : ℕ → Mat n n}
    (hA : Competes (vars .transitionMatrices) p.A (fun _ => True) A') :
    eJoint f g T { p.fn with A := A' } ≤ eJoint f g T p.fn := by
  rcases Nat.eq_zero_or_pos T with rfl | hT
  · simp [eJoint, eTrans]
  unfold Competes at hA
  have e := h.A
  split at hA
  · next hv =>
    obtain ⟨A, -, rfl⟩ := hA
    obtain ⟨Q, eQ⟩ := hc.Q (Or.inl hv)
    rw [if_pos hv] at e
    have hQ0 : (p.Q.get 0).PosDef := hp.Q 0 (by omega)
    rw [TV.get_of_eq_const eQ] at hQ0
    have := eTrans_newA hf p.b.get hQ0 A
    simp only [eJoint, Params.fn]
    rw [TV.get_of_eq_const e, TV.get_of_eq_const eQ]
    linarith
  · rw [hA]; exact le_rfl

theorem fixed_Q {Q' : ℕ → Mat n n}
    (hQ : Competes (vars .transitionCovariance) p.Q PosDef Q') :
    eJoint f g T { p.fn with Q := Q' } ≤ eJoint f g T p.fn := by
  rcases Nat.eq_zero_or_pos T with rfl | hT
  · simp [eJoint, eTrans]
  unfold Competes at hQ
  have e := h.Q
  split at hQ
  · next hv =>
    obtain ⟨Q, hQ, rfl⟩ := hQ
    rw [if_pos hv] at e
    have hQ0 : (p.Q.get 0).PosDef := hp.Q 0 (by omega)
    rw [TV.get_of_eq_const e] at hQ0
    have := eTrans_newQ p.A.get p.b.get hQ0 hQ
    simp only [eJoint, Params.fn]
    rw [TV.get_of_eq_const e]
    linarith
  · rw [hQ]; exact le_rfl

theorem fixed_b {b' : ℕ → Vec n}
    (hb : Competes (vars .transitionOffsets) p.b (fun _ => True) b') :
    eJoint f g T { p.fn with b := b' } ≤ eJoint f g T p.fn := by
  rcases Nat.eq_zero_or_pos T with rfl | hT
  · simp [eJoint, eTrans]
  unfold Competes at hb
  have e := h.b
  split at hb
  · next hv =>
    obtain ⟨b, -, rfl⟩ := hb
    obtain ⟨Q, eQ⟩ := hc.Q (Or.inr (Or.inl hv))
    rw [if_pos hv] at e
    have hQ0 : (p.Q.get 0).PosDef := hp.Q 0 (by omega)
    rw [TV.get_of_eq_const eQ] at hQ0
    have := eTrans_newb (f := f) (T := T) p.A.get hQ0 b
    simp only [eJoint, Params.fn]
    rw [TV.get_of_eq_const e, TV.get_of_eq_const eQ]
    linarith
  · rw [hb]; exact le_rfl

omit hc in
theorem fixed_mu0 {mu : Vec n} (hm : vars .initialStateMean = false → mu = p.mu0) :
    eJoint f g T { p.fn with mu0 := mu } ≤ eJoint f g T p.fn := by
  have e := h.mu0
  split at e
  · have := eInit_mu0 (f := f) hp.S0 mu
    simp only [eJoint, Params.fn] at this ⊢
    rw [e]
    linarith
  · next hv => rw [hm (by simpa using hv)]; exact le_rfl

omit hc in
theorem fixed_S0 {S : Mat n n} (hS : S.PosDef)
    (hm : vars .initialStateCovariance = false → S = p.S0) :
    eJoint f g T { p.fn with S0 := S } ≤ eJoint f g T p.fn := by
  have e := h.S0
  split at e
  · have h0 : (initTerm f p.mu0).PosDef := by
      have := hp.S0
      rw [show p.fn.S0 = p.S0 from rfl, e] at this
      exact this
    have := eInit_S0 p.mu0 h0 hS
    have e' : p.S0 = initTerm f p.mu0 := e
    simp only [eJoint, Params.fn] at this ⊢
    rw [e']
    linarith
  · next hv => rw [hm (by simpa using hv)]; exact le_rfl

end

/-! ### One variable at a time -/

section
variable {E : Type*} [NormedAddCommGroup E] [NormedSpace ℝ E] {r : WithTop ℕ∞} {x : E}

theorem SmoothM.comp {F : Type*} [NormedAddCommGroup F] [NormedSpace ℝ F] {ι κ : Type*}
    {M : E → Matrix ι κ ℝ} {φ : F → E} {y : F} (h : SmoothM r M (φ y)) (hφ : ContDiffAt ℝ r φ y) :
    SmoothM r (fun a => M (φ a)) y := fun i j => (h i j).comp y hφ

theorem SmoothV.comp {F : Type*} [NormedAddCommGroup F] [NormedSpace ℝ F] {ι : Type*}
    {v : E → ι → ℝ} {φ : F → E} {y : F} (h : SmoothV r v (φ y)) (hφ : ContDiffAt ℝ r φ y) :
    SmoothV r (fun a => v (φ a)) y := fun i => (h i).comp y hφ

/-- Each parameter at its own point of the family. -/
def mixed (c : E → Params n m) (φ : EmVar → E) : PFun n m where
  A := (c (φ .transitionMatrices)).A.get
  b := (c (φ .transitionOffsets)).b.get
  Q := (c (φ .transitionCovariance)).Q.get
  C := (c (φ .observationMatrices)).C.get
  d := (c (φ .observationOffsets)).d.get
  R := (c (φ .observationCovariance)).R.get
  mu0 := (c (φ .initialStateMean)).mu0
  S0 := (c (φ .initialStateCovariance)).S0

theorem mixed_smooth {c : E → Params n m} {T : ℕ}
    (h : PFun.SmoothFam r (fun θ => (c θ).fn) x T) :
    PFun.SmoothFam r (mixed c) (fun _ => x) T := by
  have pr : ∀ v : EmVar, ContDiffAt ℝ r (fun φ : EmVar → E => φ v) (fun _ => x) :=
    fun v => (contDiff_apply ℝ E v).contDiffAt
  exact ⟨fun t ht => (h.A t ht).comp (φ := fun φ : EmVar → E => φ _) (pr _),
    fun t ht => (h.b t ht).comp (φ := fun φ : EmVar → E => φ _) (pr _),
    fun t ht => (h.Q t ht).comp (φ := fun φ : EmVar → E => φ _) (pr _),
    fun t ht => (h.C t ht).comp (φ := fun φ : EmVar → E => φ _) (pr _),
    fun t ht => (h.d t ht).comp (φ := fun φ : EmVar → E => φ _) (pr _),
    fun t ht => (h.R t ht).comp (φ := fun φ : EmVar → E => φ _) (pr _),
    h.mu0.comp (φ := fun φ : EmVar → E => φ _) (pr _),
    h.S0.comp (φ := fun φ : EmVar → E => φ _) (pr _)⟩

/-- A function of several variables that has a local maximum in each variable separately, and is
differentiable, has derivative 0 along the diagonal. -/
theorem diag_fderiv {ι : Type*} [Fintype ι] [DecidableEq ι] {G : (ι → E) → ℝ}
    (hG : DifferentiableAt ℝ G fun _ => x)
    (hmax : ∀ v, ∀ᶠ θ in 𝓝 x, G (Function.update (fun _ => x) v θ) ≤ G fun _ => x) :
    HasFDerivAt (fun θ => G fun _ => θ) (0 : E →L[ℝ] ℝ) x := by
  have h0 := hG.hasFDerivAt
  set L := fderiv ℝ G fun _ => x with hL
  have hz : ∀ v, L.comp (ContinuousLinearMap.single ℝ (fun _ : ι => E) v) = 0 := by
    intro v
    have e : Function.update (fun _ : ι => x) v x = fun _ => x := by simp
    have h1 : HasFDerivAt (fun θ => G (Function.update (fun _ => x) v θ))
        (L.comp (ContinuousLinearMap.single ℝ (fun _ : ι => E) v)) x := by
      have hu := hasFDerivAt_update (𝕜 := ℝ) (fun _ : ι => x) (i := v) x
      have h0' : HasFDerivAt G L (Function.update (fun _ : ι => x) v x) := by rwa [e]
      have := h0'.comp x hu
      refine this.congr_fderiv ?_
      ext w
      simp only [ContinuousLinearMap.comp_apply]
      congr 1
      ext j
      by_cases hj : j = v
      · subst hj; simp
      · simp [hj]
    have hm : IsLocalMax (fun θ => G (Function.update (fun _ => x) v θ)) x := by
      filter_upwards [hmax v] with θ hθ
      rw [e]; exact hθ
    exact hm.hasFDerivAt_eq_zero h1
  have hL0 : L = 0 := by
    ext w
    have : w = ∑ v, Pi.single v (w v) := (Finset.univ_sum_single w).symm
    rw [this, map_sum]
    refine Finset.sum_eq_zero fun v _ => ?_
    exact DFunLike.congr_fun (hz v) (w v)
  rw [hL0] at h0
  have hd : HasFDerivAt (fun (θ : E) (_ : ι) => θ)
      (ContinuousLinearMap.pi fun _ => ContinuousLinearMap.id ℝ E) x :=
    hasFDerivAt_pi.mpr fun _ => hasFDerivAt_id x
  have := h0.comp x hd
  rwa [ContinuousLinearMap.zero_comp] at this

end

/-! ### Fixed points -/

section
variable {E : Type*} [NormedAddCommGroup E] [NormedSpace ℝ E] {x : E}

theorem TVSmooth.covers' {α : Type} [Inhabited α] {smooth : (E → α) → Prop} {a : E → TV α} {T : ℕ}
    (h : ∀ t, t < T → TVSmooth smooth a t) (θ : E) : (a θ).Covers T :=
  covers_of_forall fun t ht => by
    obtain ⟨v, hv, -⟩ := h t ht
    exact ⟨_, hv θ⟩

theorem TVSmooth.get {α : Type} [Inhabited α] {smooth : (E → α) → Prop} {a : E → TV α} {t : ℕ}
    (h : TVSmooth smooth a t) : smooth fun θ => (a θ).get t := by
  obtain ⟨v, hv, hs⟩ := h
  have : v = fun θ => (a θ).get t := by
    funext θ
    have := hv θ
    cases hx : a θ with
    | const b => rw [hx] at this; cases this; rfl
    | seq l =>
      rw [hx] at this
      simp only [lastDims] at this
      split at this
      · next h => cases this; simp [TV.get, h]
      · cases this
  rwa [← this]

theorem SmoothParams.covers {r : WithTop ℕ∞} {p : E → Params n m} {T : ℕ}
    (h : SmoothParams r p x T) (θ : E) : (p θ).Covers T :=
  ⟨TVSmooth.covers' (fun t ht => h.A t (by omega)) θ,
   TVSmooth.covers' (fun t ht => h.b t (by omega)) θ,
   TVSmooth.covers' (fun t ht => h.Q t (by omega)) θ,
   TVSmooth.covers' h.C θ, TVSmooth.covers' h.d θ, TVSmooth.covers' h.R θ⟩

theorem SmoothParams.fam {r : WithTop ℕ∞} {p : E → Params n m} {T : ℕ}
    (h : SmoothParams r p x T) : PFun.SmoothFam r (fun θ => (p θ).fn) x T :=
  ⟨fun t ht => (h.A t ht).get, fun t ht => (h.b t ht).get, fun t ht => (h.Q t ht).get,
   fun t ht => (h.C t ht).get, fun t ht => (h.d t ht).get, fun t ht => (h.R t ht).get,
   h.mu0, h.S0⟩

theorem MovesOnly.competes {α : Type} [Inhabited α] {sel : Bool} {a : TV α} {c : E → TV α}
    (h : MovesOnly sel a c) {ok : α → Prop} {θ : E} (hok : ok ((c θ).get 0)) :
    Competes sel a ok (c θ).get := by
  have := h θ
  unfold Competes
  split at this
  · next hs =>
    obtain ⟨v, hv⟩ := this
    rw [if_pos hs]
    rw [TV.get_of_eq_const hv] at hok ⊢
    exact ⟨v, hok, rfl⟩
  · next hs =>
    rw [if_neg hs, this]

theorem em_critical {p : Params n m} {vars : EmVar → Bool} {os : List (Obs m)}
    (hinv : p.EmInvariant vars) (hR : p.R.IsConst) (heq : EmEqs p vars p
      (p.fn.stats (obsFn os) (os.length - 1)) (obsFn os) (os.length - 1) p) (hne : os ≠ [])
    {c : E → Params n m} (hc : EmFamily vars p os.length c x) :
    ∃ l : E → ℝ, (∀ᶠ θ in 𝓝 x, kfLoglik (c θ) os = .ok (l θ)) ∧
      HasFDerivAt l (0 : E →L[ℝ] ℝ) x := by
  have hlen : os.length - 1 + 1 = os.length := Nat.sub_add_cancel (List.length_pos_iff.mpr hne)
  have hRc : ∀ θ, (c θ).R.IsConst := by
    intro θ
    have := hc.R θ
    split at this
    · exact this
    · rw [show (c θ).R = p.R from this]; exact hR
  have hcov := hc.smooth.covers
  have hP : ∀ᶠ θ in 𝓝 x, (c θ).fn.PD (os.length - 1 + 1) := by
    filter_upwards [hc.pd] with θ hθ
    rw [hlen]; exact hθ.fn (hcov θ)
  have hfam := hc.smooth.fam
  rw [← hlen] at hfam
  have hPx : (c x).fn.PD (os.length - 1 + 1) := hP.self_of_nhds
  have hp : p.fn.PD (os.length - 1 + 1) := by rw [← hc.base]; exact hPx
  obtain ⟨Ω, i1, ν, i2, X, hX⟩ := exists_statsMoments (p := p)
    (by rw [hlen, ← hc.base]; exact hcov x) hp.psd (obsFn os)
  refine ⟨fun θ => (c θ).fn.predLL (obsFn os) (os.length - 1), ?_, ?_⟩
  · filter_upwards [hc.pd] with θ hθ
    exact kfLoglik_predLL hne (hcov θ) hθ (hRc θ)
  · generalize hT : os.length - 1 = T at *
    generalize hg : obsFn os = g at *
    have hz : SmoothObs 1 (fun _ : E => g) x (T + 1) := by
      intro t _
      by_cases hm : (g t).missing
      · exact Or.inl fun _ => hm
      · exact Or.inr ⟨fun _ => hm, SmoothV.const _⟩
    have hl : DifferentiableAt ℝ (fun θ => (c θ).fn.predLL g T) x :=
      (hfam.predLL hz (hPx.regular _)).differentiableAt one_ne_zero
    have hmx : mixed c (fun _ => x) = p.fn := by simp only [mixed, hc.base, Params.fn]
    have hG : DifferentiableAt ℝ (fun φ => eJoint (p.fn.stats g T) g T (mixed c φ))
        (fun _ => x) :=
      ((mixed_smooth hfam).eJoint (by rw [hmx]; exact hp) _ _).differentiableAt one_ne_zero
    have hf := stats_pairPSD hp.psd g
    have hf' : ∀ t ≤ T, (p.fn.stats g T t).cov.PosSemidef := fun t ht => hp.psd.smooth ht _
    have he : HasFDerivAt (fun θ => eJoint (p.fn.stats g T) g T (c θ).fn) (0 : E →L[ℝ] ℝ) x := by
      refine diag_fderiv hG fun v => ?_
      filter_upwards [hP] with θ hθ
      simp only [hmx]
      cases v
      · rw [show mixed c (Function.update (fun _ => x) .transitionMatrices θ)
          = { p.fn with A := (c θ).A.get } by simp [mixed, Params.fn, Function.update, hc.base]]
        exact fixed_A heq hf hinv hp (hc.A.competes trivial)
      · rw [show mixed c (Function.update (fun _ => x) .observationMatrices θ)
          = { p.fn with C := (c θ).C.get } by simp [mixed, Params.fn, Function.update, hc.base]]
        exact fixed_C heq hf' hinv hp (hc.C.competes trivial)
      · rw [show mixed c (Function.update (fun _ => x) .transitionOffsets θ)
          = { p.fn with b := (c θ).b.get } by simp [mixed, Params.fn, Function.update, hc.base]]
        exact fixed_b heq hinv hp (hc.b.competes trivial)
      · rw [show mixed c (Function.update (fun _ => x) .observationOffsets θ)
          = { p.fn with d := (c θ).d.get } by simp [mixed, Params.fn, Function.update, hc.base]]
        exact fixed_d heq hinv hp (hc.d.competes trivial)
      · rw [show mixed c (Function.update (fun _ => x) .transitionCovariance θ)
          = { p.fn with Q := (c θ).Q.get } by simp [mixed, Params.fn, Function.update, hc.base]]
        rcases Nat.eq_zero_or_pos T with rfl | hT0
        · simp [eJoint, eTrans]
        · exact fixed_Q heq hinv hp (hc.Q.competes (hθ.Q 0 (by omega)))
      · rw [show mixed c (Function.update (fun _ => x) .observationCovariance θ)
          = { p.fn with R := (c θ).R.get } by simp [mixed, Params.fn, Function.update, hc.base]]
        exact fixed_R heq hinv hp (hc.R.competes (hθ.R 0 (by omega)))
      · rw [show mixed c (Function.update (fun _ => x) .initialStateMean θ)
          = { p.fn with mu0 := (c θ).mu0 } by simp [mixed, Params.fn, Function.update, hc.base]]
        exact fixed_mu0 heq hp fun hv => hc.mu0 hv θ
      · rw [show mixed c (Function.update (fun _ => x) .initialStateCovariance θ)
          = { p.fn with S0 := (c θ).S0 } by simp [mixed, Params.fn, Function.update, hc.base]]
        exact fixed_S0 heq hp hθ.S0 fun hv => hc.S0 hv θ
    have hd := hl.hasFDerivAt.sub he
    have hmin : IsLocalMin (fun θ => (c θ).fn.predLL g T
        - eJoint (p.fn.stats g T) g T (c θ).fn) x := by
      filter_upwards [hP] with θ hθ
      have := predLL_ge hX hp hθ
      simp only [hc.base]
      linarith
    have h0 := hmin.hasFDerivAt_eq_zero hd
    rw [sub_zero] at h0
    have := hl.hasFDerivAt
    rwa [h0] at this

end

end Verif
