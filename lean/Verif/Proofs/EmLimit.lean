import Verif.Proofs.EmCritical
import Verif.Proofs.EmLoop

/-!
# The iteration of `em` is smooth where covariances are positive definite
-/

open Matrix Filter Topology

namespace Verif

variable {n m : ℕ}

section
variable {E : Type*} [NormedAddCommGroup E] [NormedSpace ℝ E] {r : WithTop ℕ∞} {x : E}

/-- Statistics that depend smoothly on `θ`. -/
structure SmoothStats (r : WithTop ℕ∞) (f : E → ℕ → EmStats n) (x : E) (T : ℕ) : Prop where
  mean : ∀ t ≤ T, SmoothV r (fun θ => (f θ t).mean) x
  cov : ∀ t ≤ T, SmoothM r (fun θ => (f θ t).cov) x
  pair : ∀ t < T, SmoothM r (fun θ => (f θ (t + 1)).pair) x

theorem smoothObs_const (g : ℕ → Obs m) (T : ℕ) : SmoothObs r (fun _ : E => g) x T := by
  intro t _
  by_cases hm : (g t).missing
  · exact Or.inl fun _ => hm
  · exact Or.inr ⟨fun _ => hm, SmoothV.const _⟩

theorem PFun.SmoothFam.stats {P : E → PFun n m} {T : ℕ} (h : PFun.SmoothFam r P x (T + 1))
    (hP : (P x).PD (T + 1)) (g : ℕ → Obs m) : SmoothStats r (fun θ => (P θ).stats g T) x T := by
  have k : ∀ t, t ≤ T → SmoothSStep r (fun θ => (P θ).ks g T t) x := fun t ht =>
    h.ks (z := fun _ => g) (smoothObs_const g _) (hP.regular _)
      (fun t ht => (hP.filt _ (by omega)).1.det_pos.ne') ht
  refine ⟨fun t ht => (k t ht).mean, fun t ht => (k t ht).cov, fun t ht => ?_⟩
  simp only [PFun.stats, Nat.succ_ne_zero, if_false, Nat.add_sub_cancel]
  exact (k (t + 1) (by omega)).cov.mul (k t (by omega)).gain.transpose

variable {f : E → ℕ → EmStats n} {T : ℕ}

theorem SmoothStats.second (h : SmoothStats r f x T) {t : ℕ} (ht : t ≤ T) :
    SmoothM r (fun θ => (f θ t).cov + vecMulVec (f θ t).mean (f θ t).mean) x :=
  (h.cov t ht).add ((h.mean t ht).vecMulVec (h.mean t ht))

theorem SmoothStats.newA (h : SmoothStats r f x T) (hpd : ∀ t ≤ T, (f x t).cov.PosDef)
    {b : E → ℕ → Vec n} (hb : ∀ t < T, SmoothV r (fun θ => b θ t) x) :
    SmoothM r (fun θ => Verif.newA (f θ) (b θ) T) x := by
  rcases Nat.eq_zero_or_pos T with rfl | hT
  · simp only [Verif.newA, Finset.range_zero, Finset.sum_empty, Matrix.zero_mul]
    exact SmoothM.const _
  simp only [Verif.newA]
  refine SmoothM.mul (SmoothM.sum fun t ht => ?_) (SmoothM.pinv (SmoothM.sum fun t ht => ?_) ?_)
  · have ht := Finset.mem_range.mp ht
    exact ((h.pair t ht).add ((h.mean (t + 1) (by omega)).vecMulVec (h.mean t (by omega)))).sub
      ((hb t ht).vecMulVec (h.mean t (by omega)))
  · have ht := Finset.mem_range.mp ht
    exact h.second (by omega)
  · exact (sum_posDef hT fun t ht =>
      (hpd t (by omega)).add_posSemidef (vecMulVec_posSemidef _)).det_pos.ne'

theorem SmoothStats.newC (h : SmoothStats r f x T) (hpd : ∀ t ≤ T, (f x t).cov.PosDef)
    (g : ℕ → Obs m) {d : E → ℕ → Vec m} (hd : ∀ t ≤ T, SmoothV r (fun θ => d θ t) x) :
    SmoothM r (fun θ => Verif.newC (f θ) g (d θ) (T + 1)) x := by
  by_cases h0 : ∀ t ≤ T, (g t).missing
  · have e : ∀ θ, Verif.newC (f θ) g (d θ) (T + 1) = 0 := by
      intro θ
      rw [Verif.newC, Finset.sum_eq_zero, Matrix.zero_mul]
      intro t ht
      have ht := Finset.mem_range.mp ht
      rw [Obs.w_missing (h0 t (by omega)), zero_smul]
    simp only [e]
    exact SmoothM.const _
  push Not at h0
  obtain ⟨s, hs, ho⟩ := h0
  simp only [Verif.newC]
  refine SmoothM.mul (SmoothM.sum fun t ht => ?_) (SmoothM.pinv (SmoothM.sum fun t ht => ?_) ?_)
  · have ht := Finset.mem_range.mp ht
    exact SmoothM.smul contDiffAt_const (((SmoothV.const _).sub (hd t (by omega))).vecMulVec
      (h.mean t (by omega)))
  · have ht := Finset.mem_range.mp ht
    exact SmoothM.smul contDiffAt_const (h.second (by omega))
  · have hps : ∀ t ∈ Finset.range (T + 1), ((g t).w • ((f x t).cov
        + vecMulVec (f x t).mean (f x t).mean)).PosSemidef := fun t ht =>
      smul_posSemidef (g t).w_nonneg ((hpd t (by have := Finset.mem_range.mp ht; omega)).posSemidef.add
        (vecMulVec_posSemidef _))
    have hsum : (∑ t ∈ Finset.range (T + 1), (g t).w • ((f x t).cov
        + vecMulVec (f x t).mean (f x t).mean)).PosSemidef :=
      posSemidef_sum _ hps
    refine (posDef_of_ker hsum fun y hy => ?_).det_pos.ne'
    have := sum_mulVec_zero hps hy s (Finset.mem_range.mpr (by omega))
    rw [Obs.w_observed ho, one_smul] at this
    exact posDef_ker ((hpd s hs).add_posSemidef (vecMulVec_posSemidef _)) this

theorem SmoothStats.newR (h : SmoothStats r f x T) (g : ℕ → Obs m) {C : E → ℕ → Mat m n}
    {d : E → ℕ → Vec m} (hC : ∀ t ≤ T, SmoothM r (fun θ => C θ t) x)
    (hd : ∀ t ≤ T, SmoothV r (fun θ => d θ t) x) :
    SmoothM r (fun θ => Verif.newR (f θ) g (C θ) (d θ) (T + 1)) x := by
  have hs : SmoothM r (fun θ => obsScatter (f θ) g (C θ) (d θ) (T + 1)) x := by
    simp only [obsScatter]
    refine SmoothM.sum fun t ht => SmoothM.smul contDiffAt_const ?_
    have ht : t ≤ T := by have := Finset.mem_range.mp ht; omega
    have h1 := ((SmoothV.const (r := r) (x := x) (g t).val).sub
      ((hC t ht).mulVec (h.mean t ht))).sub (hd t ht)
    exact (h1.vecMulVec h1).add ((hC t ht).mul ((h.cov t ht).mul (hC t ht).transpose))
  simp only [Verif.newR]
  split
  · exact SmoothM.smul contDiffAt_const hs
  · exact hs

theorem SmoothStats.newQ (h : SmoothStats r f x T) {A : E → ℕ → Mat n n}
    {b : E → ℕ → Vec n} (hA : ∀ t < T, SmoothM r (fun θ => A θ t) x)
    (hb : ∀ t < T, SmoothV r (fun θ => b θ t) x) :
    SmoothM r (fun θ => Verif.newQ (f θ) (A θ) (b θ) T) x := by
  have hs : SmoothM r (fun θ => transScatter (f θ) (A θ) (b θ) T) x := by
    simp only [transScatter]
    refine SmoothM.sum fun t ht => ?_
    have ht := Finset.mem_range.mp ht
    have h1 := ((h.mean (t + 1) ht).sub ((hA t ht).mulVec (h.mean t (by omega)))).sub (hb t ht)
    have h2 := (h.pair t ht).mul (hA t ht).transpose
    exact ((((h1.vecMulVec h1).add ((hA t ht).mul ((h.cov t (by omega)).mul
      (hA t ht).transpose))).add (h.cov (t + 1) ht)).sub h2).sub h2.transpose
  simp only [Verif.newQ]
  split
  · exact SmoothM.smul contDiffAt_const hs
  · exact hs

theorem SmoothStats.newb (h : SmoothStats r f x T) {A : E → ℕ → Mat n n}
    (hA : ∀ t < T, SmoothM r (fun θ => A θ t) x) :
    SmoothV r (fun θ => Verif.newb (f θ) (A θ) T) x := by
  simp only [Verif.newb]
  split
  · refine SmoothV.smul contDiffAt_const (SmoothV.sum fun t ht => ?_)
    have ht := Finset.mem_range.mp ht
    exact (h.mean (t + 1) ht).sub ((hA t ht).mulVec (h.mean t (by omega)))
  · exact SmoothV.const _

theorem SmoothStats.newd (h : SmoothStats r f x T) (g : ℕ → Obs m) {C : E → ℕ → Mat m n}
    (hC : ∀ t ≤ T, SmoothM r (fun θ => C θ t) x) :
    SmoothV r (fun θ => Verif.newd (f θ) g (C θ) (T + 1)) x := by
  have hs : SmoothV r (fun θ => ∑ t ∈ Finset.range (T + 1),
      (g t).w • ((g t).val - C θ t *ᵥ (f θ t).mean)) x := by
    refine SmoothV.sum fun t ht => SmoothV.smul contDiffAt_const ?_
    have ht : t ≤ T := by have := Finset.mem_range.mp ht; omega
    exact (SmoothV.const _).sub ((hC t ht).mulVec (h.mean t ht))
  simp only [Verif.newd]
  split
  · exact SmoothV.smul contDiffAt_const hs
  · exact hs

end

/-! ### The space of the parameters -/

/-- Values for the eight parameters, in the order `A b Q C d R mu0 S0`. -/
abbrev EmSpace (n m : ℕ) :=
  (Fin n → Fin n → ℝ) × (Fin n → ℝ) × (Fin n → Fin n → ℝ) × (Fin m → Fin n → ℝ) × (Fin m → ℝ)
    × (Fin m → Fin m → ℝ) × (Fin n → ℝ) × (Fin n → Fin n → ℝ)

/-- `p` with the selected parameters replaced. -/
def assemble (vars : EmVar → Bool) (p : Params n m) (θ : EmSpace n m) : Params n m where
  A := if vars .transitionMatrices then .const (Matrix.of θ.1) else p.A
  b := if vars .transitionOffsets then .const θ.2.1 else p.b
  Q := if vars .transitionCovariance then .const (Matrix.of θ.2.2.1) else p.Q
  C := if vars .observationMatrices then .const (Matrix.of θ.2.2.2.1) else p.C
  d := if vars .observationOffsets then .const θ.2.2.2.2.1 else p.d
  R := if vars .observationCovariance then .const (Matrix.of θ.2.2.2.2.2.1) else p.R
  mu0 := if vars .initialStateMean then θ.2.2.2.2.2.2.1 else p.mu0
  S0 := if vars .initialStateCovariance then Matrix.of θ.2.2.2.2.2.2.2 else p.S0

theorem assemble_smooth {r : WithTop ℕ∞} (vars : EmVar → Bool) (p : Params n m) (x : EmSpace n m)
    (T : ℕ) : PFun.SmoothFam r (fun θ => (assemble vars p θ).fn) x T := by
  constructor
  · intro t _ i j
    simp only [Params.fn, assemble]
    split
    · simp only [TV.get, Matrix.of_apply]; fun_prop
    · exact contDiffAt_const
  · intro t _ i
    simp only [Params.fn, assemble]
    split
    · simp only [TV.get]; fun_prop
    · exact contDiffAt_const
  · intro t _ i j
    simp only [Params.fn, assemble]
    split
    · simp only [TV.get, Matrix.of_apply]; fun_prop
    · exact contDiffAt_const
  · intro t _ i j
    simp only [Params.fn, assemble]
    split
    · simp only [TV.get, Matrix.of_apply]; fun_prop
    · exact contDiffAt_const
  · intro t _ i
    simp only [Params.fn, assemble]
    split
    · simp only [TV.get]; fun_prop
    · exact contDiffAt_const
  · intro t _ i j
    simp only [Params.fn, assemble]
    split
    · simp only [TV.get, Matrix.of_apply]; fun_prop
    · exact contDiffAt_const
  · intro i
    simp only [Params.fn, assemble]
    split
    · fun_prop
    · exact contDiffAt_const
  · intro i j
    simp only [Params.fn, assemble]
    by_cases hv : vars .initialStateCovariance
    · simp only [hv, if_true, Matrix.of_apply]; fun_prop
    · simp only [hv]; exact contDiffAt_const


/-! ### The result of an iteration as a function of the parameters -/

/-- The parameters determined by `EmEqs`. -/
noncomputable def emNext (given : Params n m) (vars : EmVar → Bool) (old : Params n m)
    (f : ℕ → EmStats n) (g : ℕ → Obs m) (T : ℕ) : Params n m :=
  let C := if vars .observationMatrices then .const (newC f g old.d.get (T + 1)) else given.C
  let R := if vars .observationCovariance then .const (newR f g C.get old.d.get (T + 1))
    else given.R
  let A := if vars .transitionMatrices then .const (newA f old.b.get T) else given.A
  let Q := if vars .transitionCovariance then .const (newQ f A.get old.b.get T) else given.Q
  let mu0 := if vars .initialStateMean then (f 0).mean else given.mu0
  let S0 := if vars .initialStateCovariance then
      (f 0).cov + vecMulVec ((f 0).mean - mu0) ((f 0).mean - mu0) else given.S0
  let b := if vars .transitionOffsets then .const (newb f A.get T) else given.b
  let d := if vars .observationOffsets then .const (newd f g C.get (T + 1)) else given.d
  ⟨A, b, Q, C, d, R, mu0, S0⟩

theorem emNext_eqs (given : Params n m) (vars : EmVar → Bool) (old : Params n m)
    (f : ℕ → EmStats n) (g : ℕ → Obs m) (T : ℕ) :
    EmEqs given vars old f g T (emNext given vars old f g T) :=
  ⟨rfl, rfl, rfl, rfl, rfl, rfl, rfl, rfl⟩

theorem EmEqs.eq_emNext {given old p' : Params n m} {vars : EmVar → Bool} {f : ℕ → EmStats n}
    {g : ℕ → Obs m} {T : ℕ} (h : EmEqs given vars old f g T p') :
    p' = emNext given vars old f g T := by
  obtain ⟨A, b, Q, C, d, R, mu0, S0⟩ := p'
  obtain ⟨hC, hR, hA, hQ, hmu, hS, hb, hd⟩ := h
  simp only at hC hR hA hQ hmu hS hb hd
  subst hC hA
  subst hR hQ hmu hb hd
  subst hS
  rfl

/-- Parameters that agree where `em` does not estimate. -/
structure SameFixed (vars : EmVar → Bool) (p q : Params n m) : Prop where
  A : vars .transitionMatrices = false → q.A = p.A
  b : vars .transitionOffsets = false → q.b = p.b
  Q : vars .transitionCovariance = false → q.Q = p.Q
  C : vars .observationMatrices = false → q.C = p.C
  d : vars .observationOffsets = false → q.d = p.d
  R : vars .observationCovariance = false → q.R = p.R
  mu0 : vars .initialStateMean = false → q.mu0 = p.mu0
  S0 : vars .initialStateCovariance = false → q.S0 = p.S0

theorem ite_sel {α : Type*} {c : Bool} {a x y : α} (h : c = false → x = y) :
    (if c then a else x) = if c then a else y := by
  cases c
  · simpa using h rfl
  · rfl

theorem EmEqs.given {p q old p' : Params n m} {vars : EmVar → Bool} {f : ℕ → EmStats n}
    {g : ℕ → Obs m} {T : ℕ} (h : EmEqs p vars old f g T p') (hs : SameFixed vars p q) :
    EmEqs q vars old f g T p' :=
  ⟨h.C.trans (ite_sel fun e => (hs.C e).symm), h.R.trans (ite_sel fun e => (hs.R e).symm),
   h.A.trans (ite_sel fun e => (hs.A e).symm), h.Q.trans (ite_sel fun e => (hs.Q e).symm),
   h.mu0.trans (ite_sel fun e => (hs.mu0 e).symm), h.S0.trans (ite_sel fun e => (hs.S0 e).symm),
   h.b.trans (ite_sel fun e => (hs.b e).symm), h.d.trans (ite_sel fun e => (hs.d e).symm)⟩

theorem ite_neg' {α : Type*} {c : Bool} {a x y : α} (h : y = if c then a else x) (hc : c = false) :
    y = x := by
  subst hc; exact h

theorem EmEqs.sameFixed {p old p' : Params n m} {vars : EmVar → Bool} {f : ℕ → EmStats n}
    {g : ℕ → Obs m} {T : ℕ} (h : EmEqs p vars old f g T p') : SameFixed vars p p' :=
  ⟨ite_neg' h.A, ite_neg' h.b, ite_neg' h.Q, ite_neg' h.C, ite_neg' h.d, ite_neg' h.R,
    ite_neg' h.mu0, ite_neg' h.S0⟩

theorem SameFixed.trans {vars : EmVar → Bool} {p q s : Params n m} (h : SameFixed vars p q)
    (h' : SameFixed vars q s) : SameFixed vars p s :=
  ⟨fun e => (h'.A e).trans (h.A e), fun e => (h'.b e).trans (h.b e),
   fun e => (h'.Q e).trans (h.Q e), fun e => (h'.C e).trans (h.C e),
   fun e => (h'.d e).trans (h.d e), fun e => (h'.R e).trans (h.R e),
   fun e => (h'.mu0 e).trans (h.mu0 e), fun e => (h'.S0 e).trans (h.S0 e)⟩

theorem SameFixed.symm {vars : EmVar → Bool} {p q : Params n m} (h : SameFixed vars p q) :
    SameFixed vars q p :=
  ⟨fun e => (h.A e).symm, fun e => (h.b e).symm, fun e => (h.Q e).symm, fun e => (h.C e).symm,
   fun e => (h.d e).symm, fun e => (h.R e).symm, fun e => (h.mu0 e).symm, fun e => (h.S0 e).symm⟩

theorem SameFixed.refl (vars : EmVar → Bool) (p : Params n m) : SameFixed vars p p :=
  ⟨fun _ => rfl, fun _ => rfl, fun _ => rfl, fun _ => rfl, fun _ => rfl, fun _ => rfl,
   fun _ => rfl, fun _ => rfl⟩

section
variable {E : Type*} [NormedAddCommGroup E] [NormedSpace ℝ E] {r : WithTop ℕ∞} {x : E}

theorem SmoothM.ite {ι κ : Type} [Inhabited (Matrix ι κ ℝ)] {s : Bool} {M : E → Matrix ι κ ℝ}
    {a : TV (Matrix ι κ ℝ)} (h : SmoothM r M x) (t : ℕ) :
    SmoothM r (fun θ => (if s then TV.const (M θ) else a).get t) x := by
  cases s
  · exact SmoothM.const (a.get t)
  · exact h

theorem SmoothV.ite {ι : Type} [Inhabited (ι → ℝ)] {s : Bool} {v : E → ι → ℝ}
    {a : TV (ι → ℝ)} (h : SmoothV r v x) (t : ℕ) :
    SmoothV r (fun θ => (if s then TV.const (v θ) else a).get t) x := by
  cases s
  · exact SmoothV.const (a.get t)
  · exact h

/-- One iteration of `em` is smooth. -/
theorem emNext_smooth {given : Params n m} {vars : EmVar → Bool} {P : E → Params n m} {T : ℕ}
    (h : PFun.SmoothFam r (fun θ => (P θ).fn) x (T + 1)) (hP : (P x).fn.PD (T + 1))
    (g : ℕ → Obs m) (N : ℕ) :
    PFun.SmoothFam r (fun θ => (emNext given vars (P θ) ((P θ).fn.stats g T) g T).fn) x N := by
  have hs := h.stats hP g
  have hpd : ∀ t ≤ T, ((P x).fn.stats g T t).cov.PosDef := fun t ht => hP.smooth g ht
  have hb : ∀ t < T, SmoothV r (fun θ => (P θ).b.get t) x := fun t ht => h.b t (by omega)
  have hd : ∀ t ≤ T, SmoothV r (fun θ => (P θ).d.get t) x := fun t ht => h.d t (by omega)
  have hA := fun t => (hs.newA hpd hb).ite (s := vars .transitionMatrices) (a := given.A) t
  have hC := fun t => (hs.newC hpd g hd).ite (s := vars .observationMatrices) (a := given.C) t
  have hmu : SmoothV r (fun θ => if vars .initialStateMean then ((P θ).fn.stats g T 0).mean
      else given.mu0) x := by
    cases vars .initialStateMean
    · exact SmoothV.const _
    · exact hs.mean 0 (by omega)
  refine ⟨fun t _ => hA t, fun t _ => (hs.newb fun t _ => hA t).ite t,
    fun t _ => (hs.newQ (fun t _ => hA t) hb).ite t, fun t _ => hC t,
    fun t _ => (hs.newd g fun t _ => hC t).ite t,
    fun t _ => (hs.newR g (fun t _ => hC t) hd).ite t, hmu, ?_⟩
  have h1 := (hs.mean 0 (by omega)).sub hmu
  have h2 := (hs.cov 0 (by omega)).add (h1.vecMulVec h1)
  show SmoothM r (fun θ => if vars .initialStateCovariance then _ else given.S0) x
  cases vars .initialStateCovariance
  · exact SmoothM.const _
  · exact h2

end

/-! ### Limits of the iteration -/

/-- The coordinates of the estimated parameters. -/
def emCoord (vars : EmVar → Bool) (q : Params n m) : EmSpace n m :=
  (if vars .transitionMatrices then q.A.at 0 else 0, if vars .transitionOffsets then q.b.at 0 else 0,
   if vars .transitionCovariance then q.Q.at 0 else 0,
   if vars .observationMatrices then q.C.at 0 else 0,
   if vars .observationOffsets then q.d.at 0 else 0,
   if vars .observationCovariance then q.R.at 0 else 0,
   if vars .initialStateMean then q.mu0 else 0, if vars .initialStateCovariance then q.S0 else 0)

/-- The parameters `em` with the selection `vars` estimates are constant. -/
structure SelConst (vars : EmVar → Bool) (q : Params n m) : Prop where
  A : vars .transitionMatrices = true → q.A.IsConst
  b : vars .transitionOffsets = true → q.b.IsConst
  Q : vars .transitionCovariance = true → q.Q.IsConst
  C : vars .observationMatrices = true → q.C.IsConst
  d : vars .observationOffsets = true → q.d.IsConst
  R : vars .observationCovariance = true → q.R.IsConst

theorem TV.IsConst.eq_at {α : Type} [Zero α] {a : TV α} (h : a.IsConst) : a = .const (a.at 0) := by
  obtain ⟨v, rfl⟩ := h; rfl

theorem sel_eq {α : Type} [Zero α] {s : Bool} {a b : TV α} (hc : s = true → a.IsConst)
    (hf : s = false → a = b) : (if s then TV.const (if s then a.at 0 else 0) else b) = a := by
  cases s
  · exact (hf rfl).symm
  · exact (hc rfl).eq_at.symm

theorem assemble_coord {vars : EmVar → Bool} {p q : Params n m} (hc : SelConst vars q)
    (hf : SameFixed vars p q) : assemble vars p (emCoord vars q) = q := by
  obtain ⟨A, b, Q, C, d, R, mu0, S0⟩ := q
  have e7 : (if vars .initialStateMean then (if vars .initialStateMean then mu0 else 0)
      else p.mu0) = mu0 := by
    cases h : vars .initialStateMean
    · exact (hf.mu0 h).symm
    · rfl
  have e8 : (if vars .initialStateCovariance then
      (if vars .initialStateCovariance then S0 else 0) else p.S0) = S0 := by
    cases h : vars .initialStateCovariance
    · exact (hf.S0 h).symm
    · rfl
  exact Params.mk.injEq .. |>.mpr ⟨sel_eq hc.A hf.A, sel_eq hc.b hf.b, sel_eq hc.Q hf.Q,
    sel_eq hc.C hf.C, sel_eq hc.d hf.d, sel_eq hc.R hf.R, e7, e8⟩

theorem tendsto_sel {α β : Type*} [Zero α] [TopologicalSpace α] {s : Bool} {a : β → α} {b : α}
    {l : Filter β} (h : s = true → Tendsto a l (𝓝 b)) :
    Tendsto (fun k => if s then a k else 0) l (𝓝 (if s then b else 0)) := by
  cases s
  · exact tendsto_const_nhds
  · exact h rfl

theorem sel_true {s : Bool} {P Q : Prop} (h : if s then P else Q) (hs : s = true) : P := by
  subst hs; exact h

theorem sel_false {s : Bool} {P Q : Prop} (h : if s then P else Q) (hs : s = false) : Q := by
  subst hs; exact h

theorem EmConverges.sameFixed {vars : EmVar → Bool} {p lim : Params n m} {q : ℕ → Params n m}
    (h : EmConverges vars p q lim) : SameFixed vars p lim :=
  ⟨sel_false h.A, sel_false h.b, sel_false h.Q, sel_false h.C, sel_false h.d, sel_false h.R,
    sel_false h.mu0, sel_false h.S0⟩

theorem EmConverges.selConst {vars : EmVar → Bool} {p lim : Params n m} {q : ℕ → Params n m}
    (h : EmConverges vars p q lim) : SelConst vars lim :=
  ⟨fun e => (sel_true h.A e).1, fun e => (sel_true h.b e).1, fun e => (sel_true h.Q e).1,
   fun e => (sel_true h.C e).1, fun e => (sel_true h.d e).1, fun e => (sel_true h.R e).1⟩

theorem TendstoM.pi {ι κ : Type} {a : ℕ → Matrix ι κ ℝ} {b : Matrix ι κ ℝ} (h : TendstoM a b) :
    Tendsto (fun k => (a k : ι → κ → ℝ)) atTop (𝓝 (b : ι → κ → ℝ)) :=
  tendsto_pi_nhds.mpr fun i => tendsto_pi_nhds.mpr fun j => h i j

theorem TendstoV.pi {ι : Type} {a : ℕ → ι → ℝ} {b : ι → ℝ} (h : TendstoV a b) :
    Tendsto a atTop (𝓝 b) :=
  tendsto_pi_nhds.mpr fun i => h i

theorem EmConverges.coord {vars : EmVar → Bool} {p lim : Params n m} {q : ℕ → Params n m}
    (h : EmConverges vars p q lim) :
    Tendsto (fun k => emCoord vars (q k)) atTop (𝓝 (emCoord vars lim)) := by
  refine Tendsto.prodMk_nhds (tendsto_sel fun e => (sel_true h.A e).2.pi) <|
    Tendsto.prodMk_nhds (tendsto_sel fun e => (sel_true h.b e).2.pi) <|
    Tendsto.prodMk_nhds (tendsto_sel fun e => (sel_true h.Q e).2.pi) <|
    Tendsto.prodMk_nhds (tendsto_sel fun e => (sel_true h.C e).2.pi) <|
    Tendsto.prodMk_nhds (tendsto_sel fun e => (sel_true h.d e).2.pi) <|
    Tendsto.prodMk_nhds (tendsto_sel fun e => (sel_true h.R e).2.pi) <|
    Tendsto.prodMk_nhds (tendsto_sel fun e => (sel_true h.mu0 e).pi) <|
    (tendsto_sel fun e => (sel_true h.S0 e).pi)

theorem EmEqs.selConst {given old p' : Params n m} {vars : EmVar → Bool} {f : ℕ → EmStats n}
    {g : ℕ → Obs m} {T : ℕ} (h : EmEqs given vars old f g T p') : SelConst vars p' :=
  ⟨fun e => ⟨_, h.A.trans (if_pos e)⟩, fun e => ⟨_, h.b.trans (if_pos e)⟩,
   fun e => ⟨_, h.Q.trans (if_pos e)⟩, fun e => ⟨_, h.C.trans (if_pos e)⟩,
   fun e => ⟨_, h.d.trans (if_pos e)⟩, fun e => ⟨_, h.R.trans (if_pos e)⟩⟩

theorem SmoothM.tendsto_at {E : Type*} [NormedAddCommGroup E] [NormedSpace ℝ E] {k l : ℕ}
    {a : E → TV (Mat k l)} {x : E} (h : SmoothM 0 (fun θ => (a θ).get 0) x)
    (hc : ∀ θ, (a θ).IsConst) : Tendsto (fun θ => ((a θ).at 0 : Fin k → Fin l → ℝ)) (𝓝 x)
      (𝓝 ((a x).at 0 : Fin k → Fin l → ℝ)) := by
  have e : ∀ θ, (a θ).get 0 = (a θ).at 0 := fun θ => by obtain ⟨v, hv⟩ := hc θ; rw [hv]; rfl
  simp only [e] at h
  exact tendsto_pi_nhds.mpr fun i => tendsto_pi_nhds.mpr fun j => (h i j).continuousAt

theorem SmoothV.tendsto_at {E : Type*} [NormedAddCommGroup E] [NormedSpace ℝ E] {k : ℕ}
    {a : E → TV (Vec k)} {x : E} (h : SmoothV 0 (fun θ => (a θ).get 0) x)
    (hc : ∀ θ, (a θ).IsConst) : Tendsto (fun θ => ((a θ).at 0 : Fin k → ℝ)) (𝓝 x)
      (𝓝 ((a x).at 0 : Fin k → ℝ)) := by
  have e : ∀ θ, (a θ).get 0 = (a θ).at 0 := fun θ => by obtain ⟨v, hv⟩ := hc θ; rw [hv]; rfl
  simp only [e] at h
  exact tendsto_pi_nhds.mpr fun i => (h i).continuousAt

/-- The coordinates of the result of an iteration are continuous. -/
theorem emNext_coord {vars : EmVar → Bool} {p : Params n m} {x : EmSpace n m} {T : ℕ}
    (hP : (assemble vars p x).fn.PD (T + 1)) (g : ℕ → Obs m) :
    ContinuousAt (fun θ => emCoord vars (emNext p vars (assemble vars p θ)
      ((assemble vars p θ).fn.stats g T) g T)) x := by
  have h := emNext_smooth (given := p) (vars := vars) (assemble_smooth (r := 0) vars p x (T + 1)) hP
    g 2
  have hc := fun θ => (emNext_eqs p vars (assemble vars p θ) ((assemble vars p θ).fn.stats g T) g
    T).selConst
  refine Tendsto.prodMk_nhds (tendsto_sel fun e => SmoothM.tendsto_at (h.A 0 (by omega))
      fun θ => (hc θ).A e) <|
    Tendsto.prodMk_nhds (tendsto_sel fun e => SmoothV.tendsto_at (h.b 0 (by omega))
      fun θ => (hc θ).b e) <|
    Tendsto.prodMk_nhds (tendsto_sel fun e => SmoothM.tendsto_at (h.Q 0 (by omega))
      fun θ => (hc θ).Q e) <|
    Tendsto.prodMk_nhds (tendsto_sel fun e => SmoothM.tendsto_at (h.C 0 (by omega))
      fun θ => (hc θ).C e) <|
    Tendsto.prodMk_nhds (tendsto_sel fun e => SmoothV.tendsto_at (h.d 0 (by omega))
      fun θ => (hc θ).d e) <|
    Tendsto.prodMk_nhds (tendsto_sel fun e => SmoothM.tendsto_at (h.R 0 (by omega))
      fun θ => (hc θ).R e) <|
    Tendsto.prodMk_nhds (tendsto_sel fun e => tendsto_pi_nhds.mpr fun i =>
      (h.mu0 i).continuousAt) <|
    (tendsto_sel fun e => tendsto_pi_nhds.mpr fun i => tendsto_pi_nhds.mpr fun j =>
      (h.S0 i j).continuousAt)

theorem emNext_given {p q old : Params n m} {vars : EmVar → Bool} {f : ℕ → EmStats n}
    {g : ℕ → Obs m} {T : ℕ} (hs : SameFixed vars p q) :
    emNext q vars old f g T = emNext p vars old f g T :=
  (((emNext_eqs p vars old f g T).given hs).eq_emNext).symm

/-- If the parameters `q (k + 1)` come from `q k` by an iteration, and converge, then the limit is
a fixed point. -/
theorem em_limit {vars : EmVar → Bool} {p lim : Params n m} {q : ℕ → Params n m} {T : ℕ}
    {g : ℕ → Obs m} (h0 : q 0 = p)
    (hq : ∀ k, EmEqs (q k) vars (q k) ((q k).fn.stats g T) g T (q (k + 1)))
    (hl : EmConverges vars p q lim) (hpd : lim.fn.PD (T + 1)) :
    EmEqs lim vars lim (lim.fn.stats g T) g T lim := by
  have hf : ∀ k, SameFixed vars p (q k) := by
    intro k
    induction k with
    | zero => rw [h0]; exact SameFixed.refl _ _
    | succ k ih => exact ih.trans (hq k).sameFixed
  have hql : assemble vars p (emCoord vars lim) = lim := assemble_coord hl.selConst hl.sameFixed
  have hqk : ∀ k, assemble vars p (emCoord vars (q (k + 1))) = q (k + 1) := fun k =>
    assemble_coord (hq k).selConst (hf (k + 1))
  have hstep : ∀ k, q (k + 1) = emNext p vars (q k) ((q k).fn.stats g T) g T := fun k =>
    (hq k).eq_emNext.trans (emNext_given (hf k))
  have hcont := emNext_coord (vars := vars) (p := p) (x := emCoord vars lim) (T := T)
    (by rw [hql]; exact hpd) g
  have hc1 : Tendsto (fun k => emCoord vars (q (k + 1))) atTop (𝓝 (emCoord vars lim)) :=
    hl.coord.comp (tendsto_add_atTop_nat 1)
  have hc2 : Tendsto (fun k => emCoord vars (q (k + 2))) atTop (𝓝 (emCoord vars lim)) :=
    hl.coord.comp (tendsto_add_atTop_nat 2)
  have hc3 := hcont.tendsto.comp hc1
  simp only [Function.comp_def, hqk, hql] at hc3
  have e : ∀ k, emNext p vars (q (k + 1)) ((q (k + 1)).fn.stats g T) g T = q (k + 2) := fun k =>
    (hstep (k + 1)).symm
  simp only [e] at hc3
  have hu := tendsto_nhds_unique hc2 hc3
  have he := emNext_eqs p vars lim (lim.fn.stats g T) g T
  have : emNext p vars lim (lim.fn.stats g T) g T = lim := by
    rw [← assemble_coord he.selConst he.sameFixed, ← hu, hql]
  rw [this] at he
  exact he.given hl.sameFixed

end Verif
