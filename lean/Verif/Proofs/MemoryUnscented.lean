import Verif.Proofs.MemoryRefine

/-! # The unscented filters on arrays in memory compute the rows of those on values -/

open Matrix

namespace Verif

variable {α β γ δ : Type} {n m k l q N : ℕ} {V W : Set ℕ} {K : Constants} {h h' : Heap} {b : ℕ}

theorem refines_memMoments2points (e : Env W K V h) {M : MRef} {v : Moments k} (hM : MRel V h M v) :
    Refines V h (memMoments2points k M) (moments2points v) fun h' => PRel V h' := by
  refine Refines.see ?_
  rw [hM.eq]
  exact Refines.lifted fun s _ => refines_newPoints e s

theorem refines_memPoints2moments (e : Env W K V h) (hb : b ≤ h.next) {s : PtsRef N}
    {v : SigmaPoints N k} (hs : PRel V h s v) {noise : Option ARef} {S : Option (Mat k k)}
    (hS : NRel V h noise S) :
    Refines V h (memPoints2moments k s noise) (.ok (points2moments v S)) fun h' => MNew V b h' := by
  refine Refines.see ?_
  rw [hs.eq, hS.eq]
  exact refines_newMoments e hb _

theorem PRel.wm {s : PtsRef N} {v : SigmaPoints N k} (hs : PRel V h s v) : s.wm = v.wm := by
  rw [← hs.eq]; rfl

theorem PRel.wc {s : PtsRef N} {v : SigmaPoints N k} (hs : PRel V h s v) : s.wc = v.wc := by
  rw [← hs.eq]; rfl

theorem refines_memTransform (e : Env W K V h) (hb : b ≤ h.next) {s : PtsRef N}
    {v : SigmaPoints N k} (hs : PRel V h s v) {call : ℕ → HM ARef} {w : SigmaPoints N l}
    (hc : CallsRel V h call w.points) (hwm : w.wm = v.wm) (hwc : w.wc = v.wc)
    {noise : Option ARef} {S : Option (Mat l l)} (hS : NRel V h noise S) :
    Refines V h (memTransform l s call noise) (.ok (w, points2moments w S))
      fun h' a c => PRel V h' a.1 c.1 ∧ MNew V b h' a.2 c.2 := by
  refine refines_stacked e hc fun a h1 t1 ha => ?_
  have hq : PRel V h1 (⟨a, s.wm, s.wc⟩ : PtsRef N) w := by
    rw [hs.wm, hs.wc, ← hwm, ← hwc]
    exact ha.points
  refine (refines_memPoints2moments (e.touch t1) (hb.trans t1.next) hq (hS.touch t1)).step
    fun M h2 t2 hM => ?_
  exact refines_pure ⟨hq.touch t2, hM⟩

theorem refines_memUfCorrected (e : Env W K V h) (hb : b ≤ h.next) {pred obs : MRef}
    {pts qs : PtsRef N} {o : ARef} {predv : Moments n} {obsv : Moments m} {ptsv : SigmaPoints N n}
    {qv : SigmaPoints N m} {ov : Obs m} (hpred : MNew V b h pred predv) (hpts : PRel V h pts ptsv)
    (hq : PRel V h qs qv) (hobs : MRel V h obs obsv) (ho : ORel V h o ov) :
    Refines V h (memUfCorrected n m pred pts qs obs o)
      (.ok (unscentedCorrect (crossCov ptsv predv.mean qv obsv.mean) predv obsv ov))
      fun h' => MNew V b h' := by
  refine Refines.see ?_
  rw [ho.eq]
  by_cases hm : ov.missing
  · simp only [hm, decide_true, not_true_eq_false, if_false]
    refine refines_pure ?_
    simp only [unscentedCorrect, hm, not_true_eq_false, if_false]
    exact hpred
  · simp only [hm, decide_false, Bool.false_eq_true, not_false_eq_true, if_true]
    refine Refines.see ?_
    rw [hpts.eq, hpred.rel.vec.eq, hq.eq, hobs.vec.eq, hpred.rel.eq, hobs.eq, ho.eq]
    exact refines_newMoments e hb _

theorem refines_memUfCorrect (e : Env W K V h) (hb : b ≤ h.next) {pred : MRef}
    {pts : PtsRef N} {o : ARef} {predv : Moments n} {ptsv : SigmaPoints N n} {ov : Obs m}
    (hpred : MNew V b h pred predv) (hpts : PRel V h pts ptsv) (ho : ORel V h o ov)
    {call : ℕ → HM ARef} {w : SigmaPoints N m}
    (hc : CallsRel V h call w.points) (hwm : w.wm = ptsv.wm) (hwc : w.wc = ptsv.wc)
    {noise : Option ARef} {S : Option (Mat m m)} (hS : NRel V h noise S) :
    Refines V h (memUfCorrect n m pred pts call noise o)
      (.ok (unscentedCorrect (crossCov ptsv predv.mean w (points2moments w S).mean) predv
        (points2moments w S) ov)) fun h' => MNew V b h' := by
  refine (refines_memTransform e hb hpts hc hwm hwc hS).step fun r h1 t1 hr => ?_
  exact refines_memUfCorrected (e.touch t1) (hb.trans t1.next) (hpred.touch t1) (hpts.touch t1) hr.1
    hr.2.rel (ho.touch t1)

theorem callsRel₁ (e : Env W K V h) {f : MFun₁} {F : Vec k → Vec l} (hf : f.Computes W K F)
    {s : PtsRef N} {v : SigmaPoints N k} (hs : PRel V h s v) :
    CallsRel V h (fun i => f (s.points.row i)) (v.map F).points :=
  fun i _ t => refines_call₁ (e.touch t) hf ((hs.touch t).row i)

theorem callsRel₂ (e : Env W K V h) {f : MFun₂} {F : Vec k → Vec q → Vec l}
    (hf : f.Computes W K F) {s w : PtsRef N} {v : SigmaPoints N k} {u : SigmaPoints N q}
    (hs : PRel V h s v) (hw : PRel V h w u) :
    CallsRel V h (fun i => f (s.points.row i) (w.points.row i)) (v.map₂ u F).points :=
  fun i _ t => refines_call₂ (e.touch t) hf ((hs.touch t).row i) ((hw.touch t).row i)

/-! ### Parameters -/

/-- The arrays, outside `V`, hold the parameters. -/
structure Par₁ (W : Set ℕ) (K : Constants) (V : Set ℕ) (h : Heap) (p : UPRef MFun₁) (P : UParams n m) : Prop where
  f : p.f.Rel (MFun₁.Computes W K) P.f
  g : p.g.Rel (MFun₁.Computes W K) P.g
  Q : ARel V h p.Q P.Q
  R : ARel V h p.R P.R
  mu0 : VRel V h p.mu0 P.mu0
  S0 : ARel V h p.S0 P.S0

/-- The arrays, outside `V`, hold the parameters. -/
structure Par₂ (W : Set ℕ) (K : Constants) (V : Set ℕ) (h : Heap) (p : UPRef MFun₂) (P : GParams n m) : Prop where
  f : p.f.Rel (MFun₂.Computes W K) P.f
  g : p.g.Rel (MFun₂.Computes W K) P.g
  Q : ARel V h p.Q P.Q
  R : ARel V h p.R P.R
  mu0 : VRel V h p.mu0 P.mu0
  S0 : ARel V h p.S0 P.S0

theorem Par₁.touch {p : UPRef MFun₁} {P : UParams n m} (hp : Par₁ W K V h p P) (t : Touch V h h') :
    Par₁ W K V h' p P :=
  ⟨hp.f, hp.g, hp.Q.touch t, hp.R.touch t, hp.mu0.touch t, hp.S0.touch t⟩

theorem Par₂.touch {p : UPRef MFun₂} {P : GParams n m} (hp : Par₂ W K V h p P) (t : Touch V h h') :
    Par₂ W K V h' p P :=
  ⟨hp.f, hp.g, hp.Q.touch t, hp.R.touch t, hp.mu0.touch t, hp.S0.touch t⟩

theorem Holds₁.par {p : UPRef MFun₁} {P : UParams n m} (hp : p.Holds₁ W K h P) :
    Par₁ W K W h p P :=
  ⟨hp.f, hp.g, ⟨hp.Q.1, hp.Q.2⟩, ⟨hp.R.1, hp.R.2⟩, ⟨hp.mu0.1, hp.mu0.2⟩, ⟨hp.S0.1, hp.S0.2⟩⟩

theorem Holds₂.par {p : UPRef MFun₂} {P : GParams n m} (hp : p.Holds₂ W K h P) :
    Par₂ W K W h p P :=
  ⟨hp.f, hp.g, ⟨hp.Q.1, hp.Q.2⟩, ⟨hp.R.1, hp.R.2⟩, ⟨hp.mu0.1, hp.mu0.2⟩, ⟨hp.S0.1, hp.S0.2⟩⟩

/-- `V` has only new arrays besides those of `W`. -/
structure Widens (W V : Set ℕ) (h : Heap) : Prop where
  sub : W ⊆ V
  new : ∀ a ∈ V, a ∉ W → h.next ≤ a

theorem ARef.Apart.widen {r : ARef} (hr : r.Apart W h) (w : Widens W V h) : r.Apart V h :=
  ⟨hr.1, fun hV => absurd hr.1 (not_lt.mpr (w.new _ hV hr.2))⟩

theorem ARef.Apart.narrow {r : ARef} (hr : r.Apart V h) (w : W ⊆ V) : r.Apart W h :=
  ⟨hr.1, fun hW => hr.2 (w hW)⟩

theorem Par₁.widen {p : UPRef MFun₁} {P : UParams n m} (hp : Par₁ W K W h p P) (w : Widens W V h) :
    Par₁ W K V h p P :=
  ⟨hp.f, hp.g, ⟨hp.Q.1.widen w, hp.Q.2⟩, ⟨hp.R.1.widen w, hp.R.2⟩, ⟨hp.mu0.1.widen w, hp.mu0.2⟩,
    ⟨hp.S0.1.widen w, hp.S0.2⟩⟩

theorem Par₂.widen {p : UPRef MFun₂} {P : GParams n m} (hp : Par₂ W K W h p P) (w : Widens W V h) :
    Par₂ W K V h p P :=
  ⟨hp.f, hp.g, ⟨hp.Q.1.widen w, hp.Q.2⟩, ⟨hp.R.1.widen w, hp.R.2⟩, ⟨hp.mu0.1.widen w, hp.mu0.2⟩,
    ⟨hp.S0.1.widen w, hp.S0.2⟩⟩

theorem Par₁.narrow {p : UPRef MFun₁} {P : UParams n m} (hp : Par₁ W K V h p P) (w : W ⊆ V) :
    Par₁ W K W h p P :=
  ⟨hp.f, hp.g, ⟨hp.Q.1.narrow w, hp.Q.2⟩, ⟨hp.R.1.narrow w, hp.R.2⟩, ⟨hp.mu0.1.narrow w, hp.mu0.2⟩,
    ⟨hp.S0.1.narrow w, hp.S0.2⟩⟩

theorem Par₂.narrow {p : UPRef MFun₂} {P : GParams n m} (hp : Par₂ W K V h p P) (w : W ⊆ V) :
    Par₂ W K W h p P :=
  ⟨hp.f, hp.g, ⟨hp.Q.1.narrow w, hp.Q.2⟩, ⟨hp.R.1.narrow w, hp.R.2⟩, ⟨hp.mu0.1.narrow w, hp.mu0.2⟩,
    ⟨hp.S0.1.narrow w, hp.S0.2⟩⟩

theorem Env.narrow (e : Env W K V h) : Env W K W h :=
  ⟨subset_rfl, fun a ha => e.old a (e.sub ha), e.kept, fun a ha hW => e.apart a ha (e.sub hW)⟩

/-! ### The steps -/

/-- The moments before the step at time `t`, `none` at time 0. -/
def prevOf (t : ℕ) (M : Moments n) : Option (Moments n) := if t = 0 then none else some M

/-- The step on arrays does what the step on values does. -/
def StepAt (W : Set ℕ) (h : Heap) (step : ℕ → MRef → ARef → HM MRef)
    (vstep : ℕ → Option (Moments n) → Obs m → Res (Moments n)) (M₀ : Moments n) : Prop :=
  ∀ t M Mv o ov, MRel W h M Mv → (t = 0 → Mv = M₀) → ORel W h o ov →
    Refines W h (step t M o) (vstep t (prevOf t Mv) ov) fun h' => MNew W h.next h'

/-- First half of `aukfStep`. -/
noncomputable def aukfPredV (P : UParams n m) (t : ℕ) (prev : Option (Moments n)) :
    Res (Moments n × SigmaPoints (n + n + 1) n) :=
  moments2points (prev.getD ⟨P.mu0, P.S0⟩) >>= fun pts =>
  match prev with
  | none => .ok (points2moments pts none, pts)
  | some _ => P.f.at (t - 1) >>= fun f =>
    moments2points (points2moments (pts.map f) (some P.Q)) >>= fun pts' =>
    .ok (points2moments (pts.map f) (some P.Q), pts')

theorem aukfStep_split (P : UParams n m) (t : ℕ) (prev : Option (Moments n)) (o : Obs m) :
    aukfStep P t prev o = aukfPredV P t prev >>= fun r => P.g.at t >>= fun g =>
      .ok (ufCorrect g r.1 r.2 o P.R) := by
  cases prev with
  | none => simp only [aukfStep, aukfPredV, bind_assoc]; rfl
  | some M => simp only [aukfStep, aukfPredV, bind_assoc]; rfl

theorem prevOf_getD {t : ℕ} {M M₀ : Moments n} (h0 : t = 0 → M = M₀) : (prevOf t M).getD M₀ = M := by
  unfold prevOf
  split
  · rename_i ht; exact (h0 ht).symm
  · rfl

theorem refines_memAukfPred (e : Env W K V h) {p : UPRef MFun₁} {P : UParams n m}
    (hp : Par₁ W K V h p P) {t : ℕ} {M : MRef} {Mv : Moments n} (hM : MRel V h M Mv)
    (h0 : t = 0 → Mv = ⟨P.mu0, P.S0⟩) :
    Refines V h (memAukfPred n p t M) (aukfPredV P t (prevOf t Mv))
      fun h' a c => MNew V h.next h' a.1 c.1 ∧ PRel V h' a.2 c.2 := by
  unfold memAukfPred aukfPredV
  rw [prevOf_getD h0]
  refine (refines_memMoments2points e hM).bind fun pts ptsv h1 t1 _ hpts => ?_
  by_cases ht : t = 0
  · rw [if_pos ht, prevOf, if_pos ht]
    refine (refines_memPoints2moments (e.touch t1) t1.next hpts nrel_none).step
      fun pred h2 t2 hpred => ?_
    exact refines_pure ⟨hpred, hpts.touch t2⟩
  · rw [if_neg ht, prevOf, if_neg ht]
    refine (refines_lift (at_rel hp.f (t - 1))).bind fun f F h2 t2 _ hf => ?_
    have t12 := t1.trans t2
    have hpts2 := hpts.touch t2
    refine (refines_memTransform (e.touch t12) t12.next hpts2 (callsRel₁ (e.touch t12) hf hpts2) rfl
      rfl (hp.Q.touch t12).noise).step fun r h3 t3 hr => ?_
    refine (refines_memMoments2points (e.touch (t12.trans t3)) hr.2.rel).bind
      fun pts' ptsv' h4 t4 _ hpts' => ?_
    exact refines_pure ⟨hr.2.touch t4, hpts'⟩

theorem stepAt_memAukfStep (e : Env W K V h) {p : UPRef MFun₁} {P : UParams n m}
    (hp : Par₁ W K V h p P) :
    StepAt V h (memAukfStep n m p) (aukfStep P) ⟨P.mu0, P.S0⟩ := by
  intro t M Mv o ov hM h0 ho
  rw [aukfStep_split]
  refine (refines_memAukfPred e hp hM h0).bind fun r rv h1 t1 _ hr => ?_
  refine (refines_lift (at_rel hp.g t)).bind fun g G h2 t2 _ hg => ?_
  have t12 := t1.trans t2
  exact refines_memUfCorrect (e.touch t12) t12.next (hr.1.touch t2) (hr.2.touch t2) (ho.touch t12)
    (callsRel₁ (e.touch t12) hg (hr.2.touch t2)) rfl rfl (hp.R.touch t12).noise

/-- First half of `ukfStep`. -/
noncomputable def ukfPredV (P : GParams n m) (t : ℕ) (prev : Option (Moments n))
    (pts w : SigmaPoints N n) : Res (SigmaPoints N n × Moments n) :=
  match prev with
  | none => .ok (pts, points2moments pts none)
  | some _ => P.f.at (t - 1) >>= fun f => .ok (pts.map₂ w f, points2moments (pts.map₂ w f) none)

theorem ukfStep_split (P : GParams n m) (t : ℕ) (prev : Option (Moments n)) (o : Obs m) :
    ukfStep P t prev o = augFilterPoints (prev.getD ⟨P.mu0, P.S0⟩) P.Q P.R >>= fun pts =>
      ukfPredV P t prev pts.1 pts.2.1 >>= fun r => P.g.at t >>= fun g =>
      .ok (ufCorrect₂ g r.2 r.1 o pts.2.2) := by
  cases prev with
  | none => simp only [ukfStep, ukfPredV]; rfl
  | some M => simp only [ukfStep, ukfPredV, bind_assoc]; rfl

theorem PRel.left {a b : ℕ} {s : PtsRef N} {v : SigmaPoints N (a + b)} (hs : PRel V h s v) :
    PRel V h (⟨s.points.colsFrom 0, s.wm, s.wc⟩ : PtsRef N) v.left := by
  refine ⟨hs.1, ?_⟩
  rw [← hs.2]
  simp only [PtsRef.value, SigmaPoints.left]
  congr 1
  funext i j
  simp [ARef.vec, ARef.nd, ARef.row, ARef.colsFrom]

theorem PRel.right {a b : ℕ} {s : PtsRef N} {v : SigmaPoints N (a + b)} (hs : PRel V h s v) :
    PRel V h (⟨s.points.colsFrom a, s.wm, s.wc⟩ : PtsRef N) v.right := by
  refine ⟨hs.1, ?_⟩
  rw [← hs.2]
  simp only [PtsRef.value, SigmaPoints.right]
  congr 1

theorem colsFrom_colsFrom (r : ARef) (a : ℕ) : (r.colsFrom 0).colsFrom a = r.colsFrom a := by
  simp [ARef.colsFrom]

/-- The three parts of the points. -/
def AugRel (V : Set ℕ) (h : Heap) (a : PtsRef N × PtsRef N × PtsRef N)
    (c : SigmaPoints N n × SigmaPoints N n × SigmaPoints N m) : Prop :=
  PRel V h a.1 c.1 ∧ PRel V h a.2.1 c.2.1 ∧ PRel V h a.2.2 c.2.2

theorem AugRel.touch {a : PtsRef N × PtsRef N × PtsRef N}
    {c : SigmaPoints N n × SigmaPoints N n × SigmaPoints N m} (ha : AugRel V h a c)
    (t : Touch V h h') : AugRel V h' a c := ⟨ha.1.touch t, ha.2.1.touch t, ha.2.2.touch t⟩

theorem refines_memAugFilterPoints (e : Env W K V h) {M : MRef} {Mv : Moments n} {Q R : ARef}
    {Qv : Mat n n} {Rv : Mat m m} (hM : MRel V h M Mv) (hQ : ARel V h Q Qv) (hR : ARel V h R Rv) :
    Refines V h (memAugFilterPoints n m M Q R) (augFilterPoints Mv Qv Rv) fun h' => AugRel V h' := by
  refine Refines.see ?_
  rw [hM.vec.eq, hM.mat.eq, hQ.eq, hR.eq]
  refine (refines_lift (resRel_eq _)).bind fun s s' h1 t1 _ hs => ?_
  subst hs
  refine (refines_newPoints (e.touch t1) s).step fun a h2 t2 ha => refines_pure ⟨?_, ?_, ?_⟩
  · have := ha.left.left
    rwa [colsFrom_colsFrom] at this
  · have := ha.left.right
    rwa [colsFrom_colsFrom] at this
  · exact ha.right

theorem refines_memAugPoints (e : Env W K V h) {M : MRef} {Mv : Moments n} {Q : ARef}
    {Qv : Mat n n} (hM : MRel V h M Mv) (hQ : ARel V h Q Qv) :
    Refines V h (memAugPoints n M Q) (augPoints Mv (⟨0, Qv⟩ : Moments n))
      fun h' a c => PRel V h' a.1 c.1 ∧ PRel V h' a.2 c.2 := by
  refine Refines.see ?_
  rw [hM.vec.eq, hM.mat.eq, hQ.eq]
  refine (refines_lift (resRel_eq _)).bind fun s s' h1 t1 _ hs => ?_
  subst hs
  exact (refines_newPoints (e.touch t1) s).step fun a h2 t2 ha => refines_pure ⟨ha.left, ha.right⟩

theorem refines_memUkfPred (e : Env W K V h) (hb : b ≤ h.next) {p : UPRef MFun₂} {P : GParams n m}
    (hp : Par₂ W K V h p P) {t : ℕ} {Mv : Moments n} {pts w : PtsRef N} {ptsv wv : SigmaPoints N n}
    (hpts : PRel V h pts ptsv) (hw : PRel V h w wv) :
    Refines V h (memUkfPred n p t pts w) (ukfPredV P t (prevOf t Mv) ptsv wv)
      fun h' a c => PRel V h' a.1 c.1 ∧ MNew V b h' a.2 c.2 := by
  unfold memUkfPred ukfPredV
  by_cases ht : t = 0
  · rw [if_pos ht, prevOf, if_pos ht]
    refine (refines_memPoints2moments e hb hpts nrel_none).step fun pred h2 t2 hpred => ?_
    exact refines_pure ⟨hpts.touch t2, hpred⟩
  · rw [if_neg ht, prevOf, if_neg ht]
    refine (refines_lift (at_rel hp.f (t - 1))).bind fun f F h2 t2 _ hf => ?_
    exact refines_memTransform (e.touch t2) (hb.trans t2.next) (hpts.touch t2)
      (callsRel₂ (e.touch t2) hf (hpts.touch t2) (hw.touch t2)) rfl rfl nrel_none

theorem stepAt_memUkfStep (e : Env W K V h) {p : UPRef MFun₂} {P : GParams n m}
    (hp : Par₂ W K V h p P) :
    StepAt V h (memUkfStep n m p) (ukfStep P) ⟨P.mu0, P.S0⟩ := by
  intro t M Mv o ov hM h0 ho
  rw [ukfStep_split, prevOf_getD h0]
  refine (refines_memAugFilterPoints e hM hp.Q hp.R).bind fun a av h1 t1 _ ha => ?_
  refine (refines_memUkfPred (e.touch t1) t1.next (hp.touch t1) ha.1 ha.2.1).bind
    fun r rv h2 t2 _ hr => ?_
  refine (refines_lift (at_rel hp.g t)).bind fun g G h3 t3 _ hg => ?_
  have t13 := (t1.trans t2).trans t3
  exact refines_memUfCorrect (e.touch t13) t13.next (hr.2.touch t3) (hr.1.touch t3) (ho.touch t13)
    (callsRel₂ (e.touch t13) hg (hr.1.touch t3) (ha.2.2.touch (t2.trans t3))) rfl rfl nrel_none

/-- The step of a smoother on arrays does what that on values does. -/
def BackAt (W : Set ℕ) (h : Heap) (step : ℕ → MRef → MRef → HM MRef)
    (vstep : ℕ → Moments n → Moments n → Res (Moments n)) : Prop :=
  ∀ t M Mv N Nv, MRel W h M Mv → MRel W h N Nv →
    Refines W h (step t M N) (vstep t Mv Nv) fun h' => MNew W h.next h'

theorem refines_memUfSmooth (e : Env W K V h) (hb : b ≤ h.next) {filt pred next : MRef}
    {pts ptsPred : PtsRef N} {filtv predv nextv : Moments n} {ptsv ptsPredv : SigmaPoints N n}
    (h1 : MRel V h filt filtv) (h2 : PRel V h pts ptsv) (h3 : PRel V h ptsPred ptsPredv)
    (h4 : MRel V h pred predv) (h5 : MRel V h next nextv) :
    Refines V h (memUfSmooth n filt pts ptsPred pred next)
      (.ok (ufSmooth filtv ptsv ptsPredv predv nextv)) fun h' => MNew V b h' := by
  refine Refines.see ?_
  rw [h1.eq, h2.eq, h3.eq, h4.eq, h5.eq]
  exact refines_newMoments e hb _

theorem backAt_memAukfSmoothStep (e : Env W K V h) {p : UPRef MFun₁} {P : UParams n m}
    (hp : Par₁ W K V h p P) : BackAt V h (memAukfSmoothStep n p) (aukfSmoothStep P) := by
  intro t M Mv N Nv hM hN
  refine (refines_memMoments2points e hM).bind fun pts ptsv h1 t1 _ hpts => ?_
  refine (refines_lift (at_rel hp.f t)).bind fun f F h2 t2 _ hf => ?_
  have t12 := t1.trans t2
  have hpts2 := hpts.touch t2
  refine (refines_memTransform (b := h.next) (e.touch t12) t12.next hpts2
    (callsRel₁ (e.touch t12) hf hpts2) rfl rfl (hp.Q.touch t12).noise).step fun r h3 t3 hr => ?_
  have t13 := t12.trans t3
  exact refines_memUfSmooth (e.touch t13) t13.next (hM.touch t13) (hpts2.touch t3) hr.1 hr.2.rel
    (hN.touch t13)

theorem backAt_memUkfSmoothStep (e : Env W K V h) {p : UPRef MFun₂} {P : GParams n m}
    (hp : Par₂ W K V h p P) : BackAt V h (memUkfSmoothStep n p) (ukfSmoothStep P) := by
  intro t M Mv N Nv hM hN
  refine (refines_memAugPoints e hM hp.Q).bind fun pts ptsv h1 t1 _ hpts => ?_
  refine (refines_lift (at_rel hp.f t)).bind fun f F h2 t2 _ hf => ?_
  have t12 := t1.trans t2
  refine (refines_memTransform (b := h.next) (e.touch t12) t12.next (hpts.1.touch t2)
    (callsRel₂ (e.touch t12) hf (hpts.1.touch t2) (hpts.2.touch t2)) rfl rfl nrel_none).step fun r h3 t3 hr => ?_
  have t13 := t12.trans t3
  exact refines_memUfSmooth (e.touch t13) t13.next (hM.touch t13) (hpts.1.touch (t2.trans t3)) hr.1
    hr.2.rel (hN.touch t13)

end Verif
