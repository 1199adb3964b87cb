import Verif.Proofs.MemoryUnscentedMethods

/-! # The square root filter with unscented transforms on arrays in memory -/

open Matrix

namespace Verif

variable {n m k l N : ℕ} {V W : Set ℕ} {K : Constants} {h h' : Heap} {b : ℕ} {qr : QR}

theorem refines_memSqMoments2points (e : Env W K V h) {M : MRef} {v : Moments k}
    (hM : MRel V h M v) :
    Refines V h (memSqMoments2points k M) (.ok (sqMoments2points v)) fun h' => PRel V h' := by
  refine Refines.see ?_
  rw [hM.eq]
  exact refines_newPoints e _

theorem refines_memSqPoints2moments (e : Env W K V h) (hb : b ≤ h.next) {s : PtsRef N}
    {v : SigmaPoints N k} (hs : PRel V h s v) {noise : Option ARef} {S : Option (Mat k k)}
    (hS : NRel V h noise S) :
    Refines V h (memSqPoints2moments qr k s noise) (sqPoints2moments qr v S)
      fun h' => MNew V b h' := by
  refine Refines.see ?_
  rw [hs.eq, hS.eq]
  exact Refines.lifted fun M _ => refines_newMoments e hb M

theorem refines_memSqTransform (e : Env W K V h) (hb : b ≤ h.next) {s : PtsRef N}
    {v : SigmaPoints N k} (hs : PRel V h s v) {call : ℕ → HM ARef} {w : SigmaPoints N l}
    (hc : CallsRel V h call w.points) (hwm : w.wm = v.wm) (hwc : w.wc = v.wc)
    {noise : Option ARef} {S : Option (Mat l l)} (hS : NRel V h noise S) :
    Refines V h (memSqTransform qr l s call noise) (sqPoints2moments qr w S)
      fun h' a c => PRel V h' a.1 w ∧ MNew V b h' a.2 c := by
  refine refines_stacked e hc fun a h1 t1 ha => ?_
  have hq : PRel V h1 (⟨a, s.wm, s.wc⟩ : PtsRef N) w := by
    rw [hs.wm, hs.wc, ← hwm, ← hwc]
    exact ha.points
  have h2 := (refines_memSqPoints2moments (qr := qr) (e.touch t1) (hb.trans t1.next) hq
    (hS.touch t1)).bind (g := fun c => .ok c)
    (f := fun M => pure ((⟨a, s.wm, s.wc⟩, M) : PtsRef N × MRef))
    (S := fun h' a c => PRel V h' a.1 w ∧ MNew V b h' a.2 c)
    fun M c h2 t2 _ hM => refines_pure ⟨hq.touch t2, hM⟩
  rcases hr : sqPoints2moments qr w S with _ | _ <;> rw [hr] at h2 <;> exact h2

theorem refines_memSqCorrected (e : Env W K V h) (hb : b ≤ h.next) {pred obs : MRef}
    {pts qs : PtsRef N} {o : ARef} {predv : Moments n} {obsv : Moments m} {ptsv : SigmaPoints N n}
    {qv : SigmaPoints N m} {ov : Obs m} (hpred : MNew V b h pred predv) (hpts : PRel V h pts ptsv)
    (hq : PRel V h qs qv) (hobs : MRel V h obs obsv) (ho : ORel V h o ov) :
    Refines V h (memSqCorrected n m pred pts qs obs o)
      (sqUnscentedCorrect (crossCov ptsv predv.mean qv obsv.mean) predv obsv ov)
      fun h' => MNew V b h' := by
  refine Refines.see ?_
  rw [ho.eq]
  by_cases hm : ov.missing
  · have e1 : sqUnscentedCorrect (crossCov ptsv predv.mean qv obsv.mean) predv obsv ov =
        .ok predv := by
      unfold sqUnscentedCorrect
      rw [if_neg (not_not.mpr hm)]
      rfl
    simp only [hm, decide_true, not_true_eq_false, if_false]
    rw [e1]
    exact refines_pure hpred
  · simp only [hm, decide_false, Bool.false_eq_true, not_false_eq_true, if_true]
    refine Refines.see ?_
    rw [hpts.eq, hpred.rel.vec.eq, hq.eq, hobs.vec.eq, hpred.rel.eq, hobs.eq, ho.eq]
    exact Refines.lifted fun M _ => refines_newMoments e hb M

theorem refines_memSqCorrect (e : Env W K V h) (hb : b ≤ h.next) {pred : MRef}
    {pts : PtsRef N} {o R2 : ARef} {predv : Moments n} {ptsv : SigmaPoints N n} {ov : Obs m}
    (hpred : MNew V b h pred predv) (hpts : PRel V h pts ptsv) (ho : ORel V h o ov)
    {g : MFun₁} {G : Vec n → Vec m} (hg : g.Computes W K G) {R2v : Mat m m}
    (hR : ARel V h R2 R2v) :
    Refines V h (memSqCorrect qr n m pred pts (fun i => g (pts.points.row i)) R2 o)
      (sqCorrect qr G predv ptsv ov R2v) fun h' => MNew V b h' := by
  refine (refines_memSqTransform e hb hpts (callsRel₁ e hg hpts) rfl rfl hR.noise).bind
    fun r rv h1 t1 _ hr => ?_
  exact refines_memSqCorrected (e.touch t1) (hb.trans t1.next) (hpred.touch t1) (hpts.touch t1) hr.1
    hr.2.rel (ho.touch t1)

theorem refines_memCholUpper {U : Set ℕ} (e : Env W K V h) {A : ARef} {Av : Mat k k}
    (hA : A.mat k k h = Av) :
    Refines U h (memCholUpper k A) (cholUpper Av) fun h' => ARel V h' := by
  refine Refines.see ?_
  rw [hA]
  exact Refines.lifted fun M _ => refines_new fun _ _ f => ⟨f.apart e, f.mat⟩

/-- First half of `sqStep`. -/
noncomputable def sqPredV (qr : QR) (P : UParams n m) (Q2 : Mat n n) (t : ℕ)
    (prev : Option (Moments n)) : Res (Moments n × SigmaPoints (n + n + 1) n) :=
  match prev with
  | none => cholUpper P.S0 >>= fun S2 =>
    sqPoints2moments qr (sqMoments2points ⟨P.mu0, S2⟩) none >>= fun pred =>
    .ok (pred, sqMoments2points ⟨P.mu0, S2⟩)
  | some M => P.f.at (t - 1) >>= fun f =>
    sqPoints2moments qr ((sqMoments2points M).map f) (some Q2) >>= fun pred =>
    .ok (pred, sqMoments2points pred)

theorem sqStep_split (P : UParams n m) (Q2 : Mat n n) (R2 : Mat m m) (t : ℕ)
    (prev : Option (Moments n)) (o : Obs m) :
    sqStep qr P Q2 R2 t prev o = sqPredV qr P Q2 t prev >>= fun r => P.g.at t >>= fun g =>
      sqCorrect qr g r.1 r.2 o R2 := by
  cases prev with
  | none => simp only [sqStep, sqPredV, bind_assoc]; rfl
  | some M => simp only [sqStep, sqPredV, bind_assoc]; rfl

theorem refines_memSqPred (e : Env W K V h) {p : UPRef MFun₁} {P : UParams n m}
    (hp : Par₁ W K V h p P) {t : ℕ} {M : MRef} {Mv : Moments n} (hM : MRel V h M Mv)
    (h0 : t = 0 → Mv = ⟨P.mu0, P.S0⟩) {Q2 : ARef} {Q2v : Mat n n} (hQ : ARel V h Q2 Q2v) :
    Refines V h (memSqPred qr n p Q2 t M) (sqPredV qr P Q2v t (prevOf t Mv))
      fun h' a c => MNew V h.next h' a.1 c.1 ∧ PRel V h' a.2 c.2 := by
  unfold memSqPred sqPredV
  by_cases ht : t = 0
  · rw [if_pos ht, prevOf, if_pos ht]
    have hv := h0 ht
    subst hv
    refine (refines_memCholUpper e hM.mat.eq).bind fun S2 S2v h1 t1 _ hS => ?_
    refine (refines_memSqMoments2points (e.touch t1) (MRel.of (r := ⟨M.mean, S2⟩) (hM.vec.touch t1) hS)).step
      fun pts h2 t2 hpts => ?_
    have t12 := t1.trans t2
    refine (refines_memSqPoints2moments (e.touch t12) t12.next hpts nrel_none).bind
      fun pred predv h3 t3 _ hpred => ?_
    exact refines_pure ⟨hpred, hpts.touch t3⟩
  · rw [if_neg ht, prevOf, if_neg ht]
    refine (refines_memSqMoments2points e hM).step fun pts h1 t1 hpts => ?_
    refine (refines_lift (at_rel hp.f (t - 1))).bind fun f F h2 t2 _ hf => ?_
    have t12 := t1.trans t2
    have hpts2 := hpts.touch t2
    refine (refines_memSqTransform (e.touch t12) t12.next hpts2 (callsRel₁ (e.touch t12) hf hpts2)
      rfl rfl (hQ.touch t12).noise).bind fun r rv h3 t3 _ hr => ?_
    refine (refines_memSqMoments2points (e.touch (t12.trans t3)) hr.2.rel).step
      fun pts' h4 t4 hpts' => ?_
    exact refines_pure ⟨hr.2.touch t4, hpts'⟩

theorem stepAt_memSqStep (e : Env W K V h) {p : UPRef MFun₁} {P : UParams n m}
    (hp : Par₁ W K V h p P) {Q2 R2 : ARef} {Q2v : Mat n n} {R2v : Mat m m} (hQ : ARel V h Q2 Q2v)
    (hR : ARel V h R2 R2v) :
    StepAt V h (memSqStep qr n m p Q2 R2) (sqStep qr P Q2v R2v) ⟨P.mu0, P.S0⟩ := by
  intro t M Mv o ov hM h0 ho
  rw [sqStep_split]
  refine (refines_memSqPred e hp hM h0 hQ).bind fun r rv h1 t1 _ hr => ?_
  refine (refines_lift (at_rel hp.g t)).bind fun g G h2 t2 _ hg => ?_
  have t12 := t1.trans t2
  exact refines_memSqCorrect (e.touch t12) t12.next (hr.1.touch t2) (hr.2.touch t2) (ho.touch t12)
    hg (hR.touch t12)

theorem refines_memSqFull (e : Env W K W h) {p : UPRef MFun₁} {P : UParams n m}
    (hp : Par₁ W K W h p P) {Z : ARef} (hZ : Z.Apart W h) :
    Refines W h (memSqFull qr n m p Z) (sqFull qr P ((Z.ma h).rows m))
      fun h' => MadeRows W h (Z.shape.headD 0) n h' := by
  have e1 : sqFull qr P ((Z.ma h).rows m) =
      ((cholUpper P.Q >>= fun Q2 => cholUpper P.R >>= fun R2 => .ok (sqStep qr P Q2 R2)) >>=
        fun vstep => runLoop vstep 0 none ((Z.ma h).rows m)) := by
    simp only [sqFull, bind_assoc]
    rfl
  rw [e1, rows_eq]
  refine refines_memUkf e (MRel.of hp.mu0 hp.S0) hZ fun V h1 t1 w eV => ?_
  have hpV := (hp.widen w).touch t1
  refine (refines_memCholUpper (V := V) eV hpV.Q.eq).bind fun Q2 Q2v h2 t2 _ hQ => ?_
  have t2V := t2.mono w.sub
  refine (refines_memCholUpper (V := V) (eV.touch t2V) (hpV.R.touch t2V).eq).bind
    fun R2 R2v h3 t3 _ hR => ?_
  have t3V := t3.mono w.sub
  refine refines_pure fun h4 t4 => ?_
  have hQ4 := (hQ.touch t3V).touch t4
  have hR4 := hR.touch t4
  exact stepAt_memSqStep (((eV.touch t2V).touch t3V).touch t4).narrow
    ((((hpV.touch t2V).touch t3V).touch t4).narrow w.sub) ⟨hQ4.1.narrow w.sub, hQ4.2⟩
    ⟨hR4.1.narrow w.sub, hR4.2⟩

/-! ### Covariances from their square roots -/

theorem refines_memUnrootLoop {roots covs : ARef} {h₀ : Heap} (hc : covs.addr ∈ V)
    (hix : covs.ix = id) (hlt : covs.addr < h₀.next) (hroots : roots.Apart V h₀) :
    ∀ (j t : ℕ) (h : Heap), Touch V h₀ h →
      Refines V h (memUnrootLoop n roots covs t j) (.ok ()) fun h' _ _ =>
        (∀ s, t ≤ s → s < t + j →
          (covs.row s).mat n n h' = reconstructU ((roots.row s).mat n n h₀)) ∧
        ∀ s, s < t → (covs.row s).mat n n h' = (covs.row s).mat n n h
  | 0, _, _, _ => refines_pure ⟨fun s h1 h2 => absurd h2 (by omega), fun _ _ => rfl⟩
  | j + 1, t, h, t0 => by
    refine Refines.see ?_
    refine Refines.step (b := ()) (R := fun h1 v _ => Fresh (ndOfMat (reconstructU
      ((roots.row t).mat n n h))) h v h1) (refines_new fun r h1 f => f) fun v h1 t1 f1 => ?_
    refine refines_setting hc fun h2 s2 => ?_
    have t2 : Touch V h1 h2 := s2.touch.mono (by simpa using hc)
    have hrow : (covs.row t).mat n n h2 = reconstructU ((roots.row t).mat n n h₀) := by
      rw [s2.mat hix, f1.mat, (hroots.row t).mat t0]
    have hkeep : ∀ s, (covs.row s).mat n n h1 = (covs.row s).mat n n h := fun s =>
      ARef.row_mat_touch f1.touch (hlt.trans_le t0.next) (by simp)
    refine (refines_memUnrootLoop hc hix hlt hroots j (t + 1) h2 ((t0.trans t1).trans t2)).imp
      fun _ _ h3 t3 _ hl => ⟨fun s h4 h5 => ?_, fun s hs => ?_⟩
    · by_cases hst : s = t
      · rw [hst, hl.2 t (by omega), hrow]
      · exact hl.1 s (by omega) (by omega)
    · rw [hl.2 s (by omega), s2.mat_rest hix (by omega), hkeep]

theorem refines_memUnroot {h₀ : Heap} (e₀ : Env W K W h₀) (t0 : Touch W h₀ h) {F : MRef} {T : ℕ}
    {l : List (Moments n)} (hF : MadeRows W h₀ T n h F l) :
    Refines W h (memUnroot n F T) (.ok (l.map Moments.unroot)) fun h' => MadeRows W h₀ T n h' := by
  have e := e₀.touch t0
  refine runs_new fun c h1 f1 => ?_
  have a1 := f1.addr
  have n1 := f1.next
  have w : Widens W (W ∪ {c.addr}) h := ⟨Set.subset_union_left, fun x hx hW => by
    rcases hx with hx | hx
    · exact absurd hx hW
    · have hx' : x = c.addr := hx
      omega⟩
  have tV : Touch (W ∪ {c.addr}) h h1 := f1.touch.mono (Set.empty_subset _)
  refine Refines.forget w (f1.touch.mono (Set.empty_subset W)) ?_
  have hA := hF.1.apart e₀
  refine (refines_memUnrootLoop (n := n) (h₀ := h1) (by simp) f1.ix (by omega)
    ((hA.2.widen w).touch tV) T 0 h1 (Touch.refl _ _)).step fun _ h2 t2 hl => refines_pure ?_
  have hm := hF.1.mean
  have hcv := hF.1.cov
  have hn := t2.next
  have hn0 := t0.next
  refine ⟨⟨⟨hm.1, by simp only; omega⟩, ⟨by simp only; omega, by simp only; omega⟩,
    by simp only; omega, hF.1.shape_mean, newZeros_shape f1⟩, ?_⟩
  rw [hF.2, List.map_map]
  refine List.map_congr_left fun i hi => ?_
  rw [List.mem_range'_1] at hi
  simp only [Function.comp_apply, MRef.value, MRef.at, Moments.unroot]
  rw [hl.1 i (by omega) (by omega), ((hA.1.widen w).row i).vec (tV.trans t2),
    ((hA.2.widen w).row i).mat tV]

theorem refines_memSqFilter (e : Env W K W h) {p : UPRef MFun₁} {P : UParams n m}
    (hp : Par₁ W K W h p P) {X : ARef} (hX : X.Apart W h) :
    Refines W h (memSqFilter qr n m p X) (sqFilter qr P ((parseObservations (X.ma h)).rows m))
      fun h' => MadeRows W h (X.parse.shape.headD 0) n h' := by
  rw [← ARef.parse_ma]
  refine (refines_memSqFull e hp (by unfold ARef.Apart; rw [ARef.parse_addr]; exact hX)).bind
    fun F l h1 t1 _ hF => ?_
  exact refines_memUnroot e t1 hF

theorem refines_memSqSmooth (e : Env W K V h) (hb : b ≤ h.next) {filt pred next : MRef}
    {pts ptsPred : PtsRef N} {filtv predv nextv : Moments n} {ptsv ptsPredv : SigmaPoints N n}
    (h1 : MRel V h filt filtv) (h2 : PRel V h pts ptsv) (h3 : PRel V h ptsPred ptsPredv)
    (h4 : MRel V h pred predv) (h5 : MRel V h next nextv) :
    Refines V h (memSqSmooth n filt pts ptsPred pred next)
      (sqSmoothRow filtv ptsv ptsPredv predv nextv) fun h' => MNew V b h' := by
  refine Refines.see ?_
  rw [h1.eq, h2.eq, h3.eq, h4.eq, h5.eq]
  exact Refines.lifted fun M _ => refines_newMoments e hb M

theorem backAt_memSqSmoothStep (e : Env W K V h) {p : UPRef MFun₁} {P : UParams n m}
    (hp : Par₁ W K V h p P) {Q2 : ARef} {Q2v : Mat n n} (hQ : ARel V h Q2 Q2v) :
    BackAt V h (memSqSmoothStep qr n p Q2) (sqSmoothStep qr P Q2v) := by
  intro t M Mv N Nv hM hN
  refine (refines_memSqMoments2points e hM).step fun pts h1 t1 hpts => ?_
  refine (refines_lift (at_rel hp.f t)).bind fun f F h2 t2 _ hf => ?_
  have t12 := t1.trans t2
  have hpts2 := hpts.touch t2
  refine (refines_memSqTransform (b := h.next) (e.touch t12) t12.next hpts2
    (callsRel₁ (e.touch t12) hf hpts2) rfl rfl (hQ.touch t12).noise).bind fun r rv h3 t3 _ hr => ?_
  have t13 := t12.trans t3
  exact refines_memSqSmooth (e.touch t13) t13.next (hM.touch t13) (hpts2.touch t3) hr.1 hr.2.rel
    (hN.touch t13)

theorem refines_memSqSmoother (e : Env W K W h) {p : UPRef MFun₁} {P : UParams n m}
    (hp : Par₁ W K W h p P) {X : ARef} (hX : X.Apart W h) :
    Refines W h (memSqSmoother qr n m p X) (sqSmooth qr P ((parseObservations (X.ma h)).rows m))
      fun h' => MadeRows W h (X.parse.shape.headD 0) n h' := by
  rw [← ARef.parse_ma]
  refine (refines_memSqFull e hp (by unfold ARef.Apart; rw [ARef.parse_addr]; exact hX)).bind
    fun F l h1 t1 hl hF => ?_
  obtain ⟨Q2v, hQ2⟩ : ∃ Q2v, cholUpper P.Q = .ok Q2v := by
    rcases hc : cholUpper P.Q with _ | Q2v
    · rw [sqFull, hc] at hl; cases hl
    · exact ⟨Q2v, rfl⟩
  have e2 : sqSmoothFull qr P l = backFull (sqSmoothStep qr P Q2v) l := by
    rw [sqSmoothFull, hQ2]; rfl
  rw [e2]
  have hl2 := hF.2
  subst hl2
  refine (refines_memUks (e.touch t1) (hF.1.apart e) (by rw [hF.1.shape_mean]; rfl)
    (vstep := sqSmoothStep qr P Q2v) fun V h2 t2 w eV => ?_).bind fun S l' h4 t4 _ hS => ?_
  · have hpV := ((hp.touch t1).widen w).touch t2
    have hc := refines_memCholUpper (U := W) (V := V) eV hpV.Q.eq
    rw [hQ2] at hc
    refine hc.step fun Q2 h3 t3 hQ => refines_pure fun h4 t4 => ?_
    have t3V := t3.mono w.sub
    have hQ4 := hQ.touch t4
    exact backAt_memSqSmoothStep ((eV.touch t3V).touch t4).narrow
      (((hpV.touch t3V).touch t4).narrow w.sub) ⟨hQ4.1.narrow w.sub, hQ4.2⟩
  · exact refines_memUnroot e (t1.trans t4) ⟨hS.1.earlier t1, hS.2⟩

/-! ### `filter_update` -/

/-- The arrays that `filter_update` returns: the covariance has three axes. -/
structure MNew3 (V : Set ℕ) (b : ℕ) (h : Heap) (r : MRef) (v : Moments n) : Prop where
  mean : VRel V h r.mean v.mean
  bmean : b ≤ r.mean.addr
  cov : r.cov.Apart V h
  bcov : b ≤ r.cov.addr
  ne : r.mean.addr ≠ r.cov.addr
  shape : r.cov.shape = [1, n, n]
  covs : (r.cov.row 0).mat n n h = v.cov

theorem refines_memSqUpdate (e : Env W K V h) {p : UPRef MFun₁} {P : UParams n m}
    (hp : Par₁ W K V h p P) {M : MRef} (hM : M.mean.Apart V h ∧ M.cov.Apart V h) {o : Option ARef}
    (ho : ∀ r ∈ o, r.Apart V h) {a : UUpdateRefs MFun₁} {A : UUpdateArgs n m}
    (hf : Option.Rel (MFun₁.Computes W K) a.f A.f) (hg : Option.Rel (MFun₁.Computes W K) a.g A.g)
    (hQ : ARel V h (a.Q.getD p.Q) (A.Q.getD P.Q)) (hR : ARel V h (a.R.getD p.R) (A.R.getD P.R)) :
    Refines V h (memSqUpdate qr n m p M o a)
      (sqUpdate qr P (M.value n h) (o.map (ARef.obs m h)) A)
      fun h' => MNew3 V h.next h' := by
  refine (refines_lift (defaultFunction_rel hp.f hf)).bind fun f F h1 t1 _ hf => ?_
  refine (refines_lift (defaultFunction_rel hp.g hg)).bind fun g G h2 t2 _ hg => ?_
  have t12 := t1.trans t2
  refine (refines_memObserved (m := m) (e.touch t12) fun r hr => (ho r hr).touch t12).step
    fun o' h3 t3 ho' => ?_
  have t13 := t12.trans t3
  have hM3 : MRel V h3 M (M.value n h) := MRel.touch ⟨hM.1, hM.2, rfl⟩ t13
  refine (refines_memCholUpper (e.touch t13) hM3.mat.eq).bind fun P2 P2v h4 t4 _ hP2 => ?_
  have t14 := t13.trans t4
  refine (refines_memCholUpper (e.touch t14) (hQ.touch t14).eq).bind fun Q2 Q2v h5 t5 _ hQ2 => ?_
  have t15 := t14.trans t5
  refine (refines_memCholUpper (e.touch t15) (hR.touch t15).eq).bind fun R2 R2v h6 t6 _ hR2 => ?_
  have t16 := t15.trans t6
  refine (refines_memSqMoments2points (e.touch t16) (MRel.of (r := ⟨M.mean, P2⟩) (hM3.vec.touch ((t4.trans t5).trans t6))
    (hP2.touch (t5.trans t6)))).step fun pts h7 t7 hpts => ?_
  have t17 := t16.trans t7
  refine (refines_memSqTransform (b := h.next) (e.touch t17) t17.next hpts
    (callsRel₁ (e.touch t17) hf hpts) rfl rfl (hQ2.touch (t6.trans t7)).noise).bind
    fun r rv h8 t8 _ hr => ?_
  have t18 := t17.trans t8
  refine (refines_memSqMoments2points (e.touch t18) hr.2.rel).step fun pts' h9 t9 hpts' => ?_
  have t19 := t18.trans t9
  have hobs : o.map (ARef.obs m h2) = o.map (ARef.obs m h) := by
    cases o with
    | none => rfl
    | some r => exact congrArg some ((ho r rfl).obs t12)
  rw [hobs] at ho'
  refine (refines_memSqCorrect (e.touch t19) t19.next (hr.2.touch t9) hpts'
    (ho'.touch (((((t4.trans t5).trans t6).trans t7).trans t8).trans t9)) hg
    (hR2.touch ((t7.trans t8).trans t9))).bind fun q qv h10 t10 _ hq => ?_
  have t20 := t19.trans t10
  refine Refines.step (x := memSqReconstruct n q.cov) (b := ()) (R := fun h11 v _ =>
    Fresh ⟨[1, n, n], fun i => (ndOfMat (reconstructU (q.cov.mat n n h10))).data i.tail⟩ h10 v h11)
    (Refines.see (refines_new fun r h1 f => f)) fun v h11 t11 f11 => refines_pure ?_
  have a11 := f11.addr
  have lt := hq.rel.mean.1
  have := t20.next
  refine ⟨hq.rel.vec.touch t11, hq.mean, f11.apart (e.touch t20), by simp only; omega,
    by simp only; omega, congrArg NDArray.shape f11.nd, ?_⟩
  have hmat : (v.row 0).mat n n h11 = reconstructU (q.cov.mat n n h10) := by
    ext i j
    have h12 : ((v.row 0).nd h11).data [(i : ℕ), (j : ℕ)] = (v.nd h11).data [0, (i : ℕ), (j : ℕ)] := rfl
    rw [ARef.mat, Matrix.of_apply, h12, f11.nd]
    simp [ndOfMat]
  rw [hmat, hq.rel.mat.eq]
  rfl

theorem Refines.moments3 {x : HM MRef} {v : Res (Moments n)}
    (hx : Refines W h x v fun h' => MNew3 W h.next h') :
    ∃ res h', x h = (res, h') ∧ h.KeepsBut W h' ∧
      (∀ M, v = .ok M → ∃ r, res = .ok r ∧ r.NewMoments3 h h' M) ∧
      (∀ e, v = .error e → res = .error e) := by
  obtain ⟨t, hr⟩ := hx
  refine ⟨_, _, rfl, ⟨t.next, t.block⟩, ?_, ?_⟩
  · rintro M rfl
    rcases hres : (x h).1 with e | F
    · rw [hres] at hr; exact hr.elim
    · rw [hres] at hr
      have hr' : MNew3 W h.next (x h).2 F M := hr
      refine ⟨F, rfl, ⟨hr'.bmean, hr'.mean.1.1⟩, ⟨hr'.bcov, hr'.cov.1⟩, hr'.ne, hr'.shape, fun i => ?_,
        fun i j => ?_⟩
      · exact congrFun hr'.mean.eq i
      · exact congrFun (congrFun hr'.covs i) j
  · rintro e rfl
    rcases hres : (x h).1 with e' | F
    · rw [hres] at hr
      have : e' = e := hr
      rw [this]
    · rw [hres] at hr; exact hr.elim

end Verif
