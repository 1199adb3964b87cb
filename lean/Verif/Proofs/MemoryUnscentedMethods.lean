import Verif.Proofs.MemoryUnscentedLoops

/-! # The methods of the unscented classes on arrays in memory -/

open Matrix

namespace Verif

variable {n m N : ℕ} {V W : Set ℕ} {K : Constants} {h h' : Heap} {b : ℕ}

theorem Memories.env (e : Memories W K h) : Env W K W h := ⟨subset_rfl, e.own, e.kept, e.apart⟩

theorem rows_eq (Z : ARef) (m : ℕ) (h : Heap) :
    (Z.ma h).rows m = (List.range' 0 (Z.shape.headD 0)).map fun i => (Z.row i).obs m h := by
  rw [← List.range_eq_range']
  rfl

/-- The arrays of a filter or smoother. -/
abbrev MadeRows (W : Set ℕ) (h : Heap) (T n : ℕ) (h' : Heap) (F : MRef) (l : List (Moments n)) :
    Prop :=
  Made W h h' T n F ∧ l = (List.range' 0 T).map fun i => (F.at i).value n h'

theorem MadeRows.newRows {T : ℕ} {F : MRef} {l : List (Moments n)} (hF : MadeRows W h T n h' F l) :
    F.NewRows h h' l := by
  rw [hF.2]
  exact hF.1.newRows

theorem refines_memAukfFilter (e : Env W K W h) {p : UPRef MFun₁} {P : UParams n m}
    (hp : Par₁ W K W h p P) {X : ARef} (hX : X.Apart W h) :
    Refines W h (memAukfFilter n m p X) (aukfFilter P ((parseObservations (X.ma h)).rows m))
      fun h' => MadeRows W h (X.parse.shape.headD 0) n h' := by
  rw [← ARef.parse_ma, rows_eq]
  refine refines_memUkf (v := .ok (aukfStep P)) e (MRel.of hp.mu0 hp.S0)
    (by unfold ARef.Apart; rw [ARef.parse_addr]; exact hX) fun V h1 t1 w eV => ?_
  refine refines_pure fun h2 t2 => ?_
  exact stepAt_memAukfStep (eV.touch t2).narrow
    ((((hp.widen w).touch t1).touch t2).narrow w.sub)

theorem refines_memUkfFilter (e : Env W K W h) {p : UPRef MFun₂} {P : GParams n m}
    (hp : Par₂ W K W h p P) {X : ARef} (hX : X.Apart W h) :
    Refines W h (memUkfFilter n m p X) (ukfFilter P ((parseObservations (X.ma h)).rows m))
      fun h' => MadeRows W h (X.parse.shape.headD 0) n h' := by
  rw [← ARef.parse_ma, rows_eq]
  refine refines_memUkf (v := .ok (ukfStep P)) e (MRel.of hp.mu0 hp.S0)
    (by unfold ARef.Apart; rw [ARef.parse_addr]; exact hX) fun V h1 t1 w eV => ?_
  refine refines_pure fun h2 t2 => ?_
  exact stepAt_memUkfStep (eV.touch t2).narrow
    ((((hp.widen w).touch t1).touch t2).narrow w.sub)

theorem Made.apart {T : ℕ} {F : MRef} (e : Env W K W h) (hF : Made W h h' T n F) :
    F.mean.Apart W h' ∧ F.cov.Apart W h' :=
  ⟨⟨hF.mean.2, e.fresh hF.mean.1⟩, ⟨hF.cov.2, e.fresh hF.cov.1⟩⟩

theorem Made.earlier {h₀ : Heap} {T : ℕ} {F : MRef} (hF : Made W h h' T n F) (t : Touch W h₀ h) :
    Made W h₀ h' T n F :=
  ⟨⟨t.next.trans hF.mean.1, hF.mean.2⟩, ⟨t.next.trans hF.cov.1, hF.cov.2⟩, hF.ne, hF.shape_mean,
    hF.shape_cov⟩

theorem refines_memAukfSmooth (e : Env W K W h) {p : UPRef MFun₁} {P : UParams n m}
    (hp : Par₁ W K W h p P) {X : ARef} (hX : X.Apart W h) :
    Refines W h (memAukfSmooth n m p X) (aukfSmooth P ((parseObservations (X.ma h)).rows m))
      fun h' => MadeRows W h (X.parse.shape.headD 0) n h' := by
  refine (refines_memAukfFilter e hp hX).bind fun F l h1 t1 _ hF => ?_
  rw [hF.2]
  refine (refines_memUks (e.touch t1) (hF.1.apart e) (by rw [hF.1.shape_mean]; rfl)
    (vstep := aukfSmoothStep P) fun V h2 t2 w eV => refines_pure fun h3 t3 => ?_).imp
    fun S l h4 t4 _ hS => ⟨hS.1.earlier t1, hS.2⟩
  exact backAt_memAukfSmoothStep (eV.touch t3).narrow
    (((((hp.touch t1).widen w).touch t2).touch t3).narrow w.sub)

theorem refines_memUkfSmooth (e : Env W K W h) {p : UPRef MFun₂} {P : GParams n m}
    (hp : Par₂ W K W h p P) {X : ARef} (hX : X.Apart W h) :
    Refines W h (memUkfSmooth n m p X)
      (ukfSmooth P ((parseObservations (parseObservations (X.ma h))).rows m))
      fun h' => MadeRows W h (X.parse.parse.shape.headD 0) n h' := by
  rw [← ARef.parse_ma]
  refine (refines_memUkfFilter e hp (X := X.parse)
    (by unfold ARef.Apart; rw [ARef.parse_addr]; exact hX)).bind fun F l h1 t1 _ hF => ?_
  rw [hF.2]
  refine (refines_memUks (e.touch t1) (hF.1.apart e) (by rw [hF.1.shape_mean]; rfl)
    (vstep := ukfSmoothStep P) fun V h2 t2 w eV => refines_pure fun h3 t3 => ?_).imp
    fun S l h4 t4 _ hS => ⟨hS.1.earlier t1, hS.2⟩
  exact backAt_memUkfSmoothStep (eV.touch t3).narrow
    (((((hp.touch t1).widen w).touch t2).touch t3).narrow w.sub)

/-! ### `filter_update` -/

theorem refines_memObserved (e : Env W K V h) {R : ARef} {o : Option ARef}
    (ho : ∀ r ∈ o, r.Apart V h) :
    Refines V h (memObserved R o)
      (.ok (match o.map (ARef.obs m h) with
        | none => (⟨0, fun _ => true⟩ : Obs m)
        | some o => o)) fun h' => ORel V h' := by
  cases o with
  | none =>
    refine ⟨⟨Nat.le_succ _, fun _ hx _ => Function.update_of_ne hx.ne _ _⟩, ?_, ?_⟩
    · exact ⟨Nat.lt_succ_self _, e.fresh le_rfl⟩
    · simp only [ARef.obs, ARef.ma, memObserved, newMasked, Function.update_self, Option.map_none]
      rfl
  | some r => exact refines_pure ⟨ho r rfl, rfl⟩

theorem arel_getD {a : Option ARef} {d : ARef} {A : Option (Mat n N)} {D : Mat n N}
    (ha : ∀ r ∈ a, r.Apart V h) (hA : a.map (ARef.mat n N h) = A) (hd : ARel V h d D) :
    ARel V h (a.getD d) (A.getD D) := by
  subst hA
  cases a with
  | none => exact hd
  | some r => exact ⟨ha r rfl, rfl⟩

theorem refines_memAukfUpdate (e : Env W K V h) {p : UPRef MFun₁} {P : UParams n m}
    (hp : Par₁ W K V h p P) {M : MRef} (hM : M.mean.Apart V h ∧ M.cov.Apart V h) {o : Option ARef}
    (ho : ∀ r ∈ o, r.Apart V h) {a : UUpdateRefs MFun₁} {A : UUpdateArgs n m}
    (hf : Option.Rel (MFun₁.Computes W K) a.f A.f) (hg : Option.Rel (MFun₁.Computes W K) a.g A.g)
    (hQ : ARel V h (a.Q.getD p.Q) (A.Q.getD P.Q)) (hR : ARel V h (a.R.getD p.R) (A.R.getD P.R)) :
    Refines V h (memAukfUpdate n m p M o a) (aukfUpdate P (M.value n h) (o.map (ARef.obs m h)) A)
      fun h' => MNew V h.next h' := by
  refine (refines_lift (defaultFunction_rel hp.f hf)).bind fun f F h1 t1 _ hf => ?_
  refine (refines_lift (defaultFunction_rel hp.g hg)).bind fun g G h2 t2 _ hg => ?_
  have t12 := t1.trans t2
  refine (refines_memObserved (m := m) (e.touch t12) fun r hr => (ho r hr).touch t12).step
    fun o' h3 t3 ho' => ?_
  have t13 := t12.trans t3
  refine (refines_memMoments2points (e.touch t13) (MRel.touch ⟨hM.1, hM.2, rfl⟩ t13)).bind
    fun pts ptsv h4 t4 _ hpts => ?_
  have t14 := t13.trans t4
  refine (refines_memTransform (e.touch t14) t14.next hpts (callsRel₁ (e.touch t14) hf hpts) rfl rfl
    (hQ.touch t14).noise).step fun r h5 t5 hr => ?_
  have t15 := t14.trans t5
  refine (refines_memMoments2points (e.touch t15) hr.2.rel).bind fun pts' ptsv' h6 t6 _ hpts' => ?_
  have t16 := t15.trans t6
  have hobs : o.map (ARef.obs m h2) = o.map (ARef.obs m h) := by
    cases o with
    | none => rfl
    | some r => exact congrArg some ((ho r rfl).obs t12)
  rw [hobs] at ho'
  exact refines_memUfCorrect (e.touch t16) t16.next (hr.2.touch t6) hpts'
    (ho'.touch ((t4.trans t5).trans t6)) (callsRel₁ (e.touch t16) hg hpts') rfl rfl
    (hR.touch t16).noise

theorem refines_memUkfUpdate (e : Env W K V h) {p : UPRef MFun₂} {P : GParams n m}
    (hp : Par₂ W K V h p P) {M : MRef} (hM : M.mean.Apart V h ∧ M.cov.Apart V h) {o : Option ARef}
    (ho : ∀ r ∈ o, r.Apart V h) {a : UUpdateRefs MFun₂} {A : GUpdateArgs n m}
    (hf : Option.Rel (MFun₂.Computes W K) a.f A.f) (hg : Option.Rel (MFun₂.Computes W K) a.g A.g)
    (hQ : ARel V h (a.Q.getD p.Q) (A.Q.getD P.Q)) (hR : ARel V h (a.R.getD p.R) (A.R.getD P.R)) :
    Refines V h (memUkfUpdate n m p M o a) (ukfUpdate P (M.value n h) (o.map (ARef.obs m h)) A)
      fun h' => MNew V h.next h' := by
  refine (refines_lift (defaultFunction_rel hp.f hf)).bind fun f F h1 t1 _ hf => ?_
  refine (refines_lift (defaultFunction_rel hp.g hg)).bind fun g G h2 t2 _ hg => ?_
  have t12 := t1.trans t2
  refine (refines_memObserved (m := m) (e.touch t12) fun r hr => (ho r hr).touch t12).step
    fun o' h3 t3 ho' => ?_
  have t13 := t12.trans t3
  refine (refines_memAugFilterPoints (e.touch t13) (MRel.touch ⟨hM.1, hM.2, rfl⟩ t13) (hQ.touch t13)
    (hR.touch t13)).bind fun pts ptsv h4 t4 _ hpts => ?_
  have t14 := t13.trans t4
  refine (refines_memTransform (e.touch t14) t14.next hpts.1
    (callsRel₂ (e.touch t14) hf hpts.1 hpts.2.1) rfl rfl nrel_none).step fun r h5 t5 hr => ?_
  have t15 := t14.trans t5
  have hobs : o.map (ARef.obs m h2) = o.map (ARef.obs m h) := by
    cases o with
    | none => rfl
    | some r => exact congrArg some ((ho r rfl).obs t12)
  rw [hobs] at ho'
  exact refines_memUfCorrect (e.touch t15) t15.next hr.2 hr.1 (ho'.touch (t4.trans t5))
    (callsRel₂ (e.touch t15) hg hr.1 (hpts.2.2.touch t5)) rfl rfl nrel_none

/-! ### What a caller sees -/

theorem Refines.rows {T : ℕ} {x : HM MRef} {v : Res (List (Moments n))}
    (hx : Refines W h x v fun h' => MadeRows W h T n h') :
    ∃ res h', x h = (res, h') ∧ h.KeepsBut W h' ∧
      (∀ l, v = .ok l → ∃ F, res = .ok F ∧ F.NewRows h h' l) ∧
      (∀ e, v = .error e → res = .error e) := by
  obtain ⟨t, hr⟩ := hx
  refine ⟨_, _, rfl, ⟨t.next, t.block⟩, ?_, ?_⟩
  · rintro l rfl
    rcases hres : (x h).1 with e | F
    · rw [hres] at hr; exact hr.elim
    · rw [hres] at hr
      exact ⟨F, rfl, MadeRows.newRows hr⟩
  · rintro e rfl
    rcases hres : (x h).1 with e' | F
    · rw [hres] at hr
      have : e' = e := hr
      rw [this]
    · rw [hres] at hr; exact hr.elim

theorem Refines.moments {x : HM MRef} {v : Res (Moments n)}
    (hx : Refines W h x v fun h' => MNew W h.next h') :
    ∃ res h', x h = (res, h') ∧ h.KeepsBut W h' ∧
      (∀ M, v = .ok M → ∃ r, res = .ok r ∧ r.NewMoments h h' M) ∧
      (∀ e, v = .error e → res = .error e) := by
  obtain ⟨t, hr⟩ := hx
  refine ⟨_, _, rfl, ⟨t.next, t.block⟩, ?_, ?_⟩
  · rintro M rfl
    rcases hres : (x h).1 with e | F
    · rw [hres] at hr; exact hr.elim
    · rw [hres] at hr
      have hr' : MNew W h.next (x h).2 F M := hr
      refine ⟨F, rfl, ⟨hr'.mean, hr'.rel.mean.1⟩, ⟨hr'.cov, hr'.rel.cov.1⟩, hr'.ne, fun i => ?_,
        fun i j => ?_⟩
      · exact congrFun hr'.rel.vec.eq i
      · exact congrFun (congrFun hr'.rel.mat.eq i) j
  · rintro e rfl
    rcases hres : (x h).1 with e' | F
    · rw [hres] at hr
      have : e' = e := hr
      rw [this]
    · rw [hres] at hr; exact hr.elim

end Verif
