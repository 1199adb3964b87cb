import Verif.Proofs.MemoryMethods

/-! # Results of `filter`, `smooth` and `filter_update` on arrays in memory -/

open Matrix

namespace Verif

variable {α β : Type} {n m : ℕ}

theorem Runs.congr {x y : HM α} {h : Heap} {post : Res α → Heap → Prop} (e : x h = y h)
    (hy : Runs y h post) : Runs x h post := by
  unfold Runs at *
  rwa [e]

/-- The typed parameters are those the arrays hold. -/
theorem holds_of_typed {p : PRefs} {h : Heap} {P : Params n m}
    (hP : (p.value h).typed n m = some P)
    (hv : ∀ q ∈ [p.A, p.b, p.Q, p.C, p.d, p.R, p.mu0, p.S0], q.addr < h.next) : p.Holds ∅ h P := by
  obtain ⟨h1, h2, h3, h4, h5, h6, h7, h8⟩ := typed_holds hP
  exact ⟨h1, h2, h3, h4, h5, h6, h7, h8, fun r hr => ⟨hv r hr, by simp⟩⟩

theorem typed_of_holds {p : PRefs} {F : Set ℕ} {h : Heap} {P : Params n m} (hp : p.Holds F h P) :
    (p.value h).typed n m = some P := by
  simp only [PRefs.value, Resolved.typed, hp.A, hp.b, hp.Q, hp.C, hp.d, hp.R, hp.mu0, hp.S0, bind,
    Option.bind, pure]

/-- Parameters and observations are ready: what every method has after its first lines. -/
theorem runs_prepare {k : KFRef} {X : ARef} {h : Heap} (hk : k.Valid h) (hX : X.addr < h.next)
    {r : Res (Params k.nDimState k.nDimObs × List (Obs k.nDimObs))}
    (hr : (k.value h).prepare (X.ma h) = some r) :
    Runs (memInitialize k) h fun r' h' => Touch ∅ h h' ∧
      (∀ p, r' = .ok p → ∃ P, r = .ok (P, (X.parse.ma h').rows k.nDimObs) ∧ p.Holds ∅ h' P ∧
        p.From k h ∧ X.parse.addr < h'.next ∧ X.parse.shape.drop 1 = [k.nDimObs]) ∧
      (∀ e, r' = .error e → r = .error e) := by
  refine (runs_memInitialize hk).imp fun r' h' ⟨t, hok, herr⟩ => ⟨t, ?_, ?_⟩
  · rintro p rfl
    obtain ⟨hi, hfrom, hv⟩ := hok p rfl
    simp only [KF.prepare, hi, ← ARef.parse_ma] at hr
    rcases hP : (p.value h').typed (k.value h).nDimState (k.value h).nDimObs with _ | P
    · simp only [hP] at hr
      cases hr
    · simp only [hP] at hr
      split at hr
      · rename_i hsh
        cases hr
        refine ⟨P, ?_, holds_of_typed hP hv, hfrom, ?_, hsh⟩
        · rw [ARef.ma_touch t (by rw [ARef.parse_addr]; exact hX) (by simp)]
          rfl
        · rw [ARef.parse_addr]
          exact hX.trans_le t.next
      · cases hr
  · rintro e rfl
    simp only [KF.prepare, herr e rfl] at hr
    cases hr
    rfl

/-- Rows read from arrays. -/
theorem holdsRows_of {h : Heap} {a b : ARef} {T : ℕ} (ha : a.shape = [T, n])
    (hb : b.shape = [T, n, n]) :
    HoldsRows h a b ((List.range T).map fun t => ((a.row t).vec n h, (b.row t).mat n n h)) := by
  refine ⟨by simpa using ha, by simpa using hb, ?_, ?_⟩
  · intro t ht i
    simp [ARef.vec, ARef.nd, ARef.row]
  · intro t ht i j
    simp [ARef.mat, ARef.nd, ARef.row]

theorem filter_result {k : KFRef} {X : ARef} {h : Heap} (hk : k.Valid h) (hX : X.addr < h.next)
    {r : Res (List (Vec k.nDimState × Mat k.nDimState k.nDimState))}
    (hr : (k.value h).filter (X.ma h) = some r) :
    Runs (k.filter X) h fun r' h' =>
      (∀ q, r' = .ok q → ∃ l, r = .ok l ∧ h.next ≤ q.1.addr ∧ q.1.addr < h'.next ∧
        h.next ≤ q.2.addr ∧ q.2.addr < h'.next ∧ q.1.addr ≠ q.2.addr ∧ HoldsRows h' q.1 q.2 l) ∧
      (∀ e, r' = .error e → r = .error e) := by
  rw [KF.filter] at hr
  rcases hp : (k.value h).prepare (X.ma h) with _ | w
  · rw [hp] at hr; cases hr
  rw [hp] at hr
  replace hr := Option.some.inj hr
  refine Runs.bind (runs_prepare hk hX hp) ?_ ?_
  · rintro p h1 ⟨t1, hok, -⟩
    obtain ⟨P, rfl, hholds, -, hZ, hm⟩ := hok p rfl
    refine Runs.bind (runs_memFilter hholds hZ hm) ?_ ?_
    · rintro f h2 ⟨t2, hf, e2⟩
      obtain ⟨fok, faddr, -, -, -, s4, s5⟩ := hf f rfl
      refine runs_pure ⟨?_, fun e he => by cases he⟩
      rintro _ ⟨⟩
      have m4 := faddr f.filtMeans.addr (by simp [FRefs.addrs])
      have m5 := faddr f.filtCovs.addr (by simp [FRefs.addrs])
      have w4 := fok.valid f.filtMeans (by simp)
      have w5 := fok.valid f.filtCovs (by simp)
      have n1 := t1.next
      have hd := fok.distinct
      simp only [List.map_cons, List.map_nil, List.nodup_cons, List.mem_cons, List.not_mem_nil,
        or_false, not_or, not_false_eq_true, List.nodup_nil, and_true] at hd
      refine ⟨_, ?_, by simp only; omega, by simp only; omega, by simp only; omega,
        by simp only; omega, hd.2.2.2, holdsRows_of s4 s5⟩
      rw [← hr]
      change kfFilter P _ = _
      rw [kfFilter, e2, ok_map]
      change Except.ok _ = Except.ok _
      rw [List.map_map]
      rfl
    · rintro e h2 ⟨-, -, e2⟩
      refine ⟨fun q hq => (by cases hq), ?_⟩
      rintro _ ⟨⟩
      rw [← hr]
      change kfFilter P _ = _
      rw [kfFilter, e2]
      rfl
  · rintro e h1 ⟨-, -, herr⟩
    refine ⟨fun q hq => (by cases hq), ?_⟩
    rintro _ ⟨⟩
    rw [← hr, herr e rfl]
    rfl

theorem smooth_result {k : KFRef} {X : ARef} {h : Heap} (hk : k.Valid h) (hX : X.addr < h.next)
    {r : Res (List (Vec k.nDimState × Mat k.nDimState k.nDimState))}
    (hr : (k.value h).smooth (X.ma h) = some r) :
    Runs (k.smooth X) h fun r' h' =>
      (∀ q, r' = .ok q → ∃ l, r = .ok l ∧ h.next ≤ q.1.addr ∧ q.1.addr < h'.next ∧
        h.next ≤ q.2.addr ∧ q.2.addr < h'.next ∧ q.1.addr ≠ q.2.addr ∧ HoldsRows h' q.1 q.2 l) ∧
      (∀ e, r' = .error e → r = .error e) := by
  rw [KF.smooth] at hr
  rcases hp : (k.value h).prepare (X.ma h) with _ | w
  · rw [hp] at hr; cases hr
  rw [hp] at hr
  replace hr := Option.some.inj hr
  refine Runs.bind (runs_prepare hk hX hp) ?_ ?_
  · rintro p h1 ⟨t1, hok, -⟩
    obtain ⟨P, rfl, hholds, -, hZ, hm⟩ := hok p rfl
    refine Runs.bind (runs_memFilter hholds hZ hm) ?_ ?_
    · rintro f h2 ⟨t2, hf, e2⟩
      obtain ⟨fok, faddr, -, -, -, s4, s5⟩ := hf f rfl
      have hA := hholds.touch t2
      refine Runs.bind (runs_memSmooth (m := k.nDimObs) fok hA.A (hA.valid p.A (by simp)).1 s4) ?_ ?_
      · rintro s h3 ⟨t3, hs, e3⟩
        obtain ⟨sok, saddr, -, s1, s2, -⟩ := hs s rfl
        refine runs_pure ⟨?_, fun e he => by cases he⟩
        rintro _ ⟨⟩
        have m1 := saddr s.means.addr (by simp [SRefs.addrs])
        have m2 := saddr s.covs.addr (by simp [SRefs.addrs])
        have w1 := sok.v1
        have w2 := sok.v2
        have n1 := t1.next
        have n2 := t2.next
        refine ⟨_, ?_, by simp only; omega, by simp only; omega, by simp only; omega,
          by simp only; omega, sok.d12, holdsRows_of s1 s2⟩
        rw [← hr]
        change kfSmooth P _ = _
        rw [kfSmooth, e2, ok_map]
        change (do
          let sm ← smoothFull P.A ((List.range (X.parse.shape.headD 0)).map fun t =>
            f.at (m := k.nDimObs) h2 t)
          pure (sm.map fun s : SStep k.nDimState => (s.mean, s.cov))) = _
        rw [e3, ok_map]
        change Except.ok _ = Except.ok _
        rw [List.map_map]
        rfl
      · rintro e h3 ⟨-, -, e3⟩
        refine ⟨fun q hq => (by cases hq), ?_⟩
        rintro _ ⟨⟩
        rw [← hr]
        change kfSmooth P _ = _
        rw [kfSmooth, e2, ok_map]
        change (do
          let sm ← smoothFull P.A ((List.range (X.parse.shape.headD 0)).map fun t =>
            f.at (m := k.nDimObs) h2 t)
          pure (sm.map fun s : SStep k.nDimState => (s.mean, s.cov))) = _
        rw [e3]
        rfl
    · rintro e h2 ⟨-, -, e2⟩
      refine ⟨fun q hq => (by cases hq), ?_⟩
      rintro _ ⟨⟩
      rw [← hr]
      change kfSmooth P _ = _
      rw [kfSmooth, e2]
      rfl
  · rintro e h1 ⟨-, -, herr⟩
    refine ⟨fun q hq => (by cases hq), ?_⟩
    rintro _ ⟨⟩
    rw [← hr, herr e rfl]
    rfl

theorem argOrDefault_mats {arg : Option ARef} {dflt : ARef} {h : Heap} {tv : TV (Mat n m)}
    (harg : ∀ r, arg = some r → r.shape = [n, m]) (hd : (dflt.nd h).toMats n m = some tv) :
    argOrDefault (arg.map (ARef.mat n m h)) tv =
      (argOrDefaultRef arg dflt 2).map (ARef.mat n m h) := by
  cases arg with
  | some r => simp [argOrDefault, argOrDefaultRef, harg r rfl, Except.map]
  | none =>
    unfold NDArray.toMats at hd
    have hs : (dflt.nd h).shape = dflt.shape := rfl
    rw [hs] at hd
    split at hd
    · rename_i hsh
      cases hd
      simp [argOrDefault, argOrDefaultRef, hsh, Except.map, ARef.mat]
    · split at hd
      · rename_i T n' m' hsh
        split at hd
        · cases hd
          simp [argOrDefault, argOrDefaultRef, hsh, Except.map]
        · cases hd
      · cases hd

theorem argOrDefault_vecs {arg : Option ARef} {dflt : ARef} {h : Heap} {tv : TV (Vec n)}
    (harg : ∀ r, arg = some r → r.shape = [n]) (hd : (dflt.nd h).toVecs n = some tv) :
    argOrDefault (arg.map (ARef.vec n h)) tv =
      (argOrDefaultRef arg dflt 1).map (ARef.vec n h) := by
  cases arg with
  | some r => simp [argOrDefault, argOrDefaultRef, harg r rfl, Except.map]
  | none =>
    unfold NDArray.toVecs at hd
    have hs : (dflt.nd h).shape = dflt.shape := rfl
    rw [hs] at hd
    split at hd
    · rename_i hsh
      cases hd
      simp [argOrDefault, argOrDefaultRef, hsh, Except.map]
      rfl
    · split at hd
      · rename_i T n' hsh
        split at hd
        · cases hd
          simp [argOrDefault, argOrDefaultRef, hsh, Except.map]
        · cases hd
      · cases hd

theorem argOrDefaultRef_addr {arg : Option ARef} {dflt r : ARef} {dim b : ℕ}
    (h : argOrDefaultRef arg dflt dim = .ok r) (harg : ∀ r, arg = some r → r.addr < b)
    (hd : dflt.addr < b) : r.addr < b := by
  simp only [argOrDefaultRef] at h
  split at h
  · cases h
  · cases h
    cases arg with
    | none => exact hd
    | some r => exact harg r rfl

theorem map_touch {f : Heap → ARef → α} {arg : Option ARef} {h h' : Heap}
    (hf : ∀ r, arg = some r → f h' r = f h r) : arg.map (f h') = arg.map (f h) := by
  cases arg with
  | none => rfl
  | some r => exact congrArg some (hf r rfl)

theorem filterUpdate_result {k : KFRef} {mean cov : ARef} {o : Option ARef} {a : UpdateRefs}
    {h : Heap} (hk : k.Valid h) (hmean : mean.addr < h.next) (hcov : cov.addr < h.next)
    (ho : ∀ r, o = some r → r.addr < h.next) (ha : a.Fits k.nDimState k.nDimObs h)
    {r : Res (Vec k.nDimState × Mat k.nDimState k.nDimState)}
    (hr : (k.value h).filterUpdate (mean.vec k.nDimState h) (cov.mat k.nDimState k.nDimState h)
      (o.map (ARef.obs k.nDimObs h)) (a.value k.nDimState k.nDimObs h) = some r) :
    Runs (k.filterUpdate mean cov o a) h fun r' h' =>
      (∀ q, r' = .ok q → r = .ok (q.1.vec k.nDimState h', q.2.mat k.nDimState k.nDimState h') ∧
        h.next ≤ q.1.addr ∧ q.1.addr < h'.next ∧ h.next ≤ q.2.addr ∧ q.2.addr < h'.next ∧
        q.1.addr ≠ q.2.addr) ∧
      (∀ e, r' = .error e → r = .error e) := by
  unfold KF.filterUpdate at hr
  rcases hp : (k.value h).params with _ | w
  · rw [hp] at hr; cases hr
  rw [hp] at hr
  replace hr := Option.some.inj hr
  refine Runs.bind (runs_memInitialize hk) ?_ ?_
  · rintro p h1 ⟨t1, hok, -⟩
    obtain ⟨hi, -, hv⟩ := hok p rfl
    rw [KF.params, hi] at hp
    rcases hP : (p.value h1).typed (k.value h).nDimState (k.value h).nDimObs with _ | P
    · simp only [hP] at hp; cases hp
    simp only [hP, Option.map_some, Option.some.injEq] at hp
    subst hp
    change Params k.nDimState k.nDimObs at P
    have hh : p.Holds ∅ h1 P := holds_of_typed hP hv
    -- the arguments
    have n1 := t1.next
    have eA := argOrDefault_mats (fun r hr => (ha.A r hr).2) hh.A
    have eb := argOrDefault_vecs (fun r hr => (ha.b r hr).2) hh.b
    have eQ := argOrDefault_mats (fun r hr => (ha.Q r hr).2) hh.Q
    have eC := argOrDefault_mats (fun r hr => (ha.C r hr).2) hh.C
    have ed := argOrDefault_vecs (fun r hr => (ha.d r hr).2) hh.d
    have eR := argOrDefault_mats (fun r hr => (ha.R r hr).2) hh.R
    rw [map_touch (f := ARef.mat _ _) fun r hr => ARef.mat_touch t1 (ha.A r hr).1 (by simp)] at eA
    rw [map_touch (f := ARef.vec _) fun r hr => ARef.vec_touch t1 (ha.b r hr).1 (by simp)] at eb
    rw [map_touch (f := ARef.mat _ _) fun r hr => ARef.mat_touch t1 (ha.Q r hr).1 (by simp)] at eQ
    rw [map_touch (f := ARef.mat _ _) fun r hr => ARef.mat_touch t1 (ha.C r hr).1 (by simp)] at eC
    rw [map_touch (f := ARef.vec _) fun r hr => ARef.vec_touch t1 (ha.d r hr).1 (by simp)] at ed
    rw [map_touch (f := ARef.mat _ _) fun r hr => ARef.mat_touch t1 (ha.R r hr).1 (by simp)] at eR
    replace hr : Verif.filterUpdate (n := k.nDimState) (m := k.nDimObs) P (mean.vec k.nDimState h)
      (cov.mat k.nDimState k.nDimState h) (o.map (ARef.obs k.nDimObs h))
      (a.value k.nDimState k.nDimObs h) = r := hr
    simp only [Verif.filterUpdate, UpdateRefs.value] at hr
    rw [eA, eb, eQ, eC, ed, eR] at hr
    rcases gb : argOrDefaultRef a.b p.b 1 with e | b
    · rw [gb] at hr
      exact ⟨fun q hq => (by cases hq), fun e' he => by cases he; exact hr.symm⟩
    rcases gd : argOrDefaultRef a.d p.d 1 with e | d
    · rw [gb, gd] at hr
      exact ⟨fun q hq => (by cases hq), fun e' he => by cases he; exact hr.symm⟩
    rcases gA : argOrDefaultRef a.A p.A 2 with e | A
    · rw [gb, gd, gA] at hr
      exact ⟨fun q hq => (by cases hq), fun e' he => by cases he; exact hr.symm⟩
    rcases gC : argOrDefaultRef a.C p.C 2 with e | C
    · rw [gb, gd, gA, gC] at hr
      exact ⟨fun q hq => (by cases hq), fun e' he => by cases he; exact hr.symm⟩
    rcases gQ : argOrDefaultRef a.Q p.Q 2 with e | Q
    · rw [gb, gd, gA, gC, gQ] at hr
      exact ⟨fun q hq => (by cases hq), fun e' he => by cases he; exact hr.symm⟩
    rcases gR : argOrDefaultRef a.R p.R 2 with e | R
    · rw [gb, gd, gA, gC, gQ, gR] at hr
      exact ⟨fun q hq => (by cases hq), fun e' he => by cases he; exact hr.symm⟩
    rw [gb, gd, gA, gC, gQ, gR] at hr
    -- where the arrays are
    have hvA := argOrDefaultRef_addr gA (fun r hr => (ha.A r hr).1.trans_le n1) (hv _ (by simp))
    have hvb := argOrDefaultRef_addr gb (fun r hr => (ha.b r hr).1.trans_le n1) (hv _ (by simp))
    have hvQ := argOrDefaultRef_addr gQ (fun r hr => (ha.Q r hr).1.trans_le n1) (hv _ (by simp))
    have hvC := argOrDefaultRef_addr gC (fun r hr => (ha.C r hr).1.trans_le n1) (hv _ (by simp))
    have hvd := argOrDefaultRef_addr gd (fun r hr => (ha.d r hr).1.trans_le n1) (hv _ (by simp))
    have hvR := argOrDefaultRef_addr gR (fun r hr => (ha.R r hr).1.trans_le n1) (hv _ (by simp))
    -- the computation, once the observation is there
    have key : ∀ (ob : ARef) (h2 : Heap) (ov : Obs k.nDimObs), Touch ∅ h1 h2 → ob.addr < h2.next →
        ob.obs k.nDimObs h2 = ov →
        Except.ok ((filterCorrect (C.mat k.nDimObs k.nDimState h1) (R.mat k.nDimObs k.nDimObs h1)
          (d.vec k.nDimObs h1)
          (filterPredict (A.mat k.nDimState k.nDimState h1) (Q.mat k.nDimState k.nDimState h1)
            (b.vec k.nDimState h1) (mean.vec k.nDimState h) (cov.mat k.nDimState k.nDimState h)).1
          (filterPredict (A.mat k.nDimState k.nDimState h1) (Q.mat k.nDimState k.nDimState h1)
            (b.vec k.nDimState h1) (mean.vec k.nDimState h) (cov.mat k.nDimState k.nDimState h)).2
          ov).2) = r →
        Runs (memPredict k.nDimState A Q b mean cov >>= fun pred =>
          memCorrect k.nDimState k.nDimObs C R d pred.1 pred.2 ob >>= fun c =>
          pure (c.2.1, c.2.2)) h2 fun r' h' =>
          (∀ q, r' = .ok q → r = .ok (q.1.vec k.nDimState h', q.2.mat k.nDimState k.nDimState h') ∧
            h.next ≤ q.1.addr ∧ q.1.addr < h'.next ∧ h.next ≤ q.2.addr ∧ q.2.addr < h'.next ∧
            q.1.addr ≠ q.2.addr) ∧
          (∀ e, r' = .error e → r = .error e) := by
      intro ob h2 ov t2 hob hov hval
      have n2 := t2.next
      refine runs_memPredict fun pr h3 t3 a1 a2 ane hpr => ?_
      have n3 := t3.next
      by_cases hmiss : ov.missing
      · have e : (memCorrect k.nDimState k.nDimObs C R d pr.1 pr.2 ob >>= fun c =>
            pure (c.2.1, c.2.2)) h3 = (newZeros [k.nDimState, k.nDimObs] >>= fun _ =>
              pure (pr.1, pr.2)) h3 := by
          have hm' : (ob.obs k.nDimObs h3).missing := by
            rw [ARef.obs_touch t3 hob (by simp), hov]; exact hmiss
          change (bind (bind (HM.see fun h => decide (ob.obs k.nDimObs h).missing) _) _) h3 = _
          simp only [Bind.bind, HM.see, hm']
          rfl
        refine Runs.congr e ?_
        refine runs_new fun g h4 f4 => runs_pure ⟨?_, fun e he => by cases he⟩
        rintro _ ⟨⟩
        have a4 := f4.addr
        have n4 := f4.next
        refine ⟨?_, by simp only; omega, by simp only; omega, by simp only; omega,
          by simp only; omega, ane⟩
        rw [← hval, ARef.vec_touch f4.touch a1.2 (by simp), ARef.mat_touch f4.touch a2.2 (by simp)]
        congr 1
        rw [hpr]
        simp only [filterCorrect, hmiss, not_true_eq_false, if_false]
        rw [ARef.mat_touch t2 hvA (by simp), ARef.mat_touch t2 hvQ (by simp),
          ARef.vec_touch t2 hvb (by simp), ARef.vec_touch (t1.trans t2) hmean (by simp),
          ARef.mat_touch (t1.trans t2) hcov (by simp)]
      · obtain ⟨v, hvdef⟩ : ∃ v, v = filterCorrect (C.mat k.nDimObs k.nDimState h3)
            (R.mat k.nDimObs k.nDimObs h3) (d.vec k.nDimObs h3) (pr.1.vec k.nDimState h3)
            (pr.2.mat k.nDimState k.nDimState h3) (ob.obs k.nDimObs h3) := ⟨_, rfl⟩
        have e : (memCorrect k.nDimState k.nDimObs C R d pr.1 pr.2 ob >>= fun c =>
            pure (c.2.1, c.2.2)) h3 = (newArray (ndOfMat v.1) >>= fun _ =>
              newArray (ndOfVec v.2.1) >>= fun x => newArray (ndOfMat v.2.2) >>= fun y =>
              pure (x, y)) h3 := by
          have hm' : ¬ (ob.obs k.nDimObs h3).missing := by
            rw [ARef.obs_touch t3 hob (by simp), hov]; exact hmiss
          rw [hvdef]
          change (bind (bind (HM.see fun h => decide (ob.obs k.nDimObs h).missing) _) _) h3 = _
          simp only [Bind.bind, HM.see, hm']
          rfl
        refine Runs.congr e ?_
        refine runs_new fun g h4 f4 => runs_new fun x h5 f5 => runs_new fun y h6 f6 =>
          runs_pure ⟨?_, fun e he => by cases he⟩
        rintro _ ⟨⟩
        have a4 := f4.addr
        have n4 := f4.next
        have a5 := f5.addr
        have n5 := f5.next
        have a6 := f6.addr
        have n6 := f6.next
        refine ⟨?_, by simp only; omega, by simp only; omega, by simp only; omega,
          by simp only; omega, by simp only; omega⟩
        rw [← hval, ARef.vec_touch f6.touch (by simp only; omega) (by simp), f5.vec, f6.mat]
        congr 1
        rw [hvdef, ARef.obs_touch t3 hob (by simp), hov,
          ARef.mat_touch (t2.trans t3) hvC (by simp), ARef.mat_touch (t2.trans t3) hvR (by simp),
          ARef.vec_touch (t2.trans t3) hvd (by simp)]
        have e1 := congrArg Prod.fst hpr
        have e2 := congrArg Prod.snd hpr
        simp only at e1 e2
        rw [e1, e2, ARef.mat_touch t2 hvA (by simp), ARef.mat_touch t2 hvQ (by simp),
          ARef.vec_touch t2 hvb (by simp), ARef.vec_touch (t1.trans t2) hmean (by simp),
          ARef.mat_touch (t1.trans t2) hcov (by simp)]
    cases o with
    | none =>
      change Runs (newMasked (R.shape.headD 0) >>= fun ob =>
        memPredict k.nDimState A Q b mean cov >>= fun pred =>
          memCorrect k.nDimState k.nDimObs C R d pred.1 pred.2 ob >>= fun c =>
          pure (c.2.1, c.2.2)) h1 _
      refine Runs.bind (mid := fun r' h' => ∃ v, r' = .ok v ∧
        Touch ∅ h1 h' ∧ v.addr < h'.next ∧ v.obs k.nDimObs h' = ⟨0, fun _ => true⟩) ?_ ?_ ?_
      · refine ⟨_, rfl, ⟨Nat.le_succ _, fun _ hx _ => Function.update_of_ne hx.ne _ _⟩,
          Nat.lt_succ_self _, ?_⟩
        simp [ARef.obs, ARef.ma, newMasked]
        rfl
      · rintro ob h2 ⟨v, ⟨⟩, t2, hob, hov⟩
        exact key ob h2 _ t2 hob hov hr
      · rintro e h2 ⟨v, ⟨⟩, -⟩
    | some o =>
      exact key o h1 _ (Touch.refl _ _) ((ho o rfl).trans_le n1)
        (ARef.obs_touch t1 (ho o rfl) (by simp)) hr
  · rintro e h1 ⟨-, -, herr⟩
    refine ⟨fun q hq => (by cases hq), ?_⟩
    rintro _ ⟨⟩
    rw [KF.params, herr e rfl] at hp
    cases hp
    exact hr.symm

end Verif
