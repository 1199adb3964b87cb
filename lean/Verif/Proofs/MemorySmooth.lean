import Verif.Proofs.MemoryFilter

/-! # The smoother on arrays in memory computes the rows of the smoother on values -/

open Matrix

namespace Verif

variable {α β : Type} {n m : ℕ}

/-- The addresses of the arrays of `_smooth`. -/
def SRefs.addrs (s : SRefs) : Set ℕ := {s.means.addr, s.covs.addr, s.gains.addr}

/-- The arrays of `_smooth` are different and in use, and none is a view. -/
structure SRefs.Ok (s : SRefs) (h : Heap) : Prop where
  i1 : s.means.ix = id
  i2 : s.covs.ix = id
  i3 : s.gains.ix = id
  v1 : s.means.addr < h.next
  v2 : s.covs.addr < h.next
  v3 : s.gains.addr < h.next
  d12 : s.means.addr ≠ s.covs.addr
  d13 : s.means.addr ≠ s.gains.addr
  d23 : s.covs.addr ≠ s.gains.addr

theorem SRefs.Ok.touch {s : SRefs} {F : Set ℕ} {h h' : Heap} (hs : s.Ok h) (ht : Touch F h h') :
    s.Ok h' :=
  ⟨hs.i1, hs.i2, hs.i3, hs.v1.trans_le ht.next, hs.v2.trans_le ht.next, hs.v3.trans_le ht.next,
    hs.d12, hs.d13, hs.d23⟩

/-- Row `t` of the three arrays, at present. -/
def SRefs.at (s : SRefs) (h : Heap) (t : ℕ) : SStep n :=
  ⟨(s.means.row t).vec n h, (s.covs.row t).mat n n h, (s.gains.row t).mat n n h⟩

theorem SRefs.at_touch {F : Set ℕ} {h h' : Heap} (ht : Touch F h h') {s : SRefs} (hs : s.Ok h)
    (hF : ∀ a ∈ s.addrs, a ∉ F) (t : ℕ) : s.at (n := n) h' t = s.at h t := by
  simp only [SRefs.at, SStep.mk.injEq]
  exact ⟨ARef.row_vec_touch ht hs.v1 (hF _ (by simp [SRefs.addrs])),
    ARef.row_mat_touch ht hs.v2 (hF _ (by simp [SRefs.addrs])),
    ARef.row_mat_touch ht hs.v3 (hF _ (by simp [SRefs.addrs]))⟩

theorem FRefs.at_touch {F : Set ℕ} {h h' : Heap} (ht : Touch F h h') {f : FRefs} (hf : f.Ok h)
    (hF : ∀ a ∈ f.addrs, a ∉ F) (t : ℕ) : f.at (n := n) (m := m) h' t = f.at h t := by
  simp only [FRefs.at, Step.mk.injEq]
  exact ⟨ARef.row_vec_touch ht (hf.valid _ (by simp)) (hF _ (by simp [FRefs.addrs])),
    ARef.row_mat_touch ht (hf.valid _ (by simp)) (hF _ (by simp [FRefs.addrs])),
    ARef.row_mat_touch ht (hf.valid _ (by simp)) (hF _ (by simp [FRefs.addrs])),
    ARef.row_vec_touch ht (hf.valid _ (by simp)) (hF _ (by simp [FRefs.addrs])),
    ARef.row_mat_touch ht (hf.valid _ (by simp)) (hF _ (by simp [FRefs.addrs]))⟩

theorem frame_memSmoothUpdate (F : Set ℕ) (n : ℕ) (A fm fc pm pc sm sc : ARef) (h : Heap) :
    Frame F (memSmoothUpdate n A fm fc pm pc sm sc) h :=
  (frame_see F _ h).bind fun _ _ _ => (frame_newArray F _ _).bind fun _ _ _ =>
    (frame_newArray F _ _).bind fun _ _ _ => (frame_newArray F _ _).bind fun _ _ _ =>
    frame_pure F _ _

theorem frame_memSmoothLoop (n : ℕ) (A : ARef) (f : FRefs) (s : SRefs) :
    ∀ (t : ℕ) (h : Heap), Frame s.addrs (memSmoothLoop n A f s t) h
  | 0, h => frame_pure _ _ h
  | t + 1, h => by
    have h1 : s.means.addr ∈ s.addrs := by simp [SRefs.addrs]
    have h2 : s.covs.addr ∈ s.addrs := by simp [SRefs.addrs]
    have h3 : s.gains.addr ∈ s.addrs := by simp [SRefs.addrs]
    exact (frame_lift _ _ _).bind fun _ _ _ => (frame_memSmoothUpdate _ _ _ _ _ _ _ _ _ _).bind
      fun _ _ _ => (frame_setRow h1 _ _ _).bind fun _ _ _ => (frame_setRow h2 _ _ _).bind
      fun _ _ _ => (frame_setRow h3 _ _ _).bind fun _ _ _ => frame_memSmoothLoop n A f s t _

/-- `smoothLoop` from time `t` on, for the rows `g t, …, g (T - 1)`. -/
noncomputable def smoothFrom (A : TV (Mat n n)) (g : ℕ → Step n m) (T t : ℕ) :
    Res (SStep n × List (SStep n)) :=
  smoothLoop A t (g t) ((List.range' (t + 1) (T - 1 - t)).map g)

theorem smoothFrom_last (A : TV (Mat n n)) (g : ℕ → Step n m) (T : ℕ) :
    smoothFrom A g T (T - 1) = .ok (⟨(g (T - 1)).filtMean, (g (T - 1)).filtCov, 0⟩, []) := by
  simp [smoothFrom, smoothLoop, Pure.pure, Except.pure]

theorem smoothFrom_step (A : TV (Mat n n)) (g : ℕ → Step n m) {T t : ℕ} (ht : t + 1 < T) :
    smoothFrom A g T t = (do
      let r ← smoothFrom A g T (t + 1)
      let At ← lastDims A t
      pure (smoothUpdate At (g t).filtMean (g t).filtCov (g (t + 1)).predMean (g (t + 1)).predCov
        r.1.mean r.1.cov, r.1 :: r.2)) := by
  have e : T - 1 - t = (T - 1 - (t + 1)) + 1 := by omega
  rw [smoothFrom, e, List.range'_succ, List.map_cons, smoothLoop]
  rfl

theorem smoothFrom_error (A : TV (Mat n n)) (g : ℕ → Step n m) {T : ℕ} {e : Err} :
    ∀ {t : ℕ}, t < T → smoothFrom A g T t = .error e → smoothFrom A g T 0 = .error e
  | 0, _, h => h
  | t + 1, ht, h => smoothFrom_error A g (t := t) (by omega) (by
      rw [smoothFrom_step A g ht, h]; rfl)

theorem runs_memSmoothUpdate {A fm fc pm pc sm sc : ARef} {h : Heap} {f : ARef × ARef × ARef → HM β}
    {post : Res β → Heap → Prop}
    (hf : ∀ r h', Touch ∅ h h' → (h.next ≤ r.1.addr ∧ r.1.addr < h'.next) →
      (h.next ≤ r.2.1.addr ∧ r.2.1.addr < h'.next) → (h.next ≤ r.2.2.addr ∧ r.2.2.addr < h'.next) →
      (⟨r.1.vec n h', r.2.1.mat n n h', r.2.2.mat n n h'⟩ : SStep n) = smoothUpdate (A.mat n n h)
        (fm.vec n h) (fc.mat n n h) (pm.vec n h) (pc.mat n n h) (sm.vec n h) (sc.mat n n h) →
      Runs (f r) h' post) :
    Runs (memSmoothUpdate n A fm fc pm pc sm sc >>= f) h post := by
  obtain ⟨v, hv⟩ : ∃ v, v = smoothUpdate (A.mat n n h)
        (fm.vec n h) (fc.mat n n h) (pm.vec n h) (pc.mat n n h) (sm.vec n h) (sc.mat n n h) :=
    ⟨_, rfl⟩
  have e : (memSmoothUpdate n A fm fc pm pc sm sc >>= f) h =
      (newArray (ndOfMat v.gain) >>= fun c => newArray (ndOfVec v.mean) >>= fun a =>
        newArray (ndOfMat v.cov) >>= fun b => f (a, b, c)) h := by
    rw [hv]; rfl
  unfold Runs
  rw [e]
  refine runs_new fun g h1 f1 => runs_new fun a h2 f2 => runs_new fun b h3 f3 => ?_
  have a1 := f1.addr; have n1 := f1.next
  have a2 := f2.addr; have n2 := f2.next
  have a3 := f3.addr; have n3 := f3.next
  refine hf _ _ (f1.touch.trans (f2.touch.trans f3.touch)) ⟨?_, ?_⟩ ⟨?_, ?_⟩ ⟨?_, ?_⟩ ?_
  · simp only; omega
  · simp only; omega
  · simp only; omega
  · simp only; omega
  · simp only; omega
  · simp only; omega
  · simp only
    rw [ARef.vec_touch f3.touch (by omega) (by simp), f2.vec, f3.mat,
      ARef.mat_touch (f2.touch.trans f3.touch) (by omega) (by simp), f1.mat, ← hv]

theorem runs_memSmoothLoop {A : ARef} {f : FRefs} {s : SRefs} {A' : TV (Mat n n)}
    {g : ℕ → Step n m} {T : ℕ} :
    ∀ (t : ℕ) (h : Heap), t < T → s.Ok h → f.Ok h → (∀ a ∈ f.addrs, a ∉ s.addrs) →
    (A.nd h).toMats n n = some A' → A.addr < h.next → A.addr ∉ s.addrs →
    (∀ i, f.at h i = g i) →
    smoothFrom A' g T t = .ok (s.at h t, (List.range' (t + 1) (T - 1 - t)).map fun i => s.at h i) →
    Runs (memSmoothLoop n A f s t) h fun r h' => Touch s.addrs h h' ∧
      smoothFrom A' g T 0 =
      r.map fun _ => (s.at (n := n) h' 0, (List.range' 1 (T - 1)).map fun i => s.at h' i)
  | 0, h, _, _, _, _, _, _, _, _, hpre => ⟨Touch.refl _ _, hpre⟩
  | t + 1, h, ht, hs, hf, hfs, hA, hAv, hAF, hg, hpre => by
    have hval := smoothFrom_step A' g ht
    rw [hpre, lastDims_mats hA] at hval
    rw [memSmoothLoop]
    rcases hAt : A.lastDims t 2 with e | At
    · rw [hAt] at hval
      refine ⟨Touch.refl _ _, ?_⟩
      exact smoothFrom_error A' g (t := t) (by omega) hval
    rw [hAt] at hval
    have m1 : s.means.addr ∈ s.addrs := by simp [SRefs.addrs]
    have m2 : s.covs.addr ∈ s.addrs := by simp [SRefs.addrs]
    have m3 : s.gains.addr ∈ s.addrs := by simp [SRefs.addrs]
    change Runs (memSmoothUpdate n At (f.filtMeans.row t) (f.filtCovs.row t)
      (f.predMeans.row (t + 1)) (f.predCovs.row (t + 1)) (s.means.row (t + 1)) (s.covs.row (t + 1))
      >>= fun r => setRow s.means t r.1 >>= fun _ => setRow s.covs t r.2.1 >>= fun _ =>
        setRow s.gains t r.2.2 >>= fun _ => memSmoothLoop n A f s t) h _
    refine runs_memSmoothUpdate fun r h₁ t₁ a1 a2 a3 hv => ?_
    refine runs_setting fun h₂ s₂ => runs_setting fun h₃ s₃ => runs_setting fun h₄ s₄ => ?_
    have n1 := t₁.next
    have n2 := s₂.next
    have n3 := s₃.next
    have n4 := s₄.next
    have v1 := hs.v1
    have v2 := hs.v2
    have v3 := hs.v3
    have htouch : Touch s.addrs h h₄ := (t₁.mono (Set.empty_subset _)).trans
      ((s₂.touch.mono (by simpa using m1)).trans ((s₃.touch.mono (by simpa using m2)).trans
        (s₄.touch.mono (by simpa using m3))))
    have e2 : r.2.1.mat n n h₂ = r.2.1.mat n n h₁ :=
      ARef.mat_touch s₂.touch a2.2 (by rw [Set.mem_singleton_iff]; omega)
    have e3 : r.2.2.mat n n h₃ = r.2.2.mat n n h₁ := by
      rw [ARef.mat_touch s₃.touch (by omega) (by rw [Set.mem_singleton_iff]; omega),
        ARef.mat_touch s₂.touch a3.2 (by rw [Set.mem_singleton_iff]; omega)]
    have hat : s.at h₄ t = (⟨r.1.vec n h₁, r.2.1.mat n n h₁, r.2.2.mat n n h₁⟩ : SStep n) := by
      simp only [SRefs.at, SStep.mk.injEq]
      refine ⟨?_, ?_, ?_⟩
      · rw [ARef.row_vec_touch s₄.touch (by omega) (by simpa using hs.d13),
          ARef.row_vec_touch s₃.touch (by omega) (by simpa using hs.d12), s₂.vec hs.i1]
      · rw [ARef.row_mat_touch s₄.touch (by omega) (by simpa using hs.d23), s₃.mat hs.i2, e2]
      · rw [s₄.mat hs.i3, e3]
    have hrest : ∀ i, i ≠ t → s.at (n := n) h₄ i = s.at h i := by
      intro i hi
      simp only [SRefs.at, SStep.mk.injEq]
      refine ⟨?_, ?_, ?_⟩
      · rw [ARef.row_vec_touch s₄.touch (by omega) (by simpa using hs.d13),
          ARef.row_vec_touch s₃.touch (by omega) (by simpa using hs.d12), s₂.vec_rest hs.i1 hi,
          ARef.row_vec_touch t₁ v1 (by simp)]
      · rw [ARef.row_mat_touch s₄.touch (by omega) (by simpa using hs.d23), s₃.mat_rest hs.i2 hi,
          ARef.row_mat_touch s₂.touch (by omega) (by simpa using Ne.symm hs.d12),
          ARef.row_mat_touch t₁ v2 (by simp)]
      · rw [s₄.mat_rest hs.i3 hi,
          ARef.row_mat_touch s₃.touch (by omega) (by simpa using Ne.symm hs.d23),
          ARef.row_mat_touch s₂.touch (by omega) (by simpa using Ne.symm hs.d13),
          ARef.row_mat_touch t₁ v3 (by simp)]
    refine (runs_memSmoothLoop t h₄ (by omega) (hs.touch htouch) (hf.touch htouch) hfs
      (by rw [ARef.nd_touch htouch hAv hAF]; exact hA) (hAv.trans_le htouch.next) hAF
      (fun i => by rw [FRefs.at_touch htouch hf hfs]; exact hg i) ?_).imp
      fun r' h' ⟨t', e'⟩ => ⟨htouch.trans t', e'⟩
    rw [hval]
    change Except.ok _ = Except.ok _
    congr 1
    have hu : (s.at h₄ t : SStep n) = smoothUpdate (ARef.mat n n h At) (g t).filtMean (g t).filtCov
        (g (t + 1)).predMean (g (t + 1)).predCov (s.at (n := n) h (t + 1)).mean
        (s.at (n := n) h (t + 1)).cov := by
      rw [hat, hv, ← hg t, ← hg (t + 1)]
      rfl
    refine Prod.ext hu.symm ?_
    have e : T - 1 - t = (T - 1 - (t + 1)) + 1 := by omega
    simp only [e, List.range'_succ, List.map_cons]
    rw [hrest (t + 1) (by omega)]
    congr 1
    refine List.map_congr_left fun i hi => ?_
    rw [List.mem_range'_1] at hi
    rw [hrest i (by omega)]

/-- `_smooth`: new arrays, whose rows are the rows of the smoother on values. -/
theorem runs_memSmooth {A : ARef} {f : FRefs} {A' : TV (Mat n n)} {h : Heap} {T : ℕ} (hf : f.Ok h)
    (hA : (A.nd h).toMats n n = some A') (hAv : A.addr < h.next)
    (hsh : f.filtMeans.shape = [T, n]) :
    Runs (memSmooth A f) h fun r h' => Touch ∅ h h' ∧
      (∀ s, r = .ok s → s.Ok h' ∧ (∀ a ∈ s.addrs, h.next ≤ a) ∧ 0 < T ∧
        s.means.shape = [T, n] ∧ s.covs.shape = [T, n, n] ∧ s.gains.shape = [T - 1, n, n]) ∧
      smoothFull A' ((List.range T).map fun t => f.at (n := n) (m := m) h t) =
        r.map fun s => (List.range T).map fun t => s.at (n := n) h' t := by
  have hT : f.filtMeans.shape.headD 0 = T := by rw [hsh]; rfl
  have hn : f.filtMeans.shape.getD 1 0 = n := by rw [hsh]; rfl
  unfold memSmooth
  simp only [hT, hn]
  refine runs_new fun v1 h1 f1 => runs_new fun v2 h2 f2 => ?_
  have t2 := f1.touch.trans f2.touch
  rcases Nat.eq_zero_or_pos T with hT0 | hT0
  · subst hT0
    rw [if_pos rfl]
    exact ⟨t2, fun s hs => (by cases hs), rfl⟩
  rw [if_neg hT0.ne']
  refine runs_new fun v3 h3 f3 => runs_setting fun h4 s4 => runs_setting fun h5 s5 => ?_
  have a1 := f1.addr; have n1 := f1.next
  have a2 := f2.addr; have n2 := f2.next
  have a3 := f3.addr; have n3 := f3.next
  have n4 := s4.next
  have n5 := s5.next
  have t3 := t2.trans f3.touch
  obtain ⟨s, hsdef⟩ : ∃ s : SRefs, s = ⟨v1, v2, v3⟩ := ⟨_, rfl⟩
  have hF : ∀ a ∈ s.addrs, h.next ≤ a := by
    intro a ha
    rw [hsdef] at ha
    simp only [SRefs.addrs, Set.mem_insert_iff, Set.mem_singleton_iff] at ha
    omega
  have m1 : v1.addr ∈ s.addrs := by simp [hsdef, SRefs.addrs]
  have m2 : v2.addr ∈ s.addrs := by simp [hsdef, SRefs.addrs]
  have t35 : Touch s.addrs h3 h5 :=
    (s4.touch.mono (by simpa using m1)).trans (s5.touch.mono (by simpa using m2))
  have t5 : Touch ∅ h h5 := t3.fresh t35 hF
  have hok : s.Ok h5 := by
    rw [hsdef]
    refine ⟨f1.ix, f2.ix, f3.ix, ?_, ?_, ?_, ?_, ?_, ?_⟩ <;> simp only <;> omega
  have hfs : ∀ a ∈ f.addrs, a ∉ s.addrs := by
    intro a ha has
    have := hF a has
    have hv := hf.valid
    simp only [FRefs.addrs, Set.mem_insert_iff, Set.mem_singleton_iff] at ha
    rcases ha with rfl | rfl | rfl | rfl | rfl
    · have := hv f.predMeans (by simp); omega
    · have := hv f.predCovs (by simp); omega
    · have := hv f.gains (by simp); omega
    · have := hv f.filtMeans (by simp); omega
    · have := hv f.filtCovs (by simp); omega
  have w4 := hf.valid f.filtMeans (by simp)
  have w5 := hf.valid f.filtCovs (by simp)
  have hg : ∀ i, f.at (n := n) (m := m) h5 i = f.at h i := FRefs.at_touch t5 hf (by simp)
  have hpre : smoothFrom A' (f.at (n := n) (m := m) h) T (T - 1) =
      .ok (s.at h5 (T - 1), (List.range' (T - 1 + 1) (T - 1 - (T - 1))).map fun i => s.at h5 i) := by
    rw [smoothFrom_last, Nat.sub_self]
    congr 2
    simp only [hsdef, SRefs.at, SStep.mk.injEq, FRefs.at]
    refine ⟨?_, ?_, ?_⟩
    · rw [ARef.row_vec_touch s5.touch (by omega) (by rw [Set.mem_singleton_iff]; omega), s4.vec f1.ix,
        ARef.row_vec_touch t3 w4 (by simp)]
    · rw [s5.mat f2.ix, ARef.row_mat_touch s4.touch (by omega) (by rw [Set.mem_singleton_iff]; omega),
        ARef.row_mat_touch t3 w5 (by simp)]
    · rw [ARef.row_mat_touch s5.touch (by omega) (by rw [Set.mem_singleton_iff]; omega),
        ARef.row_mat_touch s4.touch (by omega) (by rw [Set.mem_singleton_iff]; omega)]
      ext i j
      have := congrArg NDArray.data f3.nd
      simp only [ARef.nd, f3.ix, id] at this
      simp [ARef.mat, ARef.nd, ARef.row, f3.ix, congrFun this]
  rw [← hsdef]
  have hfull : ∀ g : ℕ → Step n m, smoothFull A' ((List.range T).map g) = (do
      let r ← smoothFrom A' g T 0
      pure (r.1 :: r.2)) := by
    intro g
    obtain ⟨k, rfl⟩ : ∃ k, T = k + 1 := ⟨T - 1, by omega⟩
    rw [List.range_eq_range', List.range'_succ, List.map_cons, smoothFull, smoothFrom]
    rfl
  rw [hfull]
  have hrange : ∀ h : Heap, ((List.range T).map fun t => s.at (n := n) h t) =
      s.at h 0 :: (List.range' 1 (T - 1)).map fun i => s.at h i := by
    intro h
    obtain ⟨k, rfl⟩ : ∃ k, T = k + 1 := ⟨T - 1, by omega⟩
    rw [List.range_eq_range', List.range'_succ, List.map_cons]
    rfl
  refine Runs.bind (runs_memSmoothLoop (m := m) (T - 1) h5 (by omega) hok (hf.touch t5) hfs
    (by rw [ARef.nd_touch t5 hAv (by simp)]; exact hA) (hAv.trans_le t5.next)
    (fun ha => by have := hF _ ha; omega) hg hpre) ?_ ?_
  · rintro u h6 ⟨t6, e6⟩
    refine runs_pure ⟨t5.fresh t6 hF, ?_, ?_⟩
    · rintro _ ⟨⟩
      refine ⟨hok.touch t6, hF, hT0, ?_⟩
      rw [hsdef]
      exact ⟨congrArg NDArray.shape f1.nd, congrArg NDArray.shape f2.nd,
        congrArg NDArray.shape f3.nd⟩
    · rw [e6, ok_map, ok_map, hrange]
      rfl
  · rintro e h6 ⟨t6, e6⟩
    refine ⟨t5.fresh t6 hF, fun s hs => (by cases hs), ?_⟩
    rw [e6]
    rfl

end Verif
