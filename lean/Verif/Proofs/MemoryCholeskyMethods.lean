import Verif.Proofs.MemoryCholesky

/-! # Results of the methods of `CholeskyKalmanFilter` on arrays in memory -/

open Matrix

namespace Verif

variable {α β : Type} {n m : ℕ}

/-! ### What `_smooth` and `_loglikelihoods` read -/

/-- The rows agree but for the gain, which `_smooth` does not read. -/
def Step.Same (s s' : Step n m) : Prop :=
  s.predMean = s'.predMean ∧ s.predCov = s'.predCov ∧ s.filtMean = s'.filtMean ∧
    s.filtCov = s'.filtCov

theorem smoothLoop_same (A : TV (Mat n n)) : ∀ (l l' : List (Step n m)) (t : ℕ) (s s' : Step n m),
    s.Same s' → List.Forall₂ Step.Same l l' → smoothLoop A t s l = smoothLoop A t s' l'
  | [], _, t, s, s', hs, .nil => by simp only [smoothLoop, hs.2.2.1, hs.2.2.2]
  | a :: l, _, t, s, s', hs, .cons (b := b) h1 h2 => by
    simp only [smoothLoop, smoothLoop_same A l _ (t + 1) a b h1 h2, hs.2.2.1, hs.2.2.2, h1.1, h1.2.1]

theorem smoothFull_same (A : TV (Mat n n)) {l l' : List (Step n m)} (h : List.Forall₂ Step.Same l l') :
    smoothFull A l = smoothFull A l' := by
  cases h with
  | nil => rfl
  | cons h1 h2 => simp only [smoothFull, smoothLoop_same A _ _ 0 _ _ h1 h2]

theorem loglikLoop_same (p : Params n m) : ∀ (l l' : List (Step n m)) (t : ℕ) (os : List (Obs m)),
    List.Forall₂ (fun s s' : Step n m => s.predMean = s'.predMean ∧ s.predCov = s'.predCov) l l' →
    loglikLoop p t l os = loglikLoop p t l' os
  | [], _, t, os, .nil => rfl
  | a :: l, _, t, [], .cons h1 h2 => rfl
  | a :: l, _, t, o :: os, .cons (b := b) h1 h2 => by
    have e : loglikStep p t a o = loglikStep p t b o := by simp only [loglikStep, h1.1, h1.2]
    simp only [loglikLoop, e, loglikLoop_same p l _ (t + 1) os h2]

theorem forall₂_range {R : α → β → Prop} {f : ℕ → α} {g : ℕ → β} {T : ℕ}
    (h : ∀ t, t < T → R (f t) (g t)) :
    List.Forall₂ R ((List.range T).map f) ((List.range T).map g) := by
  rw [List.forall₂_map_left_iff, List.forall₂_map_right_iff, List.forall₂_same]
  exact fun t ht => h t (List.mem_range.mp ht)

/-! ### filter, smooth -/

theorem cholFilter_result {qr : QR} {store : ℝ → ℝ} {k : KFRef} {X : ARef} {h : Heap}
    (hk : k.Valid h) (hX : X.addr < h.next)
    {r : Res (List (Vec k.nDimState × Mat k.nDimState k.nDimState))}
    (hr : (k.value h).filterOf .cholesky qr store (X.ma h) = some r) :
    Runs (k.cholFilter qr X) h fun r' h' =>
      (∀ q, r' = .ok q → ∃ l, r = .ok l ∧ h.next ≤ q.1.addr ∧ q.1.addr < h'.next ∧
        h.next ≤ q.2.addr ∧ q.2.addr < h'.next ∧ q.1.addr ≠ q.2.addr ∧ HoldsRows h' q.1 q.2 l) ∧
      (∀ e, r' = .error e → r = .error e) := by
  rw [KF.filterOf] at hr
  rcases hp : (k.value h).prepare (X.ma h) with _ | w
  · rw [hp] at hr; cases hr
  rw [hp] at hr
  replace hr := Option.some.inj hr
  refine Runs.bind (runs_prepare hk hX hp) ?_ ?_
  swap
  · rintro e h1 ⟨-, -, herr⟩
    refine ⟨fun q hq => (by cases hq), ?_⟩
    rintro _ ⟨⟩
    rw [← hr, herr e rfl]
    rfl
  rintro p h1 ⟨t1, hok, -⟩
  obtain ⟨P, rfl, hholds, -, hZ, hm⟩ := hok p rfl
  replace hr : cholFilter qr P ((X.parse.ma h1).rows k.nDimObs) = r := hr
  refine Runs.bind (runs_memCholFilter (qr := qr) hholds hZ hm) ?_ ?_
  swap
  · rintro e h2 ⟨-, -, e2⟩
    refine ⟨fun q hq => (by cases hq), ?_⟩
    rintro _ ⟨⟩
    rw [← hr, cholFilter, e2]
    rfl
  rintro c h2 ⟨t2, hc, e2⟩
  obtain ⟨cok, caddr, -, -, s3, s4⟩ := hc c rfl
  refine runs_memReconstruct cok.v4 s4 fun a h3 t3 a3 b3 _ sa hrec => ?_
  refine runs_pure ⟨?_, fun e he => by cases he⟩
  rintro _ ⟨⟩
  have m3 := caddr c.filtMeans.addr (by simp [CRefs.addrs])
  have n1 := t1.next
  have n2 := t2.next
  have n3 := t3.next
  have w3 := cok.v3
  refine ⟨_, ?_, by simp only; omega, by simp only; omega, by simp only; omega,
    by simp only; omega, by simp only; omega, holdsRows_of s3 sa⟩
  rw [← hr, cholFilter, e2, ok_map]
  change Except.ok _ = Except.ok _
  rw [List.map_map]
  refine congrArg _ (List.map_congr_left fun t ht => ?_)
  rw [hrec t (List.mem_range.mp ht), ARef.row_vec_touch t3 w3 (by simp)]
  rfl

/-- The arrays that `_smooth` is given are as the smoother on arrays needs them. -/
theorem filled_ok {c : CRefs} {a b : ARef} {h h3 h4 : Heap} (cok : c.Ok h) (t3 : Touch ∅ h h3)
    (t4 : Touch ∅ h3 h4) (ha : h.next ≤ a.addr) (ha' : a.addr < h3.next) (hb : h3.next ≤ b.addr)
    (hb' : b.addr < h4.next) (ia : a.ix = id) (ib : b.ix = id) :
    (c.filled a b).Ok h4 ∧ (c.filled b a).Ok h4 := by
  have := cok.v1
  have := cok.v2
  have := cok.v3
  have := cok.d12
  have := cok.d13
  have := cok.d23
  have := t3.next
  have := t4.next
  constructor
  · refine ⟨?_, ?_, ?_⟩
    · intro r hr
      simp only [CRefs.filled, List.mem_cons, List.not_mem_nil, or_false] at hr
      rcases hr with rfl | rfl | rfl | rfl | rfl
      · exact cok.i1
      · exact ia
      · exact cok.i2
      · exact cok.i3
      · exact ib
    · intro r hr
      simp only [CRefs.filled, List.mem_cons, List.not_mem_nil, or_false] at hr
      rcases hr with rfl | rfl | rfl | rfl | rfl <;> omega
    · simp only [CRefs.filled, List.map_cons, List.map_nil, List.nodup_cons, List.mem_cons,
        List.not_mem_nil, or_false, not_or, not_false_eq_true, List.nodup_nil, and_true]
      omega
  · refine ⟨?_, ?_, ?_⟩
    · intro r hr
      simp only [CRefs.filled, List.mem_cons, List.not_mem_nil, or_false] at hr
      rcases hr with rfl | rfl | rfl | rfl | rfl
      · exact cok.i1
      · exact ib
      · exact cok.i2
      · exact cok.i3
      · exact ia
    · intro r hr
      simp only [CRefs.filled, List.mem_cons, List.not_mem_nil, or_false] at hr
      rcases hr with rfl | rfl | rfl | rfl | rfl <;> omega
    · simp only [CRefs.filled, List.map_cons, List.map_nil, List.nodup_cons, List.mem_cons,
        List.not_mem_nil, or_false, not_or, not_false_eq_true, List.nodup_nil, and_true]
      omega

/-- Their rows are those of the filter with the covariances reconstructed. -/
theorem filled_same {c : CRefs} {a b : ARef} {h h4 : Heap} {t : ℕ} (m : ℕ) (cok : c.Ok h)
    (t4 : Touch ∅ h h4) (ha : (a.row t).mat n n h4 = reconstruct ((c.predCov2s.row t).mat n n h))
    (hb : (b.row t).mat n n h4 = reconstruct ((c.filtCov2s.row t).mat n n h)) :
    ((c.at (n := n) h t).step m).Same ((c.filled a b).at h4 t) :=
  ⟨(ARef.row_vec_touch t4 cok.v1 (by simp)).symm, ha.symm,
    (ARef.row_vec_touch t4 cok.v3 (by simp)).symm, hb.symm⟩

theorem cholSmooth_result {qr : QR} {store : ℝ → ℝ} {k : KFRef} {X : ARef} {h : Heap}
    (hk : k.Valid h) (hX : X.addr < h.next)
    {r : Res (List (Vec k.nDimState × Mat k.nDimState k.nDimState))}
    (hr : (k.value h).smoothOf .cholesky qr store (X.ma h) = some r) :
    Runs (k.cholSmooth qr X) h fun r' h' =>
      (∀ q, r' = .ok q → ∃ l, r = .ok l ∧ h.next ≤ q.1.addr ∧ q.1.addr < h'.next ∧
        h.next ≤ q.2.addr ∧ q.2.addr < h'.next ∧ q.1.addr ≠ q.2.addr ∧ HoldsRows h' q.1 q.2 l) ∧
      (∀ e, r' = .error e → r = .error e) := by
  rw [KF.smoothOf] at hr
  rcases hp : (k.value h).prepare (X.ma h) with _ | w
  · rw [hp] at hr; cases hr
  rw [hp] at hr
  replace hr := Option.some.inj hr
  refine Runs.bind (runs_prepare hk hX hp) ?_ ?_
  swap
  · rintro e h1 ⟨-, -, herr⟩
    refine ⟨fun q hq => (by cases hq), ?_⟩
    rintro _ ⟨⟩
    rw [← hr, herr e rfl]
    rfl
  rintro p h1 ⟨t1, hok, -⟩
  obtain ⟨P, rfl, hholds, -, hZ, hm⟩ := hok p rfl
  replace hr : cholSmooth qr P ((X.parse.ma h1).rows k.nDimObs) = r := hr
  refine Runs.bind (runs_memCholFilter (qr := qr) hholds hZ hm) ?_ ?_
  swap
  · rintro e h2 ⟨-, -, e2⟩
    refine ⟨fun q hq => (by cases hq), ?_⟩
    rintro _ ⟨⟩
    rw [← hr, cholSmooth, e2]
    rfl
  rintro c h2 ⟨t2, hc, e2⟩
  obtain ⟨cok, caddr, -, s2, s3, s4⟩ := hc c rfl
  refine runs_memReconstruct cok.v2 s2 fun a h3 t3 a3 b3 ia _ hrec3 => ?_
  refine runs_memReconstruct (cok.touch t3).v4 s4 fun b h4 t4 a4 b4 ib _ hrec4 => ?_
  have fok := (filled_ok cok t3 t4 a3 b3 a4 b4 ia ib).1
  have hA := hholds.touch (t2.trans (t3.trans t4))
  have hsame : ∀ t, t < X.parse.shape.headD 0 →
      ((c.at (n := k.nDimState) h2 t).step k.nDimObs).Same ((c.filled a b).at h4 t) := fun t ht =>
    filled_same k.nDimObs cok (t3.trans t4)
      ((ARef.row_mat_touch t4 b3 (by simp)).trans (hrec3 t ht))
      ((hrec4 t ht).trans (by rw [ARef.row_mat_touch t3 cok.v4 (by simp)]))
  have hval : cholSmooth qr P ((X.parse.ma h1).rows k.nDimObs) = (do
      let sm ← smoothFull P.A ((List.range (X.parse.shape.headD 0)).map fun t =>
        (c.filled a b).at (m := k.nDimObs) h4 t)
      pure (sm.map fun s : SStep k.nDimState => (s.mean, s.cov))) := by
    rw [cholSmooth, e2, ok_map]
    change (do
      let sm ← smoothFull P.A (((List.range (X.parse.shape.headD 0)).map fun t =>
        c.at h2 t).map (CStep.step k.nDimObs))
      pure (sm.map fun s : SStep k.nDimState => (s.mean, s.cov))) = _
    simp only [List.map_map, Function.comp_def, smoothFull_same P.A (forall₂_range hsame)]
  refine Runs.bind (runs_memSmooth (m := k.nDimObs) fok hA.A (hA.valid p.A (by simp)).1 s3) ?_ ?_
  · rintro s h5 ⟨t5, hs, e5⟩
    obtain ⟨sok, saddr, -, s1, s2, -⟩ := hs s rfl
    refine runs_pure ⟨?_, fun e he => by cases he⟩
    rintro _ ⟨⟩
    have m1 := saddr s.means.addr (by simp [SRefs.addrs])
    have m2 := saddr s.covs.addr (by simp [SRefs.addrs])
    have w1 := sok.v1
    have w2 := sok.v2
    have n1 := t1.next
    have n2 := t2.next
    have n3 := t3.next
    have n4 := t4.next
    refine ⟨_, ?_, by simp only; omega, by simp only; omega, by simp only; omega,
      by simp only; omega, sok.d12, holdsRows_of s1 s2⟩
    rw [← hr, hval, e5, ok_map]
    change Except.ok _ = Except.ok _
    rw [List.map_map]
    rfl
  · rintro e h5 ⟨-, -, e5⟩
    refine ⟨fun q hq => (by cases hq), ?_⟩
    rintro _ ⟨⟩
    rw [← hr, hval, e5]
    rfl

/-! ### loglikelihood -/

theorem FRefs.mem_addrs_lt {f : FRefs} {h : Heap} (fok : f.Ok h) {a : ℕ} (ha : a ∈ f.addrs) :
    a < h.next := by
  have hv := fok.valid
  simp only [FRefs.addrs, Set.mem_insert_iff, Set.mem_singleton_iff] at ha
  rcases ha with rfl | rfl | rfl | rfl | rfl
  · exact hv f.predMeans (by simp)
  · exact hv f.predCovs (by simp)
  · exact hv f.gains (by simp)
  · exact hv f.filtMeans (by simp)
  · exact hv f.filtCovs (by simp)

/-- `_loglikelihoods` and the sum of its entries. -/
theorem runs_memLoglik {p : PRefs} {f : FRefs} {Z : ARef} {P : Params n m} {h : Heap}
    (hp : p.Holds ∅ h P) (hf : f.Ok h) (hZ : Z.addr < h.next) (hm : Z.shape.drop 1 = [m]) :
    Runs (memLoglik p f Z >>= fun ll => HM.see fun h =>
      ((List.range (Z.shape.headD 0)).map fun t => (ll.nd h).data [t]).sum) h fun r _ =>
      r = (loglikLoop P 0 ((List.range (Z.shape.headD 0)).map fun s => f.at h s)
        ((Z.ma h).rows m)).map List.sum := by
  have hn : p.mu0.shape.headD 0 = n := by
    have := hp.mu0
    simp only [NDArray.toVec] at this
    split_ifs at this with hs
    change p.mu0.shape = [n] at hs
    rw [hs]; rfl
  have hm' : Z.shape.getD 1 0 = m := by
    rcases hs : Z.shape with _ | ⟨a, _ | ⟨b, l⟩⟩ <;> rw [hs] at hm <;> simp_all
  unfold memLoglik
  simp only [hn, hm']
  have e3 : ∀ g : ARef → HM ℝ, ((newZeros [Z.shape.headD 0] >>= fun ll =>
      memLoglikLoop n m p f Z ll 0 (Z.shape.headD 0) >>= fun _ => pure ll) >>= g) h =
      (newZeros [Z.shape.headD 0] >>= fun ll =>
      memLoglikLoop n m p f Z ll 0 (Z.shape.headD 0) >>= fun _ => g ll) h := by
    intro g
    simp only [Bind.bind]
    rcases newZeros [Z.shape.headD 0] h with ⟨r, h3⟩
    cases r with
    | error e => rfl
    | ok ll =>
      simp only
      rcases memLoglikLoop n m p f Z ll 0 (Z.shape.headD 0) h3 with ⟨r, h4⟩
      cases r <;> rfl
  refine Runs.congr (e3 _) (runs_new fun ll h3 f3 => ?_)
  have a3 := f3.addr
  have n3 := f3.next
  have hold : ∀ a, a < h.next → a ∉ ({ll.addr} : Set ℕ) := by
    intro a ha
    rw [Set.mem_singleton_iff]; omega
  have hat : ∀ s, f.at (n := n) (m := m) h3 s = f.at h s := FRefs.at_touch f3.touch hf (by simp)
  have hobs : ∀ s, (Z.row s).obs m h3 = (Z.row s).obs m h :=
    fun s => ARef.obs_touch f3.touch (r := Z.row s) hZ (by simp)
  have e5 : (Z.ma h).rows m = (List.range (Z.shape.headD 0)).map fun s => (Z.row s).obs m h := rfl
  rw [e5]
  refine Runs.bind (runs_memLoglikLoop (Z := Z) (Z.shape.headD 0) 0 h3
    (hp.touch f3.touch) (hf.touch f3.touch) (hZ.trans_le f3.touch.next) (by omega) f3.ix
    (fun r hr => hold _ (hp.valid r hr).1) (fun a ha => hold _ (FRefs.mem_addrs_lt hf ha))
    (hold _ hZ) (fun s _ => by rw [f3.nd])) ?_ ?_
  · rintro u h4 ⟨-, -, e4⟩
    refine runs_see ?_
    simp only [hat, hobs, ← List.range_eq_range', ok_map] at e4
    rw [e4]
    rfl
  · rintro e h4 ⟨-, -, e4⟩
    simp only [hat, hobs, ← List.range_eq_range', error_map] at e4
    rw [e4]
    rfl

theorem cholLoglik_result {qr : QR} {store : ℝ → ℝ} {k : KFRef} {X : ARef} {h : Heap}
    (hk : k.Valid h) (hX : X.addr < h.next) {r : Res ℝ}
    (hr : (k.value h).loglikOf .cholesky qr store (X.ma h) = some r) :
    Runs (k.cholLoglikelihood qr X) h fun r' _ => r' = r := by
  rw [KF.loglikOf] at hr
  rcases hp : (k.value h).prepare (X.ma h) with _ | w
  · rw [hp] at hr; cases hr
  rw [hp] at hr
  replace hr := Option.some.inj hr
  refine Runs.bind (runs_prepare hk hX hp) ?_ ?_
  swap
  · rintro e h1 ⟨-, -, herr⟩
    rw [← hr, herr e rfl]
    rfl
  rintro p h1 ⟨t1, hok, -⟩
  obtain ⟨P, rfl, hholds, -, hZ, hm⟩ := hok p rfl
  replace hr : cholLoglik qr P ((X.parse.ma h1).rows k.nDimObs) = r := hr
  refine Runs.bind (runs_memCholFilter (qr := qr) hholds hZ hm) ?_ ?_
  swap
  · rintro e h2 ⟨-, -, e2⟩
    rw [← hr, cholLoglik, e2]
    rfl
  rintro c h2 ⟨t2, hc, e2⟩
  obtain ⟨cok, -, -, s2, -, -⟩ := hc c rfl
  refine runs_memReconstruct cok.v2 s2 fun a h3 t3 a3 b3 ia _ hrec3 => ?_
  have w1 := cok.v1
  have w2 := cok.v2
  have w3 := cok.v3
  have w4 := cok.v4
  have d12 := cok.d12
  have d13 := cok.d13
  have d14 := cok.d14
  have d23 := cok.d23
  have d24 := cok.d24
  have d34 := cok.d34
  have n3 := t3.next
  have fok : (c.filled a c.filtCov2s).Ok h3 := by
    refine ⟨?_, ?_, ?_⟩
    · intro r hr
      simp only [CRefs.filled, List.mem_cons, List.not_mem_nil, or_false] at hr
      rcases hr with rfl | rfl | rfl | rfl | rfl
      · exact cok.i1
      · exact ia
      · exact cok.i2
      · exact cok.i3
      · exact cok.i4
    · intro r hr
      simp only [CRefs.filled, List.mem_cons, List.not_mem_nil, or_false] at hr
      rcases hr with rfl | rfl | rfl | rfl | rfl <;> omega
    · simp only [CRefs.filled, List.map_cons, List.map_nil, List.nodup_cons, List.mem_cons,
        List.not_mem_nil, or_false, not_or, not_false_eq_true, List.nodup_nil, and_true]
      omega
  have t23 := t2.trans t3
  refine (runs_memLoglik (hholds.touch t23) fok (hZ.trans_le t23.next) hm).imp fun r' h4 e4 => ?_
  rw [e4, ← hr, cholLoglik, e2, ok_map, ARef.ma_touch t23 hZ (by simp)]
  change _ = (do
    let ls ← loglikLoop P 0 (((List.range (X.parse.shape.headD 0)).map fun t =>
      c.at h2 t).map (CStep.step k.nDimObs)) ((X.parse.ma h1).rows k.nDimObs)
    pure ls.sum)
  rw [List.map_map, loglikLoop_same P _ _ 0 _ (forall₂_range (f := CStep.step k.nDimObs ∘ fun t =>
    c.at h2 t) (g := fun s => (c.filled a c.filtCov2s).at h3 s) fun t ht =>
      ⟨(ARef.row_vec_touch t3 w1 (by simp)).symm, (hrec3 t ht).symm⟩)]
  cases loglikLoop P 0 ((List.range (X.parse.shape.headD 0)).map fun s =>
    (c.filled a c.filtCov2s).at h3 s) ((X.parse.ma h1).rows k.nDimObs) <;> rfl

/-! ### em -/

theorem runs_memCholEmLoop {qr : QR} {sel : EmVar → Bool} {given : PRefs} {Z : ARef}
    {G : Params n m} {b : ℕ} (hm : Z.shape.drop 1 = [m]) :
    ∀ (k : ℕ) (p : PRefs) (P : Params n m) (h : Heap), given.Holds ∅ h G → p.Holds ∅ h P →
    Z.addr < h.next → b ≤ h.next →
    Runs (memCholEmLoop qr n m sel given Z k p) h fun r h' => Touch ∅ h h' ∧
      (∀ p', r = .ok p' → ∃ P', cholEmLoop qr G sel ((Z.ma h).rows m) k P = .ok P' ∧
        p'.Holds ∅ h' P' ∧ (0 < k → p'.Estimated sel given b) ∧ (k = 0 → p' = p)) ∧
      (∀ e, r = .error e → cholEmLoop qr G sel ((Z.ma h).rows m) k P = .error e)
  | 0, p, P, h, hG, hP, hZ, hb => by
    refine runs_pure ⟨Touch.refl _ _, ?_, fun e he => by cases he⟩
    rintro p' ⟨⟩
    exact ⟨P, rfl, hP, fun h => absurd h (lt_irrefl _), fun _ => rfl⟩
  | k + 1, p, P, h, hG, hP, hZ, hb => by
    unfold memCholEmLoop
    refine Runs.bind (runs_memCholFilter (qr := qr) hP hZ hm) ?_ ?_
    swap
    · rintro e h1 ⟨t1, -, e1⟩
      refine ⟨t1, fun p hp => (by cases hp), ?_⟩
      rintro e' ⟨⟩
      rw [error_map] at e1
      simp only [cholEmLoop, cholStats, e1, error_bind_res]
    rintro c h1a ⟨t1a, hc, e1⟩
    obtain ⟨cok, -, -, s2, s3, s4⟩ := hc c rfl
    rw [ok_map] at e1
    refine runs_memReconstruct cok.v4 s4 fun a h1b t1b a1 b1 ia _ hrec1 => ?_
    refine runs_memReconstruct (cok.touch t1b).v2 s2 fun bb h1 t1c a2 b2 ib _ hrec2 => ?_
    have fok := (filled_ok cok t1b t1c a1 b1 a2 b2 ia ib).2
    have t1 := t1a.trans (t1b.trans t1c)
    have hsame : ∀ t, t < Z.shape.headD 0 →
        ((c.at (n := n) h1a t).step m).Same ((c.filled bb a).at h1 t) := fun t ht =>
      filled_same m cok (t1b.trans t1c)
        ((hrec2 t ht).trans (by rw [ARef.row_mat_touch t1b cok.v2 (by simp)]))
        ((ARef.row_mat_touch t1c b1 (by simp)).trans (hrec1 t ht))
    have esm : ∀ A : TV (Mat n n), smoothFull A (((List.range (Z.shape.headD 0)).map fun t =>
        c.at h1a t).map (CStep.step m)) = smoothFull A ((List.range (Z.shape.headD 0)).map fun t =>
        (c.filled bb a).at (m := m) h1 t) := fun A => by
      simp only [List.map_map, Function.comp_def, smoothFull_same A (forall₂_range hsame)]
    refine Runs.bind (runs_memSmooth (m := m) fok (hP.touch t1).A ((hP.touch t1).valid _ (by simp)).1
      s3) ?_ ?_
    swap
    · rintro e h2 ⟨t2, -, e2⟩
      refine ⟨t1.trans t2, fun p hp => (by cases hp), ?_⟩
      rintro e' ⟨⟩
      rw [error_map] at e2
      simp only [cholEmLoop, cholStats, e1, esm, e2, ok_bind_res, error_bind_res]
    rintro s h2 ⟨t2, hs, e2⟩
    obtain ⟨sok, snew, hT, ssh1, ssh2, -⟩ := hs s rfl
    rw [ok_map] at e2
    refine Runs.bind (runs_memPair sok ssh2) ?_ ?_
    swap
    · rintro e h3 ⟨-, pairs, he, -⟩
      cases he
    rintro pairs h3 ⟨t3, pairs', he, pv, prow⟩
    cases he
    have hat : ∀ u, s.at (n := n) h3 u = s.at h2 u := SRefs.at_touch t3 sok (by simp)
    have u3 := (t1.trans t2).trans t3
    have hstats := emStatsAt_eq ssh1 hat prow
    have hbs : b ≤ s.means.addr := by
      have := snew s.means.addr (by simp [SRefs.addrs])
      have := t1.next
      omega
    have est : cholStats qr P ((Z.ma h).rows m) = .ok (emStatsAt n h3 s pairs) := by
      rw [hstats]
      simp only [cholStats, e1, esm, e2, ok_bind_res]
      rfl
    have hZ3 := ARef.ma_touch u3 hZ (by simp)
    refine Runs.bind (runs_memEmStep (b := b) (hG.touch u3) (hP.touch u3) (hZ.trans_le u3.next)
      (sok.touch t3) pv ssh1 hT (hb.trans u3.next) hbs) ?_ ?_
    swap
    · rintro e h4 ⟨t4, -, he⟩
      refine ⟨u3.trans t4, fun p hp => (by cases hp), ?_⟩
      rintro e' ⟨⟩
      have := he e rfl
      rw [hZ3] at this
      simp only [cholEmLoop, est, ok_bind_res, this, error_bind_res]
    rintro p1 h4 ⟨t4, hok, -⟩
    obtain ⟨P1, eP1, hP1, est1⟩ := hok p1 rfl
    rw [hZ3] at eP1
    have u4 := u3.trans t4
    refine (runs_memCholEmLoop hm k p1 P1 h4 (hG.touch u4) hP1 (hZ.trans_le u4.next)
      (hb.trans u4.next)).imp fun r h5 ⟨t5, hok, herr⟩ => ⟨u4.trans t5, ?_, ?_⟩
    · rintro p' rfl
      obtain ⟨P', e', hP', h0, h1'⟩ := hok p' rfl
      rw [ARef.ma_touch u4 hZ (by simp)] at e'
      refine ⟨P', ?_, hP', fun _ => ?_, fun hk => by omega⟩
      · simp only [cholEmLoop, est, ok_bind_res, eP1]
        exact e'
      · rcases Nat.eq_zero_or_pos k with hk | hk
        · rw [h1' hk]; exact est1
        · exact h0 hk
    · rintro e rfl
      have e' := herr e rfl
      rw [ARef.ma_touch u4 hZ (by simp)] at e'
      simp only [cholEmLoop, est, ok_bind_res, eP1]
      exact e'

/-- The object with the arrays `p'` as attributes. -/
theorem em_object {k : KFRef} {p p' : PRefs} {h h1 h2 : Heap}
    {P' : Params k.nDimState k.nDimObs} {sel : EmVar → Bool} {nIter : ℕ} (t1 : Touch ∅ h h1)
    (hfrom : p.From k h) (hP' : p'.Holds ∅ h2 P')
    (hest : 0 < nIter → p'.Estimated sel p h1.next) (hsame : nIter = 0 → p' = p) {k' : KFRef}
    (hk' : k' = { k with A := some p'.A, C := some p'.C, Q := some p'.Q, R := some p'.R,
                         b := some p'.b, d := some p'.d, mu0 := some p'.mu0, S0 := some p'.S0 }) :
    k'.Valid h2 ∧ (k'.value h2).resolvedSpec.typed k.nDimState k.nDimObs = some P' ∧
      k'.SameSettings k ∧ ∀ v, KFRef.Kept k k' h v (0 < nIter ∧ sel v = true) := by
  subst hk'
  refine ⟨?_, ?_, ⟨rfl, rfl, rfl, rfl, rfl⟩, ?_⟩
  · intro q hq
    refine (hP'.valid q ?_).1
    simp only [KFRef.arrays, List.filterMap_cons, id, List.filterMap_nil, List.mem_cons,
      List.not_mem_nil, or_false] at hq
    simp only [List.mem_cons, List.not_mem_nil, or_false]
    tauto
  · rw [← typed_of_holds hP']
    congr 1
    simp only [KFRef.value, KF.resolvedSpec, PRefs.value, Option.map_some, Option.getD_some,
      array2d_of_toMats hP'.A, array1d_of_toVecs hP'.b, array2d_of_toMats hP'.Q,
      array2d_of_toMats hP'.C, array1d_of_toVecs hP'.d, array2d_of_toMats hP'.R,
      array1d_of_toVec hP'.mu0, array2d_of_toMat hP'.S0]
  · obtain ⟨f1, f2, f3, f4, f5, f6, f7, f8, f9, f10, f11, f12, f13, f14, f15, f16⟩ := hfrom
    have hz : ¬ 0 < nIter → p' = p := fun h => hsame (by omega)
    intro v
    cases v with
    | transitionMatrices =>
      exact ⟨p'.A, rfl, one_of t1.next f1 f2 (fun c => (hest c).A) fun c => by rw [hz c]⟩
    | observationMatrices =>
      exact ⟨p'.C, rfl, one_of t1.next f7 f8 (fun c => (hest c).C) fun c => by rw [hz c]⟩
    | transitionOffsets =>
      exact ⟨p'.b, rfl, one_of t1.next f3 f4 (fun c => (hest c).b) fun c => by rw [hz c]⟩
    | observationOffsets =>
      exact ⟨p'.d, rfl, one_of t1.next f9 f10 (fun c => (hest c).d) fun c => by rw [hz c]⟩
    | transitionCovariance =>
      exact ⟨p'.Q, rfl, one_of t1.next f5 f6 (fun c => (hest c).Q) fun c => by rw [hz c]⟩
    | observationCovariance =>
      exact ⟨p'.R, rfl, one_of t1.next f11 f12 (fun c => (hest c).R) fun c => by rw [hz c]⟩
    | initialStateMean =>
      exact ⟨p'.mu0, rfl, one_of t1.next f13 f14 (fun c => (hest c).mu0) fun c => by rw [hz c]⟩
    | initialStateCovariance =>
      exact ⟨p'.S0, rfl, one_of t1.next f15 f16 (fun c => (hest c).S0) fun c => by rw [hz c]⟩

theorem cholEm_result {k : KFRef} {X : ARef} {h : Heap} {nIter : ℕ} {arg : Option EmNames} {qr : QR}
    {store : ℝ → ℝ} (hk : k.Valid h) (hX : X.addr < h.next)
    {r : Res (Params k.nDimState k.nDimObs)}
    (hr : (k.value h).em .cholesky qr store (X.ma h) nIter arg = some r) :
    Runs (k.cholEm qr X nIter arg) h fun r' h' => Touch ∅ h h' ∧
      (∀ k', r' = .ok k' → ∃ P sel, r = .ok P ∧ (k.value h).emSelectionSqrt arg = .ok sel ∧
        k'.Valid h' ∧ (k'.value h').resolvedSpec.typed k.nDimState k.nDimObs = some P ∧
        k'.SameSettings k ∧ ∀ v, KFRef.Kept k k' h v (0 < nIter ∧ sel v = true)) ∧
      (∀ e, r' = .error e → r = .error e) := by
  rw [KF.em] at hr
  rcases hp : (k.value h).prepare (X.ma h) with _ | w
  · rw [hp] at hr; cases hr
  rw [hp] at hr
  replace hr := Option.some.inj hr
  refine Runs.bind (runs_prepare hk hX hp) ?_ ?_
  swap
  · rintro e h1 ⟨t1, -, herr⟩
    refine ⟨t1, fun k' hk' => (by cases hk'), ?_⟩
    rintro e' ⟨⟩
    rw [← hr, herr e rfl]
    rfl
  rintro p h1 ⟨t1, hok, -⟩
  obtain ⟨P, rfl, hholds, hfrom, hZ, hm⟩ := hok p rfl
  replace hr : ((k.value h).emSelectionSqrt arg >>= fun vars =>
    cholEm qr P ((X.parse.ma h1).rows k.nDimObs) nIter vars) = r := hr
  have hsel : (k.value h).emSelectionSqrt arg = emSelection (arg.orElse fun _ => k.emVars) := rfl
  rw [hsel] at hr ⊢
  refine runs_lifted (fun sel hs => ?_) (fun e he => ?_)
  swap
  · refine ⟨t1, fun k' hk' => (by cases hk'), ?_⟩
    rintro e' ⟨⟩
    rw [← hr, he]
    rfl
  rw [hs] at hr ⊢
  replace hr : cholEmLoop qr P sel ((X.parse.ma h1).rows k.nDimObs) nIter P = r := hr
  refine Runs.bind (runs_memCholEmLoop (qr := qr) (b := h1.next) hm nIter p P h1 hholds hholds hZ
    le_rfl) ?_ ?_
  swap
  · rintro e h2 ⟨t2, -, herr⟩
    refine ⟨t1.trans t2, fun k' hk' => (by cases hk'), ?_⟩
    rintro e' ⟨⟩
    rw [← hr, herr e rfl]
  rintro p' h2 ⟨t2, hok2, -⟩
  obtain ⟨P', e', hP', hest, hsame⟩ := hok2 p' rfl
  refine runs_pure ⟨t1.trans t2, ?_, fun e he => by cases he⟩
  rintro k' ⟨⟩
  exact ⟨P', sel, by rw [← hr, e'], rfl, em_object t1 hfrom hP' hest hsame rfl⟩

/-! ### filter_update -/

theorem runs_memReconstruct2 {cov2 : ARef} {h : Heap} {f : ARef → HM β}
    {post : Res β → Heap → Prop} (hv : cov2.addr < h.next) (hsh : cov2.shape = [n, n])
    (hf : ∀ a h', Touch ∅ h h' → h.next ≤ a.addr → a.addr < h'.next → a.shape = [1, n, n] →
      (a.row 0).mat n n h' = reconstruct (cov2.mat n n h) → Runs (f a) h' post) :
    Runs (memReconstruct cov2 >>= f) h post := by
  have e : memReconstruct cov2 = memReconstruct cov2.newAxis := by
    unfold memReconstruct
    have e0 : cov2.shape.length = 2 := by rw [hsh]; rfl
    have e1 : ¬ cov2.newAxis.shape.length = 2 := by simp [ARef.newAxis, hsh]
    rw [if_pos e0, if_neg e1]
  rw [e]
  exact runs_memReconstruct (T := 1) (n := n) (cov2s := cov2.newAxis) hv
    (by simp [ARef.newAxis, hsh]) fun a h' t1 h1 h2 _ h3 h4 => hf a h' t1 h1 h2 h3 (h4 0 Nat.one_pos)

theorem two_le_of_toMats {X : ARef} {h : Heap} {k l : ℕ} {tv : TV (Mat k l)}
    (hX : (X.nd h).toMats k l = some tv) : 2 ≤ X.shape.length := by
  unfold NDArray.toMats at hX
  have hs : (X.nd h).shape = X.shape := rfl
  rw [hs] at hX
  split at hX
  · rename_i hsh
    simp [hsh]
  · split at hX
    · rename_i hsh
      simp [hsh]
    · cases hX

theorem argOrDefaultRef_ndim {a : Option ARef} {d r : ARef} {k : ℕ}
    (h : argOrDefaultRef a d k = .ok r) (ha : ∀ x, a = some x → x.shape.length = k)
    (hd : k ≤ d.shape.length) : r.shape.length = k := by
  simp only [argOrDefaultRef] at h
  split at h
  · cases h
  · next hc =>
    cases h
    cases a with
    | none => exact le_antisymm (not_lt.mp hc) hd
    | some x => exact ha x rfl

theorem cholUpdate_result {qr : QR} {k : KFRef} {mean cov : ARef} {o : Option ARef} {a : UpdateRefs}
    {h : Heap} (hk : k.Valid h) (hmean : mean.addr < h.next) (hcov : cov.addr < h.next)
    (hcov2 : cov.shape.length = 2)
    (ho : ∀ r, o = some r → r.addr < h.next) (ha : a.Fits k.nDimState k.nDimObs h)
    {rp : Res (Params k.nDimState k.nDimObs)} (hp : (k.value h).params = some rp)
    {r : Res (Vec k.nDimState × (Fin 1 → Mat k.nDimState k.nDimState))}
    (hr : (rp >>= fun P => Verif.cholUpdate qr P (mean.vec k.nDimState h)
      (cov.mat k.nDimState k.nDimState h) (o.map (ARef.obs k.nDimObs h))
      (a.value k.nDimState k.nDimObs h)) = r) :
    Runs (k.cholFilterUpdate qr mean cov o a) h fun r' h' =>
      (∀ q, r' = .ok q → q.2.shape = [1, k.nDimState, k.nDimState] ∧
        r = .ok (q.1.vec k.nDimState h', fun _ => (q.2.row 0).mat k.nDimState k.nDimState h') ∧
        h.next ≤ q.1.addr ∧ q.1.addr < h'.next ∧ h.next ≤ q.2.addr ∧ q.2.addr < h'.next ∧
        q.1.addr ≠ q.2.addr) ∧
      (∀ e, r' = .error e → r = .error e) := by
  refine Runs.bind (runs_memInitialize hk) ?_ ?_
  · rintro p h1 ⟨t1, hok, -⟩
    obtain ⟨hi, -, hv⟩ := hok p rfl
    rw [KF.params, hi] at hp
    rcases hP : (p.value h1).typed (k.value h).nDimState (k.value h).nDimObs with _ | P
    · simp only [hP] at hp; cases hp
    simp only [hP, Option.map_some] at hp
    obtain rfl := Option.some.inj hp
    change Params k.nDimState k.nDimObs at P
    have hh : p.Holds ∅ h1 P := holds_of_typed hP hv
    have n1 := t1.next
    have eA := argOrDefault_mats (fun r hr => (ha.A r hr).2) hh.A
    have eb := argOrDefault_vecs (fun r hr => (ha.b r hr).2) hh.b
    have eQ := argOrDefault_mats (fun r hr => (ha.Q r hr).2) hh.Q
    have eC := argOrDefault_mats (fun r hr => (ha.C r hr).2) hh.C
    have ed := argOrDefault_vecs (fun r hr => (ha.d r hr).2) hh.d
    have eR := argOrDefault_mats (fun r hr => (ha.R r hr).2) hh.R
    rw [map_touch (f := ARef.mat _ _) fun r hr => ARef.mat_touch t1 (ha.A r hr).1 (by simp)] at eA
    rw [map_touch (f := ARef.vec _) fun r hr => ARef.vec_touch t1 (ha.b r hr).1 (by simp)] at eb
    rw [map_touch (f := ARef.mat _ _) fun r hr => ARef.mat_touch t1 (ha.Q r hr).1 (by simp)] at eQ
    rw [map_touch (f := ARef.mat _ _) fun r hr => ARef.mat_touch t1 (ha.C r hr).1 (by simp)] at eC
    rw [map_touch (f := ARef.vec _) fun r hr => ARef.vec_touch t1 (ha.d r hr).1 (by simp)] at ed
    rw [map_touch (f := ARef.mat _ _) fun r hr => ARef.mat_touch t1 (ha.R r hr).1 (by simp)] at eR
    replace hr : Verif.cholUpdate (n := k.nDimState) (m := k.nDimObs) qr P (mean.vec k.nDimState h)
      (cov.mat k.nDimState k.nDimState h) (o.map (ARef.obs k.nDimObs h))
      (a.value k.nDimState k.nDimObs h) = r := hr
    simp only [Verif.cholUpdate, UpdateRefs.value] at hr
    rw [eA, eb, eQ, eC, ed, eR] at hr
    rcases gb : argOrDefaultRef a.b p.b 1 with e | b
    · rw [gb] at hr
      exact ⟨fun q hq => (by cases hq), fun e' he => by cases he; exact hr.symm⟩
    rcases gd : argOrDefaultRef a.d p.d 1 with e | d
    · rw [gb, gd] at hr
      exact ⟨fun q hq => (by cases hq), fun e' he => by cases he; exact hr.symm⟩
    rcases gA : argOrDefaultRef a.A p.A 2 with e | A
    · rw [gb, gd, gA] at hr
      exact ⟨fun q hq => (by cases hq), fun e' he => by cases he; exact hr.symm⟩
    rcases gC : argOrDefaultRef a.C p.C 2 with e | C
    · rw [gb, gd, gA, gC] at hr
      exact ⟨fun q hq => (by cases hq), fun e' he => by cases he; exact hr.symm⟩
    rcases gQ : argOrDefaultRef a.Q p.Q 2 with e | Q
    · rw [gb, gd, gA, gC, gQ] at hr
      exact ⟨fun q hq => (by cases hq), fun e' he => by cases he; exact hr.symm⟩
    rcases gR : argOrDefaultRef a.R p.R 2 with e | R
    · rw [gb, gd, gA, gC, gQ, gR] at hr
      exact ⟨fun q hq => (by cases hq), fun e' he => by cases he; exact hr.symm⟩
    rw [gb, gd, gA, gC, gQ, gR] at hr
    have hvA := argOrDefaultRef_addr gA (fun r hr => (ha.A r hr).1.trans_le n1) (hv _ (by simp))
    have hvb := argOrDefaultRef_addr gb (fun r hr => (ha.b r hr).1.trans_le n1) (hv _ (by simp))
    have hvQ := argOrDefaultRef_addr gQ (fun r hr => (ha.Q r hr).1.trans_le n1) (hv _ (by simp))
    have hvC := argOrDefaultRef_addr gC (fun r hr => (ha.C r hr).1.trans_le n1) (hv _ (by simp))
    have hvd := argOrDefaultRef_addr gd (fun r hr => (ha.d r hr).1.trans_le n1) (hv _ (by simp))
    have hvR := argOrDefaultRef_addr gR (fun r hr => (ha.R r hr).1.trans_le n1) (hv _ (by simp))
    have hQ2 := argOrDefaultRef_ndim gQ (fun x hx => by rw [(ha.Q x hx).2]; rfl) (two_le_of_toMats hh.Q)
    have hR2 := argOrDefaultRef_ndim gR (fun x hx => by rw [(ha.R x hx).2]; rfl) (two_le_of_toMats hh.R)
    have key : ∀ (ob : ARef) (h2 : Heap) (ov : Obs k.nDimObs), Touch ∅ h1 h2 → ob.addr < h2.next →
        ob.obs k.nDimObs h2 = ov →
        (cholesky (Q.mat k.nDimState k.nDimState h1) >>= fun Q2 =>
          cholesky (R.mat k.nDimObs k.nDimObs h1) >>= fun R2 =>
          cholesky (cov.mat k.nDimState k.nDimState h) >>= fun S2 =>
          pure ((cholCorrect qr (C.mat k.nDimObs k.nDimState h1) R2 (d.vec k.nDimObs h1)
            (cholPredict qr (A.mat k.nDimState k.nDimState h1) Q2 (b.vec k.nDimState h1)
              (mean.vec k.nDimState h) S2).1
            (cholPredict qr (A.mat k.nDimState k.nDimState h1) Q2 (b.vec k.nDimState h1)
              (mean.vec k.nDimState h) S2).2 ov).1,
            reconstruct1 (cholCorrect qr (C.mat k.nDimObs k.nDimState h1) R2 (d.vec k.nDimObs h1)
            (cholPredict qr (A.mat k.nDimState k.nDimState h1) Q2 (b.vec k.nDimState h1)
              (mean.vec k.nDimState h) S2).1
            (cholPredict qr (A.mat k.nDimState k.nDimState h1) Q2 (b.vec k.nDimState h1)
              (mean.vec k.nDimState h) S2).2 ov).2)) = r →
        Runs (memCholesky k.nDimState Q >>= fun Q2 => memCholesky k.nDimObs R >>= fun R2 =>
          memCholesky k.nDimState cov >>= fun S2 =>
          memCholPredict qr k.nDimState A Q2 b mean S2 >>= fun pred =>
          memCholCorrect qr k.nDimState k.nDimObs C R2 d pred.1 pred.2 ob >>= fun c =>
          memReconstruct c.2 >>= fun covs => pure (c.1, covs)) h2 fun r' h' =>
          (∀ q, r' = .ok q → q.2.shape = [1, k.nDimState, k.nDimState] ∧
            r = .ok (q.1.vec k.nDimState h', fun _ => (q.2.row 0).mat k.nDimState k.nDimState h') ∧
            h.next ≤ q.1.addr ∧ q.1.addr < h'.next ∧ h.next ≤ q.2.addr ∧ q.2.addr < h'.next ∧
            q.1.addr ≠ q.2.addr) ∧
          (∀ e, r' = .error e → r = .error e) := by
      intro ob h2 ov t2 hob hov hval
      have n2 := t2.next
      refine runs_memCholesky (by rw [if_pos hQ2, ARef.mat_touch t2 hvQ (by simp)])
        (fun Q2v Q2 h3 eQ2 f3 => ?_) fun e he =>
          ⟨fun q hq => (by cases hq), fun e' he' => by cases he'; rw [← hval, he]; rfl⟩
      rw [eQ2, ok_bind_res] at hval
      have t3 := t2.trans f3.touch
      refine runs_memCholesky (by rw [if_pos hR2, ARef.mat_touch t3 hvR (by simp)])
        (fun R2v R2 h4 eR2 f4 => ?_) fun e he =>
          ⟨fun q hq => (by cases hq), fun e' he' => by cases he'; rw [← hval, he]; rfl⟩
      rw [eR2, ok_bind_res] at hval
      have t4 := t3.trans f4.touch
      refine runs_memCholesky (by rw [if_pos hcov2, ARef.mat_touch (t1.trans t4) hcov (by simp)])
        (fun S2v S2 h5 eS2 f5 => ?_) fun e he =>
          ⟨fun q hq => (by cases hq), fun e' he' => by cases he'; rw [← hval, he]; rfl⟩
      rw [eS2, ok_bind_res] at hval
      have t5 := t4.trans f5.touch
      have a3 := f3.addr
      have a4 := f4.addr
      have a5 := f5.addr
      have n3 := f3.next
      have n4 := f4.next
      have n5 := f5.next
      refine runs_memCholPredict fun pr h6 t6 a6 b6 ane psh hpr => ?_
      have n6 := t6.next
      have t25 := f3.touch.trans (f4.touch.trans f5.touch)
      rw [ARef.mat_touch t5 hvA (by simp), ARef.vec_touch t5 hvb (by simp),
        ARef.vec_touch (t1.trans t5) hmean (by simp), f5.mat,
        ARef.mat_touch (f4.touch.trans f5.touch) (by omega) (by simp), f3.mat] at hpr
      have e1 := congrArg Prod.fst hpr
      have e2 := congrArg Prod.snd hpr
      simp only at e1 e2
      refine runs_memCholCorrect a6.2 b6.2 fun c h7 t7 a7 b7 a8 b8 csh hc => ?_
      have n7 := t7.next
      rw [ARef.mat_touch (t5.trans t6) hvC (by simp), ARef.vec_touch (t5.trans t6) hvd (by simp),
        ARef.mat_touch (f5.touch.trans t6) (by omega) (by simp), f4.mat, e1, e2,
        ARef.obs_touch (t25.trans t6) hob (by simp), hov] at hc
      have c1 := congrArg Prod.fst hc
      have c2 := congrArg Prod.snd hc
      simp only at c1 c2
      have csh' : c.2.shape = [k.nDimState, k.nDimState] := by
        rcases csh with e | e
        · rw [e, psh]
        · exact e
      refine runs_memReconstruct2 b8 csh' fun covs h8 t8 a9 b9 sh9 hrec => ?_
      refine runs_pure ⟨?_, fun e he => by cases he⟩
      rintro _ ⟨⟩
      have n8 := t8.next
      refine ⟨sh9, ?_, by simp only; omega, by simp only; omega, by simp only; omega,
        by simp only; omega, by simp only; omega⟩
      rw [← hval, ARef.vec_touch t8 b7 (by simp), c1, hrec, c2]
      rfl
    cases o with
    | none =>
      change Runs (newMasked (R.shape.headD 0) >>= fun ob =>
        memCholesky k.nDimState Q >>= fun Q2 => memCholesky k.nDimObs R >>= fun R2 =>
          memCholesky k.nDimState cov >>= fun S2 =>
          memCholPredict qr k.nDimState A Q2 b mean S2 >>= fun pred =>
          memCholCorrect qr k.nDimState k.nDimObs C R2 d pred.1 pred.2 ob >>= fun c =>
          memReconstruct c.2 >>= fun covs => pure (c.1, covs)) h1 _
      refine Runs.bind (mid := fun r' h' => ∃ v, r' = .ok v ∧
        Touch ∅ h1 h' ∧ v.addr < h'.next ∧ v.obs k.nDimObs h' = ⟨0, fun _ => true⟩) ?_ ?_ ?_
      · refine ⟨_, rfl, ⟨Nat.le_succ _, fun _ hx _ => Function.update_of_ne hx.ne _ _⟩,
          Nat.lt_succ_self _, ?_⟩
        simp [ARef.obs, ARef.ma, newMasked]
        rfl
      · rintro ob h2 ⟨v, ⟨⟩, t2, hob, hov⟩
        exact key ob h2 _ t2 hob hov hr
      · rintro e h2 ⟨v, ⟨⟩, -⟩
    | some o =>
      exact key o h1 _ (Touch.refl _ _) ((ho o rfl).trans_le n1)
        (ARef.obs_touch t1 (ho o rfl) (by simp)) hr
  · rintro e h1 ⟨-, -, herr⟩
    refine ⟨fun q hq => (by cases hq), ?_⟩
    rintro _ ⟨⟩
    rw [KF.params, herr e rfl] at hp
    cases hp
    rw [← hr]
    rfl

end Verif
