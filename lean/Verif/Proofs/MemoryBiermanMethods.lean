import Verif.Proofs.MemoryBiermanLoop

/-! # Results of the methods of `BiermanKalmanFilter` on arrays in memory -/

open Matrix

namespace Verif

variable {α β : Type} {n m : ℕ}

/-- Entry `s` of the two arrays of objects. -/
def BRefs.ref (c : BRefs) (s : ℕ) : URef × URef :=
  c.covs[s]?.getD (⟨⟨0, [], id⟩, ⟨0, [], id⟩⟩, ⟨⟨0, [], id⟩, ⟨0, [], id⟩⟩)

theorem BRefs.ref_get {c : BRefs} {s : ℕ} (hs : s < c.covs.length) :
    c.covs[s]? = some (c.ref s) := by
  simp [BRefs.ref, hs]

theorem zipWith_range {f : ℕ → URef × URef → α} {c : BRefs} {T : ℕ} (hl : c.covs.length = T) :
    List.zipWith f (List.range T) c.covs = (List.range T).map fun s => f s (c.ref s) := by
  refine List.ext_getElem (by simp [hl]) fun i h1 h2 => ?_
  have hi : i < c.covs.length := by
    simp only [List.length_map, List.length_range] at h2
    omega
  have := BRefs.ref_get hi
  rw [List.getElem?_eq_getElem hi, Option.some.injEq] at this
  simp [this]

/-- What `_filter` returns is as the rest needs it. -/
structure BRefs.Ok (c : BRefs) (n T : ℕ) (h h' : Heap) : Prop where
  means : MeansOk c.predMeans c.filtMeans h'
  l1 : h.next ≤ c.predMeans.addr
  l2 : h.next ≤ c.filtMeans.addr
  s1 : c.predMeans.shape = [T, n]
  s2 : c.filtMeans.shape = [T, n]
  length : c.covs.length = T
  good : ∀ q ∈ c.covs, q.1.Good n {c.predMeans.addr, c.filtMeans.addr} h' ∧
    q.2.Good n {c.predMeans.addr, c.filtMeans.addr} h'

theorem runs_memBierFilter {store : ℝ → ℝ} {p : PRefs} {Z : ARef} {P : Params n m} {h : Heap}
    (hp : p.Holds ∅ h P) (hZ : Z.addr < h.next) (hm : Z.shape.drop 1 = [m]) :
    Runs (memBierFilter store p Z) h fun r h' => Touch ∅ h h' ∧
      (∀ c, r = .ok c → c.Ok n (Z.shape.headD 0) h h') ∧
      bierFull store P ((Z.ma h).rows m) =
        r.map fun c => (List.range (Z.shape.headD 0)).map fun s =>
          bAt n c.predMeans c.filtMeans h' s (c.ref s) := by
  have hn : p.mu0.shape.headD 0 = n := by
    have := hp.mu0
    simp only [NDArray.toVec] at this
    split_ifs at this with hs
    change p.mu0.shape = [n] at hs
    rw [hs]; rfl
  have hm' : Z.shape.getD 1 0 = m := by
    rcases hs : Z.shape with _ | ⟨a, _ | ⟨b, l⟩⟩ <;> rw [hs] at hm <;> simp_all
  have hl2 : Z.shape.length = 2 := by
    rcases hs : Z.shape with _ | ⟨a, _ | ⟨b, l⟩⟩ <;> rw [hs] at hm <;> simp_all
  unfold memBierFilter
  simp only [hn, hm']
  refine runs_new fun v1 h1 f1 => runs_new fun v2 h2 f2 => ?_
  have a1 := f1.addr; have n1 := f1.next
  have a2 := f2.addr; have n2 := f2.next
  have t2 : Touch ∅ h h2 := f1.touch.trans f2.touch
  have hp2 := hp.touch t2
  have eS : p.S0.mat n n h2 = P.S0 := by
    have := hp2.S0
    simp only [NDArray.toMat] at this
    split_ifs at this
    exact Option.some.inj this
  unfold bierFull
  refine runs_memUdu (fun Sv S h3 hS t3 newS valS => ?_) fun e he => ?_
  swap
  · rw [eS] at he
    exact ⟨t2, fun c hc => (by cases hc), by rw [he]; rfl⟩
  rw [eS] at hS
  rw [hS]
  have n3 := t3.next
  have u3 := t2.trans t3
  have hp3 := hp.touch u3
  refine runs_memDecorrelate (n := n) (cholParam_mats hp3.R) (hp3.valid _ (by simp)).1
    (hp3.valid _ (by simp)).1 (hZ.trans_le u3.next) (fun L q h4 hL t4 hD => ?_) fun e h4 he t4 => ?_
  swap
  · refine ⟨u3.trans t4, fun c hc => (by cases hc), ?_⟩
    simp only [ok_bind_res, decorrelate, he, error_bind_res]
    rfl
  have u4 := u3.trans t4
  have hp4 := hp.touch u4
  have n4 := t4.next
  have hlt : ∀ a ∈ ({v1.addr, v2.addr} : Set ℕ), h.next ≤ a ∧ a < h2.next := by
    rintro a (rfl | rfl) <;> omega
  have hout : ∀ a, h2.next ≤ a → a ∉ ({v1.addr, v2.addr} : Set ℕ) := fun a ha h' =>
    (hlt a h').2.not_ge ha
  have hpF : p.Holds {v1.addr, v2.addr} h4 P :=
    ⟨hp4.A, hp4.b, hp4.Q, hp4.C, hp4.d, hp4.R, hp4.mu0, hp4.S0, fun r hr =>
      ⟨(hp4.valid r hr).1, fun hr' => (hlt _ hr').1.not_gt (hp.valid r hr).1⟩⟩
  have hok : MeansOk v1 v2 h4 := ⟨f1.ix, f2.ix, by omega, by omega, by omega⟩
  have goodS : S.Good n {v1.addr, v2.addr} h3 := newS.good fun a ha => (hlt a ha).2
  have t4' : Touch {v1.addr, v2.addr} h3 h4 := t4.mono (Set.empty_subset _)
  have eobs : ((Z.ma h).rows m).map (fun o : Obs m => (⟨pinv L *ᵥ o.val, o.mask⟩ : Obs m)) =
      (List.range (Z.shape.headD 0)).map fun s => (q.2.2.row s).obs m h4 := by
    have : (Z.ma h).rows m = (List.range (Z.shape.headD 0)).map fun s => (Z.row s).obs m h := rfl
    rw [this, List.map_map]
    refine List.map_congr_left fun s _ => ?_
    rw [hD.rows hl2 s, ARef.obs_touch u3 (r := Z.row s) hZ (by simp)]
    rfl
  have hval : (Except.ok Sv >>= fun S0 => decorrelate P.C P.d P.R ((Z.ma h).rows m) >>= fun r =>
      bierLoop P r.1 r.2.1 S0 0 none r.2.2) =
      bierLoop P (P.C.map fun X : Mat m n => pinv L * X) (P.d.map fun v => pinv L *ᵥ v) Sv 0 none
        ((List.range (Z.shape.headD 0)).map fun s => (q.2.2.row s).obs m h4) := by
    simp only [ok_bind_res, decorrelate, hL, ← eobs]
    rfl
  refine Runs.bind (runs_memBierLoop (P := P) (Z.shape.headD 0) 0 h4 none none hok hpF
    ⟨hD.mats.1 _ hp3.C, hD.v1, hout _ (by have := hD.l1; omega)⟩
    ⟨hD.vecs _ hp3.d, hD.v2, hout _ (by have := hD.l2; omega)⟩
    ⟨hD.v3, hout _ (by have := hD.l3; omega)⟩ ⟨goodS.touch t4', (goodS.value t4').trans valS⟩
    (fun u hu => by cases hu) .none) ?_ ?_
  · rintro l h5 ⟨t5, -, hl, e5⟩
    obtain ⟨hlen, hgood⟩ := hl l rfl
    refine runs_pure ⟨u4.fresh t5 fun a ha => (hlt a ha).1, ?_, ?_⟩
    · rintro _ ⟨⟩
      exact ⟨hok.touch t5, by simp only; omega, by simp only; omega, congrArg NDArray.shape f1.nd,
        congrArg NDArray.shape f2.nd, hlen, hgood⟩
    · refine hval.trans ?_
      rw [← List.range_eq_range'] at e5
      rw [e5, ok_map, ok_map]
      exact congrArg _ (zipWith_range (c := ⟨v1, v2, l⟩) hlen)
  · rintro e h5 ⟨t5, -, -, e5⟩
    refine ⟨u4.fresh t5 fun a ha => (hlt a ha).1, fun f hf => (by cases hf), ?_⟩
    refine hval.trans ?_
    rw [← List.range_eq_range'] at e5
    exact e5

/-! ### The covariances -/

theorem runs_memBierReconstructLoop {covs : ARef} :
    ∀ (l : List URef) (t : ℕ) (h : Heap), (∀ u ∈ l, u.Good n {covs.addr} h) → covs.ix = id →
    covs.addr < h.next →
    Runs (memBierReconstructLoop n covs t l) h fun r h' => Touch {covs.addr} h h' ∧ r = .ok () ∧
      (∀ s, s < t → (covs.row s).mat n n h' = (covs.row s).mat n n h) ∧
      (∀ s u, l[s]? = some u → (covs.row (t + s)).mat n n h' = (u.value n h).reconstruct)
  | [], t, h, _, _, _ => ⟨Touch.refl _ _, rfl, fun _ _ => rfl, fun s u hu => by simp at hu⟩
  | u :: l, t, h, hg, hix, hv => by
    refine runs_seeing (runs_new fun a h1 f1 => runs_setting fun h2 s2 => ?_)
    have t2 : Touch {covs.addr} h h2 := (f1.touch.mono (Set.empty_subset _)).trans s2.touch
    refine (runs_memBierReconstructLoop l (t + 1) h2
      (fun w hw => (hg w (List.mem_cons_of_mem _ hw)).touch t2) hix (hv.trans_le t2.next)).imp
      fun r h3 ⟨t3, e3, lo, hi⟩ => ⟨t2.trans t3, e3, fun s hs => ?_, fun s w hw => ?_⟩
    · rw [lo s (by omega), s2.mat_rest hix (by omega)]
      exact ARef.row_mat_touch f1.touch hv (by simp)
    · cases s with
      | zero =>
        simp only [List.getElem?_cons_zero, Option.some.injEq] at hw
        subst hw
        rw [Nat.add_zero, lo t (by omega), s2.mat hix, f1.mat]
      | succ s =>
        rw [List.getElem?_cons_succ] at hw
        have hmem : w ∈ l := List.mem_of_getElem? hw
        rw [← (hg w (List.mem_cons_of_mem _ hmem)).value t2, ← hi s w hw]
        congr 2
        omega

theorem runs_memBierReconstruct {l : List URef} {h : Heap} {f : ARef → HM β}
    {post : Res β → Heap → Prop} (hg : ∀ u ∈ l, u.Good n ∅ h)
    (hf : ∀ a h', l ≠ [] → Touch ∅ h h' → h.next ≤ a.addr → a.addr < h'.next → a.ix = id →
      a.shape = [l.length, n, n] → (∀ s u, l[s]? = some u → (a.row s).mat n n h' =
        (u.value n h).reconstruct) → Runs (f a) h' post)
    (herr : l = [] → post (.error .indexError) h) :
    Runs (memBierReconstruct l >>= f) h post := by
  cases l with
  | nil => exact herr rfl
  | cons u l =>
    refine Runs.bind (mid := fun r h' => ∃ a, r = .ok a ∧ Touch ∅ h h' ∧ h.next ≤ a.addr ∧
      a.addr < h'.next ∧ a.ix = id ∧ a.shape = [(u :: l).length, n, n] ∧
      ∀ s w, (u :: l)[s]? = some w → (a.row s).mat n n h' = (w.value n h).reconstruct) ?_ ?_ ?_
    · unfold memBierReconstruct
      have e2 : u.U.shape.headD 0 = n := by rw [(hg u (by simp)).shape]; rfl
      simp only [e2]
      refine runs_new fun a h1 f1 => ?_
      have a1 := f1.addr
      have n1 := f1.next
      refine Runs.bind (runs_memBierReconstructLoop (n := n) (u :: l) 0 h1 (fun w hw => ?_) f1.ix
        (by omega)) ?_ ?_
      · have g := hg w hw
        have := g.vU
        have := g.vD
        exact ⟨by omega, by omega, by rw [Set.mem_singleton_iff]; omega,
          by rw [Set.mem_singleton_iff]; omega, g.shape⟩
      · rintro x h2 ⟨t2, -, -, hi⟩
        refine runs_pure ⟨a, rfl, f1.touch.fresh t2 (by simp; omega), by omega,
          (show a.addr < h1.next by omega).trans_le t2.next, f1.ix, congrArg NDArray.shape f1.nd,
          fun s w hw => ?_⟩
        have := hi s w hw
        rw [Nat.zero_add] at this
        rw [this, (hg w (List.mem_of_getElem? hw)).value f1.touch]
      · rintro e h2 ⟨-, he, -⟩
        cases he
    · rintro a h' ⟨_, ⟨⟩, h1, h2, h3, h4, h5, h6⟩
      exact hf a h' (by simp) h1 h2 h3 h4 h5 h6
    · rintro e h' ⟨_, he, -⟩
      cases he

theorem bierRows_map {T : ℕ} {g : ℕ → BStep n} (hT : T ≠ 0) :
    bierRows m ((List.range T).map g) = .ok ((List.range T).map fun s => (g s).step m) := by
  obtain ⟨T, rfl⟩ := Nat.exists_eq_succ_of_ne_zero hT
  rw [List.range_succ_eq_map]
  simp only [List.map_cons, bierRows, List.map_map]
  rfl

theorem bierRows_zero {g : ℕ → BStep n} : bierRows m ((List.range 0).map g) = .error .indexError :=
  rfl

/-! ### filter, smooth -/

theorem BRefs.Ok.snd {c : BRefs} {T : ℕ} {h h' : Heap} (hc : c.Ok n T h h') :
    ∀ u ∈ c.covs.map Prod.snd, u.Good n ∅ h' := by
  intro u hu
  obtain ⟨q, hq, rfl⟩ := List.mem_map.mp hu
  exact (hc.good q hq).2.mono (Set.empty_subset _)

theorem BRefs.Ok.fst {c : BRefs} {T : ℕ} {h h' : Heap} (hc : c.Ok n T h h') :
    ∀ u ∈ c.covs.map Prod.fst, u.Good n ∅ h' := by
  intro u hu
  obtain ⟨q, hq, rfl⟩ := List.mem_map.mp hu
  exact (hc.good q hq).1.mono (Set.empty_subset _)

theorem BRefs.Ok.get_snd {c : BRefs} {T : ℕ} {h h' : Heap} (hc : c.Ok n T h h') {s : ℕ}
    (hs : s < T) : (c.covs.map Prod.snd)[s]? = some (c.ref s).2 := by
  rw [List.getElem?_map, BRefs.ref_get (by rw [hc.length]; exact hs)]
  rfl

theorem BRefs.Ok.get_fst {c : BRefs} {T : ℕ} {h h' : Heap} (hc : c.Ok n T h h') {s : ℕ}
    (hs : s < T) : (c.covs.map Prod.fst)[s]? = some (c.ref s).1 := by
  rw [List.getElem?_map, BRefs.ref_get (by rw [hc.length]; exact hs)]
  rfl

theorem BRefs.Ok.zero {c : BRefs} {T : ℕ} {h h' : Heap} (hc : c.Ok n T h h') {f : URef × URef → α}
    (hl : c.covs.map f = []) : T = 0 := by
  rw [← hc.length]
  simpa using hl

theorem BRefs.Ok.ne {c : BRefs} {T : ℕ} {h h' : Heap} (hc : c.Ok n T h h') {f : URef × URef → α}
    (hl : c.covs.map f ≠ []) : T ≠ 0 := by
  rw [← hc.length]
  simpa using hl

theorem BRefs.Ok.mem {c : BRefs} {T : ℕ} {h h' : Heap} (hc : c.Ok n T h h') {s : ℕ}
    (hs : s < T) : c.ref s ∈ c.covs :=
  List.mem_of_getElem? (BRefs.ref_get (by rw [hc.length]; exact hs))

theorem bierFilter_result {qr : QR} {store : ℝ → ℝ} {k : KFRef} {X : ARef} {h : Heap}
    (hk : k.Valid h) (hX : X.addr < h.next)
    {r : Res (List (Vec k.nDimState × Mat k.nDimState k.nDimState))}
    (hr : (k.value h).filterOf .bierman qr store (X.ma h) = some r) :
    Runs (k.bierFilter store X) h fun r' h' =>
      (∀ q, r' = .ok q → ∃ l, r = .ok l ∧ h.next ≤ q.1.addr ∧ q.1.addr < h'.next ∧
        h.next ≤ q.2.addr ∧ q.2.addr < h'.next ∧ q.1.addr ≠ q.2.addr ∧ HoldsRows h' q.1 q.2 l) ∧
      (∀ e, r' = .error e → r = .error e) := by
  rw [KF.filterOf] at hr
  rcases hp : (k.value h).prepare (X.ma h) with _ | w
  · rw [hp] at hr; cases hr
  rw [hp] at hr
  replace hr := Option.some.inj hr
  refine Runs.bind (runs_prepare hk hX hp) ?_ ?_
  swap
  · rintro e h1 ⟨-, -, herr⟩
    refine ⟨fun q hq => (by cases hq), ?_⟩
    rintro _ ⟨⟩
    rw [← hr, herr e rfl]
    rfl
  rintro p h1 ⟨t1, hok, -⟩
  obtain ⟨P, rfl, hholds, -, hZ, hm⟩ := hok p rfl
  replace hr : bierFilter store P ((X.parse.ma h1).rows k.nDimObs) = r := hr
  refine Runs.bind (runs_memBierFilter (store := store) hholds hZ hm) ?_ ?_
  swap
  · rintro e h2 ⟨-, -, e2⟩
    refine ⟨fun q hq => (by cases hq), ?_⟩
    rintro _ ⟨⟩
    rw [← hr, bierFilter, e2]
    rfl
  rintro c h2 ⟨t2, hc, e2⟩
  have cok := hc c rfl
  refine runs_memBierReconstruct cok.snd (fun a h3 hne t3 a3 b3 _ sa hrec => ?_) fun hnil => ?_
  swap
  · refine ⟨fun q hq => (by cases hq), ?_⟩
    rintro _ ⟨⟩
    rw [← hr, bierFilter, e2, ok_map, cok.zero hnil]
    rfl
  refine runs_pure ⟨?_, fun e he => by cases he⟩
  rintro _ ⟨⟩
  have m2 := cok.l2
  have n1 := t1.next
  have n2 := t2.next
  have n3 := t3.next
  have w2 := cok.means.v2
  rw [List.length_map, cok.length] at sa
  refine ⟨_, ?_, by simp only; omega, by simp only; omega, by simp only; omega,
    by simp only; omega, by simp only; omega, holdsRows_of cok.s2 sa⟩
  rw [← hr, bierFilter, e2, ok_map, ok_bind_res, bierRows_map (cok.ne hne), ok_bind_res]
  change Except.ok _ = Except.ok _
  rw [List.map_map]
  refine congrArg _ (List.map_congr_left fun t ht => ?_)
  rw [hrec t _ (cok.get_snd (List.mem_range.mp ht)), ARef.row_vec_touch t3 w2 (by simp)]
  rfl

/-- The arrays that `_smooth` is given are as the smoother on arrays needs them. -/
theorem bFilled_ok {c : BRefs} {T : ℕ} {h₀ h h3 h4 h5 : Heap} (cok : c.Ok n T h₀ h) {a b e : ARef}
    (t3 : Touch ∅ h h3) (t4 : Touch ∅ h3 h4) (t5 : Touch ∅ h4 h5) (ha : h.next ≤ a.addr)
    (ha' : a.addr < h3.next) (hb : h3.next ≤ b.addr) (hb' : b.addr < h4.next)
    (he : h4.next ≤ e.addr) (he' : e.addr < h5.next) (ia : a.ix = id) (ib : b.ix = id)
    (ie : e.ix = id) :
    (c.filled a b e).Ok h5 ∧ (c.filled b a e).Ok h5 := by
  have := cok.means.v1
  have := cok.means.v2
  have := cok.means.d
  have := t3.next
  have := t4.next
  have := t5.next
  constructor
  · refine ⟨?_, ?_, ?_⟩
    · intro r hr
      simp only [BRefs.filled, List.mem_cons, List.not_mem_nil, or_false] at hr
      rcases hr with rfl | rfl | rfl | rfl | rfl
      · exact cok.means.i1
      · exact ia
      · exact ie
      · exact cok.means.i2
      · exact ib
    · intro r hr
      simp only [BRefs.filled, List.mem_cons, List.not_mem_nil, or_false] at hr
      rcases hr with rfl | rfl | rfl | rfl | rfl <;> omega
    · simp only [BRefs.filled, List.map_cons, List.map_nil, List.nodup_cons, List.mem_cons,
        List.not_mem_nil, or_false, not_or, not_false_eq_true, List.nodup_nil, and_true]
      omega
  · refine ⟨?_, ?_, ?_⟩
    · intro r hr
      simp only [BRefs.filled, List.mem_cons, List.not_mem_nil, or_false] at hr
      rcases hr with rfl | rfl | rfl | rfl | rfl
      · exact cok.means.i1
      · exact ib
      · exact ie
      · exact cok.means.i2
      · exact ia
    · intro r hr
      simp only [BRefs.filled, List.mem_cons, List.not_mem_nil, or_false] at hr
      rcases hr with rfl | rfl | rfl | rfl | rfl <;> omega
    · simp only [BRefs.filled, List.map_cons, List.map_nil, List.nodup_cons, List.mem_cons,
        List.not_mem_nil, or_false, not_or, not_false_eq_true, List.nodup_nil, and_true]
      omega

/-- Their rows are those of the filter with the covariances reconstructed. -/
theorem bFilled_same {c : BRefs} {T : ℕ} {h₀ h h4 : Heap} (cok : c.Ok n T h₀ h) {a b e : ARef}
    {t : ℕ} (m : ℕ) (t4 : Touch ∅ h h4)
    (ha : (a.row t).mat n n h4 = ((c.ref t).1.value n h).reconstruct)
    (hb : (b.row t).mat n n h4 = ((c.ref t).2.value n h).reconstruct) :
    ((bAt n c.predMeans c.filtMeans h t (c.ref t)).step m).Same ((c.filled a b e).at h4 t) :=
  ⟨(ARef.row_vec_touch t4 cok.means.v1 (by simp)).symm, ha.symm,
    (ARef.row_vec_touch t4 cok.means.v2 (by simp)).symm, hb.symm⟩

theorem bierSmooth_result {qr : QR} {store : ℝ → ℝ} {k : KFRef} {X : ARef} {h : Heap}
    (hk : k.Valid h) (hX : X.addr < h.next)
    {r : Res (List (Vec k.nDimState × Mat k.nDimState k.nDimState))}
    (hr : (k.value h).smoothOf .bierman qr store (X.ma h) = some r) :
    Runs (k.bierSmooth store X) h fun r' h' =>
      (∀ q, r' = .ok q → ∃ l, r = .ok l ∧ h.next ≤ q.1.addr ∧ q.1.addr < h'.next ∧
        h.next ≤ q.2.addr ∧ q.2.addr < h'.next ∧ q.1.addr ≠ q.2.addr ∧ HoldsRows h' q.1 q.2 l) ∧
      (∀ e, r' = .error e → r = .error e) := by
  rw [KF.smoothOf] at hr
  rcases hp : (k.value h).prepare (X.ma h) with _ | w
  · rw [hp] at hr; cases hr
  rw [hp] at hr
  replace hr := Option.some.inj hr
  refine Runs.bind (runs_prepare hk hX hp) ?_ ?_
  swap
  · rintro e h1 ⟨-, -, herr⟩
    refine ⟨fun q hq => (by cases hq), ?_⟩
    rintro _ ⟨⟩
    rw [← hr, herr e rfl]
    rfl
  rintro p h1 ⟨t1, hok, -⟩
  obtain ⟨P, rfl, hholds, -, hZ, hm⟩ := hok p rfl
  replace hr : bierSmooth store P ((X.parse.ma h1).rows k.nDimObs) = r := hr
  refine Runs.bind (runs_memBierFilter (store := store) hholds hZ hm) ?_ ?_
  swap
  · rintro e h2 ⟨-, -, e2⟩
    refine ⟨fun q hq => (by cases hq), ?_⟩
    rintro _ ⟨⟩
    rw [← hr, bierSmooth, e2]
    rfl
  rintro c h2 ⟨t2, hc, e2⟩
  have cok := hc c rfl
  refine runs_memBierReconstruct cok.fst (fun a h3 hne t3 a3 b3 ia _ hrec3 => ?_) fun hnil => ?_
  swap
  · refine ⟨fun q hq => (by cases hq), ?_⟩
    rintro _ ⟨⟩
    rw [← hr, bierSmooth, e2, ok_map, cok.zero hnil]
    rfl
  have hT := cok.ne hne
  refine runs_memBierReconstruct (fun u hu => (cok.snd u hu).touch t3)
    (fun b h4 _ t4 a4 b4 ib _ hrec4 => ?_) fun hnil => absurd (cok.zero hnil) hT
  refine runs_new fun z h4' f5 => ?_
  have za := f5.addr
  have zn := f5.next
  have t5 := f5.touch
  have fok := (bFilled_ok (e := z) cok t3 t4 t5 a3 b3 a4 b4 (by omega) (by omega) ia ib f5.ix).1
  have hA := hholds.touch (t2.trans (t3.trans (t4.trans t5)))
  have hsame : ∀ t, t < X.parse.shape.headD 0 →
      ((bAt k.nDimState c.predMeans c.filtMeans h2 t (c.ref t)).step k.nDimObs).Same
        ((c.filled a b z).at h4' t) := fun t ht =>
    bFilled_same cok k.nDimObs (t3.trans (t4.trans t5))
      ((ARef.row_mat_touch (t4.trans t5) b3 (by simp)).trans (hrec3 t _ (cok.get_fst ht)))
      ((ARef.row_mat_touch t5 b4 (by simp)).trans ((hrec4 t _ (cok.get_snd ht)).trans (by
        rw [(cok.snd _ (List.mem_of_getElem? (cok.get_snd ht))).value t3])))
  have hval : bierSmooth store P ((X.parse.ma h1).rows k.nDimObs) = (do
      let sm ← smoothFull P.A ((List.range (X.parse.shape.headD 0)).map fun t =>
        (c.filled a b z).at (m := k.nDimObs) h4' t)
      pure (sm.map fun s : SStep k.nDimState => (s.mean, s.cov))) := by
    rw [bierSmooth, e2, ok_map, ok_bind_res, bierRows_map hT, ok_bind_res,
      smoothFull_same P.A (forall₂_range hsame)]
  refine Runs.bind (runs_memSmooth (m := k.nDimObs) fok hA.A (hA.valid p.A (by simp)).1 cok.s2) ?_ ?_
  · rintro s h5 ⟨t5', hs, e5⟩
    obtain ⟨sok, saddr, -, s1, s2, -⟩ := hs s rfl
    refine runs_pure ⟨?_, fun e he => by cases he⟩
    rintro _ ⟨⟩
    have m1 := saddr s.means.addr (by simp [SRefs.addrs])
    have m2 := saddr s.covs.addr (by simp [SRefs.addrs])
    have w1 := sok.v1
    have w2 := sok.v2
    have n1 := t1.next
    have n2 := t2.next
    have n3 := t3.next
    have n4 := t4.next
    refine ⟨_, ?_, by simp only; omega, by simp only; omega, by simp only; omega,
      by simp only; omega, sok.d12, holdsRows_of s1 s2⟩
    rw [← hr, hval, e5, ok_map]
    change Except.ok _ = Except.ok _
    rw [List.map_map]
    rfl
  · rintro e h5 ⟨-, -, e5⟩
    refine ⟨fun q hq => (by cases hq), ?_⟩
    rintro _ ⟨⟩
    rw [← hr, hval, e5]
    rfl

/-! ### loglikelihood -/

theorem bierLoglik_result {qr : QR} {store : ℝ → ℝ} {k : KFRef} {X : ARef} {h : Heap}
    (hk : k.Valid h) (hX : X.addr < h.next) {r : Res ℝ}
    (hr : (k.value h).loglikOf .bierman qr store (X.ma h) = some r) :
    Runs (k.bierLoglikelihood store X) h fun r' _ => r' = r := by
  rw [KF.loglikOf] at hr
  rcases hp : (k.value h).prepare (X.ma h) with _ | w
  · rw [hp] at hr; cases hr
  rw [hp] at hr
  replace hr := Option.some.inj hr
  refine Runs.bind (runs_prepare hk hX hp) ?_ ?_
  swap
  · rintro e h1 ⟨-, -, herr⟩
    rw [← hr, herr e rfl]
    rfl
  rintro p h1 ⟨t1, hok, -⟩
  obtain ⟨P, rfl, hholds, -, hZ, hm⟩ := hok p rfl
  replace hr : bierLoglik store P ((X.parse.ma h1).rows k.nDimObs) = r := hr
  refine Runs.bind (runs_memBierFilter (store := store) hholds hZ hm) ?_ ?_
  swap
  · rintro e h2 ⟨-, -, e2⟩
    rw [← hr, bierLoglik, e2]
    rfl
  rintro c h2 ⟨t2, hc, e2⟩
  have cok := hc c rfl
  refine runs_memBierReconstruct cok.fst (fun a h3 hne t3 a3 b3 ia _ hrec3 => ?_) fun hnil => ?_
  swap
  · rw [← hr, bierLoglik, e2, ok_map, cok.zero hnil]
    rfl
  have hT := cok.ne hne
  refine runs_new fun z h4 f4 => runs_new fun y h5 f5 => ?_
  have za := f4.addr
  have zn := f4.next
  have ya := f5.addr
  have yn := f5.next
  have t4 := f4.touch
  have t5 := f5.touch
  have fok : (c.filled a y z).Ok h5 := by
    have := cok.means.v1
    have := cok.means.v2
    have := cok.means.d
    have := t3.next
    refine ⟨?_, ?_, ?_⟩
    · intro r hr
      simp only [BRefs.filled, List.mem_cons, List.not_mem_nil, or_false] at hr
      rcases hr with rfl | rfl | rfl | rfl | rfl
      · exact cok.means.i1
      · exact ia
      · exact f4.ix
      · exact cok.means.i2
      · exact f5.ix
    · intro r hr
      simp only [BRefs.filled, List.mem_cons, List.not_mem_nil, or_false] at hr
      rcases hr with rfl | rfl | rfl | rfl | rfl <;> omega
    · simp only [BRefs.filled, List.map_cons, List.map_nil, List.nodup_cons, List.mem_cons,
        List.not_mem_nil, or_false, not_or, not_false_eq_true, List.nodup_nil, and_true]
      omega
  have t35 := t3.trans (t4.trans t5)
  have t25 := t2.trans t35
  refine (runs_memLoglik (hholds.touch t25) fok (hZ.trans_le t25.next) hm).imp fun r' h6 e6 => ?_
  rw [e6, ← hr, bierLoglik, e2, ok_map, ok_bind_res, bierRows_map hT, ok_bind_res,
    ARef.ma_touch t25 hZ (by simp)]
  rw [loglikLoop_same P _ _ 0 _ (forall₂_range (f := fun s =>
    (bAt k.nDimState c.predMeans c.filtMeans h2 s (c.ref s)).step k.nDimObs)
    (g := fun s => (c.filled a y z).at h5 s) fun t ht =>
      ⟨(ARef.row_vec_touch t35 cok.means.v1 (by simp)).symm,
        ((ARef.row_mat_touch (t4.trans t5) b3 (by simp)).trans
          (hrec3 t _ (cok.get_fst ht))).symm⟩)]
  cases loglikLoop P 0 ((List.range (X.parse.shape.headD 0)).map fun s =>
    (c.filled a y z).at h5 s) ((X.parse.ma h1).rows k.nDimObs) <;> rfl

/-! ### em -/

theorem runs_memBierEmLoop {sel : EmVar → Bool} {given : PRefs} {Z : ARef}
    {G : Params n m} {b : ℕ} (hm : Z.shape.drop 1 = [m]) :
    ∀ (k : ℕ) (store : ℝ → ℝ) (p : PRefs) (P : Params n m) (h : Heap), given.Holds ∅ h G →
    p.Holds ∅ h P → Z.addr < h.next → b ≤ h.next →
    Runs (memBierEmLoop n m sel given Z store k p) h fun r h' => Touch ∅ h h' ∧
      (∀ p', r = .ok p' → ∃ P', bierEmLoop store G sel ((Z.ma h).rows m) k P = .ok P' ∧
        p'.Holds ∅ h' P' ∧ (0 < k → p'.Estimated sel given b) ∧ (k = 0 → p' = p)) ∧
      (∀ e, r = .error e → bierEmLoop store G sel ((Z.ma h).rows m) k P = .error e)
  | 0, store, p, P, h, hG, hP, hZ, hb => by
    refine runs_pure ⟨Touch.refl _ _, ?_, fun e he => by cases he⟩
    rintro p' ⟨⟩
    exact ⟨P, rfl, hP, fun h => absurd h (lt_irrefl _), fun _ => rfl⟩
  | k + 1, store, p, P, h, hG, hP, hZ, hb => by
    unfold memBierEmLoop
    refine Runs.bind (runs_memBierFilter (store := store) hP hZ hm) ?_ ?_
    swap
    · rintro e h1 ⟨t1, -, e1⟩
      refine ⟨t1, fun p hp => (by cases hp), ?_⟩
      rintro e' ⟨⟩
      rw [error_map] at e1
      simp only [bierEmLoop, bierStats, e1, error_bind_res]
    rintro c h1a ⟨t1a, hc, e1⟩
    have cok := hc c rfl
    rw [ok_map] at e1
    refine runs_memBierReconstruct cok.snd (fun a h1b hne t1b a1 b1 ia _ hrec1 => ?_) fun hnil => ?_
    swap
    · refine ⟨t1a, fun p hp => (by cases hp), ?_⟩
      rintro e' ⟨⟩
      simp only [bierEmLoop, bierStats, e1, ok_bind_res, cok.zero hnil]
      rfl
    have hT0 := cok.ne hne
    refine runs_memBierReconstruct (fun u hu => (cok.fst u hu).touch t1b)
      (fun bb h1c _ t1c a2 b2 ib _ hrec2 => ?_) fun hnil => absurd (cok.zero hnil) hT0
    refine runs_new fun z h1 f5 => ?_
    have za := f5.addr
    have zn := f5.next
    have t5 := f5.touch
    have fok := (bFilled_ok (e := z) cok t1b t1c t5 a1 b1 a2 b2 (by omega) (by omega) ia ib f5.ix).2
    have t1 := t1a.trans (t1b.trans (t1c.trans t5))
    have hsame : ∀ t, t < Z.shape.headD 0 →
        ((bAt n c.predMeans c.filtMeans h1a t (c.ref t)).step m).Same
          ((c.filled bb a z).at h1 t) := fun t ht =>
      bFilled_same cok m (t1b.trans (t1c.trans t5))
        ((ARef.row_mat_touch t5 b2 (by simp)).trans ((hrec2 t _ (cok.get_fst ht)).trans (by
          rw [(cok.fst _ (List.mem_of_getElem? (cok.get_fst ht))).value t1b])))
        ((ARef.row_mat_touch (t1c.trans t5) b1 (by simp)).trans (hrec1 t _ (cok.get_snd ht)))
    have esm : ∀ A : TV (Mat n n), smoothFull A ((List.range (Z.shape.headD 0)).map fun t =>
        (bAt n c.predMeans c.filtMeans h1a t (c.ref t)).step m) =
        smoothFull A ((List.range (Z.shape.headD 0)).map fun t =>
        (c.filled bb a z).at (m := m) h1 t) := fun A =>
      smoothFull_same A (forall₂_range hsame)
    refine Runs.bind (runs_memSmooth (m := m) fok (hP.touch t1).A ((hP.touch t1).valid _ (by simp)).1
      cok.s2) ?_ ?_
    swap
    · rintro e h2 ⟨t2, -, e2⟩
      refine ⟨t1.trans t2, fun p hp => (by cases hp), ?_⟩
      rintro e' ⟨⟩
      rw [error_map] at e2
      simp only [bierEmLoop, bierStats, e1, bierRows_map hT0, esm, e2, ok_bind_res, error_bind_res]
    rintro s h2 ⟨t2, hs, e2⟩
    obtain ⟨sok, snew, hT, ssh1, ssh2, -⟩ := hs s rfl
    rw [ok_map] at e2
    refine Runs.bind (runs_memPair sok ssh2) ?_ ?_
    swap
    · rintro e h3 ⟨-, pairs, he, -⟩
      cases he
    rintro pairs h3 ⟨t3, pairs', he, pv, prow⟩
    cases he
    have hat : ∀ u, s.at (n := n) h3 u = s.at h2 u := SRefs.at_touch t3 sok (by simp)
    have u3 := (t1.trans t2).trans t3
    have hstats := emStatsAt_eq ssh1 hat prow
    have hbs : b ≤ s.means.addr := by
      have := snew s.means.addr (by simp [SRefs.addrs])
      have := t1.next
      omega
    have est : bierStats store P ((Z.ma h).rows m) = .ok (emStatsAt n h3 s pairs) := by
      rw [hstats]
      simp only [bierStats, e1, bierRows_map hT0, esm, e2, ok_bind_res]
      rfl
    have hZ3 := ARef.ma_touch u3 hZ (by simp)
    refine Runs.bind (runs_memEmStep (b := b) (hG.touch u3) (hP.touch u3) (hZ.trans_le u3.next)
      (sok.touch t3) pv ssh1 hT (hb.trans u3.next) hbs) ?_ ?_
    swap
    · rintro e h4 ⟨t4, -, he⟩
      refine ⟨u3.trans t4, fun p hp => (by cases hp), ?_⟩
      rintro e' ⟨⟩
      have := he e rfl
      rw [hZ3] at this
      simp only [bierEmLoop, est, ok_bind_res, this, error_bind_res]
    rintro p1 h4 ⟨t4, hok, -⟩
    obtain ⟨P1, eP1, hP1, est1⟩ := hok p1 rfl
    rw [hZ3] at eP1
    have u4 := u3.trans t4
    refine (runs_memBierEmLoop hm k (if sel .initialStateCovariance then id else store) p1 P1 h4
      (hG.touch u4) hP1 (hZ.trans_le u4.next)
      (hb.trans u4.next)).imp fun r h5 ⟨t5, hok, herr⟩ => ⟨u4.trans t5, ?_, ?_⟩
    · rintro p' rfl
      obtain ⟨P', e', hP', h0, h1'⟩ := hok p' rfl
      rw [ARef.ma_touch u4 hZ (by simp)] at e'
      refine ⟨P', ?_, hP', fun _ => ?_, fun hk => by omega⟩
      · simp only [bierEmLoop, est, ok_bind_res, eP1]
        exact e'
      · rcases Nat.eq_zero_or_pos k with hk | hk
        · rw [h1' hk]; exact est1
        · exact h0 hk
    · rintro e rfl
      have e' := herr e rfl
      rw [ARef.ma_touch u4 hZ (by simp)] at e'
      simp only [bierEmLoop, est, ok_bind_res, eP1]
      exact e'

theorem bierEm_result {k : KFRef} {X : ARef} {h : Heap} {nIter : ℕ} {arg : Option EmNames} {qr : QR}
    {store : ℝ → ℝ} (hk : k.Valid h) (hX : X.addr < h.next)
    {r : Res (Params k.nDimState k.nDimObs)}
    (hr : (k.value h).em .bierman qr store (X.ma h) nIter arg = some r) :
    Runs (k.bierEm store X nIter arg) h fun r' h' => Touch ∅ h h' ∧
      (∀ k', r' = .ok k' → ∃ P sel, r = .ok P ∧ (k.value h).emSelectionSqrt arg = .ok sel ∧
        k'.Valid h' ∧ (k'.value h').resolvedSpec.typed k.nDimState k.nDimObs = some P ∧
        k'.SameSettings k ∧ ∀ v, KFRef.Kept k k' h v (0 < nIter ∧ sel v = true)) ∧
      (∀ e, r' = .error e → r = .error e) := by
  rw [KF.em] at hr
  rcases hp : (k.value h).prepare (X.ma h) with _ | w
  · rw [hp] at hr; cases hr
  rw [hp] at hr
  replace hr := Option.some.inj hr
  refine Runs.bind (runs_prepare hk hX hp) ?_ ?_
  swap
  · rintro e h1 ⟨t1, -, herr⟩
    refine ⟨t1, fun k' hk' => (by cases hk'), ?_⟩
    rintro e' ⟨⟩
    rw [← hr, herr e rfl]
    rfl
  rintro p h1 ⟨t1, hok, -⟩
  obtain ⟨P, rfl, hholds, hfrom, hZ, hm⟩ := hok p rfl
  replace hr : ((k.value h).emSelectionSqrt arg >>= fun vars =>
    bierEm store P ((X.parse.ma h1).rows k.nDimObs) nIter vars) = r := hr
  have hsel : (k.value h).emSelectionSqrt arg = emSelection (arg.orElse fun _ => k.emVars) := rfl
  rw [hsel] at hr ⊢
  refine runs_lifted (fun sel hs => ?_) (fun e he => ?_)
  swap
  · refine ⟨t1, fun k' hk' => (by cases hk'), ?_⟩
    rintro e' ⟨⟩
    rw [← hr, he]
    rfl
  rw [hs] at hr ⊢
  replace hr : bierEmLoop store P sel ((X.parse.ma h1).rows k.nDimObs) nIter P = r := hr
  refine Runs.bind (runs_memBierEmLoop (b := h1.next) hm nIter store p P h1 hholds hholds hZ
    le_rfl) ?_ ?_
  swap
  · rintro e h2 ⟨t2, -, herr⟩
    refine ⟨t1.trans t2, fun k' hk' => (by cases hk'), ?_⟩
    rintro e' ⟨⟩
    rw [← hr, herr e rfl]
  rintro p' h2 ⟨t2, hok2, -⟩
  obtain ⟨P', e', hP', hest, hsame⟩ := hok2 p' rfl
  refine runs_pure ⟨t1.trans t2, ?_, fun e he => by cases he⟩
  rintro k' ⟨⟩
  exact ⟨P', sel, by rw [← hr, e'], rfl, em_object t1 hfrom hP' hest hsame rfl⟩

/-! ### filter_update -/

theorem one_le_of_toVecs {X : ARef} {h : Heap} {k : ℕ} {tv : TV (Vec k)}
    (hX : (X.nd h).toVecs k = some tv) : 1 ≤ X.shape.length := by
  unfold NDArray.toVecs at hX
  have hs : (X.nd h).shape = X.shape := rfl
  rw [hs] at hX
  split at hX
  · rename_i hsh
    simp [hsh]
  · split at hX
    · rename_i hsh
      simp [hsh]
    · cases hX

theorem bierUpdate_result {store : ℝ → ℝ} {k : KFRef} {mean cov : ARef} {o : Option ARef} {a : UpdateRefs}
    {h : Heap} (hk : k.Valid h) (hmean : mean.addr < h.next) (hcov : cov.addr < h.next)
    (ho : ∀ r, o = some r → r.addr < h.next ∧ r.shape = [k.nDimObs]) (ha : a.Fits k.nDimState k.nDimObs h)
    {rp : Res (Params k.nDimState k.nDimObs)} (hp : (k.value h).params = some rp)
    {r : Res (Vec k.nDimState × (Fin 1 → Mat k.nDimState k.nDimState))}
    (hr : (rp >>= fun P => Verif.bierUpdate store P (mean.vec k.nDimState h)
      (cov.mat k.nDimState k.nDimState h) (o.map (ARef.obs k.nDimObs h))
      (a.value k.nDimState k.nDimObs h)) = r) :
    Runs (k.bierFilterUpdate store mean cov o a) h fun r' h' =>
      (∀ q, r' = .ok q → q.2.shape = [1, k.nDimState, k.nDimState] ∧
        r = .ok (q.1.vec k.nDimState h', fun _ => (q.2.row 0).mat k.nDimState k.nDimState h') ∧
        h.next ≤ q.1.addr ∧ q.1.addr < h'.next ∧ h.next ≤ q.2.addr ∧ q.2.addr < h'.next ∧
        q.1.addr ≠ q.2.addr) ∧
      (∀ e, r' = .error e → r = .error e) := by
  refine Runs.bind (runs_memInitialize hk) ?_ ?_
  · rintro p h1 ⟨t1, hok, -⟩
    obtain ⟨hi, -, hv⟩ := hok p rfl
    rw [KF.params, hi] at hp
    rcases hP : (p.value h1).typed (k.value h).nDimState (k.value h).nDimObs with _ | P
    · simp only [hP] at hp; cases hp
    simp only [hP, Option.map_some] at hp
    obtain rfl := Option.some.inj hp
    change Params k.nDimState k.nDimObs at P
    have hh : p.Holds ∅ h1 P := holds_of_typed hP hv
    have n1 := t1.next
    have eA := argOrDefault_mats (fun r hr => (ha.A r hr).2) hh.A
    have eb := argOrDefault_vecs (fun r hr => (ha.b r hr).2) hh.b
    have eQ := argOrDefault_mats (fun r hr => (ha.Q r hr).2) hh.Q
    have eC := argOrDefault_mats (fun r hr => (ha.C r hr).2) hh.C
    have ed := argOrDefault_vecs (fun r hr => (ha.d r hr).2) hh.d
    have eR := argOrDefault_mats (fun r hr => (ha.R r hr).2) hh.R
    rw [map_touch (f := ARef.mat _ _) fun r hr => ARef.mat_touch t1 (ha.A r hr).1 (by simp)] at eA
    rw [map_touch (f := ARef.vec _) fun r hr => ARef.vec_touch t1 (ha.b r hr).1 (by simp)] at eb
    rw [map_touch (f := ARef.mat _ _) fun r hr => ARef.mat_touch t1 (ha.Q r hr).1 (by simp)] at eQ
    rw [map_touch (f := ARef.mat _ _) fun r hr => ARef.mat_touch t1 (ha.C r hr).1 (by simp)] at eC
    rw [map_touch (f := ARef.vec _) fun r hr => ARef.vec_touch t1 (ha.d r hr).1 (by simp)] at ed
    rw [map_touch (f := ARef.mat _ _) fun r hr => ARef.mat_touch t1 (ha.R r hr).1 (by simp)] at eR
    replace hr : Verif.bierUpdate (n := k.nDimState) (m := k.nDimObs) store P (mean.vec k.nDimState h)
      (cov.mat k.nDimState k.nDimState h) (o.map (ARef.obs k.nDimObs h))
      (a.value k.nDimState k.nDimObs h) = r := hr
    simp only [Verif.bierUpdate, UpdateRefs.value] at hr
    rw [eA, eb, eQ, eC, ed, eR] at hr
    rcases gb : argOrDefaultRef a.b p.b 1 with e | b
    · rw [gb] at hr
      exact ⟨fun q hq => (by cases hq), fun e' he => by cases he; exact hr.symm⟩
    rcases gd : argOrDefaultRef a.d p.d 1 with e | d
    · rw [gb, gd] at hr
      exact ⟨fun q hq => (by cases hq), fun e' he => by cases he; exact hr.symm⟩
    rcases gA : argOrDefaultRef a.A p.A 2 with e | A
    · rw [gb, gd, gA] at hr
      exact ⟨fun q hq => (by cases hq), fun e' he => by cases he; exact hr.symm⟩
    rcases gC : argOrDefaultRef a.C p.C 2 with e | C
    · rw [gb, gd, gA, gC] at hr
      exact ⟨fun q hq => (by cases hq), fun e' he => by cases he; exact hr.symm⟩
    rcases gQ : argOrDefaultRef a.Q p.Q 2 with e | Q
    · rw [gb, gd, gA, gC, gQ] at hr
      exact ⟨fun q hq => (by cases hq), fun e' he => by cases he; exact hr.symm⟩
    rcases gR : argOrDefaultRef a.R p.R 2 with e | R
    · rw [gb, gd, gA, gC, gQ, gR] at hr
      exact ⟨fun q hq => (by cases hq), fun e' he => by cases he; exact hr.symm⟩
    rw [gb, gd, gA, gC, gQ, gR] at hr
    have hvA := argOrDefaultRef_addr gA (fun r hr => (ha.A r hr).1.trans_le n1) (hv _ (by simp))
    have hvb := argOrDefaultRef_addr gb (fun r hr => (ha.b r hr).1.trans_le n1) (hv _ (by simp))
    have hvQ := argOrDefaultRef_addr gQ (fun r hr => (ha.Q r hr).1.trans_le n1) (hv _ (by simp))
    have hvC := argOrDefaultRef_addr gC (fun r hr => (ha.C r hr).1.trans_le n1) (hv _ (by simp))
    have hvd := argOrDefaultRef_addr gd (fun r hr => (ha.d r hr).1.trans_le n1) (hv _ (by simp))
    have hvR := argOrDefaultRef_addr gR (fun r hr => (ha.R r hr).1.trans_le n1) (hv _ (by simp))
    have hQ2 := argOrDefaultRef_ndim gQ (fun x hx => by rw [(ha.Q x hx).2]; rfl) (two_le_of_toMats hh.Q)
    have hR2 := argOrDefaultRef_ndim gR (fun x hx => by rw [(ha.R x hx).2]; rfl) (two_le_of_toMats hh.R)
    have hC2 := argOrDefaultRef_ndim gC (fun x hx => by rw [(ha.C x hx).2]; rfl) (two_le_of_toMats hh.C)
    have hd1 := argOrDefaultRef_ndim gd (fun x hx => by rw [(ha.d x hx).2]; rfl) (one_le_of_toVecs hh.d)
    have key : ∀ (ob : ARef) (h2 : Heap) (ov : Obs k.nDimObs), Touch ∅ h1 h2 → ob.addr < h2.next →
        ob.shape.length ≠ 2 → ob.obs k.nDimObs h2 = ov →
        (udu store (cov.mat k.nDimState k.nDimState h) >>= fun S =>
          cholesky (R.mat k.nDimObs k.nDimObs h1) >>= fun R2 =>
          bierPredict (A.mat k.nDimState k.nDimState h1) (Q.mat k.nDimState k.nDimState h1)
            (b.vec k.nDimState h1) (mean.vec k.nDimState h) S >>= fun pred =>
          pure ((bierCorrect (pinv R2 * C.mat k.nDimObs k.nDimState h1) 1
              (pinv R2 *ᵥ d.vec k.nDimObs h1) pred.1 pred.2 ⟨pinv R2 *ᵥ ov.val, ov.mask⟩).1,
            fun _ : Fin 1 => (bierCorrect (pinv R2 * C.mat k.nDimObs k.nDimState h1) 1
              (pinv R2 *ᵥ d.vec k.nDimObs h1) pred.1 pred.2
              ⟨pinv R2 *ᵥ ov.val, ov.mask⟩).2.reconstruct)) = r →
        Runs (memUdu store k.nDimState cov >>= fun S =>
          memDecorrelate k.nDimState k.nDimObs C d R ob >>= fun q =>
          memBierPredict k.nDimState A Q b mean S >>= fun pred =>
          memBierCorrect k.nDimState k.nDimObs q.1 q.2.1 pred.1 pred.2 q.2.2 >>= fun c =>
          memBierReconstruct [c.2] >>= fun covs => pure (c.1, covs)) h2 fun r' h' =>
          (∀ q, r' = .ok q → q.2.shape = [1, k.nDimState, k.nDimState] ∧
            r = .ok (q.1.vec k.nDimState h', fun _ => (q.2.row 0).mat k.nDimState k.nDimState h') ∧
            h.next ≤ q.1.addr ∧ q.1.addr < h'.next ∧ h.next ≤ q.2.addr ∧ q.2.addr < h'.next ∧
            q.1.addr ≠ q.2.addr) ∧
          (∀ e, r' = .error e → r = .error e) := by
      intro ob h2 ov t2 hob hos hov hval
      have n2 := t2.next
      have ec : cov.mat k.nDimState k.nDimState h2 = cov.mat k.nDimState k.nDimState h :=
        ARef.mat_touch (t1.trans t2) hcov (by simp)
      refine runs_memUdu (fun S u h3 eS t3 hu hS => ?_) fun e he =>
          ⟨fun q hq => (by cases hq), fun e' he' => by cases he'; rw [← hval, ← ec, he]; rfl⟩
      rw [ec] at eS
      rw [eS, ok_bind_res] at hval
      have t13 := t2.trans t3
      have n3 := t3.next
      refine runs_memDecorrelate (by rw [if_pos hR2, ARef.mat_touch t13 hvR (by simp)])
        (hvC.trans_le t13.next) (hvd.trans_le t13.next) (by omega)
        (fun R2 q h4 eR2 t4 dq => ?_) fun e _ he _ =>
          ⟨fun q hq => (by cases hq), fun e' he' => by cases he'; rw [← hval, he]; rfl⟩
      rw [eR2, ok_bind_res] at hval
      have t14 := t13.trans t4
      have n4 := t4.next
      have v1 := dq.v1
      have v2 := dq.v2
      have v3 := dq.v3
      have qC := dq.mats.2 (by omega)
      have qd := dq.vec (by omega)
      have qo := dq.row hos
      rw [ARef.mat_touch t13 hvC (by simp)] at qC
      rw [ARef.vec_touch t13 hvd (by simp)] at qd
      rw [ARef.obs_touch t3 hob (by simp), hov] at qo
      have ugood : u.Good k.nDimState ∅ h3 := hu.good (by simp)
      refine runs_memBierPredict (by rw [if_pos hQ2, ARef.mat_touch t14 hvA (by simp),
          ARef.mat_touch t14 hvQ (by simp), ARef.vec_touch t14 hvb (by simp),
          ARef.vec_touch (t1.trans t14) hmean (by simp), ugood.value t4, hS])
        (fun pr h5 epr t5 a5 b5 hnew => ?_) fun e _ he _ =>
          ⟨fun q hq => (by cases hq), fun e' he' => by cases he'; rw [← hval, he]; rfl⟩
      rw [epr, ok_bind_res] at hval
      have n5 := t5.next
      have pgood : pr.2.Good k.nDimState ∅ h5 := hnew.good (by simp)
      refine runs_memBierCorrect (by omega) (by omega) (by omega) b5 pgood
        fun c h6 t6 a6 b6 hcn hc => ?_
      rw [ARef.mat_touch t5 v1 (by simp), ARef.vec_touch t5 v2 (by simp),
        ARef.obs_touch t5 v3 (by simp), qC, qd, qo] at hc
      have n6 := t6.next
      have cgood : c.2.Good k.nDimState ∅ h6 := by
        rcases hcn with e | e
        · rw [e]; exact pgood.touch t6
        · exact e.good (by simp)
      refine runs_memBierReconstruct (n := k.nDimState) (by
          intro x hx
          rw [List.mem_singleton] at hx
          rw [hx]; exact cgood)
        (fun covs h7 _ t7 a7 b7 _ sh7 hrec => ?_) fun hnil => by cases hnil
      refine runs_pure ⟨?_, fun e he => by cases he⟩
      rintro _ ⟨⟩
      have n7 := t7.next
      have n1 := t1.next
      have c1 := congrArg Prod.fst hc
      have c2 := congrArg Prod.snd hc
      simp only at c1 c2
      refine ⟨sh7, ?_, by simp only; omega, by simp only; omega, by simp only; omega,
        by simp only; omega, by simp only; omega⟩
      rw [← hval, ARef.vec_touch t7 b6 (by simp), c1, hrec 0 _ rfl, c2]
      rfl
    cases o with
    | none =>
      change Runs (newMasked (R.shape.headD 0) >>= fun ob =>
        memUdu store k.nDimState cov >>= fun S =>
          memDecorrelate k.nDimState k.nDimObs C d R ob >>= fun q =>
          memBierPredict k.nDimState A Q b mean S >>= fun pred =>
          memBierCorrect k.nDimState k.nDimObs q.1 q.2.1 pred.1 pred.2 q.2.2 >>= fun c =>
          memBierReconstruct [c.2] >>= fun covs => pure (c.1, covs)) h1 _
      refine Runs.bind (mid := fun r' h' => ∃ v, r' = .ok v ∧ Touch ∅ h1 h' ∧ v.addr < h'.next ∧
        v.shape.length ≠ 2 ∧ v.obs k.nDimObs h' = ⟨0, fun _ => true⟩) ?_ ?_ ?_
      · refine ⟨_, rfl, ⟨Nat.le_succ _, fun _ hx _ => Function.update_of_ne hx.ne _ _⟩,
          Nat.lt_succ_self _, by simp [newMasked], ?_⟩
        simp [ARef.obs, ARef.ma, newMasked]
        rfl
      · rintro ob h2 ⟨v, ⟨⟩, t2, hob, hos, hov⟩
        exact key ob h2 _ t2 hob hos hov hr
      · rintro e h2 ⟨v, ⟨⟩, -⟩
    | some o =>
      exact key o h1 _ (Touch.refl _ _) ((ho o rfl).1.trans_le n1)
        (by rw [(ho o rfl).2]; simp) (ARef.obs_touch t1 (ho o rfl).1 (by simp)) hr
  · rintro e h1 ⟨-, -, herr⟩
    refine ⟨fun q hq => (by cases hq), ?_⟩
    rintro _ ⟨⟩
    rw [KF.params, herr e rfl] at hp
    cases hp
    exact hr.symm

end Verif
