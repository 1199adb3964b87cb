import Verif.Proofs.MemoryBasic

/-! # The filter on arrays in memory computes the rows of the filter on values -/

open Matrix

namespace Verif

variable {α β : Type} {n m : ℕ}

theorem runs_new {a : NDArray} {h : Heap} {f : ARef → HM β} {post : Res β → Heap → Prop}
    (hf : ∀ v h', Fresh a h v h' → Runs (f v) h' post) : Runs (newArray a >>= f) h post :=
  Runs.bind (runs_newArray a h) (fun v h' ⟨_, e, hv⟩ => by cases e; exact hf v h' hv)
    fun _ _ ⟨_, e, _⟩ => by cases e

theorem runs_seeing {g : Heap → α} {h : Heap} {f : α → HM β} {post : Res β → Heap → Prop}
    (hf : Runs (f (g h)) h post) : Runs (HM.see g >>= f) h post := hf

/-- What an assignment to a row does. -/
structure RowSet (X : ARef) (t : ℕ) (v : ARef) (h h' : Heap) : Prop where
  next : h'.next = h.next
  other : ∀ a, a ≠ X.addr → h'.block a = h.block a
  row : ∀ i, (h'.block X.addr).val (t :: i) = (v.nd h).data i
  rest : ∀ s i, s ≠ t → (h'.block X.addr).val (s :: i) = (h.block X.addr).val (s :: i)

theorem runs_setting {X v : ARef} {t : ℕ} {h : Heap} {f : Unit → HM β}
    {post : Res β → Heap → Prop}
    (hf : ∀ h', RowSet X t v h h' → Runs (f ()) h' post) : Runs (setRow X t v >>= f) h post := by
  refine hf (setRow X t v h).2 ⟨rfl, fun a ha => ?_, fun i => ?_, fun s i hs => ?_⟩
  · exact Function.update_of_ne ha _ _
  · simp [setRow]
  · simp [setRow, hs]

theorem runs_set {X v : ARef} {t : ℕ} {h : Heap} {post : Res Unit → Heap → Prop}
    (hf : ∀ h', RowSet X t v h h' → post (.ok ()) h') : Runs (setRow X t v) h post :=
  runs_setting (f := fun _ => pure ()) fun h' hs => hf h' hs

theorem RowSet.vec {X v : ARef} {t : ℕ} {h h' : Heap} (hs : RowSet X t v h h') (hX : X.ix = id) :
    (X.row t).vec n h' = v.vec n h := by
  funext i
  simp only [ARef.vec, ARef.nd, ARef.row, hX, id, hs.row]

theorem RowSet.mat {X v : ARef} {t : ℕ} {h h' : Heap} (hs : RowSet X t v h h') (hX : X.ix = id) :
    (X.row t).mat n m h' = v.mat n m h := by
  ext i j
  simp only [ARef.mat, ARef.nd, ARef.row, hX, id, hs.row]

theorem RowSet.vec_rest {X v : ARef} {t s : ℕ} {h h' : Heap} (hs : RowSet X t v h h')
    (hX : X.ix = id) (hst : s ≠ t) : (X.row s).vec n h' = (X.row s).vec n h := by
  funext i
  simp only [ARef.vec, ARef.nd, ARef.row, hX, id, hs.rest s _ hst]

theorem RowSet.mat_rest {X v : ARef} {t s : ℕ} {h h' : Heap} (hs : RowSet X t v h h')
    (hX : X.ix = id) (hst : s ≠ t) : (X.row s).mat n m h' = (X.row s).mat n m h := by
  ext i j
  simp only [ARef.mat, ARef.nd, ARef.row, hX, id, hs.rest s _ hst]

theorem RowSet.touch {X v : ARef} {t : ℕ} {h h' : Heap} (hs : RowSet X t v h h') :
    Touch {X.addr} h h' := ⟨hs.next.ge, fun a _ ha => hs.other a ha⟩

/-! ### Reading parameters -/

theorem ARef.mat_touch {F : Set ℕ} {h h' : Heap} (ht : Touch F h h') {r : ARef}
    (hr : r.addr < h.next) (hF : r.addr ∉ F) : r.mat n m h' = r.mat n m h := by
  simp only [ARef.mat, ARef.nd_touch ht hr hF]

theorem ARef.vec_touch {F : Set ℕ} {h h' : Heap} (ht : Touch F h h') {r : ARef}
    (hr : r.addr < h.next) (hF : r.addr ∉ F) : r.vec n h' = r.vec n h := by
  funext i
  simp only [ARef.vec, ARef.nd_touch ht hr hF]

theorem ARef.obs_touch {F : Set ℕ} {h h' : Heap} (ht : Touch F h h') {r : ARef}
    (hr : r.addr < h.next) (hF : r.addr ∉ F) : r.obs m h' = r.obs m h := by
  simp only [ARef.obs, ARef.ma_touch ht hr hF]

theorem ARef.row_vec_touch {F : Set ℕ} {h h' : Heap} (ht : Touch F h h') {X : ARef} {t : ℕ}
    (hr : X.addr < h.next) (hF : X.addr ∉ F) : (X.row t).vec n h' = (X.row t).vec n h :=
  ARef.vec_touch ht hr hF

theorem ARef.row_mat_touch {F : Set ℕ} {h h' : Heap} (ht : Touch F h h') {X : ARef} {t : ℕ}
    (hr : X.addr < h.next) (hF : X.addr ∉ F) : (X.row t).mat n m h' = (X.row t).mat n m h :=
  ARef.mat_touch ht hr hF

theorem lastDims_addr {X v : ARef} {t d : ℕ} (hv : X.lastDims t d = .ok v) : v.addr = X.addr := by
  unfold ARef.lastDims at hv
  split_ifs at hv <;> cases hv <;> rfl

theorem lastDims_mats {X : ARef} {h : Heap} {tv : TV (Mat n m)} (hX : (X.nd h).toMats n m = some tv)
    (t : ℕ) : lastDims tv t = (X.lastDims t 2).map (ARef.mat n m h) := by
  unfold NDArray.toMats at hX
  have hs : (X.nd h).shape = X.shape := rfl
  rw [hs] at hX
  split at hX
  · rename_i hsh
    cases hX
    simp [lastDims, ARef.lastDims, hsh, Except.map, ARef.mat]
  · split at hX
    · rename_i T n' m' hsh
      split at hX
      · cases hX
        by_cases ht : t < T
        · simp [lastDims, ARef.lastDims, hsh, Except.map, ARef.mat, ht, ARef.row, ARef.nd]
        · simp [lastDims, ARef.lastDims, hsh, Except.map, ht]
      · cases hX
    · cases hX

theorem lastDims_vecs {X : ARef} {h : Heap} {tv : TV (Vec n)} (hX : (X.nd h).toVecs n = some tv)
    (t : ℕ) : lastDims tv t = (X.lastDims t 1).map (ARef.vec n h) := by
  unfold NDArray.toVecs at hX
  have hs : (X.nd h).shape = X.shape := rfl
  rw [hs] at hX
  split at hX
  · rename_i hsh
    cases hX
    simp [lastDims, ARef.lastDims, hsh, Except.map]
    rfl
  · split at hX
    · rename_i T n' hsh
      split at hX
      · cases hX
        by_cases ht : t < T
        · simp [lastDims, ARef.lastDims, hsh, Except.map, ht]
          rfl
        · simp [lastDims, ARef.lastDims, hsh, Except.map, ht]
      · cases hX
    · cases hX

/-- The arrays as values, at present. -/
def PRefs.value (h : Heap) (p : PRefs) : Resolved :=
  ⟨p.A.nd h, p.b.nd h, p.Q.nd h, p.C.nd h, p.d.nd h, p.R.nd h, p.mu0.nd h, p.S0.nd h⟩

/-- The arrays hold the parameters `P`, in blocks in use outside `F`. -/
structure PRefs.Holds (p : PRefs) (F : Set ℕ) (h : Heap) (P : Params n m) : Prop where
  A : (p.A.nd h).toMats n n = some P.A
  b : (p.b.nd h).toVecs n = some P.b
  Q : (p.Q.nd h).toMats n n = some P.Q
  C : (p.C.nd h).toMats m n = some P.C
  d : (p.d.nd h).toVecs m = some P.d
  R : (p.R.nd h).toMats m m = some P.R
  mu0 : (p.mu0.nd h).toVec n = some P.mu0
  S0 : (p.S0.nd h).toMat n n = some P.S0
  valid : ∀ r ∈ [p.A, p.b, p.Q, p.C, p.d, p.R, p.mu0, p.S0], r.addr < h.next ∧ r.addr ∉ F

theorem PRefs.Holds.touch {p : PRefs} {F : Set ℕ} {h h' : Heap} {P : Params n m}
    (hp : p.Holds F h P) (ht : Touch F h h') : p.Holds F h' P := by
  have key : ∀ r ∈ [p.A, p.b, p.Q, p.C, p.d, p.R, p.mu0, p.S0], r.nd h' = r.nd h := fun r hr =>
    ARef.nd_touch ht (hp.valid r hr).1 (hp.valid r hr).2
  refine ⟨?_, ?_, ?_, ?_, ?_, ?_, ?_, ?_, fun r hr =>
    ⟨(hp.valid r hr).1.trans_le ht.next, (hp.valid r hr).2⟩⟩
  · rw [key _ (by simp)]; exact hp.A
  · rw [key _ (by simp)]; exact hp.b
  · rw [key _ (by simp)]; exact hp.Q
  · rw [key _ (by simp)]; exact hp.C
  · rw [key _ (by simp)]; exact hp.d
  · rw [key _ (by simp)]; exact hp.R
  · rw [key _ (by simp)]; exact hp.mu0
  · rw [key _ (by simp)]; exact hp.S0

theorem typed_holds {r : Resolved} {P : Params n m} (h : r.typed n m = some P) :
    r.A.toMats n n = some P.A ∧ r.b.toVecs n = some P.b ∧ r.Q.toMats n n = some P.Q ∧
    r.C.toMats m n = some P.C ∧ r.d.toVecs m = some P.d ∧ r.R.toMats m m = some P.R ∧
    r.mu0.toVec n = some P.mu0 ∧ r.S0.toMat n n = some P.S0 := by
  simp only [Resolved.typed, Option.bind_eq_bind, Option.bind_eq_some_iff, Option.pure_def,
    Option.some.injEq] at h
  obtain ⟨A, h1, b, h2, Q, h3, C, h4, d, h5, R, h6, mu, h7, S, h8, rfl⟩ := h
  exact ⟨h1, h2, h3, h4, h5, h6, h7, h8⟩

/-! ### The steps -/

theorem Fresh.vec {v : Vec n} {h h' : Heap} {r : ARef} (f : Fresh (ndOfVec v) h r h') :
    r.vec n h' = v := by
  funext i
  simp only [ARef.vec, f.nd]
  simp [ndOfVec]

theorem Fresh.mat {M : Mat n m} {h h' : Heap} {r : ARef} (f : Fresh (ndOfMat M) h r h') :
    r.mat n m h' = M := by
  ext i j
  simp only [ARef.mat, f.nd, Matrix.of_apply]
  simp [ndOfMat]

theorem runs_memPredict {A Q b mean cov : ARef} {h : Heap} {f : ARef × ARef → HM β}
    {post : Res β → Heap → Prop}
    (hf : ∀ r h', Touch ∅ h h' → (h.next ≤ r.1.addr ∧ r.1.addr < h'.next) →
      (h.next ≤ r.2.addr ∧ r.2.addr < h'.next) → r.1.addr ≠ r.2.addr →
      (r.1.vec n h', r.2.mat n n h') = filterPredict (A.mat n n h) (Q.mat n n h) (b.vec n h)
        (mean.vec n h) (cov.mat n n h) → Runs (f r) h' post) :
    Runs (memPredict n A Q b mean cov >>= f) h post := by
  have e : (memPredict n A Q b mean cov >>= f) =
      (HM.see fun h => filterPredict (A.mat n n h) (Q.mat n n h) (b.vec n h) (mean.vec n h)
        (cov.mat n n h)) >>= fun v => newArray (ndOfVec v.1) >>= fun mean' =>
        newArray (ndOfMat v.2) >>= fun cov' => f (mean', cov') := by
    funext h
    rfl
  rw [e]
  refine runs_seeing (runs_new fun v1 h1 f1 => runs_new fun v2 h2 f2 => ?_)
  have t1 := f1.touch
  have a1 := f1.addr
  have a2 := f2.addr
  have n1 := f1.next
  have n2 := f2.next
  refine hf _ _ (f1.touch.trans f2.touch) ⟨?_, ?_⟩ ⟨?_, ?_⟩ ?_ ?_
  · simp only; omega
  · simp only; omega
  · simp only; omega
  · simp only; omega
  · simp only; omega
  · refine Prod.ext ?_ ?_
    · simp only
      rw [ARef.vec_touch f2.touch (by omega) (by simp), f1.vec]
    · simp only
      rw [f2.mat]

theorem runs_memCorrect {C R d mean cov o : ARef} {h : Heap} {f : ARef × ARef × ARef → HM β}
    {post : Res β → Heap → Prop} (hmean : mean.addr < h.next) (hcov : cov.addr < h.next)
    (hf : ∀ r h', Touch ∅ h h' → (h.next ≤ r.1.addr ∧ r.1.addr < h'.next) →
      (r.2.1.addr = mean.addr ∨ h.next ≤ r.2.1.addr) → r.2.1.addr < h'.next →
      (r.2.2.addr = cov.addr ∨ h.next ≤ r.2.2.addr) → r.2.2.addr < h'.next →
      (r.1.mat n m h', r.2.1.vec n h', r.2.2.mat n n h') = filterCorrect (C.mat m n h) (R.mat m m h)
        (d.vec m h) (mean.vec n h) (cov.mat n n h) (o.obs m h) → Runs (f r) h' post) :
    Runs (memCorrect n m C R d mean cov o >>= f) h post := by
  by_cases hm : (o.obs m h).missing
  · have e : (memCorrect n m C R d mean cov o >>= f) h =
        (newZeros [n, m] >>= fun g => f (g, mean, cov)) h := by
      change (bind (bind (HM.see fun h => decide (o.obs m h).missing) _) f) h = _
      simp only [Bind.bind, HM.see, hm]
      rfl
    unfold Runs
    rw [e]
    refine runs_new fun g h1 f1 => ?_
    have a1 := f1.addr
    have n1 := f1.next
    refine hf _ _ f1.touch ⟨by simp only; omega, by simp only; omega⟩ (.inl rfl) (by simp only; omega)
      (.inl rfl) (by simp only; omega) ?_
    have hg : g.mat n m h1 = 0 := by
      ext i j
      simp [ARef.mat, f1.nd]
    simp only
    rw [ARef.vec_touch f1.touch hmean (by simp), ARef.mat_touch f1.touch hcov (by simp), hg]
    simp [filterCorrect, hm]
  · obtain ⟨v, hv⟩ : ∃ v, v = filterCorrect (C.mat m n h) (R.mat m m h)
        (d.vec m h) (mean.vec n h) (cov.mat n n h) (o.obs m h) := ⟨_, rfl⟩
    have e : (memCorrect n m C R d mean cov o >>= f) h =
        (newArray (ndOfMat v.1) >>= fun g => newArray (ndOfVec v.2.1) >>= fun a =>
          newArray (ndOfMat v.2.2) >>= fun b => f (g, a, b)) h := by
      rw [hv]
      change (bind (bind (HM.see fun h => decide (o.obs m h).missing) _) f) h = _
      simp only [Bind.bind, HM.see, hm]
      rfl
    unfold Runs
    rw [e]
    refine runs_new fun g h1 f1 => runs_new fun a h2 f2 => runs_new fun b h3 f3 => ?_
    have a1 := f1.addr
    have n1 := f1.next
    have a2 := f2.addr
    have n2 := f2.next
    have a3 := f3.addr
    have n3 := f3.next
    refine hf _ _ (f1.touch.trans (f2.touch.trans f3.touch)) ⟨?_, ?_⟩ (.inr ?_) ?_ (.inr ?_) ?_ ?_
    · simp only; omega
    · simp only; omega
    · simp only; omega
    · simp only; omega
    · simp only; omega
    · simp only; omega
    · simp only
      rw [ARef.vec_touch f3.touch (by omega) (by simp), f2.vec, f3.mat,
        ARef.mat_touch (f2.touch.trans f3.touch) (by omega) (by simp), f1.mat, hv]

/-- The arrays of `_filter` are different and in use, and none is a view. -/
structure FRefs.Ok (f : FRefs) (h : Heap) : Prop where
  ix : ∀ r ∈ [f.predMeans, f.predCovs, f.gains, f.filtMeans, f.filtCovs], r.ix = id
  valid : ∀ r ∈ [f.predMeans, f.predCovs, f.gains, f.filtMeans, f.filtCovs], r.addr < h.next
  distinct : ([f.predMeans, f.predCovs, f.gains, f.filtMeans, f.filtCovs].map ARef.addr).Nodup

theorem FRefs.Ok.touch {f : FRefs} {F : Set ℕ} {h h' : Heap} (hf : f.Ok h) (ht : Touch F h h') :
    f.Ok h' := ⟨hf.ix, fun r hr => (hf.valid r hr).trans_le ht.next, hf.distinct⟩

/-- Row `t` of the five arrays, at present. -/
def FRefs.at (f : FRefs) (h : Heap) (t : ℕ) : Step n m :=
  ⟨(f.predMeans.row t).vec n h, (f.predCovs.row t).mat n n h, (f.gains.row t).mat n m h,
   (f.filtMeans.row t).vec n h, (f.filtCovs.row t).mat n n h⟩

theorem ARef.row_addr (r : ARef) (t : ℕ) : (r.row t).addr = r.addr := rfl

theorem ok_map (f : α → β) (a : α) : (Except.ok a : Res α).map f = .ok (f a) := rfl
theorem error_map (f : α → β) (e : Err) : (Except.error e : Res α).map f = .error e := rfl

/-- First half of the body of the loop. -/
theorem runs_memFilterPred {p : PRefs} {f : FRefs} {h : Heap} {P : Params n m} (hf : f.Ok h)
    (hp : p.Holds f.addrs h P) (t : ℕ) :
    Runs (memFilterPred n p f t) h fun r h' => Touch f.addrs h h' ∧
      (∀ s, s ≠ t → f.at (n := n) (m := m) h' s = f.at h s) ∧
      (if t = 0 then pure (P.mu0, P.S0) else do
        let A ← lastDims P.A (t - 1)
        let Q ← lastDims P.Q (t - 1)
        let b ← lastDims P.b (t - 1)
        pure (filterPredict A Q b (f.at (n := n) (m := m) h (t - 1)).filtMean
          (f.at (n := n) (m := m) h (t - 1)).filtCov)) =
      r.map fun _ => ((f.at (n := n) (m := m) h' t).predMean,
        (f.at (n := n) (m := m) h' t).predCov) := by
  have hd := hf.distinct
  simp only [List.map_cons, List.map_nil, List.nodup_cons, List.mem_cons, List.not_mem_nil,
    or_false, not_or, not_false_eq_true, List.nodup_nil, and_true] at hd
  obtain ⟨⟨d12, d13, d14, d15⟩, ⟨d23, d24, d25⟩, ⟨d34, d35⟩, d45⟩ := hd
  have i1 := hf.ix f.predMeans (by simp)
  have i2 := hf.ix f.predCovs (by simp)
  have m1 : f.predMeans.addr ∈ f.addrs := by simp [FRefs.addrs]
  have m2 : f.predCovs.addr ∈ f.addrs := by simp [FRefs.addrs]
  -- two assignments
  have key : ∀ (h₁ : Heap) (v w : ARef), Touch f.addrs h h₁ →
      (∀ s, f.at (n := n) (m := m) h₁ s = f.at h s) → w.addr < h₁.next → w.addr ≠ f.predMeans.addr →
      Runs (setRow f.predMeans t v >>= fun _ => setRow f.predCovs t w) h₁ fun r h' =>
        Touch f.addrs h h' ∧ (∀ s, s ≠ t → f.at (n := n) (m := m) h' s = f.at h s) ∧
        Except.ok (v.vec n h₁, w.mat n n h₁) = r.map fun _ =>
          ((f.at (n := n) (m := m) h' t).predMean, (f.at (n := n) (m := m) h' t).predCov) := by
    intro h₁ v w ht hat hw hwne
    refine runs_setting fun h₂ s₂ => runs_set fun h₃ s₃ => ⟨?_, ?_, ?_⟩
    · exact ht.trans ((s₂.touch.mono (by simpa using m1)).trans (s₃.touch.mono (by simpa using m2)))
    · intro s hs
      have v2 : ∀ r ∈ [f.predMeans, f.predCovs, f.gains, f.filtMeans, f.filtCovs],
          r.addr < h₁.next := fun r hr => (hf.valid r hr).trans_le ht.next
      have v3 : ∀ r ∈ [f.predMeans, f.predCovs, f.gains, f.filtMeans, f.filtCovs],
          r.addr < h₂.next := fun r hr => (v2 r hr).trans_le s₂.next.ge
      rw [← hat s]
      simp only [FRefs.at, Step.mk.injEq]
      refine ⟨?_, ?_, ?_, ?_, ?_⟩
      · rw [ARef.row_vec_touch s₃.touch (v3 _ (by simp)) (by simpa using d12),
          s₂.vec_rest i1 hs]
      · rw [s₃.mat_rest i2 hs,
          ARef.row_mat_touch s₂.touch (v2 _ (by simp)) (by simpa using Ne.symm d12)]
      · rw [ARef.row_mat_touch s₃.touch (v3 _ (by simp)) (by simpa using Ne.symm d23),
          ARef.row_mat_touch s₂.touch (v2 _ (by simp)) (by simpa using Ne.symm d13)]
      · rw [ARef.row_vec_touch s₃.touch (v3 _ (by simp)) (by simpa using Ne.symm d24),
          ARef.row_vec_touch s₂.touch (v2 _ (by simp)) (by simpa using Ne.symm d14)]
      · rw [ARef.row_mat_touch s₃.touch (v3 _ (by simp)) (by simpa using Ne.symm d25),
          ARef.row_mat_touch s₂.touch (v2 _ (by simp)) (by simpa using Ne.symm d15)]
    · rw [ok_map]
      congr 1
      have hv1 : f.predMeans.addr < h₂.next :=
        ((hf.valid _ (by simp)).trans_le ht.next).trans_le s₂.next.ge
      refine Prod.ext ?_ ?_
      · simp only [FRefs.at]
        rw [ARef.row_vec_touch s₃.touch hv1 (by simpa using d12), s₂.vec i1]
      · simp only [FRefs.at]
        rw [s₃.mat i2, ARef.mat_touch s₂.touch hw (by simpa using hwne)]
  unfold memFilterPred
  by_cases ht : t = 0
  · rw [if_pos ht]
    simp only [if_pos ht]
    have hv := hp.valid p.S0 (by simp)
    refine (key h p.mu0 p.S0 (Touch.refl _ _) (fun _ => rfl) hv.1 fun e => hv.2 (e ▸ m1)).imp
      fun r h' hr => ⟨hr.1, hr.2.1, ?_⟩
    rw [← hr.2.2]
    have e1 := hp.mu0
    have e2 := hp.S0
    simp only [NDArray.toVec, NDArray.toMat] at e1 e2
    split_ifs at e1 e2
    cases P
    simp only [Option.some.injEq] at e1 e2
    subst e1 e2
    rfl
  · rw [if_neg ht]
    simp only [if_neg ht]
    rw [lastDims_mats hp.A, lastDims_mats hp.Q, lastDims_vecs hp.b]
    rcases hA : p.A.lastDims (t - 1) 2 with e | A
    · exact ⟨Touch.refl _ _, fun _ _ => rfl, rfl⟩
    rcases hQ : p.Q.lastDims (t - 1) 2 with e | Q
    · exact ⟨Touch.refl _ _, fun _ _ => rfl, rfl⟩
    rcases hb : p.b.lastDims (t - 1) 1 with e | b
    · exact ⟨Touch.refl _ _, fun _ _ => rfl, rfl⟩
    change Runs (memPredict n A Q b (f.filtMeans.row (t - 1)) (f.filtCovs.row (t - 1)) >>= fun r =>
      setRow f.predMeans t r.1 >>= fun _ => setRow f.predCovs t r.2) h _
    refine runs_memPredict fun r h₁ t₁ a1 a2 _ hval => ?_
    refine (key h₁ r.1 r.2 (t₁.mono (Set.empty_subset _)) (fun s => ?_) a2.2 ?_).imp
      fun r' h' hr => ⟨hr.1, hr.2.1, ?_⟩
    · simp only [FRefs.at, Step.mk.injEq]
      refine ⟨?_, ?_, ?_, ?_, ?_⟩
      · exact ARef.row_vec_touch (X := _) t₁ (hf.valid _ (by simp)) (by simp)
      · exact ARef.row_mat_touch t₁ (hf.valid _ (by simp)) (by simp)
      · exact ARef.row_mat_touch t₁ (hf.valid _ (by simp)) (by simp)
      · exact ARef.row_vec_touch (X := _) t₁ (hf.valid _ (by simp)) (by simp)
      · exact ARef.row_mat_touch t₁ (hf.valid _ (by simp)) (by simp)
    · have := hf.valid f.predMeans (by simp)
      omega
    · rw [← hr.2.2, hval]
      rfl

/-- Second half of the body of the loop. -/
theorem runs_memFilterCorr {p : PRefs} {f : FRefs} {Z : ARef} {h : Heap} {P : Params n m}
    (hf : f.Ok h) (hp : p.Holds f.addrs h P) (t : ℕ) :
    Runs (memFilterCorr n m p f Z t) h fun r h' => Touch f.addrs h h' ∧
      (∀ s, s ≠ t → f.at (n := n) (m := m) h' s = f.at h s) ∧
      (do
        let C ← lastDims P.C t
        let R ← lastDims P.R t
        let d ← lastDims P.d t
        let a := f.at (n := n) (m := m) h t
        let c := filterCorrect C R d a.predMean a.predCov ((Z.row t).obs m h)
        pure ⟨a.predMean, a.predCov, c.1, c.2.1, c.2.2⟩) =
      r.map fun _ => f.at (n := n) (m := m) h' t := by
  have hd := hf.distinct
  simp only [List.map_cons, List.map_nil, List.nodup_cons, List.mem_cons, List.not_mem_nil,
    or_false, not_or, not_false_eq_true, List.nodup_nil, and_true] at hd
  obtain ⟨⟨d12, d13, d14, d15⟩, ⟨d23, d24, d25⟩, ⟨d34, d35⟩, d45⟩ := hd
  have i3 := hf.ix f.gains (by simp)
  have i4 := hf.ix f.filtMeans (by simp)
  have i5 := hf.ix f.filtCovs (by simp)
  have m3 : f.gains.addr ∈ f.addrs := by simp [FRefs.addrs]
  have m4 : f.filtMeans.addr ∈ f.addrs := by simp [FRefs.addrs]
  have m5 : f.filtCovs.addr ∈ f.addrs := by simp [FRefs.addrs]
  rw [lastDims_mats hp.C, lastDims_mats hp.R, lastDims_vecs hp.d]
  unfold memFilterCorr
  rcases hC : p.C.lastDims t 2 with e | C
  · exact ⟨Touch.refl _ _, fun _ _ => rfl, rfl⟩
  rcases hR : p.R.lastDims t 2 with e | R
  · exact ⟨Touch.refl _ _, fun _ _ => rfl, rfl⟩
  rcases hb : p.d.lastDims t 1 with e | d
  · exact ⟨Touch.refl _ _, fun _ _ => rfl, rfl⟩
  have w : ∀ r ∈ [f.predMeans, f.predCovs, f.gains, f.filtMeans, f.filtCovs], r.addr < h.next :=
    hf.valid
  have w1 := w f.predMeans (by simp)
  have w2 := w f.predCovs (by simp)
  have w3 := w f.gains (by simp)
  have w4 := w f.filtMeans (by simp)
  have w5 := w f.filtCovs (by simp)
  change Runs (memCorrect n m C R d (f.predMeans.row t) (f.predCovs.row t) (Z.row t) >>= fun r =>
    setRow f.gains t r.1 >>= fun _ => setRow f.filtMeans t r.2.1 >>= fun _ =>
      setRow f.filtCovs t r.2.2) h _
  refine runs_memCorrect (f.predMeans.row_addr t ▸ w1) (f.predCovs.row_addr t ▸ w2)
    fun r h₁ t₁ a1 b1 c1 b2 c2 hval => ?_
  rw [ARef.row_addr] at b1 b2
  refine runs_setting fun h₂ s₂ => runs_setting fun h₃ s₃ => runs_set fun h₄ s₄ => ?_
  have n2 := s₂.next
  have n3 := s₃.next
  have n4 := s₄.next
  have n1 := t₁.next
  -- the new arrays after the assignments
  have e2 : r.2.1.vec n h₂ = r.2.1.vec n h₁ :=
    ARef.vec_touch s₂.touch c1 (by
      rw [Set.mem_singleton_iff]
      rcases b1 with b1 | b1
      · rw [b1]; exact d13
      · omega)
  have e3 : r.2.2.mat n n h₃ = r.2.2.mat n n h₁ := by
    rw [ARef.mat_touch s₃.touch (by omega) (by
      rw [Set.mem_singleton_iff]
      rcases b2 with b2 | b2
      · rw [b2]; exact d24
      · omega), ARef.mat_touch s₂.touch c2 (by
      rw [Set.mem_singleton_iff]
      rcases b2 with b2 | b2
      · rw [b2]; exact d23
      · omega)]
  refine ⟨?_, ?_, ?_⟩
  · exact (t₁.mono (Set.empty_subset _)).trans ((s₂.touch.mono (by simpa using m3)).trans
      ((s₃.touch.mono (by simpa using m4)).trans (s₄.touch.mono (by simpa using m5))))
  · intro s hs
    simp only [FRefs.at, Step.mk.injEq]
    refine ⟨?_, ?_, ?_, ?_, ?_⟩
    · rw [ARef.row_vec_touch s₄.touch (by omega) (by simpa using d15),
        ARef.row_vec_touch s₃.touch (by omega) (by simpa using d14),
        ARef.row_vec_touch s₂.touch (by omega) (by simpa using d13),
        ARef.row_vec_touch t₁ w1 (by simp)]
    · rw [ARef.row_mat_touch s₄.touch (by omega) (by simpa using d25),
        ARef.row_mat_touch s₃.touch (by omega) (by simpa using d24),
        ARef.row_mat_touch s₂.touch (by omega) (by simpa using d23),
        ARef.row_mat_touch t₁ w2 (by simp)]
    · rw [ARef.row_mat_touch s₄.touch (by omega) (by simpa using d35),
        ARef.row_mat_touch s₃.touch (by omega) (by simpa using d34),
        s₂.mat_rest i3 hs, ARef.row_mat_touch t₁ w3 (by simp)]
    · rw [ARef.row_vec_touch s₄.touch (by omega) (by simpa using d45),
        s₃.vec_rest i4 hs,
        ARef.row_vec_touch s₂.touch (by omega) (by simpa using Ne.symm d34),
        ARef.row_vec_touch t₁ w4 (by simp)]
    · rw [s₄.mat_rest i5 hs,
        ARef.row_mat_touch s₃.touch (by omega) (by simpa using Ne.symm d45),
        ARef.row_mat_touch s₂.touch (by omega) (by simpa using Ne.symm d35),
        ARef.row_mat_touch t₁ w5 (by simp)]
  · change Except.ok _ = Except.ok _
    congr 1
    simp only [FRefs.at, Step.mk.injEq]
    rw [← hval]
    refine ⟨?_, ?_, ?_, ?_, ?_⟩
    · rw [ARef.row_vec_touch s₄.touch (by omega) (by simpa using d15),
        ARef.row_vec_touch s₃.touch (by omega) (by simpa using d14),
        ARef.row_vec_touch s₂.touch (by omega) (by simpa using d13),
        ARef.row_vec_touch t₁ w1 (by simp)]
    · rw [ARef.row_mat_touch s₄.touch (by omega) (by simpa using d25),
        ARef.row_mat_touch s₃.touch (by omega) (by simpa using d24),
        ARef.row_mat_touch s₂.touch (by omega) (by simpa using d23),
        ARef.row_mat_touch t₁ w2 (by simp)]
    · rw [ARef.row_mat_touch s₄.touch (by omega) (by simpa using d35),
        ARef.row_mat_touch s₃.touch (by omega) (by simpa using d34),
        s₂.mat i3]
    · rw [ARef.row_vec_touch s₄.touch (by omega) (by simpa using d45),
        s₃.vec i4, e2]
    · rw [s₄.mat i5, e3]

/-- The loop. -/
theorem runs_memFilterLoop {p : PRefs} {f : FRefs} {Z : ARef} {P : Params n m} :
    ∀ (k t : ℕ) (h : Heap), f.Ok h → p.Holds f.addrs h P → Z.addr < h.next → Z.addr ∉ f.addrs →
    Runs (memFilterLoop n m p f Z t k) h fun r h' => Touch f.addrs h h' ∧
      (∀ s, s < t → f.at (n := n) (m := m) h' s = f.at h s) ∧
      filterLoop P t (if t = 0 then none else some (f.at h (t - 1)))
        ((List.range' t k).map fun s => (Z.row s).obs m h) =
      r.map fun _ => (List.range' t k).map fun s => f.at (n := n) (m := m) h' s
  | 0, t, h, _, _, _, _ => ⟨Touch.refl _ _, fun _ _ => rfl, rfl⟩
  | k + 1, t, h, hf, hp, hZ, hZF => by
    have hstep : ∀ (prev : Option (Step n m)), (prev = none ∧ t = 0) ∨
        (prev = some (f.at h (t - 1)) ∧ t ≠ 0) → ∀ o,
        filterStep P t prev o = (do
          let pred ← (if t = 0 then pure (P.mu0, P.S0) else do
            let A ← lastDims P.A (t - 1)
            let Q ← lastDims P.Q (t - 1)
            let b ← lastDims P.b (t - 1)
            pure (filterPredict A Q b (f.at (n := n) (m := m) h (t - 1)).filtMean
              (f.at (n := n) (m := m) h (t - 1)).filtCov))
          let C ← lastDims P.C t
          let R ← lastDims P.R t
          let d ← lastDims P.d t
          let c := filterCorrect C R d pred.1 pred.2 o
          pure ⟨pred.1, pred.2, c.1, c.2.1, c.2.2⟩) := by
      rintro prev (⟨rfl, ht⟩ | ⟨rfl, ht⟩) o
      · rw [if_pos ht]; rfl
      · rw [if_neg ht]
        simp only [filterStep]
        rcases lastDims P.A (t - 1) with e | A
        · rfl
        rcases lastDims P.Q (t - 1) with e | Q
        · rfl
        rcases lastDims P.b (t - 1) with e | b <;> rfl
    have hprev : ((if t = 0 then none else some (f.at h (t - 1)) : Option (Step n m)) = none ∧ t = 0) ∨
        ((if t = 0 then none else some (f.at h (t - 1)) : Option (Step n m)) =
          some (f.at h (t - 1)) ∧ t ≠ 0) := by
      by_cases ht : t = 0
      · exact .inl ⟨if_pos ht, ht⟩
      · exact .inr ⟨if_neg ht, ht⟩
    rw [List.range'_succ, List.map_cons, filterLoop, hstep _ hprev]
    refine Runs.bind (runs_memFilterPred hf hp t) ?_ ?_
    · rintro u₁ h₁ ⟨t₁, a₁, e₁⟩
      rw [ok_map] at e₁
      rw [e₁]
      have hf₁ := hf.touch t₁
      have hp₁ := hp.touch t₁
      have hobs : ∀ s, (Z.row s).obs m h₁ = (Z.row s).obs m h := fun s =>
        ARef.obs_touch t₁ (r := Z.row s) hZ hZF
      refine Runs.bind (runs_memFilterCorr (Z := Z) hf₁ hp₁ t) ?_ ?_
      · rintro u₂ h₂ ⟨t₂, a₂, e₂⟩
        rw [ok_map, hobs t] at e₂
        refine (runs_memFilterLoop k (t + 1) h₂ (hf₁.touch t₂) (hp₁.touch t₂)
          (hZ.trans_le (t₁.trans t₂).next) hZF).imp fun r h₃ ⟨t₃, a₃, e₃⟩ => ?_
        refine ⟨t₁.trans (t₂.trans t₃), fun s hs => ?_, ?_⟩
        · rw [a₃ s (by omega), a₂ s (by omega), a₁ s (by omega)]
        · have hobs2 : ∀ s, (Z.row s).obs m h₂ = (Z.row s).obs m h := fun s =>
            ARef.obs_touch (t₁.trans t₂) (r := Z.row s) hZ hZF
          simp only [hobs2] at e₃
          rw [if_neg (Nat.succ_ne_zero t), Nat.add_sub_cancel] at e₃
          change (do
            let s ← (do
              let C ← lastDims P.C t
              let R ← lastDims P.R t
              let d ← lastDims P.d t
              let a := f.at (n := n) (m := m) h₁ t
              let c := filterCorrect C R d a.predMean a.predCov ((Z.row t).obs m h)
              pure ⟨a.predMean, a.predCov, c.1, c.2.1, c.2.2⟩ : Res (Step n m))
            let rest ← filterLoop P (t + 1) (some s)
              ((List.range' (t + 1) k).map fun s => (Z.row s).obs m h)
            pure (s :: rest)) = _
          rw [e₂]
          change (do
            let rest ← filterLoop P (t + 1) (some (f.at (n := n) (m := m) h₂ t))
              ((List.range' (t + 1) k).map fun s => (Z.row s).obs m h)
            pure (f.at (n := n) (m := m) h₂ t :: rest)) = _
          rw [e₃]
          cases r with
          | error e => rfl
          | ok u =>
            change Except.ok _ = Except.ok _
            rw [List.map_cons, a₃ t (by omega)]
      · rintro e h₂ ⟨t₂, a₂, e₂⟩
        rw [error_map, hobs t] at e₂
        refine ⟨t₁.trans t₂, fun s hs => ?_, ?_⟩
        · rw [a₂ s (by omega), a₁ s (by omega)]
        · change (do
            let s ← (do
              let C ← lastDims P.C t
              let R ← lastDims P.R t
              let d ← lastDims P.d t
              let a := f.at (n := n) (m := m) h₁ t
              let c := filterCorrect C R d a.predMean a.predCov ((Z.row t).obs m h)
              pure ⟨a.predMean, a.predCov, c.1, c.2.1, c.2.2⟩ : Res (Step n m))
            let rest ← filterLoop P (t + 1) (some s)
              ((List.range' (t + 1) k).map fun s => (Z.row s).obs m h)
            pure (s :: rest)) = _
          rw [e₂]
          rfl
    · rintro e h₁ ⟨t₁, a₁, e₁⟩
      rw [error_map] at e₁
      refine ⟨t₁, fun s hs => a₁ s (by omega), ?_⟩
      rw [e₁]
      rfl

/-- `_filter`: new arrays, whose rows are the rows of the filter on values. -/
theorem runs_memFilter {p : PRefs} {Z : ARef} {P : Params n m} {h : Heap}
    (hp : p.Holds ∅ h P) (hZ : Z.addr < h.next) (hm : Z.shape.drop 1 = [m]) :
    Runs (memFilter p Z) h fun r h' => Touch ∅ h h' ∧
      (∀ f, r = .ok f → f.Ok h' ∧ (∀ a ∈ f.addrs, h.next ≤ a) ∧
        f.predMeans.shape = [Z.shape.headD 0, n] ∧ f.predCovs.shape = [Z.shape.headD 0, n, n] ∧
        f.gains.shape = [Z.shape.headD 0, n, m] ∧
        f.filtMeans.shape = [Z.shape.headD 0, n] ∧ f.filtCovs.shape = [Z.shape.headD 0, n, n]) ∧
      filterFull P ((Z.ma h).rows m) =
        r.map fun f => (List.range (Z.shape.headD 0)).map fun s => f.at (n := n) (m := m) h' s := by
  have hn : p.mu0.shape.headD 0 = n := by
    have := hp.mu0
    simp only [NDArray.toVec] at this
    split_ifs at this with hs
    change p.mu0.shape = [n] at hs
    rw [hs]; rfl
  have hm' : Z.shape.getD 1 0 = m := by
    rcases hs : Z.shape with _ | ⟨a, _ | ⟨b, l⟩⟩ <;> rw [hs] at hm <;> simp_all
  unfold memFilter
  simp only [hn, hm']
  refine runs_new fun v1 h1 f1 => runs_new fun v2 h2 f2 => runs_new fun v3 h3 f3 =>
    runs_new fun v4 h4 f4 => runs_new fun v5 h5 f5 => ?_
  have a1 := f1.addr; have n1 := f1.next
  have a2 := f2.addr; have n2 := f2.next
  have a3 := f3.addr; have n3 := f3.next
  have a4 := f4.addr; have n4 := f4.next
  have a5 := f5.addr; have n5 := f5.next
  have t5 : Touch ∅ h h5 := f1.touch.trans (f2.touch.trans (f3.touch.trans (f4.touch.trans f5.touch)))
  obtain ⟨f, hfdef⟩ : ∃ f : FRefs, f = ⟨v1, v2, v3, v4, v5⟩ := ⟨_, rfl⟩
  have hF : ∀ a ∈ f.addrs, h.next ≤ a := by
    intro a ha
    rw [hfdef] at ha
    simp only [FRefs.addrs, Set.mem_insert_iff, Set.mem_singleton_iff] at ha
    omega
  have hok : f.Ok h5 := by
    rw [hfdef]
    refine ⟨?_, ?_, ?_⟩
    · intro r hr
      simp only [List.mem_cons, List.not_mem_nil, or_false] at hr
      rcases hr with rfl | rfl | rfl | rfl | rfl
      · exact f1.ix
      · exact f2.ix
      · exact f3.ix
      · exact f4.ix
      · exact f5.ix
    · intro r hr
      simp only [List.mem_cons, List.not_mem_nil, or_false] at hr
      rcases hr with rfl | rfl | rfl | rfl | rfl <;> omega
    · simp only [List.map_cons, List.map_nil, List.nodup_cons, List.mem_cons, List.not_mem_nil,
        or_false, not_or, not_false_eq_true, List.nodup_nil, and_true]
      omega
  have hp5 : p.Holds f.addrs h5 P := by
    have hp5 := hp.touch t5
    refine ⟨hp5.A, hp5.b, hp5.Q, hp5.C, hp5.d, hp5.R, hp5.mu0, hp5.S0, fun r hr =>
      ⟨(hp5.valid r hr).1, fun hr' => ?_⟩⟩
    have := hF _ hr'
    have := (hp.valid r hr).1
    omega
  have hZF : Z.addr ∉ f.addrs := fun ha => by
    have := hF _ ha
    omega
  rw [← hfdef]
  refine Runs.bind (runs_memFilterLoop (Z := Z) (Z.shape.headD 0) 0 h5 hok hp5 (hZ.trans_le t5.next)
    hZF) ?_ ?_
  · rintro u h6 ⟨t6, -, e6⟩
    refine runs_pure ⟨t5.fresh t6 hF, ?_, ?_⟩
    · rintro _ ⟨⟩
      rw [hfdef]
      refine ⟨hfdef ▸ hok.touch t6, hfdef ▸ hF, ?_⟩
      exact ⟨congrArg NDArray.shape f1.nd, congrArg NDArray.shape f2.nd,
        congrArg NDArray.shape f3.nd, congrArg NDArray.shape f4.nd, congrArg NDArray.shape f5.nd⟩
    · have hobs : ∀ s, (Z.row s).obs m h5 = (Z.row s).obs m h := fun s =>
        ARef.obs_touch t5 (r := Z.row s) hZ (by simp)
      simp only [hobs, ← List.range_eq_range', if_pos rfl] at e6
      exact e6
  · rintro e h6 ⟨t6, -, e6⟩
    refine ⟨t5.fresh t6 hF, fun f hf => (by cases hf), ?_⟩
    have hobs : ∀ s, (Z.row s).obs m h5 = (Z.row s).obs m h := fun s =>
      ARef.obs_touch t5 (r := Z.row s) hZ (by simp)
    simp only [hobs, ← List.range_eq_range', if_pos rfl] at e6
    exact e6

end Verif
