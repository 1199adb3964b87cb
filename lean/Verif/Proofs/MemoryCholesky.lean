import Verif.Model.MemoryCholesky
import Verif.Proofs.MemoryEm

/-! # The square root filter on arrays in memory computes the rows of the square root filter on
values -/

open Matrix

namespace Verif

variable {α β : Type} {n m : ℕ}

/-! ### Frames -/

theorem frame_memCholesky (F : Set ℕ) (k : ℕ) (X : ARef) (h : Heap) :
    Frame F (memCholesky k X) h :=
  (frame_see F _ h).bind fun _ _ _ => (frame_lift F _ _).bind fun _ _ _ => frame_newArray F _ _

theorem frame_memCholPredict (F : Set ℕ) (qr : QR) (n : ℕ) (A Q b mean cov : ARef) (h : Heap) :
    Frame F (memCholPredict qr n A Q b mean cov) h :=
  (frame_see F _ h).bind fun _ _ _ => (frame_newArray F _ _).bind fun _ _ _ =>
    (frame_newArray F _ _).bind fun _ _ _ => frame_pure F _ _

theorem frame_memCholCorrect (F : Set ℕ) (qr : QR) (n m : ℕ) (C R d mean cov o : ARef) (h : Heap) :
    Frame F (memCholCorrect qr n m C R d mean cov o) h := by
  refine (frame_see F _ h).bind fun missing h1 _ => ?_
  cases missing
  · exact (frame_see F _ _).bind fun _ _ _ => (frame_newArray F _ _).bind fun _ _ _ =>
      (frame_newArray F _ _).bind fun _ _ _ => frame_pure F _ _
  · exact frame_pure F _ _

/-- The addresses of the arrays of `_filter`. -/
def CRefs.addrs (c : CRefs) : Set ℕ :=
  {c.predMeans.addr, c.predCov2s.addr, c.filtMeans.addr, c.filtCov2s.addr}

theorem frame_memCholPred (qr : QR) (n : ℕ) (p : PRefs) (Q2 S2 : ARef) (c : CRefs) (t : ℕ)
    (h : Heap) : Frame c.addrs (memCholPred qr n p Q2 S2 c t) h := by
  have h1 : c.predMeans.addr ∈ c.addrs := by simp [CRefs.addrs]
  have h2 : c.predCov2s.addr ∈ c.addrs := by simp [CRefs.addrs]
  unfold memCholPred
  split
  · exact (frame_setRow h1 _ _ _).bind fun _ _ _ => frame_setRow h2 _ _ _
  · exact (frame_lift _ _ _).bind fun _ _ _ => (frame_lift _ _ _).bind fun _ _ _ =>
      (frame_memCholPredict _ _ _ _ _ _ _ _ _).bind fun _ _ _ =>
      (frame_setRow h1 _ _ _).bind fun _ _ _ => frame_setRow h2 _ _ _

theorem frame_memCholCorr (qr : QR) (n m : ℕ) (p : PRefs) (R2 : ARef) (c : CRefs) (Z : ARef)
    (t : ℕ) (h : Heap) : Frame c.addrs (memCholCorr qr n m p R2 c Z t) h := by
  have h2 : c.filtMeans.addr ∈ c.addrs := by simp [CRefs.addrs]
  have h3 : c.filtCov2s.addr ∈ c.addrs := by simp [CRefs.addrs]
  exact (frame_lift _ _ _).bind fun _ _ _ => (frame_lift _ _ _).bind fun _ _ _ =>
      (frame_memCholCorrect _ _ _ _ _ _ _ _ _ _ _).bind fun _ _ _ =>
      (frame_setRow h2 _ _ _).bind fun _ _ _ => frame_setRow h3 _ _ _

theorem frame_memCholLoop (qr : QR) (n m : ℕ) (p : PRefs) (Q2 R2 S2 : ARef) (c : CRefs) (Z : ARef) :
    ∀ (k t : ℕ) (h : Heap), Frame c.addrs (memCholLoop qr n m p Q2 R2 S2 c Z t k) h
  | 0, _, h => frame_pure _ _ h
  | k + 1, t, h => (frame_memCholPred qr n p Q2 S2 c t h).bind fun _ _ _ =>
      (frame_memCholCorr qr n m p R2 c Z t _).bind fun _ _ _ =>
      frame_memCholLoop qr n m p Q2 R2 S2 c Z k _ _

theorem frame_memCholFilter (qr : QR) (p : PRefs) (Z : ARef) (h : Heap) :
    Frame ∅ (memCholFilter qr p Z) h := by
  refine frame_new (Touch.refl _ h) fun v1 h1 t1 a1 => frame_new t1 fun v2 h2 t2 a2 =>
    frame_new t2 fun v3 h3 t3 a3 => frame_new t3 fun v4 h4 t4 a4 => ?_
  refine frame_then t4 (frame_memCholesky ∅ _ _ _) (by simp) fun _ _ t5 => ?_
  refine frame_then t5 (frame_memCholesky ∅ _ _ _) (by simp) fun _ _ t6 => ?_
  refine frame_then t6 (frame_memCholesky ∅ _ _ _) (by simp) fun _ _ t7 => ?_
  refine frame_then t7 (frame_memCholLoop _ _ _ _ _ _ _ ⟨v1, v2, v3, v4⟩ _ _ _ _) ?_
    fun _ h' t' => runs_pure t'
  intro a ha
  simp only [CRefs.addrs, Set.mem_insert_iff, Set.mem_singleton_iff] at ha
  omega

theorem frame_memReconstructLoop (n : ℕ) (cov2s covs : ARef) :
    ∀ (k t : ℕ) (h : Heap), Frame {covs.addr} (memReconstructLoop n cov2s covs t k) h
  | 0, _, h => frame_pure _ _ h
  | k + 1, t, h => (frame_see _ _ _).bind fun _ _ _ => (frame_newArray _ _ _).bind fun _ _ _ =>
      (frame_setRow (Set.mem_singleton _) _ _ _).bind fun _ _ _ =>
      frame_memReconstructLoop n cov2s covs k _ _

theorem frame_memReconstruct (cov2s : ARef) (h : Heap) : Frame ∅ (memReconstruct cov2s) h :=
  frame_new (Touch.refl _ h) fun v1 _ t1 a1 =>
    frame_then t1 (frame_memReconstructLoop _ _ v1 _ _ _) (by simpa using a1) fun _ _ t' =>
      runs_pure t'

theorem frame_cholFilter (qr : QR) (k : KFRef) (X : ARef) (h : Heap) :
    Frame ∅ (k.cholFilter qr X) h :=
  (frame_memInitialize k h).bind fun _ _ _ => (frame_memCholFilter _ _ _ _).bind fun _ _ _ =>
    (frame_memReconstruct _ _).bind fun _ _ _ => frame_pure _ _ _

theorem frame_cholSmooth (qr : QR) (k : KFRef) (X : ARef) (h : Heap) :
    Frame ∅ (k.cholSmooth qr X) h :=
  (frame_memInitialize k h).bind fun _ _ _ => (frame_memCholFilter _ _ _ _).bind fun _ _ _ =>
    (frame_memReconstruct _ _).bind fun _ _ _ => (frame_memReconstruct _ _).bind fun _ _ _ =>
    (frame_memSmooth _ _ _).bind fun _ _ _ => frame_pure _ _ _

theorem frame_cholLoglikelihood (qr : QR) (k : KFRef) (X : ARef) (h : Heap) :
    Frame ∅ (k.cholLoglikelihood qr X) h :=
  (frame_memInitialize k h).bind fun _ _ _ => (frame_memCholFilter _ _ _ _).bind fun _ _ _ =>
    (frame_memReconstruct _ _).bind fun _ _ _ => (frame_memLoglik _ _ _ _).bind fun _ _ _ =>
    frame_see _ _ _

theorem frame_memCholEmLoop (qr : QR) (n m : ℕ) (sel : EmVar → Bool) (given : PRefs) (Z : ARef) :
    ∀ (k : ℕ) (p : PRefs) (h : Heap), Frame ∅ (memCholEmLoop qr n m sel given Z k p) h
  | 0, _, _ => frame_pure _ _ _
  | k + 1, p, h => (frame_memCholFilter qr p Z h).bind fun _ _ _ => (frame_memReconstruct _ _).bind
      fun _ _ _ => (frame_memReconstruct _ _).bind fun _ _ _ => (frame_memSmooth _ _ _).bind
      fun _ _ _ => (frame_memPair _ _).bind fun _ _ _ => (frame_memEmStep _ _ _ _ _ _ _ _ _).bind
      fun _ _ _ => frame_memCholEmLoop qr n m sel given Z k _ _

theorem frame_cholEm (qr : QR) (k : KFRef) (X : ARef) (nIter : ℕ) (arg : Option EmNames) (h : Heap) :
    Frame ∅ (k.cholEm qr X nIter arg) h :=
  (frame_memInitialize k h).bind fun _ _ _ => (frame_lift _ _ _).bind fun _ _ _ =>
    (frame_memCholEmLoop _ _ _ _ _ _ _ _ _).bind fun _ _ _ => frame_pure _ _ _

theorem frame_cholFilterUpdate (qr : QR) (k : KFRef) (mean cov : ARef) (o : Option ARef)
    (a : UpdateRefs) (h : Heap) : Frame ∅ (k.cholFilterUpdate qr mean cov o a) h := by
  refine (frame_memInitialize k h).bind fun _ _ _ => (frame_lift _ _ _).bind fun _ _ _ =>
    (frame_lift _ _ _).bind fun _ _ _ => (frame_lift _ _ _).bind fun _ _ _ =>
    (frame_lift _ _ _).bind fun _ _ _ => (frame_lift _ _ _).bind fun _ _ _ =>
    (frame_lift _ _ _).bind fun _ _ _ => ?_
  cases o
  · exact (frame_newMasked _ _ _).bind fun _ _ _ => (frame_memCholesky _ _ _ _).bind fun _ _ _ =>
      (frame_memCholesky _ _ _ _).bind fun _ _ _ => (frame_memCholesky _ _ _ _).bind fun _ _ _ =>
      (frame_memCholPredict _ _ _ _ _ _ _ _ _).bind fun _ _ _ =>
      (frame_memCholCorrect _ _ _ _ _ _ _ _ _ _ _).bind fun _ _ _ =>
      (frame_memReconstruct _ _).bind fun _ _ _ => frame_pure _ _ _
  · exact (frame_pure _ _ _).bind fun _ _ _ => (frame_memCholesky _ _ _ _).bind fun _ _ _ =>
      (frame_memCholesky _ _ _ _).bind fun _ _ _ => (frame_memCholesky _ _ _ _).bind fun _ _ _ =>
      (frame_memCholPredict _ _ _ _ _ _ _ _ _).bind fun _ _ _ =>
      (frame_memCholCorrect _ _ _ _ _ _ _ _ _ _ _).bind fun _ _ _ =>
      (frame_memReconstruct _ _).bind fun _ _ _ => frame_pure _ _ _

/-! ### The steps -/

theorem cholParam_mats {X : ARef} {h : Heap} {k : ℕ} {tv : TV (Mat k k)}
    (hX : (X.nd h).toMats k k = some tv) :
    cholParam tv = if X.shape.length = 2 then cholesky (X.mat k k h) else .error .valueError := by
  rcases length_of_toMats hX with ⟨hl, rfl⟩ | ⟨hl, l, rfl⟩
  · rw [if_pos hl]; rfl
  · rw [if_neg hl]; rfl

theorem cholesky_mat {X : ARef} {h : Heap} {k : ℕ} {M : Mat k k}
    (hX : (X.nd h).toMat k k = some M) :
    cholesky M = if X.shape.length = 2 then cholesky (X.mat k k h) else .error .valueError := by
  simp only [NDArray.toMat] at hX
  split_ifs at hX with hs
  cases hX
  change X.shape = [k, k] at hs
  rw [if_pos (by simp [hs])]
  rfl

theorem runs_memCholesky {k : ℕ} {X : ARef} {h : Heap} {f : ARef → HM β}
    {post : Res β → Heap → Prop} {r : Res (Mat k k)}
    (hr : r = if X.shape.length = 2 then cholesky (X.mat k k h) else .error .valueError)
    (hok : ∀ L a h', r = .ok L → Fresh (ndOfMat L) h a h' → Runs (f a) h' post)
    (herr : ∀ e, r = .error e → post (.error e) h) : Runs (memCholesky k X >>= f) h post := by
  have e : (memCholesky k X >>= f) h = (HM.lift r >>= fun L => newArray (ndOfMat L) >>= f) h := by
    rw [hr]
    simp only [memCholesky, Bind.bind, HM.see, HM.lift]
    split_ifs
    · cases cholesky (X.mat k k h) <;> rfl
    · rfl
  exact Runs.congr e (runs_lifted (fun L hL => runs_new fun a h' fa => hok L a h' hL fa) herr)

theorem runs_memCholPredict {qr : QR} {A Q b mean cov : ARef} {h : Heap} {f : ARef × ARef → HM β}
    {post : Res β → Heap → Prop}
    (hf : ∀ r h', Touch ∅ h h' → (h.next ≤ r.1.addr ∧ r.1.addr < h'.next) →
      (h.next ≤ r.2.addr ∧ r.2.addr < h'.next) → r.1.addr ≠ r.2.addr → r.2.shape = [n, n] →
      (r.1.vec n h', r.2.mat n n h') = cholPredict qr (A.mat n n h) (Q.mat n n h) (b.vec n h)
        (mean.vec n h) (cov.mat n n h) → Runs (f r) h' post) :
    Runs (memCholPredict qr n A Q b mean cov >>= f) h post := by
  have e : (memCholPredict qr n A Q b mean cov >>= f) =
      (HM.see fun h => cholPredict qr (A.mat n n h) (Q.mat n n h) (b.vec n h) (mean.vec n h)
        (cov.mat n n h)) >>= fun v => newArray (ndOfVec v.1) >>= fun mean' =>
        newArray (ndOfMat v.2) >>= fun cov' => f (mean', cov') := by
    funext h
    rfl
  rw [e]
  refine runs_seeing (runs_new fun v1 h1 f1 => runs_new fun v2 h2 f2 => ?_)
  have a1 := f1.addr
  have a2 := f2.addr
  have n1 := f1.next
  have n2 := f2.next
  refine hf _ _ (f1.touch.trans f2.touch) ⟨?_, ?_⟩ ⟨?_, ?_⟩ ?_ (congrArg NDArray.shape f2.nd) ?_
  · simp only; omega
  · simp only; omega
  · simp only; omega
  · simp only; omega
  · simp only; omega
  · refine Prod.ext ?_ ?_
    · simp only
      rw [ARef.vec_touch f2.touch (by omega) (by simp), f1.vec]
    · simp only
      rw [f2.mat]

theorem runs_memCholCorrect {qr : QR} {C R d mean cov o : ARef} {h : Heap} {f : ARef × ARef → HM β}
    {post : Res β → Heap → Prop} (hmean : mean.addr < h.next) (hcov : cov.addr < h.next)
    (hf : ∀ r h', Touch ∅ h h' → (r.1.addr = mean.addr ∨ h.next ≤ r.1.addr) → r.1.addr < h'.next →
      (r.2.addr = cov.addr ∨ h.next ≤ r.2.addr) → r.2.addr < h'.next →
      (r.2 = cov ∨ r.2.shape = [n, n]) →
      (r.1.vec n h', r.2.mat n n h') = cholCorrect qr (C.mat m n h) (R.mat m m h)
        (d.vec m h) (mean.vec n h) (cov.mat n n h) (o.obs m h) → Runs (f r) h' post) :
    Runs (memCholCorrect qr n m C R d mean cov o >>= f) h post := by
  by_cases hm : (o.obs m h).missing
  · have e : (memCholCorrect qr n m C R d mean cov o >>= f) h = (f (mean, cov)) h := by
      change (bind (bind (HM.see fun h => decide (o.obs m h).missing) _) f) h = _
      simp only [Bind.bind, HM.see, hm]
      rfl
    refine Runs.congr e (hf _ _ (Touch.refl _ _) (.inl rfl) hmean (.inl rfl) hcov (.inl rfl) ?_)
    simp [cholCorrect, hm]
  · obtain ⟨v, hv⟩ : ∃ v, v = cholCorrect qr (C.mat m n h) (R.mat m m h)
        (d.vec m h) (mean.vec n h) (cov.mat n n h) (o.obs m h) := ⟨_, rfl⟩
    have e : (memCholCorrect qr n m C R d mean cov o >>= f) h =
        (newArray (ndOfVec v.1) >>= fun a => newArray (ndOfMat v.2) >>= fun b => f (a, b)) h := by
      rw [hv]
      change (bind (bind (HM.see fun h => decide (o.obs m h).missing) _) f) h = _
      simp only [Bind.bind, HM.see, hm]
      rfl
    refine Runs.congr e (runs_new fun a h2 f2 => runs_new fun b h3 f3 => ?_)
    have a2 := f2.addr
    have n2 := f2.next
    have a3 := f3.addr
    have n3 := f3.next
    refine hf _ _ (f2.touch.trans f3.touch) (.inr ?_) ?_ (.inr ?_) ?_
      (.inr (congrArg NDArray.shape f3.nd)) ?_
    · simp only; omega
    · simp only; omega
    · simp only; omega
    · simp only; omega
    · simp only
      rw [ARef.vec_touch f3.touch (by omega) (by simp), f2.vec, f3.mat, hv]

/-- The arrays of `_filter` are different and in use, and none is a view. -/
structure CRefs.Ok (c : CRefs) (h : Heap) : Prop where
  i1 : c.predMeans.ix = id
  i2 : c.predCov2s.ix = id
  i3 : c.filtMeans.ix = id
  i4 : c.filtCov2s.ix = id
  v1 : c.predMeans.addr < h.next
  v2 : c.predCov2s.addr < h.next
  v3 : c.filtMeans.addr < h.next
  v4 : c.filtCov2s.addr < h.next
  d12 : c.predMeans.addr ≠ c.predCov2s.addr
  d13 : c.predMeans.addr ≠ c.filtMeans.addr
  d14 : c.predMeans.addr ≠ c.filtCov2s.addr
  d23 : c.predCov2s.addr ≠ c.filtMeans.addr
  d24 : c.predCov2s.addr ≠ c.filtCov2s.addr
  d34 : c.filtMeans.addr ≠ c.filtCov2s.addr

theorem CRefs.Ok.touch {c : CRefs} {F : Set ℕ} {h h' : Heap} (hc : c.Ok h) (ht : Touch F h h') :
    c.Ok h' :=
  ⟨hc.i1, hc.i2, hc.i3, hc.i4, hc.v1.trans_le ht.next, hc.v2.trans_le ht.next,
    hc.v3.trans_le ht.next, hc.v4.trans_le ht.next, hc.d12, hc.d13, hc.d14, hc.d23, hc.d24, hc.d34⟩

/-- Row `t` of the four arrays, at present. -/
def CRefs.at (c : CRefs) (h : Heap) (t : ℕ) : CStep n :=
  ⟨(c.predMeans.row t).vec n h, (c.predCov2s.row t).mat n n h,
   (c.filtMeans.row t).vec n h, (c.filtCov2s.row t).mat n n h⟩

theorem CRefs.at_touch {F : Set ℕ} {h h' : Heap} (ht : Touch F h h') {c : CRefs} (hc : c.Ok h)
    (hF : ∀ a ∈ c.addrs, a ∉ F) (t : ℕ) : c.at (n := n) h' t = c.at h t := by
  simp only [CRefs.at, CStep.mk.injEq]
  exact ⟨ARef.row_vec_touch ht hc.v1 (hF _ (by simp [CRefs.addrs])),
    ARef.row_mat_touch ht hc.v2 (hF _ (by simp [CRefs.addrs])),
    ARef.row_vec_touch ht hc.v3 (hF _ (by simp [CRefs.addrs])),
    ARef.row_mat_touch ht hc.v4 (hF _ (by simp [CRefs.addrs]))⟩

/-- First half of the body of the loop. -/
theorem runs_memCholPred {qr : QR} {p : PRefs} {c : CRefs} {Q2 S2 : ARef} {h : Heap}
    {P : Params n m} (hc : c.Ok h) (hp : p.Holds c.addrs h P) (hS : S2.addr < h.next)
    (hSF : S2.addr ∉ c.addrs) (t : ℕ) :
    Runs (memCholPred qr n p Q2 S2 c t) h fun r h' => Touch c.addrs h h' ∧
      (∀ s, s ≠ t → c.at (n := n) h' s = c.at h s) ∧
      (if t = 0 then pure (P.mu0, S2.mat n n h) else do
        let A ← lastDims P.A (t - 1)
        let b ← lastDims P.b (t - 1)
        pure (cholPredict qr A (Q2.mat n n h) b (c.at (n := n) h (t - 1)).filtMean
          (c.at (n := n) h (t - 1)).filtCov2)) =
      r.map fun _ => ((c.at (n := n) h' t).predMean, (c.at (n := n) h' t).predCov2) := by
  have m1 : c.predMeans.addr ∈ c.addrs := by simp [CRefs.addrs]
  have m2 : c.predCov2s.addr ∈ c.addrs := by simp [CRefs.addrs]
  have key : ∀ (h₁ : Heap) (v w : ARef), Touch c.addrs h h₁ →
      (∀ s, c.at (n := n) h₁ s = c.at h s) → w.addr < h₁.next → w.addr ≠ c.predMeans.addr →
      Runs (setRow c.predMeans t v >>= fun _ => setRow c.predCov2s t w) h₁ fun r h' =>
        Touch c.addrs h h' ∧ (∀ s, s ≠ t → c.at (n := n) h' s = c.at h s) ∧
        Except.ok (v.vec n h₁, w.mat n n h₁) = r.map fun _ =>
          ((c.at (n := n) h' t).predMean, (c.at (n := n) h' t).predCov2) := by
    intro h₁ v w ht hat hw hwne
    refine runs_setting fun h₂ s₂ => runs_set fun h₃ s₃ => ⟨?_, ?_, ?_⟩
    · exact ht.trans ((s₂.touch.mono (by simpa using m1)).trans (s₃.touch.mono (by simpa using m2)))
    · intro s hs
      have c1 := hc.touch ht
      have c2 := c1.touch s₂.touch
      rw [← hat s]
      simp only [CRefs.at, CStep.mk.injEq]
      refine ⟨?_, ?_, ?_, ?_⟩
      · rw [ARef.row_vec_touch s₃.touch c2.v1 (by simpa using hc.d12), s₂.vec_rest hc.i1 hs]
      · rw [s₃.mat_rest hc.i2 hs,
          ARef.row_mat_touch s₂.touch c1.v2 (by simpa using Ne.symm hc.d12)]
      · rw [ARef.row_vec_touch s₃.touch c2.v3 (by simpa using Ne.symm hc.d23),
          ARef.row_vec_touch s₂.touch c1.v3 (by simpa using Ne.symm hc.d13)]
      · rw [ARef.row_mat_touch s₃.touch c2.v4 (by simpa using Ne.symm hc.d24),
          ARef.row_mat_touch s₂.touch c1.v4 (by simpa using Ne.symm hc.d14)]
    · rw [ok_map]
      congr 1
      refine Prod.ext ?_ ?_
      · simp only [CRefs.at]
        rw [ARef.row_vec_touch s₃.touch ((hc.touch ht).touch s₂.touch).v1 (by simpa using hc.d12),
          s₂.vec hc.i1]
      · simp only [CRefs.at]
        rw [s₃.mat hc.i2, ARef.mat_touch s₂.touch hw (by simpa using hwne)]
  unfold memCholPred
  by_cases ht : t = 0
  · rw [if_pos ht]
    simp only [if_pos ht]
    refine (key h p.mu0 S2 (Touch.refl _ _) (fun _ => rfl) hS fun e => hSF (e ▸ m1)).imp
      fun r h' hr => ⟨hr.1, hr.2.1, ?_⟩
    rw [← hr.2.2]
    have e1 := hp.mu0
    simp only [NDArray.toVec] at e1
    split_ifs at e1
    cases P
    simp only [Option.some.injEq] at e1
    subst e1
    rfl
  · rw [if_neg ht]
    simp only [if_neg ht]
    rw [lastDims_mats hp.A, lastDims_vecs hp.b]
    rcases hA : p.A.lastDims (t - 1) 2 with e | A
    · exact ⟨Touch.refl _ _, fun _ _ => rfl, rfl⟩
    rcases hb : p.b.lastDims (t - 1) 1 with e | b
    · exact ⟨Touch.refl _ _, fun _ _ => rfl, rfl⟩
    change Runs (memCholPredict qr n A Q2 b (c.filtMeans.row (t - 1)) (c.filtCov2s.row (t - 1)) >>=
      fun r => setRow c.predMeans t r.1 >>= fun _ => setRow c.predCov2s t r.2) h _
    refine runs_memCholPredict fun r h₁ t₁ a1 a2 _ _ hval => ?_
    refine (key h₁ r.1 r.2 (t₁.mono (Set.empty_subset _))
      (CRefs.at_touch t₁ hc (by simp)) a2.2 ?_).imp fun r' h' hr => ⟨hr.1, hr.2.1, ?_⟩
    · have := hc.v1
      omega
    · rw [← hr.2.2, hval]
      rfl

/-- Second half of the body of the loop. -/
theorem runs_memCholCorr {qr : QR} {p : PRefs} {c : CRefs} {Z R2 : ARef} {h : Heap}
    {P : Params n m} (hc : c.Ok h) (hp : p.Holds c.addrs h P) (t : ℕ) :
    Runs (memCholCorr qr n m p R2 c Z t) h fun r h' => Touch c.addrs h h' ∧
      (∀ s, s ≠ t → c.at (n := n) h' s = c.at h s) ∧
      (do
        let C ← lastDims P.C t
        let d ← lastDims P.d t
        let a := c.at (n := n) h t
        let v := cholCorrect qr C (R2.mat m m h) d a.predMean a.predCov2 ((Z.row t).obs m h)
        pure ⟨a.predMean, a.predCov2, v.1, v.2⟩) =
      r.map fun _ => c.at (n := n) h' t := by
  have m3 : c.filtMeans.addr ∈ c.addrs := by simp [CRefs.addrs]
  have m4 : c.filtCov2s.addr ∈ c.addrs := by simp [CRefs.addrs]
  rw [lastDims_mats hp.C, lastDims_vecs hp.d]
  unfold memCholCorr
  rcases hC : p.C.lastDims t 2 with e | C
  · exact ⟨Touch.refl _ _, fun _ _ => rfl, rfl⟩
  rcases hb : p.d.lastDims t 1 with e | d
  · exact ⟨Touch.refl _ _, fun _ _ => rfl, rfl⟩
  change Runs (memCholCorrect qr n m C R2 d (c.predMeans.row t) (c.predCov2s.row t) (Z.row t) >>=
    fun r => setRow c.filtMeans t r.1 >>= fun _ => setRow c.filtCov2s t r.2) h _
  refine runs_memCholCorrect (c.predMeans.row_addr t ▸ hc.v1) (c.predCov2s.row_addr t ▸ hc.v2)
    fun r h₁ t₁ b1 c1 b2 c2 _ hval => ?_
  rw [ARef.row_addr] at b1 b2
  refine runs_setting fun h₃ s₃ => runs_set fun h₄ s₄ => ?_
  have k1 := hc.touch t₁
  have k3 := k1.touch s₃.touch
  have w3 := hc.v3
  have e3 : r.2.mat n n h₃ = r.2.mat n n h₁ := by
    rw [ARef.mat_touch s₃.touch c2 (by
      rw [Set.mem_singleton_iff]
      rcases b2 with b2 | b2
      · rw [b2]; exact hc.d23
      · omega)]
  refine ⟨?_, ?_, ?_⟩
  · exact (t₁.mono (Set.empty_subset _)).trans
      ((s₃.touch.mono (by simpa using m3)).trans (s₄.touch.mono (by simpa using m4)))
  · intro s hs
    rw [← CRefs.at_touch t₁ hc (by simp) s]
    simp only [CRefs.at, CStep.mk.injEq]
    refine ⟨?_, ?_, ?_, ?_⟩
    · rw [ARef.row_vec_touch s₄.touch k3.v1 (by simpa using hc.d14),
        ARef.row_vec_touch s₃.touch k1.v1 (by simpa using hc.d13)]
    · rw [ARef.row_mat_touch s₄.touch k3.v2 (by simpa using hc.d24),
        ARef.row_mat_touch s₃.touch k1.v2 (by simpa using hc.d23)]
    · rw [ARef.row_vec_touch s₄.touch k3.v3 (by simpa using hc.d34), s₃.vec_rest hc.i3 hs]
    · rw [s₄.mat_rest hc.i4 hs, ARef.row_mat_touch s₃.touch k1.v4 (by simpa using Ne.symm hc.d34)]
  · change Except.ok _ = Except.ok _
    congr 1
    have hat := CRefs.at_touch (n := n) t₁ hc (by simp) t
    simp only [CRefs.at, CStep.mk.injEq] at hat ⊢
    rw [← hval]
    refine ⟨?_, ?_, ?_, ?_⟩
    · rw [ARef.row_vec_touch s₄.touch k3.v1 (by simpa using hc.d14),
        ARef.row_vec_touch s₃.touch k1.v1 (by simpa using hc.d13), hat.1]
    · rw [ARef.row_mat_touch s₄.touch k3.v2 (by simpa using hc.d24),
        ARef.row_mat_touch s₃.touch k1.v2 (by simpa using hc.d23), hat.2.1]
    · rw [ARef.row_vec_touch s₄.touch k3.v3 (by simpa using hc.d34), s₃.vec hc.i3]
    · rw [s₄.mat hc.i4, e3]

/-- The loop. -/
theorem runs_memCholLoop {qr : QR} {p : PRefs} {c : CRefs} {Z Q2 R2 S2 : ARef} {P : Params n m}
    {Q' S' : Mat n n} {R' : Mat m m} :
    ∀ (k t : ℕ) (h : Heap), c.Ok h → p.Holds c.addrs h P → Z.addr < h.next → Z.addr ∉ c.addrs →
    (Q2.addr < h.next ∧ Q2.addr ∉ c.addrs ∧ Q2.mat n n h = Q') →
    (R2.addr < h.next ∧ R2.addr ∉ c.addrs ∧ R2.mat m m h = R') →
    (S2.addr < h.next ∧ S2.addr ∉ c.addrs ∧ S2.mat n n h = S') →
    Runs (memCholLoop qr n m p Q2 R2 S2 c Z t k) h fun r h' => Touch c.addrs h h' ∧
      (∀ s, s < t → c.at (n := n) h' s = c.at h s) ∧
      cholLoop qr P Q' R' S' t (if t = 0 then none else some (c.at h (t - 1)))
        ((List.range' t k).map fun s => (Z.row s).obs m h) =
      r.map fun _ => (List.range' t k).map fun s => c.at (n := n) h' s
  | 0, t, h, _, _, _, _, _, _, _ => ⟨Touch.refl _ _, fun _ _ => rfl, rfl⟩
  | k + 1, t, h, hc, hp, hZ, hZF, hQ, hR, hS => by
    have keep : ∀ {F : Set ℕ} {h h' : Heap} {X : ARef} {i j : ℕ} {M : Mat i j}, Touch F h h' →
        (X.addr < h.next ∧ X.addr ∉ F ∧ X.mat i j h = M) →
        (X.addr < h'.next ∧ X.addr ∉ F ∧ X.mat i j h' = M) := fun t hX =>
      ⟨hX.1.trans_le t.next, hX.2.1, (ARef.mat_touch t hX.1 hX.2.1).trans hX.2.2⟩
    have hstep : ∀ (prev : Option (CStep n)), (prev = none ∧ t = 0) ∨
        (prev = some (c.at h (t - 1)) ∧ t ≠ 0) → ∀ o,
        cholStep qr P Q' R' S' t prev o = (do
          let pred ← (if t = 0 then pure (P.mu0, S2.mat n n h) else do
            let A ← lastDims P.A (t - 1)
            let b ← lastDims P.b (t - 1)
            pure (cholPredict qr A (Q2.mat n n h) b (c.at (n := n) h (t - 1)).filtMean
              (c.at (n := n) h (t - 1)).filtCov2))
          let C ← lastDims P.C t
          let d ← lastDims P.d t
          let v := cholCorrect qr C R' d pred.1 pred.2 o
          pure ⟨pred.1, pred.2, v.1, v.2⟩) := by
      rw [hQ.2.2, hS.2.2]
      rintro prev (⟨rfl, ht⟩ | ⟨rfl, ht⟩) o
      · rw [if_pos ht]; rfl
      · rw [if_neg ht]
        simp only [cholStep]
        rcases lastDims P.A (t - 1) with e | A
        · rfl
        rcases lastDims P.b (t - 1) with e | b <;> rfl
    have hprev : ((if t = 0 then none else some (c.at h (t - 1)) : Option (CStep n)) = none ∧ t = 0) ∨
        ((if t = 0 then none else some (c.at h (t - 1)) : Option (CStep n)) =
          some (c.at h (t - 1)) ∧ t ≠ 0) := by
      by_cases ht : t = 0
      · exact .inl ⟨if_pos ht, ht⟩
      · exact .inr ⟨if_neg ht, ht⟩
    rw [List.range'_succ, List.map_cons, cholLoop, hstep _ hprev]
    refine Runs.bind (runs_memCholPred hc hp hS.1 hS.2.1 t) ?_ ?_
    · rintro u₁ h₁ ⟨t₁, a₁, e₁⟩
      rw [ok_map] at e₁
      rw [e₁]
      have hc₁ := hc.touch t₁
      have hp₁ := hp.touch t₁
      have hobs : ∀ s, (Z.row s).obs m h₁ = (Z.row s).obs m h := fun s =>
        ARef.obs_touch t₁ (r := Z.row s) hZ hZF
      refine Runs.bind (runs_memCholCorr (Z := Z) (R2 := R2) hc₁ hp₁ t) ?_ ?_
      · rintro u₂ h₂ ⟨t₂, a₂, e₂⟩
        rw [ok_map, hobs t, (keep t₁ hR).2.2] at e₂
        refine (runs_memCholLoop k (t + 1) h₂ (hc₁.touch t₂) (hp₁.touch t₂)
          (hZ.trans_le (t₁.trans t₂).next) hZF (keep (t₁.trans t₂) hQ) (keep (t₁.trans t₂) hR)
          (keep (t₁.trans t₂) hS)).imp fun r h₃ ⟨t₃, a₃, e₃⟩ => ?_
        refine ⟨t₁.trans (t₂.trans t₃), fun s hs => ?_, ?_⟩
        · rw [a₃ s (by omega), a₂ s (by omega), a₁ s (by omega)]
        · have hobs2 : ∀ s, (Z.row s).obs m h₂ = (Z.row s).obs m h := fun s =>
            ARef.obs_touch (t₁.trans t₂) (r := Z.row s) hZ hZF
          simp only [hobs2] at e₃
          rw [if_neg (Nat.succ_ne_zero t), Nat.add_sub_cancel] at e₃
          change (do
            let s ← (do
              let C ← lastDims P.C t
              let d ← lastDims P.d t
              let a := c.at (n := n) h₁ t
              let v := cholCorrect qr C R' d a.predMean a.predCov2 ((Z.row t).obs m h)
              pure ⟨a.predMean, a.predCov2, v.1, v.2⟩ : Res (CStep n))
            let rest ← cholLoop qr P Q' R' S' (t + 1) (some s)
              ((List.range' (t + 1) k).map fun s => (Z.row s).obs m h)
            pure (s :: rest)) = _
          rw [e₂]
          change (do
            let rest ← cholLoop qr P Q' R' S' (t + 1) (some (c.at (n := n) h₂ t))
              ((List.range' (t + 1) k).map fun s => (Z.row s).obs m h)
            pure (c.at (n := n) h₂ t :: rest)) = _
          rw [e₃]
          cases r with
          | error e => rfl
          | ok u =>
            change Except.ok _ = Except.ok _
            rw [List.map_cons, a₃ t (by omega)]
      · rintro e h₂ ⟨t₂, a₂, e₂⟩
        rw [error_map, hobs t, (keep t₁ hR).2.2] at e₂
        refine ⟨t₁.trans t₂, fun s hs => ?_, ?_⟩
        · rw [a₂ s (by omega), a₁ s (by omega)]
        · change (do
            let s ← (do
              let C ← lastDims P.C t
              let d ← lastDims P.d t
              let a := c.at (n := n) h₁ t
              let v := cholCorrect qr C R' d a.predMean a.predCov2 ((Z.row t).obs m h)
              pure ⟨a.predMean, a.predCov2, v.1, v.2⟩ : Res (CStep n))
            let rest ← cholLoop qr P Q' R' S' (t + 1) (some s)
              ((List.range' (t + 1) k).map fun s => (Z.row s).obs m h)
            pure (s :: rest)) = _
          rw [e₂]
          rfl
    · rintro e h₁ ⟨t₁, a₁, e₁⟩
      rw [error_map] at e₁
      refine ⟨t₁, fun s hs => a₁ s (by omega), ?_⟩
      rw [e₁]
      rfl

/-- `_filter`: new arrays, whose rows are the rows of the filter on values. -/
theorem runs_memCholFilter {qr : QR} {p : PRefs} {Z : ARef} {P : Params n m} {h : Heap}
    (hp : p.Holds ∅ h P) (hZ : Z.addr < h.next) (hm : Z.shape.drop 1 = [m]) :
    Runs (memCholFilter qr p Z) h fun r h' => Touch ∅ h h' ∧
      (∀ c, r = .ok c → c.Ok h' ∧ (∀ a ∈ c.addrs, h.next ≤ a) ∧
        c.predMeans.shape = [Z.shape.headD 0, n] ∧ c.predCov2s.shape = [Z.shape.headD 0, n, n] ∧
        c.filtMeans.shape = [Z.shape.headD 0, n] ∧ c.filtCov2s.shape = [Z.shape.headD 0, n, n]) ∧
      cholFull qr P ((Z.ma h).rows m) =
        r.map fun c => (List.range (Z.shape.headD 0)).map fun s => c.at (n := n) h' s := by
  have hn : p.mu0.shape.headD 0 = n := by
    have := hp.mu0
    simp only [NDArray.toVec] at this
    split_ifs at this with hs
    change p.mu0.shape = [n] at hs
    rw [hs]; rfl
  have hm' : Z.shape.getD 1 0 = m := by
    rcases hs : Z.shape with _ | ⟨a, _ | ⟨b, l⟩⟩ <;> rw [hs] at hm <;> simp_all
  unfold memCholFilter
  simp only [hn, hm']
  refine runs_new fun v1 h1 f1 => runs_new fun v2 h2 f2 => runs_new fun v3 h3 f3 =>
    runs_new fun v4 h4 f4 => ?_
  have a1 := f1.addr; have n1 := f1.next
  have a2 := f2.addr; have n2 := f2.next
  have a3 := f3.addr; have n3 := f3.next
  have a4 := f4.addr; have n4 := f4.next
  have t4 : Touch ∅ h h4 := f1.touch.trans (f2.touch.trans (f3.touch.trans f4.touch))
  have hp4 := hp.touch t4
  unfold cholFull
  refine runs_memCholesky (cholParam_mats hp4.Q) (fun Q' Q2 h5 eQ f5 => ?_) (fun e he => ?_)
  swap
  · exact ⟨t4, fun c hc => (by cases hc), by rw [he]; rfl⟩
  rw [eQ]
  have a5 := f5.addr; have n5 := f5.next
  have t5 := t4.trans f5.touch
  have hp5 := hp.touch t5
  refine runs_memCholesky (cholParam_mats hp5.R) (fun R' R2 h6 eR f6 => ?_) (fun e he => ?_)
  swap
  · exact ⟨t5, fun c hc => (by cases hc), by rw [he]; rfl⟩
  rw [eR]
  have a6 := f6.addr; have n6 := f6.next
  have t6 := t5.trans f6.touch
  have hp6 := hp.touch t6
  refine runs_memCholesky (cholesky_mat hp6.S0) (fun S' S2 h7 eS f7 => ?_) (fun e he => ?_)
  swap
  · exact ⟨t6, fun c hc => (by cases hc), by rw [he]; rfl⟩
  rw [eS]
  have a7 := f7.addr; have n7 := f7.next
  have t7 := t6.trans f7.touch
  have hp7 := hp.touch t7
  obtain ⟨c, hcdef⟩ : ∃ c : CRefs, c = ⟨v1, v2, v3, v4⟩ := ⟨_, rfl⟩
  have hmem : ∀ a ∈ c.addrs, h.next ≤ a ∧ a < h4.next := by
    intro a ha
    rw [hcdef] at ha
    simp only [CRefs.addrs, Set.mem_insert_iff, Set.mem_singleton_iff] at ha
    omega
  have hF : ∀ a ∈ c.addrs, h.next ≤ a := fun a ha => (hmem a ha).1
  have hok : c.Ok h7 := by
    rw [hcdef]
    constructor
    · exact f1.ix
    · exact f2.ix
    · exact f3.ix
    · exact f4.ix
    all_goals (dsimp only; omega)
  have hpF : p.Holds c.addrs h7 P :=
    ⟨hp7.A, hp7.b, hp7.Q, hp7.C, hp7.d, hp7.R, hp7.mu0, hp7.S0, fun r hr =>
      ⟨(hp7.valid r hr).1, fun hr' => by
        have := hF _ hr'
        have := (hp.valid r hr).1
        omega⟩⟩
  have hZF : Z.addr ∉ c.addrs := fun ha => by
    have := hF _ ha
    omega
  have hobs : ∀ s, (Z.row s).obs m h7 = (Z.row s).obs m h := fun s =>
    ARef.obs_touch t7 (r := Z.row s) hZ (by simp)
  rw [← hcdef]
  refine Runs.bind (runs_memCholLoop (qr := qr) (Z := Z) (Q' := Q') (R' := R') (S' := S')
    (Z.shape.headD 0) 0 h7 hok hpF (hZ.trans_le t7.next) hZF
    ⟨by omega, fun ha => by have := (hmem _ ha).2; omega,
      (ARef.mat_touch (f6.touch.trans f7.touch) (by omega) (by simp)).trans f5.mat⟩
    ⟨by omega, fun ha => by have := (hmem _ ha).2; omega,
      (ARef.mat_touch f7.touch (by omega) (by simp)).trans f6.mat⟩
    ⟨by omega, fun ha => by have := (hmem _ ha).2; omega, f7.mat⟩) ?_ ?_
  · rintro u h8 ⟨t8, -, e8⟩
    refine runs_pure ⟨t7.fresh t8 hF, ?_, ?_⟩
    · rintro _ ⟨⟩
      refine ⟨hok.touch t8, hF, ?_⟩
      rw [hcdef]
      exact ⟨congrArg NDArray.shape f1.nd, congrArg NDArray.shape f2.nd,
        congrArg NDArray.shape f3.nd, congrArg NDArray.shape f4.nd⟩
    · simp only [hobs, ← List.range_eq_range', if_pos rfl] at e8
      exact e8
  · rintro e h8 ⟨t8, -, e8⟩
    refine ⟨t7.fresh t8 hF, fun f hf => (by cases hf), ?_⟩
    simp only [hobs, ← List.range_eq_range', if_pos rfl] at e8
    exact e8

/-! ### The covariances -/

theorem runs_memReconstructLoop {cov2s covs : ARef} :
    ∀ (k t : ℕ) (h : Heap), cov2s.addr < h.next → covs.ix = id → covs.addr < h.next →
    cov2s.addr ≠ covs.addr →
    Runs (memReconstructLoop n cov2s covs t k) h fun r h' => Touch {covs.addr} h h' ∧ r = .ok () ∧
      (∀ u, u < t → (covs.row u).mat n n h' = (covs.row u).mat n n h) ∧
      (∀ u, t ≤ u → u < t + k → (covs.row u).mat n n h' =
        reconstruct ((cov2s.row u).mat n n h))
  | 0, t, h, _, _, _, _ => ⟨Touch.refl _ _, rfl, fun _ _ => rfl, fun u h1 h2 => by omega⟩
  | k + 1, t, h, hs, hix, hv, hne => by
    refine runs_seeing (runs_new fun a h1 f1 => runs_setting fun h2 s2 => ?_)
    have t2 : Touch {covs.addr} h h2 := (f1.touch.mono (Set.empty_subset _)).trans s2.touch
    have hat : ∀ u, (cov2s.row u).mat n n h2 = (cov2s.row u).mat n n h := fun u =>
      ARef.row_mat_touch t2 hs (by simpa using hne)
    refine (runs_memReconstructLoop k (t + 1) h2 (hs.trans_le t2.next) hix (hv.trans_le t2.next)
      hne).imp fun r h3 ⟨t3, e3, lo, hi⟩ => ⟨t2.trans t3, e3, fun u hu => ?_, fun u h4 h5 => ?_⟩
    · rw [lo u (by omega), s2.mat_rest hix (by omega)]
      exact ARef.row_mat_touch f1.touch hv (by simp)
    · rcases Nat.lt_or_ge t u with htu | htu
      · rw [hi u (by omega) (by omega), hat]
      · have : u = t := by omega
        subst this
        rw [lo u (by omega), s2.mat hix, f1.mat]

theorem runs_memReconstruct {cov2s : ARef} {T : ℕ} {h : Heap} {f : ARef → HM β}
    {post : Res β → Heap → Prop} (hv : cov2s.addr < h.next) (hsh : cov2s.shape = [T, n, n])
    (hf : ∀ a h', Touch ∅ h h' → h.next ≤ a.addr → a.addr < h'.next → a.ix = id →
      a.shape = [T, n, n] → (∀ t, t < T → (a.row t).mat n n h' =
        reconstruct ((cov2s.row t).mat n n h)) → Runs (f a) h' post) :
    Runs (memReconstruct cov2s >>= f) h post := by
  refine Runs.bind (mid := fun r h' => ∃ a, r = .ok a ∧ Touch ∅ h h' ∧ h.next ≤ a.addr ∧
    a.addr < h'.next ∧ a.ix = id ∧ a.shape = [T, n, n] ∧ ∀ t, t < T → (a.row t).mat n n h' =
        reconstruct ((cov2s.row t).mat n n h)) ?_ ?_ ?_
  · unfold memReconstruct
    have e0 : ¬ cov2s.shape.length = 2 := by rw [hsh]; simp
    have e1 : cov2s.shape.headD 0 = T := by rw [hsh]; rfl
    have e2 : cov2s.shape.getD 1 0 = n := by rw [hsh]; rfl
    simp only [if_neg e0, e1, e2]
    refine runs_new fun a h1 f1 => ?_
    have a1 := f1.addr
    have n1 := f1.next
    refine Runs.bind (runs_memReconstructLoop T 0 h1 (hv.trans_le f1.touch.next) f1.ix (by omega)
      (by omega)) ?_ ?_
    · rintro u h2 ⟨t2, -, -, hi⟩
      refine runs_pure ⟨a, rfl, f1.touch.fresh t2 (by simp; omega), by omega,
        (show a.addr < h1.next by omega).trans_le t2.next, f1.ix,
        (congrArg NDArray.shape f1.nd).trans hsh, fun t ht => ?_⟩
      rw [hi t (Nat.zero_le _) (by omega), ARef.row_mat_touch f1.touch hv (by simp)]
    · rintro e h2 ⟨-, he, -⟩
      cases he
  · rintro a h' ⟨_, ⟨⟩, h1, h2, h3, h4, h5, h6⟩
    exact hf a h' h1 h2 h3 h4 h5 h6
  · rintro e h' ⟨_, he, -⟩
    cases he

end Verif
