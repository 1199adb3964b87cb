import Verif.Model.MemoryBierman
import Verif.Proofs.MemoryCholeskyMethods

/-! # `BiermanKalmanFilter` on arrays in memory -/

open Matrix

namespace Verif

variable {α β : Type} {n m : ℕ}

/-! ### What changes -/

theorem frame_newUdu (F : Set ℕ) (v : UDU n) (h : Heap) : Frame F (newUdu v) h :=
  (frame_newArray F _ _).bind fun _ _ _ => (frame_newArray F _ _).bind fun _ _ _ => frame_pure F _ _

theorem frame_memUdu (F : Set ℕ) (store : ℝ → ℝ) (n : ℕ) (X : ARef) (h : Heap) :
    Frame F (memUdu store n X) h :=
  (frame_see F _ h).bind fun _ _ _ => (frame_lift F _ _).bind fun _ _ _ => frame_newUdu F _ _

theorem frame_newMaskedOf (F : Set ℕ) (a : MArray) (h : Heap) : Frame F (newMaskedOf a) h :=
  ⟨Nat.le_succ _, fun _ hx _ => Function.update_of_ne hx.ne _ _⟩

theorem frame_memDecorrelateLoop (n : ℕ) (inv : Mat m m) (C C2 : ARef) :
    ∀ (k t : ℕ) (h : Heap), Frame {C2.addr} (memDecorrelateLoop n inv C C2 t k) h
  | 0, _, h => frame_pure _ _ h
  | k + 1, t, h => (frame_see _ _ _).bind fun _ _ _ => (frame_newArray _ _ _).bind fun _ _ _ =>
      (frame_setRow (Set.mem_singleton _) _ _ _).bind fun _ _ _ =>
      frame_memDecorrelateLoop n inv C C2 k _ _

theorem frame_memDecorrelateMatrices (n : ℕ) (inv : Mat m m) (C : ARef) (h : Heap) :
    Frame ∅ (memDecorrelateMatrices n inv C) h := by
  refine (frame_see _ _ _).bind fun cp h3 t3 => frame_new (Touch.refl _ h3) fun C2 h4 t4 a4 => ?_
  split
  · exact frame_then (F := {C2.addr}) t4 (frame_memDecorrelateLoop n inv C C2 _ _ _)
      (by simpa using a4) fun _ _ t' => runs_pure t'
  · exact ((frame_see _ _ _).bind fun _ _ _ => frame_newArray ∅ _ _).imp fun _ _ t5 => t4.trans t5

theorem frame_memDecorrelate (n m : ℕ) (C d R Z : ARef) (h : Heap) :
    Frame ∅ (memDecorrelate n m C d R Z) h :=
  (frame_memCholesky ∅ _ _ _).bind fun _ _ _ => (frame_see _ _ _).bind fun _ _ _ =>
    (frame_memDecorrelateMatrices _ _ _ _).bind fun _ _ _ => (frame_see _ _ _).bind fun _ _ _ =>
    (frame_newArray _ _ _).bind fun _ _ _ => (frame_see _ _ _).bind fun _ _ _ =>
    (frame_newMaskedOf _ _ _).bind fun _ _ _ => frame_pure _ _ _

theorem frame_memBierPredict (F : Set ℕ) (n : ℕ) (A Q b mean : ARef) (cov : URef) (h : Heap) :
    Frame F (memBierPredict n A Q b mean cov) h :=
  (frame_see F _ h).bind fun _ _ _ => (frame_newArray F _ _).bind fun _ _ _ =>
    (frame_lift F _ _).bind fun _ _ _ => (frame_newUdu F _ _).bind fun _ _ _ => frame_pure F _ _

theorem frame_memBierCorrectLoop (F : Set ℕ) (n m : ℕ) (C d o : ARef) :
    ∀ (l : List (Fin m)) (s : ARef × URef) (h : Heap), Frame F (memBierCorrectLoop n m C d o l s) h
  | [], _, _ => frame_pure _ _ _
  | _ :: l, _, _ => (frame_see _ _ _).bind fun _ _ _ => (frame_newArray F _ _).bind fun _ _ _ =>
      (frame_newUdu F _ _).bind fun _ _ _ => frame_memBierCorrectLoop F n m C d o l _ _

theorem frame_memBierCorrect (F : Set ℕ) (n m : ℕ) (C d mean : ARef) (cov : URef) (o : ARef)
    (h : Heap) : Frame F (memBierCorrect n m C d mean cov o) h := by
  refine (frame_see F _ h).bind fun missing h1 _ => ?_
  cases missing
  · exact frame_memBierCorrectLoop F n m C d o _ _ _
  · exact frame_pure F _ _

theorem frame_memBierPred {F : Set ℕ} (n : ℕ) (p : PRefs) (S : URef) {pm : ARef} (fm : ARef)
    (hF : pm.addr ∈ F) (t : ℕ) (prev : Option URef) (h : Heap) :
    Frame F (memBierPred n p S pm fm t prev) h := by
  cases prev with
  | none => exact (frame_setRow hF _ _ _).bind fun _ _ _ => frame_pure _ _ _
  | some u =>
    exact (frame_lift _ _ _).bind fun _ _ _ => (frame_lift _ _ _).bind fun _ _ _ =>
      (frame_memBierPredict _ _ _ _ _ _ _ _).bind fun _ _ _ =>
      (frame_setRow hF _ _ _).bind fun _ _ _ => frame_pure _ _ _

theorem frame_memBierCorr {F : Set ℕ} (n m : ℕ) (C d Z pm : ARef) {fm : ARef} (hF : fm.addr ∈ F)
    (t : ℕ) (u : URef) (h : Heap) : Frame F (memBierCorr n m C d Z pm fm t u) h :=
  (frame_lift _ _ _).bind fun _ _ _ => (frame_lift _ _ _).bind fun _ _ _ =>
    (frame_memBierCorrect _ _ _ _ _ _ _ _ _).bind fun _ _ _ =>
    (frame_setRow hF _ _ _).bind fun _ _ _ => frame_pure _ _ _

theorem frame_memBierLoop {F : Set ℕ} (n m : ℕ) (p : PRefs) (C d Z : ARef) (S : URef)
    {pm fm : ARef} (h1 : pm.addr ∈ F) (h2 : fm.addr ∈ F) :
    ∀ (k t : ℕ) (prev : Option URef) (h : Heap), Frame F (memBierLoop n m p C d Z S pm fm t k prev) h
  | 0, _, _, h => frame_pure _ _ h
  | k + 1, t, prev, h => (frame_memBierPred n p S fm h1 t prev h).bind fun _ _ _ =>
      (frame_memBierCorr n m C d Z pm h2 t _ _).bind fun _ _ _ =>
      (frame_memBierLoop n m p C d Z S h1 h2 k _ _ _).bind fun _ _ _ => frame_pure _ _ _

theorem frame_memBierFilter (store : ℝ → ℝ) (p : PRefs) (Z : ARef) (h : Heap) :
    Frame ∅ (memBierFilter store p Z) h := by
  refine frame_new (Touch.refl _ h) fun v1 h1 t1 a1 => frame_new t1 fun v2 h2 t2 a2 => ?_
  refine frame_then t2 (frame_memUdu ∅ _ _ _ _) (by simp) fun _ _ t3 => ?_
  refine frame_then t3 (frame_memDecorrelate _ _ _ _ _ _ _) (by simp) fun _ _ t4 => ?_
  refine frame_then t4 (frame_memBierLoop (F := {v1.addr, v2.addr}) _ _ _ _ _ _ _ (by simp) (by simp)
    _ _ _ _) ?_ fun _ h' t' => runs_pure t'
  intro a ha
  simp only [Set.mem_insert_iff, Set.mem_singleton_iff] at ha
  omega

theorem frame_memBierReconstructLoop (n : ℕ) (covs : ARef) :
    ∀ (l : List URef) (t : ℕ) (h : Heap), Frame {covs.addr} (memBierReconstructLoop n covs t l) h
  | [], _, h => frame_pure _ _ h
  | _ :: l, t, h => (frame_see _ _ _).bind fun _ _ _ => (frame_newArray _ _ _).bind fun _ _ _ =>
      (frame_setRow (Set.mem_singleton _) _ _ _).bind fun _ _ _ =>
      frame_memBierReconstructLoop n covs l _ _

theorem frame_memBierReconstruct (l : List URef) (h : Heap) : Frame ∅ (memBierReconstruct l) h := by
  cases l with
  | nil => exact frame_lift _ _ _
  | cons u l =>
    exact frame_new (Touch.refl _ h) fun v1 _ t1 a1 =>
      frame_then t1 (frame_memBierReconstructLoop _ v1 _ _ _) (by simpa using a1) fun _ _ t' =>
        runs_pure t'

theorem frame_bierFilter (store : ℝ → ℝ) (k : KFRef) (X : ARef) (h : Heap) :
    Frame ∅ (k.bierFilter store X) h :=
  (frame_memInitialize k h).bind fun _ _ _ => (frame_memBierFilter _ _ _ _).bind fun _ _ _ =>
    (frame_memBierReconstruct _ _).bind fun _ _ _ => frame_pure _ _ _

theorem frame_bierSmooth (store : ℝ → ℝ) (k : KFRef) (X : ARef) (h : Heap) :
    Frame ∅ (k.bierSmooth store X) h :=
  (frame_memInitialize k h).bind fun _ _ _ => (frame_memBierFilter _ _ _ _).bind fun _ _ _ =>
    (frame_memBierReconstruct _ _).bind fun _ _ _ => (frame_memBierReconstruct _ _).bind fun _ _ _ =>
    (frame_newArray _ _ _).bind fun _ _ _ =>
    (frame_memSmooth _ _ _).bind fun _ _ _ => frame_pure _ _ _

theorem frame_bierLoglikelihood (store : ℝ → ℝ) (k : KFRef) (X : ARef) (h : Heap) :
    Frame ∅ (k.bierLoglikelihood store X) h :=
  (frame_memInitialize k h).bind fun _ _ _ => (frame_memBierFilter _ _ _ _).bind fun _ _ _ =>
    (frame_memBierReconstruct _ _).bind fun _ _ _ => (frame_newArray _ _ _).bind fun _ _ _ =>
    (frame_newArray _ _ _).bind fun _ _ _ => (frame_memLoglik _ _ _ _).bind fun _ _ _ =>
    frame_see _ _ _

theorem frame_memBierEmLoop (n m : ℕ) (sel : EmVar → Bool) (given : PRefs) (Z : ARef) :
    ∀ (k : ℕ) (store : ℝ → ℝ) (p : PRefs) (h : Heap),
      Frame ∅ (memBierEmLoop n m sel given Z store k p) h
  | 0, _, _, _ => frame_pure _ _ _
  | k + 1, store, p, h => (frame_memBierFilter store p Z h).bind fun _ _ _ =>
      (frame_memBierReconstruct _ _).bind fun _ _ _ => (frame_memBierReconstruct _ _).bind
      fun _ _ _ => (frame_newArray _ _ _).bind fun _ _ _ => (frame_memSmooth _ _ _).bind
      fun _ _ _ => (frame_memPair _ _).bind fun _ _ _ => (frame_memEmStep _ _ _ _ _ _ _ _ _).bind
      fun _ _ _ => frame_memBierEmLoop n m sel given Z k _ _ _

theorem frame_bierEm (store : ℝ → ℝ) (k : KFRef) (X : ARef) (nIter : ℕ) (arg : Option EmNames)
    (h : Heap) : Frame ∅ (k.bierEm store X nIter arg) h :=
  (frame_memInitialize k h).bind fun _ _ _ => (frame_lift _ _ _).bind fun _ _ _ =>
    (frame_memBierEmLoop _ _ _ _ _ _ _ _ _).bind fun _ _ _ => frame_pure _ _ _

theorem frame_bierFilterUpdate (store : ℝ → ℝ) (k : KFRef) (mean cov : ARef) (o : Option ARef)
    (a : UpdateRefs) (h : Heap) : Frame ∅ (k.bierFilterUpdate store mean cov o a) h := by
  refine (frame_memInitialize k h).bind fun _ _ _ => (frame_lift _ _ _).bind fun _ _ _ =>
    (frame_lift _ _ _).bind fun _ _ _ => (frame_lift _ _ _).bind fun _ _ _ =>
    (frame_lift _ _ _).bind fun _ _ _ => (frame_lift _ _ _).bind fun _ _ _ =>
    (frame_lift _ _ _).bind fun _ _ _ => ?_
  cases o
  · exact (frame_newMasked _ _ _).bind fun _ _ _ => (frame_memUdu _ _ _ _ _).bind fun _ _ _ =>
      (frame_memDecorrelate _ _ _ _ _ _ _).bind fun _ _ _ =>
      (frame_memBierPredict _ _ _ _ _ _ _ _).bind fun _ _ _ =>
      (frame_memBierCorrect _ _ _ _ _ _ _ _ _).bind fun _ _ _ =>
      (frame_memBierReconstruct _ _).bind fun _ _ _ => frame_pure _ _ _
  · exact (frame_pure _ _ _).bind fun _ _ _ => (frame_memUdu _ _ _ _ _).bind fun _ _ _ =>
      (frame_memDecorrelate _ _ _ _ _ _ _).bind fun _ _ _ =>
      (frame_memBierPredict _ _ _ _ _ _ _ _).bind fun _ _ _ =>
      (frame_memBierCorrect _ _ _ _ _ _ _ _ _).bind fun _ _ _ =>
      (frame_memBierReconstruct _ _).bind fun _ _ _ => frame_pure _ _ _

/-! ### The objects -/

/-- The arrays of the object are in use, outside `F`. -/
structure URef.Good (u : URef) (n : ℕ) (F : Set ℕ) (h : Heap) : Prop where
  vU : u.U.addr < h.next
  vD : u.D.addr < h.next
  fU : u.U.addr ∉ F
  fD : u.D.addr ∉ F
  shape : u.U.shape = [n, n]

theorem URef.Good.touch {u : URef} {F : Set ℕ} {h h' : Heap} (hu : u.Good n F h)
    (ht : Touch F h h') : u.Good n F h' :=
  ⟨hu.vU.trans_le ht.next, hu.vD.trans_le ht.next, hu.fU, hu.fD, hu.shape⟩

theorem URef.Good.value {u : URef} {F : Set ℕ} {h h' : Heap} (hu : u.Good n F h)
    (ht : Touch F h h') : u.value n h' = u.value n h := by
  simp only [URef.value, ARef.mat_touch ht hu.vU hu.fU, ARef.vec_touch ht hu.vD hu.fD]

theorem URef.Good.mono {u : URef} {F G : Set ℕ} {h : Heap} (hu : u.Good n F h) (hG : G ⊆ F) :
    u.Good n G h :=
  ⟨hu.vU, hu.vD, fun a => hu.fU (hG a), fun a => hu.fD (hG a), hu.shape⟩

/-- The arrays of the object were made between `h` and `h'`. -/
structure URef.New (u : URef) (n : ℕ) (h h' : Heap) : Prop where
  lU : h.next ≤ u.U.addr
  lD : h.next ≤ u.D.addr
  vU : u.U.addr < h'.next
  vD : u.D.addr < h'.next
  shape : u.U.shape = [n, n]

theorem URef.New.good {u : URef} {F : Set ℕ} {h h' : Heap} (hu : u.New n h h')
    (hF : ∀ a ∈ F, a < h.next) : u.Good n F h' :=
  ⟨hu.vU, hu.vD, fun a => (hF _ a).not_ge hu.lU, fun a => (hF _ a).not_ge hu.lD, hu.shape⟩

theorem URef.New.mono {u : URef} {h₀ h h' h'' : Heap} (hu : u.New n h h') (h0 : h₀.next ≤ h.next)
    (h1 : h'.next ≤ h''.next) : u.New n h₀ h'' :=
  ⟨h0.trans hu.lU, h0.trans hu.lD, hu.vU.trans_le h1, hu.vD.trans_le h1, hu.shape⟩

theorem runs_newUdu {v : UDU n} {h : Heap} {f : URef → HM β} {post : Res β → Heap → Prop}
    (hf : ∀ u h', Touch ∅ h h' → u.New n h h' → u.value n h' = v → Runs (f u) h' post) :
    Runs (newUdu v >>= f) h post := by
  have e : (newUdu v >>= f) = newArray (ndOfMat v.U) >>= fun U => newArray (ndOfVec v.D) >>=
      fun D => f ⟨U, D⟩ := by
    funext h
    rfl
  rw [e]
  refine runs_new fun U h1 f1 => runs_new fun D h2 f2 => ?_
  have a1 := f1.addr
  have a2 := f2.addr
  have n1 := f1.next
  have n2 := f2.next
  refine hf _ _ (f1.touch.trans f2.touch) ⟨?_, ?_, ?_, ?_, congrArg NDArray.shape f1.nd⟩ ?_
  · simp only; omega
  · simp only; omega
  · simp only; omega
  · simp only; omega
  · simp only [URef.value, f2.vec, ARef.mat_touch f2.touch (show U.addr < h1.next by omega)
      (Set.notMem_empty _), f1.mat]

theorem runs_memUdu {store : ℝ → ℝ} {X : ARef} {h : Heap} {f : URef → HM β}
    {post : Res β → Heap → Prop}
    (hok : ∀ v u h', udu store (X.mat n n h) = .ok v → Touch ∅ h h' → u.New n h h' →
      u.value n h' = v → Runs (f u) h' post)
    (herr : ∀ e, udu store (X.mat n n h) = .error e → post (.error e) h) :
    Runs (memUdu store n X >>= f) h post := by
  have e : (memUdu store n X >>= f) h =
      (HM.lift (udu store (X.mat n n h)) >>= fun v => newUdu v >>= f) h := by
    simp only [memUdu, Bind.bind, HM.see, HM.lift]
    cases udu store (X.mat n n h) <;> rfl
  exact Runs.congr e (runs_lifted (fun v hv => runs_newUdu fun u h' t1 hu hval =>
    hok v u h' hv t1 hu hval) herr)

theorem runs_memBierPredict {A Q b mean : ARef} {cov : URef} {h : Heap} {f : ARef × URef → HM β}
    {post : Res β → Heap → Prop} {r : Res (Vec n × UDU n)}
    (hr : r = if Q.shape.length = 2 then bierPredict (A.mat n n h) (Q.mat n n h) (b.vec n h)
      (mean.vec n h) (cov.value n h) else .error .valueError)
    (hok : ∀ q h', r = .ok (q.1.vec n h', q.2.value n h') → Touch ∅ h h' → h.next ≤ q.1.addr →
      q.1.addr < h'.next → q.2.New n h h' → Runs (f q) h' post)
    (herr : ∀ e h', r = .error e → Touch ∅ h h' → post (.error e) h') :
    Runs (memBierPredict n A Q b mean cov >>= f) h post := by
  obtain ⟨u, hu⟩ : ∃ u : Res (UDU n), u = if Q.shape.length = 2 then
      udu id (A.mat n n h * (cov.value n h).reconstruct * (A.mat n n h)ᵀ + Q.mat n n h)
    else .error .valueError := ⟨_, rfl⟩
  obtain ⟨v, hv⟩ : ∃ v, v = A.mat n n h *ᵥ mean.vec n h + b.vec n h := ⟨_, rfl⟩
  have e : (memBierPredict n A Q b mean cov >>= f) h =
      (newArray (ndOfVec v) >>= fun mean' => HM.lift u >>= fun u => newUdu u >>= fun cov' =>
        f (mean', cov')) h := by
    rw [hu, hv]
    simp only [memBierPredict, Bind.bind, HM.see]
    rcases newArray (ndOfVec (A.mat n n h *ᵥ mean.vec n h + b.vec n h)) h with ⟨_ | a, h1⟩
    · rfl
    simp only [HM.lift]
    split_ifs
    · rcases udu id (A.mat n n h * (cov.value n h).reconstruct * (A.mat n n h)ᵀ + Q.mat n n h) with
        _ | w
      · rfl
      simp only
      rcases newUdu w h1 with ⟨_ | c, h2⟩ <;> rfl
    · rfl
  have hru : r = u.map fun w => (v, w) := by
    rw [hr, hu, hv]
    split_ifs
    · unfold bierPredict
      rcases udu id (A.mat n n h * (cov.value n h).reconstruct * (A.mat n n h)ᵀ + Q.mat n n h) with
        _ | w <;> rfl
    · rfl
  refine Runs.congr e (runs_new fun a h1 f1 => runs_lifted (fun w hw => ?_) fun e he => ?_)
  · refine runs_newUdu fun c h2 t2 hc hval => ?_
    have a1 := f1.addr
    have n1 := f1.next
    have n2 := t2.next
    refine hok _ _ ?_ (f1.touch.trans t2) (by simp only; omega) (by simp only; omega)
      (hc.mono f1.touch.next le_rfl)
    rw [hru, hw, ok_map, hval, ARef.vec_touch t2 (show a.addr < h1.next by omega) (by simp), f1.vec]
  · exact herr e _ (by rw [hru, he]; rfl) f1.touch

theorem runs_memBierCorrectLoop {C d o : ARef} :
    ∀ (l : List (Fin m)) (s : ARef × URef) (h : Heap), C.addr < h.next → d.addr < h.next →
    o.addr < h.next → s.1.addr < h.next → s.2.Good n ∅ h →
    Runs (memBierCorrectLoop n m C d o l s) h fun r h' => Touch ∅ h h' ∧ ∃ q, r = .ok q ∧
      (q.1.addr = s.1.addr ∨ h.next ≤ q.1.addr) ∧ q.1.addr < h'.next ∧
      (q.2 = s.2 ∨ q.2.New n h h') ∧ (l ≠ [] → h.next ≤ q.1.addr) ∧
      (q.1.vec n h', q.2.value n h') = l.foldl (bierCorrectOne (C.mat m n h) 1 (d.vec m h)
        (o.obs m h).val) (s.1.vec n h, s.2.value n h)
  | [], s, h, _, _, _, hs, hg =>
    runs_pure ⟨Touch.refl _ _, s, rfl, .inl rfl, hs, .inl rfl, fun h => absurd rfl h, rfl⟩
  | i :: l, s, h, hC, hd, ho, hs, hg => by
    refine runs_seeing (runs_new fun a h1 f1 => runs_newUdu fun u h2 t2 hu hval => ?_)
    have t12 := f1.touch.trans t2
    have n1 := f1.next
    have a1 := f1.addr
    have n2 := t2.next
    refine (runs_memBierCorrectLoop l (a, u) h2 (hC.trans_le t12.next) (hd.trans_le t12.next)
      (ho.trans_le t12.next) (by simp only; omega) (hu.good (by simp))).imp
      fun r h3 ⟨t3, q, hq, h4, h5, h6, _, h7⟩ => ⟨t12.trans t3, q, hq, ?_, h5, ?_, fun _ => ?_, ?_⟩
    · right
      rcases h4 with h4 | h4
      · simp only at h4; omega
      · omega
    · right
      rcases h6 with h6 | h6
      · rw [h6]; exact hu.mono f1.touch.next t3.next
      · exact h6.mono t12.next le_rfl
    · rcases h4 with h4 | h4
      · simp only at h4; omega
      · omega
    · rw [h7, List.foldl_cons, ARef.mat_touch t12 hC (by simp), ARef.vec_touch t12 hd (by simp),
        ARef.obs_touch t12 ho (by simp)]
      simp only
      rw [hval, ARef.vec_touch t2 (by omega) (by simp), f1.vec]

theorem runs_memBierCorrect {C d mean o : ARef} {cov : URef} {h : Heap} {f : ARef × URef → HM β}
    {post : Res β → Heap → Prop} (hC : C.addr < h.next) (hd : d.addr < h.next)
    (ho : o.addr < h.next) (hmean : mean.addr < h.next) (hcov : cov.Good n ∅ h)
    (hf : ∀ q h', Touch ∅ h h' → (q.1.addr = mean.addr ∨ h.next ≤ q.1.addr) → q.1.addr < h'.next →
      (q.2 = cov ∨ q.2.New n h h') →
      (q.1.vec n h', q.2.value n h') = bierCorrect (C.mat m n h) 1 (d.vec m h) (mean.vec n h)
        (cov.value n h) (o.obs m h) → Runs (f q) h' post) :
    Runs (memBierCorrect n m C d mean cov o >>= f) h post := by
  by_cases hm : (o.obs m h).missing
  · have e : (memBierCorrect n m C d mean cov o >>= f) h = (f (mean, cov)) h := by
      change (bind (bind (HM.see fun h => decide (o.obs m h).missing) _) f) h = _
      simp only [Bind.bind, HM.see, hm]
      rfl
    refine Runs.congr e (hf _ _ (Touch.refl _ _) (.inl rfl) hmean (.inl rfl) ?_)
    simp [bierCorrect, hm]
  · have e : (memBierCorrect n m C d mean cov o >>= f) h =
        (memBierCorrectLoop n m C d o (List.finRange m) (mean, cov) >>= f) h := by
      change (bind (bind (HM.see fun h => decide (o.obs m h).missing) _) f) h = _
      simp only [Bind.bind, HM.see, hm]
      rfl
    refine Runs.congr e (Runs.bind (runs_memBierCorrectLoop _ _ h hC hd ho hmean hcov) ?_ ?_)
    · rintro q h1 ⟨t1, _, ⟨⟩, h2, h3, h4, _, h5⟩
      refine hf q h1 t1 h2 h3 h4 ?_
      rw [h5, bierCorrect, if_pos hm]
    · rintro e h1 ⟨t1, _, he, -⟩
      cases he

/-! ### Decorrelation -/

theorem runs_memDecorrelateLoop {inv : Mat m m} {C C2 : ARef} :
    ∀ (k t : ℕ) (h : Heap), C.addr < h.next → C2.ix = id → C2.addr < h.next → C.addr ≠ C2.addr →
    Runs (memDecorrelateLoop n inv C C2 t k) h fun r h' => Touch {C2.addr} h h' ∧ r = .ok () ∧
      (∀ u, u < t → (C2.row u).mat m n h' = (C2.row u).mat m n h) ∧
      (∀ u, t ≤ u → u < t + k → (C2.row u).mat m n h' = inv * (C.row u).mat m n h)
  | 0, t, h, _, _, _, _ => ⟨Touch.refl _ _, rfl, fun _ _ => rfl, fun u h1 h2 => by omega⟩
  | k + 1, t, h, hs, hix, hv, hne => by
    refine runs_seeing (runs_new fun a h1 f1 => runs_setting fun h2 s2 => ?_)
    have t2 : Touch {C2.addr} h h2 := (f1.touch.mono (Set.empty_subset _)).trans s2.touch
    have hat : ∀ u, (C.row u).mat m n h2 = (C.row u).mat m n h := fun u =>
      ARef.row_mat_touch t2 hs (by simpa using hne)
    refine (runs_memDecorrelateLoop k (t + 1) h2 (hs.trans_le t2.next) hix (hv.trans_le t2.next)
      hne).imp fun r h3 ⟨t3, e3, lo, hi⟩ => ⟨t2.trans t3, e3, fun u hu => ?_, fun u h4 h5 => ?_⟩
    · rw [lo u (by omega), s2.mat_rest hix (by omega)]
      exact ARef.row_mat_touch f1.touch hv (by simp)
    · rcases Nat.lt_or_ge t u with htu | htu
      · rw [hi u (by omega) (by omega), hat]
      · have : u = t := by omega
        subst this
        rw [lo u (by omega), s2.mat hix, f1.mat]

/-- The decorrelated matrices. -/
def MatsDecorrelated (n : ℕ) (inv : Mat m m) (C : ARef) (h : Heap) (C2 : ARef) (h' : Heap) : Prop :=
  (∀ tv : TV (Mat m n), (C.nd h).toMats m n = some tv →
    (C2.nd h').toMats m n = some (tv.map fun X : Mat m n => inv * X)) ∧
  (C.shape.length ≠ 3 → C2.mat m n h' = inv * C.mat m n h)

theorem runs_memDecorrelateMatrices {inv : Mat m m} {C : ARef} {h : Heap} {f : ARef → HM β}
    {post : Res β → Heap → Prop} (hC : C.addr < h.next)
    (hf : ∀ C2 h', Touch ∅ h h' → h.next ≤ C2.addr → C2.addr < h'.next →
      MatsDecorrelated n inv C h C2 h' → Runs (f C2) h' post) :
    Runs (memDecorrelateMatrices n inv C >>= f) h post := by
  refine Runs.bind (mid := fun r h' => ∃ C2, r = .ok C2 ∧ Touch ∅ h h' ∧ h.next ≤ C2.addr ∧
    C2.addr < h'.next ∧ MatsDecorrelated n inv C h C2 h') ?_ ?_ ?_
  · refine runs_seeing (runs_new fun a h1 f1 => ?_)
    have a1 := f1.addr
    have n1 := f1.next
    split
    · next h3 =>
      refine Runs.bind (runs_memDecorrelateLoop (n := n) (inv := inv) (C := C) (C.shape.headD 0) 0 h1
        (hC.trans_le f1.touch.next) f1.ix (by omega) (by omega)) ?_ ?_
      · rintro u h2 ⟨t2, -, -, hi⟩
        refine runs_pure ⟨a, rfl, f1.touch.fresh t2 (by simp; omega), by omega,
          (show a.addr < h1.next by omega).trans_le t2.next, fun tv htv => ?_, fun h => absurd h3 h⟩
        have hsh : a.shape = C.shape := congrArg NDArray.shape f1.nd
        unfold NDArray.toMats at htv ⊢
        have e1 : (a.nd h2).shape = C.shape := hsh
        have e2 : (C.nd h).shape = C.shape := rfl
        rw [e1]
        rw [e2] at htv
        have hne : ¬ C.shape = [m, n] := fun e => by rw [e] at h3; simp at h3
        rw [if_neg hne] at htv ⊢
        split at htv
        · rename_i T n' m' hs
          split_ifs at htv ⊢ with hc
          cases htv
          simp only [TV.map, List.map_map, Option.some.injEq, TV.seq.injEq]
          refine List.map_congr_left fun t ht => ?_
          have := hi t (Nat.zero_le _) (by rw [hs]; simpa using List.mem_range.mp ht)
          rw [ARef.row_mat_touch f1.touch hC (by simp)] at this
          exact this
        · cases htv
      · rintro e h2 ⟨-, he, -⟩
        cases he
    · next h3 =>
      refine runs_seeing ((runs_newArray _ h1).imp ?_)
      rintro r h2 ⟨v, rfl, f2⟩
      have a2 := f2.addr
      have n2 := f2.next
      have hmat : v.mat m n h2 = inv * C.mat m n h := by
        rw [f2.mat, ARef.mat_touch f1.touch hC (by simp)]
      refine ⟨v, rfl, f1.touch.trans f2.touch, by omega, by omega, fun tv htv => ?_, fun _ => hmat⟩
      rcases length_of_toMats htv with ⟨hl, rfl⟩ | ⟨hl, l, rfl⟩
      · have e1 : (v.nd h2).shape = [m, n] := congrArg NDArray.shape f2.nd
        unfold NDArray.toMats
        rw [if_pos e1]
        exact congrArg some (congrArg TV.const hmat)
      · exfalso
        unfold NDArray.toMats at htv
        split at htv
        · cases htv
        · split at htv
          · rename_i hs
            exact h3 (by rw [show C.shape = _ from hs]; rfl)
          · cases htv
  · rintro C2 h' ⟨_, ⟨⟩, h1, h2, h3, h4⟩
    exact hf C2 h' h1 h2 h3 h4
  · rintro e h' ⟨_, he, -⟩
    cases he

theorem ndDecorrelated_row {inv : Mat m m} {X : ARef} {h : Heap} (hX : X.shape.length = 2) (t : ℕ)
    (i : Fin m) : (ndDecorrelated inv X h).data [t, i] = (inv *ᵥ (X.row t).vec m h) i := by
  rw [ndDecorrelated, if_pos hX]
  simp [ndRows, ndOfVec]

theorem ndDecorrelated_vec {inv : Mat m m} {X : ARef} {h : Heap} (hX : X.shape.length ≠ 2)
    (i : Fin m) : (ndDecorrelated inv X h).data [i] = (inv *ᵥ X.vec m h) i := by
  rw [ndDecorrelated, if_neg hX]
  simp [ndOfVec]

theorem ndDecorrelated_shape {inv : Mat m m} {X : ARef} {h : Heap} :
    (ndDecorrelated inv X h).shape = X.shape := by
  rw [ndDecorrelated]
  split_ifs <;> rfl

theorem ndDecorrelated_toVecs {inv : Mat m m} {X : ARef} {h : Heap} {tv : TV (Vec m)}
    (hX : (X.nd h).toVecs m = some tv) :
    (ndDecorrelated inv X h).toVecs m = some (tv.map fun v => inv *ᵥ v) := by
  unfold NDArray.toVecs at hX ⊢
  rw [ndDecorrelated_shape]
  have e2 : (X.nd h).shape = X.shape := rfl
  rw [e2] at hX
  split at hX
  · next hs =>
    rw [if_pos hs]
    cases hX
    exact congrArg some (congrArg TV.const (funext fun i => ndDecorrelated_vec (by simp [hs]) i))
  · next hs =>
    rw [if_neg hs]
    split at hX
    · rename_i T n' hs'
      split_ifs at hX ⊢ with hc
      cases hX
      simp only [TV.map, List.map_map, Option.some.injEq, TV.seq.injEq]
      exact List.map_congr_left fun t _ => funext fun i => ndDecorrelated_row (by simp [hs']) t i
    · cases hX

/-- What `decorrelate_observations` returns. -/
structure Decorrelated (n : ℕ) (inv : Mat m m) (C d Z : ARef) (h : Heap) (q : ARef × ARef × ARef)
    (h' : Heap) : Prop where
  l1 : h.next ≤ q.1.addr
  l2 : h.next ≤ q.2.1.addr
  l3 : h.next ≤ q.2.2.addr
  v1 : q.1.addr < h'.next
  v2 : q.2.1.addr < h'.next
  v3 : q.2.2.addr < h'.next
  mats : MatsDecorrelated n inv C h q.1 h'
  vecs : ∀ tv, (d.nd h).toVecs m = some tv → (q.2.1.nd h').toVecs m = some (tv.map fun v => inv *ᵥ v)
  vec : d.shape.length ≠ 2 → q.2.1.vec m h' = inv *ᵥ d.vec m h
  rows : Z.shape.length = 2 → ∀ t, (q.2.2.row t).obs m h' =
    ⟨inv *ᵥ ((Z.row t).obs m h).val, ((Z.row t).obs m h).mask⟩
  row : Z.shape.length ≠ 2 → q.2.2.obs m h' = ⟨inv *ᵥ (Z.obs m h).val, (Z.obs m h).mask⟩

theorem runs_memDecorrelate {C d R Z : ARef} {h : Heap} {f : ARef × ARef × ARef → HM β}
    {post : Res β → Heap → Prop} {r : Res (Mat m m)}
    (hr : r = if R.shape.length = 2 then cholesky (R.mat m m h) else .error .valueError)
    (hC : C.addr < h.next) (hd : d.addr < h.next) (hZ : Z.addr < h.next)
    (hok : ∀ L q h', r = .ok L → Touch ∅ h h' → Decorrelated n (pinv L) C d Z h q h' →
      Runs (f q) h' post)
    (herr : ∀ e h', r = .error e → Touch ∅ h h' → post (.error e) h') :
    Runs (memDecorrelate n m C d R Z >>= f) h post := by
  refine Runs.bind (mid := fun r' h' => Touch ∅ h h' ∧ (∀ q, r' = .ok q → ∃ L, r = .ok L ∧
    Decorrelated n (pinv L) C d Z h q h') ∧ ∀ e, r' = .error e → r = .error e) ?_ ?_ ?_
  · unfold memDecorrelate
    refine runs_memCholesky hr (fun L R2 h1 hL f1 => ?_) fun e he =>
      ⟨Touch.refl _ _, fun q hq => (by cases hq), fun e' he' => (by cases he'; exact he)⟩
    have a1 := f1.addr
    have n1 := f1.next
    refine runs_seeing ?_
    rw [f1.mat]
    refine runs_memDecorrelateMatrices (hC.trans_le f1.touch.next) fun C2 h2 t2 l2 v2 hmats => ?_
    refine runs_seeing (runs_new fun d2 h3 f3 => runs_seeing ?_)
    have t12 := f1.touch.trans t2
    have t13 := t12.trans f3.touch
    have a3 := f3.addr
    have n3 := f3.next
    have n2 := t2.next
    refine Runs.bind (mid := fun r' h' => r' = .ok ⟨h3.next, Z.shape, id⟩ ∧
      h' = ⟨h3.next + 1, Function.update h3.block h3.next
        ⟨(ndDecorrelated (pinv L) Z h3).data, (Z.ma h3).mask⟩⟩) ⟨rfl, rfl⟩ ?_ ?_
    swap
    · rintro e h4 ⟨he, -⟩
      cases he
    rintro Z2 h4 ⟨⟨⟩, hh4⟩
    have t4 : Touch ∅ h3 h4 := by
      rw [hh4]
      exact ⟨Nat.le_succ _, fun _ hx _ => Function.update_of_ne hx.ne _ _⟩
    have n4 : h4.next = h3.next + 1 := by rw [hh4]
    have hb : h4.block h3.next = ⟨(ndDecorrelated (pinv L) Z h3).data, (Z.ma h3).mask⟩ := by
      rw [hh4]
      simp
    have t14 := t13.trans t4
    refine runs_pure ⟨t14, ?_, fun e he => by cases he⟩
    rintro _ ⟨⟩
    refine ⟨L, hL, ⟨by simp only; omega, by simp only; omega, by simp only; omega,
      by simp only; omega, by simp only; omega, by simp only; omega, ?_, ?_, ?_, ?_, ?_⟩⟩
    · refine ⟨fun tv htv => ?_, fun hl => ?_⟩
      · simp only
        rw [ARef.nd_touch (f3.touch.trans t4) v2 (by simp)]
        exact hmats.1 tv (by rw [ARef.nd_touch f1.touch hC (by simp)]; exact htv)
      · simp only
        rw [ARef.mat_touch (f3.touch.trans t4) v2 (by simp), hmats.2 hl,
          ARef.mat_touch f1.touch hC (by simp)]
    · intro tv htv
      simp only
      rw [ARef.nd_touch t4 (by omega) (by simp), f3.nd]
      exact ndDecorrelated_toVecs (by rw [ARef.nd_touch t12 hd (by simp)]; exact htv)
    · intro hl
      simp only
      rw [ARef.vec_touch t4 (by omega) (by simp)]
      funext i
      simp only [ARef.vec, f3.nd]
      rw [ndDecorrelated_vec hl, ARef.vec_touch t12 hd (by simp)]
    · intro hl t
      have hv : (Z.row t).vec m h3 = (Z.row t).vec m h := ARef.row_vec_touch t13 hZ (by simp)
      simp only [ARef.obs, Obs.mk.injEq]
      constructor
      · funext i
        simp only [ARef.ma, ARef.row, id, hb]
        rw [ndDecorrelated_row hl, hv]
        rfl
      · funext i
        simp only [ARef.ma, ARef.row, id, hb, t13.block _ hZ (Set.notMem_empty _)]
    · intro hl
      have hv : Z.vec m h3 = Z.vec m h := ARef.vec_touch t13 hZ (by simp)
      simp only [ARef.obs, Obs.mk.injEq]
      constructor
      · funext i
        simp only [ARef.ma, id, hb]
        rw [ndDecorrelated_vec hl, hv]
        rfl
      · funext i
        simp only [ARef.ma, id, hb, t13.block _ hZ (Set.notMem_empty _)]
  · rintro q h1 ⟨t1, hq, -⟩
    obtain ⟨L, hL, hD⟩ := hq q rfl
    exact hok L q h1 hL t1 hD
  · rintro e h1 ⟨t1, -, he⟩
    exact herr e h1 (he e rfl) t1

end Verif
