import Verif.Spec.Memory
import Verif.Proofs.MemoryEm

/-! # `sample` with arrays in memory -/

open Matrix

namespace Verif

variable {σ α β : Type} {n m : ℕ}

/-! ### Frames -/

theorem frame_memSampleState (rng : Rng σ) (n : ℕ) (p : PRefs) (X initial Q : ARef) (t : ℕ) (s : σ)
    (h : Heap) : Frame {X.addr} (memSampleState rng n p X initial Q t s) h := by
  unfold memSampleState
  split
  · exact (frame_setRow (Set.mem_singleton _) _ _ _).bind fun _ _ _ => frame_pure _ _ _
  · exact (frame_lift _ _ _).bind fun _ _ _ => (frame_lift _ _ _).bind fun _ _ _ =>
      (frame_lift _ _ _).bind fun _ _ _ => (frame_see _ _ _).bind fun _ _ _ =>
      (frame_see _ _ _).bind fun _ _ _ => (frame_newArray _ _ _).bind fun _ _ _ =>
      (frame_setRow (Set.mem_singleton _) _ _ _).bind fun _ _ _ => frame_pure _ _ _

theorem frame_memSampleObs (rng : Rng σ) (n m : ℕ) (p : PRefs) (X Y R : ARef) (t : ℕ) (s : σ)
    (h : Heap) : Frame {Y.addr} (memSampleObs rng n m p X Y R t s) h :=
  (frame_lift _ _ _).bind fun _ _ _ => (frame_lift _ _ _).bind fun _ _ _ =>
      (frame_lift _ _ _).bind fun _ _ _ => (frame_see _ _ _).bind fun _ _ _ =>
      (frame_see _ _ _).bind fun _ _ _ => (frame_newArray _ _ _).bind fun _ _ _ =>
      (frame_setRow (Set.mem_singleton _) _ _ _).bind fun _ _ _ => frame_pure _ _ _

theorem frame_memSampleLoop (rng : Rng σ) (n m : ℕ) (p : PRefs) (X Y initial : ARef) :
    ∀ (k t : ℕ) (Q R : ARef) (s : σ) (h : Heap),
      Frame {X.addr, Y.addr} (memSampleLoop rng n m p X Y initial k t Q R s) h
  | 0, _, _, _, _, h => frame_pure _ _ h
  | k + 1, t, Q, R, s, h =>
    Frame.bind ((frame_memSampleState rng n p X initial Q t s h).imp fun _ _ t => t.mono (by simp))
      fun x _ _ => Frame.bind ((frame_memSampleObs rng n m p X Y R t x.2 _).imp fun _ _ t =>
        t.mono (by simp)) fun y _ _ => frame_memSampleLoop rng n m p X Y initial k (t + 1) _ _ _ _

theorem frame_sample (rng : Rng σ) (k : KFRef) (T : ℕ) (initial : Option ARef) (gen : Res σ)
    (h : Heap) : Frame ∅ (k.sample rng T initial gen) h := by
  refine (frame_memInitialize k h).bind fun p h0 t0 => ?_
  refine frame_new (Touch.refl _ h0) fun v1 h1 t1 a1 => frame_new t1 fun v2 h2 t2 a2 => ?_
  refine frame_then t2 (frame_lift ∅ _ _) (by simp) fun s h3 t3 => ?_
  have key : ∀ (i : ARef × σ) (h' : Heap), Touch ∅ h0 h' → Runs (memSampleLoop rng
      (p.A.shape.reverse.getD 1 0) (p.C.shape.reverse.getD 1 0) p v1 v2 i.1 T 0 p.Q p.R i.2 >>=
      fun _ => pure (v1, v2)) h' fun _ h'' => Touch ∅ h0 h'' := by
    intro i h' t'
    refine frame_then t' (frame_memSampleLoop rng _ _ p v1 v2 i.1 T 0 p.Q p.R i.2 h') ?_
      fun _ _ t'' => runs_pure t''
    intro a ha
    simp only [Set.mem_insert_iff, Set.mem_singleton_iff] at ha
    omega
  cases initial with
  | some r => exact key (r, s) h3 t3
  | none =>
    exact frame_new t3 fun a h4 t4 a4 => key (a, _) h4 t4

/-! ### Values -/

/-- An array that holds a constant or varying matrix, in a block in use outside `F`. -/
structure ARef.HoldsMats (r : ARef) (F : Set ℕ) (h : Heap) (M : TV (Mat n m)) : Prop where
  value : (r.nd h).toMats n m = some M
  valid : r.addr < h.next
  other : r.addr ∉ F

theorem ARef.HoldsMats.touch {r : ARef} {F : Set ℕ} {h h' : Heap} {M : TV (Mat n m)}
    (hr : r.HoldsMats F h M) (ht : Touch F h h') : r.HoldsMats F h' M :=
  ⟨by rw [ARef.nd_touch ht hr.valid hr.other]; exact hr.value, hr.valid.trans_le ht.next, hr.other⟩

theorem ARef.HoldsMats.lastDims {r v : ARef} {F : Set ℕ} {h : Heap} {M : TV (Mat n m)}
    (hr : r.HoldsMats F h M) {t : ℕ} (hv : r.lastDims t 2 = .ok v) :
    v.HoldsMats F h (rebind (v.mat n m h)) := by
  have ha := lastDims_addr hv
  refine ⟨?_, by rw [ha]; exact hr.valid, by rw [ha]; exact hr.other⟩
  have hs : v.shape = [n, m] := by
    have h1 := hr.value
    unfold NDArray.toMats at h1
    have hs : (r.nd h).shape = r.shape := rfl
    rw [hs] at h1
    unfold ARef.lastDims at hv
    split at h1
    · rename_i hsh
      rw [hsh] at hv
      simp at hv
      rw [← hv, hsh]
    · split at h1
      · rename_i T n' m' hsh
        split at h1
        · rename_i hnm
          rw [hsh] at hv
          by_cases ht : t < T
          · simp [ht] at hv
            rw [← hv]
            simp [ARef.row, hsh, hnm.1, hnm.2]
          · simp [ht] at hv
        · cases h1
      · cases h1
  rw [NDArray.toMats, if_pos (by exact hs)]
  rfl

theorem runs_liftOk {a : α} {h : Heap} {f : α → HM β} {post : Res β → Heap → Prop}
    (hf : Runs (f a) h post) : Runs (HM.lift (.ok a) >>= f) h post := hf

/-- First half of the body of the loop, for `t ≥ 1`. -/
theorem runs_memSampleState {rng : Rng σ} {p : PRefs} {X initial Q : ARef} {F : Set ℕ} {h : Heap}
    {P : Params n m} {TQ : TV (Mat n n)} (hp : p.Holds F h P) (hQ : Q.HoldsMats F h TQ)
    (hX : X.ix = id) (hXv : X.addr < h.next) (hXF : X.addr ∈ F) {t : ℕ} (ht : t ≠ 0) (s : σ)
    {f : ARef × σ → HM β} {post : Res β → Heap → Prop}
    (herr : ∀ e, (do
      let A ← lastDims P.A (t - 1)
      let b ← lastDims P.b (t - 1)
      let Qt ← lastDims TQ (t - 1)
      pure (A, b, Qt) : Res _) = .error e → post (.error e) h)
    (hok : ∀ A b Qt Q' h', lastDims P.A (t - 1) = .ok A → lastDims P.b (t - 1) = .ok b →
      lastDims TQ (t - 1) = .ok Qt → Touch {X.addr} h h' → Q'.HoldsMats F h' (rebind Qt) →
      (X.row t).vec n h' = A *ᵥ (X.row (t - 1)).vec n h + b + (rng.normal n 0 Qt s).1 →
      (∀ u, u ≠ t → (X.row u).vec n h' = (X.row u).vec n h) →
      Runs (f (Q', (rng.normal n 0 Qt s).2)) h' post) :
    Runs (memSampleState rng n p X initial Q t s >>= f) h post := by
  have e : (memSampleState rng n p X initial Q t s >>= f) =
      HM.lift (p.A.lastDims (t - 1) 2) >>= fun A => HM.lift (p.b.lastDims (t - 1) 1) >>= fun b =>
      HM.lift (Q.lastDims (t - 1) 2) >>= fun Q => (HM.see fun h => rng.normal n 0 (Q.mat n n h) s) >>=
      fun w => (HM.see fun h => A.mat n n h *ᵥ (X.row (t - 1)).vec n h + b.vec n h + w.1) >>=
      fun v => newArray (ndOfVec v) >>= fun a => setRow X t a >>= fun _ => f (Q, w.2) := by
    funext h
    rw [memSampleState, if_neg ht]
    simp only [bind, HM.lift]
    cases p.A.lastDims (t - 1) 2
    · rfl
    cases p.b.lastDims (t - 1) 1
    · rfl
    cases Q.lastDims (t - 1) 2 <;> rfl
  rw [e]
  have eA := lastDims_mats hp.A (t - 1)
  have eb := lastDims_vecs hp.b (t - 1)
  have eQ := lastDims_mats hQ.value (t - 1)
  rw [eA, eb, eQ] at herr
  cases hA : p.A.lastDims (t - 1) 2 with
  | error e => exact herr e (by rw [hA]; rfl)
  | ok A =>
  cases hb : p.b.lastDims (t - 1) 1 with
  | error e => exact herr e (by rw [hA, hb]; rfl)
  | ok b =>
  cases hQ' : Q.lastDims (t - 1) 2 with
  | error e => exact herr e (by rw [hA, hb, hQ']; rfl)
  | ok Q' =>
  refine runs_liftOk (runs_liftOk (runs_liftOk (runs_seeing (runs_seeing
    (runs_new fun a h1 f1 => runs_setting fun h2 s2 => ?_)))))
  have t1 : Touch F h h1 := f1.touch.mono (by simp)
  have t2 : Touch F h1 h2 := s2.touch.mono (by simpa using hXF)
  refine hok (A.mat n n h) (b.vec n h) (Q'.mat n n h) Q' h2 (by rw [eA, hA]; rfl)
    (by rw [eb, hb]; rfl) (by rw [eQ, hQ']; rfl)
    ((f1.touch.mono (by simp)).trans s2.touch) ((hQ.lastDims hQ').touch (t1.trans t2)) ?_ ?_
  · rw [s2.vec hX, f1.vec]
  · intro u hu
    rw [s2.vec_rest hX hu, ARef.row_vec_touch f1.touch hXv (by simp)]

/-- Second half of the body of the loop. -/
theorem runs_memSampleObs {rng : Rng σ} {p : PRefs} {X Y R : ARef} {F : Set ℕ} {h : Heap}
    {P : Params n m} {TR : TV (Mat m m)} (hp : p.Holds F h P) (hR : R.HoldsMats F h TR)
    (hY : Y.ix = id) (hYv : Y.addr < h.next) (hYF : Y.addr ∈ F) (t : ℕ) (s : σ)
    {f : ARef × σ → HM β} {post : Res β → Heap → Prop}
    (herr : ∀ e, (do
      let C ← lastDims P.C t
      let d ← lastDims P.d t
      let Rt ← lastDims TR t
      pure (C, d, Rt) : Res _) = .error e → post (.error e) h)
    (hok : ∀ C d Rt R' h', lastDims P.C t = .ok C → lastDims P.d t = .ok d →
      lastDims TR t = .ok Rt → Touch {Y.addr} h h' → R'.HoldsMats F h' (rebind Rt) →
      (Y.row t).vec m h' = C *ᵥ (X.row t).vec n h + d + (rng.normal m 0 Rt s).1 →
      (∀ u, u ≠ t → (Y.row u).vec m h' = (Y.row u).vec m h) →
      Runs (f (R', (rng.normal m 0 Rt s).2)) h' post) :
    Runs (memSampleObs rng n m p X Y R t s >>= f) h post := by
  have e : (memSampleObs rng n m p X Y R t s >>= f) =
      HM.lift (p.C.lastDims t 2) >>= fun C => HM.lift (p.d.lastDims t 1) >>= fun d =>
      HM.lift (R.lastDims t 2) >>= fun R => (HM.see fun h => rng.normal m 0 (R.mat m m h) s) >>=
      fun w => (HM.see fun h => C.mat m n h *ᵥ (X.row t).vec n h + d.vec m h + w.1) >>=
      fun v => newArray (ndOfVec v) >>= fun a => setRow Y t a >>= fun _ => f (R, w.2) := by
    funext h
    simp only [memSampleObs, bind, HM.lift]
    cases p.C.lastDims t 2
    · rfl
    cases p.d.lastDims t 1
    · rfl
    cases R.lastDims t 2 <;> rfl
  rw [e]
  have eC := lastDims_mats hp.C t
  have ed := lastDims_vecs hp.d t
  have eR := lastDims_mats hR.value t
  rw [eC, ed, eR] at herr
  cases hC : p.C.lastDims t 2 with
  | error e => exact herr e (by rw [hC]; rfl)
  | ok C =>
  cases hd : p.d.lastDims t 1 with
  | error e => exact herr e (by rw [hC, hd]; rfl)
  | ok d =>
  cases hR' : R.lastDims t 2 with
  | error e => exact herr e (by rw [hC, hd, hR']; rfl)
  | ok R' =>
  refine runs_liftOk (runs_liftOk (runs_liftOk (runs_seeing (runs_seeing
    (runs_new fun a h1 f1 => runs_setting fun h2 s2 => ?_)))))
  have t1 : Touch F h h1 := f1.touch.mono (by simp)
  have t2 : Touch F h1 h2 := s2.touch.mono (by simpa using hYF)
  refine hok (C.mat m n h) (d.vec m h) (R'.mat m m h) R' h2 (by rw [eC, hC]; rfl)
    (by rw [ed, hd]; rfl) (by rw [eR, hR']; rfl)
    ((f1.touch.mono (by simp)).trans s2.touch) ((hR.lastDims hR').touch (t1.trans t2)) ?_ ?_
  · rw [s2.vec hY, f1.vec]
  · intro u hu
    rw [s2.vec_rest hY hu, ARef.row_vec_touch f1.touch hYv (by simp)]

/-- Row `t` of the two arrays, at present. -/
def sampleRow (n m : ℕ) (X Y : ARef) (h : Heap) (t : ℕ) : Vec n × Vec m :=
  ((X.row t).vec n h, (Y.row t).vec m h)

/-- The loop from `t ≥ 1` on. -/
theorem runs_memSampleLoop {rng : Rng σ} {p : PRefs} {X Y initial : ARef} {F : Set ℕ}
    {P : Params n m} (hX : X.ix = id) (hY : Y.ix = id) (hXY : X.addr ≠ Y.addr) (hXF : X.addr ∈ F)
    (hYF : Y.addr ∈ F) :
    ∀ (k t : ℕ) (Q R : ARef) (TQ : TV (Mat n n)) (TR : TV (Mat m m)) (s : σ) (h : Heap), t ≠ 0 →
    p.Holds F h P → Q.HoldsMats F h TQ → R.HoldsMats F h TR → X.addr < h.next → Y.addr < h.next →
    Runs (memSampleLoop rng n m p X Y initial k t Q R s) h fun r h' =>
      (∀ u, u < t → sampleRow n m X Y h' u = sampleRow n m X Y h u) ∧
      sampleLoop rng P k t TQ TR ((X.row (t - 1)).vec n h) s =
        r.map fun _ => (List.range' t k).map (sampleRow n m X Y h')
  | 0, t, Q, R, TQ, TR, s, h, _, _, _, _, _, _ => ⟨fun _ _ => rfl, rfl⟩
  | k + 1, t, Q, R, TQ, TR, s, h, ht, hp, hQ, hR, hXv, hYv => by
    refine runs_memSampleState hp hQ hX hXv hXF ht s ?_ ?_
    · intro e he
      refine ⟨fun _ _ => rfl, ?_⟩
      rw [sampleLoop]
      revert he
      cases lastDims P.A (t - 1) with
      | error e' => rintro ⟨⟩; rfl
      | ok A =>
      cases lastDims P.b (t - 1) with
      | error e' => rintro ⟨⟩; rfl
      | ok b =>
      cases lastDims TQ (t - 1) with
      | error e' => rintro ⟨⟩; rfl
      | ok q => rintro ⟨⟩
    intro A b Qt Q' h1 hA hb hQt t1 hQ' hx hrest
    have t1F : Touch F h h1 := t1.mono (by simpa using hXF)
    have hYk : ∀ u, (Y.row u).vec m h1 = (Y.row u).vec m h := fun u =>
      ARef.row_vec_touch t1 hYv (by simpa using hXY.symm)
    refine runs_memSampleObs (n := n) (hp.touch t1F) (hR.touch t1F) hY (hYv.trans_le t1.next) hYF t _
      ?_ ?_
    · intro e he
      refine ⟨fun u hu => Prod.ext (hrest u (by omega)) (hYk u), ?_⟩
      rw [sampleLoop]
      simp only [hA, hb, hQt, bind, Except.bind]
      revert he
      cases lastDims P.C t with
      | error e' => rintro ⟨⟩; rfl
      | ok C =>
      cases lastDims P.d t with
      | error e' => rintro ⟨⟩; rfl
      | ok d =>
      cases lastDims TR t with
      | error e' => rintro ⟨⟩; rfl
      | ok q => rintro ⟨⟩
    intro C d Rt R' h2 hC hd hRt t2 hR' hy hrest2
    have t2F : Touch F h1 h2 := t2.mono (by simpa using hYF)
    have hXk : ∀ u, (X.row u).vec n h2 = (X.row u).vec n h1 := fun u =>
      ARef.row_vec_touch t2 (hXv.trans_le t1.next) (by simpa using hXY)
    refine (runs_memSampleLoop hX hY hXY hXF hYF k (t + 1) Q' R' (rebind Qt) (rebind Rt) _ h2
      (by omega) ((hp.touch t1F).touch t2F) (hQ'.touch t2F) hR'
      (hXv.trans_le (t1.next.trans t2.next)) (hYv.trans_le (t1.next.trans t2.next))).imp
      fun r h' ⟨e1, e2⟩ => ⟨fun u hu => ?_, ?_⟩
    · rw [e1 u (by omega)]
      exact Prod.ext ((hXk u).trans (hrest u (by omega))) ((hrest2 u (by omega)).trans (hYk u))
    · have hrow : sampleRow n m X Y h' t = (A *ᵥ (X.row (t - 1)).vec n h + b + (rng.normal n 0 Qt s).1,
          C *ᵥ (A *ᵥ (X.row (t - 1)).vec n h + b + (rng.normal n 0 Qt s).1) + d +
            (rng.normal m 0 Rt (rng.normal n 0 Qt s).2).1) := by
        rw [e1 t (by omega)]
        exact Prod.ext ((hXk t).trans hx) (by rw [← hx]; exact hy)
      rw [Nat.add_sub_cancel, hXk, hx] at e2
      rw [sampleLoop]
      simp only [hA, hb, hQt, hC, hd, hRt, bind, Except.bind, e2]
      cases r with
      | error e => rfl
      | ok q =>
        simp only [Except.map, pure, Except.pure, List.range'_succ, List.map_cons, hrow]

/-- The whole loop. -/
theorem runs_memSampleAll {rng : Rng σ} {p : PRefs} {X Y initial : ARef} {F : Set ℕ}
    {P : Params n m} (hX : X.ix = id) (hY : Y.ix = id) (hXY : X.addr ≠ Y.addr) (hXF : X.addr ∈ F)
    (hYF : Y.addr ∈ F) (T : ℕ) (s : σ) (h : Heap) (hp : p.Holds F h P) (hXv : X.addr < h.next)
    (hYv : Y.addr < h.next) :
    Runs (memSampleLoop rng n m p X Y initial T 0 p.Q p.R s) h fun r h' =>
      kfSample rng P T (some (initial.vec n h)) s =
        r.map fun _ => (List.range T).map (sampleRow n m X Y h') := by
  cases T with
  | zero => exact rfl
  | succ k =>
    have hQ : p.Q.HoldsMats F h P.Q := ⟨hp.Q, (hp.valid p.Q (by simp)).1, (hp.valid p.Q (by simp)).2⟩
    have hR : p.R.HoldsMats F h P.R := ⟨hp.R, (hp.valid p.R (by simp)).1, (hp.valid p.R (by simp)).2⟩
    have e : memSampleLoop rng n m p X Y initial (k + 1) 0 p.Q p.R s = setRow X 0 initial >>= fun _ =>
        memSampleObs rng n m p X Y p.R 0 s >>= fun y =>
        memSampleLoop rng n m p X Y initial k 1 p.Q y.1 y.2 := rfl
    rw [e]
    refine runs_setting fun h1 s1 => ?_
    have t1F : Touch F h h1 := s1.touch.mono (by simpa using hXF)
    refine runs_memSampleObs (n := n) (hp.touch t1F) (hR.touch t1F) hY (by rw [s1.next]; exact hYv)
      hYF 0 s ?_ ?_
    · intro e he
      rw [kfSample]
      revert he
      cases lastDims P.C 0 with
      | error e' => rintro ⟨⟩; rfl
      | ok C =>
      cases lastDims P.d 0 with
      | error e' => rintro ⟨⟩; rfl
      | ok d =>
      cases lastDims P.R 0 with
      | error e' => rintro ⟨⟩; rfl
      | ok q => rintro ⟨⟩
    intro C d Rt R' h2 hC hd hRt t2 hR' hy hrest2
    have t2F : Touch F h1 h2 := t2.mono (by simpa using hYF)
    have hXk : ∀ u, (X.row u).vec n h2 = (X.row u).vec n h1 := fun u =>
      ARef.row_vec_touch t2 (by rw [s1.next]; exact hXv) (by simpa using hXY)
    have hx : (X.row 0).vec n h1 = initial.vec n h := s1.vec hX
    refine (runs_memSampleLoop hX hY hXY hXF hYF k 1 p.Q R' P.Q (rebind Rt) _ h2
      (by omega) ((hp.touch t1F).touch t2F) ((hQ.touch t1F).touch t2F) hR'
      ((by rw [s1.next]; exact hXv : X.addr < h1.next).trans_le t2.next)
      ((by rw [s1.next]; exact hYv : Y.addr < h1.next).trans_le t2.next)).imp
      fun r h' ⟨e1, e2⟩ => ?_
    have hrow : sampleRow n m X Y h' 0 = (initial.vec n h,
        C *ᵥ initial.vec n h + d + (rng.normal m 0 Rt s).1) := by
      rw [e1 0 (by omega)]
      exact Prod.ext ((hXk 0).trans hx) (by rw [← hx]; exact hy)
    rw [Nat.sub_self, hXk, hx] at e2
    rw [kfSample]
    simp only [hC, hd, hRt, bind, Except.bind, e2]
    cases r with
    | error e => rfl
    | ok q =>
      simp only [Except.map, pure, Except.pure, List.range_eq_range', List.range'_succ, List.map_cons,
        hrow, Nat.zero_add]

theorem toMats_reverse {a : NDArray} {M : TV (Mat n m)} (h : a.toMats n m = some M) :
    a.shape.reverse.getD 1 0 = n := by
  unfold NDArray.toMats at h
  split at h
  · rename_i hs; rw [hs]; rfl
  · split at h
    · rename_i T n' m' hs
      split at h
      · rename_i hnm
        rw [hs]
        simp [hnm.1]
      · cases h
    · cases h

theorem holdsSample_of {h : Heap} {a b : ARef} {T : ℕ} (ha : a.shape = [T, n])
    (hb : b.shape = [T, m]) : HoldsSample h a b ((List.range T).map (sampleRow n m a b h)) := by
  refine ⟨by simpa using ha, by simpa using hb, ?_, ?_⟩
  · intro t ht i
    simp [sampleRow, ARef.vec, ARef.nd, ARef.row]
  · intro t ht i
    simp [sampleRow, ARef.vec, ARef.nd, ARef.row]

theorem sample_result {rng : Rng σ} {k : KFRef} {T : ℕ} {initial : Option ARef} {gen : Res σ}
    {h : Heap} (hk : k.Valid h) (hi : ∀ r, initial = some r → r.addr < h.next)
    {rp : Res (Params k.nDimState k.nDimObs)} (hp : (k.value h).params = some rp)
    {r : Res (List (Vec k.nDimState × Vec k.nDimObs))}
    (hr : (rp >>= fun P => gen >>= fun s =>
      kfSample rng P T (initial.map (ARef.vec k.nDimState h)) s) = r) :
    Runs (k.sample rng T initial gen) h fun r' h' =>
      (∀ q, r' = .ok q → ∃ l, r = .ok l ∧ h.next ≤ q.1.addr ∧ q.1.addr < h'.next ∧
        h.next ≤ q.2.addr ∧ q.2.addr < h'.next ∧ q.1.addr ≠ q.2.addr ∧ HoldsSample h' q.1 q.2 l) ∧
      (∀ e, r' = .error e → r = .error e) := by
  refine Runs.bind (runs_memInitialize hk) ?_ ?_
  swap
  · rintro e h1 ⟨-, -, herr⟩
    refine ⟨fun q hq => (by cases hq), ?_⟩
    rintro _ ⟨⟩
    simp only [KF.params, herr e rfl] at hp
    cases hp
    exact hr.symm
  rintro p h1 ⟨t1, hok, -⟩
  obtain ⟨hi1, -, hv⟩ := hok p rfl
  simp only [KF.params, hi1] at hp
  rcases hP : (p.value h1).typed (k.value h).nDimState (k.value h).nDimObs with _ | P
  · simp only [hP] at hp; cases hp
  simp only [hP] at hp
  cases hp
  have hP' : (p.value h1).typed k.nDimState k.nDimObs = some P := hP
  have holds := holds_of_typed hP' hv
  change (gen >>= fun s => kfSample rng P T (initial.map (ARef.vec k.nDimState h)) s) = r at hr
  have en : p.A.shape.reverse.getD 1 0 = k.nDimState := toMats_reverse holds.A
  have em : p.C.shape.reverse.getD 1 0 = k.nDimObs := toMats_reverse holds.C
  rw [en, em]
  refine runs_new fun X h2 f2 => runs_new fun Y h3 f3 => ?_
  have a2 := f2.addr
  have n2 := f2.next
  have a3 := f3.addr
  have n3 := f3.next
  have n1 := t1.next
  have holds' : ∀ {h'}, Touch ∅ h3 h' → p.Holds {X.addr, Y.addr} h' P := by
    intro h' t'
    have hh := (holds.touch (f2.touch.trans f3.touch)).touch t'
    refine ⟨hh.A, hh.b, hh.Q, hh.C, hh.d, hh.R, hh.mu0, hh.S0, fun q hq => ⟨(hh.valid q hq).1, ?_⟩⟩
    have := (holds.valid q hq).1
    simp only [Set.mem_insert_iff, Set.mem_singleton_iff]
    omega
  cases gen with
  | error e =>
    refine ⟨fun q hq => (by cases hq), ?_⟩
    rintro _ ⟨⟩
    exact hr.symm
  | ok s =>
  refine runs_liftOk ?_
  change kfSample rng P T (initial.map (ARef.vec k.nDimState h)) s = r at hr
  have sX : X.shape = [T, k.nDimState] := congrArg NDArray.shape f2.nd
  have sY : Y.shape = [T, k.nDimObs] := congrArg NDArray.shape f3.nd
  have key : ∀ (i : ARef × σ) (h' : Heap), Touch ∅ h3 h' →
      kfSample rng P T (some (i.1.vec k.nDimState h')) i.2 = r →
      Runs (memSampleLoop rng k.nDimState k.nDimObs p X Y i.1 T 0 p.Q p.R i.2 >>=
        fun _ => pure (X, Y)) h' fun r' h' =>
      (∀ q, r' = .ok q → ∃ l, r = .ok l ∧ h.next ≤ q.1.addr ∧ q.1.addr < h'.next ∧
        h.next ≤ q.2.addr ∧ q.2.addr < h'.next ∧ q.1.addr ≠ q.2.addr ∧ HoldsSample h' q.1 q.2 l) ∧
      (∀ e, r' = .error e → r = .error e) := by
    intro i h' t' hr
    have n' := t'.next
    refine Runs.bind ((runs_memSampleAll f2.ix f3.ix (by omega) (by simp) (by simp) T i.2 h'
      (holds' t') (by omega) (by omega)).and (frame_memSampleLoop rng k.nDimState k.nDimObs p X Y i.1
      T 0 p.Q p.R i.2 h')) ?_ ?_
    · rintro _ h4 ⟨e4, t4⟩
      have n4 := t4.next
      refine runs_pure ⟨?_, fun e he => by cases he⟩
      rintro _ ⟨⟩
      refine ⟨_, hr.symm.trans e4, ?_, ?_, ?_, ?_, ?_, holdsSample_of sX sY⟩ <;> simp only <;> omega
    · rintro e h4 ⟨e4, -⟩
      refine ⟨fun q hq => (by cases hq), ?_⟩
      rintro _ ⟨⟩
      exact hr.symm.trans e4
  cases initial with
  | some x =>
    refine key (x, s) h3 (Touch.refl _ _) ?_
    have hx := hi x rfl
    rw [ARef.vec_touch (t1.trans (f2.touch.trans f3.touch)) hx (by simp)]
    exact hr
  | none =>
    refine runs_seeing (runs_new fun a h4 f4 => ?_)
    refine key (a, _) h4 f4.touch ?_
    rw [f4.vec]
    have hh := holds' (Touch.refl _ h3)
    have e1 : p.mu0.vec k.nDimState h3 = P.mu0 := by
      have := hh.mu0
      rw [NDArray.toVec] at this
      split at this
      · exact Option.some.inj this
      · cases this
    have e2 : p.S0.mat k.nDimState k.nDimState h3 = P.S0 := by
      have := hh.S0
      rw [NDArray.toMat] at this
      split at this
      · exact Option.some.inj this
      · cases this
    rw [e1, e2]
    rw [← hr]
    cases T <;> rfl

end Verif
