import Verif.Proofs.MemoryBierman

/-! # `_filter` of `BiermanKalmanFilter` on arrays in memory -/

open Matrix

namespace Verif

variable {α β : Type} {n m : ℕ}

/-- The two arrays of means are different and in use, and neither is a view. -/
structure MeansOk (pm fm : ARef) (h : Heap) : Prop where
  i1 : pm.ix = id
  i2 : fm.ix = id
  v1 : pm.addr < h.next
  v2 : fm.addr < h.next
  d : pm.addr ≠ fm.addr

theorem MeansOk.touch {pm fm : ARef} {F : Set ℕ} {h h' : Heap} (hc : MeansOk pm fm h)
    (ht : Touch F h h') : MeansOk pm fm h' :=
  ⟨hc.i1, hc.i2, hc.v1.trans_le ht.next, hc.v2.trans_le ht.next, hc.d⟩

theorem MeansOk.lt {pm fm : ARef} {h : Heap} (hc : MeansOk pm fm h) :
    ∀ a ∈ ({pm.addr, fm.addr} : Set ℕ), a < h.next := by
  rintro a (rfl | rfl)
  · exact hc.v1
  · exact hc.v2

/-- Row `t` of the means with the objects `q`, at present. -/
def bAt (n : ℕ) (pm fm : ARef) (h : Heap) (t : ℕ) (q : URef × URef) : BStep n :=
  ⟨(pm.row t).vec n h, q.1.value n h, (fm.row t).vec n h, q.2.value n h⟩

/-- What the first half of the body of the loop computes, from the mean and the covariance before. -/
noncomputable def bierPredOf (P : Params n m) (S : UDU n) (t : ℕ) :
    Option (Vec n × UDU n) → Res (Vec n × UDU n)
  | none => pure (P.mu0, S)
  | some s => do
    let A ← lastDims P.A (t - 1)
    let b ← lastDims P.b (t - 1)
    let Q ← match P.Q with
      | .const Q => pure Q
      | .seq _ => .error .valueError
    bierPredict A Q b s.1 s.2

/-- First half of the body of the loop. -/
theorem runs_memBierPred {p : PRefs} {S : URef} {pm fm : ARef} {h : Heap} {P : Params n m} {t : ℕ}
    {prev : Option URef} {f : URef → HM β} {post : Res β → Heap → Prop} (hc : MeansOk pm fm h)
    (hp : p.Holds {pm.addr, fm.addr} h P) (hS : S.Good n {pm.addr, fm.addr} h)
    (hprev : ∀ u, prev = some u → u.Good n {pm.addr, fm.addr} h) {r : Res (Vec n × UDU n)}
    (hr : r = bierPredOf P (S.value n h) t
      (prev.map fun u => ((fm.row (t - 1)).vec n h, u.value n h)))
    (hok : ∀ u h', r = .ok ((pm.row t).vec n h', u.value n h') → Touch {pm.addr, fm.addr} h h' →
      (∀ s, s ≠ t → (pm.row s).vec n h' = (pm.row s).vec n h) →
      (∀ s, (fm.row s).vec n h' = (fm.row s).vec n h) → u.Good n {pm.addr, fm.addr} h' →
      Runs (f u) h' post)
    (herr : ∀ e h', r = .error e → Touch {pm.addr, fm.addr} h h' →
      (∀ s, s ≠ t → (pm.row s).vec n h' = (pm.row s).vec n h) →
      (∀ s, (fm.row s).vec n h' = (fm.row s).vec n h) → post (.error e) h') :
    Runs (memBierPred n p S pm fm t prev >>= f) h post := by
  have key : ∀ (h₁ : Heap) (v : ARef) (w : URef), Touch ∅ h h₁ →
      w.Good n {pm.addr, fm.addr} h₁ → r = .ok (v.vec n h₁, w.value n h₁) →
      Runs (setRow pm t v >>= fun _ => f w) h₁ post := by
    intro h₁ v w ht hw hval
    refine runs_setting fun h₂ s₂ => ?_
    have t2 : Touch {pm.addr, fm.addr} h₁ h₂ := s₂.touch.mono (by simp)
    refine hok w h₂ ?_ ((ht.mono (Set.empty_subset _)).trans t2) (fun s hs => ?_) (fun s => ?_)
      (hw.touch t2)
    · rw [hval, s₂.vec hc.i1, hw.value t2]
    · rw [s₂.vec_rest hc.i1 hs, ARef.row_vec_touch ht hc.v1 (by simp)]
    · rw [ARef.row_vec_touch s₂.touch (hc.touch ht).v2 (by simpa using hc.d.symm),
        ARef.row_vec_touch ht hc.v2 (by simp)]
  cases prev with
  | none =>
    have e : (memBierPred n p S pm fm t none >>= f) = setRow pm t p.mu0 >>= fun _ => f S := by
      funext h
      rfl
    rw [e]
    refine key h p.mu0 S (Touch.refl _ _) hS ?_
    rw [hr]
    have e1 := hp.mu0
    simp only [NDArray.toVec] at e1
    split_ifs at e1
    cases P
    simp only [Option.some.injEq] at e1
    subst e1
    rfl
  | some u =>
    have nochange : ∀ s, s ≠ t → (pm.row s).vec n h = (pm.row s).vec n h := fun _ _ => rfl
    rcases hA : p.A.lastDims (t - 1) 2 with e | A
    · have e1 : (memBierPred n p S pm fm t (some u) >>= f) h = (.error e, h) := by
        simp only [memBierPred, hA]
        rfl
      refine Runs.congr (y := HM.lift (.error e)) e1 ?_
      refine herr e h ?_ (Touch.refl _ _) (fun _ _ => rfl) fun _ => rfl
      rw [hr]
      simp only [Option.map_some, bierPredOf, lastDims_mats hp.A, hA]
      rfl
    rcases hb : p.b.lastDims (t - 1) 1 with e | b
    · have e1 : (memBierPred n p S pm fm t (some u) >>= f) h = (.error e, h) := by
        simp only [memBierPred, hA, hb]
        rfl
      refine Runs.congr (y := HM.lift (.error e)) e1 ?_
      refine herr e h ?_ (Touch.refl _ _) (fun _ _ => rfl) fun _ => rfl
      rw [hr]
      simp only [Option.map_some, bierPredOf, lastDims_mats hp.A, hA, lastDims_vecs hp.b, hb]
      rfl
    have e1 : (memBierPred n p S pm fm t (some u) >>= f) h =
        (memBierPredict n A p.Q b (fm.row (t - 1)) u >>= fun q => setRow pm t q.1 >>= fun _ =>
          f q.2) h := by
      simp only [memBierPred, hA, hb]
      simp only [Bind.bind, HM.lift]
      rcases memBierPredict n A p.Q b (fm.row (t - 1)) u h with ⟨_ | q, h1⟩ <;> rfl
    refine Runs.congr e1 (runs_memBierPredict (r := r) ?_ ?_ ?_)
    · rw [hr]
      simp only [Option.map_some, bierPredOf, lastDims_mats hp.A, hA, lastDims_vecs hp.b, hb]
      rcases length_of_toMats hp.Q with ⟨hl, hQ⟩ | ⟨hl, l, hQ⟩
      · rw [if_pos hl, hQ]; rfl
      · rw [if_neg hl, hQ]; rfl
    · intro q h₁ hq ht l1 v1 hnew
      exact key h₁ q.1 q.2 ht (hnew.good hc.lt) hq
    · intro e h₁ he ht
      exact herr e h₁ he (ht.mono (Set.empty_subset _))
        (fun s _ => ARef.row_vec_touch ht hc.v1 (by simp))
        fun s => ARef.row_vec_touch ht hc.v2 (by simp)

/-- Second half of the body of the loop. -/
theorem runs_memBierCorr {C d Z pm fm : ARef} {u : URef} {h : Heap} {Cd : TV (Mat m n)}
    {dd : TV (Vec m)} {t : ℕ} {f : URef → HM β} {post : Res β → Heap → Prop}
    (hc : MeansOk pm fm h) (hC : (C.nd h).toMats m n = some Cd) (hd : (d.nd h).toVecs m = some dd)
    (vC : C.addr < h.next) (vd : d.addr < h.next) (vZ : Z.addr < h.next)
    (hu : u.Good n {pm.addr, fm.addr} h) {r : Res (Vec n × UDU n)}
    (hr : r = do
      let C ← lastDims Cd t
      let d ← lastDims dd t
      pure (bierCorrect C 1 d ((pm.row t).vec n h) (u.value n h) ((Z.row t).obs m h)))
    (hok : ∀ w h', r = .ok ((fm.row t).vec n h', w.value n h') → Touch {pm.addr, fm.addr} h h' →
      (∀ s, s ≠ t → (fm.row s).vec n h' = (fm.row s).vec n h) →
      (∀ s, (pm.row s).vec n h' = (pm.row s).vec n h) → w.Good n {pm.addr, fm.addr} h' →
      Runs (f w) h' post)
    (herr : ∀ e, r = .error e → post (.error e) h) :
    Runs (memBierCorr n m C d Z pm fm t u >>= f) h post := by
  rcases hC' : C.lastDims t 2 with e | C'
  · have e1 : (memBierCorr n m C d Z pm fm t u >>= f) h = (.error e, h) := by
      simp only [memBierCorr, hC']
      rfl
    refine Runs.congr (y := HM.lift (.error e)) e1 (herr e ?_)
    rw [hr]
    simp only [lastDims_mats hC, hC']
    rfl
  rcases hd' : d.lastDims t 1 with e | d'
  · have e1 : (memBierCorr n m C d Z pm fm t u >>= f) h = (.error e, h) := by
      simp only [memBierCorr, hC', hd']
      rfl
    refine Runs.congr (y := HM.lift (.error e)) e1 (herr e ?_)
    rw [hr]
    simp only [lastDims_mats hC, hC', lastDims_vecs hd, hd']
    rfl
  have e1 : (memBierCorr n m C d Z pm fm t u >>= f) h =
      (memBierCorrect n m C' d' (pm.row t) u (Z.row t) >>= fun q => setRow fm t q.1 >>= fun _ =>
        f q.2) h := by
    simp only [memBierCorr, hC', hd']
    simp only [Bind.bind, HM.lift]
    rcases memBierCorrect n m C' d' (pm.row t) u (Z.row t) h with ⟨_ | q, h1⟩ <;> rfl
  refine Runs.congr e1 (runs_memBierCorrect (by rw [lastDims_addr hC']; exact vC)
    (by rw [lastDims_addr hd']; exact vd) vZ hc.v1 (hu.mono (Set.empty_subset _))
    fun q h₁ ht _ _ hq hval => ?_)
  refine runs_setting fun h₂ s₂ => ?_
  have hgood : q.2.Good n {pm.addr, fm.addr} h₁ := by
    rcases hq with hq | hq
    · rw [hq]; exact hu.touch (ht.mono (Set.empty_subset _))
    · exact hq.good hc.lt
  have t2 : Touch {pm.addr, fm.addr} h₁ h₂ := s₂.touch.mono (by simp)
  refine hok q.2 h₂ ?_ ((ht.mono (Set.empty_subset _)).trans t2) (fun s hs => ?_) (fun s => ?_)
    (hgood.touch t2)
  · rw [hr]
    simp only [lastDims_mats hC, hC', lastDims_vecs hd, hd']
    rw [s₂.vec hc.i2, hgood.value t2, hval]
    rfl
  · rw [s₂.vec_rest hc.i2 hs, ARef.row_vec_touch ht hc.v2 (by simp)]
  · rw [ARef.row_vec_touch s₂.touch (hc.touch ht).v1 (by simpa using hc.d),
      ARef.row_vec_touch ht hc.v1 (by simp)]

/-- The step on values, from what the two halves compute. -/
theorem bierStep_of_refs {P : Params n m} {Cd : TV (Mat m n)} {dd : TV (Vec m)} {S : UDU n} {t : ℕ}
    {pv : Option (BStep n)} {o : Obs m} {r : Res (Vec n × UDU n)}
    (hr : r = bierPredOf P S t (pv.map fun s => (s.filtMean, s.filtCov))) :
    bierStep P Cd dd S t pv o = r >>= fun pred =>
      ((do
        let C ← lastDims Cd t
        let d ← lastDims dd t
        pure (bierCorrect C 1 d pred.1 pred.2 o) : Res (Vec n × UDU n))) >>= fun c =>
      pure ⟨pred.1, pred.2, c.1, c.2⟩ := by
  rw [hr]
  cases pv with
  | none =>
    simp only [bierStep, bierPredOf, Option.map_some, Option.map_none]
    rcases lastDims Cd t with e | C
    · rfl
    rcases lastDims dd t with e | d <;> rfl
  | some s =>
    simp only [bierStep, bierPredOf, Option.map_some, Option.map_none]
    rcases lastDims P.A (t - 1) with e | A
    · rfl
    rcases lastDims P.b (t - 1) with e | b
    · rfl
    have hQ : ∀ q : Res (Mat n n), ((q >>= fun Q => bierPredict A Q b s.filtMean s.filtCov) >>=
        fun pred => (do
          let C ← lastDims Cd t
          let d ← lastDims dd t
          let c := bierCorrect C 1 d pred.1 pred.2 o
          pure ⟨pred.1, pred.2, c.1, c.2⟩ : Res (BStep n))) =
        ((q >>= fun Q => bierPredict A Q b s.filtMean s.filtCov) >>= fun pred =>
        ((do
          let C ← lastDims Cd t
          let d ← lastDims dd t
          pure (bierCorrect C 1 d pred.1 pred.2 o) : Res (Vec n × UDU n))) >>= fun c =>
        pure ⟨pred.1, pred.2, c.1, c.2⟩) := by
      intro q
      rcases (q >>= fun Q => bierPredict A Q b s.filtMean s.filtCov) with e | pred
      · rfl
      rcases lastDims Cd t with e | C
      · rfl
      rcases lastDims dd t with e | d <;> rfl
    cases P.Q with
    | const Q => exact hQ (pure Q)
    | seq l => exact hQ (.error .valueError)

/-- The loop. -/
theorem runs_memBierLoop {p : PRefs} {C d Z pm fm : ARef} {S : URef} {P : Params n m}
    {Cd : TV (Mat m n)} {dd : TV (Vec m)} {Sv : UDU n} :
    ∀ (k t : ℕ) (h : Heap) (prev : Option URef) (pv : Option (BStep n)), MeansOk pm fm h →
    p.Holds {pm.addr, fm.addr} h P →
    ((C.nd h).toMats m n = some Cd ∧ C.addr < h.next ∧ C.addr ∉ ({pm.addr, fm.addr} : Set ℕ)) →
    ((d.nd h).toVecs m = some dd ∧ d.addr < h.next ∧ d.addr ∉ ({pm.addr, fm.addr} : Set ℕ)) →
    (Z.addr < h.next ∧ Z.addr ∉ ({pm.addr, fm.addr} : Set ℕ)) →
    (S.Good n {pm.addr, fm.addr} h ∧ S.value n h = Sv) →
    (∀ u, prev = some u → u.Good n {pm.addr, fm.addr} h) →
    Option.Rel (fun u (b : BStep n) => b.filtMean = (fm.row (t - 1)).vec n h ∧
      b.filtCov = u.value n h) prev pv →
    Runs (memBierLoop n m p C d Z S pm fm t k prev) h fun r h' => Touch {pm.addr, fm.addr} h h' ∧
      (∀ s, s < t → (pm.row s).vec n h' = (pm.row s).vec n h ∧
        (fm.row s).vec n h' = (fm.row s).vec n h) ∧
      (∀ l, r = .ok l → l.length = k ∧ ∀ q ∈ l, q.1.Good n {pm.addr, fm.addr} h' ∧
        q.2.Good n {pm.addr, fm.addr} h') ∧
      bierLoop P Cd dd Sv t pv ((List.range' t k).map fun s => (Z.row s).obs m h) =
      r.map fun l => List.zipWith (bAt n pm fm h') (List.range' t k) l
  | 0, t, h, prev, pv, _, _, _, _, _, _, _, _ =>
    runs_pure ⟨Touch.refl _ _, fun _ _ => ⟨rfl, rfl⟩, fun l hl => by cases hl; simp, rfl⟩
  | k + 1, t, h, prev, pv, hc, hp, hC, hd, hZ, hS, hprev, hrel => by
    have keepC : ∀ {h h' : Heap}, Touch {pm.addr, fm.addr} h h' →
        ((C.nd h).toMats m n = some Cd ∧ C.addr < h.next ∧ C.addr ∉ ({pm.addr, fm.addr} : Set ℕ)) →
        ((C.nd h').toMats m n = some Cd ∧ C.addr < h'.next ∧
          C.addr ∉ ({pm.addr, fm.addr} : Set ℕ)) := fun ht hC =>
      ⟨by rw [ARef.nd_touch ht hC.2.1 hC.2.2]; exact hC.1, hC.2.1.trans_le ht.next, hC.2.2⟩
    have keepd : ∀ {h h' : Heap}, Touch {pm.addr, fm.addr} h h' →
        ((d.nd h).toVecs m = some dd ∧ d.addr < h.next ∧ d.addr ∉ ({pm.addr, fm.addr} : Set ℕ)) →
        ((d.nd h').toVecs m = some dd ∧ d.addr < h'.next ∧
          d.addr ∉ ({pm.addr, fm.addr} : Set ℕ)) := fun ht hd =>
      ⟨by rw [ARef.nd_touch ht hd.2.1 hd.2.2]; exact hd.1, hd.2.1.trans_le ht.next, hd.2.2⟩
    have hobs : ∀ {h' : Heap}, Touch {pm.addr, fm.addr} h h' → ∀ s,
        (Z.row s).obs m h' = (Z.row s).obs m h := fun ht s =>
      ARef.obs_touch ht (r := Z.row s) hZ.1 hZ.2
    obtain ⟨r₁, hr₁⟩ : ∃ r₁, r₁ = bierPredOf P Sv t (pv.map fun s => (s.filtMean, s.filtCov)) :=
      ⟨_, rfl⟩
    have hr₁' : r₁ = bierPredOf P (S.value n h) t
        (prev.map fun u => ((fm.row (t - 1)).vec n h, u.value n h)) := by
      rw [hr₁, hS.2]
      cases hrel with
      | none => rfl
      | some hb => simp only [Option.map_some, hb.1, hb.2]
    rw [List.range'_succ, List.map_cons, bierLoop, bierStep_of_refs hr₁]
    refine runs_memBierPred hc hp hS.1 hprev hr₁' ?_ ?_
    swap
    · intro e h₁ he t₁ a₁ b₁
      refine ⟨t₁, fun s hs => ⟨a₁ s (by omega), b₁ s⟩, fun l hl => (by cases hl), ?_⟩
      rw [he]
      rfl
    intro u h₁ hu t₁ a₁ b₁ gu
    rw [hu]
    obtain ⟨r₂, hr₂⟩ : ∃ r₂ : Res (Vec n × UDU n), r₂ = (do
      let C ← lastDims Cd t
      let d ← lastDims dd t
      pure (bierCorrect C 1 d ((pm.row t).vec n h₁) (u.value n h₁) ((Z.row t).obs m h₁))) :=
      ⟨_, rfl⟩
    have hval : ∀ rest : Option (BStep n) → Res (List (BStep n)),
        ((Except.ok ((pm.row t).vec n h₁, u.value n h₁) >>= fun pred =>
          ((do
            let C ← lastDims Cd t
            let d ← lastDims dd t
            pure (bierCorrect C 1 d pred.1 pred.2 ((Z.row t).obs m h)) : Res (Vec n × UDU n))) >>=
          fun c => pure ⟨pred.1, pred.2, c.1, c.2⟩) >>= fun s => rest (some s) >>= fun l =>
          pure (s :: l)) =
        (r₂ >>= fun c => rest (some ⟨(pm.row t).vec n h₁, u.value n h₁, c.1, c.2⟩) >>= fun l =>
          pure (⟨(pm.row t).vec n h₁, u.value n h₁, c.1, c.2⟩ :: l)) := by
      intro rest
      rw [hr₂, hobs t₁ t]
      rcases lastDims Cd t with e | C
      · rfl
      rcases lastDims dd t with e | d <;> rfl
    have hval' := hval fun pv => bierLoop P Cd dd Sv (t + 1) pv
      ((List.range' (t + 1) k).map fun s => (Z.row s).obs m h)
    refine runs_memBierCorr (hc.touch t₁) (keepC t₁ hC).1 (keepd t₁ hd).1 (keepC t₁ hC).2.1
      (keepd t₁ hd).2.1 (hZ.1.trans_le t₁.next) gu hr₂ ?_ ?_
    swap
    · intro e he
      refine ⟨t₁, fun s hs => ⟨a₁ s (by omega), b₁ s⟩, fun l hl => (by cases hl), ?_⟩
      refine hval'.trans ?_
      rw [he]
      rfl
    intro w h₂ hw t₂ a₂ b₂ gw
    have t12 := t₁.trans t₂
    refine Runs.bind (runs_memBierLoop k (t + 1) h₂ (some w)
      (some ⟨(pm.row t).vec n h₁, u.value n h₁, (fm.row t).vec n h₂, w.value n h₂⟩)
      (hc.touch t12) (hp.touch t12) (keepC t12 hC) (keepd t12 hd)
      ⟨hZ.1.trans_le t12.next, hZ.2⟩ ⟨hS.1.touch t12, (hS.1.value t12).trans hS.2⟩
      (by rintro _ ⟨⟩; exact gw) (.some ⟨by rw [Nat.add_sub_cancel], rfl⟩)) ?_ ?_
    · rintro l h₃ ⟨t₃, a₃, g₃, e₃⟩
      refine runs_pure ⟨t12.trans t₃, fun s hs => ?_, ?_, ?_⟩
      · have := a₃ s (by omega)
        exact ⟨by rw [this.1, b₂, a₁ s (by omega)], by rw [this.2, a₂ s (by omega), b₁]⟩
      · rintro _ ⟨⟩
        obtain ⟨hl, hg⟩ := g₃ l rfl
        refine ⟨by simp [hl], ?_⟩
        intro q hq
        rcases List.mem_cons.mp hq with rfl | hq
        · exact ⟨gu.touch (t₂.trans t₃), gw.touch t₃⟩
        · exact hg q hq
      · refine hval'.trans ?_
        simp only [hobs t12] at e₃
        rw [hw, ok_bind_res]
        simp only [e₃, ok_map, ok_bind_res]
        change Except.ok _ = Except.ok _
        rw [List.zipWith_cons_cons]
        congr 2
        have := a₃ t (by omega)
        simp only [bAt, BStep.mk.injEq]
        exact ⟨by rw [this.1, b₂], (gu.value (t₂.trans t₃)).symm, this.2.symm, (gw.value t₃).symm⟩
    · rintro e h₃ ⟨t₃, a₃, -, e₃⟩
      refine ⟨t12.trans t₃, fun s hs => ?_, fun l hl => (by cases hl), ?_⟩
      · have := a₃ s (by omega)
        exact ⟨by rw [this.1, b₂, a₁ s (by omega)], by rw [this.2, a₂ s (by omega), b₁]⟩
      · refine hval'.trans ?_
        simp only [hobs t12] at e₃
        rw [hw, ok_bind_res]
        simp only [e₃, error_map, error_bind_res]

end Verif
