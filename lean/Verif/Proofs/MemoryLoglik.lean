import Verif.Proofs.MemoryResults

/-! # `loglikelihood` on arrays in memory -/

open Matrix

namespace Verif

variable {α β : Type} {n m : ℕ}

theorem runs_lifted {r : Res α} {h : Heap} {f : α → HM β} {post : Res β → Heap → Prop}
    (hok : ∀ a, r = .ok a → Runs (f a) h post) (herr : ∀ e, r = .error e → post (.error e) h) :
    Runs (HM.lift r >>= f) h post := by
  cases r with
  | ok a => exact hok a rfl
  | error e => exact herr e rfl

/-- An array for all times has two axes; an array with one entry per time has not. -/
theorem length_of_toMats {X : ARef} {h : Heap} {tv : TV (Mat n m)}
    (hX : (X.nd h).toMats n m = some tv) :
    (X.shape.length = 2 ∧ tv = .const (X.mat n m h)) ∨
      (X.shape.length ≠ 2 ∧ ∃ l, tv = .seq l) := by
  unfold NDArray.toMats at hX
  have hs : (X.nd h).shape = X.shape := rfl
  rw [hs] at hX
  split at hX
  · rename_i hsh
    cases hX
    exact .inl ⟨by simp [hsh], rfl⟩
  · split at hX
    · rename_i T n' m' hsh
      split at hX
      · cases hX
        exact .inr ⟨by simp [hsh], _, rfl⟩
      · cases hX
    · cases hX

/-- The body of the loop: entry `t` is the value of the step, the others stay. -/
theorem runs_memLoglikStep {p : PRefs} {f : FRefs} {Z ll : ARef} {h : Heap} {P : Params n m}
    (hp : p.Holds ∅ h P) (hf : f.Ok h) (hZ : Z.addr < h.next) (hl : ll.addr < h.next)
    (hix : ll.ix = id) (t : ℕ) (h0 : (ll.nd h).data [t] = 0) :
    Runs (memLoglikStep n m p f Z ll t) h fun r h' => Touch {ll.addr} h h' ∧
      (∀ s, s ≠ t → (ll.nd h').data [s] = (ll.nd h).data [s]) ∧
      loglikStep P t (f.at h t) ((Z.row t).obs m h) = r.map fun _ => (ll.nd h').data [t] := by
  by_cases hm : ((Z.row t).obs m h).missing
  · have e : (memLoglikStep n m p f Z ll t) h = (pure () : HM Unit) h := by
      simp only [memLoglikStep, Bind.bind, HM.see, hm]
      rfl
    refine Runs.congr e (runs_pure ⟨Touch.refl _ _, fun _ _ => rfl, ?_⟩)
    simp only [loglikStep, hm, not_true_eq_false, if_false, ok_map, h0]
    rfl
  · have e : (memLoglikStep n m p f Z ll t) h = (HM.lift (p.C.lastDims t 2) >>= fun C =>
        HM.lift (p.d.lastDims t 1) >>= fun d =>
        HM.lift (if p.R.shape.length = 2 then .ok p.R else .error .valueError) >>= fun R =>
        HM.lift (logMvn ((Z.row t).obs m h).val
          (C.mat m n h *ᵥ (f.predMeans.row t).vec n h + d.vec m h)
          (C.mat m n h * ((f.predCovs.row t).mat n n h * (C.mat m n h)ᵀ) + R.mat m m h)) >>= fun x =>
        newArray ⟨[], fun _ => x⟩ >>= fun a => setRow ll t a) h := by
      have hb : decide ((Z.row t).obs m h).missing = false := by simpa using hm
      unfold memLoglikStep
      change (if ¬ decide ((Z.row t).obs m h).missing = true then _ else _ : HM Unit) h = _
      rw [hb, if_pos (show ¬ (false = true) by decide)]
      simp only [Bind.bind, HM.see, HM.lift]
      cases p.C.lastDims t 2 <;> [rfl; skip]
      cases p.d.lastDims t 1 <;> [rfl; skip]
      split_ifs <;> rfl
    refine Runs.congr e ?_
    have hval : loglikStep P t (f.at h t) ((Z.row t).obs m h) = (do
        let C ← p.C.lastDims t 2
        let d ← p.d.lastDims t 1
        let R ← (if p.R.shape.length = 2 then .ok p.R else .error .valueError : Res ARef)
        logMvn ((Z.row t).obs m h).val
          (C.mat m n h *ᵥ (f.predMeans.row t).vec n h + d.vec m h)
          (C.mat m n h * ((f.predCovs.row t).mat n n h * (C.mat m n h)ᵀ) + R.mat m m h)) := by
      simp only [loglikStep, hm, not_false_eq_true, if_true]
      rw [lastDims_mats hp.C, lastDims_vecs hp.d]
      rcases p.C.lastDims t 2 with e | C
      · rfl
      rcases p.d.lastDims t 1 with e | d
      · rfl
      rcases length_of_toMats hp.R with ⟨hl2, hR⟩ | ⟨hl2, l, hR⟩
      · rw [hR, if_pos hl2]; rfl
      · rw [hR, if_neg hl2]; rfl
    rw [hval]
    refine runs_lifted (fun C hC => runs_lifted (fun d hd => runs_lifted (fun R hR =>
      runs_lifted (fun x hx => ?_) ?_) ?_) ?_) ?_
    · rw [hC, hd, hR]
      refine runs_new fun a h1 f1 => runs_set fun h2 s2 => ?_
      have a1 := f1.addr
      have n1 := f1.next
      refine ⟨(f1.touch.mono (Set.empty_subset _)).trans s2.touch, fun s hs => ?_, ?_⟩
      · simp only [ARef.nd, hix, id]
        rw [s2.rest s [] hs, f1.touch.block _ hl (by simp)]
      · change logMvn _ _ _ = _
        rw [hx, ok_map]
        congr 1
        simp only [ARef.nd, hix, id]
        rw [s2.row, f1.nd]
    · rintro e he
      rw [hC, hd, hR]
      exact ⟨Touch.refl _ _, fun _ _ => rfl, he⟩
    · rintro e he
      rw [hC, hd, he]
      exact ⟨Touch.refl _ _, fun _ _ => rfl, rfl⟩
    · rintro e he
      rw [hC, he]
      exact ⟨Touch.refl _ _, fun _ _ => rfl, rfl⟩
    · rintro e he
      rw [he]
      exact ⟨Touch.refl _ _, fun _ _ => rfl, rfl⟩

theorem PRefs.Holds.of_touch {p : PRefs} {F : Set ℕ} {h h' : Heap} {P : Params n m}
    (hp : p.Holds ∅ h P) (ht : Touch F h h')
    (hF : ∀ r ∈ [p.A, p.b, p.Q, p.C, p.d, p.R, p.mu0, p.S0], r.addr ∉ F) : p.Holds ∅ h' P := by
  have hp' : p.Holds F h P := ⟨hp.A, hp.b, hp.Q, hp.C, hp.d, hp.R, hp.mu0, hp.S0, fun r hr =>
    ⟨(hp.valid r hr).1, hF r hr⟩⟩
  have := hp'.touch ht
  exact ⟨this.A, this.b, this.Q, this.C, this.d, this.R, this.mu0, this.S0, fun r hr =>
    ⟨(this.valid r hr).1, by simp⟩⟩

theorem runs_memLoglikLoop {p : PRefs} {f : FRefs} {Z ll : ARef} {P : Params n m} :
    ∀ (k t : ℕ) (h : Heap), p.Holds ∅ h P → f.Ok h → Z.addr < h.next → ll.addr < h.next →
    ll.ix = id → (∀ r ∈ [p.A, p.b, p.Q, p.C, p.d, p.R, p.mu0, p.S0], r.addr ∉ ({ll.addr} : Set ℕ)) →
    (∀ a ∈ f.addrs, a ∉ ({ll.addr} : Set ℕ)) → Z.addr ∉ ({ll.addr} : Set ℕ) →
    (∀ s, t ≤ s → (ll.nd h).data [s] = 0) →
    Runs (memLoglikLoop n m p f Z ll t k) h fun r h' => Touch {ll.addr} h h' ∧
      (∀ s, s < t → (ll.nd h').data [s] = (ll.nd h).data [s]) ∧
      loglikLoop P t ((List.range' t k).map fun s => f.at (n := n) (m := m) h s)
        ((List.range' t k).map fun s => (Z.row s).obs m h) =
      r.map fun _ => (List.range' t k).map fun s => (ll.nd h').data [s]
  | 0, t, h, _, _, _, _, _, _, _, _, _ => ⟨Touch.refl _ _, fun _ _ => rfl, rfl⟩
  | k + 1, t, h, hp, hf, hZ, hl, hix, hpF, hfF, hZF, h0 => by
    rw [List.range'_succ, List.map_cons, List.map_cons, loglikLoop]
    refine Runs.bind (runs_memLoglikStep hp hf hZ hl hix t (h0 t le_rfl)) ?_ ?_
    · rintro u₁ h₁ ⟨t₁, a₁, e₁⟩
      rw [ok_map] at e₁
      rw [e₁]
      have hat : ∀ s, f.at (n := n) (m := m) h₁ s = f.at h s := FRefs.at_touch t₁ hf hfF
      have hobs : ∀ s, (Z.row s).obs m h₁ = (Z.row s).obs m h := fun s =>
        ARef.obs_touch t₁ (r := Z.row s) hZ hZF
      refine (runs_memLoglikLoop k (t + 1) h₁ (hp.of_touch t₁ hpF) (hf.touch t₁)
        (hZ.trans_le t₁.next) (hl.trans_le t₁.next) hix hpF hfF hZF (fun s hs => by
          rw [a₁ s (by omega)]; exact h0 s (by omega))).imp fun r h₂ ⟨t₂, a₂, e₂⟩ => ?_
      refine ⟨t₁.trans t₂, fun s hs => ?_, ?_⟩
      · rw [a₂ s (by omega), a₁ s (by omega)]
      · simp only [hat, hobs] at e₂
        rw [e₂]
        cases r with
        | error e => rfl
        | ok u =>
          change Except.ok _ = Except.ok _
          rw [List.map_cons, a₂ t (by omega)]
    · rintro e h₁ ⟨t₁, a₁, e₁⟩
      rw [error_map] at e₁
      refine ⟨t₁, fun s hs => a₁ s (by omega), ?_⟩
      rw [e₁]
      rfl

theorem loglik_result {k : KFRef} {X : ARef} {h : Heap} (hk : k.Valid h) (hX : X.addr < h.next)
    {r : Res ℝ} (hr : (k.value h).loglikelihood (X.ma h) = some r) :
    Runs (k.loglikelihood X) h fun r' _ => r' = r := by
  rw [KF.loglikelihood] at hr
  rcases hp : (k.value h).prepare (X.ma h) with _ | w
  · rw [hp] at hr; cases hr
  rw [hp] at hr
  replace hr := Option.some.inj hr
  refine Runs.bind (runs_prepare hk hX hp) ?_ ?_
  · rintro p h1 ⟨t1, hok, -⟩
    obtain ⟨P, rfl, hholds, -, hZ, hm⟩ := hok p rfl
    change kfLoglik P _ = _ at hr
    rw [kfLoglik] at hr
    have hn : p.mu0.shape.headD 0 = k.nDimState := by
      have := hholds.mu0
      simp only [NDArray.toVec] at this
      split_ifs at this with hs
      change p.mu0.shape = [k.nDimState] at hs
      rw [hs]; rfl
    have hm' : X.parse.shape.getD 1 0 = k.nDimObs := by
      rcases hs : X.parse.shape with _ | ⟨a, _ | ⟨b, l⟩⟩ <;> rw [hs] at hm <;> simp_all
    refine Runs.bind (runs_memFilter hholds hZ hm) ?_ ?_
    · rintro f h2 ⟨t2, hf, e2⟩
      obtain ⟨fok, -, -, -, -, -, -⟩ := hf f rfl
      rw [e2, ok_map] at hr
      have hholds2 := hholds.touch t2
      unfold memLoglik
      simp only [hn, hm']
      have e3 : ∀ g : ARef → HM ℝ, ((newZeros [X.parse.shape.headD 0] >>= fun ll =>
          memLoglikLoop k.nDimState k.nDimObs p f X.parse ll 0 (X.parse.shape.headD 0) >>= fun _ =>
          pure ll) >>= g) h2 = (newZeros [X.parse.shape.headD 0] >>= fun ll =>
          memLoglikLoop k.nDimState k.nDimObs p f X.parse ll 0 (X.parse.shape.headD 0) >>= fun _ =>
          g ll) h2 := by
        intro g
        simp only [Bind.bind]
        rcases newZeros [X.parse.shape.headD 0] h2 with ⟨r, h3⟩
        cases r with
        | error e => rfl
        | ok ll =>
          simp only
          rcases memLoglikLoop k.nDimState k.nDimObs p f X.parse ll 0 (X.parse.shape.headD 0) h3
            with ⟨r, h4⟩
          cases r <;> rfl
      refine Runs.congr (e3 _) (runs_new fun ll h3 f3 => ?_)
      have a3 := f3.addr
      have n3 := f3.next
      have hold : ∀ a, a < h2.next → a ∉ ({ll.addr} : Set ℕ) := by
        intro a ha
        rw [Set.mem_singleton_iff]; omega
      have hZ2 : X.parse.addr < h2.next := hZ.trans_le t2.next
      have hat : ∀ s, f.at (n := k.nDimState) (m := k.nDimObs) h3 s = f.at h2 s :=
        FRefs.at_touch f3.touch fok (by simp)
      have hobs : ∀ s, (X.parse.row s).obs k.nDimObs h3 = (X.parse.row s).obs k.nDimObs h1 :=
        fun s => ARef.obs_touch (t2.trans f3.touch) (r := X.parse.row s) hZ (by simp)
      refine Runs.bind (runs_memLoglikLoop (Z := X.parse) (X.parse.shape.headD 0) 0 h3
        (hholds2.touch f3.touch) (fok.touch f3.touch) (hZ2.trans_le f3.touch.next) (by omega) f3.ix
        (fun r hr => hold _ (hholds2.valid r hr).1) (fun a ha => hold _ (by
          have hv := fok.valid
          simp only [FRefs.addrs, Set.mem_insert_iff, Set.mem_singleton_iff] at ha
          rcases ha with rfl | rfl | rfl | rfl | rfl
          · exact hv f.predMeans (by simp)
          · exact hv f.predCovs (by simp)
          · exact hv f.gains (by simp)
          · exact hv f.filtMeans (by simp)
          · exact hv f.filtCovs (by simp))) (hold _ hZ2) (fun s _ => by rw [f3.nd])) ?_ ?_
      · rintro u h4 ⟨-, -, e4⟩
        refine runs_see ?_
        rw [← hr]
        simp only [hat, hobs, ← List.range_eq_range', ok_map] at e4
        change _ = (do
          let ls ← loglikLoop P 0 ((List.range (X.parse.shape.headD 0)).map fun s =>
            f.at (n := k.nDimState) (m := k.nDimObs) h2 s) ((X.parse.ma h1).rows k.nDimObs)
          pure ls.sum)
        have e5 : (X.parse.ma h1).rows k.nDimObs = (List.range (X.parse.shape.headD 0)).map fun s =>
          (X.parse.row s).obs k.nDimObs h1 := rfl
        rw [e5, e4]
        rfl
      · rintro e h4 ⟨-, -, e4⟩
        rw [← hr]
        simp only [hat, hobs, ← List.range_eq_range', error_map] at e4
        change _ = (do
          let ls ← loglikLoop P 0 ((List.range (X.parse.shape.headD 0)).map fun s =>
            f.at (n := k.nDimState) (m := k.nDimObs) h2 s) ((X.parse.ma h1).rows k.nDimObs)
          pure ls.sum)
        have e5 : (X.parse.ma h1).rows k.nDimObs = (List.range (X.parse.shape.headD 0)).map fun s =>
          (X.parse.row s).obs k.nDimObs h1 := rfl
        rw [e5, e4]
        rfl
    · rintro e h2 ⟨-, -, e2⟩
      rw [← hr, e2]
      rfl
  · rintro e h1 ⟨-, -, herr⟩
    rw [← hr, herr e rfl]
    rfl

end Verif
