import Verif.Proofs.MemoryLoglik
import Verif.Proofs.Threads
import Verif.Props.Frontend

/-! # `em` on arrays in memory -/

open Matrix

namespace Verif

variable {α β γ : Type} {n m : ℕ}

/-! ### Pairs of consecutive states -/

theorem runs_memPairLoop {s : SRefs} {pairs : ARef} :
    ∀ (k t : ℕ) (h : Heap), s.Ok h → pairs.ix = id → pairs.addr < h.next →
    (∀ a ∈ s.addrs, a ∉ ({pairs.addr} : Set ℕ)) →
    Runs (memPairLoop n s pairs t k) h fun r h' => Touch {pairs.addr} h h' ∧ r = .ok () ∧
      (∀ u, u < t → (pairs.row u).mat n n h' = (pairs.row u).mat n n h) ∧
      (∀ u, t ≤ u → u < t + k → (pairs.row u).mat n n h' =
        (s.at (n := n) h u).cov * (s.at (n := n) h (u - 1)).gainᵀ)
  | 0, t, h, _, _, _, _ => ⟨Touch.refl _ _, rfl, fun _ _ => rfl, fun u h1 h2 => by omega⟩
  | k + 1, t, h, hs, hix, hv, hF => by
    refine runs_seeing (runs_new fun a h1 f1 => runs_setting fun h2 s2 => ?_)
    have a1 := f1.addr
    have n1 := f1.next
    have t2 : Touch {pairs.addr} h h2 := (f1.touch.mono (Set.empty_subset _)).trans s2.touch
    have hat : ∀ u, s.at (n := n) h2 u = s.at h u := SRefs.at_touch t2 hs hF
    refine (runs_memPairLoop k (t + 1) h2 (hs.touch t2) hix (hv.trans_le t2.next) hF).imp
      fun r h3 ⟨t3, e3, lo, hi⟩ => ⟨t2.trans t3, e3, fun u hu => ?_, fun u h4 h5 => ?_⟩
    · rw [lo u (by omega), s2.mat_rest hix (by omega)]
      exact ARef.row_mat_touch f1.touch hv (by simp)
    · rcases Nat.lt_or_ge t u with htu | htu
      · rw [hi u (by omega) (by omega), hat, hat]
      · have : u = t := by omega
        subst this
        rw [lo u (by omega), s2.mat hix, f1.mat]
        rfl

theorem runs_memPair {s : SRefs} {h : Heap} {T : ℕ} (hs : s.Ok h) (hsh : s.covs.shape = [T, n, n]) :
    Runs (memPair s) h fun r h' => Touch ∅ h h' ∧ ∃ pairs, r = .ok pairs ∧
      pairs.addr < h'.next ∧
      (∀ u, u < T → (pairs.row u).mat n n h' =
        if u = 0 then 0 else (s.at (n := n) h u).cov * (s.at (n := n) h (u - 1)).gainᵀ) := by
  unfold memPair
  have e1 : s.covs.shape.headD 0 = T := by rw [hsh]; rfl
  have e2 : s.covs.shape.getD 1 0 = n := by rw [hsh]; rfl
  simp only [e1, e2]
  refine runs_new fun pairs h1 f1 => ?_
  have a1 := f1.addr
  have n1 := f1.next
  have hF : ∀ a ∈ s.addrs, a ∉ ({pairs.addr} : Set ℕ) := by
    intro a ha
    have h1 := hs.v1
    have h2 := hs.v2
    have h3 := hs.v3
    simp only [SRefs.addrs, Set.mem_insert_iff, Set.mem_singleton_iff] at ha
    rw [Set.mem_singleton_iff]
    rcases ha with rfl | rfl | rfl <;> omega
  have hat : ∀ u, s.at (n := n) h1 u = s.at h u := SRefs.at_touch f1.touch hs (by simp)
  refine Runs.bind (runs_memPairLoop (T - 1) 1 h1 (hs.touch f1.touch) f1.ix (by omega) hF) ?_ ?_
  · rintro u h2 ⟨t2, -, lo, hi⟩
    refine runs_pure ⟨⟨f1.touch.next.trans t2.next, fun a ha _ => ?_⟩, pairs, rfl, ?_, fun u hu => ?_⟩
    · rw [t2.block a (by omega) (by rw [Set.mem_singleton_iff]; omega), f1.touch.block a ha (by simp)]
    · have := t2.next
      omega
    · split_ifs with h0
      · rw [h0, lo 0 (by omega)]
        ext i j
        simp only [ARef.mat, ARef.nd, ARef.row, Matrix.of_apply]
        have := congrArg NDArray.data f1.nd
        simp only [ARef.nd] at this
        exact congrFun this _
      · rw [hi u (by omega) (by omega), hat, hat]
  · rintro e h2 ⟨-, he, -⟩
    cases he

theorem smoothPairAux_rows (g : ℕ → SStep n) : ∀ k t,
    smoothPairAux (g t) ((List.range' (t + 1) k).map g) =
      (List.range' (t + 1) k).map fun u => (g u).cov * (g (u - 1)).gainᵀ
  | 0, _ => rfl
  | k + 1, t => by
    rw [List.range'_succ, List.map_cons, List.map_cons, smoothPairAux, smoothPairAux_rows g k (t + 1)]
    rfl

theorem smoothPair_rows (g : ℕ → SStep n) (T : ℕ) :
    smoothPair ((List.range T).map g) =
      (List.range T).map fun u => if u = 0 then 0 else (g u).cov * (g (u - 1)).gainᵀ := by
  cases T with
  | zero => rfl
  | succ T =>
    rw [List.range_eq_range', List.range'_succ, List.map_cons, List.map_cons, smoothPair,
      smoothPairAux_rows]
    congr 1
    refine List.map_congr_left fun u hu => ?_
    rw [List.mem_range'_1] at hu
    rw [if_neg (by omega)]

/-- The smoothed statistics that the arrays hold are those on values. -/
theorem emStatsAt_eq {s : SRefs} {pairs : ARef} {h h' : Heap} {T : ℕ}
    (hsh : s.means.shape = [T, n]) (hat : ∀ u, s.at (n := n) h' u = s.at h u)
    (hp : ∀ u, u < T → (pairs.row u).mat n n h' =
        if u = 0 then 0 else (s.at (n := n) h u).cov * (s.at (n := n) h (u - 1)).gainᵀ) :
    emStatsAt n h' s pairs =
      ((((List.range T).map fun t => s.at (n := n) h t).zip
        (smoothPair ((List.range T).map fun t => s.at (n := n) h t))).map
        fun q => ⟨q.1.mean, q.1.cov, q.2⟩) := by
  have e1 : s.means.shape.headD 0 = T := by rw [hsh]; rfl
  rw [smoothPair_rows, List.zip_map', List.map_map, emStatsAt, e1]
  refine List.map_congr_left fun u hu => ?_
  rw [List.mem_range] at hu
  rw [Function.comp, hp u hu]
  exact congr (congr (congrArg EmStats.mk (congrArg SStep.mean (hat u)))
    (congrArg SStep.cov (hat u))) rfl

theorem emStatsAt_touch {s : SRefs} {pairs : ARef} {h h' : Heap} (ht : Touch ∅ h h') (hs : s.Ok h)
    (hp : pairs.addr < h.next) : emStatsAt n h' s pairs = emStatsAt n h s pairs := by
  unfold emStatsAt
  refine List.map_congr_left fun u _ => ?_
  rw [ARef.row_vec_touch ht hs.v1 (by simp), ARef.row_mat_touch ht hs.v2 (by simp),
    ARef.row_mat_touch ht hp (by simp)]

/-! ### The M-step -/

/-- One variable of `_em`: the array given, or a new one that holds the estimate. -/
theorem runs_memEstimate {sel : Bool} {est : Heap → Res NDArray} {given : ARef} {h : Heap}
    {conv : NDArray → Option γ} {M : Res γ} {G : γ}
    (hok : ∀ a, est h = .ok a → ∃ x, M = .ok x ∧ conv a = some x)
    (herr : ∀ e, est h = .error e → M = .error e)
    (hG : conv (given.nd h) = some G) (hv : given.addr < h.next) :
    Runs (memEstimate sel est given) h fun r h' => Touch ∅ h h' ∧
      (∀ a, r = .ok a → ∃ X, emPick sel M G = .ok X ∧ conv (a.nd h') = some X ∧ a.addr < h'.next ∧
        (sel = true → h.next ≤ a.addr) ∧ (sel = false → a = given)) ∧
      (∀ e, r = .error e → emPick sel M G = .error e) := by
  unfold memEstimate emPick
  cases sel with
  | false =>
    refine runs_pure ⟨Touch.refl _ _, ?_, fun e he => by cases he⟩
    rintro a ⟨⟩
    exact ⟨G, rfl, hG, hv, fun h => (by cases h), fun _ => rfl⟩
  | true =>
    refine runs_seeing (runs_lifted (fun a ha => ?_) fun e he => ?_)
    · obtain ⟨x, hM, hx⟩ := hok a ha
      refine (runs_newArray a h).imp fun r h' ⟨v, hv, f⟩ => ⟨f.touch, ?_, ?_⟩
      · rintro a' rfl
        cases hv
        have := f.addr
        have := f.next
        refine ⟨x, by simp [hM], by rw [f.nd, hx], by omega, fun _ => by omega, fun h => by cases h⟩
      · rintro e rfl
        cases hv
    · refine ⟨Touch.refl _ _, fun a ha => (by cases ha), ?_⟩
      rintro e' ⟨⟩
      simp [herr e he]

theorem toMats_ndOfMat (M : Mat n m) : (ndOfMat M).toMats n m = some (.const M) :=
  toMats_ndOfMats (.const M)

theorem toVecs_ndOfVec (v : Vec n) : (ndOfVec v).toVecs n = some (.const v) :=
  toVecs_ndOfVecs (.const v)

theorem runs_memEstimate_mats {sel : Bool} {est : Heap → Res NDArray} {given : ARef} {h : Heap}
    {M : Res (Mat n m)} {G : TV (Mat n m)} (hest : est h = M.map ndOfMat)
    (hG : (given.nd h).toMats n m = some G) (hv : given.addr < h.next) :
    Runs (memEstimate sel est given) h fun r h' => Touch ∅ h h' ∧
      (∀ a, r = .ok a → ∃ X, emPick sel (emConst M) G = .ok X ∧ (a.nd h').toMats n m = some X ∧
        a.addr < h'.next ∧ (sel = true → h.next ≤ a.addr) ∧ (sel = false → a = given)) ∧
      (∀ e, r = .error e → emPick sel (emConst M) G = .error e) := by
  refine runs_memEstimate (fun a ha => ?_) (fun e he => ?_) hG hv
  · rw [hest] at ha
    cases M with
    | error e => cases ha
    | ok M =>
      cases ha
      exact ⟨.const M, rfl, toMats_ndOfMat M⟩
  · rw [hest] at he
    cases M with
    | ok M => cases he
    | error e => cases he; rfl

theorem runs_memEstimate_vecs {sel : Bool} {est : Heap → Res NDArray} {given : ARef} {h : Heap}
    {M : Res (Vec n)} {G : TV (Vec n)} (hest : est h = M.map ndOfVec)
    (hG : (given.nd h).toVecs n = some G) (hv : given.addr < h.next) :
    Runs (memEstimate sel est given) h fun r h' => Touch ∅ h h' ∧
      (∀ a, r = .ok a → ∃ X, emPick sel (emConst M) G = .ok X ∧ (a.nd h').toVecs n = some X ∧
        a.addr < h'.next ∧ (sel = true → h.next ≤ a.addr) ∧ (sel = false → a = given)) ∧
      (∀ e, r = .error e → emPick sel (emConst M) G = .error e) := by
  refine runs_memEstimate (fun a ha => ?_) (fun e he => ?_) hG hv
  · rw [hest] at ha
    cases M with
    | error e => cases ha
    | ok M =>
      cases ha
      exact ⟨.const M, rfl, toVecs_ndOfVec M⟩
  · rw [hest] at he
    cases M with
    | ok M => cases he
    | error e => cases he; rfl

theorem runs_memEstimate_mat {sel : Bool} {est : Heap → Res NDArray} {given : ARef} {h : Heap}
    {M : Res (Mat n m)} {G : Mat n m} (hest : est h = M.map ndOfMat)
    (hG : (given.nd h).toMat n m = some G) (hv : given.addr < h.next) :
    Runs (memEstimate sel est given) h fun r h' => Touch ∅ h h' ∧
      (∀ a, r = .ok a → ∃ X, emPick sel M G = .ok X ∧ (a.nd h').toMat n m = some X ∧
        a.addr < h'.next ∧ (sel = true → h.next ≤ a.addr) ∧ (sel = false → a = given)) ∧
      (∀ e, r = .error e → emPick sel M G = .error e) := by
  refine runs_memEstimate (fun a ha => ?_) (fun e he => ?_) hG hv
  · rw [hest] at ha
    cases M with
    | error e => cases ha
    | ok M =>
      cases ha
      exact ⟨M, rfl, by simp [NDArray.toMat, ndOfMat]; rfl⟩
  · rw [hest] at he
    cases M with
    | ok M => cases he
    | error e => cases he; rfl

/-- The estimated variables are in new arrays, the others are the arrays given. -/
structure PRefs.Estimated (p : PRefs) (sel : EmVar → Bool) (given : PRefs) (lim : ℕ) : Prop where
  A : (sel .transitionMatrices = true → lim ≤ p.A.addr) ∧
    (sel .transitionMatrices = false → p.A = given.A)
  C : (sel .observationMatrices = true → lim ≤ p.C.addr) ∧
    (sel .observationMatrices = false → p.C = given.C)
  b : (sel .transitionOffsets = true → lim ≤ p.b.addr) ∧
    (sel .transitionOffsets = false → p.b = given.b)
  d : (sel .observationOffsets = true → lim ≤ p.d.addr) ∧
    (sel .observationOffsets = false → p.d = given.d)
  Q : (sel .transitionCovariance = true → lim ≤ p.Q.addr) ∧
    (sel .transitionCovariance = false → p.Q = given.Q)
  R : (sel .observationCovariance = true → lim ≤ p.R.addr) ∧
    (sel .observationCovariance = false → p.R = given.R)
  mu0 : (sel .initialStateMean = true → lim ≤ p.mu0.addr) ∧
    (sel .initialStateMean = false → p.mu0 = given.mu0)
  S0 : (sel .initialStateCovariance = true → lim ≤ p.S0.addr) ∧
    (sel .initialStateCovariance = false → p.S0 = given.S0)

theorem ok_bind_res {x : α} {f : α → Res β} : ((.ok x : Res α) >>= f) = f x := rfl

theorem error_bind_res {e : Err} {f : α → Res β} : ((.error e : Res α) >>= f) = .error e := rfl

theorem mats_of_toMats {r : ARef} {h : Heap} {X : TV (Mat n m)}
    (hX : (r.nd h).toMats n m = some X) : r.mats n m h = X := by
  rw [ARef.mats, hX]; rfl

theorem vecs_of_toVecs {r : ARef} {h : Heap} {X : TV (Vec n)}
    (hX : (r.nd h).toVecs n = some X) : r.vecs n h = X := by
  rw [ARef.vecs, hX]; rfl

theorem vec_of_toVec {r : ARef} {h : Heap} {X : Vec n}
    (hX : (r.nd h).toVec n = some X) : r.vec n h = X := by
  simp only [NDArray.toVec] at hX
  split_ifs at hX
  cases hX
  rfl

theorem runs_memEmStep {sel : EmVar → Bool} {given old : PRefs} {Z : ARef} {s : SRefs}
    {pairs : ARef} {h : Heap} {G P : Params n m} {T b : ℕ} (hG : given.Holds ∅ h G)
    (hP : old.Holds ∅ h P) (hZ : Z.addr < h.next) (hs : s.Ok h) (hpairs : pairs.addr < h.next)
    (hsh : s.means.shape = [T, n]) (hT : 0 < T) (hb : b ≤ h.next) (hbs : b ≤ s.means.addr) :
    Runs (memEmStep n m sel given old Z s pairs) h fun r h' => Touch ∅ h h' ∧
      (∀ p, r = .ok p → ∃ P', emStep G sel P (emStatsAt n h s pairs) ((Z.ma h).rows m) = .ok P' ∧
        p.Holds ∅ h' P' ∧ p.Estimated sel given b) ∧
      (∀ e, r = .error e →
        emStep G sel P (emStatsAt n h s pairs) ((Z.ma h).rows m) = .error e) := by
  obtain ⟨ss, hss⟩ : ∃ ss, ss = emStatsAt n h s pairs := ⟨_, rfl⟩
  obtain ⟨os, hos⟩ : ∃ os, os = (Z.ma h).rows m := ⟨_, rfl⟩
  have kss : ∀ {h'}, Touch ∅ h h' → emStatsAt n h' s pairs = ss := fun t => by
    rw [hss, emStatsAt_touch t hs hpairs]
  have kos : ∀ {h'}, Touch ∅ h h' → (Z.ma h').rows m = os := fun t => by
    rw [hos, ARef.ma_touch t hZ (by simp)]
  have kG : ∀ {h'}, Touch ∅ h h' → given.Holds ∅ h' G := fun t => hG.touch t
  have kP : ∀ {h'}, Touch ∅ h h' → old.Holds ∅ h' P := fun t => hP.touch t
  have vG : ∀ {h'}, Touch ∅ h h' → ∀ r ∈ [given.A, given.b, given.Q, given.C, given.d, given.R,
    given.mu0, given.S0], r.addr < h'.next := fun t r hr => ((hG.touch t).valid r hr).1
  rw [← hss, ← hos]
  unfold memEmStep
  -- observation matrices
  refine Runs.bind (runs_memEstimate_mats (M := emObsMat P.d ss os) (by
    rw [hss, hos, vecs_of_toVecs hP.d]) hG.C (vG (Touch.refl _ _) _ (by simp))) ?_ ?_
  swap
  · rintro e h1 ⟨t1, -, he⟩
    refine ⟨t1, fun p hp => (by cases hp), ?_⟩
    rintro e' ⟨⟩
    simp only [emStep, he e rfl, error_bind_res]
  rintro C h1 ⟨t1, hok, -⟩
  obtain ⟨C', eC, hC, vC, nC, gC⟩ := hok C rfl
  -- observation covariance
  refine Runs.bind (runs_memEstimate_mats (M := emObsCov C' P.d ss os) (by
    rw [kss t1, kos t1, vecs_of_toVecs (kP t1).d, mats_of_toMats hC]) (kG t1).R
    (vG t1 _ (by simp))) ?_ ?_
  swap
  · rintro e h2 ⟨t2, -, he⟩
    refine ⟨t1.trans t2, fun p hp => (by cases hp), ?_⟩
    rintro e' ⟨⟩
    simp only [emStep, eC, ok_bind_res, he e rfl, error_bind_res]
  rintro R h2 ⟨t2, hok, -⟩
  obtain ⟨R', eR, hR, vR, nR, gR⟩ := hok R rfl
  have u2 := t1.trans t2
  -- transition matrices
  refine Runs.bind (runs_memEstimate_mats (M := emTransMat P.b ss) (by
    rw [kss u2, vecs_of_toVecs (kP u2).b]) (kG u2).A (vG u2 _ (by simp))) ?_ ?_
  swap
  · rintro e h3 ⟨t3, -, he⟩
    refine ⟨u2.trans t3, fun p hp => (by cases hp), ?_⟩
    rintro e' ⟨⟩
    simp only [emStep, eC, eR, ok_bind_res, he e rfl, error_bind_res]
  rintro A h3 ⟨t3, hok, -⟩
  obtain ⟨A', eA, hA, vA, nA, gA⟩ := hok A rfl
  have u3 := u2.trans t3
  -- transition covariance
  refine Runs.bind (runs_memEstimate_mats (M := emTransCov A' P.b ss) (by
    rw [kss u3, vecs_of_toVecs (kP u3).b, mats_of_toMats hA]) (kG u3).Q (vG u3 _ (by simp))) ?_ ?_
  swap
  · rintro e h4 ⟨t4, -, he⟩
    refine ⟨u3.trans t4, fun p hp => (by cases hp), ?_⟩
    rintro e' ⟨⟩
    simp only [emStep, eC, eR, eA, ok_bind_res, he e rfl, error_bind_res]
  rintro Q h4 ⟨t4, hok, -⟩
  obtain ⟨Q', eQ, hQ, vQ, nQ, gQ⟩ := hok Q rfl
  have u4 := u3.trans t4
  -- initial mean
  obtain ⟨mu, hmu⟩ : ∃ mu : ARef,
      mu = if sel .initialStateMean = true then s.means.row 0 else given.mu0 := ⟨_, rfl⟩
  have hmu4 : ∀ {h'}, Touch ∅ h h' → mu.addr < h'.next := by
    intro h' t
    rw [hmu]
    split_ifs
    · exact hs.v1.trans_le t.next
    · exact vG t _ (by simp)
  obtain ⟨mu', emu, hmu'⟩ : ∃ mu', emPick (sel .initialStateMean) (emInitMean ss) G.mu0 = .ok mu' ∧
      ∀ {h'}, Touch ∅ h h' → (mu.nd h').toVec n = some mu' := by
    cases hsel : sel .initialStateMean with
    | false =>
      refine ⟨G.mu0, rfl, fun t => ?_⟩
      rw [hmu, hsel]
      exact (kG t).mu0
    | true =>
      refine ⟨(s.means.row 0).vec n h, ?_, fun {h'} t => ?_⟩
      · have e1 : s.means.shape.headD 0 = T := by rw [hsh]; rfl
        obtain ⟨T', rfl⟩ : ∃ T', T = T' + 1 := ⟨T - 1, by omega⟩
        rw [hss, emStatsAt, e1, List.range_succ_eq_map, List.map_cons]
        rfl
      · rw [hmu, hsel, if_pos rfl]
        have e1 : ((s.means.row 0).nd h').shape = [n] := by
          simp [ARef.nd, ARef.row, hsh]
        rw [NDArray.toVec, if_pos e1, ← ARef.row_vec_touch t hs.v1 (by simp)]
        rfl
  -- initial covariance
  change Runs (memEstimate (sel .initialStateCovariance) (fun h =>
    (emInitCov ((if sel .initialStateMean = true then s.means.row 0 else given.mu0).vec n h)
      (emStatsAt n h s pairs)).map ndOfMat) given.S0 >>= _) h4 _
  rw [← hmu]
  refine Runs.bind (runs_memEstimate_mat (M := emInitCov mu' ss) (by
    rw [kss u4, vec_of_toVec (hmu' u4)]) (kG u4).S0 (vG u4 _ (by simp))) ?_ ?_
  swap
  · rintro e h5 ⟨t5, -, he⟩
    refine ⟨u4.trans t5, fun p hp => (by cases hp), ?_⟩
    rintro e' ⟨⟩
    simp only [emStep, eC, eR, eA, eQ, emu, ok_bind_res, he e rfl, error_bind_res]
  rintro S h5 ⟨t5, hok, -⟩
  obtain ⟨S', eS, hS, vS, nS, gS⟩ := hok S rfl
  have u5 := u4.trans t5
  -- transition offsets
  refine Runs.bind (runs_memEstimate_vecs (M := emTransOff A' ss) (by
    rw [kss u5, mats_of_toMats (r := A) (X := A') (by
      rw [ARef.nd_touch (t4.trans t5) vA (by simp)]; exact hA)]) (kG u5).b (vG u5 _ (by simp))) ?_ ?_
  swap
  · rintro e h6 ⟨t6, -, he⟩
    refine ⟨u5.trans t6, fun p hp => (by cases hp), ?_⟩
    rintro e' ⟨⟩
    simp only [emStep, eC, eR, eA, eQ, emu, eS, ok_bind_res, he e rfl, error_bind_res]
  rintro bb h6 ⟨t6, hok, -⟩
  obtain ⟨b', eb, hbb, vb, nb, gb⟩ := hok bb rfl
  have u6 := u5.trans t6
  -- observation offsets
  refine Runs.bind (runs_memEstimate_vecs (M := emObsOff C' ss os) (by
    rw [kss u6, kos u6, mats_of_toMats (r := C) (X := C') (by
      rw [ARef.nd_touch (((t2.trans t3).trans (t4.trans t5)).trans t6) vC (by simp)]; exact hC)])
    (kG u6).d (vG u6 _ (by simp))) ?_ ?_
  swap
  · rintro e h7 ⟨t7, -, he⟩
    refine ⟨u6.trans t7, fun p hp => (by cases hp), ?_⟩
    rintro e' ⟨⟩
    simp only [emStep, eC, eR, eA, eQ, emu, eS, eb, ok_bind_res, he e rfl, error_bind_res]
  rintro dd h7 ⟨t7, hok, -⟩
  obtain ⟨d', ed, hdd, vd, nd, gd⟩ := hok dd rfl
  have u7 := u6.trans t7
  refine runs_pure ⟨u7, ?_, fun e he => by cases he⟩
  rintro p ⟨⟩
  refine ⟨⟨A', b', Q', C', d', R', mu', S'⟩, ?_, ?_, ?_⟩
  · simp only [emStep, eC, eR, eA, eQ, emu, eS, eb, ed, ok_bind_res]
    rfl
  · have w7 := t7
    have w6 := t6.trans w7
    have w5 := t5.trans w6
    have w4 := t4.trans w5
    have w3 := t3.trans w4
    have w2 := t2.trans w3
    refine ⟨?_, ?_, ?_, ?_, hdd, ?_, hmu' u7, ?_, ?_⟩
    · change (A.nd h7).toMats n n = _
      rw [ARef.nd_touch w4 vA (by simp)]; exact hA
    · change (bb.nd h7).toVecs n = _
      rw [ARef.nd_touch w7 vb (by simp)]; exact hbb
    · change (Q.nd h7).toMats n n = _
      rw [ARef.nd_touch w5 vQ (by simp)]; exact hQ
    · change (C.nd h7).toMats m n = _
      rw [ARef.nd_touch w2 vC (by simp)]; exact hC
    · change (R.nd h7).toMats m m = _
      rw [ARef.nd_touch w3 vR (by simp)]; exact hR
    · change (S.nd h7).toMat n n = _
      rw [ARef.nd_touch w6 vS (by simp)]; exact hS
    · intro r hr
      refine ⟨?_, by simp⟩
      have x7 := w7.next
      have x6 := w6.next
      have x5 := w5.next
      have x4 := w4.next
      have x3 := w3.next
      have x2 := w2.next
      have xm := hmu4 u7
      simp only [List.mem_cons, List.not_mem_nil, or_false] at hr
      rcases hr with hr | hr | hr | hr | hr | hr | hr | hr <;> rw [hr]
      · change A.addr < _; omega
      · change bb.addr < _; omega
      · change Q.addr < _; omega
      · change C.addr < _; omega
      · change dd.addr < _; omega
      · change R.addr < _; omega
      · exact hmu ▸ xm
      · change S.addr < _; omega
  · have x1 := t1.next
    have x2 := u2.next
    have x3 := u3.next
    have x4 := u4.next
    have x5 := u5.next
    have x6 := u6.next
    refine ⟨⟨fun q => ?_, gA⟩, ⟨fun q => ?_, gC⟩, ⟨fun q => ?_, gb⟩, ⟨fun q => ?_, gd⟩,
      ⟨fun q => ?_, gQ⟩, ⟨fun q => ?_, gR⟩, ⟨fun q => ?_, fun q => ?_⟩, ⟨fun q => ?_, gS⟩⟩
    · have := nA q; change b ≤ A.addr; omega
    · have := nC q; change b ≤ C.addr; omega
    · have := nb q; change b ≤ bb.addr; omega
    · have := nd q; change b ≤ dd.addr; omega
    · have := nQ q; change b ≤ Q.addr; omega
    · have := nR q; change b ≤ R.addr; omega
    · change b ≤ mu.addr
      rw [hmu, if_pos q]; exact hbs
    · change mu = _
      rw [hmu, if_neg (by simp [q])]
    · have := nS q; change b ≤ S.addr; omega

/-! ### The iterations -/

theorem runs_memEmLoop {sel : EmVar → Bool} {given : PRefs} {Z : ARef} {G : Params n m} {b : ℕ}
    (hm : Z.shape.drop 1 = [m]) :
    ∀ (k : ℕ) (p : PRefs) (P : Params n m) (h : Heap), given.Holds ∅ h G → p.Holds ∅ h P →
    Z.addr < h.next → b ≤ h.next →
    Runs (memEmLoop n m sel given Z k p) h fun r h' => Touch ∅ h h' ∧
      (∀ p', r = .ok p' → ∃ P', emLoop G sel ((Z.ma h).rows m) k P = .ok P' ∧ p'.Holds ∅ h' P' ∧
        (0 < k → p'.Estimated sel given b) ∧ (k = 0 → p' = p)) ∧
      (∀ e, r = .error e → emLoop G sel ((Z.ma h).rows m) k P = .error e)
  | 0, p, P, h, hG, hP, hZ, hb => by
    refine runs_pure ⟨Touch.refl _ _, ?_, fun e he => by cases he⟩
    rintro p' ⟨⟩
    exact ⟨P, rfl, hP, fun h => absurd h (lt_irrefl _), fun _ => rfl⟩
  | k + 1, p, P, h, hG, hP, hZ, hb => by
    unfold memEmLoop
    refine Runs.bind (runs_memFilter hP hZ hm) ?_ ?_
    swap
    · rintro e h1 ⟨t1, -, e1⟩
      refine ⟨t1, fun p hp => (by cases hp), ?_⟩
      rintro e' ⟨⟩
      rw [error_map] at e1
      simp only [emLoop, emStats, e1, error_bind_res]
    rintro f h1 ⟨t1, hf, e1⟩
    obtain ⟨fok, -, -, -, -, fsh, -⟩ := hf f rfl
    rw [ok_map] at e1
    refine Runs.bind (runs_memSmooth (m := m) fok (hP.touch t1).A ((hP.touch t1).valid _ (by simp)).1
      fsh) ?_ ?_
    swap
    · rintro e h2 ⟨t2, -, e2⟩
      refine ⟨t1.trans t2, fun p hp => (by cases hp), ?_⟩
      rintro e' ⟨⟩
      rw [error_map] at e2
      simp only [emLoop, emStats, e1, e2, ok_bind_res, error_bind_res]
    rintro s h2 ⟨t2, hs, e2⟩
    obtain ⟨sok, snew, hT, ssh1, ssh2, -⟩ := hs s rfl
    rw [ok_map] at e2
    refine Runs.bind (runs_memPair sok ssh2) ?_ ?_
    swap
    · rintro e h3 ⟨-, pairs, he, -⟩
      cases he
    rintro pairs h3 ⟨t3, pairs', he, pv, prow⟩
    cases he
    have hat : ∀ u, s.at (n := n) h3 u = s.at h2 u := SRefs.at_touch t3 sok (by simp)
    have u3 := (t1.trans t2).trans t3
    have hstats := emStatsAt_eq ssh1 hat prow
    have hbs : b ≤ s.means.addr := by
      have := snew s.means.addr (by simp [SRefs.addrs])
      have := t1.next
      omega
    have est : emStats P ((Z.ma h).rows m) = .ok (emStatsAt n h3 s pairs) := by
      rw [hstats]
      simp only [emStats, e1, e2, ok_bind_res]
      rfl
    have hZ3 := ARef.ma_touch u3 hZ (by simp)
    refine Runs.bind (runs_memEmStep (b := b) (hG.touch u3) (hP.touch u3) (hZ.trans_le u3.next)
      (sok.touch t3) pv ssh1 hT (hb.trans u3.next) hbs) ?_ ?_
    swap
    · rintro e h4 ⟨t4, -, he⟩
      refine ⟨u3.trans t4, fun p hp => (by cases hp), ?_⟩
      rintro e' ⟨⟩
      have := he e rfl
      rw [hZ3] at this
      simp only [emLoop, est, ok_bind_res, this, error_bind_res]
    rintro p1 h4 ⟨t4, hok, -⟩
    obtain ⟨P1, eP1, hP1, est1⟩ := hok p1 rfl
    rw [hZ3] at eP1
    have u4 := u3.trans t4
    refine (runs_memEmLoop hm k p1 P1 h4 (hG.touch u4) hP1 (hZ.trans_le u4.next)
      (hb.trans u4.next)).imp fun r h5 ⟨t5, hok, herr⟩ => ⟨u4.trans t5, ?_, ?_⟩
    · rintro p' rfl
      obtain ⟨P', e', hP', h0, h1'⟩ := hok p' rfl
      rw [ARef.ma_touch u4 hZ (by simp)] at e'
      refine ⟨P', ?_, hP', fun _ => ?_, fun hk => by omega⟩
      · simp only [emLoop, est, ok_bind_res, eP1]
        exact e'
      · rcases Nat.eq_zero_or_pos k with hk | hk
        · rw [h1' hk]; exact est1
        · exact h0 hk
    · rintro e rfl
      have e' := herr e rfl
      rw [ARef.ma_touch u4 hZ (by simp)] at e'
      simp only [emLoop, est, ok_bind_res, eP1]
      exact e'

/-! ### The method -/

theorem array2d_of_toMats {a : NDArray} {X : TV (Mat n m)} (h : a.toMats n m = some X) :
    array2d a = a := by
  rcases a with ⟨s, f⟩
  unfold NDArray.toMats at h
  simp only at h
  split at h
  · rename_i hs; subst hs; rfl
  · split at h
    · rfl
    · cases h

theorem array1d_of_toVecs {a : NDArray} {X : TV (Vec n)} (h : a.toVecs n = some X) :
    array1d a = a := by
  rcases a with ⟨s, f⟩
  unfold NDArray.toVecs at h
  simp only at h
  split at h
  · rename_i hs; subst hs; rfl
  · split at h
    · rfl
    · cases h

theorem array1d_of_toVec {a : NDArray} {X : Vec n} (h : a.toVec n = some X) : array1d a = a := by
  simp only [NDArray.toVec] at h
  split_ifs at h with hs
  exact array1d_of_shape hs

theorem array2d_of_toMat {a : NDArray} {X : Mat n m} (h : a.toMat n m = some X) :
    array2d a = a := by
  rcases a with ⟨s, f⟩
  simp only [NDArray.toMat] at h
  split_ifs at h with hs
  subst hs
  rfl

theorem one_of {o : Option ARef} {f : ARef → ARef} {given a : ARef} {b b' : ℕ} {q : Bool} {c : Prop}
    (hbb : b ≤ b') (h1 : ∀ r, o = some r → given = f r) (h2 : o = none → b ≤ given.addr)
    (h3 : c → (q = true → b' ≤ a.addr) ∧ (q = false → a = given)) (h4 : ¬ c → a = given) :
    ((c ∧ q = true) → b ≤ a.addr) ∧ (¬ (c ∧ q = true) → ∀ r, o = some r → a = f r) ∧
      (¬ (c ∧ q = true) → o = none → b ≤ a.addr) := by
  by_cases hc : c
  · cases q with
    | true => exact ⟨fun _ => hbb.trans ((h3 hc).1 rfl), fun h => absurd ⟨hc, rfl⟩ h,
        fun h => absurd ⟨hc, rfl⟩ h⟩
    | false =>
      have := (h3 hc).2 rfl
      exact ⟨fun h => (by cases h.2), fun _ r hr => this.trans (h1 r hr), fun _ h => this ▸ h2 h⟩
  · have := h4 hc
    exact ⟨fun h => absurd h.1 hc, fun _ r hr => this.trans (h1 r hr), fun _ h => this ▸ h2 h⟩

theorem em_result {k : KFRef} {X : ARef} {h : Heap} {nIter : ℕ} {arg : Option EmNames} {qr : QR}
    {store : ℝ → ℝ} (hk : k.Valid h) (hX : X.addr < h.next)
    {r : Res (Params k.nDimState k.nDimObs)}
    (hr : (k.value h).em .standard qr store (X.ma h) nIter arg = some r) :
    Runs (k.em X nIter arg) h fun r' h' => Touch ∅ h h' ∧
      (∀ k', r' = .ok k' → ∃ P sel, r = .ok P ∧ (k.value h).emSelection arg = .ok sel ∧
        k'.Valid h' ∧ (k'.value h').resolvedSpec.typed k.nDimState k.nDimObs = some P ∧
        k'.SameSettings k ∧ ∀ v, KFRef.Kept k k' h v (0 < nIter ∧ sel v = true)) ∧
      (∀ e, r' = .error e → r = .error e) := by
  rw [KF.em] at hr
  rcases hp : (k.value h).prepare (X.ma h) with _ | w
  · rw [hp] at hr; cases hr
  rw [hp] at hr
  replace hr := Option.some.inj hr
  refine Runs.bind (runs_prepare hk hX hp) ?_ ?_
  swap
  · rintro e h1 ⟨t1, -, herr⟩
    refine ⟨t1, fun k' hk' => (by cases hk'), ?_⟩
    rintro e' ⟨⟩
    rw [← hr, herr e rfl]
    rfl
  rintro p h1 ⟨t1, hok, -⟩
  obtain ⟨P, rfl, hholds, hfrom, hZ, hm⟩ := hok p rfl
  replace hr : ((k.value h).emSelection arg >>= fun vars =>
    kfEm P ((X.parse.ma h1).rows k.nDimObs) nIter vars) = r := hr
  have hsel : (k.value h).emSelection arg = emSelection (some (arg.getD k.emVars')) := rfl
  rw [hsel] at hr ⊢
  refine runs_lifted (fun sel hs => ?_) (fun e he => ?_)
  swap
  · refine ⟨t1, fun k' hk' => (by cases hk'), ?_⟩
    rintro e' ⟨⟩
    rw [← hr, he]
    rfl
  rw [hs] at hr ⊢
  replace hr : emLoop P sel ((X.parse.ma h1).rows k.nDimObs) nIter P = r := hr
  refine Runs.bind (runs_memEmLoop (b := h1.next) hm nIter p P h1 hholds hholds hZ le_rfl) ?_ ?_
  swap
  · rintro e h2 ⟨t2, -, herr⟩
    refine ⟨t1.trans t2, fun k' hk' => (by cases hk'), ?_⟩
    rintro e' ⟨⟩
    rw [← hr, herr e rfl]
  rintro p' h2 ⟨t2, hok2, -⟩
  obtain ⟨P', e', hP', hest, hsame⟩ := hok2 p' rfl
  refine runs_pure ⟨t1.trans t2, ?_, fun e he => by cases he⟩
  rintro k' ⟨⟩
  refine ⟨P', sel, ?_, rfl, ?_, ?_, ⟨rfl, rfl, rfl, rfl, rfl⟩, ?_⟩
  · rw [← hr, e']
  · intro q hq
    refine (hP'.valid q ?_).1
    simp only [KFRef.arrays, List.filterMap_cons, id, List.filterMap_nil, List.mem_cons,
      List.not_mem_nil, or_false] at hq
    simp only [List.mem_cons, List.not_mem_nil, or_false]
    tauto
  · rw [← typed_of_holds hP']
    congr 1
    simp only [KFRef.value, KF.resolvedSpec, PRefs.value, Option.map_some, Option.getD_some,
      array2d_of_toMats hP'.A, array1d_of_toVecs hP'.b, array2d_of_toMats hP'.Q,
      array2d_of_toMats hP'.C, array1d_of_toVecs hP'.d, array2d_of_toMats hP'.R,
      array1d_of_toVec hP'.mu0, array2d_of_toMat hP'.S0]
  · obtain ⟨f1, f2, f3, f4, f5, f6, f7, f8, f9, f10, f11, f12, f13, f14, f15, f16⟩ := hfrom
    have hz : ¬ 0 < nIter → p' = p := fun h => hsame (by omega)
    intro v
    cases v with
    | transitionMatrices =>
      exact ⟨p'.A, rfl, one_of t1.next f1 f2 (fun c => (hest c).A) fun c => by rw [hz c]⟩
    | observationMatrices =>
      exact ⟨p'.C, rfl, one_of t1.next f7 f8 (fun c => (hest c).C) fun c => by rw [hz c]⟩
    | transitionOffsets =>
      exact ⟨p'.b, rfl, one_of t1.next f3 f4 (fun c => (hest c).b) fun c => by rw [hz c]⟩
    | observationOffsets =>
      exact ⟨p'.d, rfl, one_of t1.next f9 f10 (fun c => (hest c).d) fun c => by rw [hz c]⟩
    | transitionCovariance =>
      exact ⟨p'.Q, rfl, one_of t1.next f5 f6 (fun c => (hest c).Q) fun c => by rw [hz c]⟩
    | observationCovariance =>
      exact ⟨p'.R, rfl, one_of t1.next f11 f12 (fun c => (hest c).R) fun c => by rw [hz c]⟩
    | initialStateMean =>
      exact ⟨p'.mu0, rfl, one_of t1.next f13 f14 (fun c => (hest c).mu0) fun c => by rw [hz c]⟩
    | initialStateCovariance =>
      exact ⟨p'.S0, rfl, one_of t1.next f15 f16 (fun c => (hest c).S0) fun c => by rw [hz c]⟩

end Verif
