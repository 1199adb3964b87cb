import Verif.Proofs.MemoryUnscented

/-! # The loops of the unscented filters and smoothers on arrays in memory -/

open Matrix

namespace Verif

variable {n m N : ℕ} {V W : Set ℕ} {K : Constants} {h h' : Heap} {b : ℕ}

/-- Row `t` of both arrays. -/
def MRef.at (F : MRef) (t : ℕ) : MRef := ⟨F.mean.row t, F.cov.row t⟩

/-- Two arrays to which rows are assigned. -/
structure Rows (W V : Set ℕ) (h : Heap) (F : MRef) : Prop where
  ixm : F.mean.ix = id
  ixc : F.cov.ix = id
  ne : F.mean.addr ≠ F.cov.addr
  mean : F.mean.Apart W h
  cov : F.cov.Apart W h
  memm : F.mean.addr ∈ V
  memc : F.cov.addr ∈ V

theorem Rows.touch {F : MRef} (r : Rows W V h F) (t : Touch V h h') : Rows W V h' F :=
  ⟨r.ixm, r.ixc, r.ne, ⟨r.mean.1.trans_le t.next, r.mean.2⟩, ⟨r.cov.1.trans_le t.next, r.cov.2⟩,
    r.memm, r.memc⟩

theorem Rows.rel {F : MRef} (r : Rows W V h F) (t : ℕ) : MRel W h (F.at t) ((F.at t).value n h) :=
  ⟨r.mean.row t, r.cov.row t, rfl⟩

/-- A row of both arrays is assigned. -/
theorem refines_setRows {F M : MRef} {Mv : Moments n} (hF : Rows W V h F) {t : ℕ}
    (hM : M.mean.vec n h = Mv.mean ∧ M.cov.mat n n h = Mv.cov)
    (hne : M.cov.addr ≠ F.mean.addr)
    {γ δ : Type} {f : Unit → HM γ} {w : Res δ} {S : Heap → γ → δ → Prop}
    (hf : ∀ h', Touch V h h' → (F.at t).value n h' = Mv →
      (∀ s, s ≠ t → (F.at s).value n h' = (F.at s).value n h) → Refines V h' (f ()) w S) :
    Refines V h (setRow F.mean t M.mean >>= fun _ => setRow F.cov t M.cov >>= f) w S := by
  refine refines_setting hF.memm fun h1 s1 => refines_setting hF.memc fun h2 s2 => ?_
  have t1 : Touch {F.mean.addr} h h1 := s1.touch
  have t2 : Touch {F.cov.addr} h1 h2 := s2.touch
  have lt1 : F.mean.addr < h1.next := hF.mean.1.trans_le t1.next
  have hcov : M.cov.mat n n h1 = Mv.cov := by
    rw [← hM.2]
    ext i j
    simp only [ARef.mat, ARef.nd, s1.other _ hne]
  have hcovs : ∀ s, (F.cov.row s).mat n n h1 = (F.cov.row s).mat n n h := fun s => by
    ext i j
    simp only [ARef.mat, ARef.nd, ARef.row, s1.other _ hF.ne.symm]
  refine hf h2 ((t1.mono (by simpa using hF.memm)).trans (t2.mono (by simpa using hF.memc))) ?_ ?_
  · simp only [MRef.value, MRef.at]
    rw [ARef.row_vec_touch t2 lt1 (by simpa using hF.ne), s1.vec hF.ixm, s2.mat hF.ixc, hM.1, hcov]
  · intro s hs
    simp only [MRef.value, MRef.at]
    rw [ARef.row_vec_touch t2 lt1 (by simpa using hF.ne), s1.vec_rest hF.ixm hs,
      s2.mat_rest hF.ixc hs, hcovs]

theorem refines_memUkfLoop {step : ℕ → MRef → ARef → HM MRef}
    {vstep : ℕ → Option (Moments n) → Obs m → Res (Moments n)} {M₀ F : MRef} {Mv₀ : Moments n}
    {Z : ARef} {h₀ : Heap} (hWV : W ⊆ V)
    (hstep : ∀ h', Touch V h₀ h' → StepAt W h' step vstep Mv₀) (hF : Rows W V h₀ F)
    (hM₀ : MRel V h₀ M₀ Mv₀) (hZ : Z.Apart V h₀) :
    ∀ (k t : ℕ) (h : Heap), Touch V h₀ h →
      Refines V h (memUkfLoop step M₀ F Z t k)
        (runLoop vstep t (prevOf t ((F.at (t - 1)).value n h))
          ((List.range' t k).map fun i => (Z.row i).obs m h₀))
        fun h' _ l => l = (List.range' t k).map (fun i => (F.at i).value n h') ∧
          ∀ s, s < t → (F.at s).value n h' = (F.at s).value n h
  | 0, _, _, _ => refines_pure ⟨rfl, fun _ _ => rfl⟩
  | k + 1, t, h, t0 => by
    have hFh := hF.touch t0
    rw [List.range'_succ, List.map_cons, runLoop, memUkfLoop]
    let Mv : Moments n := if t = 0 then Mv₀ else (F.at (t - 1)).value n h
    have hprev : prevOf t ((F.at (t - 1)).value n h) = prevOf t Mv := by
      unfold prevOf
      split
      · rfl
      · rename_i ht; simp only [Mv, if_neg ht]
    have hin : MRel W h (if t = 0 then M₀ else ⟨F.mean.row (t - 1), F.cov.row (t - 1)⟩) Mv := by
      by_cases ht : t = 0
      · simp only [Mv, if_pos ht]
        have := hM₀.touch t0
        exact ⟨this.mean.narrow hWV, this.cov.narrow hWV, this.eq⟩
      · simp only [Mv, if_neg ht]
        exact hFh.rel (t - 1)
    have ho : ORel W h (Z.row t) ((Z.row t).obs m h₀) :=
      ⟨((hZ.touch t0).narrow hWV).row t, (hZ.row t).obs t0⟩
    rw [hprev]
    refine (((hstep h t0 t _ Mv _ _ hin (fun ht => if_pos ht) ho).imp (S := fun h1 r v =>
      MNew W h.next h1 r v ∧ ∀ s, (F.at s).value n h1 = (F.at s).value n h)
      fun r rv h1 t1 _ hr => ⟨hr, fun s => ((hFh.rel s).touch t1).eq⟩).mono hWV).bind
      fun r rv h1 t1 _ hr => ?_
    obtain ⟨hr, hkeep⟩ := hr
    have hF1 := hFh.touch t1
    refine refines_setRows hF1 ⟨hr.rel.vec.eq, hr.rel.mat.eq⟩ (by
      have := hr.cov
      have := hFh.mean.1
      omega) fun h2 t2 hrow hrest => ?_
    have ih := refines_memUkfLoop hWV hstep hF hM₀ hZ k (t + 1) h2 ((t0.trans t1).trans t2)
    have e : prevOf (t + 1) ((F.at (t + 1 - 1)).value n h2) = some rv := by
      rw [prevOf, if_neg (Nat.succ_ne_zero t), Nat.add_sub_cancel, hrow]
    rw [e] at ih
    refine ih.post ?_
    rintro _ l h3 t3 - ⟨rfl, hl⟩
    refine ⟨?_, fun s hs => ?_⟩
    · rw [List.map_cons, hl t (Nat.lt_succ_self t), hrow]
    · rw [hl s (by omega), hrest s (by omega), hkeep s]

/-! ### Backwards -/

/-- The loop of a smoother on values, from the last row on. -/
def downLoop {σ : Type} (step : ℕ → σ → σ → Res σ) (filt : ℕ → σ) : ℕ → σ × List σ → Res (σ × List σ)
  | 0, r => .ok r
  | t + 1, r => step t (filt t) r.1 >>= fun x => downLoop step filt t (x, r.1 :: r.2)

theorem backLoop_down {σ : Type} (step : ℕ → σ → σ → Res σ) (filt : ℕ → σ) :
    ∀ k i, (backLoop step i (filt i) ((List.range' (i + 1) k).map filt) >>= downLoop step filt i) =
      downLoop step filt (i + k) (filt (i + k), [])
  | 0, _ => rfl
  | k + 1, i => by
    rw [List.range'_succ, List.map_cons, backLoop]
    have ih := backLoop_down step filt k (i + 1)
    rw [show i + (k + 1) = i + 1 + k by omega, ← ih]
    simp only [bind_assoc]
    congr 1

theorem backFull_down {σ : Type} (step : ℕ → σ → σ → Res σ) (filt : ℕ → σ) (k : ℕ) :
    backFull step ((List.range' 0 (k + 1)).map filt) =
      downLoop step filt k (filt k, []) >>= fun r => .ok (r.1 :: r.2) := by
  rw [List.range'_succ, List.map_cons, backFull]
  have := backLoop_down step filt k 0
  rw [show 0 + k = k by omega] at this
  rw [← this, bind_assoc]
  rfl

theorem refines_memUksLoop {step : ℕ → MRef → MRef → HM MRef}
    {vstep : ℕ → Moments n → Moments n → Res (Moments n)} {F S : MRef} {h₀ : Heap} (hWV : W ⊆ V)
    (hstep : ∀ h', Touch V h₀ h' → BackAt W h' step vstep)
    (hF : F.mean.Apart V h₀ ∧ F.cov.Apart V h₀) (hS : Rows W V h₀ S) :
    ∀ (t j : ℕ) (h : Heap), Touch V h₀ h →
      Refines V h (memUksLoop step F S t)
        (downLoop vstep (fun i => (F.at i).value n h₀) t ((S.at t).value n h,
          (List.range' (t + 1) j).map fun i => (S.at i).value n h))
        fun h' _ r => r.1 :: r.2 = (List.range' 0 (t + 1 + j)).map fun i => (S.at i).value n h'
  | 0, j, h, _ => refines_pure (by
      rw [show 0 + 1 + j = j + 1 by omega, List.range'_succ, List.map_cons])
  | t + 1, j, h, t0 => by
    have hSh := hS.touch t0
    have hf : MRel V h (F.at t) ((F.at t).value n h₀) :=
      MRel.touch ⟨hF.1.row t, hF.2.row t, rfl⟩ t0
    rw [downLoop, memUksLoop]
    refine (((hstep h t0 t _ _ _ _ ⟨hf.mean.narrow hWV, hf.cov.narrow hWV, hf.eq⟩
      (hSh.rel (t + 1))).imp (S := fun h1 r v =>
      MNew W h.next h1 r v ∧ ∀ s, (S.at s).value n h1 = (S.at s).value n h)
      fun r rv h1 t1 _ hr => ⟨hr, fun s => ((hSh.rel s).touch t1).eq⟩).mono hWV).bind
      fun r rv h1 t1 _ hr => ?_
    obtain ⟨hr, hkeep⟩ := hr
    refine refines_setRows (hSh.touch t1) ⟨hr.rel.vec.eq, hr.rel.mat.eq⟩ (by
      have := hr.cov
      have := hSh.mean.1
      omega) fun h2 t2 hrow hrest => ?_
    have ih := refines_memUksLoop hWV hstep hF hS t (j + 1) h2 ((t0.trans t1).trans t2)
    have e : ((S.at t).value n h2, (List.range' (t + 1) (j + 1)).map fun i => (S.at i).value n h2) =
        (rv, (S.at (t + 1)).value n h ::
          (List.range' (t + 1 + 1) j).map fun i => (S.at i).value n h) := by
      rw [hrow, List.range'_succ, List.map_cons, hrest _ (by omega), hkeep]
      congr 2
      refine List.map_congr_left fun i hi => ?_
      rw [List.mem_range'_1] at hi
      rw [hrest _ (by omega), hkeep]
    rw [e] at ih
    refine ih.imp fun _ _ _ _ _ hr => ?_
    rw [hr]
    congr 2
    omega

/-! ### The methods up to the loops -/

theorem newZeros_shape {shape : List ℕ} {a : ARef} (f : Fresh ⟨shape, fun _ => 0⟩ h a h') :
    a.shape = shape := congrArg NDArray.shape f.nd

/-- After making two arrays to which rows will be assigned. -/
theorem two_arrays (e : Env W K W h) {a c : ARef} {h1 h2 : Heap} {A C : NDArray}
    (f1 : Fresh A h a h1) (f2 : Fresh C h1 c h2) :
    Widens W (W ∪ {a.addr, c.addr}) h ∧ Env W K (W ∪ {a.addr, c.addr}) h2 ∧
      Rows W (W ∪ {a.addr, c.addr}) h2 ⟨a, c⟩ ∧ Touch ∅ h h2 ∧ h.next ≤ a.addr ∧ h.next ≤ c.addr := by
  have a1 := f1.addr
  have n1 := f1.next
  have a2 := f2.addr
  have n2 := f2.next
  have t02 : Touch ∅ h h2 := f1.touch.trans f2.touch
  have w : Widens W (W ∪ {a.addr, c.addr}) h := ⟨Set.subset_union_left, fun x hx hW => by
    rcases hx with hx | hx | hx
    · exact absurd hx hW
    · omega
    · have hx' : x = c.addr := hx
      omega⟩
  refine ⟨w, ⟨w.sub, fun x hx => ?_, fun x hx =>
    ⟨(e.kept x hx).1.trans_le t02.next, (t02.block x (e.kept x hx).1 (by simp)).trans (e.kept x hx).2⟩,
    fun x hx hV => ?_⟩,
    ⟨f1.ix, f2.ix, by simp only; omega, ⟨by simp only; omega, e.fresh a1.ge⟩,
      ⟨by simp only; omega, e.fresh (by simp only; omega)⟩, by simp, by simp⟩, t02, by omega, by omega⟩
  · rcases hx with hx | hx | hx
    · exact (e.old x hx).trans_le t02.next
    · omega
    · have hx' : x = c.addr := hx
      omega
  · exact absurd (e.kept x hx).1 (not_lt.mpr (w.new x hV (e.apart x hx)))

/-- Arrays in `V` that were not in use at first do not count. -/
theorem Refines.forget {α β : Type} {x : HM α} {v : Res β} {R : Heap → α → β → Prop} {h₀ : Heap}
    (w : Widens W V h₀) (t0 : Touch W h₀ h) (hx : Refines V h x v R) :
    Runs x h fun r h' => Touch W h₀ h' ∧ ResRel (R h') r v :=
  Runs.imp hx fun _ h' ⟨t, hr⟩ => ⟨⟨t0.next.trans t.next, fun a ha hW => by
    rw [t.block a (ha.trans_le t0.next) fun hV => absurd ha (not_lt.mpr (w.new a hV hW)),
      t0.block a ha hW]⟩, hr⟩

/-- The result of a filter or smoother: two new arrays. -/
structure Made (W : Set ℕ) (h h' : Heap) (T n : ℕ) (F : MRef) : Prop where
  mean : h.next ≤ F.mean.addr ∧ F.mean.addr < h'.next
  cov : h.next ≤ F.cov.addr ∧ F.cov.addr < h'.next
  ne : F.mean.addr ≠ F.cov.addr
  shape_mean : F.mean.shape = [T, n]
  shape_cov : F.cov.shape = [T, n, n]

theorem Made.newRows {T : ℕ} {F : MRef} (hF : Made W h h' T n F) :
    F.NewRows h h' ((List.range' 0 T).map fun i => (F.at i).value n h') := by
  refine ⟨hF.mean, hF.cov, hF.ne, ?_⟩
  have := holdsRows_of (h := h') hF.shape_mean hF.shape_cov
  rw [List.map_map, ← List.range_eq_range']
  exact this

theorem refines_memUkf {init : HM (ℕ → MRef → ARef → HM MRef)}
    {v : Res (ℕ → Option (Moments n) → Obs m → Res (Moments n))} {M₀ : MRef} {Mv₀ : Moments n}
    {Z : ARef} (e : Env W K W h) (hM₀ : MRel W h M₀ Mv₀) (hZ : Z.Apart W h)
    (hinit : ∀ V h', Touch V h h' → Widens W V h → Env W K V h' → Refines W h' init v
      fun h'' step vstep => ∀ h₃, Touch V h'' h₃ → StepAt W h₃ step vstep Mv₀) :
    Refines W h (memUkf n init M₀ Z)
      (v >>= fun vstep => runLoop vstep 0 none
        ((List.range' 0 (Z.shape.headD 0)).map fun i => (Z.row i).obs m h))
      fun h' F l => Made W h h' (Z.shape.headD 0) n F ∧
        l = (List.range' 0 (Z.shape.headD 0)).map fun i => (F.at i).value n h' := by
  refine runs_new fun a h1 f1 => runs_new fun c h2 f2 => ?_
  obtain ⟨w, eV, hF2, t02, ha, hc⟩ := two_arrays e f1 f2
  have s1 := newZeros_shape f1
  have s2 := newZeros_shape f2
  have t02V : Touch (W ∪ {a.addr, c.addr}) h h2 := t02.mono (Set.empty_subset _)
  refine Refines.forget w (t02.mono (Set.empty_subset W)) ?_
  refine ((hinit _ h2 t02V w eV).mono w.sub).bind fun step vstep h3 t3 _ hs => ?_
  have hM3 : MRel (W ∪ {a.addr, c.addr}) h3 M₀ Mv₀ := by
    have h1 : MRel (W ∪ {a.addr, c.addr}) h M₀ Mv₀ := ⟨hM₀.mean.widen w, hM₀.cov.widen w, hM₀.eq⟩
    exact (h1.touch t02V).touch t3
  have tV := t02V.trans t3
  have loop := refines_memUkfLoop w.sub hs (hF2.touch t3) hM3 ((hZ.widen w).touch tV)
    (Z.shape.headD 0) 0 h3 (Touch.refl _ h3)
  have hobs : ((List.range' 0 (Z.shape.headD 0)).map fun i => (Z.row i).obs m h3) =
      (List.range' 0 (Z.shape.headD 0)).map fun i => (Z.row i).obs m h :=
    List.map_congr_left fun i _ => ((hZ.widen w).row i).obs tV
  rw [hobs, prevOf, if_pos rfl] at loop
  have h5 := loop.bind (g := fun l => .ok l) (f := fun _ => pure (⟨a, c⟩ : MRef))
    (S := fun h' F l => Made W h h' (Z.shape.headD 0) n F ∧
      l = (List.range' 0 (Z.shape.headD 0)).map fun i => (F.at i).value n h')
    fun _ l h4 t4 _ hl => refines_pure ⟨⟨⟨ha, hF2.mean.1.trans_le (t3.trans t4).next⟩,
      ⟨hc, hF2.cov.1.trans_le (t3.trans t4).next⟩, hF2.ne, s1, s2⟩, hl.1⟩
  rcases hr : runLoop vstep 0 none
      ((List.range' 0 (Z.shape.headD 0)).map fun i => (Z.row i).obs m h) with _ | _
  all_goals
    rw [hr] at h5
    exact h5

theorem refines_memUks {init : HM (ℕ → MRef → MRef → HM MRef)}
    {vstep : ℕ → Moments n → Moments n → Res (Moments n)} {F : MRef} {T : ℕ} (e : Env W K W h)
    (hF : F.mean.Apart W h ∧ F.cov.Apart W h) (hT : F.mean.shape.headD 0 = T)
    (hinit : ∀ V h', Touch V h h' → Widens W V h → Env W K V h' → Refines W h' init (.ok vstep)
      fun h'' step _ => ∀ h₃, Touch V h'' h₃ → BackAt W h₃ step vstep) :
    Refines W h (memUks n init F)
      (backFull vstep ((List.range' 0 T).map fun i => (F.at i).value n h))
      fun h' S l => Made W h h' T n S ∧
        l = (List.range' 0 T).map fun i => (S.at i).value n h' := by
  unfold memUks
  rw [hT]
  refine runs_new fun a h1 f1 => runs_new fun c h2 f2 => ?_
  obtain ⟨w, eV, hS2, t02, ha, hc⟩ := two_arrays e f1 f2
  have s1 := newZeros_shape f1
  have s2 := newZeros_shape f2
  have t02V : Touch (W ∪ {a.addr, c.addr}) h h2 := t02.mono (Set.empty_subset _)
  refine Refines.forget w (t02.mono (Set.empty_subset W)) ?_
  have hF0 : F.mean.Apart (W ∪ {a.addr, c.addr}) h ∧ F.cov.Apart (W ∪ {a.addr, c.addr}) h :=
    ⟨hF.1.widen w, hF.2.widen w⟩
  have hval : ∀ h', Touch (W ∪ {a.addr, c.addr}) h h' → ∀ i,
      (F.at i).value n h' = (F.at i).value n h := fun h' t i =>
    (MRel.touch (r := F.at i) (v := (F.at i).value n h) ⟨hF0.1.row i, hF0.2.row i, rfl⟩ t).eq
  rcases T with _ | k
  · unfold memLastRow
    rw [hT, if_pos rfl]
    exact ⟨Touch.refl _ _, rfl⟩
  · rw [backFull_down]
    have hlast : memLastRow F = pure () := by
      unfold memLastRow
      rw [hT, if_neg (Nat.succ_ne_zero k)]
    rw [hlast]
    refine Refines.step (b := ()) (R := fun _ _ _ => True) (refines_pure trivial) fun _ h3 t3 _ => ?_
    have hS3 := hS2.touch t3
    rw [Nat.add_sub_cancel]
    refine refines_setRows (M := F.at k) (Mv := (F.at k).value n h) hS3
      (by
        have := hval h3 (t02V.trans t3) k
        exact ⟨congrArg Moments.mean this, congrArg Moments.cov this⟩)
      (by
        have : F.cov.addr < h.next := hF.2.1
        change F.cov.addr ≠ a.addr
        omega) fun h4 t4 hrow _ => ?_
    have t34 := t3.trans t4
    have hS4 := hS3.touch t4
    refine Refines.step (((hinit _ h4 (t02V.trans t34) w (eV.touch t34)).imp
      (S := fun h5 step _ => (∀ h₃, Touch (W ∪ {a.addr, c.addr}) h5 h₃ → BackAt W h₃ step vstep) ∧
        (MRef.at ⟨a, c⟩ k).value n h5 = (MRef.at ⟨a, c⟩ k).value n h4)
      fun _ _ h5 t5 _ hs => ⟨hs, ((hS4.rel k).touch t5).eq⟩).mono w.sub) fun step h5 t5 hs => ?_
    have t05 := (t02V.trans t34).trans t5
    have loop := refines_memUksLoop w.sub hs.1
      ⟨hF0.1.touch t05, hF0.2.touch t05⟩ (hS4.touch t5) k 0 h5 (Touch.refl _ h5)
    have e1 : (fun i => (F.at i).value n h5) = fun i => (F.at i).value n h := funext (hval h5 t05)
    rw [e1, hs.2, hrow] at loop
    refine (loop.bind (g := fun r => .ok (r.1 :: r.2)) (f := fun _ => pure (⟨a, c⟩ : MRef)) ?_)
    intro _ r h6 t6 _ hr
    have h7 := (t34.trans t5).trans t6
    exact refines_pure ⟨⟨⟨ha, hS2.mean.1.trans_le h7.next⟩, ⟨hc, hS2.cov.1.trans_le h7.next⟩, hS2.ne,
      s1, s2⟩, hr⟩

end Verif
