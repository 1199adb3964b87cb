import Verif.Model.MemoryUnscentedSample
import Verif.Proofs.MemoryUnscentedMethods
import Verif.Proofs.MemorySample
import Verif.Proofs.MemoryUnscentedFrames

/-! # `sample` of the unscented classes on arrays in memory -/

open Matrix

namespace Verif

variable {n m k : ℕ} {V W F : Set ℕ} {K : Constants} {h h' : Heap} {b : ℕ} {σ : Type} {rng : Rng σ}

/-! ### On values -/

/-- The loops of both methods. -/
def usLoop (next : ℕ → Vec n → σ → Res (Vec n × σ)) (observe : ℕ → Vec n → σ → Res (Vec m × σ)) :
    ℕ → ℕ → Vec n → σ → Res (List (Vec n × Vec m))
  | 0, _, _, _ => .ok []
  | k + 1, t, prev, s => next t prev s >>= fun x => observe t x.1 x.2 >>= fun z =>
    usLoop next observe k (t + 1) x.1 z.2 >>= fun rest => .ok ((x.1, z.1) :: rest)

/-- Both methods, given the initial state. -/
def usSample (next : ℕ → Vec n → σ → Res (Vec n × σ)) (observe : ℕ → Vec n → σ → Res (Vec m × σ))
    (i : Vec n × σ) : ℕ → Res (List (Vec n × Vec m))
  | 0 => .ok []
  | k + 1 => observe 0 i.1 i.2 >>= fun z =>
    usLoop next observe k 1 i.1 z.2 >>= fun rest => .ok ((i.1, z.1) :: rest)

def aukfNextV (rng : Rng σ) (P : UParams n m) (t : ℕ) (x : Vec n) (s : σ) : Res (Vec n × σ) :=
  P.f.at (t - 1) >>= fun f => .ok (f x + (rng.normal n 0 P.Q s).1, (rng.normal n 0 P.Q s).2)

def aukfObserveV (rng : Rng σ) (P : UParams n m) (t : ℕ) (x : Vec n) (s : σ) : Res (Vec m × σ) :=
  P.g.at t >>= fun g => .ok (g x + (rng.normal m 0 P.R s).1, (rng.normal m 0 P.R s).2)

def ukfNextV (rng : Rng σ) (P : GParams n m) (t : ℕ) (x : Vec n) (s : σ) : Res (Vec n × σ) :=
  P.f.at (t - 1) >>= fun f => .ok (f x (rng.normal n 0 P.Q s).1, (rng.normal n 0 P.Q s).2)

def ukfObserveV (rng : Rng σ) (P : GParams n m) (t : ℕ) (x : Vec n) (s : σ) : Res (Vec m × σ) :=
  P.g.at t >>= fun g => .ok (g x (rng.normal m 0 P.R s).1, (rng.normal m 0 P.R s).2)

/-- The initial state on values. -/
def initialV (rng : Rng σ) (mu0 : Vec n) (S0 : Mat n n) (s : σ) : Option (Vec n) → Vec n × σ
  | some x => (x, s)
  | none => rng.normal n mu0 S0 s

theorem aukfSampleLoop_us (P : UParams n m) : ∀ k t x s,
    aukfSampleLoop rng P k t x s = usLoop (aukfNextV rng P) (aukfObserveV rng P) k t x s
  | 0, _, _, _ => rfl
  | k + 1, t, x, s => by
    simp only [aukfSampleLoop, usLoop, aukfNextV, aukfObserveV, bind_assoc]
    simp only [aukfSampleLoop_us P k]
    rfl

theorem aukfSample_us (P : UParams n m) (T : ℕ) (initial : Option (Vec n)) (s : σ) :
    aukfSample rng P T initial s = usSample (aukfNextV rng P) (aukfObserveV rng P)
      (initialV rng P.mu0 P.S0 s initial) T := by
  cases T with
  | zero => cases initial <;> rfl
  | succ k =>
    simp only [aukfSample, usSample, aukfObserveV, bind_assoc, aukfSampleLoop_us]
    cases initial <;> rfl

theorem ukfSampleLoop_us (P : GParams n m) : ∀ k t x s,
    ukfSampleLoop rng P k t x s = usLoop (ukfNextV rng P) (ukfObserveV rng P) k t x s
  | 0, _, _, _ => rfl
  | k + 1, t, x, s => by
    simp only [ukfSampleLoop, usLoop, ukfNextV, ukfObserveV, bind_assoc]
    simp only [ukfSampleLoop_us P k]
    rfl

theorem ukfSample_us (P : GParams n m) (T : ℕ) (initial : Option (Vec n)) (s : σ) :
    ukfSample rng P T initial s = usSample (ukfNextV rng P) (ukfObserveV rng P)
      (initialV rng P.mu0 P.S0 s initial) T := by
  cases T with
  | zero => cases initial <;> rfl
  | succ k =>
    simp only [ukfSample, usSample, ukfObserveV, bind_assoc, ukfSampleLoop_us]
    cases initial <;> rfl

/-! ### On arrays -/

/-- An array and the state of the generator. -/
abbrev DrawRel (W : Set ℕ) (h : Heap) (r : ARef × σ) (v : Vec k × σ) : Prop :=
  VRel W h r.1 v.1 ∧ r.2 = v.2

/-- A draw on arrays does what the draw on values does. -/
def DrawAt (W : Set ℕ) (h : Heap) (x : ℕ → ARef → σ → HM (ARef × σ))
    (v : ℕ → Vec n → σ → Res (Vec m × σ)) : Prop :=
  ∀ t r u s, VRel W h r u → Refines W h (x t r s) (v t u s) fun h' => DrawRel W h'

theorem drawAt_memAukfNext (e : Env W K W h) {p : UPRef MFun₁} {P : UParams n m}
    (hp : Par₁ W K W h p P) : DrawAt W h (memAukfNext rng n p) (aukfNextV rng P) := by
  intro t r u s hr
  refine (refines_lift (at_rel hp.f _)).bind fun f Fv h1 t1 _ hf => Refines.see ?_
  rw [(hp.Q.touch t1).eq]
  refine (refines_call₁ (e.touch t1) hf (hr.touch t1)).step fun y h2 t2 hy => Refines.see ?_
  rw [hy.eq]
  exact (refines_newVec ((e.touch t1).touch t2) _).step fun a h3 t3 ha => refines_pure ⟨ha, rfl⟩

theorem drawAt_memAukfObserve (e : Env W K W h) {p : UPRef MFun₁} {P : UParams n m}
    (hp : Par₁ W K W h p P) : DrawAt W h (memAukfObserve rng m p) (aukfObserveV rng P) := by
  intro t r u s hr
  refine (refines_lift (at_rel hp.g _)).bind fun f Fv h1 t1 _ hf => Refines.see ?_
  rw [(hp.R.touch t1).eq]
  refine (refines_call₁ (e.touch t1) hf (hr.touch t1)).step fun y h2 t2 hy => Refines.see ?_
  rw [hy.eq]
  exact (refines_newVec ((e.touch t1).touch t2) _).step fun a h3 t3 ha => refines_pure ⟨ha, rfl⟩

theorem drawAt_memUkfNext (e : Env W K W h) {p : UPRef MFun₂} {P : GParams n m}
    (hp : Par₂ W K W h p P) : DrawAt W h (memUkfNext rng n p) (ukfNextV rng P) := by
  intro t r u s hr
  refine (refines_lift (at_rel hp.f _)).bind fun f Fv h1 t1 _ hf => Refines.see ?_
  rw [(hp.Q.touch t1).eq]
  refine (refines_newVec (e.touch t1) _).step fun a h2 t2 ha => ?_
  exact (refines_call₂ ((e.touch t1).touch t2) hf ((hr.touch t1).touch t2) ha).step
    fun y h3 t3 hy => refines_pure ⟨hy, rfl⟩

theorem drawAt_memUkfObserve (e : Env W K W h) {p : UPRef MFun₂} {P : GParams n m}
    (hp : Par₂ W K W h p P) : DrawAt W h (memUkfObserve rng m p) (ukfObserveV rng P) := by
  intro t r u s hr
  refine (refines_lift (at_rel hp.g _)).bind fun f Fv h1 t1 _ hf => Refines.see ?_
  rw [(hp.R.touch t1).eq]
  refine (refines_newVec (e.touch t1) _).step fun a h2 t2 ha => ?_
  exact (refines_call₂ ((e.touch t1).touch t2) hf ((hr.touch t1).touch t2) ha).step
    fun y h3 t3 hy => refines_pure ⟨hy, rfl⟩

section loop

variable {next observe : ℕ → ARef → σ → HM (ARef × σ)} {X Z initial : ARef}
  {nextv : ℕ → Vec n → σ → Res (Vec n × σ)} {observev : ℕ → Vec n → σ → Res (Vec m × σ)}

theorem refines_memUSampleNext (hWV : W ⊆ V) (hnext : DrawAt W h next nextv)
    (hF : Rows W V h ⟨X, Z⟩) {t : ℕ} (ht : t ≠ 0) (s : σ) :
    Refines V h (memUSampleState next X initial t s) (nextv t ((X.row (t - 1)).vec n h) s)
      fun h' s' v => s' = v.2 ∧ (X.row t).vec n h' = v.1 ∧
        (∀ i, i ≠ t → (X.row i).vec n h' = (X.row i).vec n h) ∧
        ∀ i, (Z.row i).vec m h' = (Z.row i).vec m h := by
  unfold memUSampleState
  rw [if_neg ht]
  have hx : VRel W h (X.row (t - 1)) ((X.row (t - 1)).vec n h) := ⟨hF.mean.row _, rfl⟩
  have h1 := ((hnext t _ _ s hx).imp (S := fun h1 r v => DrawRel W h1 r v ∧
    (∀ i, (X.row i).vec n h1 = (X.row i).vec n h) ∧ ∀ i, (Z.row i).vec m h1 = (Z.row i).vec m h)
    fun r v h1 t1 _ hr => ⟨hr, fun i => (hF.mean.row i).vec t1, fun i => (hF.cov.row i).vec t1⟩).mono hWV
  have key := h1.bind (g := fun v => .ok v) (f := fun r => setRow X t r.1 >>= fun _ => pure r.2)
    (S := fun h' s' v => s' = v.2 ∧ (X.row t).vec n h' = v.1 ∧
        (∀ i, i ≠ t → (X.row i).vec n h' = (X.row i).vec n h) ∧
        ∀ i, (Z.row i).vec m h' = (Z.row i).vec m h) ?_
  · rcases hv : nextv t ((X.row (t - 1)).vec n h) s with _ | _
    all_goals
      rw [hv] at key
      exact key
  · rintro r v h1 t1 - ⟨⟨hr, hs⟩, hX, hZ⟩
    refine refines_setting (hF.memm) fun h2 s2 => refines_pure ⟨hs, ?_, fun i hi => ?_, fun i => ?_⟩
    · rw [s2.vec hF.ixm, hr.eq]
    · rw [s2.vec_rest hF.ixm hi, hX]
    · rw [ARef.row_vec_touch s2.touch (hF.cov.1.trans_le t1.next) (by simpa using hF.ne.symm), hZ]

theorem refines_memUSampleObs (hWV : W ⊆ V) (hobs : DrawAt W h observe observev)
    (hF : Rows W V h ⟨X, Z⟩) (t : ℕ) (s : σ) :
    Refines V h (memUSampleObs observe X Z t s) (observev t ((X.row t).vec n h) s)
      fun h' s' v => s' = v.2 ∧ (Z.row t).vec m h' = v.1 ∧
        (∀ i, i ≠ t → (Z.row i).vec m h' = (Z.row i).vec m h) ∧
        ∀ i, (X.row i).vec n h' = (X.row i).vec n h := by
  unfold memUSampleObs
  have hx : VRel W h (X.row t) ((X.row t).vec n h) := ⟨hF.mean.row _, rfl⟩
  have h1 := ((hobs t _ _ s hx).imp (S := fun h1 r v => DrawRel W h1 r v ∧
    (∀ i, (X.row i).vec n h1 = (X.row i).vec n h) ∧ ∀ i, (Z.row i).vec m h1 = (Z.row i).vec m h)
    fun r v h1 t1 _ hr => ⟨hr, fun i => (hF.mean.row i).vec t1, fun i => (hF.cov.row i).vec t1⟩).mono hWV
  have key := h1.bind (g := fun v => .ok v) (f := fun r => setRow Z t r.1 >>= fun _ => pure r.2)
    (S := fun h' s' v => s' = v.2 ∧ (Z.row t).vec m h' = v.1 ∧
        (∀ i, i ≠ t → (Z.row i).vec m h' = (Z.row i).vec m h) ∧
        ∀ i, (X.row i).vec n h' = (X.row i).vec n h) ?_
  · rcases hv : observev t ((X.row t).vec n h) s with _ | _
    all_goals
      rw [hv] at key
      exact key
  · rintro r v h1 t1 - ⟨⟨hr, hs⟩, hX, hZ⟩
    refine refines_setting (hF.memc) fun h2 s2 => refines_pure ⟨hs, ?_, fun i hi => ?_, fun i => ?_⟩
    · rw [s2.vec hF.ixc, hr.eq]
    · rw [s2.vec_rest hF.ixc hi, hZ]
    · rw [ARef.row_vec_touch s2.touch (hF.mean.1.trans_le t1.next) (by simpa using hF.ne), hX]

theorem refines_memUSampleLoop (hWV : W ⊆ V) {h₀ : Heap}
    (hnext : ∀ h', Touch V h₀ h' → DrawAt W h' next nextv)
    (hobs : ∀ h', Touch V h₀ h' → DrawAt W h' observe observev) (hF : Rows W V h₀ ⟨X, Z⟩) :
    ∀ (k t : ℕ) (s : σ) (h : Heap), t ≠ 0 → Touch V h₀ h →
      Refines V h (memUSampleLoop next observe X Z initial k t s)
        (usLoop nextv observev k t ((X.row (t - 1)).vec n h) s)
        fun h' _ l => l = (List.range' t k).map (sampleRow n m X Z h') ∧
          ∀ i, i < t → sampleRow n m X Z h' i = sampleRow n m X Z h i
  | 0, _, _, _, _, _ => refines_pure ⟨rfl, fun _ _ => rfl⟩
  | k + 1, t, s, h, ht, t0 => by
    rw [memUSampleLoop, usLoop, List.range'_succ]
    simp only [List.map_cons]
    refine (refines_memUSampleNext (Z := Z) (m := m) hWV (hnext h t0) (hF.touch t0) ht s).bind ?_
    rintro s1 x h1 t1 - ⟨rfl, hx, hX, hZ⟩
    have t01 := t0.trans t1
    have ho := refines_memUSampleObs hWV (hobs h1 t01) (hF.touch t01) t x.2
    rw [hx] at ho
    refine ho.bind ?_
    rintro s2 z h2 t2 - ⟨rfl, hz, hZ', hX'⟩
    have ih := refines_memUSampleLoop hWV hnext hobs hF k (t + 1) z.2 h2 (Nat.succ_ne_zero t)
      (t01.trans t2)
    rw [Nat.add_sub_cancel, hX' t, hx] at ih
    refine ih.post ?_
    rintro _ l h3 t3 - ⟨rfl, hl⟩
    refine ⟨?_, fun i hi => ?_⟩
    · rw [hl t (Nat.lt_succ_self t)]
      congr 1
      rw [sampleRow, hX' t, hx, hz]
    · rw [hl i (by omega), sampleRow, sampleRow, hX', hX i (by omega), hZ' i (by omega), hZ]

end loop

theorem refines_memUSampleInitial (e : Env W K W h) {mu0 S0 : ARef} {mu0v : Vec n} {S0v : Mat n n}
    (h1 : VRel W h mu0 mu0v) (h2 : ARel W h S0 S0v) {initial : Option ARef}
    (hi : ∀ r ∈ initial, r.Apart W h) (s : σ) :
    Refines W h (memUSampleInitial rng n mu0 S0 s initial)
      (.ok (initialV rng mu0v S0v s (initial.map (ARef.vec n h)))) fun h' => DrawRel W h' := by
  cases initial with
  | some r => exact refines_pure ⟨⟨hi r rfl, rfl⟩, rfl⟩
  | none =>
    refine Refines.see ?_
    rw [h1.eq, h2.eq]
    exact (refines_newVec e _).step fun a h3 t3 ha => refines_pure ⟨ha, rfl⟩

theorem refines_memUSample (e : Env W K W h) {mu0 S0 : ARef} {mu0v : Vec n} {S0v : Mat n n}
    (h1 : VRel W h mu0 mu0v) (h2 : ARel W h S0 S0v) {initial : Option ARef}
    (hi : ∀ r ∈ initial, r.Apart W h) {next observe : ℕ → ARef → σ → HM (ARef × σ)}
    {nextv : ℕ → Vec n → σ → Res (Vec n × σ)} {observev : ℕ → Vec n → σ → Res (Vec m × σ)}
    (hd : ∀ V h', Widens W V h → Touch V h h' → Env W K V h' →
      DrawAt W h' next nextv ∧ DrawAt W h' observe observev) (T : ℕ) (gen : Res σ) :
    Refines W h (memUSample rng n m mu0 S0 next observe T initial gen)
      (gen >>= fun s => usSample nextv observev
        (initialV rng mu0v S0v s (initial.map (ARef.vec n h))) T) fun h' => NewSample h h' := by
  refine Refines.bind (R := fun h' s s' => s = s' ∧ h' = h) (by
    rcases gen with er | s
    · exact ⟨Touch.refl _ _, rfl⟩
    · exact ⟨Touch.refl _ _, rfl, rfl⟩) ?_
  rintro s _ h0 - - ⟨rfl, rfl⟩
  refine (refines_memUSampleInitial (rng := rng) e h1 h2 hi s).step fun i h1 t1 hi => ?_
  generalize initialV rng mu0v S0v s (initial.map (ARef.vec n h0)) = iv at hi ⊢
  have e1 := e.touch t1
  refine runs_new fun X h2 f2 => runs_new fun Z h3 f3 => ?_
  obtain ⟨w, eV, hF, t13, hX, hZ⟩ := two_arrays e1 f2 f3
  have s1 := newZeros_shape f2
  have s2 := newZeros_shape f3
  have t13V : Touch (W ∪ {X.addr, Z.addr}) h1 h3 := t13.mono (Set.empty_subset _)
  have n1 := t1.next
  have w0 : Widens W (W ∪ {X.addr, Z.addr}) _ := ⟨w.sub, fun a ha hW => n1.trans (w.new a ha hW)⟩
  have t03V := (t1.mono w.sub).trans t13V
  refine Refines.forget w (t13.mono (Set.empty_subset W)) ?_
  have hd' : ∀ h', Touch (W ∪ {X.addr, Z.addr}) h3 h' →
      DrawAt W h' next nextv ∧ DrawAt W h' observe observev := fun h' t =>
    hd _ h' w0 (t03V.trans t) (eV.touch t)
  have fin : ∀ {l : List (Vec n × Vec m)} {h' : Heap}, Touch (W ∪ {X.addr, Z.addr}) h3 h' →
      l = (List.range' 0 T).map (sampleRow n m X Z h') → NewSample h0 h' (X, Z) l := by
    rintro l h' t rfl
    refine ⟨⟨n1.trans hX, hF.mean.1.trans_le t.next⟩, ⟨n1.trans hZ, hF.cov.1.trans_le t.next⟩, hF.ne, ?_⟩
    rw [← List.range_eq_range']
    exact holdsSample_of s1 s2
  have whole : Refines (W ∪ {X.addr, Z.addr}) h3 (memUSampleLoop next observe X Z i.1 T 0 i.2)
      (usSample nextv observev iv T)
      fun h' _ l => l = (List.range' 0 T).map (sampleRow n m X Z h') := by
    rcases T with _ | k
    · exact refines_pure rfl
    rw [memUSampleLoop, usSample]
    have hi3 : i.1.vec n h3 = iv.1 := (ARef.vec_touch t13 hi.1.apart.1 (by simp)).trans hi.1.eq
    have first : Refines (W ∪ {X.addr, Z.addr}) h3 (memUSampleState next X i.1 0 i.2) (.ok iv.2)
        fun h' s s' => s = s' ∧ (X.row 0).vec n h' = iv.1 :=
      refines_setting (V := W ∪ {X.addr, Z.addr}) hF.memm fun h4 s4 =>
        refines_pure ⟨hi.2, by rw [s4.vec hF.ixm, hi3]⟩
    refine first.step ?_
    rintro _ h4 t34 ⟨rfl, hx⟩
    have ho := refines_memUSampleObs w.sub (hd' _ t34).2 (hF.touch t34) 0 iv.2
    rw [hx] at ho
    refine ho.bind ?_
    rintro _ z h5 t5 - ⟨rfl, hz, hZ', hX'⟩
    have t35 := t34.trans t5
    have loop := refines_memUSampleLoop (initial := i.1) w.sub (fun h' t => (hd' h' t).1)
      (fun h' t => (hd' h' t).2) hF k 1 z.2 h5 one_ne_zero t35
    rw [show 1 - 1 = 0 from rfl, hX' 0, hx] at loop
    refine loop.post ?_
    rintro _ l h6 t6 - ⟨rfl, hl⟩
    rw [List.range'_succ, List.map_cons, hl 0 Nat.one_pos]
    congr 1
    rw [sampleRow, hX' 0, hx, hz]
  have key := whole.bind (g := fun l => .ok l) (f := fun _ => pure (X, Z))
    (S := fun h' => NewSample h0 h') fun _ l h' t _ hl => refines_pure (fin t hl)
  rcases hv : usSample nextv observev iv T with _ | _
  all_goals
    rw [hv] at key
    exact key

theorem refines_memAukfSample (e : Env W K W h) {p : UPRef MFun₁} {P : UParams n m}
    (hp : Par₁ W K W h p P) {initial : Option ARef} (hi : ∀ r ∈ initial, r.Apart W h) (T : ℕ)
    (gen : Res σ) : Refines W h (memAukfSample rng n m p T initial gen)
      (gen >>= fun s => aukfSample rng P T (initial.map (ARef.vec n h)) s) fun h' => NewSample h h' := by
  simp only [aukfSample_us]
  exact refines_memUSample e hp.mu0 hp.S0 hi (fun V h' w t eV =>
    ⟨drawAt_memAukfNext eV.narrow (((hp.widen w).touch t).narrow w.sub),
      drawAt_memAukfObserve eV.narrow (((hp.widen w).touch t).narrow w.sub)⟩) T gen

theorem refines_memUkfSample (e : Env W K W h) {p : UPRef MFun₂} {P : GParams n m}
    (hp : Par₂ W K W h p P) {initial : Option ARef} (hi : ∀ r ∈ initial, r.Apart W h) (T : ℕ)
    (gen : Res σ) : Refines W h (memUkfSample rng n m p T initial gen)
      (gen >>= fun s => ukfSample rng P T (initial.map (ARef.vec n h)) s) fun h' => NewSample h h' := by
  simp only [ukfSample_us]
  exact refines_memUSample e hp.mu0 hp.S0 hi (fun V h' w t eV =>
    ⟨drawAt_memUkfNext eV.narrow (((hp.widen w).touch t).narrow w.sub),
      drawAt_memUkfObserve eV.narrow (((hp.widen w).touch t).narrow w.sub)⟩) T gen

theorem Refines.sample {x : HM (ARef × ARef)} {v : Res (List (Vec n × Vec m))}
    (hx : Refines W h x v fun h' => NewSample h h') :
    ∃ res h', x h = (res, h') ∧ h.KeepsBut W h' ∧
      (∀ l, v = .ok l → ∃ r, res = .ok r ∧ NewSample h h' r l) ∧
      (∀ e, v = .error e → res = .error e) := by
  obtain ⟨t, hr⟩ := hx
  refine ⟨_, _, rfl, ⟨t.next, t.block⟩, ?_, ?_⟩
  · rintro l rfl
    rcases hres : (x h).1 with e | r
    · rw [hres] at hr; exact hr.elim
    · rw [hres] at hr
      exact ⟨r, rfl, hr⟩
  · rintro e rfl
    rcases hres : (x h).1 with e' | r
    · rw [hres] at hr
      exact congrArg _ hr
    · rw [hres] at hr; exact hr.elim

/-! ### What `sample` changes -/

/-- The draw changes only arrays in `F`, if it gets one of these. -/
abbrev DrawIn (F : Set ℕ) (b : ℕ) (x : ℕ → ARef → σ → HM (ARef × σ)) : Prop :=
  ∀ t r s, r.addr ∈ F → Stays F b (x t r s) fun _ => True

theorem stays_call₁ {f : MFun₁} (hW : W ⊆ F) (hf : f.ChangesOnly W) {x : ARef} (hx : x.addr ∈ F) :
    Stays F b (f x) fun _ => True := fun h _ =>
  ⟨⟨(hf h _).1, fun a ha hF => (hf h _).2 a ha (fun hW' => hF (hW hW')) fun e =>
    hF (by rw [e]; exact hx)⟩, fun _ _ => trivial⟩

theorem stays_call₂ {f : MFun₂} (hW : W ⊆ F) (hf : f.ChangesOnly W) {x w : ARef} (hx : x.addr ∈ F)
    (hw : w.addr ∈ F) : Stays F b (f x w) fun _ => True := fun h _ =>
  ⟨⟨(hf h _ _).1, fun a ha hF => (hf h _ _).2 a ha (fun hW' => hF (hW hW'))
    (fun e => hF (by rw [e]; exact hx)) fun e => hF (by rw [e]; exact hw)⟩, fun _ _ => trivial⟩

theorem drawIn₁ {φ : ℕ → ℕ} {C : UPRef MFun₁ → ARef} {fs : UPRef MFun₁ → Fns MFun₁} (hF : New F b)
    (hW : W ⊆ F) {p : UPRef MFun₁} (hp : (fs p).Every (MFun₁.ChangesOnly W)) (rng : Rng σ) (k : ℕ)
    (t : ℕ) (r : ARef) (s : σ) (hr : r.addr ∈ F) :
    Stays F b (do
      let f ← HM.lift ((fs p).at (φ t))
      let w ← HM.see fun h => rng.normal k 0 ((C p).mat k k h) s
      let y ← f r
      let v ← HM.see fun h => y.vec k h + w.1
      let a ← newArray (ndOfVec v)
      pure (a, w.2)) fun _ => True :=
  (stays_lift fun _ h => hp.at h).bind fun _ hf => stays_see.bind fun _ _ =>
    (stays_call₁ hW hf hr).bind fun _ _ => stays_see.bind fun _ _ => (stays_newArray hF _).bind
    fun _ _ => stays_pure trivial

theorem drawIn₂ {φ : ℕ → ℕ} {C : UPRef MFun₂ → ARef} {fs : UPRef MFun₂ → Fns MFun₂} (hF : New F b)
    (hW : W ⊆ F) {p : UPRef MFun₂} (hp : (fs p).Every (MFun₂.ChangesOnly W)) (rng : Rng σ) (k : ℕ)
    (t : ℕ) (r : ARef) (s : σ) (hr : r.addr ∈ F) :
    Stays F b (do
      let f ← HM.lift ((fs p).at (φ t))
      let w ← HM.see fun h => rng.normal k 0 ((C p).mat k k h) s
      let e ← newArray (ndOfVec w.1)
      let y ← f r e
      pure (y, w.2)) fun _ => True :=
  (stays_lift fun _ h => hp.at h).bind fun _ hf => stays_see.bind fun _ _ =>
    (stays_newArray hF _).bind fun _ ha => (stays_call₂ hW hf hr ha).bind fun _ _ => stays_pure trivial

theorem stays_memUSampleLoop {next observe : ℕ → ARef → σ → HM (ARef × σ)} {X Z initial : ARef}
    (hn : DrawIn F b next) (ho : DrawIn F b observe) (hX : X.addr ∈ F) (hZ : Z.addr ∈ F) :
    ∀ k t s, Stays F b (memUSampleLoop next observe X Z initial k t s) fun _ => True
  | 0, _, _ => stays_pure trivial
  | k + 1, t, s => by
    refine Stays.bind (p := fun _ => True) ?_ fun s' _ => Stays.bind
      ((ho t (X.row t) s' hX).bind fun _ _ => (stays_setRow hZ _ _).bind fun _ _ =>
        stays_pure (p := fun _ => True) trivial)
      fun s'' _ => stays_memUSampleLoop hn ho hX hZ k (t + 1) s''
    unfold memUSampleState
    split
    · exact (stays_setRow hX _ _).bind fun _ _ => stays_pure trivial
    · exact (hn t (X.row (t - 1)) s hX).bind fun _ _ => (stays_setRow hX _ _).bind fun _ _ =>
        stays_pure trivial

theorem stays_memUSample {next observe : ℕ → ARef → σ → HM (ARef × σ)} (hF : New F b)
    (hn : DrawIn F b next) (ho : DrawIn F b observe) (mu0 S0 : ARef) (T : ℕ) (initial : Option ARef)
    (gen : Res σ) : Stays F b (memUSample rng n m mu0 S0 next observe T initial gen) fun _ => True := by
  refine stays_any.bind fun s _ => Stays.bind (p := fun _ => True) ?_ fun i _ =>
    (stays_newArray hF _).bind fun _ hX => (stays_newArray hF _).bind fun _ hZ =>
    (stays_memUSampleLoop hn ho hX hZ _ _ _).bind fun _ _ => stays_pure trivial
  cases initial with
  | some r => exact stays_pure trivial
  | none => exact stays_see.bind fun _ _ => (stays_newArray hF _).bind fun _ _ => stays_pure trivial

theorem stays_memAukfSample (hF : New F b) (hW : W ⊆ F) {p : UPRef MFun₁} (hp : p.ChangesOnly₁ W)
    (T : ℕ) (initial : Option ARef) (gen : Res σ) :
    Stays F b (memAukfSample rng n m p T initial gen) fun _ => True :=
  stays_memUSample hF
    (fun t r s hr => drawIn₁ (φ := fun t => t - 1) (C := UPRef.Q) (fs := UPRef.f) hF hW hp.f rng n t r s hr)
    (fun t r s hr => drawIn₁ (φ := id) (C := UPRef.R) (fs := UPRef.g) hF hW hp.g rng m t r s hr)
    _ _ _ _ _

theorem stays_memUkfSample (hF : New F b) (hW : W ⊆ F) {p : UPRef MFun₂} (hp : p.ChangesOnly₂ W)
    (T : ℕ) (initial : Option ARef) (gen : Res σ) :
    Stays F b (memUkfSample rng n m p T initial gen) fun _ => True :=
  stays_memUSample hF
    (fun t r s hr => drawIn₂ (φ := fun t => t - 1) (C := UPRef.Q) (fs := UPRef.f) hF hW hp.f rng n t r s hr)
    (fun t r s hr => drawIn₂ (φ := id) (C := UPRef.R) (fs := UPRef.g) hF hW hp.g rng m t r s hr)
    _ _ _ _ _

end Verif
