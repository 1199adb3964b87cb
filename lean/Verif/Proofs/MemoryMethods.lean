import Verif.Proofs.MemoryFrames
import Verif.Spec.Memory
import Verif.Proofs.Threads

/-! # The methods on arrays in memory compute what the methods on values say -/

open Matrix

namespace Verif

variable {α β : Type} {n m : ℕ}

theorem keeps_of_touch {h h' : Heap} (t : Touch ∅ h h') : h.Keeps h' :=
  ⟨t.next, fun a ha => t.block a ha (by simp)⟩

/-! ### The parameters -/

/-- The first converter that raises. -/
theorem addArgs_raises {conv : List (String × (α → Res β))} {name : String} {v : α} {e : Err}
    {c : α → Res β} (hc : conv.lookup name = some c) (he : c v = .error e)
    (rest : List (String × Option α)) :
    ∀ (pre : List (String × Option α)) (r : List (String × β)),
    (∀ q ∈ pre, q.1 ≠ name ∧ ∃ c', conv.lookup q.1 = some c' ∧ ∀ w, q.2 = some w →
      ∃ b, c' w = .ok b) → r.lookup name = none →
    addArgs conv (pre ++ (name, some v) :: rest) r = .error e
  | [], r, _, hr => by
    simp only [List.nil_append, addArgs, hc, hr, he]
    rfl
  | (k, w) :: pre, r, hpre, hr => by
    obtain ⟨hk, c', hc', hw⟩ := hpre (k, w) (by simp)
    have hpre' : ∀ q ∈ pre, q.1 ≠ name ∧ ∃ c', conv.lookup q.1 = some c' ∧ ∀ w, q.2 = some w →
      ∃ b, c' w = .ok b := fun q hq => hpre q (List.mem_cons_of_mem _ hq)
    simp only [List.cons_append, addArgs, hc']
    rcases hl : r.lookup k with _ | b0
    · cases w with
      | none => exact addArgs_raises hc he rest pre r hpre' hr
      | some w =>
        obtain ⟨b, hb⟩ := hw w rfl
        simp only [hb]
        refine addArgs_raises hc he rest pre (r ++ [(k, b)]) hpre' ?_
        rw [List.lookup_append, hr]
        simp only [Option.none_or, List.lookup]
        have : (name == k) = false := by simpa using fun h => hk h.symm
        rw [this]
    · exact addArgs_raises hc he rest pre r hpre' hr

theorem initialize_raises (k : KF) {s : Seed} (hs : k.randomState = some s) {e : Err}
    (he : checkRandomState s = .error e) : k.initialize = .error e := by
  have key := addArgs_raises (conv := kfConverters) (name := "random_state") (v := PyVal.seed s)
    (e := e) (c := convSeed) (by rfl) (by simp [convSeed, he, Except.map])
    [("em_vars", k.emVars.map .names), ("n_dim_state", some (.nat k.nDimState)),
     ("n_dim_obs", some (.nat k.nDimObs))]
    [("transition_matrices", k.A.map .arr), ("observation_matrices", k.C.map .arr),
     ("transition_covariance", k.Q.map .arr), ("observation_covariance", k.R.map .arr),
     ("transition_offsets", k.b.map .arr), ("observation_offsets", k.d.map .arr),
     ("initial_state_mean", k.mu0.map .arr), ("initial_state_covariance", k.S0.map .arr)] []
    (by
      have harr : ∀ (o : Option NDArray) (f : NDArray → NDArray) (w : PyVal),
          o.map PyVal.arr = some w → ∃ b, convArr f w = .ok b := by
        intro o f w hw
        cases o with
        | none => cases hw
        | some a => cases hw; exact ⟨_, rfl⟩
      intro q hq
      simp only [List.mem_cons, List.not_mem_nil, or_false] at hq
      rcases hq with rfl | rfl | rfl | rfl | rfl | rfl | rfl | rfl <;>
        exact ⟨by simp, _, rfl, harr _ _⟩) rfl
  have hargs : k.arguments = [("transition_matrices", k.A.map .arr),
     ("observation_matrices", k.C.map .arr),
     ("transition_covariance", k.Q.map .arr), ("observation_covariance", k.R.map .arr),
     ("transition_offsets", k.b.map .arr), ("observation_offsets", k.d.map .arr),
     ("initial_state_mean", k.mu0.map .arr), ("initial_state_covariance", k.S0.map .arr)] ++
     ("random_state", some (.seed s)) :: [("em_vars", k.emVars.map .names),
     ("n_dim_state", some (.nat k.nDimState)), ("n_dim_obs", some (.nat k.nDimObs))] := by
    simp [KF.arguments, hs]
  have : preprocessArguments [k.arguments, k.defaults] kfConverters = .error e := by
    simp only [preprocessArguments, List.foldlM_cons, List.foldlM_nil]
    rw [hargs, key]
    rfl
  simp only [KF.initialize, this]
  rfl

theorem ARef.array2d_nd (h : Heap) (r : ARef) : r.array2d.nd h = Verif.array2d (r.nd h) := by
  rcases r with ⟨a, s, ix⟩
  rcases s with _ | ⟨k, _ | ⟨l, s⟩⟩ <;> rfl

theorem ARef.array1d_nd (h : Heap) (r : ARef) : r.array1d.nd h = Verif.array1d (r.nd h) := by
  rcases r with ⟨a, s, ix⟩
  rcases s with _ | ⟨k, s⟩ <;> rfl

theorem ARef.array2d_addr (r : ARef) : r.array2d.addr = r.addr := by
  rcases r with ⟨a, s, ix⟩
  rcases s with _ | ⟨k, _ | ⟨l, s⟩⟩ <;> rfl

theorem ARef.array1d_addr (r : ARef) : r.array1d.addr = r.addr := by
  rcases r with ⟨a, s, ix⟩
  rcases s with _ | ⟨k, s⟩ <;> rfl

theorem ARef.array2d_ma (h : Heap) (r : ARef) : r.array2d.ma h = (r.ma h).atleast2d := by
  rcases r with ⟨a, s, ix⟩
  rcases s with _ | ⟨k, _ | ⟨l, s⟩⟩ <;> rfl

theorem ARef.parse_ma (h : Heap) (r : ARef) : r.parse.ma h = parseObservations (r.ma h) := by
  simp only [ARef.parse, parseObservations, ← ARef.array2d_ma]
  generalize r.array2d = q
  rcases q with ⟨a, s, ix⟩
  rcases s with _ | ⟨s0, _ | ⟨s1, s⟩⟩
  · rfl
  · rfl
  · by_cases hc : s0 = 1 ∧ s1 > 1 <;> simp [ARef.ma, hc, ARef.transpose, MArray.transpose]

theorem ARef.parse_addr (r : ARef) : r.parse.addr = r.addr := by
  simp only [ARef.parse]
  rw [← r.array2d_addr]
  generalize r.array2d = q
  rcases q with ⟨a, s, ix⟩
  rcases s with _ | ⟨s0, _ | ⟨s1, s⟩⟩
  · rfl
  · rfl
  · by_cases hc : s0 = 1 ∧ s1 > 1 <;> simp [hc, ARef.transpose]

/-- The arrays `_initialize_parameters` returns: those of the object, or new ones. -/
def PRefs.From (k : KFRef) (h : Heap) (p : PRefs) : Prop :=
  (∀ r, k.A = some r → p.A = r.array2d) ∧ (k.A = none → h.next ≤ p.A.addr) ∧
  (∀ r, k.b = some r → p.b = r.array1d) ∧ (k.b = none → h.next ≤ p.b.addr) ∧
  (∀ r, k.Q = some r → p.Q = r.array2d) ∧ (k.Q = none → h.next ≤ p.Q.addr) ∧
  (∀ r, k.C = some r → p.C = r.array2d) ∧ (k.C = none → h.next ≤ p.C.addr) ∧
  (∀ r, k.d = some r → p.d = r.array1d) ∧ (k.d = none → h.next ≤ p.d.addr) ∧
  (∀ r, k.R = some r → p.R = r.array2d) ∧ (k.R = none → h.next ≤ p.R.addr) ∧
  (∀ r, k.mu0 = some r → p.mu0 = r.array1d) ∧ (k.mu0 = none → h.next ≤ p.mu0.addr) ∧
  (∀ r, k.S0 = some r → p.S0 = r.array2d) ∧ (k.S0 = none → h.next ≤ p.S0.addr)

theorem from_one {o : Option ARef} {f : ARef → ARef} {d : ARef} {b : ℕ} (hd : b ≤ d.addr) :
    (∀ r, o = some r → (o.map f).getD d = f r) ∧ (o = none → b ≤ ((o.map f).getD d).addr) := by
  constructor
  · rintro r rfl; rfl
  · rintro rfl; exact hd

theorem valid_one {o : Option ARef} {f : ARef → ARef} (hf : ∀ r, (f r).addr = r.addr) {d : ARef}
    {h : Heap} (ho : ∀ r, o = some r → r.addr < h.next) (hd : d.addr < h.next) :
    ((o.map f).getD d).addr < h.next := by
  cases o with
  | none => exact hd
  | some r => simpa [hf] using ho r rfl

theorem value_one {o : Option ARef} {f : ARef → ARef} {g : NDArray → NDArray} {h h' : Heap}
    (hf : ∀ h r, (f r).nd h = g (r.nd h)) {d : ARef}
    (ho : ∀ r, o = some r → r.nd h' = r.nd h) {a : NDArray} (hd : d.nd h' = a) :
    ((o.map f).getD d).nd h' = ((o.map (ARef.nd h)).map g).getD a := by
  cases o with
  | none => exact hd
  | some r => simp [hf, ho r rfl]

theorem runs_memInitialize {k : KFRef} {h : Heap} (hk : k.Valid h) :
    Runs (memInitialize k) h fun r h' => Touch ∅ h h' ∧
      (∀ p, r = .ok p → (k.value h).initialize = .ok (p.value h') ∧ p.From k h ∧
        ∀ q ∈ [p.A, p.b, p.Q, p.C, p.d, p.R, p.mu0, p.S0], q.addr < h'.next) ∧
      (∀ e, r = .error e → (k.value h).initialize = .error e) := by
  have hmem : ∀ o ∈ [k.A, k.C, k.Q, k.R, k.b, k.d, k.mu0, k.S0], ∀ r, o = some r →
      r.addr < h.next := by
    intro o ho r hr
    exact hk r (List.mem_filterMap.mpr ⟨o, ho, hr⟩)
  unfold memInitialize
  refine runs_new fun v1 h1 f1 => runs_new fun v2 h2 f2 => runs_new fun v3 h3 f3 =>
    runs_new fun v4 h4 f4 => runs_new fun v5 h5 f5 => runs_new fun v6 h6 f6 =>
    runs_new fun v7 h7 f7 => runs_new fun v8 h8 f8 => ?_
  have a1 := f1.addr; have n1 := f1.next
  have a2 := f2.addr; have n2 := f2.next
  have a3 := f3.addr; have n3 := f3.next
  have a4 := f4.addr; have n4 := f4.next
  have a5 := f5.addr; have n5 := f5.next
  have a6 := f6.addr; have n6 := f6.next
  have a7 := f7.addr; have n7 := f7.next
  have a8 := f8.addr; have n8 := f8.next
  have t78 := f8.touch
  have t68 := f7.touch.trans t78
  have t58 := f6.touch.trans t68
  have t48 := f5.touch.trans t58
  have t38 := f4.touch.trans t48
  have t28 := f3.touch.trans t38
  have t18 := f2.touch.trans t28
  have t08 := f1.touch.trans t18
  have hnd : ∀ o ∈ [k.A, k.C, k.Q, k.R, k.b, k.d, k.mu0, k.S0], ∀ r, o = some r →
      r.nd h8 = r.nd h := fun o ho r hr => ARef.nd_touch t08 (hmem o ho r hr) (by simp)
  have hlt : ∀ o ∈ [k.A, k.C, k.Q, k.R, k.b, k.d, k.mu0, k.S0], ∀ r, o = some r →
      r.addr < h8.next := fun o ho r hr => (hmem o ho r hr).trans_le t08.next
  -- the object can be read
  have main : ((∀ s, k.randomState = some s → ∃ g, checkRandomState s = .ok g) →
      (k.value h).initialize = .ok (PRefs.value h8
        ⟨(k.A.map ARef.array2d).getD v1, (k.b.map ARef.array1d).getD v2,
         (k.Q.map ARef.array2d).getD v3, (k.C.map ARef.array2d).getD v4,
         (k.d.map ARef.array1d).getD v5, (k.R.map ARef.array2d).getD v6,
         (k.mu0.map ARef.array1d).getD v7, (k.S0.map ARef.array2d).getD v8⟩)) := by
    intro hs
    rw [C26_parameters (k.value h) hs]
    congr 1
    simp only [PRefs.value, KF.resolvedSpec, KFRef.value, Resolved.mk.injEq]
    refine ⟨?_, ?_, ?_, ?_, ?_, ?_, ?_, ?_⟩ <;> symm
    · exact value_one ARef.array2d_nd (hnd _ (by simp))
        (by rw [ARef.nd_touch t18 (by omega) (by simp), f1.nd])
    · exact value_one ARef.array1d_nd (hnd _ (by simp))
        (by rw [ARef.nd_touch t28 (by omega) (by simp), f2.nd])
    · exact value_one ARef.array2d_nd (hnd _ (by simp))
        (by rw [ARef.nd_touch t38 (by omega) (by simp), f3.nd])
    · exact value_one ARef.array2d_nd (hnd _ (by simp))
        (by rw [ARef.nd_touch t48 (by omega) (by simp), f4.nd])
    · exact value_one ARef.array1d_nd (hnd _ (by simp))
        (by rw [ARef.nd_touch t58 (by omega) (by simp), f5.nd])
    · exact value_one ARef.array2d_nd (hnd _ (by simp))
        (by rw [ARef.nd_touch t68 (by omega) (by simp), f6.nd])
    · exact value_one ARef.array1d_nd (hnd _ (by simp))
        (by rw [ARef.nd_touch t78 (by omega) (by simp), f7.nd])
    · exact value_one ARef.array2d_nd (hnd _ (by simp)) (by rw [f8.nd])
  have hfrom : PRefs.From k h
        ⟨(k.A.map ARef.array2d).getD v1, (k.b.map ARef.array1d).getD v2,
         (k.Q.map ARef.array2d).getD v3, (k.C.map ARef.array2d).getD v4,
         (k.d.map ARef.array1d).getD v5, (k.R.map ARef.array2d).getD v6,
         (k.mu0.map ARef.array1d).getD v7, (k.S0.map ARef.array2d).getD v8⟩ := by
    obtain ⟨b1, b1'⟩ := from_one (o := k.A) (f := ARef.array2d) (d := v1) (b := h.next) (by omega)
    obtain ⟨b2, b2'⟩ := from_one (o := k.b) (f := ARef.array1d) (d := v2) (b := h.next) (by omega)
    obtain ⟨b3, b3'⟩ := from_one (o := k.Q) (f := ARef.array2d) (d := v3) (b := h.next) (by omega)
    obtain ⟨b4, b4'⟩ := from_one (o := k.C) (f := ARef.array2d) (d := v4) (b := h.next) (by omega)
    obtain ⟨b5, b5'⟩ := from_one (o := k.d) (f := ARef.array1d) (d := v5) (b := h.next) (by omega)
    obtain ⟨b6, b6'⟩ := from_one (o := k.R) (f := ARef.array2d) (d := v6) (b := h.next) (by omega)
    obtain ⟨b7, b7'⟩ := from_one (o := k.mu0) (f := ARef.array1d) (d := v7) (b := h.next) (by omega)
    obtain ⟨b8, b8'⟩ := from_one (o := k.S0) (f := ARef.array2d) (d := v8) (b := h.next) (by omega)
    exact ⟨b1, b1', b2, b2', b3, b3', b4, b4', b5, b5', b6, b6', b7, b7', b8, b8'⟩
  have hval : ∀ q ∈ [(k.A.map ARef.array2d).getD v1, (k.b.map ARef.array1d).getD v2,
         (k.Q.map ARef.array2d).getD v3, (k.C.map ARef.array2d).getD v4,
         (k.d.map ARef.array1d).getD v5, (k.R.map ARef.array2d).getD v6,
         (k.mu0.map ARef.array1d).getD v7, (k.S0.map ARef.array2d).getD v8],
         q.addr < h8.next := by
    intro q hq
    simp only [List.mem_cons, List.not_mem_nil, or_false] at hq
    rcases hq with rfl | rfl | rfl | rfl | rfl | rfl | rfl | rfl
    · exact valid_one ARef.array2d_addr (hlt _ (by simp)) (by omega)
    · exact valid_one ARef.array1d_addr (hlt _ (by simp)) (by omega)
    · exact valid_one ARef.array2d_addr (hlt _ (by simp)) (by omega)
    · exact valid_one ARef.array2d_addr (hlt _ (by simp)) (by omega)
    · exact valid_one ARef.array1d_addr (hlt _ (by simp)) (by omega)
    · exact valid_one ARef.array2d_addr (hlt _ (by simp)) (by omega)
    · exact valid_one ARef.array1d_addr (hlt _ (by simp)) (by omega)
    · exact valid_one ARef.array2d_addr (hlt _ (by simp)) (by omega)
  rcases hs : k.randomState with _ | s
  · refine ⟨t08, ?_, ?_⟩
    · rintro p ⟨⟩
      exact ⟨main (by intro s h; rw [hs] at h; cases h), hfrom, hval⟩
    · rintro e ⟨⟩
  · rcases hg : checkRandomState s with e | g
    · unfold Runs
      simp only [hg]
      refine ⟨t08, ?_, ?_⟩
      · rintro p ⟨⟩
      · rintro e ⟨⟩
        exact initialize_raises (k.value h) hs hg
    · unfold Runs
      simp only [hg]
      refine ⟨t08, ?_, ?_⟩
      · rintro p ⟨⟩
        exact ⟨main (by intro s' h; rw [hs] at h; cases h; exact ⟨g, hg⟩), hfrom, hval⟩
      · rintro e ⟨⟩

end Verif
