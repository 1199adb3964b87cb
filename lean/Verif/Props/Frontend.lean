import Verif.Proofs.Frontend

/-!
# C25, C26, C28, C45, C46: constructor, parameters, observations, seeds
-/

open Matrix

namespace Verif

/-! ### C25 -/

theorem stateVars_read (a : KFArgs) :
    ∀ e ∈ ([(a.A, array2d, 1), (a.b, array1d, 0), (a.Q, array2d, 1), (a.mu0, array1d, 0),
      (a.S0, array2d, 1), (a.C, array2d, 0)] : List (Option NDArray × (NDArray → NDArray) × ℕ)),
      ReadsAxis e := by
  intro e he
  simp only [List.mem_cons, List.not_mem_nil, or_false] at he
  rcases he with rfl | rfl | rfl | rfl | rfl | rfl
  · exact axisFromEnd_array2d_one
  · exact axisFromEnd_array1d
  · exact axisFromEnd_array2d_one
  · exact axisFromEnd_array1d
  · exact axisFromEnd_array2d_one
  · exact axisFromEnd_array2d_zero

theorem obsVars_read (a : KFArgs) :
    ∀ e ∈ ([(a.C, array2d, 1), (a.d, array1d, 0), (a.R, array2d, 1)] :
      List (Option NDArray × (NDArray → NDArray) × ℕ)), ReadsAxis e := by
  intro e he
  simp only [List.mem_cons, List.not_mem_nil, or_false] at he
  rcases he with rfl | rfl | rfl
  · exact axisFromEnd_array2d_one
  · exact axisFromEnd_array1d
  · exact axisFromEnd_array2d_one

/-- Nothing says what the dimension of the states is. -/
def KFArgs.NoStateDim (a : KFArgs) : Prop :=
  a.A = none ∧ a.b = none ∧ a.Q = none ∧ a.mu0 = none ∧ a.S0 = none ∧ a.C = none ∧
    a.nDimState = none

/-- Nothing says what the dimension of the observations is. -/
def KFArgs.NoObsDim (a : KFArgs) : Prop :=
  a.C = none ∧ a.d = none ∧ a.R = none ∧ a.nDimObs = none

theorem stateDim_iff (a : KFArgs) (k : ℕ) :
    determineDim [(a.A, array2d, 1), (a.b, array1d, 0), (a.Q, array2d, 1), (a.mu0, array1d, 0),
      (a.S0, array2d, 1), (a.C, array2d, 0)] a.nDimState = .ok k ↔
      a.StateDim k ∧ (a.NoStateDim → k = 1) := by
  rw [determineDim_ok_iff (stateVars_read a)]
  simp only [List.forall_mem_cons, List.not_mem_nil, false_implies, implies_true, and_true]
  constructor
  · rintro ⟨⟨h1, h2, h3, h4, h5, h6⟩, h7, h8⟩
    exact ⟨⟨h1, h2, h3, h4, h5, h6, h7⟩,
      fun ⟨g1, g2, g3, g4, g5, g6, g7⟩ => h8 ⟨g1, g2, g3, g4, g5, g6⟩ g7⟩
  · rintro ⟨⟨h1, h2, h3, h4, h5, h6, h7⟩, h8⟩
    exact ⟨⟨h1, h2, h3, h4, h5, h6⟩, h7,
      fun ⟨g1, g2, g3, g4, g5, g6⟩ g7 => h8 ⟨g1, g2, g3, g4, g5, g6, g7⟩⟩

theorem obsDim_iff (a : KFArgs) (k : ℕ) :
    determineDim [(a.C, array2d, 1), (a.d, array1d, 0), (a.R, array2d, 1)] a.nDimObs = .ok k ↔
      a.ObsDim k ∧ (a.NoObsDim → k = 1) := by
  rw [determineDim_ok_iff (obsVars_read a)]
  simp only [List.forall_mem_cons, List.not_mem_nil, false_implies, implies_true, and_true]
  constructor
  · rintro ⟨⟨h1, h2, h3⟩, h7, h8⟩
    exact ⟨⟨h1, h2, h3, h7⟩, fun ⟨g1, g2, g3, g7⟩ => h8 ⟨g1, g2, g3⟩ g7⟩
  · rintro ⟨⟨h1, h2, h3, h7⟩, h8⟩
    exact ⟨⟨h1, h2, h3⟩, h7, fun ⟨g1, g2, g3⟩ g7 => h8 ⟨g1, g2, g3, g7⟩⟩

/-- **C25.** The dimensions of a constructed filter are those all arguments agree on, and 1 if
nothing determines them.  The arguments are stored as they are. -/
theorem C25_dimensions {a : KFArgs} {k : KF} (h : KF.init a = .ok k) :
    a.StateDim k.nDimState ∧ a.ObsDim k.nDimObs ∧ (a.NoStateDim → k.nDimState = 1) ∧
      (a.NoObsDim → k.nDimObs = 1) ∧
      (k.A = a.A ∧ k.C = a.C ∧ k.Q = a.Q ∧ k.R = a.R ∧ k.b = a.b ∧ k.d = a.d ∧ k.mu0 = a.mu0 ∧
        k.S0 = a.S0 ∧ k.randomState = a.randomState ∧ k.emVars = a.emVars) := by
  simp only [KF.init, bind] at h
  cases hn : determineDim [(a.A, array2d, 1), (a.b, array1d, 0), (a.Q, array2d, 1),
      (a.mu0, array1d, 0), (a.S0, array2d, 1), (a.C, array2d, 0)] a.nDimState with
  | error e => rw [hn] at h; cases h
  | ok n =>
    cases hm : determineDim [(a.C, array2d, 1), (a.d, array1d, 0), (a.R, array2d, 1)] a.nDimObs with
    | error e => rw [hn, hm] at h; cases h
    | ok m =>
      rw [hn, hm] at h
      cases h
      obtain ⟨h1, h2⟩ := (stateDim_iff a n).mp hn
      obtain ⟨h3, h4⟩ := (obsDim_iff a m).mp hm
      exact ⟨h1, h3, h2, h4, rfl, rfl, rfl, rfl, rfl, rfl, rfl, rfl, rfl, rfl⟩

theorem stateDim_unique_or {a : KFArgs} {n : ℕ} (h : a.StateDim n) :
    ∃ k, a.StateDim k ∧ (a.NoStateDim → k = 1) := by
  by_cases hn : a.NoStateDim
  · refine ⟨1, ?_, fun _ => rfl⟩
    obtain ⟨g1, g2, g3, g4, g5, g6, g7⟩ := hn
    constructor <;> simp [g1, g2, g3, g4, g5, g6, g7]
  · exact ⟨n, h, fun h => absurd h hn⟩

theorem obsDim_unique_or {a : KFArgs} {n : ℕ} (h : a.ObsDim n) :
    ∃ k, a.ObsDim k ∧ (a.NoObsDim → k = 1) := by
  by_cases hn : a.NoObsDim
  · refine ⟨1, ?_, fun _ => rfl⟩
    obtain ⟨g1, g2, g3, g4⟩ := hn
    constructor <;> simp [g1, g2, g3, g4]
  · exact ⟨n, h, fun h => absurd h hn⟩

/-- **C25.** Construction succeeds exactly if the arguments agree. -/
theorem C25_succeeds_iff (a : KFArgs) :
    (∃ k, KF.init a = .ok k) ↔ (∃ n, a.StateDim n) ∧ ∃ m, a.ObsDim m := by
  constructor
  · rintro ⟨k, hk⟩
    obtain ⟨h1, h2, -⟩ := C25_dimensions hk
    exact ⟨⟨_, h1⟩, _, h2⟩
  · rintro ⟨⟨n, hn⟩, m, hm⟩
    obtain ⟨n', hn'⟩ := stateDim_unique_or hn
    obtain ⟨m', hm'⟩ := obsDim_unique_or hm
    simp only [KF.init, bind, (stateDim_iff a n').mpr hn', (obsDim_iff a m').mpr hm', Except.bind]
    exact ⟨_, rfl⟩

/-- **C25.** Otherwise it raises `ValueError`. -/
theorem C25_value_error (a : KFArgs) {e : Err} (h : KF.init a = .error e) : e = .valueError := by
  simp only [KF.init, bind] at h
  cases hn : determineDim [(a.A, array2d, 1), (a.b, array1d, 0), (a.Q, array2d, 1),
      (a.mu0, array1d, 0), (a.S0, array2d, 1), (a.C, array2d, 0)] a.nDimState with
  | error e' =>
    rw [hn] at h
    cases h
    exact determineDim_error (stateVars_read a) hn
  | ok n =>
    cases hm : determineDim [(a.C, array2d, 1), (a.d, array1d, 0), (a.R, array2d, 1)] a.nDimObs with
    | error e' =>
      rw [hn, hm] at h
      cases h
      exact determineDim_error (obsVars_read a) hm
    | ok m => rw [hn, hm] at h; cases h

/-- **C25.** The order in which the arguments are considered does not matter. -/
theorem C25_order {vars vars' : List (Option NDArray × (NDArray → NDArray) × ℕ)}
    (hp : vars.Perm vars') (h : ∀ e ∈ vars, ∀ a, (e.2.1 a).axisFromEnd e.2.2 = .ok (axisLen a e.2.2))
    (default : Option ℕ) : determineDim vars default = determineDim vars' default := by
  have h' : ∀ e ∈ vars', ReadsAxis e := fun e he => h e (hp.mem_iff.mpr he)
  have key : ∀ k, determineDim vars default = .ok k ↔ determineDim vars' default = .ok k := by
    intro k
    rw [determineDim_ok_iff h, determineDim_ok_iff h']
    simp only [hp.mem_iff]
  cases h1 : determineDim vars default with
  | ok k => exact ((key k).mp h1).symm
  | error e =>
    cases h2 : determineDim vars' default with
    | ok k => rw [(key k).mpr h2] at h1; cases h1
    | error e' => rw [determineDim_error h h1, determineDim_error h' h2]

/-- Arrays of all axes that the constructor reads. -/
example (a : KFArgs) : ∀ e ∈ ([(a.C, array2d, 1), (a.d, array1d, 0), (a.R, array2d, 1)] :
    List (Option NDArray × (NDArray → NDArray) × ℕ)), ∀ x,
    (e.2.1 x).axisFromEnd e.2.2 = .ok (axisLen x e.2.2) := obsVars_read a

/-- **C25 (limit).** Only the axes named in `KFArgs.StateDim` and `KFArgs.ObsDim` are compared: a
transition matrix that is not square is accepted. -/
theorem C25_not_square_accepted :
    ∃ k, KF.init { A := some ⟨[2, 3], fun _ => 0⟩ } = .ok k ∧ k.nDimState = 2 ∧ k.nDimObs = 1 :=
  ⟨_, rfl, rfl, rfl⟩

/-- A filter with a scalar observation of a state of dimension 2, all dimensions inferred. -/
example : ∃ k, KF.init { A := some (ndEye 2 2), C := some ⟨[2], fun _ => 1⟩, R := some ⟨[], 1⟩ }
    = .ok k ∧ k.nDimState = 2 ∧ k.nDimObs = 1 := ⟨_, rfl, rfl, rfl⟩

/-- Contradictory arguments. -/
example : KF.init { A := some (ndEye 2 2), mu0 := some (ndZeros 3) } = .error .valueError := rfl

/-! ### C26 -/

variable {α β : Type}

/-- **C26.** If `preprocess_arguments` returns, it returns a value for exactly the names that have a
converter, and every value is the converted value of the first source that has one. -/
theorem C26_resolves {ss : List (List (String × Option α))} {conv : List (String × (α → Res β))}
    (hconv : KeysNodup conv) (hss : ∀ s ∈ ss, KeysNodup s) {r : List (String × β)}
    (h : preprocessArguments ss conv = .ok r) :
    (∀ k, (∃ c, conv.lookup k = some c) ↔ ∃ b, r.lookup k = some b) ∧
    ∀ k b, r.lookup k = some b →
      ∃ c v, conv.lookup k = some c ∧ FirstValue ss k v ∧ c v = .ok b :=
  (preprocess_ok hconv hss h).2

/-- **C26.** It returns if all names are known and every name has a value that can be converted. -/
theorem C26_succeeds {ss : List (List (String × Option α))}
    {conv : List (String × (α → Res β))} (hconv : KeysNodup conv) (hss : ∀ s ∈ ss, KeysNodup s)
    (hname : ∀ s ∈ ss, ∀ e ∈ s, ∃ c, conv.lookup e.1 = some c)
    (hval : ∀ k c, conv.lookup k = some c → ∃ v b, FirstValue ss k v ∧ c v = .ok b) :
    ∃ r, preprocessArguments ss conv = .ok r :=
  preprocess_succeeds hconv hss hname hval

/-- **C26.** If a name in a source has no converter, or a name with a converter has no value in any
source, and no converter raises, `ValueError` is raised. -/
theorem C26_value_error {ss : List (List (String × Option α))} {conv : List (String × (α → Res β))}
    (hconv : KeysNodup conv) (hss : ∀ s ∈ ss, KeysNodup s)
    (hok : ∀ k c v, conv.lookup k = some c → ∃ b, c v = .ok b)
    (hbad : (∃ s ∈ ss, ∃ e ∈ s, conv.lookup e.1 = none) ∨
      ∃ k c, conv.lookup k = some c ∧ ∀ v, ¬ FirstValue ss k v) :
    preprocessArguments ss conv = .error .valueError := by
  cases h : preprocessArguments ss conv with
  | ok r =>
    obtain ⟨h1, h2, h3⟩ := preprocess_ok hconv hss h
    rcases hbad with ⟨s, hs, e, he, hn⟩ | ⟨k, c, hc, hv⟩
    · obtain ⟨c, hc⟩ := h1 s hs e he
      rw [hn] at hc; cases hc
    · obtain ⟨b, hb⟩ := (h2 k).mp ⟨c, hc⟩
      obtain ⟨c', v, -, hf, -⟩ := h3 k b hb
      exact absurd hf (hv v)
  | error e =>
    rw [preprocess_eq] at h
    cases hr : addArgs conv ss.flatten [] with
    | ok r =>
      rw [hr] at h
      simp only [Except.bind] at h
      split at h
      · cases h
      · cases h; rfl
    | error e' =>
      rw [hr] at h
      cases h
      rcases addArgs_error hr with rfl | ⟨k, c, v, hc, -, hcv⟩
      · rfl
      · obtain ⟨b, hb⟩ := hok k c v hc
        rw [hb] at hcv; cases hcv

/-- Two sources and two names: the first source wins where it has a value. -/
example : preprocessArguments [[("a", some 1), ("b", none)], [("a", some 5), ("b", some 7)]]
    [("a", fun x : ℕ => (Except.ok (x + 1) : Res ℕ)), ("b", fun x => .ok (2 * x))]
    = .ok [("a", 2), ("b", 14)] := by
  simp [preprocessArguments, addArgs, List.lookup, bind, Except.bind, pure, Except.pure]

/-- An unknown name. -/
example : preprocessArguments [[("c", some 1)]] [("a", fun x : ℕ => (Except.ok x : Res ℕ))]
    = .error .valueError := by
  simp [preprocessArguments, addArgs, List.lookup, bind, Except.bind]

theorem arguments_nodup (k : KF) : KeysNodup k.arguments := by
  simp [KeysNodup, KF.arguments]

theorem defaults_nodup (k : KF) : KeysNodup k.defaults := by
  simp [KeysNodup, KF.defaults]

theorem converters_nodup : KeysNodup kfConverters := by
  simp [KeysNodup, kfConverters]

theorem firstValue_of_args {args defs : List (String × Option α)} {name : String} {v : α}
    (h : (name, some v) ∈ args) : FirstValue [args, defs] name v :=
  ⟨[], args, [defs], rfl, h, by simp⟩

theorem firstValue_of_defs {args defs : List (String × Option α)} (hn : KeysNodup args)
    {name : String} {v : α} (h0 : (name, none) ∈ args) (h : (name, some v) ∈ defs) :
    FirstValue [args, defs] name v := by
  refine ⟨[args], defs, [], rfl, h, ?_⟩
  intro s hs w hw
  rw [List.mem_singleton.mp hs] at hw
  have := List.inj_on_of_nodup_map hn hw h0 rfl
  cases this

theorem firstValue_unique {ss : List (List (String × Option α))} (hss : ∀ s ∈ ss, KeysNodup s)
    {name : String} {v w : α} (hv : FirstValue ss name v) (hw : FirstValue ss name w) : v = w := by
  have h1 := (firstVal_flatten_iff hss).mpr hv
  have h2 := (firstVal_flatten_iff hss).mpr hw
  rw [h1] at h2
  exact Option.some.inj h2

/-- The arrays a filter computes with: the user's, as arrays of at least one or two dimensions, and
identity matrices and zero vectors for those not given. -/
def KF.resolvedSpec (k : KF) : Resolved where
  A := (k.A.map array2d).getD (ndEye k.nDimState k.nDimState)
  b := (k.b.map array1d).getD (ndZeros k.nDimState)
  Q := (k.Q.map array2d).getD (ndEye k.nDimState k.nDimState)
  C := (k.C.map array2d).getD (ndEye k.nDimObs k.nDimState)
  d := (k.d.map array1d).getD (ndZeros k.nDimObs)
  R := (k.R.map array2d).getD (ndEye k.nDimObs k.nDimObs)
  mu0 := (k.mu0.map array1d).getD (ndZeros k.nDimState)
  S0 := (k.S0.map array2d).getD (ndEye k.nDimState k.nDimState)

/-- Value of an array parameter according to the two sources. -/
theorem firstValue_arr (k : KF) {name : String} {o : Option NDArray} {d : NDArray}
    (h1 : (name, o.map PyVal.arr) ∈ k.arguments) (h2 : (name, some (PyVal.arr d)) ∈ k.defaults) :
    FirstValue [k.arguments, k.defaults] name (.arr (o.getD d)) := by
  cases o with
  | some x => exact firstValue_of_args h1
  | none => exact firstValue_of_defs (arguments_nodup k) h1 h2

theorem initialize_sources (k : KF) : ∀ s ∈ [k.arguments, k.defaults], KeysNodup s := by
  intro s hs
  simp only [List.mem_cons, List.not_mem_nil, or_false] at hs
  rcases hs with rfl | rfl
  · exact arguments_nodup k
  · exact defaults_nodup k

theorem getArr_eq {k : KF} {r : List (String × PyVal)}
    (hr : preprocessArguments [k.arguments, k.defaults] kfConverters = .ok r) {name : String}
    {o : Option NDArray} {d : NDArray} {f : NDArray → NDArray}
    (h1 : (name, o.map PyVal.arr) ∈ k.arguments) (h2 : (name, some (PyVal.arr d)) ∈ k.defaults)
    (hc : kfConverters.lookup name = some (convArr f)) (hd : f d = d) :
    getArr r name = .ok ((o.map f).getD d) := by
  obtain ⟨g1, g2⟩ := C26_resolves converters_nodup (initialize_sources k) hr
  obtain ⟨b, hb⟩ := (g1 name).mp ⟨_, hc⟩
  obtain ⟨c, v, hc', hv, hcv⟩ := g2 name b hb
  rw [hc] at hc'
  cases hc'
  rw [firstValue_unique (initialize_sources k) hv (firstValue_arr k h1 h2)] at hcv
  cases hcv
  rw [getArr, hb]
  cases o with
  | some x => rfl
  | none => simp only [Option.getD_none, Option.map_none, hd]

theorem kfConverters_keys {name : String} {c : PyVal → Res PyVal}
    (h : kfConverters.lookup name = some c) :
    (name, c) ∈ kfConverters := by
  have : ∀ l : List (String × (PyVal → Res PyVal)), l.lookup name = some c → (name, c) ∈ l := by
    intro l
    induction l with
    | nil => intro h; cases h
    | cons e l ih =>
      obtain ⟨k, c'⟩ := e
      intro h
      by_cases hk : name = k
      · subst hk
        simp only [List.lookup, beq_self_eq_true] at h
        cases h
        simp
      · have hk' : (name == k) = false := by simpa using hk
        simp only [List.lookup, hk'] at h
        exact List.mem_cons_of_mem _ (ih h)
  exact this _ h

/-- **C26.** `_initialize_parameters` uses the user's arrays where they are given and the documented
defaults where they are not, provided the seed is one that `check_random_state` accepts. -/
theorem C26_parameters (k : KF)
    (hseed : ∀ s, k.randomState = some s → ∃ g, checkRandomState s = .ok g) :
    k.initialize = .ok k.resolvedSpec := by
  have hs := initialize_sources k
  obtain ⟨r, hr⟩ := C26_succeeds (ss := [k.arguments, k.defaults]) (conv := kfConverters)
    converters_nodup hs (by
      intro s hs e he
      rw [lookup_isSome_iff]
      simp only [List.mem_cons, List.not_mem_nil, or_false] at hs
      rcases hs with rfl | rfl
      · have : e.1 ∈ k.arguments.map Prod.fst := List.mem_map_of_mem (f := Prod.fst) he
        simp only [KF.arguments, List.map_cons, List.map_nil, List.mem_cons, List.not_mem_nil,
          or_false] at this
        simp only [kfConverters, List.map_cons, List.map_nil, List.mem_cons, List.not_mem_nil,
          or_false]
        tauto
      · have : e.1 ∈ k.defaults.map Prod.fst := List.mem_map_of_mem (f := Prod.fst) he
        simp only [KF.defaults, List.map_cons, List.map_nil, List.mem_cons, List.not_mem_nil,
          or_false] at this
        simp only [kfConverters, List.map_cons, List.map_nil, List.mem_cons, List.not_mem_nil,
          or_false]
        tauto) (by
      intro name c hc
      have hmem := kfConverters_keys hc
      simp only [kfConverters, List.mem_cons, List.not_mem_nil, or_false, Prod.mk.injEq] at hmem
      have harr : ∀ {name : String} {o : Option NDArray} {d : NDArray} {f : NDArray → NDArray},
          (name, o.map PyVal.arr) ∈ k.arguments → (name, some (PyVal.arr d)) ∈ k.defaults →
          ∃ v b, FirstValue [k.arguments, k.defaults] name v ∧ convArr f v = .ok b :=
        fun h1 h2 => ⟨_, _, firstValue_arr k h1 h2, rfl⟩
      rcases hmem with ⟨rfl, rfl⟩ | ⟨rfl, rfl⟩ | ⟨rfl, rfl⟩ | ⟨rfl, rfl⟩ | ⟨rfl, rfl⟩ | ⟨rfl, rfl⟩ |
        ⟨rfl, rfl⟩ | ⟨rfl, rfl⟩ | ⟨rfl, rfl⟩ | ⟨rfl, rfl⟩ | ⟨rfl, rfl⟩ | ⟨rfl, rfl⟩
      · exact harr (o := k.A) (by simp [KF.arguments]) (by simp [KF.defaults]; rfl)
      · exact harr (o := k.b) (by simp [KF.arguments]) (by simp [KF.defaults]; rfl)
      · exact harr (o := k.Q) (by simp [KF.arguments]) (by simp [KF.defaults]; rfl)
      · exact harr (o := k.C) (by simp [KF.arguments]) (by simp [KF.defaults]; rfl)
      · exact harr (o := k.d) (by simp [KF.arguments]) (by simp [KF.defaults]; rfl)
      · exact harr (o := k.R) (by simp [KF.arguments]) (by simp [KF.defaults]; rfl)
      · exact harr (o := k.mu0) (by simp [KF.arguments]) (by simp [KF.defaults]; rfl)
      · exact harr (o := k.S0) (by simp [KF.arguments]) (by simp [KF.defaults]; rfl)
      · cases hk : k.randomState with
        | some s =>
          obtain ⟨g, hg⟩ := hseed s hk
          exact ⟨.seed s, .rng g, firstValue_of_args (by simp [KF.arguments, hk]),
            by simp [convSeed, hg, Except.map]⟩
        | none =>
          exact ⟨.seed (.int 0), .rng (.seeded 0), firstValue_of_defs (arguments_nodup k)
            (by simp [KF.arguments, hk]) (by simp [KF.defaults]),
            by simp [convSeed, checkRandomState, Except.map]⟩
      · exact ⟨.nat k.nDimState, .nat k.nDimState, firstValue_of_args (by simp [KF.arguments]), rfl⟩
      · exact ⟨.nat k.nDimObs, .nat k.nDimObs, firstValue_of_args (by simp [KF.arguments]), rfl⟩
      · cases hk : k.emVars with
        | some s =>
          exact ⟨.names s, .names s, firstValue_of_args (by simp [KF.arguments, hk]), rfl⟩
        | none =>
          exact ⟨.names defaultEmNames, .names defaultEmNames, firstValue_of_defs (arguments_nodup k)
            (by simp [KF.arguments, hk]) (by simp [KF.defaults]), rfl⟩)
  simp only [KF.initialize, hr, bind, Except.bind]
  rw [getArr_eq hr (o := k.A) (d := ndEye k.nDimState k.nDimState) (f := array2d)
      (by simp [KF.arguments]) (by simp [KF.defaults]) (by simp [kfConverters, List.lookup]) rfl,
    getArr_eq hr (o := k.b) (d := ndZeros k.nDimState) (f := array1d)
      (by simp [KF.arguments]) (by simp [KF.defaults]) (by simp [kfConverters, List.lookup]) rfl,
    getArr_eq hr (o := k.Q) (d := ndEye k.nDimState k.nDimState) (f := array2d)
      (by simp [KF.arguments]) (by simp [KF.defaults]) (by simp [kfConverters, List.lookup]) rfl,
    getArr_eq hr (o := k.C) (d := ndEye k.nDimObs k.nDimState) (f := array2d)
      (by simp [KF.arguments]) (by simp [KF.defaults]) (by simp [kfConverters, List.lookup]) rfl,
    getArr_eq hr (o := k.d) (d := ndZeros k.nDimObs) (f := array1d)
      (by simp [KF.arguments]) (by simp [KF.defaults]) (by simp [kfConverters, List.lookup]) rfl,
    getArr_eq hr (o := k.R) (d := ndEye k.nDimObs k.nDimObs) (f := array2d)
      (by simp [KF.arguments]) (by simp [KF.defaults]) (by simp [kfConverters, List.lookup]) rfl,
    getArr_eq hr (o := k.mu0) (d := ndZeros k.nDimState) (f := array1d)
      (by simp [KF.arguments]) (by simp [KF.defaults]) (by simp [kfConverters, List.lookup]) rfl,
    getArr_eq hr (o := k.S0) (d := ndEye k.nDimState k.nDimState) (f := array2d)
      (by simp [KF.arguments]) (by simp [KF.defaults]) (by simp [kfConverters, List.lookup]) rfl]
  rfl

/-- The seeds of the default and of most users. -/
example : ∀ s, (some (Seed.int 7)) = some s → ∃ g, checkRandomState s = .ok g := by
  rintro s ⟨⟩
  exact ⟨.seeded 7, rfl⟩

/-! ### C46 -/

/-- **C46 (partial).** `None` and `np.random` give the global generator, a natural number below 2³²
a new generator with this seed, a `RandomState` itself.  Missing: for anything else the documented
`ValueError` is not raised. -/
theorem C46_seeds_partial :
    checkRandomState .none = .ok .global ∧ checkRandomState .npRandom = .ok .global ∧
    (∀ k : ℕ, k < 2 ^ 32 → checkRandomState (.int k) = .ok (.seeded k)) ∧
    (∀ k : ℤ, k < 0 ∨ 2 ^ 32 ≤ k → checkRandomState (.int k) = .error .valueError) ∧
    ∀ id, checkRandomState (.state id) = .ok (.object id) := by
  refine ⟨rfl, rfl, fun k hk => ?_, fun k hk => ?_, fun _ => rfl⟩
  · have : (0 : ℤ) ≤ k ∧ (k : ℤ) < 2 ^ 32 := ⟨by omega, by exact_mod_cast hk⟩
    simp only [checkRandomState, if_pos this, Int.toNat_natCast]
  · have : ¬ ((0 : ℤ) ≤ k ∧ k < 2 ^ 32) := by omega
    simp only [checkRandomState, if_neg this]

/-- **C46 (the claim fails).** An invalid seed raises `AttributeError`, not `ValueError`. -/
theorem C46_fails : checkRandomState .other = .error .attributeError ∧
    checkRandomState .other ≠ .error .valueError := ⟨rfl, by simp [checkRandomState]⟩

/-- **C46.** The constructor accepts an invalid seed; afterwards every method that resolves the
parameters raises `AttributeError`. -/
theorem C46_invalid_seed_breaks_methods (k : KF) (h : k.randomState = some .other) :
    k.initialize = .error .attributeError := by
  have hsplit : k.arguments ++ k.defaults = k.arguments.take 8 ++
      (("random_state", some (PyVal.seed .other)) :: (k.arguments.drop 9 ++ k.defaults)) := by
    simp [KF.arguments, h]
  have hl : ∃ r, addArgs kfConverters (k.arguments.take 8) [] = .ok r := by
    refine addArgs_succeeds ?_ ?_
    · intro e he
      rw [lookup_isSome_iff]
      have : e.1 ∈ (k.arguments.take 8).map Prod.fst := List.mem_map_of_mem (f := Prod.fst) he
      simp only [KF.arguments, List.take, List.map_cons, List.map_nil, List.mem_cons,
        List.not_mem_nil, or_false] at this
      simp only [kfConverters, List.map_cons, List.map_nil, List.mem_cons, List.not_mem_nil,
        or_false]
      tauto
    · intro name c v hc hv _
      have hm := mem_of_firstVal hv
      have hmem := kfConverters_keys hc
      simp only [KF.arguments, List.take, List.mem_cons, List.not_mem_nil, or_false,
        Prod.mk.injEq] at hm
      have hv' : ∃ a, v = .arr a := by
        have : ∀ o : Option NDArray, some v = o.map PyVal.arr → ∃ a, v = .arr a := by
          intro o ho
          cases o with
          | none => cases ho
          | some x => exact ⟨x, Option.some.inj ho⟩
        rcases hm with ⟨-, h⟩ | ⟨-, h⟩ | ⟨-, h⟩ | ⟨-, h⟩ | ⟨-, h⟩ | ⟨-, h⟩ | ⟨-, h⟩ | ⟨-, h⟩ <;>
          exact this _ h
      obtain ⟨a, rfl⟩ := hv'
      simp only [kfConverters, List.mem_cons, List.not_mem_nil, or_false, Prod.mk.injEq] at hmem
      rcases hmem with ⟨rfl, rfl⟩ | ⟨rfl, rfl⟩ | ⟨rfl, rfl⟩ | ⟨rfl, rfl⟩ | ⟨rfl, rfl⟩ | ⟨rfl, rfl⟩ |
        ⟨rfl, rfl⟩ | ⟨rfl, rfl⟩ | ⟨rfl, rfl⟩ | ⟨rfl, rfl⟩ | ⟨rfl, rfl⟩ | ⟨rfl, rfl⟩
      · exact ⟨_, rfl⟩
      · exact ⟨_, rfl⟩
      · exact ⟨_, rfl⟩
      · exact ⟨_, rfl⟩
      · exact ⟨_, rfl⟩
      · exact ⟨_, rfl⟩
      · exact ⟨_, rfl⟩
      · exact ⟨_, rfl⟩
      · simp at hm
      · exact ⟨_, rfl⟩
      · exact ⟨_, rfl⟩
      · exact ⟨_, rfl⟩
  obtain ⟨r, hr⟩ := hl
  have hnone : r.lookup "random_state" = none := by
    cases hx : r.lookup "random_state" with
    | none => rfl
    | some b =>
      obtain ⟨-, -, -, -, h5, -⟩ := addArgs_ok hr List.nodup_nil (by simp)
      obtain ⟨c, v, -, hv, -⟩ := h5 _ _ rfl hx
      have hm := mem_of_firstVal hv
      simp [KF.arguments, List.take] at hm
  have hpre : preprocessArguments [k.arguments, k.defaults] kfConverters
      = .error .attributeError := by
    rw [preprocess_eq]
    simp only [List.flatten_cons, List.flatten_nil, List.append_nil]
    rw [hsplit, addArgs_append, hr]
    have hc : kfConverters.lookup "random_state" = some convSeed := by
      simp [kfConverters, List.lookup]
    simp only [Except.bind, addArgs, hc, hnone]
    rfl
  simp only [KF.initialize, hpre, bind, Except.bind]

/-! ### C28 -/

/-- **C28.** A one-dimensional sequence of `T ≥ 1` numbers is read as `T` observations of one
number. -/
theorem C28_sequence {X : MArray} {T : ℕ} (hX : X.shape = [T]) (hT : 1 ≤ T) :
    (parseObservations X).shape = [T, 1] ∧ ∀ t, t < T →
      (parseObservations X).data [t, 0] = X.data [t] ∧
      (parseObservations X).mask [t, 0] = X.mask [t] := by
  obtain ⟨shape, data, mask⟩ := X
  simp only at hX
  subst hX
  by_cases h : T = 1
  · subst h
    simp only [parseObservations, MArray.atleast2d, dropIdx]
    refine ⟨by simp, fun t ht => ?_⟩
    obtain rfl : t = 0 := by omega
    simp [dropIdx]
  · have : T > 1 := by omega
    simp [parseObservations, MArray.atleast2d, this, MArray.transpose, dropIdx]

/-- **C28.** A two-dimensional array with more (or fewer) than one row, or one column, is used as it
is. -/
theorem C28_two_dimensional {X : MArray} {T c : ℕ} (hX : X.shape = [T, c]) (h : T ≠ 1 ∨ c ≤ 1) :
    parseObservations X = X := by
  obtain ⟨shape, data, mask⟩ := X
  simp only at hX
  subst hX
  have : ¬ (T = 1 ∧ c > 1) := by omega
  simp [parseObservations, MArray.atleast2d, this]

/-- **C28.** A single row with `c > 1` columns is read as `c` observations of one number, not as one
observation of `c` numbers. -/
theorem C28_single_row {X : MArray} {c : ℕ} (hX : X.shape = [1, c]) (h : 1 < c) :
    (parseObservations X).shape = [c, 1] ∧ ∀ t,
      (parseObservations X).data [t, 0] = X.data [0, t] ∧
      (parseObservations X).mask [t, 0] = X.mask [0, t] := by
  obtain ⟨shape, data, mask⟩ := X
  simp only at hX
  subst hX
  simp [parseObservations, MArray.atleast2d, h, MArray.transpose]

/-- **C28.** Parsing twice is the same as parsing once. -/
theorem C28_idempotent {X : MArray} (hX : X.shape.length ≤ 2) :
    parseObservations (parseObservations X) = parseObservations X := by
  obtain ⟨shape, data, mask⟩ := X
  match shape, hX with
  | [], _ => rfl
  | [c], _ =>
    by_cases h : c > 1
    · simp [parseObservations, MArray.atleast2d, h, MArray.transpose]
    · simp [parseObservations, MArray.atleast2d, h]
  | [T, c], _ =>
    by_cases h : T = 1 ∧ c > 1
    · obtain ⟨rfl, h⟩ := h
      simp [parseObservations, MArray.atleast2d, h, MArray.transpose]
    · simp [parseObservations, MArray.atleast2d, h]

/-- **C28.** What the methods of a filter see of a one-dimensional sequence: one observation per
number, in order, masked where the number is masked. -/
theorem C28_methods_see {k : KF} {X : MArray} {T : ℕ} (hX : X.shape = [T]) (hT : 1 ≤ T)
    {p : Params k.nDimState k.nDimObs} {os : List (Obs k.nDimObs)}
    (h : k.prepare X = some (.ok (p, os))) :
    k.nDimObs = 1 ∧ os.length = T ∧ ∀ t o, os[t]? = some o →
      ∀ j, o.val j = X.data [t] ∧ o.mask j = X.mask [t] := by
  obtain ⟨hs, hd⟩ := C28_sequence hX hT
  simp only [KF.prepare, hs] at h
  split at h
  · cases h
  · split at h
    · split at h
      · rename_i hone
        have hone' : k.nDimObs = 1 := by simpa using hone.symm
        cases h
        refine ⟨hone', by simp [MArray.rows, hs], ?_⟩
        intro t o ho j
        have hj : (j : ℕ) = 0 := by have := j.2; omega
        rw [MArray.rows, hs, List.getElem?_map] at ho
        simp only [List.headD_cons] at ho
        by_cases ht : t < T
        · rw [List.getElem?_range ht] at ho
          simp only [Option.map_some, Option.some.injEq] at ho
          subst ho
          simp only [hj]
          exact hd t ht
        · rw [List.getElem?_eq_none (by simp; omega)] at ho
          cases ho
      · cases h
    · cases h

/-- The default filter on three numbers: three observations. -/
example : ∃ k, KF.init {} = .ok k ∧ ∃ p os, k.prepare ⟨[3], fun _ => 5, fun _ => false⟩
    = some (.ok (p, os)) := by
  refine ⟨_, rfl, ?_⟩
  rw [KF.prepare, C26_parameters _ (by rintro s ⟨⟩)]
  exact ⟨_, _, rfl⟩

/-! ### C45 -/

/-- The variables `em` estimates by default: the two noise covariances and the moments of the
initial state. -/
def EmVar.isDefault : EmVar → Bool
  | .transitionCovariance => true
  | .observationCovariance => true
  | .initialStateMean => true
  | .initialStateCovariance => true
  | _ => false

theorem emSelection_default :
    Verif.emSelection (some defaultEmNames) = .ok EmVar.isDefault := by
  simp only [Verif.emSelection, defaultEmNames]
  congr 1
  funext v
  cases v <;> simp [EmVar.name, EmVar.isDefault]

/-- **C45 (partial).** `KalmanFilter.em` with default arguments estimates the default variables.
Missing: the Cholesky and Bierman classes, where it raises `TypeError`. -/
theorem C45_default_partial {a : KFArgs} {k : KF} (h : KF.init a = .ok k) (ha : a.emVars = none)
    (qr : QR) (store : ℝ → ℝ) (X : MArray) (nIter : ℕ) :
    k.em .standard qr store X nIter none =
      (k.prepare X).map fun r => r.bind fun q => kfEm q.1 q.2 nIter EmVar.isDefault := by
  have hk : k.emVars' = defaultEmNames := by
    simp only [KF.init, bind] at h
    cases hn : determineDim [(a.A, array2d, 1), (a.b, array1d, 0), (a.Q, array2d, 1),
        (a.mu0, array1d, 0), (a.S0, array2d, 1), (a.C, array2d, 0)] a.nDimState with
    | error e => rw [hn] at h; cases h
    | ok n =>
      cases hm : determineDim [(a.C, array2d, 1), (a.d, array1d, 0), (a.R, array2d, 1)]
          a.nDimObs with
      | error e => rw [hn, hm] at h; cases h
      | ok m => rw [hn, hm] at h; cases h; rw [ha]; rfl
  simp only [KF.em, KF.emSelection, Option.getD_none, hk, emSelection_default, bind]
  rfl

/-- **C45 (the claim fails).** With default arguments, `em` of the Cholesky and Bierman classes
raises `TypeError` on all data on which the filter would run. -/
theorem C45_fails {a : KFArgs} {k : KF} (h : KF.init a = .ok k) (ha : a.emVars = none)
    (qr : QR) (store : ℝ → ℝ) (X : MArray) (nIter : ℕ)
    {q : Params k.nDimState k.nDimObs × List (Obs k.nDimObs)} (hX : k.prepare X = some (.ok q)) :
    k.em .cholesky qr store X nIter none = some (.error .typeError) ∧
    k.em .bierman qr store X nIter none = some (.error .typeError) := by
  have hk : k.emVars = none := by
    rw [(C25_dimensions h).2.2.2.2.2.2.2.2.2.2.2.2.2, ha]
  simp only [KF.em, hX, KF.emSelectionSqrt, hk, Verif.emSelection, Option.map_some, bind,
    Except.bind]
  exact ⟨rfl, rfl⟩

/-- **C45.** Variables named in the call are used by all three classes, whatever the constructor was
given; so are variables named in the constructor if the call names none. -/
theorem C45_named {a : KFArgs} {k : KF} (h : KF.init a = .ok k) (names : EmNames)
    {arg : Option EmNames} (harg : arg = some names ∨ arg = none ∧ a.emVars = some names)
    (qr : QR) (store : ℝ → ℝ) (X : MArray) (nIter : ℕ) :
    ∃ sel : EmVar → Bool,
      Selects names sel ∧
      k.em .standard qr store X nIter arg =
        ((k.prepare X).map fun r => r.bind fun q => kfEm q.1 q.2 nIter sel) ∧
      k.em .cholesky qr store X nIter arg =
        ((k.prepare X).map fun r => r.bind fun q => cholEm qr q.1 q.2 nIter sel) ∧
      k.em .bierman qr store X nIter arg =
        ((k.prepare X).map fun r => r.bind fun q => bierEm store q.1 q.2 nIter sel) := by
  have hk : k.emVars = a.emVars ∧ k.emVars' = a.emVars.getD defaultEmNames := by
    simp only [KF.init, bind] at h
    cases hn : determineDim [(a.A, array2d, 1), (a.b, array1d, 0), (a.Q, array2d, 1),
        (a.mu0, array1d, 0), (a.S0, array2d, 1), (a.C, array2d, 0)] a.nDimState with
    | error e => rw [hn] at h; cases h
    | ok n =>
      cases hm : determineDim [(a.C, array2d, 1), (a.d, array1d, 0), (a.R, array2d, 1)]
          a.nDimObs with
      | error e => rw [hn, hm] at h; cases h
      | ok m => rw [hn, hm] at h; cases h; exact ⟨rfl, rfl⟩
  have h1 : arg.getD k.emVars' = names := by
    rcases harg with rfl | ⟨rfl, he⟩
    · rfl
    · rw [Option.getD_none, hk.2, he]; rfl
  have h2 : (arg.orElse fun _ => k.emVars) = some names := by
    rcases harg with rfl | ⟨rfl, he⟩
    · rfl
    · rw [hk.1, he]; rfl
  obtain ⟨sel, hs, hv⟩ := emSelection_selects names
  refine ⟨sel, hv, ?_, ?_, ?_⟩
  · simp only [KF.em, KF.emSelection, h1, hs, bind]; rfl
  · simp only [KF.em, KF.emSelectionSqrt, h2, hs, bind]; rfl
  · simp only [KF.em, KF.emSelectionSqrt, h2, hs, bind]; rfl

/-- **C45 (limit).** Assigning to `em_vars` after construction has no effect on
`KalmanFilter.em`. -/
theorem C45_assignment_ignored (k : KF) (e : Option EmNames) (qr : QR) (store : ℝ → ℝ) (X : MArray)
    (nIter : ℕ) (arg : Option EmNames)
    (hseed : ∀ s, k.randomState = some s → ∃ g, checkRandomState s = .ok g) :
    ({ k with emVars := e } : KF).em .standard qr store X nIter arg
      = k.em .standard qr store X nIter arg := by
  have h1 := C26_parameters k hseed
  have h2 := C26_parameters { k with emVars := e } hseed
  have h3 : ({ k with emVars := e } : KF).resolvedSpec = k.resolvedSpec := rfl
  simp only [KF.em, KF.prepare, h1, h2, h3, KF.emSelection]
  generalize k.resolvedSpec.typed k.nDimState k.nDimObs = q
  cases q <;> rfl

/-- The defaults meet the hypotheses of `C45_fails`. -/
example : ∃ k, KF.init {} = .ok k ∧ ∃ q, k.prepare ⟨[3], fun _ => 5, fun _ => false⟩
    = some (.ok q) := by
  refine ⟨_, rfl, ?_⟩
  rw [KF.prepare, C26_parameters _ (by rintro s ⟨⟩)]
  exact ⟨_, rfl⟩

end Verif
