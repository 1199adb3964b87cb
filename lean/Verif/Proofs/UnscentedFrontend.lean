import Verif.Spec.UnscentedFrontend
import Verif.Props.Frontend

/-!
# Proofs about the constructors of the unscented filters
-/

open Matrix

namespace Verif

variable {φ : Type} {n m : ℕ}

theorem uStateVars_read (a : UArgs φ) :
    ∀ e ∈ ([(a.Q, array2d, 1), (a.S0, array2d, 1), (a.mu0, array1d, 0)] :
      List (Option NDArray × (NDArray → NDArray) × ℕ)), ReadsAxis e := by
  intro e he
  simp only [List.mem_cons, List.not_mem_nil, or_false] at he
  rcases he with rfl | rfl | rfl
  · exact axisFromEnd_array2d_one
  · exact axisFromEnd_array2d_one
  · exact axisFromEnd_array1d

theorem uObsVars_read (a : UArgs φ) :
    ∀ e ∈ ([(a.R, array2d, 1)] : List (Option NDArray × (NDArray → NDArray) × ℕ)),
      ReadsAxis e := by
  intro e he
  simp only [List.mem_cons, List.not_mem_nil, or_false] at he
  subst he
  exact axisFromEnd_array2d_one

theorem uStateDim_iff (a : UArgs φ) (k : ℕ) :
    determineDim [(a.Q, array2d, 1), (a.S0, array2d, 1), (a.mu0, array1d, 0)] a.nDimState = .ok k ↔
      a.StateDim k ∧ (a.NoStateDim → k = 1) := by
  rw [determineDim_ok_iff (uStateVars_read a)]
  simp only [List.forall_mem_cons, List.not_mem_nil, false_implies, implies_true, and_true]
  constructor
  · rintro ⟨⟨h1, h2, h3⟩, h7, h8⟩
    exact ⟨⟨h1, h2, h3, h7⟩, fun ⟨g1, g2, g3, g7⟩ => h8 ⟨g1, g2, g3⟩ g7⟩
  · rintro ⟨⟨h1, h2, h3, h7⟩, h8⟩
    exact ⟨⟨h1, h2, h3⟩, h7, fun ⟨g1, g2, g3⟩ g7 => h8 ⟨g1, g2, g3, g7⟩⟩

theorem uObsDim_iff (a : UArgs φ) (k : ℕ) :
    determineDim [(a.R, array2d, 1)] a.nDimObs = .ok k ↔
      a.ObsDim k ∧ (a.NoObsDim → k = 1) := by
  rw [determineDim_ok_iff (uObsVars_read a)]
  simp only [List.forall_mem_cons, List.not_mem_nil, false_implies, implies_true, and_true]
  constructor
  · rintro ⟨h1, h7, h8⟩
    exact ⟨⟨h1, h7⟩, fun ⟨g1, g7⟩ => h8 g1 g7⟩
  · rintro ⟨⟨h1, h7⟩, h8⟩
    exact ⟨h1, h7, fun g1 g7 => h8 ⟨g1, g7⟩⟩

theorem uInit_ok_iff (a : UArgs φ) (k : UObj φ) :
    UObj.init a = .ok k ↔ k = a.object k.nDimState k.nDimObs ∧
      (a.StateDim k.nDimState ∧ (a.NoStateDim → k.nDimState = 1)) ∧
      a.ObsDim k.nDimObs ∧ (a.NoObsDim → k.nDimObs = 1) := by
  rw [← uStateDim_iff, ← uObsDim_iff]
  simp only [UObj.init, bind]
  constructor
  · intro h
    cases hn : determineDim [(a.Q, array2d, 1), (a.S0, array2d, 1), (a.mu0, array1d, 0)]
        a.nDimState with
    | error e => rw [hn] at h; cases h
    | ok n =>
      cases hm : determineDim [(a.R, array2d, 1)] a.nDimObs with
      | error e => rw [hn, hm] at h; cases h
      | ok m =>
        rw [hn, hm] at h
        cases h
        exact ⟨rfl, rfl, rfl⟩
  · rintro ⟨h1, h2, h3⟩
    rw [h2, h3]
    simp only [Except.bind]
    rw [h1]
    rfl

theorem uInit_error (a : UArgs φ) {e : Err} (h : UObj.init a = .error e) : e = .valueError := by
  simp only [UObj.init, bind] at h
  cases hn : determineDim [(a.Q, array2d, 1), (a.S0, array2d, 1), (a.mu0, array1d, 0)]
      a.nDimState with
  | error e' =>
    rw [hn] at h
    cases h
    exact determineDim_error (uStateVars_read a) hn
  | ok n =>
    cases hm : determineDim [(a.R, array2d, 1)] a.nDimObs with
    | error e' =>
      rw [hn, hm] at h
      cases h
      exact determineDim_error (uObsVars_read a) hm
    | ok m => rw [hn, hm] at h; cases h

/-! ### Parameters -/

theorem uArguments_nodup (k : UObj φ) : KeysNodup k.arguments := by
  simp [KeysNodup, UObj.arguments]

theorem uDefaults_nodup (dflt : φ) (k : UObj φ) : KeysNodup (k.defaults dflt) := by
  simp [KeysNodup, UObj.defaults]

theorem uConverters_nodup : KeysNodup (uConverters (φ := φ)) := by
  simp [KeysNodup, uConverters]

theorem uSources (dflt : φ) (k : UObj φ) :
    ∀ s ∈ [k.arguments, k.defaults dflt], KeysNodup s := by
  intro s hs
  simp only [List.mem_cons, List.not_mem_nil, or_false] at hs
  rcases hs with rfl | rfl
  · exact uArguments_nodup k
  · exact uDefaults_nodup dflt k

theorem uFirstValue {dflt : φ} (k : UObj φ) {name : String} {α : Type} {c : α → UVal φ}
    {o : Option α} {d : α} (h1 : (name, o.map c) ∈ k.arguments)
    (h2 : (name, some (c d)) ∈ k.defaults dflt) :
    FirstValue [k.arguments, k.defaults dflt] name (c (o.getD d)) := by
  cases o with
  | some x => exact firstValue_of_args h1
  | none => exact firstValue_of_defs (uArguments_nodup k) h1 h2

theorem uLookup {dflt : φ} {k : UObj φ} {r : List (String × UVal φ)}
    (hr : preprocessArguments [k.arguments, k.defaults dflt] uConverters = .ok r) {name : String}
    {α : Type} {c : α → UVal φ} {o : Option α} {d : α} {conv : UVal φ → Res (UVal φ)} {v : UVal φ}
    (h1 : (name, o.map c) ∈ k.arguments) (h2 : (name, some (c d)) ∈ k.defaults dflt)
    (hc : uConverters.lookup name = some conv) (hv : conv (c (o.getD d)) = .ok v) :
    r.lookup name = some v := by
  obtain ⟨g1, g2⟩ := C26_resolves uConverters_nodup (uSources dflt k) hr
  obtain ⟨b, hb⟩ := (g1 name).mp ⟨_, hc⟩
  obtain ⟨c', v', hc', hv', hcv⟩ := g2 name b hb
  rw [hc] at hc'
  cases hc'
  rw [firstValue_unique (uSources dflt k) hv' (uFirstValue k h1 h2), hv] at hcv
  cases hcv
  exact hb

/-- What `_initialize_parameters` returns. -/
def UObj.resolvedSpec (dflt : φ) (k : UObj φ) : UResolved φ where
  f := fnArray1d (k.f.getD (.one dflt))
  g := fnArray1d (k.g.getD (.one dflt))
  Q := array2d (k.Q.getD (ndEye k.nDimState k.nDimState))
  R := array2d (k.R.getD (ndEye k.nDimObs k.nDimObs))
  mu0 := array1d (k.mu0.getD (ndZeros k.nDimState))
  S0 := array2d (k.S0.getD (ndEye k.nDimState k.nDimState))

theorem lookup_mem {α : Type} {name : String} {c : α} : ∀ l : List (String × α),
    l.lookup name = some c → (name, c) ∈ l := by
  intro l
  induction l with
  | nil => intro h; cases h
  | cons e l ih =>
    obtain ⟨k, c'⟩ := e
    intro h
    by_cases hk : name = k
    · subst hk
      simp only [List.lookup, beq_self_eq_true] at h
      cases h
      simp
    · have hk' : (name == k) = false := by simpa using hk
      simp only [List.lookup, hk'] at h
      exact List.mem_cons_of_mem _ (ih h)

theorem uInitialize_eq (dflt : φ) (k : UObj φ)
    (hseed : ∀ s, k.randomState = some s → ∃ g, checkRandomState s = .ok g) :
    k.initialize dflt = .ok (k.resolvedSpec dflt) := by
  obtain ⟨r, hr⟩ := C26_succeeds (ss := [k.arguments, k.defaults dflt]) (conv := uConverters)
    uConverters_nodup (uSources dflt k) (by
      intro s hs e he
      rw [lookup_isSome_iff]
      simp only [List.mem_cons, List.not_mem_nil, or_false] at hs
      rcases hs with rfl | rfl
      · have : e.1 ∈ k.arguments.map Prod.fst := List.mem_map_of_mem (f := Prod.fst) he
        simp only [UObj.arguments, List.map_cons, List.map_nil, List.mem_cons, List.not_mem_nil,
          or_false] at this
        simp only [uConverters, List.map_cons, List.map_nil, List.mem_cons, List.not_mem_nil,
          or_false]
        tauto
      · have : e.1 ∈ (k.defaults dflt).map Prod.fst := List.mem_map_of_mem (f := Prod.fst) he
        simp only [UObj.defaults, List.map_cons, List.map_nil, List.mem_cons, List.not_mem_nil,
          or_false] at this
        simp only [uConverters, List.map_cons, List.map_nil, List.mem_cons, List.not_mem_nil,
          or_false]
        tauto) (by
      intro name c hc
      have hmem := lookup_mem _ hc
      simp only [uConverters, List.mem_cons, List.not_mem_nil, or_false, Prod.mk.injEq] at hmem
      rcases hmem with ⟨rfl, rfl⟩ | ⟨rfl, rfl⟩ | ⟨rfl, rfl⟩ | ⟨rfl, rfl⟩ | ⟨rfl, rfl⟩ | ⟨rfl, rfl⟩ |
        ⟨rfl, rfl⟩ | ⟨rfl, rfl⟩ | ⟨rfl, rfl⟩
      · exact ⟨_, _, uFirstValue k (c := .fnArg) (o := k.f) (d := .one dflt)
          (by simp [UObj.arguments]) (by simp [UObj.defaults]), rfl⟩
      · exact ⟨_, _, uFirstValue k (c := .fnArg) (o := k.g) (d := .one dflt)
          (by simp [UObj.arguments]) (by simp [UObj.defaults]), rfl⟩
      · exact ⟨_, _, uFirstValue k (c := .arr) (o := k.Q) (d := ndEye k.nDimState k.nDimState)
          (by simp [UObj.arguments]) (by simp [UObj.defaults]), rfl⟩
      · exact ⟨_, _, uFirstValue k (c := .arr) (o := k.R) (d := ndEye k.nDimObs k.nDimObs)
          (by simp [UObj.arguments]) (by simp [UObj.defaults]), rfl⟩
      · exact ⟨_, _, uFirstValue k (c := .arr) (o := k.mu0) (d := ndZeros k.nDimState)
          (by simp [UObj.arguments]) (by simp [UObj.defaults]), rfl⟩
      · exact ⟨_, _, uFirstValue k (c := .arr) (o := k.S0) (d := ndEye k.nDimState k.nDimState)
          (by simp [UObj.arguments]) (by simp [UObj.defaults]), rfl⟩
      · exact ⟨.nat k.nDimState, .nat k.nDimState, firstValue_of_args (by simp [UObj.arguments]),
          rfl⟩
      · exact ⟨.nat k.nDimObs, .nat k.nDimObs, firstValue_of_args (by simp [UObj.arguments]), rfl⟩
      · cases hk : k.randomState with
        | some s =>
          obtain ⟨g, hg⟩ := hseed s hk
          exact ⟨.seed s, .rng g, firstValue_of_args (by simp [UObj.arguments, hk]),
            by simp [uConvSeed, hg, Except.map]⟩
        | none =>
          exact ⟨.seed (.int 0), .rng (.seeded 0), firstValue_of_defs (uArguments_nodup k)
            (by simp [UObj.arguments, hk]) (by simp [UObj.defaults]),
            by simp [uConvSeed, checkRandomState, Except.map]⟩)
  have hf := uLookup hr (name := "transition_functions") (conv := uConvFns) (c := .fnArg) (o := k.f) (d := .one dflt)
    (by simp [UObj.arguments]) (by simp [UObj.defaults]) (by simp [uConverters, List.lookup]) rfl
  have hg := uLookup hr (name := "observation_functions") (conv := uConvFns) (c := .fnArg) (o := k.g) (d := .one dflt)
    (by simp [UObj.arguments]) (by simp [UObj.defaults]) (by simp [uConverters, List.lookup]) rfl
  have hQ := uLookup hr (name := "transition_covariance") (conv := uConvArr array2d)
    (c := .arr) (o := k.Q)
    (d := ndEye k.nDimState k.nDimState)
    (by simp [UObj.arguments]) (by simp [UObj.defaults]) (by simp [uConverters, List.lookup]) rfl
  have hR := uLookup hr (name := "observation_covariance") (conv := uConvArr array2d)
    (c := .arr) (o := k.R)
    (d := ndEye k.nDimObs k.nDimObs)
    (by simp [UObj.arguments]) (by simp [UObj.defaults]) (by simp [uConverters, List.lookup]) rfl
  have hmu := uLookup hr (name := "initial_state_mean") (conv := uConvArr array1d)
    (c := .arr) (o := k.mu0)
    (d := ndZeros k.nDimState)
    (by simp [UObj.arguments]) (by simp [UObj.defaults]) (by simp [uConverters, List.lookup]) rfl
  have hS := uLookup hr (name := "initial_state_covariance") (conv := uConvArr array2d)
    (c := .arr) (o := k.S0)
    (d := ndEye k.nDimState k.nDimState)
    (by simp [UObj.arguments]) (by simp [UObj.defaults]) (by simp [uConverters, List.lookup]) rfl
  simp only [UObj.initialize, hr, bind, Except.bind, uGetFns, uGetArr, hf, hg, hQ, hR, hmu, hS]
  rfl

/-! ### Meanings -/

theorem seedValid_ok {s : Option Seed} (h : SeedValid s) :
    ∀ x, s = some x → ∃ g, checkRandomState x = .ok g := by
  rintro x rfl
  cases x with
  | none => exact ⟨_, rfl⟩
  | npRandom => exact ⟨_, rfl⟩
  | int k =>
    have h' : 0 ≤ k ∧ k < 2 ^ 32 := h
    exact ⟨.seeded k.toNat, if_pos h'⟩
  | state id => exact ⟨_, rfl⟩
  | other => exact absurd h (by simp [SeedValid])

theorem MatMeans.toMat {arg : Option NDArray} {M : Mat n n} (h : MatMeans arg M) :
    (array2d (arg.getD (ndEye n n))).toMat n n = some M := by
  rcases h with ⟨rfl, rfl⟩ | ⟨A, rfl, hs, hA⟩
  · have : array2d (ndEye n n) = ndEye n n := rfl
    rw [Option.getD_none, this]
    simp only [NDArray.toMat, ndEye, if_true]
    congr 1
    ext i j
    simp [Matrix.one_apply, Fin.ext_iff]
  · have : array2d A = A := by
      obtain ⟨s, d⟩ := A
      simp only at hs
      subst hs
      rfl
    rw [Option.getD_some, this]
    simp only [NDArray.toMat, hs, if_true]
    congr 1
    ext i j
    exact (hA i j).symm

theorem VecMeans.toVec {arg : Option NDArray} {v : Vec n} (h : VecMeans arg v) :
    (array1d (arg.getD (ndZeros n))).toVec n = some v := by
  rcases h with ⟨rfl, rfl⟩ | ⟨A, rfl, hs, hA⟩
  · have : array1d (ndZeros n) = ndZeros n := rfl
    rw [Option.getD_none, this]
    simp only [NDArray.toVec, ndZeros, if_true]
    rfl
  · have : array1d A = A := by
      obtain ⟨s, d⟩ := A
      simp only at hs
      subst hs
      rfl
    rw [Option.getD_some, this]
    simp only [NDArray.toVec, hs, if_true]
    congr 1
    ext i
    exact (hA i).symm

theorem array1d_of_shape {A : NDArray} {k : ℕ} (h : A.shape = [k]) : array1d A = A := by
  obtain ⟨s, d⟩ := A
  simp only at h
  subst h
  rfl

theorem Computes₁.typed {a k : ℕ} {F : PyFun₁} {f : Vec a → Vec k} (h : Computes₁ F f) :
    Fits₁ a k F ∧ typed₁ a k F = f := by
  refine ⟨fun x => ?_, ?_⟩
  · rw [array1d_of_shape (h x).1]; exact (h x).1
  · funext x i
    simp only [typed₁]
    rw [array1d_of_shape (h x).1]; exact (h x).2 i

theorem Computes₂.typed {a b k : ℕ} {F : PyFun₂} {f : Vec a → Vec b → Vec k}
    (h : Computes₂ F f) : Fits₂ a b k F ∧ typed₂ a b k F = f := by
  refine ⟨fun x w => ?_, ?_⟩
  · rw [array1d_of_shape (h x w).1]; exact (h x w).1
  · funext x w i
    simp only [typed₂]
    rw [array1d_of_shape (h x w).1]; exact (h x w).2 i

theorem FnsMeans.typed {ψ : Type} {computes : φ → ψ → Prop} {dflt : ψ → Prop} {fits : φ → Prop}
    {c : φ → ψ} (hc : ∀ F f, computes F f → fits F ∧ c F = f) {d : φ}
    (hd : ∀ f, dflt f → computes d f) {arg : Option (FnArg φ)} {fs : Fns ψ}
    (h : FnsMeans computes dflt arg fs) :
    (fnArray1d (arg.getD (.one d))).typed fits c = some fs := by
  rcases h with ⟨rfl, f, hf, rfl⟩ | ⟨F, f, rfl, hf, rfl⟩ | ⟨Fl, fl, rfl, hf, rfl⟩
  · have := hc d f (hd f hf)
    simp [fnArray1d, Fns.typed, Fns.members, Fns.mapAll, this.1, this.2]
  · have := hc F f hf
    simp [fnArray1d, Fns.typed, Fns.members, Fns.mapAll, this.1, this.2]
  · have hall : ∀ F ∈ Fl, fits F := by
      intro F hF
      induction hf with
      | nil => cases hF
      | cons h1 _ ih =>
        rcases List.mem_cons.mp hF with rfl | hF
        · exact (hc _ _ h1).1
        · exact ih hF
    have hmap : Fl.map c = fl := by
      clear hall
      induction hf with
      | nil => rfl
      | cons h1 _ ih => rw [List.map_cons, ih, (hc _ _ h1).2]
    simp only [fnArray1d, Option.getD_some, Fns.typed, Fns.members, Fns.mapAll, hmap]
    exact if_pos hall

theorem pyId_computes {k l : ℕ} {g : Vec k → Vec l}
    (h : ∃ h : k = l, ∀ x i, g x i = x (Fin.cast h.symm i)) : Computes₁ pyId g := by
  obtain ⟨rfl, h⟩ := h
  intro x
  refine ⟨rfl, fun i => ?_⟩
  rw [h]
  simp [pyId, ndVec]

theorem pyAdd_computes {k l : ℕ} {g : Vec k → Vec l → Vec l}
    (h : ∃ h : k = l, ∀ x v i, g x v i = x (Fin.cast h.symm i) + v i) : Computes₂ pyAdd g := by
  obtain ⟨rfl, h⟩ := h
  intro x w
  refine ⟨rfl, fun i => ?_⟩
  rw [h]
  simp [pyAdd, ndVec]

theorem UArgs.MeansAdd.typed {a : UArgs PyFun₁} {p : UParams n m} (h : a.MeansAdd p) :
    ((a.object n m).resolvedSpec pyId).typedAdd n m = some p := by
  have hf := h.f.typed (d := pyId) (fun F f hF => hF.typed) (fun f hf =>
    pyId_computes (k := n) (l := n) ⟨rfl, fun x i => by rw [hf]; rfl⟩)
  have hg := h.g.typed (d := pyId) (fun F f hF => hF.typed) (fun f hf => pyId_computes hf)
  simp only [UResolved.typedAdd, UObj.resolvedSpec, UArgs.object, hf, hg, h.Q.toMat, h.R.toMat,
    h.mu0.toVec, h.S0.toMat]
  rfl

theorem UArgs.MeansGen.typed {a : UArgs PyFun₂} {p : GParams n m} (h : a.MeansGen p) :
    ((a.object n m).resolvedSpec pyAdd).typedGen n m = some p := by
  have hf := h.f.typed (d := pyAdd) (fun F f hF => hF.typed) (fun f hf =>
    pyAdd_computes (k := n) (l := n) ⟨rfl, fun x w i => by rw [hf]; rfl⟩)
  have hg := h.g.typed (d := pyAdd) (fun F f hF => hF.typed) (fun f hf => pyAdd_computes hf)
  simp only [UResolved.typedGen, UObj.resolvedSpec, UArgs.object, hf, hg, h.Q.toMat, h.R.toMat,
    h.mu0.toVec, h.S0.toMat]
  rfl

theorem HasRows.parse {X : MArray} {os : List (Obs m)} (h : HasRows X os) :
    parseObservations X = X := C28_two_dimensional h.shape h.not_single

theorem HasRows.rows {X : MArray} {os : List (Obs m)} (h : HasRows X os) : X.rows m = os := by
  refine List.ext_getElem (by simp [MArray.rows, h.shape]) fun t h1 h2 => ?_
  simp only [MArray.rows, List.getElem_map, List.getElem_range]
  have := h.entries t h2
  rcases ho : os[t] with ⟨v, k⟩
  rw [ho] at this
  congr 1
  · funext j; exact (this j).1
  · funext j; exact (this j).2

theorem UArgs.MeansAdd.prepare {a : UArgs PyFun₁} {p : UParams n m} (h : a.MeansAdd p)
    {X : MArray} {os : List (Obs m)} (hX : HasRows X os) :
    (a.object n m).prepareAdd X = some (.ok (p, os)) := by
  simp only [UObj.prepareAdd, hX.parse]
  rw [uInitialize_eq pyId (a.object n m) (seedValid_ok h.seed)]
  simp only
  have e := h.typed
  simp only [UArgs.object] at e ⊢
  rw [e]
  simp only [hX.shape, List.drop_succ_cons, List.drop_zero, if_true, hX.rows]

theorem UArgs.MeansGen.prepare {a : UArgs PyFun₂} {p : GParams n m} (h : a.MeansGen p)
    {X : MArray} {os : List (Obs m)} (hX : HasRows X os) :
    (a.object n m).prepareGen X = some (.ok (p, os)) := by
  simp only [UObj.prepareGen, hX.parse]
  rw [uInitialize_eq pyAdd (a.object n m) (seedValid_ok h.seed)]
  simp only
  have e := h.typed
  simp only [UArgs.object] at e ⊢
  rw [e]
  simp only [hX.shape, List.drop_succ_cons, List.drop_zero, if_true, hX.rows]

end Verif
