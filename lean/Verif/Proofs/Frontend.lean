import Verif.Spec.Frontend
import Mathlib.Data.List.Perm.Subperm
import Mathlib.Data.List.Nodup

/-!
# Proofs about dimension inference and dictionaries of arguments
-/

namespace Verif

/-! ### Dimensions -/

theorem axisFromEnd_array2d_one (a : NDArray) : (array2d a).axisFromEnd 1 = .ok (axisLen a 1) := by
  obtain ⟨shape, data⟩ := a
  match shape with
  | [] => rfl
  | [k] => rfl
  | k :: l :: rest =>
    have h : 1 < (k :: l :: rest).reverse.length := by simp
    simp only [array2d, NDArray.axisFromEnd, axisLen, List.getD_eq_getElem?_getD,
      List.getElem?_eq_getElem h, Option.getD_some]

theorem axisFromEnd_array2d_zero (a : NDArray) : (array2d a).axisFromEnd 0 = .ok (axisLen a 0) := by
  obtain ⟨shape, data⟩ := a
  match shape with
  | [] => rfl
  | [k] => rfl
  | k :: l :: rest =>
    have h : 0 < (k :: l :: rest).reverse.length := by simp
    simp only [array2d, NDArray.axisFromEnd, axisLen, List.getD_eq_getElem?_getD,
      List.getElem?_eq_getElem h, Option.getD_some]

theorem axisFromEnd_array1d (a : NDArray) : (array1d a).axisFromEnd 0 = .ok (axisLen a 0) := by
  obtain ⟨shape, data⟩ := a
  match shape with
  | [] => rfl
  | k :: rest =>
    have h : 0 < (k :: rest).reverse.length := by simp
    simp only [array1d, NDArray.axisFromEnd, axisLen, List.getD_eq_getElem?_getD,
      List.getElem?_eq_getElem h, Option.getD_some]

/-- The three kinds of entries in the lists of the constructors. -/
def ReadsAxis (e : Option NDArray × (NDArray → NDArray) × ℕ) : Prop :=
  ∀ a, (e.2.1 a).axisFromEnd e.2.2 = .ok (axisLen a e.2.2)

theorem dimCandidates_eq {vars : List (Option NDArray × (NDArray → NDArray) × ℕ)}
    (h : ∀ e ∈ vars, ReadsAxis e) :
    dimCandidates vars = .ok (vars.filterMap fun e => e.1.map fun a => axisLen a e.2.2) := by
  induction vars with
  | nil => rfl
  | cons e rest ih =>
    obtain ⟨v, conv, i⟩ := e
    have ih' := ih fun e he => h e (by simp [he])
    cases v with
    | none => simpa [dimCandidates] using ih'
    | some a =>
      have h1 := h (some a, conv, i) (by simp) a
      simp only at h1
      simp [dimCandidates, h1, ih', bind, Except.bind, pure, Except.pure]

theorem determineDim_eq {vars : List (Option NDArray × (NDArray → NDArray) × ℕ)}
    (h : ∀ e ∈ vars, ReadsAxis e) (default : Option ℕ) :
    determineDim vars default =
      match (vars.filterMap fun e => e.1.map fun a => axisLen a e.2.2) ++ default.toList with
      | [] => .ok 1
      | k :: rest => if (k :: rest).all (· == k) then .ok k else .error .valueError := by
  simp only [determineDim, dimCandidates_eq h, bind, Except.bind]
  cases default <;> simp only [Option.toList, List.append_nil] <;> rfl

/-- Whether all candidates agree. -/
theorem determineDim_ok_iff {vars : List (Option NDArray × (NDArray → NDArray) × ℕ)}
    (h : ∀ e ∈ vars, ReadsAxis e) (default : Option ℕ) (k : ℕ) :
    determineDim vars default = .ok k ↔
      (∀ e ∈ vars, ∀ a, e.1 = some a → axisLen a e.2.2 = k) ∧ (∀ d, default = some d → d = k) ∧
      ((∀ e ∈ vars, e.1 = none) → default = none → k = 1) := by
  rw [determineDim_eq h]
  have hmem : ∀ x, x ∈ (vars.filterMap fun e => e.1.map fun a => axisLen a e.2.2) ++ default.toList ↔
      (∃ e ∈ vars, ∃ a, e.1 = some a ∧ axisLen a e.2.2 = x) ∨ default = some x := by
    intro x
    simp [List.mem_append, List.mem_filterMap, Option.map_eq_some_iff]
  generalize hl : (vars.filterMap fun e => e.1.map fun a => axisLen a e.2.2) ++ default.toList = l
  rw [hl] at hmem
  cases l with
  | nil =>
    have hv : ∀ e ∈ vars, e.1 = none := by
      intro e he
      cases hv : e.1 with
      | none => rfl
      | some a => exact absurd ((hmem _).mpr (.inl ⟨e, he, a, hv, rfl⟩)) (by simp)
    have hd : default = none := by
      cases hd : default with
      | none => rfl
      | some d => exact absurd ((hmem _).mpr (.inr hd)) (by simp)
    simp only [Except.ok.injEq]
    constructor
    · rintro rfl
      refine ⟨fun e he a ha => ?_, fun d hd' => ?_, fun _ _ => rfl⟩
      · rw [hv e he] at ha; cases ha
      · rw [hd] at hd'; cases hd'
    · rintro ⟨-, -, h3⟩
      exact (h3 hv hd).symm
  | cons x rest =>
    have hx := (hmem x).mp (by simp)
    simp only
    constructor
    · intro hk
      split at hk
      · rename_i hall
        cases hk
        rw [List.all_eq_true] at hall
        have hall' : ∀ y, y ∈ k :: rest → y = k := fun y hy => by simpa using hall y hy
        refine ⟨fun e he a ha => hall' _ ((hmem _).mpr (.inl ⟨e, he, a, ha, rfl⟩)),
          fun d hd => hall' _ ((hmem _).mpr (.inr hd)), fun hv hd => ?_⟩
        rcases hx with ⟨e, he, a, ha, -⟩ | hx
        · rw [hv e he] at ha; cases ha
        · rw [hd] at hx; cases hx
      · cases hk
    · rintro ⟨h1, h2, -⟩
      have hall : ∀ y, y ∈ x :: rest → y = k := by
        intro y hy
        rcases (hmem y).mp hy with ⟨e, he, a, ha, rfl⟩ | hd
        · exact h1 e he a ha
        · exact h2 y hd
      have hxk := hall x (by simp)
      subst hxk
      rw [if_pos]
      rw [List.all_eq_true]
      intro y hy
      simpa using hall y hy

theorem determineDim_error {vars : List (Option NDArray × (NDArray → NDArray) × ℕ)}
    (h : ∀ e ∈ vars, ReadsAxis e) {default : Option ℕ} {e : Err}
    (he : determineDim vars default = .error e) : e = .valueError := by
  rw [determineDim_eq h] at he
  split at he
  · cases he
  · split at he
    · cases he
    · cases he; rfl

/-! ### Dictionaries -/

variable {α β : Type}

theorem addArgs_append (conv : List (String × (α → Res β))) (l1 l2 : List (String × Option α))
    (r : List (String × β)) :
    addArgs conv (l1 ++ l2) r = (addArgs conv l1 r).bind fun r' => addArgs conv l2 r' := by
  induction l1 generalizing r with
  | nil => rfl
  | cons e l1 ih =>
    obtain ⟨k, v⟩ := e
    simp only [List.cons_append, addArgs]
    cases conv.lookup k with
    | none => rfl
    | some c =>
      cases r.lookup k with
      | some b => exact ih r
      | none =>
        cases v with
        | none => exact ih r
        | some v =>
          simp only [bind]
          cases c v with
          | error e => rfl
          | ok b => exact ih _

theorem addArgs_foldlM (conv : List (String × (α → Res β))) (ss : List (List (String × Option α)))
    (r : List (String × β)) :
    ss.foldlM (fun r s => addArgs conv s r) r = addArgs conv ss.flatten r := by
  induction ss generalizing r with
  | nil => rfl
  | cons s ss ih =>
    simp only [List.foldlM_cons, List.flatten_cons, addArgs_append, bind]
    cases addArgs conv s r with
    | error e => rfl
    | ok r' => exact ih r'

/-- First value other than `None` of a key in a list of items. -/
def firstVal (l : List (String × Option α)) (k : String) : Option α :=
  l.findSome? fun e => if e.1 = k then e.2 else none

theorem firstVal_append (l1 l2 : List (String × Option α)) (k : String) :
    firstVal (l1 ++ l2) k = (firstVal l1 k).or (firstVal l2 k) := by
  simp only [firstVal, List.findSome?_append]

theorem firstVal_eq_none {l : List (String × Option α)} {k : String} :
    firstVal l k = none ↔ ∀ w, (k, some w) ∉ l := by
  simp only [firstVal, List.findSome?_eq_none_iff]
  constructor
  · intro h w hw
    simpa using h _ hw
  · rintro h ⟨k', v⟩ he
    by_cases hk : k' = k
    · subst hk
      cases v with
      | none => simp
      | some v => exact absurd he (h v)
    · simp [hk]

theorem firstVal_of_mem {l : List (String × Option α)} (hn : KeysNodup l) {k : String} {v : α}
    (h : (k, some v) ∈ l) : firstVal l k = some v := by
  induction l with
  | nil => cases h
  | cons e l ih =>
    obtain ⟨k', v'⟩ := e
    simp only [KeysNodup, List.map_cons, List.nodup_cons] at hn
    rcases List.mem_cons.mp h with h | h
    · cases h
      simp [firstVal]
    · have : k' ≠ k := by
        rintro rfl
        exact hn.1 (List.mem_map_of_mem (f := Prod.fst) h)
      have ih' := ih hn.2 h
      simp only [firstVal] at ih' ⊢
      simp only [List.findSome?_cons, if_neg this, ih']

theorem mem_of_firstVal {l : List (String × Option α)} {k : String} {v : α}
    (h : firstVal l k = some v) : (k, some v) ∈ l := by
  induction l with
  | nil => cases h
  | cons e l ih =>
    obtain ⟨k', v'⟩ := e
    simp only [firstVal, List.findSome?_cons] at h
    by_cases hk : k' = k
    · subst hk
      cases v' with
      | some w => simp only [if_true] at h; cases h; simp
      | none => simp only [if_true] at h; exact List.mem_cons_of_mem _ (ih h)
    · simp only [hk, if_false] at h
      exact List.mem_cons_of_mem _ (ih h)

theorem firstVal_flatten_iff {ss : List (List (String × Option α))} (hn : ∀ s ∈ ss, KeysNodup s)
    {k : String} {v : α} : firstVal ss.flatten k = some v ↔ FirstValue ss k v := by
  induction ss with
  | nil =>
    constructor
    · intro h; cases h
    · rintro ⟨pre, s, post, h, -⟩; simp at h
  | cons s ss ih =>
    have ih' := ih fun s hs => hn s (by simp [hs])
    rw [List.flatten_cons, firstVal_append]
    cases hs : firstVal s k with
    | some w =>
      simp only [Option.some_or, Option.some.injEq]
      constructor
      · rintro rfl
        exact ⟨[], s, ss, rfl, mem_of_firstVal hs, by simp⟩
      · rintro ⟨pre, s', post, he, hm, hpre⟩
        cases pre with
        | nil =>
          simp only [List.nil_append, List.cons.injEq] at he
          rw [← he.1] at hm
          have := firstVal_of_mem (hn s (by simp)) hm
          rw [hs] at this
          exact Option.some.inj this
        | cons x pre =>
          simp only [List.cons_append, List.cons.injEq] at he
          exact absurd (mem_of_firstVal hs) (by rw [he.1]; exact hpre x (by simp) w)
    | none =>
      rw [Option.none_or, ih']
      constructor
      · rintro ⟨pre, s', post, he, hm, hpre⟩
        refine ⟨s :: pre, s', post, by rw [he]; rfl, hm, ?_⟩
        intro x hx w
        rcases List.mem_cons.mp hx with rfl | hx
        · exact firstVal_eq_none.mp hs w
        · exact hpre x hx w
      · rintro ⟨pre, s', post, he, hm, hpre⟩
        cases pre with
        | nil =>
          simp only [List.nil_append, List.cons.injEq] at he
          rw [← he.1] at hm
          exact absurd hm (firstVal_eq_none.mp hs v)
        | cons x pre =>
          simp only [List.cons_append, List.cons.injEq] at he
          exact ⟨pre, s', post, he.2, hm, fun y hy => hpre y (by simp [hy])⟩

theorem lookup_append_single (r : List (String × β)) (k k' : String) (b : β) :
    (r ++ [(k, b)]).lookup k' = (r.lookup k').or (if k' = k then some b else none) := by
  induction r with
  | nil =>
    by_cases h : k' = k
    · subst h; simp [List.lookup]
    · have : (k' == k) = false := by simpa using h
      simp [List.lookup, this, h]
  | cons e r ih =>
    obtain ⟨k2, b2⟩ := e
    simp only [List.cons_append, List.lookup]
    cases k' == k2
    · exact ih
    · rfl

theorem lookup_isSome_iff (r : List (String × β)) (k : String) :
    (∃ b, r.lookup k = some b) ↔ k ∈ r.map Prod.fst := by
  induction r with
  | nil => simp [List.lookup]
  | cons e r ih =>
    obtain ⟨k2, b2⟩ := e
    by_cases h : k = k2
    · subst h; simp [List.lookup]
    · have : (k == k2) = false := by simpa using h
      simp [List.lookup, this, h, ih]

/-- What one pass adds. -/
theorem addArgs_ok {conv : List (String × (α → Res β))} {l : List (String × Option α)}
    {r r' : List (String × β)} (h : addArgs conv l r = .ok r') (hr : KeysNodup r)
    (hsub : ∀ k ∈ r.map Prod.fst, ∃ c, conv.lookup k = some c) :
    KeysNodup r' ∧ (∀ k ∈ r'.map Prod.fst, ∃ c, conv.lookup k = some c) ∧
    (∀ e ∈ l, ∃ c, conv.lookup e.1 = some c) ∧
    (∀ k b, r.lookup k = some b → r'.lookup k = some b) ∧
    (∀ k b, r.lookup k = none → r'.lookup k = some b →
      ∃ c v, conv.lookup k = some c ∧ firstVal l k = some v ∧ c v = .ok b) ∧
    (∀ k, r.lookup k = none → r'.lookup k = none → firstVal l k = none) := by
  induction l generalizing r with
  | nil =>
    simp only [addArgs, pure, Except.pure, Except.ok.injEq] at h
    subst h
    exact ⟨hr, hsub, by simp, fun _ _ h => h, fun k b h h' => (by rw [h] at h'; cases h'),
      fun _ _ _ => rfl⟩
  | cons e l ih =>
    obtain ⟨k, v⟩ := e
    simp only [addArgs] at h
    cases hc : conv.lookup k with
    | none => rw [hc] at h; cases h
    | some c =>
      rw [hc] at h
      have hskip : addArgs conv l r = .ok r' → (v = none ∨ ∃ b, r.lookup k = some b) →
          KeysNodup r' ∧ (∀ k ∈ r'.map Prod.fst, ∃ c, conv.lookup k = some c) ∧
          (∀ e ∈ (k, v) :: l, ∃ c, conv.lookup e.1 = some c) ∧
          (∀ k b, r.lookup k = some b → r'.lookup k = some b) ∧
          (∀ k' b, r.lookup k' = none → r'.lookup k' = some b →
            ∃ c v', conv.lookup k' = some c ∧ firstVal ((k, v) :: l) k' = some v' ∧ c v' = .ok b) ∧
          (∀ k', r.lookup k' = none → r'.lookup k' = none → firstVal ((k, v) :: l) k' = none) := by
        intro h hv
        obtain ⟨h1, h2, h3, h4, h5, h6⟩ := ih h hr hsub
        have hf : ∀ k', r.lookup k' = none → firstVal ((k, v) :: l) k' = firstVal l k' := by
          intro k' hk'
          rcases hv with rfl | ⟨b, hb⟩
          · simp [firstVal]
          · have : k ≠ k' := by rintro rfl; rw [hb] at hk'; cases hk'
            simp [firstVal, this]
        refine ⟨h1, h2, ?_, h4, ?_, ?_⟩
        · intro e he
          rcases List.mem_cons.mp he with rfl | he
          · exact ⟨c, hc⟩
          · exact h3 e he
        · intro k' b hk' hb
          rw [hf k' hk']
          exact h5 k' b hk' hb
        · intro k' hk' hb
          rw [hf k' hk']
          exact h6 k' hk' hb
      cases hk : r.lookup k with
      | some b =>
        rw [hk] at h
        exact hskip h (.inr ⟨b, hk⟩)
      | none =>
        cases v with
        | none => rw [hk] at h; exact hskip h (.inl rfl)
        | some v =>
          rw [hk] at h
          simp only [bind] at h
          cases hb : c v with
          | error e => rw [hb] at h; cases h
          | ok b =>
            rw [hb] at h
            have hkn : k ∉ r.map Prod.fst := by
              rw [← lookup_isSome_iff]
              rintro ⟨b', hb'⟩
              rw [hk] at hb'; cases hb'
            have hr2 : KeysNodup (r ++ [(k, b)]) := by
              simp only [KeysNodup, List.map_append, List.map_cons, List.map_nil]
              exact List.Nodup.append hr (by simp) (by simpa using hkn)
            obtain ⟨h1, h2, h3, h4, h5, h6⟩ := ih (r := r ++ [(k, b)]) h hr2 (by
              intro k' hk'
              simp only [List.map_append, List.mem_append, List.map_cons, List.map_nil,
                List.mem_singleton] at hk'
              rcases hk' with hk' | rfl
              · exact hsub k' hk'
              · exact ⟨c, hc⟩)
            refine ⟨h1, h2, ?_, ?_, ?_, ?_⟩
            · intro e he
              rcases List.mem_cons.mp he with rfl | he
              · exact ⟨c, hc⟩
              · exact h3 e he
            · intro k' b' hb'
              refine h4 k' b' ?_
              rw [lookup_append_single, hb']; rfl
            · intro k' b' hk' hb'
              by_cases hkk : k' = k
              · subst hkk
                have := h4 k' b (by rw [lookup_append_single, hk']; simp)
                rw [this] at hb'
                cases hb'
                exact ⟨c, v, hc, by simp [firstVal], hb⟩
              · obtain ⟨c', v', hc', hv', he'⟩ := h5 k' b'
                  (by rw [lookup_append_single, hk']; simp [hkk]) hb'
                refine ⟨c', v', hc', ?_, he'⟩
                simp only [firstVal, List.findSome?_cons, if_neg (Ne.symm hkk)] at hv' ⊢
                exact hv'
            · intro k' hk' hb'
              by_cases hkk : k' = k
              · subst hkk
                have := h4 k' b (by rw [lookup_append_single, hk']; simp)
                rw [this] at hb'
                cases hb'
              · have := h6 k' (by rw [lookup_append_single, hk']; simp [hkk]) hb'
                simp only [firstVal, List.findSome?_cons, if_neg (Ne.symm hkk)] at this ⊢
                exact this

/-- A pass succeeds if all names are known and the values it uses can be converted. -/
theorem addArgs_succeeds {conv : List (String × (α → Res β))} {l : List (String × Option α)}
    {r : List (String × β)} (hname : ∀ e ∈ l, ∃ c, conv.lookup e.1 = some c)
    (hval : ∀ k c v, conv.lookup k = some c → firstVal l k = some v → r.lookup k = none →
      ∃ b, c v = .ok b) : ∃ r', addArgs conv l r = .ok r' := by
  induction l generalizing r with
  | nil => exact ⟨r, rfl⟩
  | cons e l ih =>
    obtain ⟨k, v⟩ := e
    obtain ⟨c, hc⟩ := hname (k, v) (by simp)
    simp only at hc
    have hname' : ∀ e ∈ l, ∃ c, conv.lookup e.1 = some c := fun e he => hname e (by simp [he])
    simp only [addArgs, hc]
    cases hk : r.lookup k with
    | some b =>
      refine ih hname' fun k' c' v' hc' hv' hr' => hval k' c' v' hc' ?_ hr'
      have : k ≠ k' := by rintro rfl; rw [hk] at hr'; cases hr'
      simp only [firstVal, List.findSome?_cons, if_neg this] at hv' ⊢
      exact hv'
    | none =>
      cases v with
      | none =>
        refine ih hname' fun k' c' v' hc' hv' hr' => hval k' c' v' hc' ?_ hr'
        simp only [firstVal, List.findSome?_cons] at hv' ⊢
        simpa using hv'
      | some v =>
        obtain ⟨b, hb⟩ := hval k c v hc (by simp [firstVal]) hk
        simp only [bind, hb, Except.bind]
        refine ih hname' fun k' c' v' hc' hv' hr' => hval k' c' v' hc' ?_ ?_
        · have : k ≠ k' := by
            rintro rfl
            rw [lookup_append_single, hk] at hr'
            simp at hr'
          simp only [firstVal, List.findSome?_cons, if_neg this] at hv' ⊢
          exact hv'
        · rw [lookup_append_single] at hr'
          cases h : r.lookup k' with
          | none => rfl
          | some x => rw [h] at hr'; cases hr'

/-- The only exceptions are those of the converters and `ValueError`. -/
theorem addArgs_error {conv : List (String × (α → Res β))} {l : List (String × Option α)}
    {r : List (String × β)} {e : Err} (h : addArgs conv l r = .error e) :
    e = .valueError ∨ ∃ k c v, conv.lookup k = some c ∧ (k, some v) ∈ l ∧ c v = .error e := by
  induction l generalizing r with
  | nil => cases h
  | cons x l ih =>
    obtain ⟨k, v⟩ := x
    have lift : (e = .valueError ∨ ∃ k c v, conv.lookup k = some c ∧ (k, some v) ∈ l ∧
        c v = .error e) → (e = .valueError ∨ ∃ k' c v', conv.lookup k' = some c ∧
        (k', some v') ∈ (k, v) :: l ∧ c v' = .error e) := by
      rintro (h | ⟨k', c, v', h1, h2, h3⟩)
      · exact .inl h
      · exact .inr ⟨k', c, v', h1, List.mem_cons_of_mem _ h2, h3⟩
    simp only [addArgs] at h
    cases hc : conv.lookup k with
    | none => rw [hc] at h; cases h; exact .inl rfl
    | some c =>
      rw [hc] at h
      cases hk : r.lookup k with
      | some b => rw [hk] at h; exact lift (ih h)
      | none =>
        rw [hk] at h
        cases v with
        | none => exact lift (ih h)
        | some v =>
          simp only [bind] at h
          cases hb : c v with
          | error e' =>
            rw [hb] at h
            cases h
            exact .inr ⟨k, c, v, hc, by simp, hb⟩
          | ok b => rw [hb] at h; exact lift (ih h)

theorem preprocess_eq (ss : List (List (String × Option α))) (conv : List (String × (α → Res β))) :
    preprocessArguments ss conv = (addArgs conv ss.flatten []).bind fun r =>
      if conv.length = r.length then .ok r else .error .valueError := by
  simp only [preprocessArguments, addArgs_foldlM, bind]
  rfl

theorem lookup_none_nil (k : String) : ([] : List (String × β)).lookup k = none := rfl

theorem preprocess_ok {ss : List (List (String × Option α))} {conv : List (String × (α → Res β))}
    (hconv : KeysNodup conv) (hss : ∀ s ∈ ss, KeysNodup s) {r : List (String × β)}
    (h : preprocessArguments ss conv = .ok r) :
    (∀ s ∈ ss, ∀ e ∈ s, ∃ c, conv.lookup e.1 = some c) ∧
    (∀ k, (∃ c, conv.lookup k = some c) ↔ ∃ b, r.lookup k = some b) ∧
    ∀ k b, r.lookup k = some b →
      ∃ c v, conv.lookup k = some c ∧ FirstValue ss k v ∧ c v = .ok b := by
  rw [preprocess_eq] at h
  cases hr : addArgs conv ss.flatten [] with
  | error e => rw [hr] at h; cases h
  | ok r' =>
    rw [hr] at h
    simp only [Except.bind] at h
    split at h
    · rename_i hlen
      cases h
      obtain ⟨h1, h2, h3, -, h5, -⟩ := addArgs_ok hr List.nodup_nil (by simp)
      refine ⟨fun s hs e he => h3 e (List.mem_flatten_of_mem hs he), ?_, ?_⟩
      · have hsub : r.map Prod.fst ⊆ conv.map Prod.fst := fun k hk =>
          (lookup_isSome_iff conv k).mp (h2 k hk)
        have hperm : (r.map Prod.fst).Perm (conv.map Prod.fst) :=
          (List.subperm_of_subset h1 hsub).perm_of_length_le (by simp [hlen])
        intro k
        rw [lookup_isSome_iff, lookup_isSome_iff]
        exact hperm.symm.mem_iff
      · intro k b hb
        obtain ⟨c, v, hc, hv, hcv⟩ := h5 k b rfl hb
        exact ⟨c, v, hc, (firstVal_flatten_iff hss).mp hv, hcv⟩
    · cases h

theorem preprocess_succeeds {ss : List (List (String × Option α))}
    {conv : List (String × (α → Res β))} (hconv : KeysNodup conv) (hss : ∀ s ∈ ss, KeysNodup s)
    (hname : ∀ s ∈ ss, ∀ e ∈ s, ∃ c, conv.lookup e.1 = some c)
    (hval : ∀ k c, conv.lookup k = some c → ∃ v b, FirstValue ss k v ∧ c v = .ok b) :
    ∃ r, preprocessArguments ss conv = .ok r := by
  obtain ⟨r, hr⟩ := addArgs_succeeds (conv := conv) (l := ss.flatten) (r := []) (by
      intro e he
      obtain ⟨s, hs, he⟩ := List.mem_flatten.mp he
      exact hname s hs e he) (by
      intro k c v hc hv _
      obtain ⟨v', b, hv', hb⟩ := hval k c hc
      rw [(firstVal_flatten_iff hss).mpr hv'] at hv
      cases hv
      exact ⟨b, hb⟩)
  refine ⟨r, ?_⟩
  rw [preprocess_eq, hr]
  simp only [Except.bind]
  rw [if_pos]
  obtain ⟨h1, h2, h3, -, h5, h6⟩ := addArgs_ok hr List.nodup_nil (by simp)
  have hsub : r.map Prod.fst ⊆ conv.map Prod.fst := fun k hk =>
    (lookup_isSome_iff conv k).mp (h2 k hk)
  have hsub' : conv.map Prod.fst ⊆ r.map Prod.fst := by
    intro k hk
    obtain ⟨c, hc⟩ := (lookup_isSome_iff conv k).mpr hk
    obtain ⟨v, b, hv, hb⟩ := hval k c hc
    rw [← lookup_isSome_iff]
    cases hrk : r.lookup k with
    | some b => exact ⟨b, rfl⟩
    | none =>
      have := h6 k rfl hrk
      rw [(firstVal_flatten_iff hss).mpr hv] at this
      cases this
  have := ((List.subperm_of_subset h1 hsub).antisymm
    (List.subperm_of_subset hconv hsub')).length_eq
  simpa using this.symm

/-! ### Selection of variables -/

theorem emSelection_selects (e : EmNames) :
    ∃ vars, Verif.emSelection (some e) = .ok vars ∧ Selects e vars := by
  cases e with
  | all => exact ⟨_, rfl, fun _ => rfl⟩
  | names l => exact ⟨_, rfl, decide_eq_true_iff, decide_eq_true_iff, decide_eq_true_iff,
    decide_eq_true_iff, decide_eq_true_iff, decide_eq_true_iff, decide_eq_true_iff,
    decide_eq_true_iff⟩

theorem Selects.unique {e : EmNames} {v w : EmVar → Bool} (hv : Selects e v) (hw : Selects e w) :
    v = w := by
  funext x
  cases e with
  | all => rw [hv x, hw x]
  | names l =>
    obtain ⟨v1, v2, v3, v4, v5, v6, v7, v8⟩ := hv
    obtain ⟨w1, w2, w3, w4, w5, w6, w7, w8⟩ := hw
    rw [Bool.eq_iff_iff]
    cases x
    all_goals simp_all

theorem emSelection_eq {e : EmNames} {vars : EmVar → Bool} (h : Selects e vars) :
    Verif.emSelection (some e) = .ok vars := by
  obtain ⟨w, hw, hs⟩ := emSelection_selects e
  rw [hw, hs.unique h]

end Verif
