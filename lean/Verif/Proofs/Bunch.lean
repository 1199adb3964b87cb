import Verif.Spec.Bunch

/-! # Lemmas on `Bunch` -/

namespace Verif

variable {β : Type}

/-- Every object has one table of its own, which holds what the plain function holds. -/
structure BunchInv (s₀ : Tables β) (s : BunchState β) (l : List (String → Option β)) : Prop where
  length : s.1.length = l.length
  one : ∀ o ∈ s.1, o.attrs = o.items
  new : ∀ o ∈ s.1, s₀.next ≤ o.items ∧ o.items < s.2.next
  next : s₀.next ≤ s.2.next
  own : ∀ (i j : ℕ) (o o' : PyObj), s.1[i]? = some o → s.1[j]? = some o' → o.items = o'.items → i = j
  holds : ∀ (i : ℕ) (o : PyObj), s.1[i]? = some o → l[i]? = some (s.2.table o.items)
  old : ∀ a, a < s₀.next → s.2.table a = s₀.table a

theorem BunchInv.change {s₀ : Tables β} {s : BunchState β} {l : List (String → Option β)}
    (h : BunchInv s₀ s l) {i : ℕ} {o : PyObj} (hi : s.1[i]? = some o)
    (f : (String → Option β) → String → Option β) :
    BunchInv s₀ (s.1, s.2.change o.items f) (l.modify i f) where
  length := by simp [h.length]
  one := h.one
  new := h.new
  next := h.next
  own := h.own
  holds j o' hj := by
    have hl := h.holds j o' hj
    rw [List.getElem?_modify, hl]
    by_cases hij : i = j
    · subst hij
      rw [hi] at hj
      cases hj
      simp [Tables.change]
    · have hne : o'.items ≠ o.items := fun e => hij (h.own j i o' o hj hi e).symm
      simp [Tables.change, hij, Function.update_of_ne hne]
  old a ha := by
    have := (h.new o (List.mem_of_getElem? hi)).1
    show Function.update s.2.table o.items _ a = _
    rw [Function.update_of_ne (by omega), h.old a ha]

theorem BunchInv.none {s₀ : Tables β} {s : BunchState β} {l : List (String → Option β)}
    (h : BunchInv s₀ s l) {i : ℕ} (hi : s.1[i]? = none) (f : (String → Option β) → String → Option β) :
    BunchInv s₀ s (l.modify i f) := by
  have : l.modify i f = l := by
    have hi' : l.length ≤ i := by rw [← h.length]; simpa using hi
    apply List.ext_getElem?
    intro j
    rw [List.getElem?_modify]
    by_cases hij : i = j
    · subst hij; simp [hi']
    · simp [hij]
  rwa [this]

theorem modify_same (l : List (String → Option β)) (i : ℕ) {f : (String → Option β) → String → Option β}
    (hf : ∀ t, l[i]? = some t → f t = t) : l.modify i f = l := by
  apply List.ext_getElem?
  intro j
  rw [List.getElem?_modify]
  by_cases hij : i = j
  · subst hij
    rcases ht : l[i]? with _ | t
    · simp
    · simp [hf t ht]
  · simp [hij]

theorem BunchInv.exec {s₀ : Tables β} {s : BunchState β} {l : List (String → Option β)}
    (h : BunchInv s₀ s l) (a : BunchAct β) : BunchInv s₀ (a.exec s) (a.plain l) := by
  cases a with
  | create kwargs =>
    have ht : ∀ a, a < s.2.next → (newBunch kwargs s.2).2.table a = s.2.table a := by
      intro a ha
      show Function.update (Function.update (Function.update s.2.table s.2.next _) (s.2.next + 1) _)
        s.2.next _ a = _
      rw [Function.update_of_ne (by omega), Function.update_of_ne (by omega),
        Function.update_of_ne (by omega)]
    have hn : (newBunch kwargs s.2).2.table s.2.next = kwargs := by
      show Function.update _ s.2.next _ s.2.next = _
      rw [Function.update_self]
    have ho : (newBunch kwargs s.2).1 = ⟨s.2.next, s.2.next⟩ := rfl
    have hx : (newBunch kwargs s.2).2.next = s.2.next + 2 := rfl
    have cases' : ∀ (i : ℕ) (o : PyObj), (s.1 ++ [(newBunch kwargs s.2).1])[i]? = some o →
        s.1[i]? = some o ∨ (i = s.1.length ∧ o = ⟨s.2.next, s.2.next⟩) := by
      intro i o hi
      rcases lt_trichotomy i s.1.length with hlt | rfl | hgt
      · left; rwa [List.getElem?_append_left hlt] at hi
      · right; rw [List.getElem?_append_right le_rfl, ho] at hi
        simp at hi
        exact ⟨rfl, hi.symm⟩
      · rw [List.getElem?_eq_none (by simp; omega)] at hi
        cases hi
    exact {
      length := by simp [BunchAct.exec, BunchAct.plain, h.length]
      one := by
        intro o hmem
        rcases List.mem_append.1 hmem with hm | hm
        · exact h.one o hm
        · rw [List.mem_singleton.1 hm, ho]
      new := by
        intro o hmem
        show _ ∧ o.items < (newBunch kwargs s.2).2.next
        rw [hx]
        rcases List.mem_append.1 hmem with hm | hm
        · exact ⟨(h.new o hm).1, by have := (h.new o hm).2; omega⟩
        · rw [List.mem_singleton.1 hm, ho]
          exact ⟨h.next, by show s.2.next < _; omega⟩
      next := by
        show _ ≤ (newBunch kwargs s.2).2.next
        rw [hx]; have := h.next; omega
      own := by
        intro i j o o' hi hj e
        rcases cases' i o hi with hi | ⟨rfl, rfl⟩ <;> rcases cases' j o' hj with hj | ⟨rfl, rfl⟩
        · exact h.own i j o o' hi hj e
        · have := (h.new o (List.mem_of_getElem? hi)).2
          simp only at e; omega
        · have := (h.new o' (List.mem_of_getElem? hj)).2
          simp only at e; omega
        · rfl
      holds := by
        intro i o hi
        show (l ++ [kwargs])[i]? = some ((newBunch kwargs s.2).2.table o.items)
        rcases cases' i o hi with hi | ⟨rfl, rfl⟩
        · rw [ht _ (h.new o (List.mem_of_getElem? hi)).2, List.getElem?_append_left, h.holds i o hi]
          rw [← h.length]
          exact (List.getElem?_eq_some_iff.1 hi).1
        · rw [hn, h.length]
          simp
      old := by
        intro a ha
        show (newBunch kwargs s.2).2.table a = _
        rw [ht a (ha.trans_le h.next), h.old a ha] }
  | setItem i k v =>
    rcases hi : s.1[i]? with _ | o
    · simp only [BunchAct.exec, hi]; exact h.none hi _
    · simp only [BunchAct.exec, hi]; exact h.change hi _
  | setAttr i k v =>
    rcases hi : s.1[i]? with _ | o
    · simp only [BunchAct.exec, hi]; exact h.none hi _
    · simp only [BunchAct.exec, hi, setAttr, h.one o (List.mem_of_getElem? hi)]; exact h.change hi _
  | delItem i k =>
    rcases hi : s.1[i]? with _ | o
    · simp only [BunchAct.exec, hi]; exact h.none hi _
    · simp only [BunchAct.exec, hi, delItem]
      rcases hk : s.2.table o.items k with _ | v
      · rw [BunchAct.plain, modify_same l i fun t ht => ?_]
        · exact h
        · rw [h.holds i o hi] at ht
          cases ht
          rw [← hk, Function.update_eq_self]
      · exact h.change hi fun t => Function.update t k Option.none
  | delAttr i k =>
    rcases hi : s.1[i]? with _ | o
    · simp only [BunchAct.exec, hi]; exact h.none hi _
    · simp only [BunchAct.exec, hi, delAttr, h.one o (List.mem_of_getElem? hi)]
      rcases hk : s.2.table o.items k with _ | v
      · rw [BunchAct.plain, modify_same l i fun t ht => ?_]
        · exact h
        · rw [h.holds i o hi] at ht
          cases ht
          rw [← hk, Function.update_eq_self]
      · exact h.change hi fun t => Function.update t k Option.none
  | change i f =>
    rcases hi : s.1[i]? with _ | o
    · simp only [BunchAct.exec, hi]; exact h.none hi _
    · simp only [BunchAct.exec, hi]; exact h.change hi _

theorem BunchInv.start (s₀ : Tables β) : BunchInv s₀ ([], s₀) [] where
  length := rfl
  one := by simp
  new := by simp
  next := le_rfl
  own := by simp
  holds := by simp
  old _ _ := rfl

theorem BunchInv.foldl {s₀ : Tables β} : ∀ (as : List (BunchAct β)) {s : BunchState β}
    {l : List (String → Option β)}, BunchInv s₀ s l →
      BunchInv s₀ (as.foldl BunchAct.exec s) (as.foldl BunchAct.plain l)
  | [], _, _, h => h
  | a :: as, _, _, h => BunchInv.foldl as (h.exec a)

end Verif
