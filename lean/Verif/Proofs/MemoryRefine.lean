import Verif.Spec.MemoryUnscented
import Verif.Proofs.MemoryLoglik

/-! # Programs on the memory that compute what programs on values compute -/

open Matrix

namespace Verif

variable {α β γ δ : Type} {n m k l q N : ℕ} {V : Set ℕ} {h h' : Heap}

/-- Both results are values, related by `R`, or both are the same exception. -/
def ResRel (R : α → β → Prop) : Res α → Res β → Prop
  | .ok a, .ok b => R a b
  | .error e, .error e' => e = e'
  | _, _ => False

/-- The program changes only arrays in `V`, and its result is related to `v`. -/
def Refines (V : Set ℕ) (h : Heap) (x : HM α) (v : Res β) (R : Heap → α → β → Prop) : Prop :=
  Runs x h fun r h' => Touch V h h' ∧ ResRel (R h') r v

theorem Refines.bind {x : HM α} {f : α → HM γ} {v : Res β} {g : β → Res δ}
    {R : Heap → α → β → Prop} {S : Heap → γ → δ → Prop} (hx : Refines V h x v R)
    (hf : ∀ a b h', Touch V h h' → v = .ok b → R h' a b → Refines V h' (f a) (g b) S) :
    Refines V h (x >>= f) (v >>= g) S := by
  refine Runs.bind hx ?_ ?_
  · rintro a h1 ⟨t1, hr⟩
    cases v with
    | error e => exact hr.elim
    | ok b => exact (hf a b h1 t1 rfl hr).imp fun r h2 ⟨t2, hr2⟩ => ⟨t1.trans t2, hr2⟩
  · rintro e h1 ⟨t1, hr⟩
    cases v with
    | error e' => exact ⟨t1, hr⟩
    | ok b => exact hr.elim

/-- For a program that always succeeds. -/
theorem Refines.step {x : HM α} {f : α → HM γ} {b : β} {v : Res δ}
    {R : Heap → α → β → Prop} {S : Heap → γ → δ → Prop} (hx : Refines V h x (.ok b) R)
    (hf : ∀ a h', Touch V h h' → R h' a b → Refines V h' (f a) v S) :
    Refines V h (x >>= f) v S :=
  Refines.bind (g := fun _ => v) hx fun a b' h1 t1 e hr => by
    cases e
    exact hf a h1 t1 hr

theorem refines_pure {a : α} {b : β} {R : Heap → α → β → Prop} (hR : R h a b) :
    Refines V h (pure a) (.ok b) R := ⟨Touch.refl V h, hR⟩

theorem refines_lift {r : Res α} {v : Res β} {R : α → β → Prop} (hR : ResRel R r v) :
    Refines V h (HM.lift r) v fun _ => R := ⟨Touch.refl V h, hR⟩

theorem resRel_eq (r : Res α) : ResRel (· = ·) r r := by cases r <;> rfl

theorem Refines.see {f : Heap → α} {g : α → HM γ} {v : Res δ} {S : Heap → γ → δ → Prop}
    (hg : Refines V h (g (f h)) v S) : Refines V h (HM.see f >>= g) v S := hg

theorem Refines.imp {x : HM α} {v : Res β} {R S : Heap → α → β → Prop} (hx : Refines V h x v R)
    (hRS : ∀ a b h', Touch V h h' → v = .ok b → R h' a b → S h' a b) : Refines V h x v S := by
  refine Runs.imp hx ?_
  rintro r h1 ⟨t1, hr⟩
  refine ⟨t1, ?_⟩
  rcases r with e | a <;> rcases v with e' | b
  · exact hr
  · exact hr
  · exact hr
  · exact hRS a b h1 t1 rfl hr

theorem Refines.mono {x : HM α} {v : Res β} {R : Heap → α → β → Prop} {W : Set ℕ}
    (hx : Refines W h x v R) (hW : W ⊆ V) : Refines V h x v R :=
  Runs.imp hx fun _ _ ⟨t, hr⟩ => ⟨t.mono hW, hr⟩

theorem Refines.lifted {r : Res α} {f : α → HM γ} {R : Heap → γ → α → Prop}
    (hf : ∀ a, r = .ok a → Refines V h (f a) (.ok a) R) : Refines V h (HM.lift r >>= f) r R := by
  rcases r with e | a
  · exact ⟨Touch.refl V h, rfl⟩
  · exact hf a rfl

/-- The arrays in `V` exist, those in `K` also and are not in `V`, which contains `W`. -/
structure Env (W : Set ℕ) (K : Constants) (V : Set ℕ) (h : Heap) : Prop where
  sub : W ⊆ V
  old : ∀ a ∈ V, a < h.next
  kept : K.In h
  apart : ∀ a ∈ K.addrs, a ∉ V

variable {W : Set ℕ} {K : Constants}

theorem Env.touch (e : Env W K V h) (t : Touch V h h') : Env W K V h' :=
  ⟨e.sub, fun a ha => (e.old a ha).trans_le t.next, fun a ha =>
    ⟨(e.kept a ha).1.trans_le t.next, (t.block a (e.kept a ha).1 (e.apart a ha)).trans (e.kept a ha).2⟩,
    e.apart⟩

theorem Env.fresh (e : Env W K V h) {a : ℕ} (ha : h.next ≤ a) : a ∉ V := fun hV =>
  absurd (e.old a hV) (not_lt.mpr ha)

theorem ARef.Apart.touch {r : ARef} (hr : r.Apart V h) (t : Touch V h h') : r.Apart V h' :=
  ⟨hr.1.trans_le t.next, hr.2⟩

theorem ARef.Apart.row {r : ARef} (hr : r.Apart V h) (i : ℕ) : (r.row i).Apart V h := hr

theorem ARef.Apart.vec {r : ARef} (hr : r.Apart V h) (t : Touch V h h') : r.vec k h' = r.vec k h :=
  ARef.vec_touch t hr.1 hr.2

theorem ARef.Apart.mat {r : ARef} (hr : r.Apart V h) (t : Touch V h h') :
    r.mat k l h' = r.mat k l h := ARef.mat_touch t hr.1 hr.2

theorem ARef.Apart.obs {r : ARef} (hr : r.Apart V h) (t : Touch V h h') :
    r.obs k h' = r.obs k h := ARef.obs_touch t hr.1 hr.2

/-- The array holds the vector. -/
structure VRel (V : Set ℕ) (h : Heap) (r : ARef) (v : Vec k) : Prop where
  apart : r.Apart V h
  eq : r.vec k h = v

/-- The array holds the matrix. -/
structure ARel (V : Set ℕ) (h : Heap) (r : ARef) (v : Mat k l) : Prop where
  apart : r.Apart V h
  eq : r.mat k l h = v

/-- The array holds the observation. -/
structure ORel (V : Set ℕ) (h : Heap) (r : ARef) (v : Obs k) : Prop where
  apart : r.Apart V h
  eq : r.obs k h = v

/-- The arrays hold the moments. -/
structure MRel (V : Set ℕ) (h : Heap) (r : MRef) (v : Moments k) : Prop where
  mean : r.mean.Apart V h
  cov : r.cov.Apart V h
  eq : r.value k h = v

/-- The array holds the points. -/
structure PRel (V : Set ℕ) (h : Heap) (r : PtsRef N) (v : SigmaPoints N k) : Prop where
  apart : r.points.Apart V h
  eq : r.value k h = v

theorem VRel.touch {r : ARef} {v : Vec k} (hr : VRel V h r v) (t : Touch V h h') : VRel V h' r v :=
  ⟨hr.1.touch t, by rw [hr.1.vec t, hr.2]⟩

theorem ARel.touch {r : ARef} {v : Mat k l} (hr : ARel V h r v) (t : Touch V h h') :
    ARel V h' r v := ⟨hr.1.touch t, by rw [hr.1.mat t, hr.2]⟩

theorem ORel.touch {r : ARef} {v : Obs k} (hr : ORel V h r v) (t : Touch V h h') :
    ORel V h' r v := ⟨hr.1.touch t, by rw [hr.1.obs t, hr.2]⟩

theorem MRel.touch {r : MRef} {v : Moments k} (hr : MRel V h r v) (t : Touch V h h') :
    MRel V h' r v :=
  ⟨hr.1.touch t, hr.2.touch t, by rw [← hr.3, MRef.value, hr.1.vec t, hr.2.mat t]; rfl⟩

theorem PRel.touch {r : PtsRef N} {v : SigmaPoints N k} (hr : PRel V h r v) (t : Touch V h h') :
    PRel V h' r v := by
  refine ⟨hr.1.touch t, ?_⟩
  rw [← hr.2, PtsRef.value]
  simp only [(hr.1.row _).vec t]
  rfl

theorem PRel.row {r : PtsRef N} {v : SigmaPoints N k} (hr : PRel V h r v) (i : Fin N) :
    VRel V h (r.points.row i) (v.points i) := ⟨hr.1.row i, by rw [← hr.2]; rfl⟩

theorem MRel.vec {r : MRef} {v : Moments k} (hr : MRel V h r v) : VRel V h r.mean v.mean :=
  ⟨hr.1, by rw [← hr.3]; rfl⟩

theorem MRel.mat {r : MRef} {v : Moments k} (hr : MRel V h r v) : ARel V h r.cov v.cov :=
  ⟨hr.2, by rw [← hr.3]; rfl⟩

theorem MRel.of {r : MRef} {v : Vec k} {A : Mat k k} (h1 : VRel V h r.mean v)
    (h2 : ARel V h r.cov A) : MRel V h r ⟨v, A⟩ :=
  ⟨h1.1, h2.1, by rw [MRef.value, h1.2, h2.2]⟩

/-! ### New arrays -/

theorem Fresh.apart {a : NDArray} {r : ARef} (e : Env W K V h) (f : Fresh a h r h') :
    r.Apart V h' :=
  ⟨by rw [f.addr, f.next]; exact Nat.lt_succ_self _, e.fresh f.addr.ge⟩

theorem Fresh.touches {a : NDArray} {r : ARef} (f : Fresh a h r h') : Touch V h h' :=
  f.touch.mono (Set.empty_subset V)

theorem refines_new {a : NDArray} {b : β} {R : Heap → ARef → β → Prop}
    (hR : ∀ r h', Fresh a h r h' → R h' r b) : Refines V h (newArray a) (.ok b) R :=
  (runs_newArray a h).imp fun r h1 ⟨v, e, f⟩ => ⟨f.touches, by subst e; exact hR v h1 f⟩

theorem refines_newVec (e : Env W K V h) (v : Vec k) :
    Refines V h (newArray (ndOfVec v)) (.ok v) fun h' => VRel V h' :=
  refines_new fun _ _ f => ⟨f.apart e, f.vec⟩

theorem refines_newMat (e : Env W K V h) (A : Mat k l) :
    Refines V h (newArray (ndOfMat A)) (.ok A) fun h' => ARel V h' :=
  refines_new fun _ _ f => ⟨f.apart e, f.mat⟩

theorem ARel.points {a : ARef} {s : SigmaPoints N k} (ha : ARel V h a (Matrix.of s.points)) :
    PRel V h (⟨a, s.wm, s.wc⟩ : PtsRef N) s := by
  refine ⟨ha.1, ?_⟩
  have : (fun i : Fin N => (a.row i).vec k h) = s.points := by
    funext i j
    exact congrFun (congrFun ha.2 i) j
  rw [PtsRef.value, this]

theorem refines_newPoints (e : Env W K V h) (s : SigmaPoints N k) :
    Refines V h (newPoints s) (.ok s) fun h' => PRel V h' :=
  (refines_newMat e _).step fun _ _ _ ha => refines_pure ha.points

/-- Two different arrays, made after there were `b` arrays, hold the moments. -/
structure MNew (V : Set ℕ) (b : ℕ) (h : Heap) (r : MRef) (v : Moments k) : Prop where
  rel : MRel V h r v
  mean : b ≤ r.mean.addr
  cov : b ≤ r.cov.addr
  ne : r.mean.addr ≠ r.cov.addr

theorem MNew.touch {b : ℕ} {r : MRef} {v : Moments k} (hr : MNew V b h r v) (t : Touch V h h') :
    MNew V b h' r v := ⟨hr.1.touch t, hr.2, hr.3, hr.4⟩

theorem refines_newMoments (e : Env W K V h) {b : ℕ} (hb : b ≤ h.next) (M : Moments k) :
    Refines V h (newMoments M) (.ok M) fun h' => MNew V b h' := by
  refine Refines.step (b := M.mean) (R := fun h' r v => VRel V h' r v ∧ r.addr = h.next ∧
    h'.next = h.next + 1) (refines_new fun r h1 f => ⟨⟨f.apart e, f.vec⟩, f.addr, f.next⟩) ?_
  rintro mean h1 t1 ⟨h2, h3, h4⟩
  refine Refines.step (b := M.cov) (R := fun h' r v => ARel V h' r v ∧ r.addr = h1.next)
    (refines_new fun r h1 f => ⟨⟨f.apart (e.touch t1), f.mat⟩, f.addr⟩) ?_
  rintro cov h5 t2 ⟨h6, h7⟩
  refine refines_pure ⟨MRel.of (h2.touch t2) h6, ?_, ?_, ?_⟩ <;> simp only <;> omega

/-- After the program, something is done to the value only. -/
theorem Refines.post {x : HM α} {v : Res β} {g : β → δ} {R : Heap → α → β → Prop}
    {S : Heap → α → δ → Prop} (hx : Refines V h x v R)
    (hRS : ∀ a b h', Touch V h h' → v = .ok b → R h' a b → S h' a (g b)) :
    Refines V h x (v >>= fun b => .ok (g b)) S := by
  refine Runs.imp hx ?_
  rintro r h1 ⟨t1, hr⟩
  refine ⟨t1, ?_⟩
  rcases r with e | a <;> rcases v with e' | b
  · exact hr
  · exact hr
  · exact hr
  · exact hRS a b h1 t1 rfl hr

theorem refines_setting {X v : ARef} {t : ℕ} {f : Unit → HM γ} {w : Res δ}
    {S : Heap → γ → δ → Prop} (hX : X.addr ∈ V)
    (hf : ∀ h', RowSet X t v h h' → Refines V h' (f ()) w S) :
    Refines V h (setRow X t v >>= f) w S :=
  runs_setting fun h' hs => Runs.imp (hf h' hs) fun _ _ ⟨t1, hr⟩ =>
    ⟨(hs.touch.mono (by simpa using hX)).trans t1, hr⟩

/-! ### Calling functions -/

theorem refines_call₁ {f : MFun₁} {F : Vec k → Vec l} (e : Env W K V h) (hf : f.Computes W K F)
    {x : ARef} {v : Vec k} (hx : VRel V h x v) :
    Refines V h (f x) (.ok (F v)) fun h' => VRel V h' := by
  obtain ⟨y, h1, e1, hn, hb, hy, hlt, hv⟩ := hf h x (fun a ha => e.old a (e.sub ha)) e.kept hx.1.1
    fun hW => hx.1.2 (e.sub hW)
  unfold Refines Runs
  rw [e1]
  refine ⟨⟨hn, fun a ha hV => hb a ha fun hW => hV (e.sub hW)⟩, ⟨hlt, ?_⟩, by rw [hv, hx.2]⟩
  rcases hy with hy | hy | hy
  · rw [hy]; exact hx.1.2
  · exact e.fresh hy
  · exact e.apart _ hy

theorem refines_call₂ {f : MFun₂} {F : Vec k → Vec q → Vec l} (e : Env W K V h)
    (hf : f.Computes W K F) {x w : ARef} {v : Vec k} {u : Vec q} (hx : VRel V h x v)
    (hw : VRel V h w u) : Refines V h (f x w) (.ok (F v u)) fun h' => VRel V h' := by
  obtain ⟨y, h1, e1, hn, hb, hy, hlt, hv⟩ := hf h x w (fun a ha => e.old a (e.sub ha)) e.kept hx.1.1
    (fun hW => hx.1.2 (e.sub hW)) hw.1.1 (fun hW => hw.1.2 (e.sub hW))
  unfold Refines Runs
  rw [e1]
  refine ⟨⟨hn, fun a ha hV => hb a ha fun hW => hV (e.sub hW)⟩, ⟨hlt, ?_⟩, by rw [hv, hx.2, hw.2]⟩
  rcases hy with hy | hy | hy | hy
  · rw [hy]; exact hx.1.2
  · rw [hy]; exact hw.1.2
  · exact e.fresh hy
  · exact e.apart _ hy

theorem refines_memCalls {call : ℕ → HM ARef} {v : ℕ → Vec l} :
    ∀ (j i : ℕ) (h : Heap), (∀ s, i ≤ s → s < i + j → ∀ h', Touch V h h' →
      Refines V h' (call s) (.ok (v s)) fun h'' => VRel V h'') →
      Refines V h (memCalls call i j) (.ok ((List.range' i j).map v))
        fun h' => List.Forall₂ (VRel V h')
  | 0, _, _, _ => refines_pure List.Forall₂.nil
  | j + 1, i, h, hc => by
    refine (hc i le_rfl (by omega) h (Touch.refl V h)).step fun y h1 t1 hy => ?_
    refine (refines_memCalls j (i + 1) h1 fun s h2 h3 h' t => hc s (by omega) (by omega) h'
      (t1.trans t)).step fun ys h2 t2 hys => ?_
    exact refines_pure (List.Forall₂.cons (hy.touch t2) hys)

theorem stackRows_eq {ys : List ARef} {v : ℕ → Vec l}
    (hys : List.Forall₂ (VRel V h) ys ((List.range' 0 N).map v)) :
    memStackRows N l ys h = Matrix.of fun i : Fin N => v i := by
  have hlen : ys.length = N := by
    rw [hys.length_eq, List.length_map, List.length_range']
  ext i j
  have h1 := (List.forall₂_iff_get.mp hys).2 i (by omega) (by simp)
  have h2 : ys[(i : ℕ)]? = some (ys[(i : ℕ)]'(by omega)) := List.getElem?_eq_getElem _
  simp only [memStackRows, Matrix.of_apply, h2, Option.map_some, Option.getD_some]
  have h3 := h1.2
  simp only [List.get_eq_getElem, List.getElem_map, List.getElem_range', zero_add, one_mul] at h3
  rw [h3]

/-- What a noise argument holds. -/
def NRel (V : Set ℕ) (h : Heap) (a : Option ARef) (v : Option (Mat l l)) : Prop :=
  match a, v with
  | none, none => True
  | some r, some A => ARel V h r A
  | _, _ => False

theorem NRel.touch {a : Option ARef} {v : Option (Mat l l)} (ha : NRel V h a v) (t : Touch V h h') :
    NRel V h' a v := by
  cases a <;> cases v
  · trivial
  · exact ha
  · exact ha
  · exact ARel.touch ha t

theorem NRel.eq {a : Option ARef} {v : Option (Mat l l)} (ha : NRel V h a v) :
    a.map (ARef.mat l l h) = v := by
  cases a <;> cases v
  · rfl
  · exact ha.elim
  · exact ha.elim
  · exact congrArg some (ARel.eq ha)

theorem nrel_none : NRel V h none (none : Option (Mat l l)) := trivial

theorem ARel.noise {r : ARef} {A : Mat l l} (hr : ARel V h r A) : NRel V h (some r) (some A) := hr

/-- The calls for all the points give the points `w`. -/
def CallsRel (V : Set ℕ) (h : Heap) (call : ℕ → HM ARef) (w : Fin N → Vec l) : Prop :=
  ∀ (i : Fin N) h', Touch V h h' → Refines V h' (call i) (.ok (w i)) fun h'' => VRel V h''

theorem refines_stacked (e : Env W K V h) {call : ℕ → HM ARef} {w : Fin N → Vec l}
    (hc : CallsRel V h call w) {f : ARef → HM γ} {v : Res δ} {S : Heap → γ → δ → Prop}
    (hf : ∀ a h', Touch V h h' → ARel V h' a (Matrix.of w) → Refines V h' (f a) v S) :
    Refines V h (memCalls call 0 N >>= fun ys => HM.see (memStackRows N l ys) >>= fun rows =>
      newArray (ndOfMat rows) >>= f) v S := by
  let u : ℕ → Vec l := fun i => if hi : i < N then w ⟨i, hi⟩ else 0
  have hu : ∀ i : Fin N, u i = w i := fun i => dif_pos i.2
  refine (refines_memCalls (v := u) N 0 h fun s _ hs h' t => ?_).step fun ys h1 t1 hys => ?_
  · have := hc ⟨s, by omega⟩ h' t
    rwa [← hu] at this
  · refine Refines.see ?_
    rw [stackRows_eq hys]
    refine (refines_newMat (e.touch t1) _).step fun a h2 t2 ha => hf a h2 (t1.trans t2) ?_
    have : (Matrix.of fun i : Fin N => u i) = Matrix.of w := by
      ext i j
      exact congrFun (hu i) j
    rwa [this] at ha

/-! ### Arrays of functions -/

theorem at_rel {φ ψ : Type} {R : φ → ψ → Prop} {p : Fns φ} {P : Fns ψ} (hp : p.Rel R P) (t : ℕ) :
    ResRel R (p.at t) (P.at t) := by
  have hfirst : ∀ {a : List φ} {b : List ψ}, List.Forall₂ R a b → ResRel R (first a) (first b) := by
    intro a b hab
    cases hab with
    | nil => rfl
    | cons hd _ => exact hd
  cases p <;> cases P
  · exact hfirst hp
  · exact hp.elim
  · exact hp.elim
  · rename_i a b
    have hp' : List.Forall₂ (List.Forall₂ R) a b := hp
    simp only [Fns.at]
    by_cases ht : t < a.length
    · have ht' : t < b.length := by rw [← hp'.length_eq]; exact ht
      rw [List.getElem?_eq_getElem ht, List.getElem?_eq_getElem ht']
      exact hfirst ((List.forall₂_iff_get.mp hp').2 t ht ht')
    · rw [List.getElem?_eq_none (by omega), List.getElem?_eq_none (by rw [← hp'.length_eq]; omega)]
      rfl

theorem defaultFunction_rel {φ ψ : Type} {R : φ → ψ → Prop} {p : Fns φ} {P : Fns ψ}
    (hp : p.Rel R P) {f : Option φ} {F : Option ψ} (hf : Option.Rel R f F) :
    ResRel R (defaultFunction f p) (defaultFunction F P) := by
  cases p <;> cases P
  · have hp' : List.Forall₂ R _ _ := hp
    cases hf with
    | some h => exact h
    | none =>
      cases hp' with
      | nil => rfl
      | cons hd tl =>
        cases tl with
        | nil => exact hd
        | cons _ _ => rfl
  · exact hp.elim
  · exact hp.elim
  · have hp' : List.Forall₂ (List.Forall₂ R) _ _ := hp
    cases hf with
    | some h => exact h
    | none =>
      simp only [defaultFunction, hp'.length_eq]
      split <;> rfl

end Verif
