import Verif.Model.Memory

/-! # Lemmas about computations with arrays in memory -/

open Matrix

namespace Verif

variable {α β : Type} {n m : ℕ}

/-- What holds after a run. -/
def Runs (x : HM α) (h : Heap) (post : Res α → Heap → Prop) : Prop := post (x h).1 (x h).2

theorem Runs.bind {x : HM α} {f : α → HM β} {h : Heap} {mid : Res α → Heap → Prop}
    {post : Res β → Heap → Prop} (hx : Runs x h mid)
    (hok : ∀ a h', mid (.ok a) h' → Runs (f a) h' post)
    (herr : ∀ e h', mid (.error e) h' → post (.error e) h') : Runs (x >>= f) h post := by
  unfold Runs at *
  change post (match x h with
    | (.ok a, h') => f a h'
    | (.error e, h') => (.error e, h')).1 (match x h with
    | (.ok a, h') => f a h'
    | (.error e, h') => (.error e, h')).2
  rcases hr : x h with ⟨r, h'⟩
  rw [hr] at hx
  cases r with
  | ok a => exact hok a h' hx
  | error e => exact herr e h' hx

theorem Runs.imp {x : HM α} {h : Heap} {p q : Res α → Heap → Prop} (hx : Runs x h p)
    (hpq : ∀ r h', p r h' → q r h') : Runs x h q := hpq _ _ hx

theorem Runs.and {x : HM α} {h : Heap} {p q : Res α → Heap → Prop} (hp : Runs x h p)
    (hq : Runs x h q) : Runs x h (fun r h' => p r h' ∧ q r h') := ⟨hp, hq⟩

theorem runs_pure {a : α} {h : Heap} {post : Res α → Heap → Prop} (hp : post (.ok a) h) :
    Runs (pure a : HM α) h post := hp

theorem runs_see {f : Heap → α} {h : Heap} {post : Res α → Heap → Prop} (hp : post (.ok (f h)) h) :
    Runs (HM.see f) h post := hp

theorem runs_lift {r : Res α} {h : Heap} {post : Res α → Heap → Prop} (hp : post r h) :
    Runs (HM.lift r) h post := hp

/-- From `h` to `h'` no block changed, except those in `F` and those that were not in use. -/
structure Touch (F : Set ℕ) (h h' : Heap) : Prop where
  next : h.next ≤ h'.next
  block : ∀ a, a < h.next → a ∉ F → h'.block a = h.block a

theorem Touch.refl (F : Set ℕ) (h : Heap) : Touch F h h := ⟨le_rfl, fun _ _ _ => rfl⟩

theorem Touch.trans {F : Set ℕ} {h₁ h₂ h₃ : Heap} (a : Touch F h₁ h₂) (b : Touch F h₂ h₃) :
    Touch F h₁ h₃ :=
  ⟨a.next.trans b.next, fun x hx hF => by
    rw [b.block x (hx.trans_le a.next) hF, a.block x hx hF]⟩

theorem Touch.mono {F G : Set ℕ} {h h' : Heap} (a : Touch F h h') (hFG : F ⊆ G) : Touch G h h' :=
  ⟨a.next, fun x hx hG => a.block x hx fun hF => hG (hFG hF)⟩

/-- Blocks that were not in use do not count. -/
theorem Touch.fresh {F : Set ℕ} {h h' h'' : Heap} (a : Touch ∅ h h') (b : Touch F h' h'')
    (hF : ∀ x ∈ F, h.next ≤ x) : Touch ∅ h h'' :=
  ⟨a.next.trans b.next, fun x hx _ => by
    rw [b.block x (hx.trans_le a.next) fun h1 => absurd hx (not_lt.mpr (hF x h1)),
      a.block x hx (Set.notMem_empty x)]⟩

/-- After a run: whatever the result, only blocks in `F` changed. -/
abbrev Frame (F : Set ℕ) (x : HM α) (h : Heap) : Prop := Runs x h fun _ h' => Touch F h h'

theorem Frame.bind {F : Set ℕ} {x : HM α} {f : α → HM β} {h : Heap} (hx : Frame F x h)
    (hf : ∀ a h', Touch F h h' → Frame F (f a) h') : Frame F (x >>= f) h :=
  Runs.bind hx (fun a h' t => (hf a h' t).imp fun _ _ t' => t.trans t') fun _ _ t => t

theorem frame_pure (F : Set ℕ) (a : α) (h : Heap) : Frame F (pure a : HM α) h :=
  runs_pure (Touch.refl F h)

theorem frame_see (F : Set ℕ) (f : Heap → α) (h : Heap) : Frame F (HM.see f) h :=
  runs_see (Touch.refl F h)

theorem frame_lift (F : Set ℕ) (r : Res α) (h : Heap) : Frame F (HM.lift r) h :=
  runs_lift (Touch.refl F h)

/-- A new array. -/
structure Fresh (a : NDArray) (h : Heap) (r : ARef) (h' : Heap) : Prop where
  touch : Touch ∅ h h'
  addr : r.addr = h.next
  next : h'.next = h.next + 1
  ix : r.ix = id
  nd : r.nd h' = a

theorem runs_newArray (a : NDArray) (h : Heap) :
    Runs (newArray a) h fun r h' => ∃ v, r = .ok v ∧ Fresh a h v h' := by
  refine ⟨_, rfl, ⟨⟨Nat.le_succ _, fun x hx _ => ?_⟩, rfl, rfl, rfl, ?_⟩⟩
  · exact Function.update_of_ne hx.ne _ _
  · simp [ARef.nd, newArray]

theorem frame_newArray (F : Set ℕ) (a : NDArray) (h : Heap) : Frame F (newArray a) h :=
  (runs_newArray a h).imp fun _ _ ⟨_, _, hf⟩ => hf.touch.mono (Set.empty_subset F)

theorem frame_newMasked (F : Set ℕ) (m : ℕ) (h : Heap) : Frame F (newMasked m) h :=
  ⟨Nat.le_succ _, fun _ hx _ => Function.update_of_ne hx.ne _ _⟩

theorem frame_setRow {F : Set ℕ} {X : ARef} (hX : X.addr ∈ F) (t : ℕ) (v : ARef) (h : Heap) :
    Frame F (setRow X t v) h :=
  ⟨le_rfl, fun a _ hF => Function.update_of_ne (fun e => hF (by rw [e]; exact hX)) _ _⟩

theorem ARef.nd_touch {F : Set ℕ} {h h' : Heap} (ht : Touch F h h') {r : ARef}
    (hr : r.addr < h.next) (hF : r.addr ∉ F) : r.nd h' = r.nd h := by
  simp only [ARef.nd, ht.block _ hr hF]

theorem ARef.ma_touch {F : Set ℕ} {h h' : Heap} (ht : Touch F h h') {r : ARef}
    (hr : r.addr < h.next) (hF : r.addr ∉ F) : r.ma h' = r.ma h := by
  simp only [ARef.ma, ht.block _ hr hF]

/-! ### Frames of the functions -/

theorem frame_memPredict (F : Set ℕ) (n : ℕ) (A Q b mean cov : ARef) (h : Heap) :
    Frame F (memPredict n A Q b mean cov) h :=
  (frame_see F _ h).bind fun _ _ _ => (frame_newArray F _ _).bind fun _ _ _ =>
    (frame_newArray F _ _).bind fun _ _ _ => frame_pure F _ _

theorem frame_memCorrect (F : Set ℕ) (n m : ℕ) (C R d mean cov o : ARef) (h : Heap) :
    Frame F (memCorrect n m C R d mean cov o) h := by
  refine (frame_see F _ h).bind fun missing h1 _ => ?_
  cases missing
  · exact (frame_see F _ _).bind fun _ _ _ => (frame_newArray F _ _).bind fun _ _ _ =>
      (frame_newArray F _ _).bind fun _ _ _ => (frame_newArray F _ _).bind fun _ _ _ =>
      frame_pure F _ _
  · exact (frame_newArray F _ _).bind fun _ _ _ => frame_pure F _ _

/-- The addresses of the arrays of `_filter`. -/
def FRefs.addrs (f : FRefs) : Set ℕ :=
  {f.predMeans.addr, f.predCovs.addr, f.gains.addr, f.filtMeans.addr, f.filtCovs.addr}

theorem frame_memFilterPred (n : ℕ) (p : PRefs) (f : FRefs) (t : ℕ) (h : Heap) :
    Frame f.addrs (memFilterPred n p f t) h := by
  have h1 : f.predMeans.addr ∈ f.addrs := by simp [FRefs.addrs]
  have h2 : f.predCovs.addr ∈ f.addrs := by simp [FRefs.addrs]
  unfold memFilterPred
  split
  · exact (frame_setRow h1 _ _ _).bind fun _ _ _ => frame_setRow h2 _ _ _
  · exact (frame_lift _ _ _).bind fun _ _ _ => (frame_lift _ _ _).bind fun _ _ _ =>
      (frame_lift _ _ _).bind fun _ _ _ => (frame_memPredict _ _ _ _ _ _ _ _).bind fun _ _ _ =>
      (frame_setRow h1 _ _ _).bind fun _ _ _ => frame_setRow h2 _ _ _

theorem frame_memFilterCorr (n m : ℕ) (p : PRefs) (f : FRefs) (Z : ARef) (t : ℕ) (h : Heap) :
    Frame f.addrs (memFilterCorr n m p f Z t) h := by
  have h1 : f.gains.addr ∈ f.addrs := by simp [FRefs.addrs]
  have h2 : f.filtMeans.addr ∈ f.addrs := by simp [FRefs.addrs]
  have h3 : f.filtCovs.addr ∈ f.addrs := by simp [FRefs.addrs]
  exact (frame_lift _ _ _).bind fun _ _ _ => (frame_lift _ _ _).bind fun _ _ _ =>
      (frame_lift _ _ _).bind fun _ _ _ => (frame_memCorrect _ _ _ _ _ _ _ _ _ _).bind fun _ _ _ =>
      (frame_setRow h1 _ _ _).bind fun _ _ _ => (frame_setRow h2 _ _ _).bind fun _ _ _ =>
      frame_setRow h3 _ _ _

theorem frame_memFilterLoop (n m : ℕ) (p : PRefs) (f : FRefs) (Z : ARef) :
    ∀ (k t : ℕ) (h : Heap), Frame f.addrs (memFilterLoop n m p f Z t k) h
  | 0, _, h => frame_pure _ _ h
  | k + 1, t, h => (frame_memFilterPred n p f t h).bind fun _ _ _ =>
      (frame_memFilterCorr n m p f Z t _).bind fun _ _ _ => frame_memFilterLoop n m p f Z k _ _

/-- A run after which the blocks in use before it are unchanged, continued by one that changes only
new blocks. -/
theorem Frame.bind_fresh {F : α → Set ℕ} {x : HM α} {f : α → HM β} {h : Heap}
    {mid : Res α → Heap → Prop} (hx : Runs x h mid) (hmid : ∀ r h', mid r h' → Touch ∅ h h')
    (hF : ∀ a h', mid (.ok a) h' → ∀ i ∈ F a, h.next ≤ i)
    (hf : ∀ a h', mid (.ok a) h' → Frame (F a) (f a) h') : Frame ∅ (x >>= f) h :=
  Runs.bind hx (fun a h' hm => (hf a h' hm).imp fun _ _ t => (hmid _ _ hm).fresh t (hF a h' hm))
    fun _ _ hm => hmid _ _ hm

end Verif
