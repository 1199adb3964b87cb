import Verif.Proofs.MemorySmooth

/-! # No method changes a block that was in use before -/

open Matrix

namespace Verif

variable {α β : Type} {n m : ℕ}

/-- A computation after allocating an array. -/
theorem frame_new {a : NDArray} {h₀ h : Heap} {f : ARef → HM β} {post : Res β → Heap → Prop}
    (h0 : Touch ∅ h₀ h)
    (hf : ∀ v h', Touch ∅ h₀ h' → h₀.next ≤ v.addr → Runs (f v) h' post) :
    Runs (newArray a >>= f) h post :=
  runs_new fun v h' hv => hf v h' (h0.trans hv.touch) (by rw [hv.addr]; exact h0.next)

theorem frame_then {F : Set ℕ} {h₀ h : Heap} {x : HM α} {f : α → HM β} (h0 : Touch ∅ h₀ h)
    (hx : Frame F x h) (hF : ∀ a ∈ F, h₀.next ≤ a)
    (hf : ∀ a h', Touch ∅ h₀ h' → Runs (f a) h' fun _ h'' => Touch ∅ h₀ h'') :
    Runs (x >>= f) h fun _ h'' => Touch ∅ h₀ h'' :=
  Runs.bind hx (fun a h' t => hf a h' (h0.fresh t hF)) fun _ _ t => h0.fresh t hF

theorem frame_memFilter (p : PRefs) (Z : ARef) (h : Heap) : Frame ∅ (memFilter p Z) h := by
  refine frame_new (Touch.refl _ h) fun v1 h1 t1 a1 => frame_new t1 fun v2 h2 t2 a2 =>
    frame_new t2 fun v3 h3 t3 a3 => frame_new t3 fun v4 h4 t4 a4 => frame_new t4 fun v5 h5 t5 a5 => ?_
  refine frame_then t5 (frame_memFilterLoop _ _ _ ⟨v1, v2, v3, v4, v5⟩ _ _ _ _) ?_
    fun _ h' t' => runs_pure t'
  intro a ha
  simp only [FRefs.addrs, Set.mem_insert_iff, Set.mem_singleton_iff] at ha
  omega

theorem frame_memSmooth (A : ARef) (f : FRefs) (h : Heap) : Frame ∅ (memSmooth A f) h := by
  refine frame_new (Touch.refl _ h) fun v1 h1 t1 a1 => frame_new t1 fun v2 h2 t2 a2 => ?_
  split
  · exact frame_then t2 (frame_lift ∅ _ _) (by simp) fun _ h' t' =>
      frame_new t' fun v3 h3 t3 a3 =>
      frame_then t3 (frame_setRow (F := {v1.addr}) (Set.mem_singleton _) _ _ _) (by simpa using a1) fun _ _ t4 =>
      frame_then t4 (frame_setRow (F := {v2.addr}) (Set.mem_singleton _) _ _ _) (by simpa using a2) fun _ _ t5 =>
      frame_then t5 (frame_memSmoothLoop _ _ _ ⟨v1, v2, v3⟩ _ _) (by
        intro a ha
        simp only [SRefs.addrs, Set.mem_insert_iff, Set.mem_singleton_iff] at ha
        omega) fun _ h' t' => runs_pure t'
  · exact frame_new t2 fun v3 h3 t3 a3 =>
      frame_then t3 (frame_setRow (F := {v1.addr}) (Set.mem_singleton _) _ _ _) (by simpa using a1) fun _ _ t4 =>
      frame_then t4 (frame_setRow (F := {v2.addr}) (Set.mem_singleton _) _ _ _) (by simpa using a2) fun _ _ t5 =>
      frame_then t5 (frame_memSmoothLoop _ _ _ ⟨v1, v2, v3⟩ _ _) (by
        intro a ha
        simp only [SRefs.addrs, Set.mem_insert_iff, Set.mem_singleton_iff] at ha
        omega) fun _ h' t' => runs_pure t'

theorem frame_memPairLoop (n : ℕ) (s : SRefs) (pairs : ARef) :
    ∀ (k t : ℕ) (h : Heap), Frame {pairs.addr} (memPairLoop n s pairs t k) h
  | 0, _, h => frame_pure _ _ h
  | k + 1, t, h => (frame_see _ _ _).bind fun _ _ _ => (frame_newArray _ _ _).bind fun _ _ _ =>
      (frame_setRow (Set.mem_singleton _) _ _ _).bind fun _ _ _ => frame_memPairLoop n s pairs k _ _

theorem frame_memPair (s : SRefs) (h : Heap) : Frame ∅ (memPair s) h :=
  frame_new (Touch.refl _ h) fun v1 _ t1 a1 =>
    frame_then t1 (frame_memPairLoop _ s v1 _ _ _) (by simpa using a1) fun _ _ t' => runs_pure t'

theorem frame_memLoglikStep (n m : ℕ) (p : PRefs) (f : FRefs) (Z ll : ARef) (t : ℕ) (h : Heap) :
    Frame {ll.addr} (memLoglikStep n m p f Z ll t) h := by
  refine (frame_see _ _ _).bind fun missing _ _ => ?_
  cases missing
  · exact (frame_lift _ _ _).bind fun _ _ _ => (frame_lift _ _ _).bind fun _ _ _ =>
      (frame_lift _ _ _).bind fun _ _ _ => (frame_see _ _ _).bind fun _ _ _ =>
      (frame_lift _ _ _).bind fun _ _ _ => (frame_newArray _ _ _).bind fun _ _ _ =>
      frame_setRow (Set.mem_singleton _) _ _ _
  · exact frame_pure _ _ _

theorem frame_memLoglikLoop (n m : ℕ) (p : PRefs) (f : FRefs) (Z ll : ARef) :
    ∀ (k t : ℕ) (h : Heap), Frame {ll.addr} (memLoglikLoop n m p f Z ll t k) h
  | 0, _, h => frame_pure _ _ h
  | k + 1, t, h => (frame_memLoglikStep n m p f Z ll t h).bind fun _ _ _ =>
      frame_memLoglikLoop n m p f Z ll k _ _

theorem frame_memLoglik (p : PRefs) (f : FRefs) (Z : ARef) (h : Heap) :
    Frame ∅ (memLoglik p f Z) h :=
  frame_new (Touch.refl _ h) fun v1 _ t1 a1 =>
    frame_then t1 (frame_memLoglikLoop _ _ p f Z v1 _ _ _) (by simpa using a1) fun _ _ t' =>
      runs_pure t'

theorem frame_memEstimate (F : Set ℕ) (sel : Bool) (e : Heap → Res NDArray) (g : ARef) (h : Heap) :
    Frame F (memEstimate sel e g) h := by
  unfold memEstimate
  split
  · exact (frame_see _ _ _).bind fun _ _ _ => (frame_lift _ _ _).bind fun _ _ _ =>
      frame_newArray _ _ _
  · exact frame_pure _ _ _

theorem frame_memEmStep (n m : ℕ) (sel : EmVar → Bool) (given old : PRefs) (Z : ARef) (s : SRefs)
    (pairs : ARef) (h : Heap) : Frame ∅ (memEmStep n m sel given old Z s pairs) h := by
  refine (frame_memEstimate _ _ _ _ _).bind fun _ _ _ => (frame_memEstimate _ _ _ _ _).bind
    fun _ _ _ => (frame_memEstimate _ _ _ _ _).bind fun _ _ _ => (frame_memEstimate _ _ _ _ _).bind
    fun _ _ _ => ?_
  exact (frame_memEstimate _ _ _ _ _).bind fun _ _ _ => (frame_memEstimate _ _ _ _ _).bind
    fun _ _ _ => (frame_memEstimate _ _ _ _ _).bind fun _ _ _ => frame_pure _ _ _

theorem frame_memEmLoop (n m : ℕ) (sel : EmVar → Bool) (given : PRefs) (Z : ARef) :
    ∀ (k : ℕ) (p : PRefs) (h : Heap), Frame ∅ (memEmLoop n m sel given Z k p) h
  | 0, _, _ => frame_pure _ _ _
  | k + 1, p, h => (frame_memFilter p Z h).bind fun _ _ _ => (frame_memSmooth _ _ _).bind
      fun _ _ _ => (frame_memPair _ _).bind fun _ _ _ => (frame_memEmStep _ _ _ _ _ _ _ _ _).bind
      fun _ _ _ => frame_memEmLoop n m sel given Z k _ _

theorem frame_memInitialize (k : KFRef) (h : Heap) : Frame ∅ (memInitialize k) h :=
  (frame_newArray _ _ _).bind fun _ _ _ => (frame_newArray _ _ _).bind fun _ _ _ =>
  (frame_newArray _ _ _).bind fun _ _ _ => (frame_newArray _ _ _).bind fun _ _ _ =>
  (frame_newArray _ _ _).bind fun _ _ _ => (frame_newArray _ _ _).bind fun _ _ _ =>
  (frame_newArray _ _ _).bind fun _ _ _ => (frame_newArray _ _ _).bind fun _ _ _ =>
  (frame_lift _ _ _).bind fun _ _ _ => frame_pure _ _ _

theorem frame_filter (k : KFRef) (X : ARef) (h : Heap) : Frame ∅ (k.filter X) h :=
  (frame_memInitialize k h).bind fun _ _ _ => (frame_memFilter _ _ _).bind fun _ _ _ =>
    frame_pure _ _ _

theorem frame_smooth (k : KFRef) (X : ARef) (h : Heap) : Frame ∅ (k.smooth X) h :=
  (frame_memInitialize k h).bind fun _ _ _ => (frame_memFilter _ _ _).bind fun _ _ _ =>
    (frame_memSmooth _ _ _).bind fun _ _ _ => frame_pure _ _ _

theorem frame_loglikelihood (k : KFRef) (X : ARef) (h : Heap) : Frame ∅ (k.loglikelihood X) h :=
  (frame_memInitialize k h).bind fun _ _ _ => (frame_memFilter _ _ _).bind fun _ _ _ =>
    (frame_memLoglik _ _ _ _).bind fun _ _ _ => frame_see _ _ _

theorem frame_em (k : KFRef) (X : ARef) (nIter : ℕ) (arg : Option EmNames) (h : Heap) :
    Frame ∅ (k.em X nIter arg) h :=
  (frame_memInitialize k h).bind fun _ _ _ => (frame_lift _ _ _).bind fun _ _ _ =>
    (frame_memEmLoop _ _ _ _ _ _ _ _).bind fun _ _ _ => frame_pure _ _ _

theorem frame_filterUpdate (k : KFRef) (mean cov : ARef) (o : Option ARef) (a : UpdateRefs)
    (h : Heap) : Frame ∅ (k.filterUpdate mean cov o a) h := by
  refine (frame_memInitialize k h).bind fun _ _ _ => (frame_lift _ _ _).bind fun _ _ _ =>
    (frame_lift _ _ _).bind fun _ _ _ => (frame_lift _ _ _).bind fun _ _ _ =>
    (frame_lift _ _ _).bind fun _ _ _ => (frame_lift _ _ _).bind fun _ _ _ =>
    (frame_lift _ _ _).bind fun _ _ _ => ?_
  cases o
  · exact (frame_newMasked _ _ _).bind fun _ _ _ => (frame_memPredict _ _ _ _ _ _ _ _).bind
      fun _ _ _ => (frame_memCorrect _ _ _ _ _ _ _ _ _ _).bind fun _ _ _ => frame_pure _ _ _
  · exact (frame_pure _ _ _).bind fun _ _ _ => (frame_memPredict _ _ _ _ _ _ _ _).bind
      fun _ _ _ => (frame_memCorrect _ _ _ _ _ _ _ _ _ _).bind fun _ _ _ => frame_pure _ _ _

end Verif
