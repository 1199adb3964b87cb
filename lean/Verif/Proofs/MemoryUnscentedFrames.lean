import Verif.Proofs.MemoryBasic
import Verif.Spec.MemoryUnscented

/-! # What the methods of the unscented classes change, whatever the functions do to their arguments -/

open Matrix

namespace Verif

variable {α β : Type} {n m k l N : ℕ} {F W : Set ℕ} {b : ℕ} {qr : QR}

/-- Started when there are at least `b` arrays, the program changes only arrays in `F`, and what it
returns has the property. -/
def Stays (F : Set ℕ) (b : ℕ) (x : HM α) (post : α → Prop) : Prop :=
  ∀ h, b ≤ h.next → Runs x h fun r h' => Touch F h h' ∧ ∀ a, r = .ok a → post a

theorem Stays.bind {x : HM α} {f : α → HM β} {p : α → Prop} {q : β → Prop} (hx : Stays F b x p)
    (hf : ∀ a, p a → Stays F b (f a) q) : Stays F b (x >>= f) q := fun h hb => by
  refine Runs.bind (hx h hb) ?_ ?_
  · rintro a h1 ⟨t1, ha⟩
    exact (hf a (ha a rfl) h1 (hb.trans t1.next)).imp fun r h2 ⟨t2, hr⟩ => ⟨t1.trans t2, hr⟩
  · rintro e h1 ⟨t1, _⟩
    exact ⟨t1, fun a ha => by cases ha⟩

theorem stays_pure {a : α} {p : α → Prop} (ha : p a) : Stays F b (pure a) p := fun h _ =>
  ⟨Touch.refl F h, fun c hc => by cases hc; exact ha⟩

theorem stays_see {f : Heap → α} : Stays F b (HM.see f) fun _ => True := fun h _ =>
  ⟨Touch.refl F h, fun _ _ => trivial⟩

theorem stays_lift {r : Res α} {p : α → Prop} (hr : ∀ a, r = .ok a → p a) :
    Stays F b (HM.lift r) p := fun h _ => ⟨Touch.refl F h, hr⟩

theorem stays_any {r : Res α} : Stays F b (HM.lift r) fun _ => True := stays_lift fun _ _ => trivial

/-- Every array made from now on may change. -/
abbrev New (F : Set ℕ) (b : ℕ) : Prop := ∀ a, b ≤ a → a ∈ F

theorem stays_newArray (hF : New F b) (a : NDArray) : Stays F b (newArray a) fun r => r.addr ∈ F :=
  fun h hb => (runs_newArray a h).imp fun r h' ⟨v, e, f⟩ => ⟨f.touch.mono (Set.empty_subset F),
    fun c hc => by
      subst e
      cases hc
      exact hF _ (by rw [f.addr]; exact hb)⟩

theorem stays_newMasked (m : ℕ) : Stays F b (newMasked m) fun _ => True := fun h _ =>
  ⟨frame_newMasked F m h, fun _ _ => trivial⟩

theorem stays_setRow {X : ARef} (hX : X.addr ∈ F) (t : ℕ) (v : ARef) :
    Stays F b (setRow X t v) fun _ => True := fun h _ =>
  ⟨frame_setRow hX t v h, fun _ _ => trivial⟩

/-- The array of points may change. -/
abbrev PtsRef.In (F : Set ℕ) (s : PtsRef N) : Prop := s.points.addr ∈ F

theorem stays_newPoints (hF : New F b) (s : SigmaPoints N k) :
    Stays F b (newPoints s) (PtsRef.In F) :=
  (stays_newArray hF _).bind fun _ ha => stays_pure ha

theorem stays_newMoments (hF : New F b) (M : Moments k) :
    Stays F b (newMoments M) fun _ => True :=
  (stays_newArray hF _).bind fun _ _ => (stays_newArray hF _).bind fun _ _ => stays_pure trivial

theorem stays_memMoments2points (hF : New F b) (M : MRef) :
    Stays F b (memMoments2points k M) (PtsRef.In F) :=
  stays_see.bind fun _ _ => stays_any.bind fun _ _ => stays_newPoints hF _

theorem stays_memPoints2moments (hF : New F b) (s : PtsRef N) (noise : Option ARef) :
    Stays F b (memPoints2moments k s noise) fun _ => True :=
  stays_see.bind fun _ _ => stays_newMoments hF _

/-- The calls change only arrays in `F`. -/
abbrev CallsIn (F : Set ℕ) (b : ℕ) (call : ℕ → HM ARef) : Prop :=
  ∀ i, Stays F b (call i) fun _ => True

theorem stays_memCalls {call : ℕ → HM ARef} (hc : CallsIn F b call) :
    ∀ j i, Stays F b (memCalls call i j) fun _ => True
  | 0, _ => stays_pure trivial
  | j + 1, i => (hc i).bind fun _ _ => (stays_memCalls hc j (i + 1)).bind fun _ _ => stays_pure trivial

theorem stays_memTransform (hF : New F b) (s : PtsRef N) {call : ℕ → HM ARef}
    (hc : CallsIn F b call) (noise : Option ARef) :
    Stays F b (memTransform l s call noise) fun r => PtsRef.In F r.1 :=
  (stays_memCalls hc _ _).bind fun _ _ => stays_see.bind fun _ _ => (stays_newArray hF _).bind
    fun _ ha => (stays_memPoints2moments hF _ _).bind fun _ _ => stays_pure ha

theorem stays_memUfCorrected (hF : New F b) (pred : MRef) (pts qs : PtsRef N) (obs : MRef) (o : ARef) :
    Stays F b (memUfCorrected n m pred pts qs obs o) fun _ => True := by
  refine stays_see.bind fun missing _ => ?_
  cases missing
  · exact stays_see.bind fun _ _ => stays_newMoments hF _
  · exact stays_pure trivial

theorem stays_memUfCorrect (hF : New F b) (pred : MRef) (pts : PtsRef N) {call : ℕ → HM ARef}
    (hc : CallsIn F b call) (noise : Option ARef) (o : ARef) :
    Stays F b (memUfCorrect n m pred pts call noise o) fun _ => True :=
  (stays_memTransform hF pts hc noise).bind fun _ _ => stays_memUfCorrected hF _ _ _ _ _

theorem callsIn₁ {f : MFun₁} (hW : W ⊆ F) (hf : f.ChangesOnly W) {s : PtsRef N} (hs : s.In F) :
    CallsIn F b fun i => f (s.points.row i) := fun i h _ =>
  ⟨⟨(hf h _).1, fun a ha hF => (hf h _).2 a ha (fun hW' => hF (hW hW')) fun e =>
    hF (by rw [e]; exact hs)⟩, fun _ _ => trivial⟩

theorem callsIn₂ {f : MFun₂} (hW : W ⊆ F) (hf : f.ChangesOnly W) {s w : PtsRef N} (hs : s.In F)
    (hw : w.In F) : CallsIn F b fun i => f (s.points.row i) (w.points.row i) := fun i h _ =>
  ⟨⟨(hf h _ _).1, fun a ha hF => (hf h _ _).2 a ha (fun hW' => hF (hW hW'))
    (fun e => hF (by rw [e]; exact hs)) fun e => hF (by rw [e]; exact hw)⟩, fun _ _ => trivial⟩

theorem Fns.Every.at {P : α → Prop} {f : Fns α} (hf : f.Every P) {t : ℕ} {a : α} (ha : f.at t = .ok a) :
    P a := by
  have hfirst : ∀ {l : List α}, (∀ x ∈ l, P x) → first l = .ok a → P a := by
    intro l hl h1
    cases l with
    | nil => cases h1
    | cons x xs => cases h1; exact hl _ (by simp)
  cases f with
  | flat l => exact hfirst hf ha
  | nested l =>
    simp only [Fns.at] at ha
    split at ha
    · rename_i r hr
      exact hfirst (hf r (List.mem_of_getElem? hr)) ha
    · cases ha

theorem Fns.Every.default {P : α → Prop} {f : Fns α} (hf : f.Every P) {g : Option α}
    (hg : ∀ x ∈ g, P x) {a : α} (ha : defaultFunction g f = .ok a) : P a := by
  cases f with
  | flat l =>
    cases g with
    | some x => cases ha; exact hg _ rfl
    | none =>
      rcases l with _ | ⟨x, _ | ⟨y, l⟩⟩
      · cases ha
      · cases ha; exact hf _ (by simp)
      · cases ha
  | nested l =>
    cases g with
    | some x => cases ha; exact hg _ rfl
    | none =>
      simp only [defaultFunction] at ha
      split at ha <;> cases ha

theorem stays_memUkfLoop {step : ℕ → MRef → ARef → HM MRef} {M₀ R : MRef} {Z : ARef}
    (hstep : ∀ t M o, Stays F b (step t M o) fun _ => True) (h1 : R.mean.addr ∈ F)
    (h2 : R.cov.addr ∈ F) : ∀ k t, Stays F b (memUkfLoop step M₀ R Z t k) fun _ => True
  | 0, _ => stays_pure trivial
  | k + 1, t => (hstep _ _ _).bind fun _ _ => (stays_setRow h1 _ _).bind fun _ _ =>
      (stays_setRow h2 _ _).bind fun _ _ => stays_memUkfLoop hstep h1 h2 k (t + 1)

theorem stays_memUkf (hF : New F b) {init : HM (ℕ → MRef → ARef → HM MRef)}
    (hinit : Stays F b init fun step => ∀ t M o, Stays F b (step t M o) fun _ => True) (M₀ : MRef)
    (Z : ARef) : Stays F b (memUkf n init M₀ Z) fun r => r.mean.addr ∈ F ∧ r.cov.addr ∈ F :=
  (stays_newArray hF _).bind fun _ h1 => (stays_newArray hF _).bind fun _ h2 =>
    hinit.bind fun _ hs => (stays_memUkfLoop hs h1 h2 _ _).bind fun _ _ => stays_pure ⟨h1, h2⟩

theorem stays_memUksLoop {step : ℕ → MRef → MRef → HM MRef} {R S : MRef}
    (hstep : ∀ t M o, Stays F b (step t M o) fun _ => True) (h1 : S.mean.addr ∈ F)
    (h2 : S.cov.addr ∈ F) : ∀ t, Stays F b (memUksLoop step R S t) fun _ => True
  | 0 => stays_pure trivial
  | t + 1 => (hstep _ _ _).bind fun _ _ => (stays_setRow h1 _ _).bind fun _ _ =>
      (stays_setRow h2 _ _).bind fun _ _ => stays_memUksLoop hstep h1 h2 t

theorem stays_memUks (hF : New F b) {init : HM (ℕ → MRef → MRef → HM MRef)}
    (hinit : Stays F b init fun step => ∀ t M o, Stays F b (step t M o) fun _ => True) (R : MRef) :
    Stays F b (memUks n init R) fun _ => True := by
  refine (stays_newArray hF _).bind fun _ h1 => (stays_newArray hF _).bind fun _ h2 => ?_
  refine Stays.bind (p := fun _ => True) ?_ fun _ _ => (stays_setRow h1 _ _).bind fun _ _ =>
    (stays_setRow h2 _ _).bind fun _ _ => hinit.bind fun _ hs =>
    (stays_memUksLoop hs h1 h2 _).bind fun _ _ => stays_pure trivial
  unfold memLastRow
  split
  · exact stays_any
  · exact stays_pure trivial

/-! ### Additive noise -/

section additive

variable {p : UPRef MFun₁}

theorem stays_memAukfStep (hF : New F b) (hW : W ⊆ F) (hp : p.ChangesOnly₁ W) (t : ℕ) (M : MRef)
    (o : ARef) : Stays F b (memAukfStep n m p t M o) fun _ => True := by
  refine Stays.bind (p := fun r => PtsRef.In F r.2) ?_ fun r hr =>
    (stays_lift fun g hg => hp.g.at hg).bind fun g hg =>
    stays_memUfCorrect hF _ _ (callsIn₁ hW hg hr) _ _
  refine (stays_memMoments2points hF _).bind fun pts hpts => ?_
  split
  · exact (stays_memPoints2moments hF _ _).bind fun _ _ => stays_pure hpts
  · exact (stays_lift fun f hf => hp.f.at hf).bind fun f hf =>
      (stays_memTransform hF _ (callsIn₁ hW hf hpts) _).bind fun _ _ =>
      (stays_memMoments2points hF _).bind fun _ h => stays_pure h

theorem stays_memAukfFilter (hF : New F b) (hW : W ⊆ F) (hp : p.ChangesOnly₁ W) (X : ARef) :
    Stays F b (memAukfFilter n m p X) fun _ => True :=
  fun h hb => (stays_memUkf hF (stays_pure fun t M o => stays_memAukfStep hF hW hp t M o) _ _ h hb).imp
    fun _ _ ⟨t, _⟩ => ⟨t, fun _ _ => trivial⟩

theorem stays_memAukfSmooth (hF : New F b) (hW : W ⊆ F) (hp : p.ChangesOnly₁ W) (X : ARef) :
    Stays F b (memAukfSmooth n m p X) fun _ => True :=
  (stays_memAukfFilter hF hW hp X).bind fun _ _ => stays_memUks hF (stays_pure fun t M o =>
    (stays_memMoments2points hF _).bind fun pts hpts => (stays_lift fun f hf => hp.f.at hf).bind
      fun f hf => (stays_memTransform hF _ (callsIn₁ hW hf hpts) _).bind fun _ _ =>
      stays_see.bind fun _ _ => stays_newMoments hF _) _

theorem stays_memObserved (R : ARef) (o : Option ARef) :
    Stays F b (memObserved R o) fun _ => True := by
  cases o with
  | none => exact stays_newMasked _
  | some r => exact stays_pure trivial

theorem stays_memAukfUpdate (hF : New F b) (hW : W ⊆ F) (hp : p.ChangesOnly₁ W) (M : MRef)
    (o : Option ARef) {a : UUpdateRefs MFun₁} (hf : ∀ f ∈ a.f, f.ChangesOnly W)
    (hg : ∀ f ∈ a.g, f.ChangesOnly W) : Stays F b (memAukfUpdate n m p M o a) fun _ => True :=
  (stays_lift fun _ h => hp.f.default hf h).bind fun _ hf =>
  (stays_lift fun _ h => hp.g.default hg h).bind fun _ hg =>
  (stays_memObserved _ _).bind fun _ _ => (stays_memMoments2points hF _).bind fun _ hpts =>
  (stays_memTransform hF _ (callsIn₁ hW hf hpts) _).bind fun _ _ =>
  (stays_memMoments2points hF _).bind fun _ hpts' =>
  stays_memUfCorrect hF _ _ (callsIn₁ hW hg hpts') _ _

/-! ### Square roots -/

theorem stays_memSqMoments2points (hF : New F b) (M : MRef) :
    Stays F b (memSqMoments2points k M) (PtsRef.In F) :=
  stays_see.bind fun _ _ => stays_newPoints hF _

theorem stays_memSqPoints2moments (hF : New F b) (s : PtsRef N) (noise : Option ARef) :
    Stays F b (memSqPoints2moments qr k s noise) fun _ => True :=
  stays_see.bind fun _ _ => stays_any.bind fun _ _ => stays_newMoments hF _

theorem stays_memSqTransform (hF : New F b) (s : PtsRef N) {call : ℕ → HM ARef}
    (hc : CallsIn F b call) (noise : Option ARef) :
    Stays F b (memSqTransform qr l s call noise) fun r => PtsRef.In F r.1 :=
  (stays_memCalls hc _ _).bind fun _ _ => stays_see.bind fun _ _ => (stays_newArray hF _).bind
    fun _ ha => (stays_memSqPoints2moments hF _ _).bind fun _ _ => stays_pure ha

theorem stays_memSqCorrect (hF : New F b) (pred : MRef) (pts : PtsRef N) {call : ℕ → HM ARef}
    (hc : CallsIn F b call) (R2 : ARef) (o : ARef) :
    Stays F b (memSqCorrect qr n m pred pts call R2 o) fun _ => True := by
  refine (stays_memSqTransform hF pts hc _).bind fun _ _ => ?_
  refine stays_see.bind fun missing _ => ?_
  cases missing
  · exact stays_see.bind fun _ _ => stays_any.bind fun _ _ => stays_newMoments hF _
  · exact stays_pure trivial

theorem stays_memCholUpper (hF : New F b) (A : ARef) :
    Stays F b (memCholUpper k A) fun _ => True :=
  stays_see.bind fun _ _ => stays_any.bind fun _ _ => fun h hb =>
    (stays_newArray hF _ h hb).imp fun _ _ ⟨t, _⟩ => ⟨t, fun _ _ => trivial⟩

theorem stays_memSqStep (hF : New F b) (hW : W ⊆ F) (hp : p.ChangesOnly₁ W) (Q2 R2 : ARef) (t : ℕ)
    (M : MRef) (o : ARef) : Stays F b (memSqStep qr n m p Q2 R2 t M o) fun _ => True := by
  refine Stays.bind (p := fun r => PtsRef.In F r.2) ?_ fun r hr =>
    (stays_lift fun g hg => hp.g.at hg).bind fun g hg =>
    stays_memSqCorrect hF _ _ (callsIn₁ hW hg hr) _ _
  unfold memSqPred
  split
  · exact (stays_memCholUpper hF _).bind fun _ _ => (stays_memSqMoments2points hF _).bind
      fun _ hpts => (stays_memSqPoints2moments hF _ _).bind fun _ _ => stays_pure hpts
  · exact (stays_memSqMoments2points hF _).bind fun _ hpts =>
      (stays_lift fun f hf => hp.f.at hf).bind fun f hf =>
      (stays_memSqTransform hF _ (callsIn₁ hW hf hpts) _).bind fun _ _ =>
      (stays_memSqMoments2points hF _).bind fun _ h => stays_pure h

theorem stays_memSqFull (hF : New F b) (hW : W ⊆ F) (hp : p.ChangesOnly₁ W) (Z : ARef) :
    Stays F b (memSqFull qr n m p Z) fun _ => True :=
  fun h hb => (stays_memUkf hF ((stays_memCholUpper hF _).bind fun Q2 _ =>
    (stays_memCholUpper hF _).bind fun R2 _ => stays_pure fun t M o =>
      stays_memSqStep hF hW hp Q2 R2 t M o) _ _ h hb).imp
    fun _ _ ⟨t, _⟩ => ⟨t, fun _ _ => trivial⟩

theorem stays_memUnrootLoop (hF : New F b) {roots covs : ARef} (hc : covs.addr ∈ F) :
    ∀ j t, Stays F b (memUnrootLoop n roots covs t j) fun _ => True
  | 0, _ => stays_pure trivial
  | j + 1, t => stays_see.bind fun _ _ => (stays_newArray hF _).bind fun _ _ =>
      (stays_setRow hc _ _).bind fun _ _ => stays_memUnrootLoop hF hc j (t + 1)

theorem stays_memUnroot (hF : New F b) (R : MRef) (T : ℕ) :
    Stays F b (memUnroot n R T) fun _ => True :=
  (stays_newArray hF _).bind fun _ hc => (stays_memUnrootLoop hF hc _ _).bind fun _ _ =>
    stays_pure trivial

theorem stays_memSqFilter (hF : New F b) (hW : W ⊆ F) (hp : p.ChangesOnly₁ W) (X : ARef) :
    Stays F b (memSqFilter qr n m p X) fun _ => True :=
  (stays_memSqFull hF hW hp _).bind fun _ _ => stays_memUnroot hF _ _

theorem stays_memSqSmoother (hF : New F b) (hW : W ⊆ F) (hp : p.ChangesOnly₁ W) (X : ARef) :
    Stays F b (memSqSmoother qr n m p X) fun _ => True :=
  (stays_memSqFull hF hW hp _).bind fun _ _ => (stays_memUks hF
    ((stays_memCholUpper hF _).bind fun Q2 _ => stays_pure fun t M o =>
      (stays_memSqMoments2points hF _).bind fun pts hpts => (stays_lift fun f hf => hp.f.at hf).bind
      fun f hf => (stays_memSqTransform hF _ (callsIn₁ hW hf hpts) _).bind fun _ _ =>
      stays_see.bind fun _ _ => stays_any.bind fun _ _ => stays_newMoments hF _) _).bind fun _ _ =>
    stays_memUnroot hF _ _

theorem stays_memSqUpdate (hF : New F b) (hW : W ⊆ F) (hp : p.ChangesOnly₁ W) (M : MRef)
    (o : Option ARef) {a : UUpdateRefs MFun₁} (hf : ∀ f ∈ a.f, f.ChangesOnly W)
    (hg : ∀ f ∈ a.g, f.ChangesOnly W) : Stays F b (memSqUpdate qr n m p M o a) fun _ => True :=
  (stays_lift fun _ h => hp.f.default hf h).bind fun _ hf =>
  (stays_lift fun _ h => hp.g.default hg h).bind fun _ hg =>
  (stays_memObserved _ _).bind fun _ _ => (stays_memCholUpper hF _).bind fun _ _ =>
  (stays_memCholUpper hF _).bind fun _ _ => (stays_memCholUpper hF _).bind fun _ _ =>
  (stays_memSqMoments2points hF _).bind fun _ hpts =>
  (stays_memSqTransform hF _ (callsIn₁ hW hf hpts) _).bind fun _ _ =>
  (stays_memSqMoments2points hF _).bind fun _ hpts' =>
  (stays_memSqCorrect hF _ _ (callsIn₁ hW hg hpts') _ _).bind fun _ _ =>
  Stays.bind (stays_see.bind fun _ _ => stays_newArray hF _) fun _ _ => stays_pure trivial

end additive

/-! ### General noise -/

section general

variable {p : UPRef MFun₂}

theorem stays_memAugFilterPoints (hF : New F b) (M : MRef) (Q R : ARef) :
    Stays F b (memAugFilterPoints n m M Q R)
      fun r => PtsRef.In F r.1 ∧ PtsRef.In F r.2.1 ∧ PtsRef.In F r.2.2 :=
  stays_see.bind fun _ _ => stays_any.bind fun _ _ => (stays_newPoints hF _).bind fun _ ha =>
    stays_pure ⟨ha, ha, ha⟩

theorem stays_memUkfStep (hF : New F b) (hW : W ⊆ F) (hp : p.ChangesOnly₂ W) (t : ℕ) (M : MRef)
    (o : ARef) : Stays F b (memUkfStep n m p t M o) fun _ => True := by
  refine (stays_memAugFilterPoints hF _ _ _).bind fun pts hpts => ?_
  refine Stays.bind (p := fun r => PtsRef.In F r.1) ?_ fun r hr =>
    (stays_lift fun g hg => hp.g.at hg).bind fun g hg =>
    stays_memUfCorrect hF _ _ (callsIn₂ hW hg hr hpts.2.2) _ _
  unfold memUkfPred
  split
  · exact (stays_memPoints2moments hF _ _).bind fun _ _ => stays_pure hpts.1
  · exact (stays_lift fun f hf => hp.f.at hf).bind fun f hf =>
      stays_memTransform hF _ (callsIn₂ hW hf hpts.1 hpts.2.1) _

theorem stays_memUkfFilter (hF : New F b) (hW : W ⊆ F) (hp : p.ChangesOnly₂ W) (X : ARef) :
    Stays F b (memUkfFilter n m p X) fun _ => True :=
  fun h hb => (stays_memUkf hF (stays_pure fun t M o => stays_memUkfStep hF hW hp t M o) _ _ h hb).imp
    fun _ _ ⟨t, _⟩ => ⟨t, fun _ _ => trivial⟩

theorem stays_memAugPoints (hF : New F b) (M : MRef) (Q : ARef) :
    Stays F b (memAugPoints n M Q) fun r => PtsRef.In F r.1 ∧ PtsRef.In F r.2 :=
  stays_see.bind fun _ _ => stays_any.bind fun _ _ => (stays_newPoints hF _).bind fun _ ha =>
    stays_pure ⟨ha, ha⟩

theorem stays_memUfSmooth (hF : New F b) (filt : MRef) (pts ptsPred : PtsRef N) (pred next : MRef) :
    Stays F b (memUfSmooth n filt pts ptsPred pred next) fun _ => True :=
  stays_see.bind fun _ _ => stays_newMoments hF _

theorem stays_memUkfSmoothStep (hF : New F b) (hW : W ⊆ F) (hp : p.ChangesOnly₂ W) (t : ℕ)
    (M o : MRef) : Stays F b (memUkfSmoothStep n p t M o) fun _ => True :=
  (stays_memAugPoints hF _ _).bind fun _ hpts => (stays_lift fun f hf => hp.f.at hf).bind
    fun f hf => (stays_memTransform hF _ (callsIn₂ hW hf hpts.1 hpts.2) _).bind fun _ _ =>
    stays_memUfSmooth hF _ _ _ _ _

theorem stays_memUkfSmooth (hF : New F b) (hW : W ⊆ F) (hp : p.ChangesOnly₂ W) (X : ARef) :
    Stays F b (memUkfSmooth n m p X) fun _ => True :=
  (stays_memUkfFilter hF hW hp _).bind fun _ _ => stays_memUks hF
    (stays_pure fun t M o => stays_memUkfSmoothStep hF hW hp t M o) _

theorem stays_memUkfUpdate (hF : New F b) (hW : W ⊆ F) (hp : p.ChangesOnly₂ W) (M : MRef)
    (o : Option ARef) {a : UUpdateRefs MFun₂} (hf : ∀ f ∈ a.f, f.ChangesOnly W)
    (hg : ∀ f ∈ a.g, f.ChangesOnly W) : Stays F b (memUkfUpdate n m p M o a) fun _ => True :=
  (stays_lift fun _ h => hp.f.default hf h).bind fun _ hf =>
  (stays_lift fun _ h => hp.g.default hg h).bind fun _ hg =>
  (stays_memObserved _ _).bind fun _ _ => (stays_memAugFilterPoints hF _ _ _).bind fun _ hpts =>
  (stays_memTransform hF _ (callsIn₂ hW hf hpts.1 hpts.2.1) _).bind fun _ hr =>
  stays_memUfCorrect hF _ _ (callsIn₂ hW hg hr hpts.2.2) _ _

end general

theorem Stays.keeps {x : HM α} {h : Heap} (hx : Stays (W ∪ Set.Ici h.next) h.next x fun _ => True) :
    h.KeepsBut W (x h).2 :=
  have ht := (hx h le_rfl).1
  ⟨ht.next, fun a ha hW => ht.block a ha fun hF => hF.elim hW fun h1 => absurd ha (not_lt.mpr h1)⟩

end Verif
