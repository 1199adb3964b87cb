import Verif.Proofs.MemorySqrtUnscented
import Verif.Proofs.MemoryUnscentedFrames
import Verif.Proofs.MemoryUnscentedSample
import Verif.Props.SqrtUnscented

/-!
# C109: the unscented classes with arrays in memory

The functions of the user are programs that are given views of the arrays of sigma points, and may do
what they like with the memory.

* No array of the caller changes unless the functions change it: functions may overwrite their
  arguments, and may raise.
* Functions that leave their arguments alone give the results of the model with values, in new arrays
  that nothing else refers to, whatever they return: a new array, the argument itself, an array that
  they keep; and whatever memory of their own they use.
-/

open Matrix

namespace Verif

variable {n m : ℕ} {W : Set ℕ} {K : Constants} {h : Heap} {qr : QR}

/-- **C109.** Whatever the functions do to their arguments, and whether the method returns or raises, no
array that existed before the call changes, but those in `W` that the functions change themselves. -/
theorem C109_unchanged (h : Heap) (a : UAct) (ha : a.ChangesOnly W) : h.KeepsBut W (a.exec h) := by
  have hF : New (W ∪ Set.Ici h.next) h.next := fun a ha => Or.inr ha
  have hW : W ⊆ W ∪ Set.Ici h.next := Set.subset_union_left
  cases a with
  | aukfFilter n m p X => exact (stays_memAukfFilter hF hW ha X).keeps
  | aukfSmooth n m p X => exact (stays_memAukfSmooth hF hW ha X).keeps
  | aukfUpdate n m p M o a => exact (stays_memAukfUpdate hF hW ha.1 M o ha.2.1 ha.2.2).keeps
  | ukfFilter n m p X => exact (stays_memUkfFilter hF hW ha X).keeps
  | ukfSmooth n m p X => exact (stays_memUkfSmooth hF hW ha X).keeps
  | ukfUpdate n m p M o a => exact (stays_memUkfUpdate hF hW ha.1 M o ha.2.1 ha.2.2).keeps
  | sqFilter qr n m p X => exact (stays_memSqFilter hF hW ha X).keeps
  | sqSmooth qr n m p X => exact (stays_memSqSmoother hF hW ha X).keeps
  | sqUpdate qr n m p M o a => exact (stays_memSqUpdate hF hW ha.1 M o ha.2.1 ha.2.2).keeps
  | aukfSample rng n m p T i gen => exact (stays_memAukfSample hF hW ha T i gen).keeps
  | ukfSample rng n m p T i gen => exact (stays_memUkfSample hF hW ha T i gen).keeps
  | create a => exact (stays_newArray hF a |>.bind fun _ _ => stays_pure trivial).keeps
  | write addr f =>
    exact ⟨le_rfl, fun x _ hx => Function.update_of_ne (by rintro rfl; exact hx ha) _ _⟩

/-- **C109, histories.** After any sequence of calls, also ones that raise, the array holds what it held,
if neither a function nor the caller changed it. -/
theorem C109_history (h : Heap) (as : List UAct) (ha : ∀ a ∈ as, a.ChangesOnly W) :
    h.KeepsBut W (as.foldl UAct.exec h) ∧
      ∀ r : ARef, r.Apart W h → r.ma (as.foldl UAct.exec h) = r.ma h := by
  have key : ∀ (as : List UAct) (h : Heap), (∀ a ∈ as, a.ChangesOnly W) →
      h.KeepsBut W (as.foldl UAct.exec h) := by
    intro as
    induction as with
    | nil => exact fun h _ => ⟨le_rfl, fun _ _ _ => rfl⟩
    | cons a as ih =>
      intro h ha
      obtain ⟨n1, b1⟩ := C109_unchanged h a (ha a (by simp))
      obtain ⟨n2, b2⟩ := ih (a.exec h) fun x hx => ha x (by simp [hx])
      exact ⟨n1.trans n2, fun x hx hW => (b2 x (hx.trans_le n1) hW).trans (b1 x hx hW)⟩
  refine ⟨key as h ha, fun r hr => ?_⟩
  rw [ARef.ma, (key as h ha).2 _ hr.1 hr.2]
  rfl

/-! ### Results -/

/-- **C109.** `AdditiveUnscentedKalmanFilter.filter`. -/
theorem C109_additive_filter (hW : Memories W K h) {p : UPRef MFun₁} {P : UParams n m}
    (hp : p.Holds₁ W K h P) {X : ARef} (hX : X.Apart W h) :
    ∃ res h', memAukfFilter n m p X h = (res, h') ∧ h.KeepsBut W h' ∧
      (∀ l, aukfFilter P ((parseObservations (X.ma h)).rows m) = .ok l →
        ∃ F, res = .ok F ∧ F.NewRows h h' l) ∧
      (∀ e, aukfFilter P ((parseObservations (X.ma h)).rows m) = .error e → res = .error e) :=
  (refines_memAukfFilter hW.env (Holds₁.par hp) hX).rows

/-- **C109.** `AdditiveUnscentedKalmanFilter.smooth`. -/
theorem C109_additive_smooth (hW : Memories W K h) {p : UPRef MFun₁} {P : UParams n m}
    (hp : p.Holds₁ W K h P) {X : ARef} (hX : X.Apart W h) :
    ∃ res h', memAukfSmooth n m p X h = (res, h') ∧ h.KeepsBut W h' ∧
      (∀ l, aukfSmooth P ((parseObservations (X.ma h)).rows m) = .ok l →
        ∃ F, res = .ok F ∧ F.NewRows h h' l) ∧
      (∀ e, aukfSmooth P ((parseObservations (X.ma h)).rows m) = .error e → res = .error e) :=
  (refines_memAukfSmooth hW.env (Holds₁.par hp) hX).rows

/-- **C109.** `AdditiveUnscentedKalmanFilter.filter_update`. -/
theorem C109_additive_update (hW : Memories W K h) {p : UPRef MFun₁} {P : UParams n m}
    (hp : p.Holds₁ W K h P) {M : MRef} (hM : M.mean.Apart W h ∧ M.cov.Apart W h) {o : Option ARef}
    (ho : ∀ r ∈ o, r.Apart W h) {a : UUpdateRefs MFun₁} {A : UUpdateArgs n m} (ha : a.Holds₁ W K h A) :
    ∃ res h', memAukfUpdate n m p M o a h = (res, h') ∧ h.KeepsBut W h' ∧
      (∀ N, aukfUpdate P (M.value n h) (o.map (ARef.obs m h)) A = .ok N →
        ∃ r, res = .ok r ∧ r.NewMoments h h' N) ∧
      (∀ e, aukfUpdate P (M.value n h) (o.map (ARef.obs m h)) A = .error e → res = .error e) :=
  (refines_memAukfUpdate hW.env (Holds₁.par hp) hM ho ha.f ha.g
    (arel_getD ha.Q.1 ha.Q.2 (Holds₁.par hp).Q) (arel_getD ha.R.1 ha.R.2 (Holds₁.par hp).R)).moments

/-- **C109.** `UnscentedKalmanFilter.filter`. -/
theorem C109_general_filter (hW : Memories W K h) {p : UPRef MFun₂} {P : GParams n m}
    (hp : p.Holds₂ W K h P) {X : ARef} (hX : X.Apart W h) :
    ∃ res h', memUkfFilter n m p X h = (res, h') ∧ h.KeepsBut W h' ∧
      (∀ l, ukfFilter P ((parseObservations (X.ma h)).rows m) = .ok l →
        ∃ F, res = .ok F ∧ F.NewRows h h' l) ∧
      (∀ e, ukfFilter P ((parseObservations (X.ma h)).rows m) = .error e → res = .error e) :=
  (refines_memUkfFilter hW.env (Holds₂.par hp) hX).rows

/-- **C109.** `UnscentedKalmanFilter.smooth`. -/
theorem C109_general_smooth (hW : Memories W K h) {p : UPRef MFun₂} {P : GParams n m}
    (hp : p.Holds₂ W K h P) {X : ARef} (hX : X.Apart W h) (hdim : X.shape.length ≤ 2) :
    ∃ res h', memUkfSmooth n m p X h = (res, h') ∧ h.KeepsBut W h' ∧
      (∀ l, ukfSmooth P ((parseObservations (X.ma h)).rows m) = .ok l →
        ∃ F, res = .ok F ∧ F.NewRows h h' l) ∧
      (∀ e, ukfSmooth P ((parseObservations (X.ma h)).rows m) = .error e → res = .error e) := by
  have := (refines_memUkfSmooth hW.env (Holds₂.par hp) hX).rows
  rwa [C28_idempotent (by exact hdim)] at this

/-- **C109.** `UnscentedKalmanFilter.filter_update`. -/
theorem C109_general_update (hW : Memories W K h) {p : UPRef MFun₂} {P : GParams n m}
    (hp : p.Holds₂ W K h P) {M : MRef} (hM : M.mean.Apart W h ∧ M.cov.Apart W h) {o : Option ARef}
    (ho : ∀ r ∈ o, r.Apart W h) {a : UUpdateRefs MFun₂} {A : GUpdateArgs n m} (ha : a.Holds₂ W K h A) :
    ∃ res h', memUkfUpdate n m p M o a h = (res, h') ∧ h.KeepsBut W h' ∧
      (∀ N, ukfUpdate P (M.value n h) (o.map (ARef.obs m h)) A = .ok N →
        ∃ r, res = .ok r ∧ r.NewMoments h h' N) ∧
      (∀ e, ukfUpdate P (M.value n h) (o.map (ARef.obs m h)) A = .error e → res = .error e) :=
  (refines_memUkfUpdate hW.env (Holds₂.par hp) hM ho ha.f ha.g
    (arel_getD ha.Q.1 ha.Q.2 (Holds₂.par hp).Q) (arel_getD ha.R.1 ha.R.2 (Holds₂.par hp).R)).moments

/-- **C109.** `AdditiveUnscentedKalmanFilter.filter`, square root form. -/
theorem C109_sqrt_filter (hW : Memories W K h) {p : UPRef MFun₁} {P : UParams n m}
    (hp : p.Holds₁ W K h P) {X : ARef} (hX : X.Apart W h) :
    ∃ res h', memSqFilter qr n m p X h = (res, h') ∧ h.KeepsBut W h' ∧
      (∀ l, sqFilter qr P ((parseObservations (X.ma h)).rows m) = .ok l →
        ∃ F, res = .ok F ∧ F.NewRows h h' l) ∧
      (∀ e, sqFilter qr P ((parseObservations (X.ma h)).rows m) = .error e → res = .error e) :=
  (refines_memSqFilter hW.env (Holds₁.par hp) hX).rows

/-- **C109.** `AdditiveUnscentedKalmanFilter.smooth`, square root form. -/
theorem C109_sqrt_smooth (hW : Memories W K h) {p : UPRef MFun₁} {P : UParams n m}
    (hp : p.Holds₁ W K h P) {X : ARef} (hX : X.Apart W h) :
    ∃ res h', memSqSmoother qr n m p X h = (res, h') ∧ h.KeepsBut W h' ∧
      (∀ l, sqSmooth qr P ((parseObservations (X.ma h)).rows m) = .ok l →
        ∃ F, res = .ok F ∧ F.NewRows h h' l) ∧
      (∀ e, sqSmooth qr P ((parseObservations (X.ma h)).rows m) = .error e → res = .error e) :=
  (refines_memSqSmoother hW.env (Holds₁.par hp) hX).rows

/-- **C109.** `AdditiveUnscentedKalmanFilter.filter_update`, square root form: the covariance has one
more axis than documented (`C44`). -/
theorem C109_sqrt_update (hW : Memories W K h) {p : UPRef MFun₁} {P : UParams n m}
    (hp : p.Holds₁ W K h P) {M : MRef} (hM : M.mean.Apart W h ∧ M.cov.Apart W h) {o : Option ARef}
    (ho : ∀ r ∈ o, r.Apart W h) {a : UUpdateRefs MFun₁} {A : UUpdateArgs n m} (ha : a.Holds₁ W K h A) :
    ∃ res h', memSqUpdate qr n m p M o a h = (res, h') ∧ h.KeepsBut W h' ∧
      (∀ N, sqUpdate qr P (M.value n h) (o.map (ARef.obs m h)) A = .ok N →
        ∃ r, res = .ok r ∧ r.NewMoments3 h h' N) ∧
      (∀ e, sqUpdate qr P (M.value n h) (o.map (ARef.obs m h)) A = .error e → res = .error e) :=
  (refines_memSqUpdate hW.env (Holds₁.par hp) hM ho ha.f ha.g
    (arel_getD ha.Q.1 ha.Q.2 (Holds₁.par hp).Q) (arel_getD ha.R.1 ha.R.2 (Holds₁.par hp).R)).moments3

/-- **C109.** `AdditiveUnscentedKalmanFilter.sample`, which the square root class inherits: the functions
get rows of the array of states that is returned. -/
theorem C109_additive_sample {σ : Type} {rng : Rng σ} (hW : Memories W K h) {p : UPRef MFun₁}
    {P : UParams n m} (hp : p.Holds₁ W K h P) (T : ℕ) {initial : Option ARef}
    (hi : ∀ r ∈ initial, r.Apart W h) (gen : Res σ) :
    ∃ res h', memAukfSample rng n m p T initial gen h = (res, h') ∧ h.KeepsBut W h' ∧
      (∀ l, (gen >>= fun s => aukfSample rng P T (initial.map (ARef.vec n h)) s) = .ok l →
        ∃ r, res = .ok r ∧ NewSample h h' r l) ∧
      (∀ e, (gen >>= fun s => aukfSample rng P T (initial.map (ARef.vec n h)) s) = .error e →
        res = .error e) :=
  (refines_memAukfSample hW.env (Holds₁.par hp) hi T gen).sample

/-- **C109.** `UnscentedKalmanFilter.sample`. -/
theorem C109_general_sample {σ : Type} {rng : Rng σ} (hW : Memories W K h) {p : UPRef MFun₂}
    {P : GParams n m} (hp : p.Holds₂ W K h P) (T : ℕ) {initial : Option ARef}
    (hi : ∀ r ∈ initial, r.Apart W h) (gen : Res σ) :
    ∃ res h', memUkfSample rng n m p T initial gen h = (res, h') ∧ h.KeepsBut W h' ∧
      (∀ l, (gen >>= fun s => ukfSample rng P T (initial.map (ARef.vec n h)) s) = .ok l →
        ∃ r, res = .ok r ∧ NewSample h h' r l) ∧
      (∀ e, (gen >>= fun s => ukfSample rng P T (initial.map (ARef.vec n h)) s) = .error e →
        res = .error e) :=
  (refines_memUkfSample hW.env (Holds₂.par hp) hi T gen).sample

/-! ### The hypotheses can be met -/

/-- Arrays of ones; the array with address 6 holds twos. -/
noncomputable def exUHeap : Heap := ⟨7, fun a => ⟨fun _ => if a = 6 then 2 else 1, fun _ => false⟩⟩

/-- The array with address 6. -/
def exUConst : Constants := ⟨{6}, fun _ => ⟨fun _ => 2, fun _ => false⟩⟩

theorem exUMemories : Memories {5} exUConst exUHeap where
  own := by rintro a rfl; exact (by norm_num : (5 : ℕ) < 7)
  kept := by
    rintro a rfl
    refine ⟨(by norm_num : (6 : ℕ) < 7), ?_⟩
    simp only [exUHeap, exUConst, if_true]
  apart := by rintro a rfl; simp

/-- `buffer[0] = x[0]; return A.dot(buffer)`, where `buffer` has address 5 and `A` address 6. -/
noncomputable def exTimes : MFun₁ := fun x h =>
  newArray (ndOfVec fun _ : Fin 1 => (h.block 6).val [0, 0] * (x.nd h).data [0])
    ⟨h.next, Function.update h.block 5 ⟨fun _ => (x.nd h).data [0], fun _ => false⟩⟩

theorem exTimes_computes : exTimes.Computes {5} exUConst fun v : Vec 1 => (2 : ℝ) • v := by
  intro h x h5 h6 hx hxW
  have h5' := h5 5 rfl
  obtain ⟨h6', e6⟩ := h6 6 rfl
  refine ⟨_, _, rfl, Nat.le_succ _, fun a ha hW => ?_, Or.inr (Or.inl le_rfl), Nat.lt_succ_self _, ?_⟩
  · show Function.update (Function.update h.block 5 _) h.next _ a = _
    rw [Function.update_of_ne ha.ne, Function.update_of_ne fun e => hW e]
  · funext i
    have hi : i = 0 := Subsingleton.elim _ _
    subst hi
    simp [ARef.vec, ARef.nd, ndOfVec, e6, exUConst]

/-- `return x`. -/
theorem exSame_computes : MFun₁.Computes {5} exUConst (fun x => pure x) fun v : Vec 1 => v :=
  fun h x _ _ hx _ => ⟨x, h, rfl, le_rfl, fun _ _ _ => rfl, Or.inl rfl, hx, rfl⟩

/-- `return A[0]`, the same array at every call. -/
theorem exKept_computes :
    MFun₁.Computes {5} exUConst (fun _ => pure ⟨6, [1], id⟩) fun _ : Vec 1 => ![(2 : ℝ)] := by
  intro h x _ h6 _ _
  obtain ⟨h6', e6⟩ := h6 6 rfl
  refine ⟨_, h, rfl, le_rfl, fun _ _ _ => rfl, Or.inr (Or.inr rfl), h6', ?_⟩
  funext i
  have hi : i = 0 := Subsingleton.elim _ _
  subst hi
  simp [ARef.vec, ARef.nd, e6, exUConst]

noncomputable def exUP : UPRef MFun₁ :=
  ⟨.flat [exTimes], .flat [fun x => pure x], ⟨0, [1, 1], id⟩, ⟨1, [1, 1], id⟩, ⟨2, [1], id⟩,
    ⟨3, [1, 1], id⟩⟩

noncomputable def exUPv : UParams 1 1 :=
  ⟨.flat [fun v => (2 : ℝ) • v], .flat [fun v => v], 1, 1, 1, 1⟩

theorem exUP_holds : exUP.Holds₁ {5} exUConst exUHeap exUPv where
  f := .cons exTimes_computes .nil
  g := .cons exSame_computes .nil
  Q := ⟨⟨by norm_num [exUP, exUHeap], by simp [exUP]⟩, by
    ext i j; simp [exUP, exUPv, exUHeap, ARef.mat, ARef.nd, Subsingleton.elim i j]⟩
  R := ⟨⟨by norm_num [exUP, exUHeap], by simp [exUP]⟩, by
    ext i j; simp [exUP, exUPv, exUHeap, ARef.mat, ARef.nd, Subsingleton.elim i j]⟩
  mu0 := ⟨⟨by norm_num [exUP, exUHeap], by simp [exUP]⟩, by
    ext i; simp [exUP, exUPv, exUHeap, ARef.vec, ARef.nd]⟩
  S0 := ⟨⟨by norm_num [exUP, exUHeap], by simp [exUP]⟩, by
    ext i j; simp [exUP, exUPv, exUHeap, ARef.mat, ARef.nd, Subsingleton.elim i j]⟩

/-- Filters and smoothers, plain and with square roots, on these arrays: they return. -/
example : ∃ F S G R h1 h2 h3 h4 l l',
    memAukfFilter 1 1 exUP ⟨4, [2, 1], id⟩ exUHeap = (.ok F, h1) ∧ F.NewRows (n := 1) exUHeap h1 l ∧
    memAukfSmooth 1 1 exUP ⟨4, [2, 1], id⟩ exUHeap = (.ok S, h2) ∧ S.NewRows (n := 1) exUHeap h2 l' ∧
    memSqFilter qr 1 1 exUP ⟨4, [2, 1], id⟩ exUHeap = (.ok G, h3) ∧ G.NewRows (n := 1) exUHeap h3 l ∧
    memSqSmoother qr 1 1 exUP ⟨4, [2, 1], id⟩ exUHeap = (.ok R, h4) ∧ R.NewRows (n := 1) exUHeap h4 l' := by
  have hX : (⟨4, [2, 1], id⟩ : ARef).Apart {5} exUHeap := ⟨by norm_num [exUHeap], by simp⟩
  set os := (parseObservations ((⟨4, [2, 1], id⟩ : ARef).ma exUHeap)).rows 1 with hos
  obtain ⟨⟨l, hl, -⟩, h'⟩ := C52_posDef (n := 1) (by norm_num) (u := exUPv) PosDef.one PosDef.one
    PosDef.one os (fun t _ => ⟨_, rfl⟩) (fun t _ => ⟨_, rfl⟩)
  obtain ⟨l', hl', -⟩ := h' (by
    intro e
    have : os.length = 2 := by simp [hos, MArray.rows, parseObservations, ARef.ma, MArray.atleast2d]
    rw [e] at this; simp at this)
  have hs := C40_filter_partial qr (by norm_num) (q := fun _ => 1) (by simp [exUPv]) PosDef.one PosDef.one
    PosDef.one hl
  have hs' := C40_smooth_partial qr PosDef.one PosDef.one PosDef.one hl'
  obtain ⟨_, h1, e1, -, r1, -⟩ := C109_additive_filter exUMemories exUP_holds hX
  obtain ⟨_, h2, e2, -, r2, -⟩ := C109_additive_smooth exUMemories exUP_holds hX
  obtain ⟨_, h3, e3, -, r3, -⟩ := C109_sqrt_filter (qr := qr) exUMemories exUP_holds hX
  obtain ⟨_, h4, e4, -, r4, -⟩ := C109_sqrt_smooth (qr := qr) exUMemories exUP_holds hX
  obtain ⟨F, rfl, n1⟩ := r1 l hl
  obtain ⟨S, rfl, n2⟩ := r2 l' hl'
  obtain ⟨G, rfl, n3⟩ := r3 l hs
  obtain ⟨R, rfl, n4⟩ := r4 l' hs'
  exact ⟨F, S, G, R, h1, h2, h3, h4, l, l', e1, n1, e2, n2, e3, n3, e4, n4⟩

/-- Two states and observations from a given initial state: the method returns. -/
example {σ : Type} (rng : Rng σ) (s : σ) : ∃ r h' l,
    memAukfSample rng 1 1 exUP 2 (some ⟨6, [1], id⟩) (.ok s) exUHeap = (.ok r, h') ∧
      NewSample (n := 1) (m := 1) exUHeap h' r l ∧ l.length = 2 := by
  obtain ⟨_, h1, e1, -, r1, -⟩ := C109_additive_sample (rng := rng) exUMemories exUP_holds 2
    (initial := some ⟨6, [1], id⟩) (by rintro r ⟨⟩; exact ⟨by norm_num [exUHeap], by simp⟩) (.ok s)
  obtain ⟨r, rfl, hr⟩ := r1 _ rfl
  exact ⟨r, h1, _, e1, hr, rfl⟩

/-- `filter_update` with the optional arguments: another transition function that returns the same array
at every call, another noise, a missing observation. -/
example : (⟨some fun _ => pure ⟨6, [1], id⟩, some ⟨1, [1, 1], id⟩, none, none⟩ :
      UUpdateRefs MFun₁).Holds₁ {5} exUConst exUHeap
      (⟨some fun _ => ![(2 : ℝ)], some 1, none, none⟩ : UUpdateArgs 1 1) where
  f := .some exKept_computes
  g := .none
  Q := ⟨by rintro r ⟨⟩; exact ⟨by norm_num [exUHeap], by simp⟩, congrArg some (by
    ext i j; rw [Subsingleton.elim j i, Matrix.one_apply_eq]; simp [exUHeap, ARef.mat, ARef.nd])⟩
  R := ⟨by rintro r ⟨⟩, rfl⟩

/-- `return x + w` in a new array, `return v`: the general filter. -/
example : ∃ (p : UPRef MFun₂) (P : GParams 1 1), p.Holds₂ {5} exUConst exUHeap P ∧
    (⟨4, [2, 1], id⟩ : ARef).Apart {5} exUHeap := by
  refine ⟨⟨.flat [fun x w h => newArray (ndOfVec (x.vec 1 h + w.vec 1 h)) h], .flat [fun _ v => pure v],
    exUP.Q, exUP.R, exUP.mu0, exUP.S0⟩, ⟨.flat [fun x w => x + w], .flat [fun _ v => v],
    exUPv.Q, exUPv.R, exUPv.mu0, exUPv.S0⟩, ⟨.cons ?_ .nil, .cons ?_ .nil, exUP_holds.Q, exUP_holds.R,
    exUP_holds.mu0, exUP_holds.S0⟩, ⟨by norm_num [exUHeap], by simp⟩⟩
  · intro h x w _ _ hx _ hw _
    refine ⟨_, _, rfl, Nat.le_succ _, fun a ha hW => Function.update_of_ne ha.ne _ _,
      Or.inr (Or.inr (Or.inl le_rfl)), Nat.lt_succ_self _, ?_⟩
    funext i
    have hi : i = 0 := Subsingleton.elim _ _
    subst hi
    simp [ARef.vec, ARef.nd, ndOfVec]
  · exact fun h x w _ _ hx _ hw _ => ⟨w, h, rfl, le_rfl, fun _ _ _ => rfl, Or.inr (Or.inl rfl), hw, rfl⟩

/-- `x *= 2; return x` changes only its argument, and so does a function that raises afterwards. -/
example : MFun₁.ChangesOnly ∅ (fun x h => (.ok x, ⟨h.next, Function.update h.block x.addr
      ⟨fun j => 2 * (h.block x.addr).val j, fun _ => false⟩⟩)) ∧
    MFun₁.ChangesOnly ∅ (fun x h => (.error .typeError, ⟨h.next, Function.update h.block x.addr
      ⟨fun j => 2 * (h.block x.addr).val j, fun _ => false⟩⟩)) :=
  ⟨fun _ _ => ⟨le_rfl, fun _ _ _ hx => Function.update_of_ne hx _ _⟩,
    fun _ _ => ⟨le_rfl, fun _ _ _ hx => Function.update_of_ne hx _ _⟩⟩

end Verif
