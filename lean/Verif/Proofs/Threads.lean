import Verif.Spec.Threads
import Verif.Proofs.Session
import Mathlib.Logic.Relation
import Mathlib.Algebra.BigOperators.Group.Finset.Basic
import Mathlib.Algebra.Order.BigOperators.Group.Finset

/-!
# Interleaved calls: helper lemmas for C85
-/

open Matrix Relation

namespace Verif

variable {n m : ℕ} {α ι : Type}

/-! ### Programs on one object -/

/-- The program uses the object `o` only. -/
def Prog.On (o : ℕ) : Prog α → Prop
  | .ret _ => True
  | .get o' _ k => o' = o ∧ ∀ v, (k v).On o
  | .set o' _ _ k => o' = o ∧ k.On o

/-- The program assigns to no attribute of the object `o`. -/
def Prog.Spares (o : ℕ) : Prog α → Prop
  | .ret _ => True
  | .get _ _ k => ∀ v, (k v).Spares o
  | .set o' _ _ k => o' ≠ o ∧ k.Spares o

/-- The program ends after at most `N` steps. -/
def Prog.Within : Prog α → ℕ → Prop
  | .ret _, _ => True
  | .get _ _ _, 0 => False
  | .get _ _ k, N + 1 => ∀ v, (k v).Within N
  | .set _ _ _ _, 0 => False
  | .set _ _ _ k, N + 1 => k.Within N

/-- The result of a program on one object when it runs alone, and the object afterwards. -/
def Prog.alone : Prog α → KF → α × KF
  | .ret a, x => (a, x)
  | .get _ f k, x => (k (x.getAttr f)).alone x
  | .set _ f v k, x => k.alone (x.setAttr f v)

theorem Prog.On.spares {o o' : ℕ} (hne : o ≠ o') : ∀ {P : Prog α}, P.On o → P.Spares o'
  | .ret _, _ => trivial
  | .get _ _ _, h => fun v => On.spares hne (h.2 v)
  | .set _ _ _ _, h => ⟨fun e => hne (h.1.symm.trans e), On.spares hne h.2⟩

theorem Prog.Within.mono {N N' : ℕ} (h : N ≤ N') {P : Prog α} (hP : P.Within N) : P.Within N' := by
  induction P generalizing N N' with
  | ret _ => trivial
  | get _ _ k ih =>
    cases N with
    | zero => exact hP.elim
    | succ N =>
      obtain ⟨M, rfl⟩ : ∃ M, N' = M + 1 := ⟨N' - 1, by omega⟩
      exact fun v => ih v (by omega) (hP v)
  | set _ _ _ k ih =>
    cases N with
    | zero => exact hP.elim
    | succ N =>
      obtain ⟨M, rfl⟩ : ∃ M, N' = M + 1 := ⟨N' - 1, by omega⟩
      exact ih (by omega) hP

/-! ### Runs -/

variable [DecidableEq ι]

/-- What the thread `i` computes on the object `o` is not changed by a step of any thread, if no other
thread assigns to `o`. -/
theorem TStep.undisturbed {s s' : (ι → Prog α) × Objects} (st : TStep s s') {i : ι} {o : ℕ}
    (hi : (s.1 i).On o) (hj : ∀ j, j ≠ i → (s.1 j).Spares o) :
    (s'.1 i).On o ∧ (∀ j, j ≠ i → (s'.1 j).Spares o) ∧
      (s'.1 i).alone (s'.2 o) = (s.1 i).alone (s.2 o) := by
  cases st with
  | @get pool h i' o' f k hk =>
    dsimp only at hi hj ⊢
    by_cases e : i' = i
    · subst e
      rw [hk] at hi
      obtain ⟨rfl, hon⟩ := hi
      refine ⟨by simpa using hon _, fun j hne => by simpa [hne] using hj j hne, ?_⟩
      rw [Function.update_self, hk]
      rfl
    · refine ⟨by simpa [Ne.symm e] using hi, fun j hne => ?_, by simp [Ne.symm e]⟩
      by_cases e' : j = i'
      · subst e'
        have := hj j hne
        rw [hk] at this
        simpa using this _
      · simpa [e'] using hj j hne
  | @set pool h i' o' f v k hk =>
    dsimp only at hi hj ⊢
    by_cases e : i' = i
    · subst e
      rw [hk] at hi
      obtain ⟨rfl, hon⟩ := hi
      refine ⟨by simpa using hon, fun j hne => by simpa [hne] using hj j hne, ?_⟩
      rw [Function.update_self, Function.update_self, hk]
      rfl
    · have hs := hj i' e
      rw [hk] at hs
      refine ⟨by simpa [Ne.symm e] using hi, fun j hne => ?_, ?_⟩
      · by_cases e' : j = i'
        · subst e'
          simpa using hs.2
        · simpa [e'] using hj j hne
      · rw [Function.update_of_ne (Ne.symm e), Function.update_of_ne (Ne.symm hs.1)]

theorem runs_undisturbed {s s' : (ι → Prog α) × Objects} (st : ReflTransGen TStep s s') {i : ι}
    {o : ℕ} (hi : (s.1 i).On o) (hj : ∀ j, j ≠ i → (s.1 j).Spares o) :
    (s'.1 i).On o ∧ (∀ j, j ≠ i → (s'.1 j).Spares o) ∧
      (s'.1 i).alone (s'.2 o) = (s.1 i).alone (s.2 o) := by
  induction st with
  | refl => exact ⟨hi, hj, rfl⟩
  | tail _ st ih =>
    obtain ⟨a, b, c⟩ := st.undisturbed ih.1 ih.2.1
    exact ⟨a, b, c.trans ih.2.2⟩

/-- An object that no thread assigns to stays as it is. -/
theorem TStep.spared {s s' : (ι → Prog α) × Objects} (st : TStep s s') {o : ℕ}
    (hj : ∀ j, (s.1 j).Spares o) : (∀ j, (s'.1 j).Spares o) ∧ s'.2 o = s.2 o := by
  cases st with
  | @get pool h i o' f k hk =>
    have := hj i
    dsimp only at this hj ⊢
    rw [hk] at this
    refine ⟨fun j => ?_, rfl⟩
    by_cases e : j = i
    · subst e; simpa using this _
    · simpa [e] using hj j
  | @set pool h i o' f v k hk =>
    have := hj i
    dsimp only at this hj ⊢
    rw [hk] at this
    refine ⟨fun j => ?_, by rw [Function.update_of_ne (Ne.symm this.1)]⟩
    by_cases e : j = i
    · subst e; simpa using this.2
    · simpa [e] using hj j

theorem runs_spared {s s' : (ι → Prog α) × Objects} (st : ReflTransGen TStep s s') {o : ℕ}
    (hj : ∀ j, (s.1 j).Spares o) : (∀ j, (s'.1 j).Spares o) ∧ s'.2 o = s.2 o := by
  induction st with
  | refl => exact ⟨hj, rfl⟩
  | tail _ st ih =>
    obtain ⟨a, b⟩ := st.spared ih.1
    exact ⟨a, b.trans ih.2⟩

/-! ### Values seen by readers -/

/-- Started on the object `x`, the program assigns only values in `S`. -/
def Prog.Assigns (S : (f : Attr) → f.Ty → Prop) : Prog α → KF → Prop
  | .ret _, _ => True
  | .get _ f k, x => (k (x.getAttr f)).Assigns S x
  | .set _ f v k, x => S f v ∧ k.Assigns S (x.setAttr f v)

/-- If all values read are in `S`, the result satisfies `post`. -/
def Prog.Ensures (S : (f : Attr) → f.Ty → Prop) (post : α → Prop) : Prog α → Prop
  | .ret a => post a
  | .get _ f k => ∀ v, S f v → (k v).Ensures S post
  | .set _ _ _ _ => False

theorem getAttr_setAttr (S : (f : Attr) → f.Ty → Prop) (x : KF) (f : Attr) (v : f.Ty) (hv : S f v)
    (hx : ∀ g, S g (x.getAttr g)) : ∀ g, S g ((x.setAttr f v).getAttr g) := by
  intro g
  cases f <;> cases g <;> first | exact hv | exact hx _

theorem TStep.mixture {s s' : (ι → Prog α) × Objects} (st : TStep s s') {w i : ι} {o : ℕ}
    (hwi : w ≠ i) {S : (f : Attr) → f.Ty → Prop} {post : α → Prop}
    (hw : (s.1 w).On o) (hj : ∀ j, j ≠ w → (s.1 j).Spares o) (hS : ∀ f, S f ((s.2 o).getAttr f))
    (ha : (s.1 w).Assigns S (s.2 o)) (hi : (s.1 i).On o) (he : (s.1 i).Ensures S post) :
    (∀ f, S f ((s'.2 o).getAttr f)) ∧ (s'.1 w).Assigns S (s'.2 o) ∧ (s'.1 i).On o ∧
      (s'.1 i).Ensures S post := by
  cases st with
  | @get pool h i' o' f k hk =>
    dsimp only at hw hj hS ha hi he ⊢
    refine ⟨hS, ?_, ?_, ?_⟩
    · by_cases e : i' = w
      · subst e
        rw [hk] at hw ha
        obtain ⟨rfl, -⟩ := hw
        rw [Function.update_self]
        exact ha
      · simpa [Ne.symm e] using ha
    · by_cases e : i' = i
      · subst e
        rw [hk] at hi
        simpa using hi.2 _
      · simpa [Ne.symm e] using hi
    · by_cases e : i' = i
      · subst e
        rw [hk] at hi he
        obtain ⟨rfl, -⟩ := hi
        simpa using he _ (hS f)
      · simpa [Ne.symm e] using he
  | @set pool h i' o' f v k hk =>
    dsimp only at hw hj hS ha hi he ⊢
    have hne : i' ≠ i := fun e => by subst e; rw [hk] at he; exact he
    by_cases e : i' = w
    · subst e
      rw [hk] at hw ha
      obtain ⟨rfl, -⟩ := hw
      refine ⟨?_, ?_, by simpa [Ne.symm hne] using hi, by simpa [Ne.symm hne] using he⟩
      · rw [Function.update_self]
        exact getAttr_setAttr S _ f v ha.1 hS
      · rw [Function.update_self, Function.update_self]
        exact ha.2
    · have hs := hj i' e
      rw [hk] at hs
      rw [Function.update_of_ne (Ne.symm hs.1), Function.update_of_ne (Ne.symm e),
        Function.update_of_ne (Ne.symm hne)]
      exact ⟨hS, ha, hi, he⟩

theorem runs_mixture {s s' : (ι → Prog α) × Objects} (st : ReflTransGen TStep s s') {w i : ι}
    {o : ℕ} (hwi : w ≠ i) {S : (f : Attr) → f.Ty → Prop} {post : α → Prop}
    (hw : (s.1 w).On o) (hj : ∀ j, j ≠ w → (s.1 j).Spares o) (hS : ∀ f, S f ((s.2 o).getAttr f))
    (ha : (s.1 w).Assigns S (s.2 o)) (hi : (s.1 i).On o) (he : (s.1 i).Ensures S post) :
    (s'.1 i).Ensures S post := by
  suffices h : (∀ f, S f ((s'.2 o).getAttr f)) ∧ (s'.1 w).Assigns S (s'.2 o) ∧ (s'.1 i).On o ∧
      (s'.1 i).Ensures S post from h.2.2.2
  induction st with
  | refl => exact ⟨hS, ha, hi, he⟩
  | tail run st ih =>
    obtain ⟨a, b, -⟩ := runs_undisturbed run hw hj
    exact st.mixture hwi a b ih.1 ih.2.1 ih.2.2.1 ih.2.2.2

/-! ### Number of steps -/

theorem TStep.within [Fintype ι] {s s' : (ι → Prog α) × Objects} (st : TStep s s') {N : ι → ℕ}
    (h : ∀ i, (s.1 i).Within (N i)) :
    ∃ N' : ι → ℕ, (∀ i, (s'.1 i).Within (N' i)) ∧ ∑ i, N i = ∑ i, N' i + 1 := by
  have key : ∀ i, 1 ≤ N i → ∑ j, N j = ∑ j, Function.update N i (N i - 1) j + 1 := by
    intro i hi
    rw [Finset.sum_update_of_mem (Finset.mem_univ i),
      ← Finset.add_sum_erase _ _ (Finset.mem_univ i), Finset.sdiff_singleton_eq_erase]
    omega
  cases st with
  | @get pool h' i o' f k hk =>
    dsimp only at h ⊢
    have hi := h i
    rw [hk] at hi
    obtain ⟨M, hM⟩ : ∃ M, N i = M + 1 := by
      cases e : N i with
      | zero => rw [e] at hi; exact hi.elim
      | succ M => exact ⟨M, rfl⟩
    rw [hM] at hi
    refine ⟨Function.update N i (N i - 1), fun j => ?_, key i (by omega)⟩
    by_cases e : j = i
    · subst e; simpa [hM] using hi _
    · simpa [e] using h j
  | @set pool h' i o' f v k hk =>
    dsimp only at h ⊢
    have hi := h i
    rw [hk] at hi
    obtain ⟨M, hM⟩ : ∃ M, N i = M + 1 := by
      cases e : N i with
      | zero => rw [e] at hi; exact hi.elim
      | succ M => exact ⟨M, rfl⟩
    rw [hM] at hi
    refine ⟨Function.update N i (N i - 1), fun j => ?_, key i (by omega)⟩
    by_cases e : j = i
    · subst e
      rw [Function.update_self, Function.update_self, hM]
      exact hi
    · simpa [e] using h j

theorem stuck_iff (s : (ι → Prog α) × Objects) :
    (∀ s', ¬ TStep s s') ↔ ∀ i, ∃ a, s.1 i = .ret a := by
  obtain ⟨pool, h⟩ := s
  constructor
  · intro hs i
    cases hi : pool i with
    | ret a => exact ⟨a, hi⟩
    | get o f k => exact (hs _ (.get h i hi)).elim
    | set o f v k => exact (hs _ (.set h i hi)).elim
  · intro hs s' st
    cases st with
    | get _ i hi => obtain ⟨a, ha⟩ := hs i; dsimp only at ha; rw [ha] at hi; cases hi
    | set _ i hi => obtain ⟨a, ha⟩ := hs i; dsimp only at ha; rw [ha] at hi; cases hi

/-! ### The calls -/

theorem typed_ndOf (p : Params n m) :
    Resolved.typed ⟨ndOfMats p.A, ndOfVecs p.b, ndOfMats p.Q, ndOfMats p.C, ndOfVecs p.d,
      ndOfMats p.R, ndOfVec p.mu0, ndOfMat p.S0⟩ n m = some p := by
  have hm {k l : ℕ} (M : TV (Mat k l)) : (ndOfMats M).toMats k l = some M := by
    have := (MatArg.ofMats (eyeMat k l) M).toMats (ndEye_toMats_eyeMat k l)
    cases M <;> exact this
  have hv {k : ℕ} (v : TV (Vec k)) : (ndOfVecs v).toVecs k = some v := by
    have := (VecArg.ofVecs v).toVecs
    cases v <;> exact this
  have h7 : (ndOfVec p.mu0).toVec n = some p.mu0 := toVec_of_toVecs (hv (.const p.mu0))
  have h8 : (ndOfMat p.S0).toMat n n = some p.S0 := toMat_of_toMats (hm (.const p.S0))
  simp only [Resolved.typed, hm, hv, h7, h8, bind, Option.bind, pure]

theorem toMats_ndOfMats {k l : ℕ} (M : TV (Mat k l)) : (ndOfMats M).toMats k l = some M := by
  have := (MatArg.ofMats (eyeMat k l) M).toMats (ndEye_toMats_eyeMat k l)
  cases M <;> exact this

theorem toVecs_ndOfVecs {k : ℕ} (v : TV (Vec k)) : (ndOfVecs v).toVecs k = some v := by
  have := (VecArg.ofVecs v).toVecs
  cases v <;> exact this

theorem stats_eq (cls : KFClass) (qr : QR) (p : Params n m) (os : List (Obs m)) :
    cls.stats qr id p os = (do
      let steps ← cls.steps qr p os
      smoothStats p.A steps) := by
  cases cls with
  | standard => rfl
  | cholesky =>
    simp only [KFClass.stats, KFClass.steps, cholStats, smoothStats, bind, Except.bind, pure,
      Except.pure]
    cases cholFull qr p os <;> rfl
  | bierman =>
    simp only [KFClass.stats, KFClass.steps, bierStats, smoothStats, bind, Except.bind, pure,
      Except.pure]
    cases bierFull id p os <;> rfl

theorem steps_or (cls : KFClass) (qr : QR) (given : Params n m) (vars : EmVar → Bool)
    (os : List (Obs m)) (p : Params n m) :
    (do
      let ss ← cls.stats qr id p os
      emStep given vars p ss os : Res (Params n m))
    = match cls.steps qr p os with
      | .error e => .error e
      | .ok steps => match smoothStats p.A steps with
        | .error e => .error e
        | .ok ss => emStep given vars p ss os := by
  rw [stats_eq]
  simp only [bind, Except.bind]
  cases cls.steps qr p os with
  | error e => rfl
  | ok steps =>
    dsimp only
    cases smoothStats p.A steps <;> rfl

/-- The iterations of `em`, run alone. -/
theorem emIterations_alone (cls : KFClass) (qr : QR) (o : ℕ) (given : Params n m)
    (vars : EmVar → Bool) (os : List (Obs m)) (x : KF) : ∀ (j : ℕ) (p : Params n m),
    (emIterations cls qr o given vars os j).alone (x.setParams p)
      = (.fitted (emIterate cls qr given vars os j id p).2,
        x.setParams (emIterate cls qr given vars os j id p).1) := by
  intro j
  induction j with
  | zero => intro p; rfl
  | succ j ih =>
    intro p
    have hstep := steps_or cls qr given vars os p
    have e1 : ∀ k : Option Resolved → Prog TResult, (readParams o k).alone (x.setParams p)
        = (k (some ⟨ndOfMats p.A, ndOfVecs p.b, ndOfMats p.Q, ndOfMats p.C, ndOfVecs p.d,
          ndOfMats p.R, ndOfVec p.mu0, ndOfMat p.S0⟩)).alone (x.setParams p) := fun _ => rfl
    rw [emIterations, e1]
    simp only [Option.bind_some, typed_ndOf]
    cases h1 : cls.steps qr p os with
    | error e =>
      rw [h1] at hstep
      simp only [emIterate, hstep, Prog.alone]
    | ok steps =>
      rw [h1] at hstep
      simp only [Prog.alone]
      have e2 : Option.bind ((x.setParams p).getAttr .transitionMatrices : Option NDArray)
          (NDArray.toMats n n) = some p.A := toMats_ndOfMats p.A
      simp only [e2]
      cases h2 : smoothStats p.A steps with
      | error e =>
        simp only [h2] at hstep
        simp only [emIterate, hstep, Prog.alone]
      | ok ss =>
        simp only [h2] at hstep
        simp only [Prog.alone]
        have e3 : Option.bind ((x.setParams p).getAttr .transitionOffsets : Option NDArray)
            (NDArray.toVecs n) = some p.b := toVecs_ndOfVecs p.b
        have e4 : Option.bind ((x.setParams p).getAttr .observationOffsets : Option NDArray)
            (NDArray.toVecs m) = some p.d := toVecs_ndOfVecs p.d
        simp only [e3, e4]
        cases h3 : emStep given vars p ss os with
        | error e =>
          rw [h3] at hstep
          simp only [emIterate, hstep, Prog.alone]
        | ok p' =>
          rw [h3] at hstep
          simp only [emIterate, hstep, ite_self]
          exact ih p'

theorem initialize_unread (k : KF) (e : EmNames) :
    KF.initialize { k with emVars' := e } = k.initialize := rfl

/-- `em`, run alone. -/
theorem emProg_alone (cls : KFClass) (qr : QR) (o : ℕ) (X : MArray) (nIter : ℕ)
    (arg : Option EmNames) (x : KF) :
    match x.emEffect cls qr id X nIter arg with
    | some (k, e) => (emProg cls qr o X nIter arg).alone x = (.fitted e, k)
    | none => ((emProg cls qr o X nIter arg).alone x).1 = .outside := by
  have e1 : ∀ k : KF → Prog TResult, (getParams o k).alone x
      = (k { x with emVars' := defaultEmNames }).alone x := fun _ => rfl
  rw [emProg, e1]
  simp only [KF.emEffect, initialize_unread]
  cases x.initialize with
  | error e => rfl
  | ok r =>
    dsimp only
    cases r.typed x.nDimState x.nDimObs with
    | none => rfl
    | some p =>
      dsimp only
      have e2 : ∀ k : Prog TResult, (assignFirst o p k).alone x = k.alone (x.setParams p) :=
        fun _ => rfl
      rw [e2]
      by_cases hs : (parseObservations X).shape.drop 1 = [x.nDimObs]
      · simp only [if_pos hs]
        obtain ⟨names, h1, h2⟩ : ∃ names, (∀ k : Option EmNames → Prog TResult,
            (readNames cls o arg k).alone (x.setParams p) = (k names).alone (x.setParams p)) ∧
            emSelection names = (x.setParams p).selectionOf cls arg := by
          cases arg with
          | some e => exact ⟨some e, fun _ => rfl, by cases cls <;> rfl⟩
          | none =>
            cases cls with
            | standard => exact ⟨some x.emVars', fun _ => rfl, rfl⟩
            | cholesky => exact ⟨x.emVars, fun _ => rfl, rfl⟩
            | bierman => exact ⟨x.emVars, fun _ => rfl, rfl⟩
        rw [← h2]
        cases h3 : emSelection names with
        | error e =>
          dsimp only
          rw [h1, h3]
          rfl
        | ok vars =>
          dsimp only
          rw [h1, h3]
          have e4 : ∀ k : Option Resolved → Prog TResult, (readGiven o k).alone (x.setParams p)
              = (k (some ⟨ndOfMats p.A, ndOfVecs p.b, ndOfMats p.Q, ndOfMats p.C, ndOfVecs p.d,
                ndOfMats p.R, ndOfVec p.mu0, ndOfMat p.S0⟩)).alone (x.setParams p) := fun _ => rfl
          dsimp only
          rw [e4]
          simp only [Option.bind_some, typed_ndOf]
          exact emIterations_alone cls qr o p vars _ x nIter p
      · simp only [if_neg hs]
        rfl

theorem getParams_on {o : ℕ} {k : KF → Prog α} (h : ∀ x, (k x).On o) : (getParams o k).On o := by
  simp only [getParams, Prog.On, true_and]
  intros
  exact h _

theorem emIterations_on (cls : KFClass) (qr : QR) (o : ℕ) (given : Params n m)
    (vars : EmVar → Bool) (os : List (Obs m)) (j : ℕ) :
    (emIterations cls qr o given vars os j).On o := by
  induction j with
  | zero => trivial
  | succ j ih =>
    simp only [emIterations, readParams, Prog.On, true_and]
    intros
    split
    · trivial
    · split
      · trivial
      · simp only [Prog.On, true_and]
        intros
        split
        · trivial
        · split
          · trivial
          · simp only [Prog.On, true_and]
            intros
            split
            · split
              · trivial
              · simp only [assignAfter, Prog.On, true_and]
                exact ih
            · trivial

theorem emProg_on (cls : KFClass) (qr : QR) (o : ℕ) (X : MArray) (nIter : ℕ)
    (arg : Option EmNames) : (emProg cls qr o X nIter arg).On o := by
  unfold emProg
  dsimp only
  refine getParams_on fun k => ?_
  split
  · trivial
  · split
    · trivial
    · simp only [assignFirst, Prog.On, true_and]
      split
      · have key : ∀ names : Option EmNames, Prog.On o (match emSelection names with
            | .error e => .ret (.fitted (some e))
            | .ok vars =>
              readGiven o fun g =>
              match g.bind (Resolved.typed · k.nDimState k.nDimObs) with
              | none => .ret .outside
              | some given => emIterations cls qr o given vars
                  ((parseObservations X).rows k.nDimObs) nIter) := by
          intro names
          split
          · trivial
          · simp only [readGiven, Prog.On, true_and]
            intros
            split
            · trivial
            · exact emIterations_on ..
        unfold readNames
        split
        · exact key _
        · split
          · exact ⟨rfl, fun _ => key _⟩
          · exact ⟨rfl, fun _ => key _⟩
      · trivial

theorem TCall.prog_reads (cls : KFClass) (qr : QR) (o : ℕ) {c : TCall} (hc : ¬ c.IsEm) :
    c.prog cls qr o = getParams o fun k => .ret (k.computed cls qr c) := by
  cases c with
  | em X nIter arg => exact (hc trivial).elim
  | _ => rfl

theorem TCall.prog_on (cls : KFClass) (qr : QR) (o : ℕ) (c : TCall) : (c.prog cls qr o).On o := by
  by_cases hc : c.IsEm
  · cases c with
    | em X nIter arg => exact emProg_on ..
    | _ => exact hc.elim
  · rw [TCall.prog_reads cls qr o hc]
    exact getParams_on (k := fun k => .ret _) fun _ => trivial

theorem emIterations_within (cls : KFClass) (qr : QR) (o : ℕ) (given : Params n m)
    (vars : EmVar → Bool) (os : List (Obs m)) (j : ℕ) :
    (emIterations cls qr o given vars os j).Within (19 * j) := by
  induction j with
  | zero => trivial
  | succ j ih =>
    rw [show 19 * (j + 1) = 19 * j + 19 by ring]
    simp only [emIterations, readParams, Prog.Within]
    intros
    split
    · trivial
    · split
      · trivial
      · simp only [Prog.Within]
        intros
        split
        · trivial
        · split
          · trivial
          · simp only [Prog.Within]
            intros
            split
            · split
              · trivial
              · simp only [assignAfter, Prog.Within]
                exact ih
            · trivial

theorem readNames_within (cls : KFClass) (o : ℕ) (arg : Option EmNames) {N : ℕ}
    {k : Option EmNames → Prog α} (h : ∀ names, (k names).Within N) :
    (readNames cls o arg k).Within (N + 1) := by
  unfold readNames
  split
  · exact (h _).mono (by omega)
  · split
    · exact fun _ => h _
    · exact fun _ => h _

theorem emProg_within (cls : KFClass) (qr : QR) (o : ℕ) (X : MArray) (nIter : ℕ)
    (arg : Option EmNames) : (emProg cls qr o X nIter arg).Within (19 * nIter + 31) := by
  simp only [emProg, getParams, Prog.Within]
  intros
  split
  · trivial
  · split
    · trivial
    · simp only [assignFirst, Prog.Within]
      split
      · refine readNames_within cls o arg (N := 19 * nIter + 8) fun names => ?_
        split
        · trivial
        · simp only [readGiven, Prog.Within]
          intros
          split
          · trivial
          · exact emIterations_within ..
      · trivial

theorem TCall.prog_spares (cls : KFClass) (qr : QR) (o o' : ℕ) {c : TCall}
    (h : c.IsEm → o ≠ o') : (c.prog cls qr o).Spares o' := by
  by_cases hc : c.IsEm
  · exact (c.prog_on cls qr o).spares (h hc)
  · rw [TCall.prog_reads cls qr o hc]
    simp only [getParams, Prog.Spares]
    intros
    trivial

theorem getParams_ensures (o : ℕ) (S : (f : Attr) → f.Ty → Prop) (F : KF → α) :
    (getParams o fun k => Prog.ret (F k)).Ensures S fun r =>
      ∃ k : KF, (∀ f, f ≠ .emVars' → S f (k.getAttr f)) ∧ r = F k := by
  intro _ _ _ _ A hA C hC Q hQ R hR b hb d hd mu0 hmu S0 hS0 rs hrs ev hev n hn m hm
  refine ⟨⟨A, C, Q, R, b, d, mu0, S0, rs, ev, n, m, defaultEmNames⟩, fun f hf => ?_, rfl⟩
  cases f <;> first | assumption | exact absurd rfl hf

theorem emIterations_assigns (cls : KFClass) (qr : QR) (o : ℕ) (given : Params n m)
    (vars : EmVar → Bool) (os : List (Obs m)) (x : KF) (S : (f : Attr) → f.Ty → Prop) :
    ∀ (j : ℕ) (p : Params n m), (∀ i ≤ j, ∀ q, runOf cls qr given vars os i id p = .ok q →
      ∀ f, S f ((x.setParams q).getAttr f)) →
    (emIterations cls qr o given vars os j).Assigns S (x.setParams p) := by
  intro j
  induction j with
  | zero => intro p _; trivial
  | succ j ih =>
    intro p hS
    have hstep := steps_or cls qr given vars os p
    have e1 : ∀ k : Option Resolved → Prog TResult, (readParams o k).Assigns S (x.setParams p)
        = (k (some ⟨ndOfMats p.A, ndOfVecs p.b, ndOfMats p.Q, ndOfMats p.C, ndOfVecs p.d,
          ndOfMats p.R, ndOfVec p.mu0, ndOfMat p.S0⟩)).Assigns S (x.setParams p) := fun _ => rfl
    rw [emIterations, e1]
    simp only [Option.bind_some, typed_ndOf]
    cases h1 : cls.steps qr p os with
    | error e => trivial
    | ok steps =>
      rw [h1] at hstep
      simp only [Prog.Assigns]
      have e2 : Option.bind ((x.setParams p).getAttr .transitionMatrices : Option NDArray)
          (NDArray.toMats n n) = some p.A := toMats_ndOfMats p.A
      simp only [e2]
      cases h2 : smoothStats p.A steps with
      | error e => trivial
      | ok ss =>
        simp only [h2] at hstep
        simp only [Prog.Assigns]
        have e3 : Option.bind ((x.setParams p).getAttr .transitionOffsets : Option NDArray)
            (NDArray.toVecs n) = some p.b := toVecs_ndOfVecs p.b
        have e4 : Option.bind ((x.setParams p).getAttr .observationOffsets : Option NDArray)
            (NDArray.toVecs m) = some p.d := toVecs_ndOfVecs p.d
        simp only [e3, e4]
        cases h3 : emStep given vars p ss os with
        | error e => trivial
        | ok p' =>
          rw [h3] at hstep
          have hr : ∀ i, runOf cls qr given vars os (i + 1) id p
              = runOf cls qr given vars os i id p' := by
            intro i
            rw [runOf_succ, hstep, ite_self]
            rfl
          have h1 := hS 1 (by omega) p' (by rw [hr 0, runOf_zero])
          refine ⟨h1 .transitionMatrices, h1 .observationMatrices, h1 .transitionOffsets,
            h1 .observationOffsets, h1 .transitionCovariance, h1 .observationCovariance,
            h1 .initialStateMean, h1 .initialStateCovariance, ?_⟩
          exact ih p' fun i hi q hq => hS (i + 1) (by omega) q (by rw [hr i, hq])

theorem emProg_assigns {a : KFArgs} {p : Params n m} (h : a.Means p) {X : MArray}
    {os : List (Obs m)} (hX : DataArg X os) (cls : KFClass) (qr : QR) (o : ℕ) (nIter : ℕ)
    {arg : Option EmNames} {e : EmNames} (he : ChosenNames cls a.emVars arg e)
    {vars : EmVar → Bool} (hv : Selects e vars) (S : (f : Attr) → f.Ty → Prop)
    (hS : ∀ i ≤ nIter, ∀ q, cls.iterations qr id p os vars i = .ok q →
      ∀ f, S f (((a.object n m).setParams q).getAttr f)) :
    (emProg cls qr o X nIter arg).Assigns S (a.object n m) := by
  obtain ⟨r, hr1, hr2⟩ := h.initialize
  obtain ⟨hx1, hx2⟩ := hX.parse
  have e1 : ∀ k : KF → Prog TResult, (getParams o k).Assigns S (a.object n m)
      = (k { a.object n m with emVars' := defaultEmNames }).Assigns S (a.object n m) := fun _ => rfl
  rw [emProg, e1]
  simp only [initialize_unread, hr1]
  have hr2' : r.typed (a.object n m).nDimState (a.object n m).nDimObs = some p := hr2
  simp only [hr2']
  have h0 := hS 0 (by omega) p (by rw [iterations_eq_runOf, runOf_zero])
  refine ⟨h0 .transitionMatrices, h0 .transitionOffsets, h0 .transitionCovariance,
    h0 .observationMatrices, h0 .observationOffsets, h0 .observationCovariance,
    h0 .initialStateMean, h0 .initialStateCovariance, ?_⟩
  show Prog.Assigns S _ ((a.object n m).setParams p)
  have hx1' : List.drop 1 (parseObservations X).shape = [(a.object n m).nDimObs] := hx1
  have hx2' : (parseObservations X).rows (a.object n m).nDimObs = os := hx2
  rw [if_pos hx1', hx2']
  obtain ⟨names, h1, h2⟩ : ∃ names, (∀ k : Option EmNames → Prog TResult,
      (readNames cls o arg k).Assigns S ((a.object n m).setParams p)
        = (k names).Assigns S ((a.object n m).setParams p)) ∧
      emSelection names = ((a.object n m).setParams p).selectionOf cls arg := by
    cases arg with
    | some e => exact ⟨some e, fun _ => rfl, by cases cls <;> rfl⟩
    | none =>
      cases cls with
      | standard => exact ⟨some (a.object n m).emVars', fun _ => rfl, rfl⟩
      | cholesky => exact ⟨(a.object n m).emVars, fun _ => rfl, rfl⟩
      | bierman => exact ⟨(a.object n m).emVars, fun _ => rfl, rfl⟩
  rw [h1]
  rw [KFArgs.selectionOf_withParams, KFArgs.selectionOf he hv] at h2
  rw [h2]
  have e4 : ∀ k : Option Resolved → Prog TResult,
      (readGiven o k).Assigns S ((a.object n m).setParams p)
      = (k (some ⟨ndOfMats p.A, ndOfVecs p.b, ndOfMats p.Q, ndOfMats p.C, ndOfVecs p.d,
        ndOfMats p.R, ndOfVec p.mu0, ndOfMat p.S0⟩)).Assigns S ((a.object n m).setParams p) :=
    fun _ => rfl
  dsimp only
  rw [e4]
  have e5 : Option.bind (some (⟨ndOfMats p.A, ndOfVecs p.b, ndOfMats p.Q, ndOfMats p.C,
      ndOfVecs p.d, ndOfMats p.R, ndOfVec p.mu0, ndOfMat p.S0⟩ : Resolved))
      (Resolved.typed · (a.object n m).nDimState (a.object n m).nDimObs) = some p := typed_ndOf p
  rw [e5]
  refine emIterations_assigns cls qr o p vars os (a.object n m) S nIter p fun i hi q hq => ?_
  exact hS i hi q (by rw [iterations_eq_runOf, hq])

/-! ### Running one thread -/

theorem alone_run (i : ι) {o : ℕ} : ∀ (P : Prog α), P.On o →
    ∀ pool h, pool i = P → ReflTransGen TStep (pool, h)
      (Function.update pool i (.ret (P.alone (h o)).1), Function.update h o (P.alone (h o)).2) := by
  intro P
  induction P with
  | ret a =>
    intro _ pool h hp
    have : Function.update pool i (.ret a) = pool := by rw [← hp, Function.update_eq_self]
    simp only [Prog.alone, this, Function.update_eq_self]
    exact .refl
  | get o' f k ih =>
    intro hon pool h hp
    obtain ⟨rfl, hon⟩ := hon
    refine .head (.get h i hp) ?_
    have := ih (h o' |>.getAttr f) (hon _) (Function.update pool i (k ((h o').getAttr f))) h
      (Function.update_self ..)
    rw [Function.update_idem] at this
    exact this
  | set o' f v k ih =>
    intro hon pool h hp
    obtain ⟨rfl, hon⟩ := hon
    refine .head (.set h i hp) ?_
    have := ih hon (Function.update pool i k) (Function.update h o' ((h o').setAttr f v))
      (Function.update_self ..)
    rw [Function.update_idem, Function.update_idem, Function.update_self] at this
    exact this

theorem TRun.reflTransGen {N : ℕ} {s s' : (ι → Prog α) × Objects} (r : TRun N s s') :
    ReflTransGen TStep s s' := by
  induction r with
  | start => exact .refl
  | step _ st ih => exact .tail ih st

theorem exists_run {s s' : (ι → Prog α) × Objects} (r : ReflTransGen TStep s s') :
    ∃ N, TRun N s s' := by
  induction r with
  | refl => exact ⟨0, .start _⟩
  | tail _ st ih => obtain ⟨N, h⟩ := ih; exact ⟨N + 1, .step h st⟩

theorem TRun.within [Fintype ι] {k : ℕ} {s s' : (ι → Prog α) × Objects} (r : TRun k s s')
    {N : ι → ℕ} (h : ∀ i, (s.1 i).Within (N i)) :
    ∃ N' : ι → ℕ, (∀ i, (s'.1 i).Within (N' i)) ∧ ∑ i, N i = ∑ i, N' i + k := by
  induction r with
  | start => exact ⟨N, h, rfl⟩
  | step _ st ih =>
    obtain ⟨N', h1, h2⟩ := ih h
    obtain ⟨N'', h3, h4⟩ := st.within h1
    exact ⟨N'', h3, by omega⟩

theorem exists_finish [Fintype ι] (s : (ι → Prog α) × Objects) {N : ι → ℕ}
    (h : ∀ i, (s.1 i).Within (N i)) :
    ∃ s', ReflTransGen TStep s s' ∧ ∀ i, ∃ a, s'.1 i = .ret a := by
  obtain ⟨K, hK⟩ : ∃ K, K = ∑ i, N i := ⟨_, rfl⟩
  induction K using Nat.strong_induction_on generalizing s N with
  | _ K ih =>
    by_cases hs : ∀ s', ¬ TStep s s'
    · exact ⟨s, .refl, (stuck_iff s).mp hs⟩
    · push Not at hs
      obtain ⟨s', st⟩ := hs
      obtain ⟨N', h1, h2⟩ := st.within h
      obtain ⟨s'', h3, h4⟩ := ih _ (by omega) s' h1 rfl
      exact ⟨s'', .head st h3, h4⟩

theorem computed_unread (cls : KFClass) (qr : QR) (k : KF) (e : EmNames) (c : TCall) :
    KF.computed cls qr { k with emVars' := e } c = k.computed cls qr c := by
  have hp : ∀ X, KF.prepare { k with emVars' := e } X = k.prepare X := by
    intro X
    simp only [KF.prepare, initialize_unread]
    cases k.initialize with
    | error e => rfl
    | ok r =>
      dsimp only
      cases r.typed k.nDimState k.nDimObs <;> rfl
  cases c with
  | filter X => simp only [KF.computed, KF.filterOf, hp]; cases k.prepare X <;> rfl
  | smooth X => simp only [KF.computed, KF.smoothOf, hp]; cases k.prepare X <;> rfl
  | loglikelihood X => simp only [KF.computed, KF.loglikOf, hp]
  | filterUpdate => rfl
  | em => rfl

theorem prog_alone_read (cls : KFClass) (qr : QR) (o : ℕ) {c : TCall} (hc : ¬ c.IsEm) (x : KF) :
    (c.prog cls qr o).alone x = (x.computed cls qr c, x) := by
  rw [TCall.prog_reads cls qr o hc, ← computed_unread cls qr x defaultEmNames c]
  rfl

end Verif
