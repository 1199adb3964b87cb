import Verif.Spec.Raising
import Verif.Proofs.PyFun
import Verif.Proofs.UnscentedSymmetry
import Verif.Proofs.Unscented

/-!
# Lemmas about functions that raise exceptions
-/

open Matrix

namespace Verif

variable {E α β : Type} {n m k l N : ℕ}

/-! ### Results -/

theorem okE_bind_iff {ε : Type} {x : Except ε α} {f : α → Except ε β} {y : β} :
    (x >>= f) = .ok y ↔ ∃ u, x = .ok u ∧ f u = .ok y := by
  cases x <;> simp [bind, Except.bind]

@[simp] theorem libE_ok (a : α) : (libE (.ok a) : ResE E α) = .ok a := rfl

@[simp] theorem libE_error (e : Err) : (libE (.error e) : ResE E α) = .error (.lib e) := rfl

theorem libE_bind (r : Res α) (f : α → Res β) :
    (libE (r >>= f) : ResE E β) = libE r >>= fun a => libE (f a) := by
  cases r <;> rfl

theorem libE_eq_ok {r : Res α} {a : α} : (libE r : ResE E α) = .ok a ↔ r = .ok a := by
  cases r <;> simp

theorem libE_ne_user {r : Res α} {e : E} : (libE r : ResE E α) ≠ .error (.user e) := by
  cases r <;> simp

theorem callEach_ok {r : Fin N → Except E β} {y : Fin N → β} :
    callEach r = .ok y ↔ ∀ i, r i = .ok (y i) := by
  induction N with
  | zero =>
    refine ⟨fun _ i => i.elim0, fun _ => ?_⟩
    rw [callEach]
    congr 1
    exact Subsingleton.elim _ _
  | succ N ih =>
    rw [callEach]
    constructor
    · intro h
      obtain ⟨a, ha, h⟩ := okE_bind_iff.mp h
      obtain ⟨b, hb, h⟩ := okE_bind_iff.mp h
      cases h
      have := ih.mp hb
      intro i
      refine Fin.cases ?_ (fun j => ?_) i
      · simpa using ha
      · simpa using this j
    · intro h
      have h1 : callEach (fun i : Fin N => r i.succ) = .ok fun i => y i.succ := ih.mpr fun i => h _
      simp only [h 0, h1, bind, Except.bind, pure, Except.pure]
      congr 1
      funext i
      refine Fin.cases ?_ (fun j => ?_) i <;> simp

theorem callEach_error {r : Fin N → Except E β} {e : E} (h : callEach r = .error e) :
    ∃ i, r i = .error e := by
  induction N with
  | zero => cases h
  | succ N ih =>
    rw [callEach] at h
    cases h0 : r 0 with
    | error e' =>
      rw [h0] at h
      cases h
      exact ⟨0, h0⟩
    | ok y =>
      rw [h0] at h
      simp only [bind, Except.bind] at h
      cases h1 : callEach fun i : Fin N => r i.succ with
      | error e' =>
        rw [h1] at h
        cases h
        obtain ⟨i, hi⟩ := ih h1
        exact ⟨i.succ, hi⟩
      | ok z => rw [h1] at h; cases h

theorem mapE_cases {f : Vec k → Except E (Vec l)} {F : Vec k → Vec l} (h : Continues f F)
    (s : SigmaPoints N k) :
    ((∀ i, ∃ y, f (s.points i) = .ok y) ∧ s.mapE f = .ok (s.map F)) ∨
      ∃ i e, f (s.points i) = .error e ∧ s.mapE f = .error (.user e) := by
  rw [SigmaPoints.mapE]
  cases hc : callEach fun i => f (s.points i) with
  | error e =>
    obtain ⟨i, hi⟩ := callEach_error hc
    exact .inr ⟨i, e, hi, rfl⟩
  | ok y =>
    have hy := callEach_ok.mp hc
    refine .inl ⟨fun i => ⟨_, hy i⟩, ?_⟩
    have : y = fun i => F (s.points i) := funext fun i => (h _ _ (hy i)).symm
    subst this
    rfl

theorem mapE₂_cases {q : ℕ} {f : Vec k → Vec q → Except E (Vec l)} {F : Vec k → Vec q → Vec l}
    (h : Continues₂ f F) (s : SigmaPoints N k) (w : SigmaPoints N q) :
    ((∀ i, ∃ y, f (s.points i) (w.points i) = .ok y) ∧ s.mapE₂ w f = .ok (s.map₂ w F)) ∨
      ∃ i e, f (s.points i) (w.points i) = .error e ∧ s.mapE₂ w f = .error (.user e) := by
  rw [SigmaPoints.mapE₂]
  cases hc : callEach fun i => f (s.points i) (w.points i) with
  | error e =>
    obtain ⟨i, hi⟩ := callEach_error hc
    exact .inr ⟨i, e, hi, rfl⟩
  | ok y =>
    have hy := callEach_ok.mp hc
    refine .inl ⟨fun i => ⟨_, hy i⟩, ?_⟩
    have : y = fun i => F (s.points i) (w.points i) := funext fun i => (h _ _ _ (hy i)).symm
    subst this
    rfl

theorem mapE_of_ok {f : Vec k → Except E (Vec l)} {F : Vec k → Vec l} (h : Continues f F)
    {s : SigmaPoints N k} (hs : ∀ i, ∃ y, f (s.points i) = .ok y) : s.mapE f = .ok (s.map F) := by
  rcases mapE_cases h s with ⟨-, h⟩ | ⟨i, e, h1, -⟩
  · exact h
  · obtain ⟨y, hy⟩ := hs i
    rw [h1] at hy
    cases hy

theorem mapE₂_of_ok {q : ℕ} {f : Vec k → Vec q → Except E (Vec l)} {F : Vec k → Vec q → Vec l}
    (h : Continues₂ f F) {s : SigmaPoints N k} {w : SigmaPoints N q}
    (hs : ∀ i, ∃ y, f (s.points i) (w.points i) = .ok y) : s.mapE₂ w f = .ok (s.map₂ w F) := by
  rcases mapE₂_cases h s w with ⟨-, h⟩ | ⟨i, e, h1, -⟩
  · exact h
  · obtain ⟨y, hy⟩ := hs i
    rw [h1] at hy
    cases hy

/-! ### Loops -/

theorem runLoopE_cases {σ : Type} {stepE : ℕ → Option σ → Obs m → ResE E σ}
    {step : ℕ → Option σ → Obs m → Res σ} {I : σ → Prop} {B : ℕ → Option σ → E → Prop}
    (h : ∀ t prev o, (∀ s ∈ prev, I s) →
      (stepE t prev o = libE (step t prev o) ∧ ∀ s, step t prev o = .ok s → I s) ∨
        ∃ e, stepE t prev o = .error (.user e) ∧ B t prev e)
    (os : List (Obs m)) (t : ℕ) (prev : Option σ) (hp : ∀ s ∈ prev, I s) :
    runLoopE stepE t prev os = libE (runLoop step t prev os) ∨
      ∃ e, runLoopE stepE t prev os = .error (.user e) ∧
        ∃ j l, j < os.length ∧ runLoop step t prev (os.take j) = .ok l ∧
          B (t + j) (l.getLast?.or prev) e := by
  induction os generalizing t prev with
  | nil => exact .inl rfl
  | cons o os ih =>
    rw [runLoopE, runLoop]
    rcases h t prev o hp with ⟨h1, h2⟩ | ⟨e, h1, h2⟩
    · rw [h1]
      cases hs : step t prev o with
      | error e => exact .inl rfl
      | ok s =>
        rcases ih (t + 1) (some s) (by simpa using h2 s hs) with h3 | ⟨e, h3, j, l, hj, hl, hb⟩
        · refine .inl ?_
          simp only [libE_ok, bind, Except.bind, h3]
          cases runLoop step (t + 1) (some s) os <;> rfl
        · refine .inr ⟨e, ?_, j + 1, s :: l, by simpa using hj, ?_, ?_⟩
          · simp only [libE_ok, bind, Except.bind, h3]
          · rw [List.take_succ_cons, runLoop, hs]
            simp only [bind, Except.bind, hl, pure, Except.pure]
          · rw [add_assoc, add_comm 1 j] at hb
            cases l with
            | nil => simpa using hb
            | cons a l =>
              rw [List.getLast?_cons_cons]
              rw [List.getLast?_eq_some_getLast (List.cons_ne_nil a l)] at hb ⊢
              exact hb
    · exact .inr ⟨e, by rw [h1]; rfl, 0, [], by simp, rfl, by simpa using h2⟩

/-- The smoother calls no function where the filter has not called it before. -/
theorem backLoopE_eq {σ : Type} {stepE : ℕ → Option σ → Obs m → ResE E σ}
    {bstepE : ℕ → σ → σ → ResE E σ} {bstep : ℕ → σ → σ → Res σ} {I : σ → Prop}
    (hI : ∀ t s o s', I s → stepE t (some s) o = .ok s' → I s')
    (h : ∀ t s o s', I s → stepE (t + 1) (some s) o = .ok s' →
      ∀ next, bstepE t s next = libE (bstep t s next))
    (os : List (Obs m)) (t : ℕ) (s : σ) (hs : I s) {rest : List σ}
    (hr : runLoopE stepE (t + 1) (some s) os = .ok rest) :
    backLoopE bstepE t s rest = libE (backLoop bstep t s rest) := by
  induction os generalizing t s rest with
  | nil => cases hr; rfl
  | cons o os ih =>
    rw [runLoopE] at hr
    obtain ⟨s', h1, hr⟩ := okE_bind_iff.mp hr
    obtain ⟨rest', h2, hr⟩ := okE_bind_iff.mp hr
    cases hr
    rw [backLoopE, backLoop, ih (t + 1) s' (hI _ _ _ _ hs h1) h2]
    cases backLoop bstep (t + 1) s' rest' with
    | error e => rfl
    | ok r =>
      simp only [libE_ok, bind, Except.bind, h t s o s' hs h1]
      cases bstep t s r.1 <;> rfl

theorem backFullE_eq {σ : Type} {stepE : ℕ → Option σ → Obs m → ResE E σ}
    {bstepE : ℕ → σ → σ → ResE E σ} {bstep : ℕ → σ → σ → Res σ} {I : σ → Prop}
    (hI : ∀ t prev o s', (∀ s ∈ prev, I s) → stepE t prev o = .ok s' → I s')
    (h : ∀ t s o s', I s → stepE (t + 1) (some s) o = .ok s' →
      ∀ next, bstepE t s next = libE (bstep t s next))
    (os : List (Obs m)) {l : List σ} (hl : runLoopE stepE 0 none os = .ok l) :
    backFullE bstepE l = libE (backFull bstep l) := by
  cases os with
  | nil => cases hl; rfl
  | cons o os =>
    rw [runLoopE] at hl
    obtain ⟨s', h1, hl⟩ := okE_bind_iff.mp hl
    obtain ⟨rest', h2, hl⟩ := okE_bind_iff.mp hl
    cases hl
    rw [backFullE, backFull, backLoopE_eq (fun t s o s' hs => hI t (some s) o s' (by simpa using hs))
      h os 0 s' (hI _ _ _ _ (by simp) h1) h2]
    cases backLoop bstep 0 s' rest' <;> rfl

/-! ### Sigma points are near -/

theorem default_c : ((n : ℝ) + ((none : Option ℝ).getD 1.0 * (none : Option ℝ).getD 1.0
    * (n + (none : Option ℝ).getD (3.0 - n)) - n)) = 3 := by
  simp only [Option.getD_none]; norm_num

theorem sigmaPoints_points (mu : Vec n) (L : Mat n n) :
    (sigmaPoints mu L none none none).points = sigmaRows mu L 3 := by
  simp only [sigmaPoints, default_c]

theorem sigmaPoints_near (mu : Vec n) {L S : Mat n n} (h : L * Lᵀ = S) (i : Fin (n + n + 1)) :
    (⟨mu, S⟩ : Moments n).Near ((sigmaPoints mu L none none none).points i) := by
  intro d
  have hq : d ⬝ᵥ (S *ᵥ d) = ∑ j, (d ⬝ᵥ fun i => L i j) ^ 2 := by
    rw [← h, ← mulVec_mulVec, dotProduct_mulVec, ← mulVec_transpose]
    simp only [dotProduct, mulVec, transpose_apply, sq]
    refine Finset.sum_congr rfl fun j _ => ?_
    congr 1 <;> exact Finset.sum_congr rfl fun i _ => mul_comm _ _
  have hj : ∀ j, (d ⬝ᵥ fun i => L i j) ^ 2 ≤ d ⬝ᵥ (S *ᵥ d) := fun j => by
    rw [hq]
    exact Finset.single_le_sum (f := fun j => (d ⬝ᵥ fun i => L i j) ^ 2)
      (fun _ _ => sq_nonneg _) (Finset.mem_univ j)
  have hs : √(3 : ℝ) ^ 2 = 3 := Real.sq_sqrt (by norm_num)
  simp only [sigmaPoints, default_c]
  refine Fin.cases ?_ (fun j => ?_) i
  · simp only [sigmaRows, Fin.cons_zero, sub_self, dotProduct_zero]
    have : 0 ≤ d ⬝ᵥ (S *ᵥ d) := by rw [hq]; positivity
    nlinarith
  · refine Fin.addCases (fun j => ?_) (fun j => ?_) j
    · have : (sigmaRows mu L 3 (Fin.castAdd n j).succ - mu) = √3 • fun i => L i j := by
        ext i
        simp [sigmaRows, mul_comm]
      rw [this, dotProduct_smul, smul_eq_mul, mul_pow, hs]
      linarith [hj j]
    · have : (sigmaRows mu L 3 (Fin.natAdd n j).succ - mu) = -(√3 • fun i => L i j) := by
        ext i
        simp only [sigmaRows, Fin.cons_succ, Fin.append_right, Pi.sub_apply, Pi.neg_apply,
          Pi.smul_apply, smul_eq_mul]
        ring
      rw [this, dotProduct_neg, dotProduct_smul, smul_eq_mul, neg_sq, mul_pow, hs]
      linarith [hj j]

theorem moments2points_near {M : Moments n} (hM : M.covᵀ = M.cov) {s : SigmaPoints (n + n + 1) n}
    (h : moments2points M = .ok s) (i : Fin (n + n + 1)) : M.Near (s.points i) := by
  by_cases hp : M.cov.PosDef
  · obtain ⟨L, h1, h2, -⟩ := moments2points_of_posDef M hp none none none default_spread
    rw [h2] at h
    cases h
    exact sigmaPoints_near M.mean h1.mul_transpose i
  · rw [moments2points_error hM hp] at h
    cases h

theorem moments2points_sigma {M : Moments n} (hM : M.covᵀ = M.cov) {s : SigmaPoints (n + n + 1) n}
    (h : moments2points M = .ok s) : IsSigma s M.mean M.cov := by
  by_cases hp : M.cov.PosDef
  · obtain ⟨s', h1, h2⟩ := moments2points_default M hp
    rw [h1] at h
    cases h
    exact h2
  · rw [moments2points_error hM hp] at h
    cases h

theorem unscentedCorrect_unseen (c : Mat n m) (p : Moments n) (q : Moments m) :
    unscentedCorrect c p q (unseen m) = p := by
  cases m with
  | succ m =>
    have : (unseen (m + 1)).missing := ⟨0, rfl⟩
    simp [unscentedCorrect, this]
  | zero =>
    rw [unscentedCorrect]
    split
    · have h1 : ∀ (X : Mat n 0) (Y : Mat 0 n), X * Y = 0 := fun X Y => by
        ext i j; simp [Matrix.mul_apply]
      have h2 : ∀ (X : Mat n 0) (y : Vec 0), X *ᵥ y = 0 := fun X y => by
        ext i; simp [Matrix.mulVec, dotProduct]
      simp only [h1, h2, add_zero, sub_zero]
    · rfl

/-! ### Additive noise -/

theorem ufCorrectE_cases {g : Vec n → Except E (Vec m)} {G : Vec n → Vec m} (h : Continues g G)
    (pred : Moments n) (pts : SigmaPoints N n) (o : Obs m) (R : Mat m m) :
    ufCorrectE g pred pts o R = .ok (ufCorrect G pred pts o R) ∨
      ∃ i e, g (pts.points i) = .error e ∧ ufCorrectE g pred pts o R = .error (.user e) := by
  rw [ufCorrectE]
  rcases mapE_cases h pts with ⟨-, h1⟩ | ⟨i, e, h1, h2⟩
  · rw [h1]; exact .inl rfl
  · rw [h2]; exact .inr ⟨i, e, h1, rfl⟩

/-- What is wrong in a step of the loop of the additive filter that ends with an exception of the
user. -/
def aukfBad (u : EUParams E n m) (v : UParams n m) (t : ℕ) (prev : Option (Moments n)) (e : E) : Prop :=
  (∃ M f x, prev = some M ∧ u.f.at (t - 1) = .ok f ∧ M.Near x ∧ f x = .error e) ∨
    ∃ P g x, aukfStep v t prev (unseen m) = .ok P ∧ u.g.at t = .ok g ∧ P.Near x ∧ g x = .error e

theorem aukfStepE_cases {u : EUParams E n m} {v : UParams n m} (h : u.ContinuedBy v)
    (hQ : u.Qᵀ = u.Q) (hR : u.Rᵀ = u.R) (hS : u.S0ᵀ = u.S0) (t : ℕ) (prev : Option (Moments n))
    (o : Obs m) (hp : ∀ M ∈ prev, M.covᵀ = M.cov) :
    (aukfStepE u t prev o = libE (aukfStep v t prev o) ∧
        ∀ s, aukfStep v t prev o = .ok s → s.covᵀ = s.cov) ∨
      ∃ e, aukfStepE u t prev o = .error (.user e) ∧ aukfBad u v t prev e := by
  have hM : (prev.getD ⟨u.mu0, u.S0⟩).covᵀ = (prev.getD ⟨u.mu0, u.S0⟩).cov := by
    cases prev with
    | none => exact hS
    | some M => exact hp M rfl
  unfold aukfStepE aukfBad aukfStep
  rw [← h.mu0, ← h.S0, ← h.Q, ← h.R]
  dsimp only
  cases hm : moments2points (prev.getD ⟨u.mu0, u.S0⟩) with
  | error e => exact .inl ⟨rfl, fun s hs => by cases hs⟩
  | ok pts =>
    cases prev with
    | none =>
      simp only [libE_ok, bind, Except.bind]
      rcases h.g.entry t with ⟨e, e1, e2⟩ | ⟨g, G, e1, e2, hg⟩
      · rw [e1, e2]; exact .inl ⟨rfl, fun s hs => by cases hs⟩
      · rw [e1, e2]
        simp only [libE_ok]
        rcases ufCorrectE_cases hg (points2moments pts none) pts o u.R with h1 | ⟨i, e, h1, h2⟩
        · refine .inl ⟨h1, fun s hs => ?_⟩
          cases hs
          exact ufCorrect_symm (points2moments_symm _ (by simp)) hR
        · refine .inr ⟨e, h2, .inr ⟨_, g, _, rfl, rfl, ?_, h1⟩⟩
          rw [ufCorrect, unscentedCorrect_unseen]
          have e3 := moments2points_sigma hM hm
          have e4 : points2moments pts none = ⟨u.mu0, u.S0⟩ := e3.points2moments
          rw [e4]
          exact moments2points_near hM hm i
    | some M =>
      simp only [libE_ok, bind, Except.bind]
      rcases h.f.entry (t - 1) with ⟨e, e1, e2⟩ | ⟨f, F, e1, e2, hf⟩
      · rw [e1, e2]; exact .inl ⟨rfl, fun s hs => by cases hs⟩
      · rw [e1, e2]
        simp only [libE_ok]
        rcases mapE_cases hf pts with ⟨-, h1⟩ | ⟨i, e, h1, h2⟩
        · rw [h1]
          simp only
          have hP : (points2moments (pts.map F) (some u.Q)).covᵀ
              = (points2moments (pts.map F) (some u.Q)).cov :=
            points2moments_symm _ (by simpa using hQ)
          cases hm' : moments2points (points2moments (pts.map F) (some u.Q)) with
          | error e => exact .inl ⟨rfl, fun s hs => by cases hs⟩
          | ok pts' =>
            simp only [libE_ok]
            rcases h.g.entry t with ⟨e, e1, e2⟩ | ⟨g, G, e1, e2, hg⟩
            · rw [e1, e2]; exact .inl ⟨rfl, fun s hs => by cases hs⟩
            · rw [e1, e2]
              simp only [libE_ok]
              rcases ufCorrectE_cases hg (points2moments (pts.map F) (some u.Q)) pts' o u.R with
                h3 | ⟨i, e, h3, h4⟩
              · refine .inl ⟨h3, fun s hs => ?_⟩
                cases hs
                exact ufCorrect_symm hP hR
              · refine .inr ⟨e, h4, .inr ⟨_, g, _, rfl, rfl, ?_, h3⟩⟩
                rw [ufCorrect, unscentedCorrect_unseen]
                exact moments2points_near hP hm' i
        · refine .inr ⟨e, by rw [h2], .inl ⟨M, f, _, rfl, rfl, ?_, h1⟩⟩
          exact moments2points_near hM hm i

theorem aukfFilterE_cases {u : EUParams E n m} {v : UParams n m} (h : u.ContinuedBy v)
    (hQ : u.Qᵀ = u.Q) (hR : u.Rᵀ = u.R) (hS : u.S0ᵀ = u.S0) (os : List (Obs m)) :
    aukfFilterE u os = libE (aukfFilter v os) ∨
      ∃ e, aukfFilterE u os = .error (.user e) ∧
        (u.RaisesInTransition v os e ∨ u.RaisesInObservation v os e) := by
  rcases runLoopE_cases (I := fun M : Moments n => M.covᵀ = M.cov) (B := aukfBad u v)
    (fun t prev o hp => aukfStepE_cases h hQ hR hS t prev o hp) os 0 none (by simp) with
    h1 | ⟨e, h1, j, l, hj, hl, hb⟩
  · exact .inl h1
  · refine .inr ⟨e, h1, ?_⟩
    rw [Option.or_none, zero_add] at hb
    have hlen := runLoop_length hl
    rw [List.length_take, min_eq_left hj.le] at hlen
    rcases hb with ⟨M, f, x, hM, hf, hx, he⟩ | ⟨P, g, x, hP, hg, hx, he⟩
    · left
      cases j with
      | zero => rw [List.length_eq_zero_iff.mp hlen] at hM; cases hM
      | succ j => exact ⟨j, l, M, f, x, hj, hl, hM, hf, hx, he⟩
    · right
      refine ⟨j, l ++ [P], P, g, x, hj, ?_, by simp, hg, hx, he⟩
      rw [aukfFilter, runLoop_append, hl]
      cases hlast : l.getLast? <;> rw [hlast] at hP <;>
        simp only [bind, Except.bind, hlast, List.length_take, min_eq_left hj.le, zero_add, runLoop, hP,
          Except.map, pure, Except.pure]

theorem aukfStepE_smooth {u : EUParams E n m} {v : UParams n m} (h : u.ContinuedBy v) {t : ℕ}
    {s s' : Moments n} {o : Obs m} (hs : aukfStepE u (t + 1) (some s) o = .ok s') (next : Moments n) :
    aukfSmoothStepE u t s next = libE (aukfSmoothStep v t s next) := by
  unfold aukfStepE at hs
  obtain ⟨pts, h1, hs⟩ := okE_bind_iff.mp hs
  obtain ⟨f, h2, hs⟩ := okE_bind_iff.mp hs
  obtain ⟨q, h3, hs⟩ := okE_bind_iff.mp hs
  rw [libE_eq_ok] at h1 h2
  simp only [Option.getD_some, add_tsub_cancel_right] at h1 h2
  unfold aukfSmoothStepE aukfSmoothStep
  rw [h1, h2]
  rcases h.f.entry t with ⟨e, e1, e2⟩ | ⟨f', F, e1, e2, hf⟩
  · rw [h2] at e1; cases e1
  · rw [h2] at e1
    cases e1
    rw [e2, ← h.Q]
    simp only [libE_ok, bind, Except.bind]
    rcases mapE_cases hf pts with ⟨-, h4⟩ | ⟨i, e, h4, h5⟩
    · rw [h4]; rfl
    · rw [h5] at h3; cases h3

theorem aukfSmoothE_eq {u : EUParams E n m} {v : UParams n m} (h : u.ContinuedBy v)
    {os : List (Obs m)} (hf : aukfFilterE u os = libE (aukfFilter v os)) :
    aukfSmoothE u os = libE (aukfSmooth v os) := by
  unfold aukfSmoothE aukfSmooth
  rw [hf]
  cases hl : aukfFilter v os with
  | error e => rfl
  | ok l =>
    rw [hl] at hf
    exact backFullE_eq (I := fun _ => True) (fun _ _ _ _ _ _ => trivial)
      (fun t s o s' _ hs next => aukfStepE_smooth h hs next) os hf

theorem aukfUpdateE_cases {u : EUParams E n m} {v : UParams n m} (h : u.ContinuedBy v)
    {a : EUUpdateArgs E n m} {b : UUpdateArgs n m} (haf : Option.Rel Continues a.f b.f)
    (hag : Option.Rel Continues a.g b.g) (haQ : a.Q = b.Q) (haR : a.R = b.R)
    (hQ : (a.Q.getD u.Q)ᵀ = a.Q.getD u.Q) {M : Moments n} (hM : M.covᵀ = M.cov)
    (o : Option (Obs m)) :
    aukfUpdateE u M o a = libE (aukfUpdate v M o b) ∨
      ∃ e, aukfUpdateE u M o a = .error (.user e) ∧
        ((∃ f x, defaultFunction a.f u.f = .ok f ∧ M.Near x ∧ f x = .error e) ∨
          ∃ P g x, aukfUpdate v M none b = .ok P ∧ defaultFunction a.g u.g = .ok g ∧ P.Near x ∧
            g x = .error e) := by
  unfold aukfUpdateE aukfUpdate
  rw [← h.Q, ← h.R, ← haQ, ← haR]
  rcases defaultFunction_within h.f haf with ⟨e, e1, e2⟩ | ⟨f, F, e1, e2, hf⟩
  · rw [e1, e2]; exact .inl rfl
  rcases defaultFunction_within h.g hag with ⟨e, e3, e4⟩ | ⟨g, G, e3, e4, hg⟩
  · rw [e1, e2, e3, e4]; exact .inl rfl
  rw [e1, e2, e3, e4]
  simp only [libE_ok, bind, Except.bind]
  cases hm : moments2points M with
  | error e => exact .inl rfl
  | ok pts =>
    simp only [libE_ok]
    rcases mapE_cases hf pts with ⟨-, h1⟩ | ⟨i, e, h1, h2⟩
    · rw [h1]
      simp only
      have hP : (points2moments (pts.map F) (some (a.Q.getD u.Q))).covᵀ
          = (points2moments (pts.map F) (some (a.Q.getD u.Q))).cov :=
        points2moments_symm _ (by simpa using hQ)
      cases hm' : moments2points (points2moments (pts.map F) (some (a.Q.getD u.Q))) with
      | error e => exact .inl rfl
      | ok pts' =>
        simp only [libE_ok]
        rcases ufCorrectE_cases hg (points2moments (pts.map F) (some (a.Q.getD u.Q))) pts'
          (match o with
            | none => ⟨0, fun _ => true⟩
            | some o => o) (a.R.getD u.R) with
          h3 | ⟨i, e, h3, h4⟩
        · exact .inl h3
        · refine .inr ⟨e, h4, .inr ⟨_, g, _, rfl, rfl, ?_, h3⟩⟩
          have := unscentedCorrect_unseen (crossCov pts'
            (points2moments (pts.map F) (some (a.Q.getD u.Q))).mean (pts'.map G)
            (points2moments (pts'.map G) (some (a.R.getD u.R))).mean)
            (points2moments (pts.map F) (some (a.Q.getD u.Q)))
            (points2moments (pts'.map G) (some (a.R.getD u.R)))
          rw [ufCorrect]
          simp only [unseen] at this
          rw [this]
          exact moments2points_near hP hm' i
    · refine .inr ⟨e, by rw [h2], .inl ⟨f, _, rfl, ?_, h1⟩⟩
      exact moments2points_near hM hm i

/-! ### General noise -/

theorem Moments.Near.left {a b : ℕ} {A : Vec a} {B : Vec b} {S : Mat a a} {T : Mat b b}
    {x : Vec (a + b)} (h : (⟨concat A B, blockDiag S T⟩ : Moments (a + b)).Near x) :
    (⟨A, S⟩ : Moments a).Near fun i => x (Fin.castAdd b i) := by
  intro d
  have := h (Fin.append d 0)
  rw [blockDiag_quad] at this
  simp only [dotProduct, Fin.sum_univ_add, concat, Pi.sub_apply, Fin.append_left, Fin.append_right,
    Pi.zero_apply, zero_mul, Finset.sum_const_zero, add_zero] at this
  exact this

theorem Moments.Near.right {a b : ℕ} {A : Vec a} {B : Vec b} {S : Mat a a} {T : Mat b b}
    {x : Vec (a + b)} (h : (⟨concat A B, blockDiag S T⟩ : Moments (a + b)).Near x) :
    (⟨B, T⟩ : Moments b).Near fun i => x (Fin.natAdd a i) := by
  intro d
  have := h (Fin.append 0 d)
  rw [blockDiag_quad] at this
  simp only [dotProduct, Fin.sum_univ_add, concat, Pi.sub_apply, Fin.append_left, Fin.append_right,
    Pi.zero_apply, zero_mul, Finset.sum_const_zero, zero_add] at this
  exact this

theorem augFilterPoints_near {M : Moments n} (hM : M.covᵀ = M.cov) {Q : Mat n n} (hQ : Qᵀ = Q)
    {R : Mat m m} (hR : Rᵀ = R) {pts : SigmaPoints ((n + n + m) + (n + n + m) + 1) n
      × SigmaPoints ((n + n + m) + (n + n + m) + 1) n
      × SigmaPoints ((n + n + m) + (n + n + m) + 1) m} (h : augFilterPoints M Q R = .ok pts)
    (i : Fin ((n + n + m) + (n + n + m) + 1)) :
    M.Near (pts.1.points i) ∧ (⟨0, Q⟩ : Moments n).Near (pts.2.1.points i) ∧
      (⟨0, R⟩ : Moments m).Near (pts.2.2.points i) := by
  unfold augFilterPoints at h
  obtain ⟨s, h1, h2⟩ := ok_bind_iff.mp h
  cases h2
  have := moments2points_near (by simp only [blockDiag_transpose, hM, hQ, hR]) h1 i
  exact ⟨this.left.left, this.left.right, this.right⟩

theorem ufCorrectE₂_cases {g : Vec n → Vec m → Except E (Vec m)} {G : Vec n → Vec m → Vec m}
    (h : Continues₂ g G) (pred : Moments n) (pts : SigmaPoints N n) (o : Obs m) (w : SigmaPoints N m) :
    ufCorrectE₂ g pred pts o w = .ok (ufCorrect₂ G pred pts o w) ∨
      ∃ i e, g (pts.points i) (w.points i) = .error e ∧
        ufCorrectE₂ g pred pts o w = .error (.user e) := by
  rw [ufCorrectE₂]
  rcases mapE₂_cases h pts w with ⟨-, h1⟩ | ⟨i, e, h1, h2⟩
  · rw [h1]; exact .inl rfl
  · rw [h2]; exact .inr ⟨i, e, h1, rfl⟩

/-- What is wrong in a step of the loop of the general filter that ends with an exception of the
user. -/
def ukfBad (u : EGParams E n m) (v : GParams n m) (t : ℕ) (prev : Option (Moments n)) (e : E) : Prop :=
  (∃ M f x w, prev = some M ∧ u.f.at (t - 1) = .ok f ∧ M.Near x ∧ (⟨0, u.Q⟩ : Moments n).Near w ∧
      f x w = .error e) ∨
    ∃ g y w, u.g.at t = .ok g ∧ (⟨0, u.R⟩ : Moments m).Near w ∧ g y w = .error e ∧
      ((prev = none ∧ (⟨u.mu0, u.S0⟩ : Moments n).Near y) ∨
        ∃ M F x w', prev = some M ∧ v.f.at (t - 1) = .ok F ∧ M.Near x ∧
          (⟨0, u.Q⟩ : Moments n).Near w' ∧ y = F x w')

theorem ukfStepE_cases {u : EGParams E n m} {v : GParams n m} (h : u.ContinuedBy v)
    (hQ : u.Qᵀ = u.Q) (hR : u.Rᵀ = u.R) (hS : u.S0ᵀ = u.S0) (t : ℕ) (prev : Option (Moments n))
    (o : Obs m) (hp : ∀ M ∈ prev, M.covᵀ = M.cov) :
    (ukfStepE u t prev o = libE (ukfStep v t prev o) ∧
        ∀ s, ukfStep v t prev o = .ok s → s.covᵀ = s.cov) ∨
      ∃ e, ukfStepE u t prev o = .error (.user e) ∧ ukfBad u v t prev e := by
  have hM : (prev.getD ⟨u.mu0, u.S0⟩).covᵀ = (prev.getD ⟨u.mu0, u.S0⟩).cov := by
    cases prev with
    | none => exact hS
    | some M => exact hp M rfl
  unfold ukfStepE ukfBad ukfStep
  rw [← h.mu0, ← h.S0, ← h.Q, ← h.R]
  dsimp only
  cases hm : augFilterPoints (prev.getD ⟨u.mu0, u.S0⟩) u.Q u.R with
  | error e => exact .inl ⟨rfl, fun s hs => by cases hs⟩
  | ok pts =>
    have near := fun i => augFilterPoints_near hM hQ hR hm i
    cases prev with
    | none =>
      simp only [libE_ok, bind, Except.bind]
      rcases h.g.entry t with ⟨e, e1, e2⟩ | ⟨g, G, e1, e2, hg⟩
      · rw [e1, e2]; exact .inl ⟨rfl, fun s hs => by cases hs⟩
      · rw [e1, e2]
        simp only [libE_ok]
        rcases ufCorrectE₂_cases hg (points2moments pts.1 none) pts.1 o pts.2.2 with
          h1 | ⟨i, e, h1, h2⟩
        · refine .inl ⟨h1, fun s hs => ?_⟩
          cases hs
          exact ufCorrect₂_symm (points2moments_symm _ (by simp))
        · exact .inr ⟨e, h2, .inr ⟨g, _, _, rfl, (near i).2.2, h1, .inl ⟨trivial, (near i).1⟩⟩⟩
    | some M =>
      simp only [libE_ok, bind, Except.bind]
      rcases h.f.entry (t - 1) with ⟨e, e1, e2⟩ | ⟨f, F, e1, e2, hf⟩
      · rw [e1, e2]; exact .inl ⟨rfl, fun s hs => by cases hs⟩
      · rw [e1, e2]
        simp only [libE_ok]
        rcases mapE₂_cases hf pts.1 pts.2.1 with ⟨-, h1⟩ | ⟨i, e, h1, h2⟩
        · rw [h1]
          simp only
          rcases h.g.entry t with ⟨e, e1, e2⟩ | ⟨g, G, e1, e2, hg⟩
          · rw [e1, e2]; exact .inl ⟨rfl, fun s hs => by cases hs⟩
          · rw [e1, e2]
            simp only [libE_ok]
            rcases ufCorrectE₂_cases hg (points2moments (pts.1.map₂ pts.2.1 F) none)
              (pts.1.map₂ pts.2.1 F) o pts.2.2 with h3 | ⟨i, e, h3, h4⟩
            · refine .inl ⟨h3, fun s hs => ?_⟩
              cases hs
              exact ufCorrect₂_symm (points2moments_symm _ (by simp))
            · exact .inr ⟨e, h4, .inr ⟨g, _, _, rfl, (near i).2.2, h3, .inr ⟨M, F, _, _, rfl, rfl,
                (near i).1, (near i).2.1, rfl⟩⟩⟩
        · exact .inr ⟨e, by rw [h2], .inl ⟨M, f, _, _, rfl, rfl, (near i).1, (near i).2.1, h1⟩⟩

theorem ukfFilterE_cases {u : EGParams E n m} {v : GParams n m} (h : u.ContinuedBy v)
    (hQ : u.Qᵀ = u.Q) (hR : u.Rᵀ = u.R) (hS : u.S0ᵀ = u.S0) (os : List (Obs m)) :
    ukfFilterE u os = libE (ukfFilter v os) ∨
      ∃ e, ukfFilterE u os = .error (.user e) ∧
        (u.RaisesInTransition v os e ∨ u.RaisesInObservation v os e) := by
  rcases runLoopE_cases (I := fun M : Moments n => M.covᵀ = M.cov) (B := ukfBad u v)
    (fun t prev o hp => ukfStepE_cases h hQ hR hS t prev o hp) os 0 none (by simp) with
    h1 | ⟨e, h1, j, l, hj, hl, hb⟩
  · exact .inl h1
  · refine .inr ⟨e, h1, ?_⟩
    rw [Option.or_none, zero_add] at hb
    have hlen := runLoop_length hl
    rw [List.length_take, min_eq_left hj.le] at hlen
    rcases hb with ⟨M, f, x, w, hM, hf, hx, hw, he⟩ | ⟨g, y, w, hg, hw, he, hy⟩
    · left
      cases j with
      | zero => rw [List.length_eq_zero_iff.mp hlen] at hM; cases hM
      | succ j => exact ⟨j, l, M, f, x, w, hj, hl, hM, hf, hx, hw, he⟩
    · right
      refine ⟨j, g, y, w, hj, hg, hw, he, ?_⟩
      rcases hy with ⟨h0, hy⟩ | ⟨M, F, x, w', hM, hF, hx, hw', hy⟩
      · rw [List.getLast?_eq_none_iff] at h0
        exact .inl ⟨by rw [← hlen, h0]; rfl, hy⟩
      · cases j with
        | zero => rw [List.length_eq_zero_iff.mp hlen] at hM; cases hM
        | succ j => exact .inr ⟨j, l, M, F, x, w', rfl, hl, hM, hF, hx, hw', hy⟩

theorem blockDiag_posDef_left {a b : ℕ} {S : Mat a a} {T : Mat b b} (h : (blockDiag S T).PosDef) :
    S.PosDef := by
  rw [posDef_iff_real] at h ⊢
  refine ⟨?_, fun x hx => ?_⟩
  · have := h.1
    rw [blockDiag_transpose] at this
    ext i j
    have := congrFun (congrFun this (Fin.castAdd b i)) (Fin.castAdd b j)
    simpa [blockDiag] using this
  · have := h.2 (Fin.append x 0) fun h0 => hx <| by
      ext i
      have := congrFun h0 (Fin.castAdd b i)
      simpa using this
    rw [blockDiag_quad] at this
    simpa using this

theorem blockDiag_posDef_right {a b : ℕ} {S : Mat a a} {T : Mat b b} (h : (blockDiag S T).PosDef) :
    T.PosDef := by
  rw [posDef_iff_real] at h ⊢
  refine ⟨?_, fun x hx => ?_⟩
  · have := h.1
    rw [blockDiag_transpose] at this
    ext i j
    have := congrFun (congrFun this (Fin.natAdd a i)) (Fin.natAdd a j)
    simpa [blockDiag] using this
  · have := h.2 (Fin.append 0 x) fun h0 => hx <| by
      ext i
      have := congrFun h0 (Fin.natAdd a i)
      simpa using this
    rw [blockDiag_quad] at this
    simpa using this

theorem blockDiag_isCholesky {a b : ℕ} {S L : Mat a a} {T K : Mat b b} (hL : IsCholesky S L)
    (hK : IsCholesky T K) : IsCholesky (blockDiag S T) (blockDiag L K) := by
  refine ⟨fun i j hij => ?_, fun i => ?_, ?_⟩
  · induction i using Fin.addCases with
    | left i =>
      induction j using Fin.addCases with
      | left j =>
        have := hL.lower i j (Fin.lt_def.mpr (by
          have := Fin.lt_def.mp hij
          simp only [Fin.val_castAdd, Fin.val_natAdd] at this
          omega))
        simpa [blockDiag] using this
      | right j => simp [blockDiag]
    | right i =>
      induction j using Fin.addCases with
      | left j => simp [Fin.lt_def] at hij; omega
      | right j =>
        have := hK.lower i j (Fin.lt_def.mpr (by
          have := Fin.lt_def.mp hij
          simp only [Fin.val_castAdd, Fin.val_natAdd] at this
          omega))
        simpa [blockDiag] using this
  · induction i using Fin.addCases with
    | left i => have := hL.diag_pos i; simpa [blockDiag] using this
    | right i => have := hK.diag_pos i; simpa [blockDiag] using this
  · rw [blockDiag_transpose, blockDiag_mul, hL.mul_transpose, hK.mul_transpose]

/-- The points the smoother of the general class draws are among those the filter draws. -/
theorem augPoints_among {M : Moments n} (hM : M.covᵀ = M.cov) {Q : Mat n n} (hQ : Qᵀ = Q)
    {R : Mat m m} (hR : Rᵀ = R) {pts : SigmaPoints ((n + n + m) + (n + n + m) + 1) n
      × SigmaPoints ((n + n + m) + (n + n + m) + 1) n
      × SigmaPoints ((n + n + m) + (n + n + m) + 1) m} (h : augFilterPoints M Q R = .ok pts) :
    ∃ pts', augPoints M ⟨0, Q⟩ = .ok pts' ∧ ∀ i, ∃ j, pts'.1.points i = pts.1.points j ∧
      pts'.2.points i = pts.2.1.points j := by
  unfold augFilterPoints at h
  obtain ⟨s, h1, h2⟩ := ok_bind_iff.mp h
  cases h2
  have hp : (blockDiag (blockDiag M.cov Q) R).PosDef := by
    by_contra hp
    rw [moments2points_error (by simp only [blockDiag_transpose, hM, hQ, hR]) hp] at h1
    cases h1
  obtain ⟨L, hL, e1, -⟩ := moments2points_of_posDef
    ⟨concat (concat M.mean (0 : Vec n)) (0 : Vec m), blockDiag (blockDiag M.cov Q) R⟩ hp none none none
    default_spread
  obtain ⟨K, hK, e2, -⟩ := moments2points_of_posDef
    ⟨concat M.mean (0 : Vec n), blockDiag M.cov Q⟩ (blockDiag_posDef_left hp) none none none
    default_spread
  obtain ⟨J, hJ⟩ := exists_isCholesky R (blockDiag_posDef_right hp)
  have hLK : L = blockDiag K J := hL.unique (blockDiag_isCholesky hK hJ)
  rw [e1] at h1
  cases h1
  refine ⟨((sigmaPoints (concat M.mean (0 : Vec n)) K none none none).left,
    (sigmaPoints (concat M.mean (0 : Vec n)) K none none none).right),
    by unfold augPoints; rw [e2]; rfl, fun i => ?_⟩
  have key : ∀ i : Fin ((n + n) + (n + n) + 1), ∃ j : Fin ((n + n + m) + (n + n + m) + 1),
      ∀ a, sigmaRows (concat M.mean (0 : Vec n)) K 3 i a
        = sigmaRows (concat (concat M.mean (0 : Vec n)) (0 : Vec m)) (blockDiag K J) 3 j
          (Fin.castAdd m a) := by
    intro i
    refine Fin.cases ⟨0, fun a => ?_⟩ (fun j => ?_) i
    · simp [sigmaRows, concat]
    · refine Fin.addCases (fun j => ?_) (fun j => ?_) j
      · refine ⟨(Fin.castAdd _ (Fin.castAdd m j)).succ, fun a => ?_⟩
        simp only [sigmaRows, Fin.cons_succ, Fin.append_left, concat]
        simp [blockDiag]
      · refine ⟨(Fin.natAdd _ (Fin.castAdd m j)).succ, fun a => ?_⟩
        simp only [sigmaRows, Fin.cons_succ, Fin.append_left, Fin.append_right, concat]
        simp [blockDiag]
  obtain ⟨j, hj⟩ := key i
  refine ⟨j, ?_, ?_⟩
  · funext a
    show (sigmaPoints (concat M.mean (0 : Vec n)) K none none none).points i (Fin.castAdd n a)
      = (sigmaPoints (concat (concat M.mean (0 : Vec n)) (0 : Vec m)) L none none none).points j
        (Fin.castAdd m (Fin.castAdd n a))
    rw [sigmaPoints_points, sigmaPoints_points, hLK]
    exact hj _
  · funext a
    show (sigmaPoints (concat M.mean (0 : Vec n)) K none none none).points i (Fin.natAdd n a)
      = (sigmaPoints (concat (concat M.mean (0 : Vec n)) (0 : Vec m)) L none none none).points j
        (Fin.castAdd m (Fin.natAdd n a))
    rw [sigmaPoints_points, sigmaPoints_points, hLK]
    exact hj _

theorem ukfStepE_smooth {u : EGParams E n m} {v : GParams n m} (h : u.ContinuedBy v)
    (hQ : u.Qᵀ = u.Q) (hR : u.Rᵀ = u.R) {t : ℕ} {s s' : Moments n} (hsym : s.covᵀ = s.cov) {o : Obs m}
    (hs : ukfStepE u (t + 1) (some s) o = .ok s') (next : Moments n) :
    ukfSmoothStepE u t s next = libE (ukfSmoothStep v t s next) := by
  unfold ukfStepE at hs
  obtain ⟨pts, h1, hs⟩ := okE_bind_iff.mp hs
  obtain ⟨f, h2, hs⟩ := okE_bind_iff.mp hs
  obtain ⟨q, h3, hs⟩ := okE_bind_iff.mp hs
  rw [libE_eq_ok] at h1 h2
  simp only [Option.getD_some, add_tsub_cancel_right] at h1 h2
  obtain ⟨pts', h4, h5⟩ := augPoints_among hsym hQ hR h1
  unfold ukfSmoothStepE ukfSmoothStep
  rw [← h.Q, h4, h2]
  rcases h.f.entry t with ⟨e, e1, e2⟩ | ⟨f', F, e1, e2, hf⟩
  · rw [h2] at e1; cases e1
  · rw [h2] at e1
    cases e1
    rw [e2]
    simp only [libE_ok, bind, Except.bind]
    have h6 : ∀ i, ∃ y, f (pts.1.points i) (pts.2.1.points i) = .ok y := by
      rcases mapE₂_cases hf pts.1 pts.2.1 with ⟨h6, -⟩ | ⟨i, e, -, h6⟩
      · exact h6
      · rw [h6] at h3; cases h3
    rw [mapE₂_of_ok hf (s := pts'.1) (w := pts'.2) fun i => by
      obtain ⟨j, hj1, hj2⟩ := h5 i
      rw [hj1, hj2]
      exact h6 j]
    rfl

theorem ukfSmoothE_eq {u : EGParams E n m} {v : GParams n m} (h : u.ContinuedBy v)
    (hQ : u.Qᵀ = u.Q) (hR : u.Rᵀ = u.R) (hS : u.S0ᵀ = u.S0) {os : List (Obs m)}
    (hf : ukfFilterE u os = libE (ukfFilter v os)) :
    ukfSmoothE u os = libE (ukfSmooth v os) := by
  unfold ukfSmoothE ukfSmooth
  rw [hf]
  cases hl : ukfFilter v os with
  | error e => rfl
  | ok l =>
    rw [hl] at hf
    refine backFullE_eq (I := fun M : Moments n => M.covᵀ = M.cov) (fun t prev o s' hp hs => ?_)
      (fun t s o s' hs h' next => ukfStepE_smooth h hQ hR hs h' next) os hf
    rcases ukfStepE_cases h hQ hR hS t prev o hp with ⟨h1, h2⟩ | ⟨e, h1, -⟩
    · rw [h1, libE_eq_ok] at hs
      exact h2 s' hs
    · rw [h1] at hs; cases hs

theorem ukfUpdateE_cases {u : EGParams E n m} {v : GParams n m} (h : u.ContinuedBy v)
    {a : EGUpdateArgs E n m} {b : GUpdateArgs n m} (haf : Option.Rel Continues₂ a.f b.f)
    (hag : Option.Rel Continues₂ a.g b.g) (haQ : a.Q = b.Q) (haR : a.R = b.R)
    (hQ : (a.Q.getD u.Q)ᵀ = a.Q.getD u.Q) (hR : (a.R.getD u.R)ᵀ = a.R.getD u.R)
    {M : Moments n} (hM : M.covᵀ = M.cov) (o : Option (Obs m)) :
    ukfUpdateE u M o a = libE (ukfUpdate v M o b) ∨
      ∃ e, ukfUpdateE u M o a = .error (.user e) ∧
        ∃ x w, M.Near x ∧ (⟨0, a.Q.getD u.Q⟩ : Moments n).Near w ∧
        ((∃ f, defaultFunction a.f u.f = .ok f ∧ f x w = .error e) ∨
          ∃ F g z, defaultFunction b.f v.f = .ok F ∧ defaultFunction a.g u.g = .ok g ∧
            (⟨0, a.R.getD u.R⟩ : Moments m).Near z ∧ g (F x w) z = .error e) := by
  unfold ukfUpdateE ukfUpdate
  rw [← h.Q, ← h.R, ← haQ, ← haR]
  rcases defaultFunction_within h.f haf with ⟨e, e1, e2⟩ | ⟨f, F, e1, e2, hf⟩
  · rw [e1, e2]; exact .inl rfl
  rcases defaultFunction_within h.g hag with ⟨e, e3, e4⟩ | ⟨g, G, e3, e4, hg⟩
  · rw [e1, e2, e3, e4]; exact .inl rfl
  rw [e1, e2, e3, e4]
  simp only [libE_ok, bind, Except.bind]
  cases hm : augFilterPoints M (a.Q.getD u.Q) (a.R.getD u.R) with
  | error e => exact .inl rfl
  | ok pts =>
    have near := fun i => augFilterPoints_near hM hQ hR hm i
    simp only [libE_ok]
    rcases mapE₂_cases hf pts.1 pts.2.1 with ⟨-, h1⟩ | ⟨i, e, h1, h2⟩
    · rw [h1]
      simp only
      rcases ufCorrectE₂_cases hg (points2moments (pts.1.map₂ pts.2.1 F) none) (pts.1.map₂ pts.2.1 F)
        (match o with
          | none => ⟨0, fun _ => true⟩
          | some o => o) pts.2.2 with h3 | ⟨i, e, h3, h4⟩
      · exact .inl h3
      · exact .inr ⟨e, h4, _, _, (near i).1, (near i).2.1, .inr ⟨F, g, _, rfl, rfl, (near i).2.2, h3⟩⟩
    · exact .inr ⟨e, by rw [h2], _, _, (near i).1, (near i).2.1, .inl ⟨f, rfl, h1⟩⟩

/-! ### Square roots -/

theorem sqCorrectE_cases (qr : QR) {g : Vec n → Except E (Vec m)} {G : Vec n → Vec m}
    (h : Continues g G) (pred : Moments n) (pts : SigmaPoints N n) (o : Obs m) (R2 : Mat m m) :
    sqCorrectE qr g pred pts o R2 = libE (sqCorrect qr G pred pts o R2) ∨
      ∃ i e, g (pts.points i) = .error e ∧ sqCorrectE qr g pred pts o R2 = .error (.user e) := by
  rw [sqCorrectE, sqCorrect]
  rcases mapE_cases h pts with ⟨-, h1⟩ | ⟨i, e, h1, h2⟩
  · rw [h1]
    refine .inl ?_
    simp only [bind, Except.bind]
    cases sqPoints2moments qr (pts.map G) (some R2) <;> rfl
  · rw [h2]; exact .inr ⟨i, e, h1, rfl⟩

theorem sqStepE_cases (qr : QR) {u : EUParams E n m} {v : UParams n m} (h : u.ContinuedBy v)
    (Q2 : Mat n n) (R2 : Mat m m) (t : ℕ) (prev : Option (Moments n)) (o : Obs m) :
    sqStepE qr u Q2 R2 t prev o = libE (sqStep qr v Q2 R2 t prev o) ∨
      ∃ e, sqStepE qr u Q2 R2 t prev o = .error (.user e) ∧
        ((∃ M f x, prev = some M ∧ u.f.at (t - 1) = .ok f ∧ f x = .error e) ∨
          ∃ g x, u.g.at t = .ok g ∧ g x = .error e) := by
  unfold sqStepE sqStep
  rw [← h.mu0, ← h.S0]
  cases prev with
  | none =>
    simp only
    cases cholUpper u.S0 with
    | error e => exact .inl rfl
    | ok S2 =>
      simp only [libE_ok, bind, Except.bind]
      cases sqPoints2moments qr (sqMoments2points ⟨u.mu0, S2⟩) none with
      | error e => exact .inl rfl
      | ok pred =>
        simp only [libE_ok]
        rcases h.g.entry t with ⟨e, e1, e2⟩ | ⟨g, G, e1, e2, hg⟩
        · rw [e1, e2]; exact .inl rfl
        · rw [e1, e2]
          simp only [libE_ok]
          rcases sqCorrectE_cases qr hg pred (sqMoments2points ⟨u.mu0, S2⟩) o R2 with
            h1 | ⟨i, e, h1, h2⟩
          · exact .inl h1
          · exact .inr ⟨e, h2, .inr ⟨g, _, rfl, h1⟩⟩
  | some M =>
    simp only
    rcases h.f.entry (t - 1) with ⟨e, e1, e2⟩ | ⟨f, F, e1, e2, hf⟩
    · rw [e1, e2]; exact .inl rfl
    · rw [e1, e2]
      simp only [libE_ok, bind, Except.bind]
      rcases mapE_cases hf (sqMoments2points M) with ⟨-, h1⟩ | ⟨i, e, h1, h2⟩
      · rw [h1]
        simp only
        cases sqPoints2moments qr ((sqMoments2points M).map F) (some Q2) with
        | error e => exact .inl rfl
        | ok pred =>
          simp only [libE_ok]
          rcases h.g.entry t with ⟨e, e1, e2⟩ | ⟨g, G, e1, e2, hg⟩
          · rw [e1, e2]; exact .inl rfl
          · rw [e1, e2]
            simp only [libE_ok]
            rcases sqCorrectE_cases qr hg pred (sqMoments2points pred) o R2 with
              h1 | ⟨i, e, h1, h2⟩
            · exact .inl h1
            · exact .inr ⟨e, h2, .inr ⟨g, _, rfl, h1⟩⟩
      · rw [h2]; exact .inr ⟨e, rfl, .inl ⟨M, f, _, rfl, rfl, h1⟩⟩

theorem sqFullE_cases (qr : QR) {u : EUParams E n m} {v : UParams n m} (h : u.ContinuedBy v)
    (os : List (Obs m)) :
    sqFullE qr u os = libE (sqFull qr v os) ∨
      ∃ e, sqFullE qr u os = .error (.user e) ∧
        ((∃ t f x, t + 1 < os.length ∧ u.f.at t = .ok f ∧ f x = .error e) ∨
          ∃ t g x, t < os.length ∧ u.g.at t = .ok g ∧ g x = .error e) := by
  unfold sqFullE sqFull
  rw [← h.Q, ← h.R]
  cases cholUpper u.Q with
  | error e => exact .inl rfl
  | ok Q2 =>
    simp only [libE_ok, bind, Except.bind]
    cases cholUpper u.R with
    | error e => exact .inl rfl
    | ok R2 =>
      simp only [libE_ok]
      rcases runLoopE_cases (I := fun _ : Moments n => True)
        (B := fun t prev e => (∃ M f x, prev = some M ∧ u.f.at (t - 1) = .ok f ∧ f x = .error e) ∨
          ∃ g x, u.g.at t = .ok g ∧ g x = .error e)
        (stepE := sqStepE qr u Q2 R2) (step := sqStep qr v Q2 R2)
        (fun t prev o _ => (sqStepE_cases qr h Q2 R2 t prev o).imp_left fun h => ⟨h, fun _ _ => trivial⟩)
        os 0 none (by simp) with h1 | ⟨e, h1, j, l, hj, hl, hb⟩
      · exact .inl h1
      · refine .inr ⟨e, h1, ?_⟩
        rw [Option.or_none, zero_add] at hb
        have hlen := runLoop_length hl
        rw [List.length_take, min_eq_left hj.le] at hlen
        rcases hb with ⟨M, f, x, hM, hf, he⟩ | ⟨g, x, hg, he⟩
        · cases j with
          | zero => rw [List.length_eq_zero_iff.mp hlen] at hM; cases hM
          | succ j => exact .inl ⟨j, f, x, hj, hf, he⟩
        · exact .inr ⟨j, g, x, hj, hg, he⟩

theorem sqStepE_smooth (qr : QR) {u : EUParams E n m} {v : UParams n m} (h : u.ContinuedBy v)
    {Q2 : Mat n n} {R2 : Mat m m} {t : ℕ} {s s' : Moments n} {o : Obs m}
    (hs : sqStepE qr u Q2 R2 (t + 1) (some s) o = .ok s') (next : Moments n) :
    sqSmoothStepE qr u Q2 t s next = libE (sqSmoothStep qr v Q2 t s next) := by
  unfold sqStepE at hs
  obtain ⟨f, h2, hs⟩ := okE_bind_iff.mp hs
  obtain ⟨q, h3, hs⟩ := okE_bind_iff.mp hs
  rw [libE_eq_ok] at h2
  simp only [add_tsub_cancel_right] at h2
  unfold sqSmoothStepE sqSmoothStep
  rw [h2]
  rcases h.f.entry t with ⟨e, e1, e2⟩ | ⟨f', F, e1, e2, hf⟩
  · rw [h2] at e1; cases e1
  · rw [h2] at e1
    cases e1
    rw [e2]
    simp only [libE_ok, bind, Except.bind]
    rcases mapE_cases hf (sqMoments2points s) with ⟨-, h4⟩ | ⟨i, e, h4, h5⟩
    · rw [h4]
      simp only
      cases sqPoints2moments qr ((sqMoments2points s).map F) (some Q2) with
      | error e => rfl
      | ok pred =>
        simp only [libE_ok]
        cases cholupdate pred.cov next.cov (-1.0) with
        | error e => rfl
        | ok U =>
          simp only [libE_ok]
          generalize cholupdate s.cov _ (-1.0) = r
          cases r <;> rfl
    · rw [h5] at h3; cases h3

theorem sqSmoothE_eq (qr : QR) {u : EUParams E n m} {v : UParams n m} (h : u.ContinuedBy v)
    {os : List (Obs m)} (hf : sqFullE qr u os = libE (sqFull qr v os)) :
    sqSmoothE qr u os = libE (sqSmooth qr v os) := by
  unfold sqSmoothE sqSmooth sqSmoothFull
  rw [hf, ← h.Q]
  cases hl : sqFull qr v os with
  | error e => rfl
  | ok l =>
    rw [hl] at hf
    simp only [libE_ok, bind, Except.bind]
    unfold sqFullE at hf
    obtain ⟨Q2, h1, hf⟩ := okE_bind_iff.mp hf
    obtain ⟨R2, h2, hf⟩ := okE_bind_iff.mp hf
    rw [libE_eq_ok] at h1
    rw [h1]
    simp only [libE_ok]
    rw [backFullE_eq (I := fun _ => True) (bstep := sqSmoothStep qr v Q2) (fun _ _ _ _ _ _ => trivial)
      (fun t s o s' _ hs next => sqStepE_smooth qr h hs next) os hf]
    cases backFull (sqSmoothStep qr v Q2) l <;> rfl

theorem sqUpdateE_cases (qr : QR) {u : EUParams E n m} {v : UParams n m} (h : u.ContinuedBy v)
    {a : EUUpdateArgs E n m} {b : UUpdateArgs n m} (haf : Option.Rel Continues a.f b.f)
    (hag : Option.Rel Continues a.g b.g) (haQ : a.Q = b.Q) (haR : a.R = b.R) (M : Moments n)
    (o : Option (Obs m)) :
    sqUpdateE qr u M o a = libE (sqUpdate qr v M o b) ∨
      ∃ e, sqUpdateE qr u M o a = .error (.user e) ∧
        ((∃ f x, defaultFunction a.f u.f = .ok f ∧ f x = .error e) ∨
          ∃ g x, defaultFunction a.g u.g = .ok g ∧ g x = .error e) := by
  unfold sqUpdateE sqUpdate
  rw [← h.Q, ← h.R, ← haQ, ← haR]
  rcases defaultFunction_within h.f haf with ⟨e, e1, e2⟩ | ⟨f, F, e1, e2, hf⟩
  · rw [e1, e2]; exact .inl rfl
  rcases defaultFunction_within h.g hag with ⟨e, e3, e4⟩ | ⟨g, G, e3, e4, hg⟩
  · rw [e1, e2, e3, e4]; exact .inl rfl
  rw [e1, e2, e3, e4]
  simp only [libE_ok, bind, Except.bind]
  cases cholUpper M.cov with
  | error e => exact .inl rfl
  | ok P2 =>
  simp only [libE_ok]
  cases cholUpper (a.Q.getD u.Q) with
  | error e => exact .inl rfl
  | ok Q2 =>
  simp only [libE_ok]
  cases cholUpper (a.R.getD u.R) with
  | error e => exact .inl rfl
  | ok R2 =>
  simp only [libE_ok]
  rcases mapE_cases hf (sqMoments2points ⟨M.mean, P2⟩) with ⟨-, h1⟩ | ⟨i, e, h1, h2⟩
  · rw [h1]
    simp only
    cases sqPoints2moments qr ((sqMoments2points ⟨M.mean, P2⟩).map F) (some Q2) with
    | error e => exact .inl rfl
    | ok pred =>
      simp only [libE_ok]
      cases o with
      | none =>
        simp only
        rcases sqCorrectE_cases qr hg pred (sqMoments2points pred) ⟨0, fun _ => true⟩ R2 with h3 | ⟨i, e, h3, h4⟩
        · refine .inl ?_
          rw [h3]
          cases sqCorrect qr G pred (sqMoments2points pred) ⟨0, fun _ => true⟩ R2 <;> rfl
        · exact .inr ⟨e, by rw [h4], .inr ⟨g, _, rfl, h3⟩⟩
      | some o =>
        simp only
        rcases sqCorrectE_cases qr hg pred (sqMoments2points pred) o R2 with h3 | ⟨i, e, h3, h4⟩
        · refine .inl ?_
          rw [h3]
          cases sqCorrect qr G pred (sqMoments2points pred) o R2 <;> rfl
        · exact .inr ⟨e, by rw [h4], .inr ⟨g, _, rfl, h3⟩⟩
  · exact .inr ⟨e, by rw [h2], .inl ⟨f, _, rfl, h1⟩⟩

/-! ### The mean is a sigma point -/

theorem moments2points_zero {M : Moments n} {s : SigmaPoints (n + n + 1) n}
    (h : moments2points M = .ok s) : s.points 0 = M.mean := by
  simp only [moments2points] at h
  cases hc : cholUpperT M.cov with
  | error e => rw [hc] at h; cases h
  | ok L => rw [hc] at h; cases h; rfl

theorem mapE_error {f : Vec k → Except E (Vec l)} {s : SigmaPoints N k} {i : Fin N} {e : E}
    (h : f (s.points i) = .error e) : ∃ e', s.mapE f = .error (.user e') := by
  rw [SigmaPoints.mapE]
  cases hc : callEach fun i => f (s.points i) with
  | error e' => exact ⟨e', rfl⟩
  | ok y =>
    have := callEach_ok.mp hc i
    simp only [h] at this
    cases this

theorem mapE₂_error {q : ℕ} {f : Vec k → Vec q → Except E (Vec l)} {s : SigmaPoints N k}
    {w : SigmaPoints N q} {i : Fin N} {e : E}
    (h : f (s.points i) (w.points i) = .error e) : ∃ e', s.mapE₂ w f = .error (.user e') := by
  rw [SigmaPoints.mapE₂]
  cases hc : callEach fun i => f (s.points i) (w.points i) with
  | error e' => exact ⟨e', rfl⟩
  | ok y =>
    have := callEach_ok.mp hc i
    simp only [h] at this
    cases this

theorem runLoopE_append {σ : Type} {step : ℕ → Option σ → Obs m → ResE E σ} (os os' : List (Obs m))
    (t : ℕ) (prev : Option σ) :
    runLoopE step t prev (os ++ os') = runLoopE step t prev os >>= fun l =>
      runLoopE step (t + os.length) (l.getLast?.or prev) os' >>= fun l' => pure (l ++ l') := by
  induction os generalizing t prev with
  | nil =>
    simp only [List.nil_append, runLoopE, bind, Except.bind, pure, Except.pure, List.length_nil,
      add_zero, List.getLast?_nil, Option.none_or]
    cases runLoopE step t prev os' <;> rfl
  | cons o os ih =>
    simp only [List.cons_append, runLoopE]
    cases step t prev o with
    | error e => rfl
    | ok s =>
      simp only [bind, Except.bind]
      rw [ih]
      simp only [bind, Except.bind]
      cases runLoopE step (t + 1) (some s) os with
      | error e => rfl
      | ok l =>
        have e1 : (s :: l).getLast?.or prev = l.getLast?.or (some s) := by
          cases l with
          | nil => rfl
          | cons a l =>
            rw [List.getLast?_cons_cons, List.getLast?_eq_some_getLast (List.cons_ne_nil a l)]
            rfl
        simp only [pure, Except.pure, e1, List.length_cons]
        rw [show t + 1 + os.length = t + (os.length + 1) by omega]
        cases runLoopE step (t + (os.length + 1)) (l.getLast?.or (some s)) os' <;> rfl

/-- A step that ends with an exception of the user, after a prefix that does not, or does. -/
theorem runLoopE_user {σ : Type} {stepE : ℕ → Option σ → Obs m → ResE E σ} {os : List (Obs m)} {t : ℕ}
    (ht : t < os.length) {l : List σ}
    (h : runLoopE stepE 0 none (os.take t) = .ok l ∨
      ∃ e, runLoopE stepE 0 none (os.take t) = .error (.user e))
    (hs : ∀ o, ∃ e, stepE t l.getLast? o = .error (.user e)) :
    ∃ e, runLoopE stepE 0 none os = .error (.user e) := by
  rw [← List.take_append_drop t os, runLoopE_append]
  rcases h with h | ⟨e, h⟩
  · rw [h, List.drop_eq_getElem_cons ht]
    obtain ⟨e, he⟩ := hs os[t]
    refine ⟨e, ?_⟩
    simp only [bind, Except.bind, runLoopE, List.length_take, min_eq_left ht.le, zero_add,
      Option.or_none, he]
  · exact ⟨e, by rw [h]; rfl⟩

theorem aukfFilterE_or {u : EUParams E n m} {v : UParams n m} (h : u.ContinuedBy v)
    (hQ : u.Qᵀ = u.Q) (hR : u.Rᵀ = u.R) (hS : u.S0ᵀ = u.S0) {os : List (Obs m)} {l : List (Moments n)}
    (hl : aukfFilter v os = .ok l) :
    runLoopE (aukfStepE u) 0 none os = .ok l ∨
      ∃ e, runLoopE (aukfStepE u) 0 none os = .error (.user e) := by
  rcases aukfFilterE_cases h hQ hR hS os with h1 | ⟨e, h1, -⟩
  · rw [hl] at h1; exact .inl h1
  · exact .inr ⟨e, h1⟩

theorem aukf_transition_mean {u : EUParams E n m} {v : UParams n m} (h : u.ContinuedBy v)
    (hQ : u.Qᵀ = u.Q) (hR : u.Rᵀ = u.R) (hS : u.S0ᵀ = u.S0) {os : List (Obs m)} {t : ℕ}
    (ht : t + 1 < os.length) {l : List (Moments n)} {M : Moments n}
    (hl : aukfFilter v (os.take (t + 1)) = .ok l) (hM : l.getLast? = some M) (hP : M.cov.PosDef)
    {f : Vec n → Except E (Vec n)} (hf : u.f.at t = .ok f) {e : E} (he : f M.mean = .error e) :
    ∃ e, aukfFilterE u os = .error (.user e) := by
  refine runLoopE_user ht (aukfFilterE_or h hQ hR hS hl) fun o => ?_
  obtain ⟨s, h1, -⟩ := moments2points_default M hP
  unfold aukfStepE
  rw [hM]
  simp only [Option.getD_some, h1, libE_ok, bind, Except.bind, add_tsub_cancel_right, hf]
  obtain ⟨e', h2⟩ := mapE_error (s := s) (i := 0) (f := f) (e := e)
    (by rw [moments2points_zero h1]; exact he)
  exact ⟨e', by rw [h2]⟩

theorem runLoop_snoc_inv {σ : Type} {step : ℕ → Option σ → Obs m → Res σ} {os : List (Obs m)}
    {o : Obs m} {l : List σ} (h : runLoop step 0 none (os ++ [o]) = .ok l) :
    ∃ l₁ s, runLoop step 0 none os = .ok l₁ ∧ step os.length l₁.getLast? o = .ok s ∧
      l = l₁ ++ [s] := by
  rw [runLoop_append] at h
  obtain ⟨l₁, h1, h2⟩ := ok_bind_iff.mp h
  refine ⟨l₁, ?_⟩
  cases hlast : l₁.getLast? with
  | none =>
    simp only [hlast, zero_add, runLoop] at h2
    cases hs : step os.length none o with
    | error e => rw [hs] at h2; cases h2
    | ok s => rw [hs] at h2; cases h2; exact ⟨s, h1, rfl, rfl⟩
  | some M =>
    simp only [hlast, zero_add, runLoop] at h2
    cases hs : step os.length (some M) o with
    | error e => rw [hs] at h2; cases h2
    | ok s => rw [hs] at h2; cases h2; exact ⟨s, h1, rfl, rfl⟩

theorem aukf_observation_mean {u : EUParams E n m} {v : UParams n m} (h : u.ContinuedBy v)
    (hQ : u.Qᵀ = u.Q) (hR : u.Rᵀ = u.R) (hS : u.S0ᵀ = u.S0) {os : List (Obs m)} {t : ℕ}
    (ht : t < os.length) {l : List (Moments n)} {P : Moments n}
    (hl : aukfFilter v (os.take t ++ [unseen m]) = .ok l) (hP : l.getLast? = some P)
    {g : Vec n → Except E (Vec m)} (hg : u.g.at t = .ok g) {e : E} (he : g P.mean = .error e) :
    ∃ e, aukfFilterE u os = .error (.user e) := by
  obtain ⟨l₁, P', h1, hs, rfl⟩ := runLoop_snoc_inv hl
  simp only [List.getLast?_append, List.getLast?_singleton, Option.some_or, Option.some.injEq] at hP
  subst hP
  rw [List.length_take, min_eq_left ht.le] at hs
  refine runLoopE_user ht (aukfFilterE_or h hQ hR hS h1) fun o => ?_
  generalize l₁.getLast? = prev at hs
  have key : ∀ {pred : Moments n} {pts : SigmaPoints (n + n + 1) n} (o : Obs m),
      pts.points 0 = P'.mean → ∃ e, ufCorrectE g pred pts o u.R = .error (.user e) := by
    intro pred pts o h0
    obtain ⟨e', h2⟩ := mapE_error (s := pts) (i := 0) (f := g) (e := e) (by rw [h0]; exact he)
    exact ⟨e', by rw [ufCorrectE, h2]; rfl⟩
  unfold aukfStep at hs
  rw [← h.mu0, ← h.S0, ← h.Q, ← h.R] at hs
  unfold aukfStepE
  obtain ⟨pts, h3, hs⟩ := ok_bind_iff.mp hs
  dsimp only
  rw [h3]
  cases prev with
  | none =>
    obtain ⟨G, h4, hs⟩ := ok_bind_iff.mp hs
    simp only [libE_ok, bind, Except.bind, hg]
    cases hs
    refine key o ?_
    rw [ufCorrect, unscentedCorrect_unseen,
      IsSigma.points2moments (moments2points_sigma (M := ⟨u.mu0, u.S0⟩) hS h3)]
    exact moments2points_zero h3
  | some M =>
    obtain ⟨F, h4, hs⟩ := ok_bind_iff.mp hs
    obtain ⟨pts', h5, hs⟩ := ok_bind_iff.mp hs
    obtain ⟨G, h6, hs⟩ := ok_bind_iff.mp hs
    rcases h.f.entry (t - 1) with ⟨e, e1, e2⟩ | ⟨f, F', e1, e2, hf⟩
    · rw [h4] at e2; cases e2
    · rw [h4] at e2
      cases e2
      simp only [libE_ok, bind, Except.bind, e1]
      rcases mapE_cases hf pts with ⟨-, h7⟩ | ⟨i, e, -, h7⟩
      · rw [h7]
        simp only [h5, libE_ok, hg]
        cases hs
        refine key o ?_
        rw [ufCorrect, unscentedCorrect_unseen]
        exact moments2points_zero h5
      · exact ⟨e, by rw [h7]⟩

/-! ### General noise -/

theorem ukfFilterE_or {u : EGParams E n m} {v : GParams n m} (h : u.ContinuedBy v)
    (hQ : u.Qᵀ = u.Q) (hR : u.Rᵀ = u.R) (hS : u.S0ᵀ = u.S0) {os : List (Obs m)} {l : List (Moments n)}
    (hl : ukfFilter v os = .ok l) :
    runLoopE (ukfStepE u) 0 none os = .ok l ∨
      ∃ e, runLoopE (ukfStepE u) 0 none os = .error (.user e) := by
  rcases ukfFilterE_cases h hQ hR hS os with h1 | ⟨e, h1, -⟩
  · rw [hl] at h1; exact .inl h1
  · exact .inr ⟨e, h1⟩

theorem ukf_transition_mean {u : EGParams E n m} {v : GParams n m} (h : u.ContinuedBy v)
    (hQ : u.Q.PosDef) (hR : u.R.PosDef) (hS : u.S0ᵀ = u.S0) {os : List (Obs m)} {t : ℕ}
    (ht : t + 1 < os.length) {l : List (Moments n)} {M : Moments n}
    (hl : ukfFilter v (os.take (t + 1)) = .ok l) (hM : l.getLast? = some M) (hP : M.cov.PosDef)
    {f : Vec n → Vec n → Except E (Vec n)} (hf : u.f.at t = .ok f) {e : E}
    (he : f M.mean 0 = .error e) : ∃ e, ukfFilterE u os = .error (.user e) := by
  refine runLoopE_user ht (ukfFilterE_or h (symm_of_posSemidef hQ.posSemidef)
    (symm_of_posSemidef hR.posSemidef) hS hl) fun o => ?_
  obtain ⟨s, h1, -⟩ := moments2points_default
    ⟨concat (concat M.mean (0 : Vec n)) (0 : Vec m), blockDiag (blockDiag M.cov u.Q) u.R⟩
    (blockDiag_posDef (blockDiag_posDef hP hQ) hR)
  unfold ukfStepE augFilterPoints
  rw [hM]
  simp only [Option.getD_some, h1, libE_ok, bind, Except.bind, add_tsub_cancel_right, hf, pure,
    Except.pure]
  have h0 := moments2points_zero h1
  obtain ⟨e', h2⟩ := mapE₂_error (s := s.left.left) (w := s.left.right) (i := 0) (f := f) (e := e) (by
    simp only [SigmaPoints.left, SigmaPoints.right, h0, concat, Fin.append_left, Fin.append_right]
    exact he)
  exact ⟨e', by rw [h2]⟩

theorem augFilterPoints_zero {M : Moments n} {Q : Mat n n} {R : Mat m m}
    {pts : SigmaPoints ((n + n + m) + (n + n + m) + 1) n
      × SigmaPoints ((n + n + m) + (n + n + m) + 1) n
      × SigmaPoints ((n + n + m) + (n + n + m) + 1) m} (h : augFilterPoints M Q R = .ok pts) :
    pts.1.points 0 = M.mean ∧ pts.2.1.points 0 = 0 ∧ pts.2.2.points 0 = 0 := by
  unfold augFilterPoints at h
  obtain ⟨s, h1, h2⟩ := ok_bind_iff.mp h
  cases h2
  have h0 := moments2points_zero h1
  simp only [SigmaPoints.left, SigmaPoints.right, h0, concat, Fin.append_left, Fin.append_right]
  exact ⟨trivial, trivial, trivial⟩

theorem augFilterPoints_of_posDef {M : Moments n} (hM : M.cov.PosDef) {Q : Mat n n} (hQ : Q.PosDef)
    {R : Mat m m} (hR : R.PosDef) : ∃ pts, augFilterPoints M Q R = .ok pts := by
  obtain ⟨s, h1, -⟩ := moments2points_default
    ⟨concat (concat M.mean (0 : Vec n)) (0 : Vec m), blockDiag (blockDiag M.cov Q) R⟩
    (blockDiag_posDef (blockDiag_posDef hM hQ) hR)
  exact ⟨_, by unfold augFilterPoints; rw [h1]; rfl⟩

theorem ufCorrectE₂_error {g : Vec n → Vec m → Except E (Vec m)} {pred : Moments n}
    {pts : SigmaPoints N n} {o : Obs m} {w : SigmaPoints N m} {i : Fin N} {e : E}
    (h : g (pts.points i) (w.points i) = .error e) :
    ∃ e', ufCorrectE₂ g pred pts o w = .error (.user e') := by
  obtain ⟨e', h2⟩ := mapE₂_error h
  exact ⟨e', by rw [ufCorrectE₂, h2]; rfl⟩

theorem ukf_observation_mean {u : EGParams E n m} {v : GParams n m} (h : u.ContinuedBy v)
    (hQ : u.Q.PosDef) (hR : u.R.PosDef) (hS : u.S0ᵀ = u.S0) {os : List (Obs m)} {t : ℕ}
    (ht : t + 1 < os.length) {l : List (Moments n)} {M : Moments n}
    (hl : ukfFilter v (os.take (t + 1)) = .ok l) (hM : l.getLast? = some M) (hP : M.cov.PosDef)
    {F : Vec n → Vec n → Vec n} (hF : v.f.at t = .ok F)
    {g : Vec n → Vec m → Except E (Vec m)} (hg : u.g.at (t + 1) = .ok g) {e : E}
    (he : g (F M.mean 0) 0 = .error e) : ∃ e, ukfFilterE u os = .error (.user e) := by
  refine runLoopE_user ht (ukfFilterE_or h (symm_of_posSemidef hQ.posSemidef)
    (symm_of_posSemidef hR.posSemidef) hS hl) fun o => ?_
  obtain ⟨pts, h1⟩ := augFilterPoints_of_posDef (m := m) hP hQ hR
  obtain ⟨z1, z2, z3⟩ := augFilterPoints_zero h1
  unfold ukfStepE
  rw [hM]
  rcases h.f.entry t with ⟨e, e1, e2⟩ | ⟨f, F', e1, e2, hf⟩
  · rw [hF] at e2; cases e2
  rw [hF] at e2
  cases e2
  simp only [Option.getD_some, h1, libE_ok, bind, Except.bind, add_tsub_cancel_right, e1, hg]
  rcases mapE₂_cases hf pts.1 pts.2.1 with ⟨-, h7⟩ | ⟨i, e, -, h7⟩
  · rw [h7]
    refine ufCorrectE₂_error (i := 0) (e := e) ?_
    rw [z3]
    show g (F (pts.1.points 0) (pts.2.1.points 0)) 0 = .error e
    rw [z1, z2]
    exact he
  · exact ⟨e, by rw [h7]⟩

theorem ukf_observation_first {u : EGParams E n m} (hQ : u.Q.PosDef) (hR : u.R.PosDef)
    (hS : u.S0.PosDef) {os : List (Obs m)} (hos : os ≠ [])
    {g : Vec n → Vec m → Except E (Vec m)} (hg : u.g.at 0 = .ok g) {e : E}
    (he : g u.mu0 0 = .error e) : ∃ e, ukfFilterE u os = .error (.user e) := by
  refine runLoopE_user (t := 0) (l := []) (List.length_pos_iff.mpr hos) (.inl rfl) fun o => ?_
  obtain ⟨pts, h1⟩ := augFilterPoints_of_posDef (m := m) (M := ⟨u.mu0, u.S0⟩) hS hQ hR
  obtain ⟨z1, z2, z3⟩ := augFilterPoints_zero h1
  unfold ukfStepE
  simp only [List.getLast?_nil, Option.getD_none, h1, libE_ok, bind, Except.bind, hg]
  refine ufCorrectE₂_error (i := 0) (e := e) ?_
  rw [z1, z3]
  exact he

theorem aukfUpdateE_undefined {u : EUParams E n m} {v : UParams n m} (h : u.ContinuedBy v)
    {a : EUUpdateArgs E n m} {b : UUpdateArgs n m} (haf : Option.Rel Continues a.f b.f)
    (hag : Option.Rel Continues a.g b.g) (haQ : a.Q = b.Q) {M : Moments n}
    {P : Moments n} (hP : aukfUpdate v M none b = .ok P) {e : E}
    (he : (∃ f, defaultFunction a.f u.f = .ok f ∧ f M.mean = .error e) ∨
      ∃ g, defaultFunction a.g u.g = .ok g ∧ g P.mean = .error e) (o : Option (Obs m)) :
    ∃ e, aukfUpdateE u M o a = .error (.user e) := by
  unfold aukfUpdate at hP
  obtain ⟨F, h1, hP⟩ := ok_bind_iff.mp hP
  obtain ⟨G, h2, hP⟩ := ok_bind_iff.mp hP
  obtain ⟨pts, h3, hP⟩ := ok_bind_iff.mp hP
  obtain ⟨pts', h4, hP⟩ := ok_bind_iff.mp hP
  have hP' : points2moments (pts.map F) (some (b.Q.getD v.Q)) = P := by
    cases hP
    exact (unscentedCorrect_unseen _ _ _).symm
  rcases defaultFunction_within h.f haf with ⟨e, e1, e2⟩ | ⟨f, F', e1, e2, hf⟩
  · rw [h1] at e2; cases e2
  rcases defaultFunction_within h.g hag with ⟨e, e3, e4⟩ | ⟨g, G', e3, e4, hg⟩
  · rw [h2] at e4; cases e4
  rw [h1] at e2
  cases e2
  unfold aukfUpdateE
  rw [e1, e3, h3]
  simp only [libE_ok, bind, Except.bind]
  rcases mapE_cases hf pts with ⟨h5, h7⟩ | ⟨i, e, -, h7⟩
  · rcases he with ⟨f', e5, he⟩ | ⟨g', e5, he⟩
    · rw [e1] at e5
      cases e5
      obtain ⟨y, hy⟩ := h5 0
      rw [moments2points_zero h3, he] at hy
      cases hy
    · rw [e3] at e5
      cases e5
      rw [h7]
      simp only [haQ, h.Q]
      rw [h4]
      simp only [libE_ok]
      obtain ⟨e', h2⟩ := mapE_error (s := pts') (i := 0) (f := g) (e := e) (by
        rw [moments2points_zero h4, hP']; exact he)
      exact ⟨e', by rw [ufCorrectE, h2]; rfl⟩
  · exact ⟨e, by rw [h7]⟩

theorem ukfUpdateE_undefined {u : EGParams E n m} {v : GParams n m} (h : u.ContinuedBy v)
    {a : EGUpdateArgs E n m} {b : GUpdateArgs n m} (haf : Option.Rel Continues₂ a.f b.f)
    {M : Moments n} (hM : M.cov.PosDef) (hQ : (a.Q.getD u.Q).PosDef) (hR : (a.R.getD u.R).PosDef)
    {f : Vec n → Vec n → Except E (Vec n)} (hf : defaultFunction a.f u.f = .ok f)
    {F : Vec n → Vec n → Vec n} (hF : defaultFunction b.f v.f = .ok F)
    {g : Vec n → Vec m → Except E (Vec m)} (hg : defaultFunction a.g u.g = .ok g) {e : E}
    (he : f M.mean 0 = .error e ∨ g (F M.mean 0) 0 = .error e) (o : Option (Obs m)) :
    ∃ e, ukfUpdateE u M o a = .error (.user e) := by
  obtain ⟨pts, h1⟩ := augFilterPoints_of_posDef (m := m) hM hQ hR
  obtain ⟨z1, z2, z3⟩ := augFilterPoints_zero h1
  rcases defaultFunction_within h.f haf with ⟨e, e1, e2⟩ | ⟨f', F', e1, e2, hfF⟩
  · rw [hF] at e2; cases e2
  rw [hf] at e1
  cases e1
  rw [hF] at e2
  cases e2
  unfold ukfUpdateE
  rw [hf, hg]
  simp only [h1, libE_ok, bind, Except.bind]
  rcases mapE₂_cases hfF pts.1 pts.2.1 with ⟨h5, h7⟩ | ⟨i, e, -, h7⟩
  · rw [h7]
    rcases he with he | he
    · obtain ⟨y, hy⟩ := h5 0
      rw [z1, z2, he] at hy
      cases hy
    · refine ufCorrectE₂_error (i := 0) (e := e) ?_
      rw [z3]
      show g (F (pts.1.points 0) (pts.2.1.points 0)) 0 = .error e
      rw [z1, z2]
      exact he
  · exact ⟨e, by rw [h7]⟩

end Verif
