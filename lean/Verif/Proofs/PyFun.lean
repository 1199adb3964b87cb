import Verif.Spec.PyFun
import Verif.Proofs.UnscentedSymmetry
import Verif.Proofs.UnscentedTransform

/-!
# Python functions in the unscented filters
-/

open Matrix

namespace Verif

variable {σ α β : Type} {n m k l N : ℕ}

/-! ### Calls -/

theorem callAll_res {f : PyFun σ α β} {F : α → β} (h : f.Returns F) (s : σ) (x : Fin N → α) :
    (callAll f s x).res = fun i => F (x i) := funext fun i => h _ _ _

theorem callAll_args {f : PyFun σ α β} (h : f.Keeps) (s : σ) (x : Fin N → α) :
    (callAll f s x).args = x := funext fun i => h _ _

theorem callAll_argsState {γ : Type} {f : PyFun σ (α × γ) β} (h : f.KeepsState) (s : σ)
    (x : Fin N → α × γ) : (fun i => ((callAll f s x).args i).1) = fun i => (x i).1 :=
  funext fun i => h _ _

theorem Fns.Within.entry {γ δ : Type} {d : γ → δ → Prop} {F : Fns γ} {G : Fns δ}
    (h : Fns.Within d F G) (t : ℕ) :
    (∃ e, F.at t = .error e ∧ G.at t = .error e) ∨
      ∃ a b, F.at t = .ok a ∧ G.at t = .ok b ∧ d a b := by
  have hfirst : ∀ {l : List γ} {l' : List δ}, List.Forall₂ d l l' →
      (∃ e, first l = .error e ∧ first l' = .error e) ∨
      ∃ a b, first l = .ok a ∧ first l' = .ok b ∧ d a b := by
    intro l l' h
    cases h with
    | nil => exact .inl ⟨_, rfl, rfl⟩
    | cons h _ => exact .inr ⟨_, _, rfl, rfl, h⟩
  cases F with
  | flat l =>
    cases G with
    | flat l' => exact hfirst h
    | nested l' => exact h.elim
  | nested l =>
    cases G with
    | flat l' => exact h.elim
    | nested l' =>
      have hl : l.length = l'.length := List.Forall₂.length_eq h
      simp only [Fns.at]
      by_cases ht : t < l.length
      · rw [List.getElem?_eq_getElem ht, List.getElem?_eq_getElem (hl ▸ ht)]
        exact hfirst (List.Forall₂.get h ht (hl ▸ ht))
      · rw [List.getElem?_eq_none (not_lt.mp ht), List.getElem?_eq_none (hl ▸ not_lt.mp ht)]
        exact .inl ⟨_, rfl, rfl⟩

theorem Fns.All.entry {γ : Type} {q : γ → Prop} {F : Fns γ} (hk : F.All q) {t : ℕ} {f : γ}
    (h : F.at t = .ok f) : q f := by
  cases F with
  | flat l =>
    cases l with
    | nil => cases h
    | cons a l => cases h; exact hk _ (by simp)
  | nested l =>
    simp only [Fns.at] at h
    cases hl : l[t]? with
    | none => rw [hl] at h; cases h
    | some r =>
      rw [hl] at h
      cases r with
      | nil => cases h
      | cons a r => cases h; exact hk _ (List.mem_of_getElem? hl) _ (by simp)

/-! ### Additive noise -/

theorem pyCorrect_fst {g : PyFun σ (Vec n) (Vec m)} {G : Vec n → Vec m} (h : g.Returns G)
    (hk : g.Keeps) (s : σ) (pred : Moments n) (pts : SigmaPoints N n) (o : Obs m) (R : Mat m m) :
    (pyCorrect g s pred pts o R).1 = ufCorrect G pred pts o R := by
  simp only [pyCorrect, callAll_res h, callAll_args hk]
  rfl

theorem pyAukfStep_fst {p : PyUParams σ n m} {u : UParams n m} (h : p.Computes u) (s₀ : σ) (t : ℕ)
    (prev : Option (Moments n × σ)) (o : Obs m) :
    aukfStep u t (prev.map Prod.fst) o = (pyAukfStep p s₀ t prev o).map Prod.fst := by
  cases prev with
  | none =>
    simp only [aukfStep, pyAukfStep, Option.map_none, Option.getD_none, h.mu0, h.S0]
    cases moments2points (⟨u.mu0, u.S0⟩ : Moments n) with
    | error e => rfl
    | ok pts =>
      rcases h.g.entry t with ⟨e, h1, h2⟩ | ⟨g, G, h1, h2, h3⟩
      · simp only [bind, Except.bind, h1, h2]; rfl
      · simp only [bind, Except.bind, h1, h2, pure, Except.pure, Except.map,
          pyCorrect_fst h3.1 h3.2, h.R]
  | some M =>
    simp only [aukfStep, pyAukfStep, Option.map_some, Option.getD_some]
    cases moments2points M.1 with
    | error e => rfl
    | ok pts =>
      rcases h.f.entry (t - 1) with ⟨e, f1, f2⟩ | ⟨f, F, f1, f2, f3⟩
      · simp only [bind, Except.bind, f1, f2]; rfl
      · have e : pts.withRows (callAll f M.2 pts.points).res = pts.map F := by
          rw [callAll_res f3]; rfl
        simp only [bind, Except.bind, f1, f2, e, h.Q]
        cases moments2points (points2moments (pts.map F) (some u.Q)) with
        | error e => rfl
        | ok pts' =>
          rcases h.g.entry t with ⟨e, h1, h2⟩ | ⟨g, G, h1, h2, h3⟩
          · simp only [h1, h2]; rfl
          · simp only [h1, h2, pure, Except.pure, Except.map, pyCorrect_fst h3.1 h3.2, h.R]

theorem pyAukfFilter_fst {p : PyUParams σ n m} {u : UParams n m} (h : p.Computes u) (s : σ)
    (os : List (Obs m)) :
    (pyAukfFilter p s os).map (List.map Prod.fst) = aukfFilter u os := by
  have := (runLoop_map (step := pyAukfStep p s) (step' := aukfStep u) (φ := Prod.fst) (ψ := id)
    (I := fun _ => True) (fun t prev o _ => ⟨pyAukfStep_fst h s t prev o, fun _ _ => trivial⟩)
    os 0 none (by simp)).1
  rw [List.map_id] at this
  exact this.symm

theorem pyAukfSmoothStep_fst {p : PyUParams σ n m} {u : UParams n m} (h : p.Computes u)
    (hk : p.f.All PyFun.Keeps) (t : ℕ) (s next : Moments n × σ) :
    aukfSmoothStep u t s.1 next.1 = (pyAukfSmoothStep p t s next).map Prod.fst := by
  simp only [aukfSmoothStep, pyAukfSmoothStep]
  cases moments2points s.1 with
  | error e => rfl
  | ok pts =>
    rcases h.f.entry t with ⟨e, f1, f2⟩ | ⟨f, F, f1, f2, f3⟩
    · simp only [bind, Except.bind, f1, f2]; rfl
    · have hf : f.Keeps := hk.entry f1
      simp only [bind, Except.bind, f1, f2, callAll_res f3, callAll_args hf, h.Q]
      rfl

theorem pyAukfSmooth_fst {p : PyUParams σ n m} {u : UParams n m} (h : p.Computes u)
    (hk : p.f.All PyFun.Keeps) (s : σ) (os : List (Obs m)) :
    (pyAukfSmooth p s os).map (List.map Prod.fst) = aukfSmooth u os := by
  rw [pyAukfSmooth, aukfSmooth, ← pyAukfFilter_fst h s os]
  cases pyAukfFilter p s os with
  | error e => rfl
  | ok l => exact (backFull_map l fun i x _ _ next => pyAukfSmoothStep_fst h hk i x next).symm

theorem defaultFunction_within {γ δ : Type} {d : γ → δ → Prop} {F : Fns γ} {G : Fns δ}
    (h : Fns.Within d F G) {a : Option γ} {b : Option δ} (hab : Option.Rel d a b) :
    (∃ e, defaultFunction a F = .error e ∧ defaultFunction b G = .error e) ∨
      ∃ x y, defaultFunction a F = .ok x ∧ defaultFunction b G = .ok y ∧ d x y := by
  cases F with
  | flat l =>
    cases G with
    | nested l' => exact h.elim
    | flat l' =>
      cases hab with
      | some hx => exact .inr ⟨_, _, rfl, rfl, hx⟩
      | none =>
        have h : List.Forall₂ d l l' := h
        cases h with
        | nil => exact .inl ⟨_, rfl, rfl⟩
        | cons h1 h2 =>
          cases h2 with
          | nil => exact .inr ⟨_, _, rfl, rfl, h1⟩
          | cons _ _ => exact .inl ⟨_, rfl, rfl⟩
  | nested l =>
    cases G with
    | flat l' => exact h.elim
    | nested l' =>
      have hl : l.length = l'.length := List.Forall₂.length_eq h
      cases hab with
      | some hx => exact .inr ⟨_, _, rfl, rfl, hx⟩
      | none =>
        simp only [defaultFunction, hl]
        split
        · exact .inl ⟨_, rfl, rfl⟩
        · exact .inl ⟨_, rfl, rfl⟩

theorem pyAukfUpdate_fst {p : PyUParams σ n m} {u : UParams n m} (h : p.Computes u) (s : σ)
    (M : Moments n) (o : Option (Obs m)) {a : PyUUpdateArgs σ n m} {b : UUpdateArgs n m}
    (hf : Option.Rel (fun f F => f.Returns F) a.f b.f)
    (hg : Option.Rel (fun g G => g.Returns G ∧ g.Keeps) a.g b.g) (hQ : a.Q = b.Q) (hR : a.R = b.R) :
    (pyAukfUpdate p s M o a).map Prod.fst = aukfUpdate u M o b := by
  simp only [pyAukfUpdate, aukfUpdate]
  rcases defaultFunction_within h.f hf with ⟨e, f1, f2⟩ | ⟨f, F, f1, f2, f3⟩
  · simp only [f1, f2]; rfl
  rcases defaultFunction_within h.g hg with ⟨e, h1, h2⟩ | ⟨g, G, h1, h2, h3⟩
  · simp only [f1, f2, h1, h2]; rfl
  simp only [f1, f2, h1, h2, bind, Except.bind]
  cases moments2points M with
  | error e => rfl
  | ok pts =>
    have e : pts.withRows (callAll f s pts.points).res = pts.map F := by
      rw [callAll_res f3]; rfl
    simp only [e, hQ, h.Q, hR, h.R]
    cases moments2points (points2moments (pts.map F) (some (b.Q.getD u.Q))) with
    | error e => rfl
    | ok pts' =>
      simp only [pure, Except.pure, Except.map, pyCorrect_fst h3.1 h3.2]
      cases o <;> rfl

/-! ### General noise -/

theorem callAll₂_res {q : ℕ} {f : PyFun σ (Vec k × Vec q) (Vec l)} {F : Vec k → Vec q → Vec l}
    (h : f.Returns fun x => F x.1 x.2) (s : σ) (pts : SigmaPoints N k) (w : SigmaPoints N q) :
    pts.withRows (callAll₂ f s pts w).res = pts.map₂ w F := by
  rw [callAll₂, callAll_res h]; rfl

theorem callAll₂_args {q : ℕ} {f : PyFun σ (Vec k × Vec q) β} (h : f.KeepsState) (s : σ)
    (pts : SigmaPoints N k) (w : SigmaPoints N q) :
    (pts.withRows fun i => ((callAll₂ f s pts w).args i).1) = pts := by
  rw [callAll₂, callAll_argsState h]; rfl

theorem pyCorrect₂_fst {g : PyFun σ (Vec n × Vec m) (Vec m)} {G : Vec n → Vec m → Vec m}
    (h : g.Returns fun x => G x.1 x.2) (hk : g.KeepsState) (s : σ) (pred : Moments n)
    (pts : SigmaPoints N n) (o : Obs m) (w : SigmaPoints N m) :
    (pyCorrect₂ g s pred pts o w).1 = ufCorrect₂ G pred pts o w := by
  simp only [pyCorrect₂, callAll₂_res h, callAll₂_args hk]
  rfl

theorem pyUkfStep_fst {p : PyGParams σ n m} {u : GParams n m} (h : p.Computes u) (s₀ : σ) (t : ℕ)
    (prev : Option (Moments n × σ)) (o : Obs m) :
    ukfStep u t (prev.map Prod.fst) o = (pyUkfStep p s₀ t prev o).map Prod.fst := by
  cases prev with
  | none =>
    simp only [ukfStep, pyUkfStep, Option.map_none, Option.getD_none, h.mu0, h.S0, h.Q, h.R]
    cases augFilterPoints (⟨u.mu0, u.S0⟩ : Moments n) u.Q u.R with
    | error e => rfl
    | ok pts =>
      rcases h.g.entry t with ⟨e, h1, h2⟩ | ⟨g, G, h1, h2, h3⟩
      · simp only [bind, Except.bind, h1, h2]; rfl
      · simp only [bind, Except.bind, h1, h2, pure, Except.pure, Except.map,
          pyCorrect₂_fst h3.1 h3.2]
  | some M =>
    simp only [ukfStep, pyUkfStep, Option.map_some, Option.getD_some, h.Q, h.R]
    cases augFilterPoints M.1 u.Q u.R with
    | error e => rfl
    | ok pts =>
      rcases h.f.entry (t - 1) with ⟨e, f1, f2⟩ | ⟨f, F, f1, f2, f3⟩
      · simp only [bind, Except.bind, f1, f2]; rfl
      · simp only [bind, Except.bind, f1, f2, callAll₂_res f3]
        rcases h.g.entry t with ⟨e, h1, h2⟩ | ⟨g, G, h1, h2, h3⟩
        · simp only [h1, h2]; rfl
        · simp only [h1, h2, pure, Except.pure, Except.map, pyCorrect₂_fst h3.1 h3.2]

theorem pyUkfFilter_fst {p : PyGParams σ n m} {u : GParams n m} (h : p.Computes u) (s : σ)
    (os : List (Obs m)) :
    (pyUkfFilter p s os).map (List.map Prod.fst) = ukfFilter u os := by
  have := (runLoop_map (step := pyUkfStep p s) (step' := ukfStep u) (φ := Prod.fst) (ψ := id)
    (I := fun _ => True) (fun t prev o _ => ⟨pyUkfStep_fst h s t prev o, fun _ _ => trivial⟩)
    os 0 none (by simp)).1
  rw [List.map_id] at this
  exact this.symm

theorem pyUkfSmooth_fst {p : PyGParams σ n m} {u : GParams n m} (h : p.Computes u)
    (hk : p.f.All PyFun.KeepsState) (s : σ) (os : List (Obs m)) :
    (pyUkfSmooth p s os).map (List.map Prod.fst) = ukfSmooth u os := by
  rw [pyUkfSmooth, ukfSmooth, ← pyUkfFilter_fst h s os]
  cases pyUkfFilter p s os with
  | error e => rfl
  | ok l =>
    refine (backFull_map l fun i x _ _ next => ?_).symm
    simp only [ukfSmoothStep, pyUkfSmoothStep, h.Q]
    cases augPoints x.1 (⟨0, u.Q⟩ : Moments n) with
    | error e => rfl
    | ok pts =>
      rcases h.f.entry i with ⟨e, f1, f2⟩ | ⟨f, F, f1, f2, f3⟩
      · simp only [bind, Except.bind, f1, f2]; rfl
      · simp only [bind, Except.bind, f1, f2, callAll₂_res f3, callAll₂_args (hk.entry f1)]
        rfl

/-! ### Square roots -/

theorem pySqCorrect_fst (qr : QR) {g : PyFun σ (Vec n) (Vec m)} {G : Vec n → Vec m}
    (h : g.Returns G) (hk : g.Keeps) (s : σ) (pred : Moments n) (pts : SigmaPoints N n) (o : Obs m)
    (R2 : Mat m m) :
    (pySqCorrect qr g s pred pts o R2).map Prod.fst = sqCorrect qr G pred pts o R2 := by
  have e : pts.withRows (callAll g s pts.points).res = pts.map G := by
    rw [callAll_res h]; rfl
  have e' : pts.withRows (callAll g s pts.points).args = pts := by
    rw [callAll_args hk]; rfl
  simp only [pySqCorrect, sqCorrect, e, e']
  cases sqPoints2moments qr (pts.map G) (some R2) with
  | error e => rfl
  | ok obs =>
    simp only [bind, Except.bind]
    cases sqUnscentedCorrect (crossCov pts pred.mean (pts.map G) obs.mean) pred obs o <;> rfl

theorem pySqStep_fst (qr : QR) {p : PyUParams σ n m} {u : UParams n m} (h : p.Computes u)
    (Q2 : Mat n n) (R2 : Mat m m) (s₀ : σ) (t : ℕ) (prev : Option (Moments n × σ)) (o : Obs m) :
    sqStep qr u Q2 R2 t (prev.map Prod.fst) o
      = (pySqStep qr p Q2 R2 s₀ t prev o).map Prod.fst := by
  cases prev with
  | none =>
    simp only [sqStep, pySqStep, Option.map_none, h.mu0, h.S0]
    cases cholUpper u.S0 with
    | error e => rfl
    | ok S2 =>
      simp only [bind, Except.bind]
      cases sqPoints2moments qr (sqMoments2points ⟨u.mu0, S2⟩) none with
      | error e => rfl
      | ok pred =>
        rcases h.g.entry t with ⟨e, h1, h2⟩ | ⟨g, G, h1, h2, h3⟩
        · simp only [h1, h2]; rfl
        · simp only [h1, h2, ← pySqCorrect_fst qr h3.1 h3.2 s₀]
  | some M =>
    simp only [sqStep, pySqStep, Option.map_some]
    rcases h.f.entry (t - 1) with ⟨e, f1, f2⟩ | ⟨f, F, f1, f2, f3⟩
    · simp only [bind, Except.bind, f1, f2]; rfl
    · have e : (sqMoments2points M.1).withRows (callAll f M.2 (sqMoments2points M.1).points).res
          = (sqMoments2points M.1).map F := by
        rw [callAll_res f3]; rfl
      simp only [bind, Except.bind, f1, f2, e]
      cases sqPoints2moments qr ((sqMoments2points M.1).map F) (some Q2) with
      | error e => rfl
      | ok pred =>
        rcases h.g.entry t with ⟨e, h1, h2⟩ | ⟨g, G, h1, h2, h3⟩
        · simp only [h1, h2]; rfl
        · simp only [h1, h2,
            ← pySqCorrect_fst qr h3.1 h3.2 (callAll f M.2 (sqMoments2points M.1).points).state]

theorem pySqFull_fst (qr : QR) {p : PyUParams σ n m} {u : UParams n m} (h : p.Computes u) (s : σ)
    (os : List (Obs m)) :
    (pySqFull qr p s os).map (List.map Prod.fst) = sqFull qr u os := by
  simp only [pySqFull, sqFull, h.Q, h.R]
  cases cholUpper u.Q with
  | error e => rfl
  | ok Q2 =>
    simp only [bind, Except.bind]
    cases cholUpper u.R with
    | error e => rfl
    | ok R2 =>
      have := (runLoop_map (step := pySqStep qr p Q2 R2 s) (step' := sqStep qr u Q2 R2)
        (φ := Prod.fst) (ψ := id) (I := fun _ => True)
        (fun t prev o _ => ⟨pySqStep_fst qr h Q2 R2 s t prev o, fun _ _ => trivial⟩)
        os 0 none (by simp)).1
      rw [List.map_id] at this
      exact this.symm

theorem pySqFilter_fst (qr : QR) {p : PyUParams σ n m} {u : UParams n m} (h : p.Computes u) (s : σ)
    (os : List (Obs m)) :
    (pySqFilter qr p s os).map (List.map Prod.fst) = sqFilter qr u os := by
  simp only [pySqFilter, sqFilter, ← pySqFull_fst qr h s os]
  cases pySqFull qr p s os with
  | error e => rfl
  | ok l =>
    simp only [Except.map, pure, Except.pure, bind, Except.bind, List.map_map]
    rfl

/-! ### One output array for all calls -/

theorem callState_shared (H : α → β) (s : β) (x : Fin N → α) (i : Fin N) :
    callState (PyFun.sharedOutput H) s x (i + 1) = H (x i) := by
  simp only [callState, i.2, dif_pos, PyFun.sharedOutput]

theorem callAll_shared (H : α → β) (s : β) (x : Fin (N + 1) → α) :
    (callAll (PyFun.sharedOutput H) s x).res = fun _ => H (x (Fin.last N)) := by
  funext i
  exact callState_shared H s x (Fin.last N)

theorem points2moments_const {s : SigmaPoints N k} (hs : ∑ i, s.wm i = 1) (v : Vec l)
    (S : Mat l l) : points2moments (s.withRows fun _ => v) (some S) = ⟨v, S⟩ := by
  have hm : (Matrix.of (fun _ : Fin N => v))ᵀ *ᵥ s.wm = v := by
    funext i
    simp only [mulVec, dotProduct, transpose_apply, of_apply]
    rw [← Finset.mul_sum, hs, mul_one]
  have hd : (Matrix.of fun (i : Fin l) (_ : Fin N) => v i - v i) = (0 : Mat l N) := by
    ext i j; simp
  simp only [points2moments, SigmaPoints.withRows, hm, hd, Matrix.zero_mul, zero_add]

theorem crossCov_const (p : SigmaPoints N n) (mu : Vec n) (s : SigmaPoints N k) (v : Vec m) :
    crossCov p mu (s.withRows fun _ => v) v = 0 := by
  have hd : (Matrix.of fun (_ : Fin N) (i : Fin m) => v i - v i) = (0 : Mat N m) := by
    ext i j; simp
  simp only [crossCov, SigmaPoints.withRows, hd, Matrix.mul_zero]

theorem unscentedCorrect_zero (pred : Moments n) (obs : Moments m) (o : Obs m) :
    unscentedCorrect (0 : Mat n m) pred obs o = pred := by
  rw [unscentedCorrect]
  split
  · simp
  · rfl

theorem pyCorrect_shared (G : Vec n → Vec m) (s : Vec m) (pred : Moments n)
    {pts : SigmaPoints (N + 1) n} (hs : ∑ i, pts.wm i = 1) (o : Obs m) (R : Mat m m) :
    (pyCorrect (PyFun.sharedOutput G) s pred pts o R).1 = pred := by
  simp only [pyCorrect, callAll_shared, points2moments_const hs, crossCov_const,
    unscentedCorrect_zero]

theorem pyAukfStep_shared {p : PyUParams (Vec m) n m} {u : UParams n m} (hm : 0 < m)
    (hf : Fns.Within (fun f F => f.Returns F) p.f u.f) {G G' : Vec n → Vec m}
    (hg : p.g = .flat [.sharedOutput G]) (hg' : u.g = .flat [G']) (hQ : p.Q = u.Q)
    (h0 : p.mu0 = u.mu0) (hS : p.S0 = u.S0) (s₀ : Vec m) (t : ℕ)
    (prev : Option (Moments n × Vec m)) (o : Obs m) :
    aukfStep u t (prev.map Prod.fst) ⟨o.val, fun _ => true⟩
      = (pyAukfStep p s₀ t prev o).map Prod.fst := by
  have hmis : (⟨o.val, fun _ => true⟩ : Obs m).missing := ⟨⟨0, hm⟩, rfl⟩
  have hu : ∀ (pred : Moments n) (pts : SigmaPoints (n + n + 1) n),
      ufCorrect G' pred pts ⟨o.val, fun _ => true⟩ u.R = pred := fun pred pts => by
    simp only [ufCorrect, unscentedCorrect, hmis, not_true, if_false]
  cases prev with
  | none =>
    simp only [aukfStep, pyAukfStep, Option.map_none, Option.getD_none, h0, hS]
    cases hp : moments2points (⟨u.mu0, u.S0⟩ : Moments n) with
    | error e => rfl
    | ok pts =>
      simp only [bind, Except.bind, hg, hg', Fns.at, first, pure, Except.pure, Except.map, hu,
        pyCorrect_shared G _ _ (moments2points_sum hp)]
  | some M =>
    simp only [aukfStep, pyAukfStep, Option.map_some, Option.getD_some]
    cases moments2points M.1 with
    | error e => rfl
    | ok pts =>
      rcases hf.entry (t - 1) with ⟨e, f1, f2⟩ | ⟨f, F, f1, f2, f3⟩
      · simp only [bind, Except.bind, f1, f2]; rfl
      · have e : pts.withRows (callAll f M.2 pts.points).res = pts.map F := by
          rw [callAll_res f3]; rfl
        simp only [bind, Except.bind, f1, f2, e, hQ]
        cases hp : moments2points (points2moments (pts.map F) (some u.Q)) with
        | error e => rfl
        | ok pts' =>
          simp only [hg, hg', Fns.at, first, pure, Except.pure, Except.map, hu,
            pyCorrect_shared G _ _ (moments2points_sum hp)]

/-! ### Functions that work in the array they get -/

theorem callAll_inPlace (H : α → α) (s : σ) (x : Fin N → α) :
    callAll (PyFun.inPlace H) s x = ⟨fun i => H (x i), fun i => H (x i), s⟩ := by
  have hs : ∀ i, callState (PyFun.inPlace H) s x i = s := by
    intro i
    induction i with
    | zero => rfl
    | succ i ih =>
      rw [callState]
      split_ifs
      · rw [ih]; rfl
      · exact ih
  simp only [callAll, hs]
  rfl

theorem crossCov_center (p : SigmaPoints N n) (q : SigmaPoints N m) (mu c : Vec n) {nu : Vec m}
    (hw : q.wm = p.wm) (hs : ∑ i, p.wm i = 1) (hm : (Matrix.of q.points)ᵀ *ᵥ q.wm = nu) :
    crossCov p mu q nu = crossCov p c q nu := by
  ext i k
  have h0 : ∑ j, p.wm j * (q.points j k - nu k) = 0 := by
    have := congrFun hm k
    simp only [mulVec, dotProduct, transpose_apply, of_apply, hw] at this
    simp only [mul_sub, Finset.sum_sub_distrib, ← Finset.sum_mul, hs, one_mul]
    rw [← this, sub_eq_zero]
    exact Finset.sum_congr rfl fun j _ => mul_comm _ _
  have hc : ∀ c : Vec n, crossCov p c q nu i k
      = ∑ j, (p.points j i - c i) * p.wm j * (q.points j k - nu k) := fun c => by
    rw [crossCov, mul_apply]
    exact Finset.sum_congr rfl fun j _ => by rw [mul_diagonal]; rfl
  rw [← sub_eq_zero, hc, hc, ← Finset.sum_sub_distrib]
  have : ∀ j, (p.points j i - mu i) * p.wm j * (q.points j k - nu k)
      - (p.points j i - c i) * p.wm j * (q.points j k - nu k)
      = (c i - mu i) * (p.wm j * (q.points j k - nu k)) := fun j => by ring
  simp only [this, ← Finset.mul_sum, h0, mul_zero]

theorem pyCorrect_inPlace {C : Mat n n} {R : Mat n n} {d : Vec n} {mu : Vec n} {S : Mat n n}
    {pts : SigmaPoints N n} (h : IsSigma pts mu S) {g : Vec n → Vec n}
    (hg : ∀ x, g x = C *ᵥ x + d) (s : σ) (o : Obs n) :
    pyCorrect (PyFun.inPlace g) s ⟨mu, S⟩ pts o R
      = (unscentedCorrect (C * S * Cᵀ) ⟨mu, S⟩ ⟨C *ᵥ mu + d, C * S * Cᵀ + R⟩ o, s) := by
  have h1 := (h.map C d hg).points2moments_some R
  have h2 := h.crossCov C d hg C d hg
  rw [crossCov_center (pts.map g) (pts.map g) _ mu rfl h.sum (h.map C d hg).mean] at h2
  have e : pts.withRows (fun i => g (pts.points i)) = pts.map g := rfl
  simp only [pyCorrect, callAll_inPlace, e, h1, h2]

theorem moments2points_oneWeight {M : Moments n} {s : SigmaPoints (n + n + 1) n}
    (h : moments2points M = .ok s) : s.OneWeight := by
  simp only [moments2points] at h
  cases hc : cholUpperT M.cov with
  | error e => rw [hc] at h; cases h
  | ok G =>
    rw [hc] at h
    simp only [bind, Except.bind, pure, Except.pure, Except.ok.injEq] at h
    rw [← h]
    simp only [SigmaPoints.OneWeight, sigmaPoints, Option.getD_none]
    congr 1
    norm_num

theorem ufSmooth_inPlace {A : Mat n n} {b : Vec n} {mu : Vec n} {S : Mat n n}
    {pts : SigmaPoints N n} (h : IsSigma pts mu S) (hw : pts.OneWeight) {f : Vec n → Vec n}
    (hf : ∀ x, f x = A *ᵥ x + b) (Pp P : Mat n n) (next : Moments n) :
    ufSmooth ⟨mu, P⟩ (pts.map f) (pts.map f) ⟨A *ᵥ mu + b, Pp⟩ next
      = ⟨mu + ((A * S * Aᵀ)ᵀ * pinv Pp) *ᵥ (next.mean - (A *ᵥ mu + b)),
         P + (A * S * Aᵀ)ᵀ * pinv Pp * (next.cov - Pp) * ((A * S * Aᵀ)ᵀ * pinv Pp)ᵀ⟩ := by
  have h2 := h.crossCov A b hf A b hf
  rw [crossCov_center (pts.map f) (pts.map f) _ mu rfl h.sum (h.map A b hf).mean] at h2
  have e : (Matrix.of fun i j => (pts.map f).points j i - (A *ᵥ mu + b) i : Mat n N)
      * diagonal (pts.map f).wc
      * (Matrix.of fun j i => (pts.map f).points j i - mu i : Mat N n) = (A * S * Aᵀ)ᵀ := by
    rw [← h2, crossCov, transpose_mul, transpose_mul, diagonal_transpose, ← Matrix.mul_assoc,
      show (pts.map f).wc = (pts.map f).wm from hw]
    rfl
  have e' : (A * S * Aᵀ)ᵀ = A * S * Aᵀ := by
    have := h.covc
    rw [← this]
    simp only [transpose_mul, transpose_transpose, diagonal_transpose, Matrix.mul_assoc]
  simp only [ufSmooth, e]
  rw [e', e']

/-! ### Counters -/

theorem callState_countFst (K : ℕ) (H : ℕ → α → β) (s : ℕ × ℕ) (x : Fin N → α) {i : ℕ}
    (hi : i ≤ N) : callState (PyFun.countFst K H) s x i = (s.1 + i, s.2) := by
  induction i with
  | zero => rfl
  | succ i ih =>
    rw [callState, dif_pos (by omega), ih (by omega)]
    rfl

theorem callState_countSnd (K : ℕ) (H : ℕ → α → β) (s : ℕ × ℕ) (x : Fin N → α) {i : ℕ}
    (hi : i ≤ N) : callState (PyFun.countSnd K H) s x i = (s.1, s.2 + i) := by
  induction i with
  | zero => rfl
  | succ i ih =>
    rw [callState, dif_pos (by omega), ih (by omega)]
    rfl

theorem callAll_countFst (H : ℕ → α → β) (t b : ℕ) (x : Fin N → α) :
    callAll (PyFun.countFst N H) (t * N, b) x = ⟨x, fun i => H t (x i), ((t + 1) * N, b)⟩ := by
  have hd : ∀ i : Fin N, (t * N + i) / N = t := fun i => by
    rw [Nat.div_eq_of_lt_le] <;> nlinarith [i.2]
  simp only [callAll, Called.mk.injEq]
  refine ⟨rfl, funext fun i => ?_, ?_⟩
  · rw [callState_countFst _ _ _ _ i.2.le]
    simp only [PyFun.countFst, hd]
  · rw [callState_countFst _ _ _ _ le_rfl, add_one_mul]

theorem callAll_countSnd (H : ℕ → α → β) (t a : ℕ) (x : Fin N → α) :
    callAll (PyFun.countSnd N H) (a, t * N) x = ⟨x, fun i => H t (x i), (a, (t + 1) * N)⟩ := by
  have hd : ∀ i : Fin N, (t * N + i) / N = t := fun i => by
    rw [Nat.div_eq_of_lt_le] <;> nlinarith [i.2]
  simp only [callAll, Called.mk.injEq]
  refine ⟨rfl, funext fun i => ?_, ?_⟩
  · rw [callState_countSnd _ _ _ _ i.2.le]
    simp only [PyFun.countSnd, hd]
  · rw [callState_countSnd _ _ _ _ le_rfl, add_one_mul]

/-- The filter with functions that count. -/
def UParams.counting (u : UParams n m) (F : ℕ → Vec n → Vec n) (G : ℕ → Vec n → Vec m) :
    PyUParams (ℕ × ℕ) n m :=
  ⟨.flat [.countFst (n + n + 1) F], .flat [.countSnd (n + n + 1) G], u.Q, u.R, u.mu0, u.S0⟩

theorem pyCorrect_count (G : ℕ → Vec n → Vec m) (t a : ℕ) (pred : Moments n) (pts : SigmaPoints N n)
    (o : Obs m) (R : Mat m m) :
    pyCorrect (PyFun.countSnd N G) (a, t * N) pred pts o R
      = (ufCorrect (G t) pred pts o R, a, (t + 1) * N) := by
  simp only [pyCorrect, callAll_countSnd]
  rfl

theorem pyAukf_counting_loop {u : UParams n m} {F : ℕ → Vec n → Vec n} {G : ℕ → Vec n → Vec m}
    (s₀ : ℕ × ℕ) (os : List (Obs m)) (t : ℕ) (M : Moments n)
    (hf : ∀ i, i < os.length → u.f.at (t + i) = .ok (F (t + i)))
    (hg : ∀ i, i < os.length → u.g.at (t + 1 + i) = .ok (G (t + 1 + i))) :
    runLoop (pyAukfStep (u.counting F G) s₀) (t + 1)
        (some (M, t * (n + n + 1), (t + 1) * (n + n + 1))) os
      = (runLoop (aukfStep u) (t + 1) (some M) os).map
        (List.mapIdx fun i M => (M, (t + 1 + i) * (n + n + 1), (t + 1 + i + 1) * (n + n + 1))) := by
  induction os generalizing t M with
  | nil => rfl
  | cons o os ih =>
    have f0 := hf 0 (by simp)
    have g0 := hg 0 (by simp)
    simp only [add_zero] at f0 g0
    have key : pyAukfStep (u.counting F G) s₀ (t + 1)
        (some (M, t * (n + n + 1), (t + 1) * (n + n + 1))) o
        = (aukfStep u (t + 1) (some M) o).map fun M =>
          (M, (t + 1) * (n + n + 1), (t + 1 + 1) * (n + n + 1)) := by
      simp only [pyAukfStep, aukfStep, Option.getD_some, Nat.add_sub_cancel, f0, g0]
      cases moments2points M with
      | error e => rfl
      | ok pts =>
        simp only [bind, Except.bind, UParams.counting, Fns.at, first, callAll_countFst]
        have e : (pts.withRows fun i => F t (pts.points i)) = pts.map (F t) := rfl
        rw [e]
        cases moments2points (points2moments (pts.map (F t)) (some u.Q)) with
        | error e => rfl
        | ok pts' =>
          simp only [pure, Except.pure, Except.map, pyCorrect_count]
    simp only [runLoop, key]
    cases aukfStep u (t + 1) (some M) o with
    | error e => rfl
    | ok M' =>
      have := ih (t + 1) M' (fun i hi => by
        have := hf (i + 1) (by simpa using hi)
        rwa [show t + (i + 1) = t + 1 + i by omega] at this) fun i hi => by
        have := hg (i + 1) (by simpa using hi)
        rwa [show t + 1 + (i + 1) = t + 1 + 1 + i by omega] at this
      simp only [Except.map, bind, Except.bind, this]
      cases runLoop (aukfStep u) (t + 1 + 1) (some M') os with
      | error e => rfl
      | ok l =>
        simp only [pure, Except.pure, List.mapIdx_cons, add_zero, Except.ok.injEq, List.cons.injEq,
          true_and]
        congr 1
        funext i M
        rw [show t + 1 + (i + 1) = t + 1 + 1 + i by omega]

theorem pyAukf_counting {u : UParams n m} {F : ℕ → Vec n → Vec n} {G : ℕ → Vec n → Vec m}
    (os : List (Obs m)) (hf : ∀ t, t + 1 < os.length → u.f.at t = .ok (F t))
    (hg : ∀ t, t < os.length → u.g.at t = .ok (G t)) :
    pyAukfFilter (u.counting F G) (0, 0) os
      = (aukfFilter u os).map
        (List.mapIdx fun t M => (M, t * (n + n + 1), (t + 1) * (n + n + 1))) := by
  cases os with
  | nil => rfl
  | cons o os =>
    have g0 := hg 0 (by simp)
    have key : pyAukfStep (u.counting F G) (0, 0) 0 none o
        = (aukfStep u 0 none o).map fun M => (M, 0 * (n + n + 1), (0 + 1) * (n + n + 1)) := by
      simp only [pyAukfStep, aukfStep, Option.getD_none, g0]
      have e : moments2points (⟨(u.counting F G).mu0, (u.counting F G).S0⟩ : Moments n)
        = moments2points ⟨u.mu0, u.S0⟩ := rfl
      rw [e]
      cases moments2points (⟨u.mu0, u.S0⟩ : Moments n) with
      | error e => rfl
      | ok pts =>
        have := pyCorrect_count G 0 0 (points2moments pts none) pts o u.R
        rw [zero_mul] at this
        simp only [bind, Except.bind, UParams.counting, Fns.at, first, pure, Except.pure,
          Except.map, this, zero_mul]
    simp only [pyAukfFilter, aukfFilter, runLoop, key]
    cases aukfStep u 0 none o with
    | error e => rfl
    | ok M' =>
      have := pyAukf_counting_loop (F := F) (G := G) (0, 0) os 0 M' (fun i hi => by
        rw [zero_add]; exact hf i (by simpa using hi)) fun i hi => by
        rw [zero_add, add_comm 1 i]
        exact hg (i + 1) (by simpa using hi)
      simp only [zero_add] at this
      simp only [Except.map, bind, Except.bind, zero_add, this]
      cases runLoop (aukfStep u) 1 (some M') os with
      | error e => rfl
      | ok l =>
        simp only [pure, Except.pure, List.mapIdx_cons, zero_add, Except.ok.injEq, List.cons.injEq,
          true_and]
        congr 1
        funext i M
        rw [show 1 + i = i + 1 by omega]

/-! ### `sample` -/

/-- All states but the last replaced by what the transition function leaves of them. -/
def leftOver (h : Vec n → Vec n) : List (Vec n × Vec m) → List (Vec n × Vec m)
  | [] => []
  | [r] => [r]
  | r :: r' :: l => (h r.1, r.2) :: leftOver h (r' :: l)

theorem leftOver_getElem? (h : Vec n → Vec n) (l : List (Vec n × Vec m)) (t : ℕ)
    {r : Vec n × Vec m} (hr : l[t]? = some r) :
    (leftOver h l)[t]? = some (if t + 1 < l.length then h r.1 else r.1, r.2) := by
  induction l generalizing t with
  | nil => simp at hr
  | cons a l ih =>
    cases l with
    | nil =>
      cases t with
      | zero => simp at hr; subst hr; simp [leftOver]
      | succ t => simp at hr
    | cons b l =>
      cases t with
      | zero => simp at hr; subst hr; simp [leftOver]
      | succ t =>
        have := ih t (by simpa using hr)
        simp only [leftOver, List.getElem?_cons_succ, this, List.length_cons]
        simp

theorem leftOver_length (h : Vec n → Vec n) (l : List (Vec n × Vec m)) :
    (leftOver h l).length = l.length := by
  induction l with
  | nil => rfl
  | cons a l ih =>
    cases l with
    | nil => rfl
    | cons b l => simpa [leftOver] using ih

theorem leftOver_id (l : List (Vec n × Vec m)) : leftOver (fun x => x) l = l := by
  induction l with
  | nil => rfl
  | cons a l ih =>
    cases l with
    | nil => rfl
    | cons b l => simp [leftOver, ih]

theorem pyAukfSampleLoop_eq {ρ : Type} (rng : Rng ρ) {p : PyUParams σ n m} {u : UParams n m}
    (h : p.Computes u) {hh : Vec n → Vec n} (hl : p.f.All fun f => ∀ s x, (f s x).2.1 = hh x)
    (k t : ℕ) (prev : Vec n) (z : Vec m) (s : σ) (r : ρ) :
    (pyAukfSampleLoop rng p k t prev s r).map (fun q => (q.1, z) :: q.2)
      = (aukfSampleLoop rng u k t prev r).map fun l => leftOver hh ((prev, z) :: l) := by
  induction k generalizing t prev z s r with
  | zero => rfl
  | succ k ih =>
    simp only [pyAukfSampleLoop, aukfSampleLoop, h.Q, h.R]
    rcases h.f.entry (t - 1) with ⟨e, f1, f2⟩ | ⟨f, F, f1, f2, f3⟩
    · simp only [bind, Except.bind, f1, f2]; rfl
    rcases h.g.entry t with ⟨e, h1, h2⟩ | ⟨g, G, h1, h2, h3⟩
    · simp only [bind, Except.bind, f1, f2, h1, h2]; rfl
    have hf := f3 s prev
    have hx := hl.entry f1 s prev
    simp only [bind, Except.bind, f1, f2, h1, h2, hf]
    have hg := h3.1 (f s prev).1 (F prev + (rng.normal n 0 u.Q r).1)
    simp only [hg]
    simp only [h3.2 _ _, hx]
    have := ih (t + 1) (F prev + (rng.normal n 0 u.Q r).1)
      (G (F prev + (rng.normal n 0 u.Q r).1) + (rng.normal m 0 u.R (rng.normal n 0 u.Q r).2).1)
      (g (f s prev).1 (F prev + (rng.normal n 0 u.Q r).1)).1
      (rng.normal m 0 u.R (rng.normal n 0 u.Q r).2).2
    revert this
    cases pyAukfSampleLoop rng p k (t + 1) (F prev + (rng.normal n 0 u.Q r).1)
      (g (f s prev).1 (F prev + (rng.normal n 0 u.Q r).1)).1
      (rng.normal m 0 u.R (rng.normal n 0 u.Q r).2).2 with
    | error e =>
      cases aukfSampleLoop rng u k (t + 1) (F prev + (rng.normal n 0 u.Q r).1)
        (rng.normal m 0 u.R (rng.normal n 0 u.Q r).2).2 with
      | error e' => intro this; cases this; rfl
      | ok l => intro this; cases this
    | ok q =>
      cases aukfSampleLoop rng u k (t + 1) (F prev + (rng.normal n 0 u.Q r).1)
        (rng.normal m 0 u.R (rng.normal n 0 u.Q r).2).2 with
      | error e' => intro this; cases this
      | ok l =>
        intro this
        simp only [Except.map, Except.ok.injEq] at this
        simp only [Except.map, pure, Except.pure, this, leftOver]

theorem pyAukfSample_eq {ρ : Type} (rng : Rng ρ) {p : PyUParams σ n m} {u : UParams n m}
    (h : p.Computes u) {hh : Vec n → Vec n} (hl : p.f.All fun f => ∀ s x, (f s x).2.1 = hh x)
    (T : ℕ) (initial : Option (Vec n)) (s : σ) (r : ρ) :
    pyAukfSample rng p T initial s r = (aukfSample rng u T initial r).map (leftOver hh) := by
  cases T with
  | zero => cases initial <;> rfl
  | succ k =>
    have key : ∀ i : Vec n × ρ, (do
        let g ← p.g.at 0
        let v := rng.normal m 0 p.R i.2
        let c := g s i.1
        let z := c.2.2 c.1 c.2.1 + v.1
        let rest ← pyAukfSampleLoop rng p k 1 c.2.1 c.1 v.2
        pure ((rest.1, z) :: rest.2) : Res (List (Vec n × Vec m)))
        = (do
        let g ← u.g.at 0
        let v := rng.normal m 0 u.R i.2
        let z := g i.1 + v.1
        let rest ← aukfSampleLoop rng u k 1 i.1 v.2
        pure ((i.1, z) :: rest) : Res (List (Vec n × Vec m))).map (leftOver hh) := by
      intro i
      rcases h.g.entry 0 with ⟨e, h1, h2⟩ | ⟨g, G, h1, h2, h3⟩
      · simp only [bind, Except.bind, h1, h2]; rfl
      have hg := h3.1 s i.1
      simp only [bind, Except.bind, h1, h2, hg, h.R]
      simp only [h3.2 _ _]
      have := pyAukfSampleLoop_eq rng h hl k 1 i.1 (G i.1 + (rng.normal m 0 u.R i.2).1)
        (g s i.1).1 (rng.normal m 0 u.R i.2).2
      revert this
      cases pyAukfSampleLoop rng p k 1 i.1 (g s i.1).1 (rng.normal m 0 u.R i.2).2 with
      | error e =>
        cases aukfSampleLoop rng u k 1 i.1 (rng.normal m 0 u.R i.2).2 with
        | error e' => intro this; cases this; rfl
        | ok l => intro this; cases this
      | ok q =>
        cases aukfSampleLoop rng u k 1 i.1 (rng.normal m 0 u.R i.2).2 with
        | error e' => intro this; cases this
        | ok l => exact fun this => this
    cases initial with
    | none =>
      simp only [pyAukfSample, aukfSample, h.mu0, h.S0]
      exact key _
    | some x => exact key (x, r)

end Verif
