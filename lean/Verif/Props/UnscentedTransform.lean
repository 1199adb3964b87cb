import Verif.Proofs.UnscentedTransform
import Verif.Props.Unscented

/-!
# C53: the unscented filters compute the unscented transform, for arbitrary functions

`Spec/UnscentedTransform.lean` states the textbook transform.  Covariances that are given must be
symmetric; each theorem is an equivalence, so it also says exactly when there is a result.
-/

open Matrix

namespace Verif

variable {n m : ℕ}

/-- **C53.** The rows of the additive unscented filter: the first one corrects the initial moments by
the first observation, the others predict and correct. -/
theorem C53_additive_filter {p : UParams n m} (hS : p.S0ᵀ = p.S0) (hQ : p.Qᵀ = p.Q)
    (hR : p.Rᵀ = p.R) {os : List (Obs m)} {l : List (Moments n)} :
    aukfFilter p os = .ok l ↔ l.length = os.length ∧
      (∀ (h : 0 < os.length) (h' : 0 < l.length),
        ∃ g, p.g.at 0 = .ok g ∧ AddCorrects g p.R ⟨p.mu0, p.S0⟩ os[0] l[0]) ∧
      ∀ t (h : t + 1 < os.length) (h' : t + 1 < l.length),
        ∃ f g, p.f.at t = .ok f ∧ p.g.at (t + 1) = .ok g ∧
          AddStep f g p.Q p.R l[t] os[t + 1] l[t + 1] := by
  rw [aukfFilter, runLoop_iff]
  simp only [zero_add, aukfStep_zero hS hR]
  constructor
  · rintro ⟨h1, h2, h3⟩
    have hs : ∀ t (h : t < l.length), (l[t]).covᵀ = (l[t]).cov := by
      intro t
      induction t with
      | zero =>
        intro h
        obtain ⟨g, -, hg⟩ := h2 (h1 ▸ h) h
        exact hg.symm hR
      | succ t ih =>
        intro h
        have := h3 t (h1 ▸ h) h
        rw [aukfStep_succ hQ hR (ih (by omega))] at this
        obtain ⟨f, g, -, -, h4⟩ := this
        exact h4.symm hR
    exact ⟨h1, h2, fun t h h' => (aukfStep_succ hQ hR (hs t (by omega))).mp (h3 t h h')⟩
  · rintro ⟨h1, h2, h3⟩
    refine ⟨h1, h2, fun t h h' => (aukfStep_succ hQ hR ?_).mpr (h3 t h h')⟩
    cases t with
    | zero =>
      obtain ⟨g, -, hg⟩ := h2 (by omega) (by omega)
      exact hg.symm hR
    | succ t =>
      obtain ⟨f, g, -, -, h4⟩ := h3 t (by omega) (by omega)
      exact h4.symm hR

private theorem additive_symm {p : UParams n m} (hS : p.S0ᵀ = p.S0) (hQ : p.Qᵀ = p.Q)
    (hR : p.Rᵀ = p.R) {os : List (Obs m)} {l : List (Moments n)} (h : aukfFilter p os = .ok l)
    (t : ℕ) (ht : t < l.length) : (l[t]).covᵀ = (l[t]).cov := by
  obtain ⟨h1, h2, h3⟩ := (C53_additive_filter hS hQ hR).mp h
  cases t with
  | zero =>
    obtain ⟨g, -, hg⟩ := h2 (by omega) ht
    exact hg.symm hR
  | succ t =>
    obtain ⟨f, g, -, -, h4⟩ := h3 t (by omega) ht
    exact h4.symm hR

/-- **C53.** The rows of the additive unscented smoother: the last one is the filter's, the others are
the filter's, corrected by the next smoothed row with the cross covariance of the transform. -/
theorem C53_additive_smooth {p : UParams n m} (hS : p.S0ᵀ = p.S0) (hQ : p.Qᵀ = p.Q)
    (hR : p.Rᵀ = p.R) {os : List (Obs m)} {l' : List (Moments n)} :
    aukfSmooth p os = .ok l' ↔ ∃ l, aukfFilter p os = .ok l ∧ l ≠ [] ∧ l'.length = l.length ∧
      l'.getLast? = l.getLast? ∧
      ∀ t (h : t + 1 < l.length) (h' : t + 1 < l'.length),
        ∃ f, p.f.at t = .ok f ∧ ∃ P Γ, AddPredicts f p.Q l[t] P Γ ∧
          SmoothedBack l[t] P l'[t + 1] Γ l'[t] := by
  rw [aukfSmooth, ok_bind_iff]
  refine exists_congr fun l => and_congr_right fun hl => ?_
  rw [backFull_iff]
  refine and_congr_right fun _ => and_congr_right fun _ => and_congr_right fun _ => ?_
  exact forall_congr' fun t => forall_congr' fun h => forall_congr' fun h' =>
    aukfSmoothStep_iff (additive_symm hS hQ hR hl t (by omega))

/-- What `default_function` returns. -/
private theorem defaultFunction_iff {α : Type} {arg : Option α} {fns : Fns α} {f : α} :
    defaultFunction arg fns = .ok f ↔ Provided arg fns f := by
  unfold Provided
  cases arg with
  | some f' => cases fns <;> simp [defaultFunction]
  | none =>
    cases fns with
    | nested l =>
      simp only [defaultFunction]
      split <;> simp
    | flat l =>
      match l with
      | [] => simp [defaultFunction]
      | [a] => simp [defaultFunction]
      | _ :: _ :: _ => simp [defaultFunction]

/-- **C53.** `AdditiveUnscentedKalmanFilter.filter_update` is one step of the transform with the
functions and covariances passed to it, or the filter's own where they are omitted. -/
theorem C53_additive_update {p : UParams n m} {a : UUpdateArgs n m} {Q : Mat n n} {R : Mat m m}
    (hQ : a.Q = some Q ∨ a.Q = none ∧ p.Q = Q) (hR : a.R = some R ∨ a.R = none ∧ p.R = R)
    (hQs : Qᵀ = Q) (hRs : Rᵀ = R) {M M' : Moments n} (hM : M.covᵀ = M.cov) (o : Obs m) :
    aukfUpdate p M (some o) a = .ok M' ↔
      ∃ f g, Provided a.f p.f f ∧ Provided a.g p.g g ∧ AddStep f g Q R M o M' := by
  have hQ' : a.Q.getD p.Q = Q := by
    rcases hQ with h | ⟨h, h'⟩ <;> simp [h]
    exact h'
  have hR' : a.R.getD p.R = R := by
    rcases hR with h | ⟨h, h'⟩ <;> simp [h]
    exact h'
  simp only [aukfUpdate, ok_bind_iff, pure_ok_iff, defaultFunction_iff, hQ', hR',
    ← step_iff hM hQs hRs]
  constructor
  · rintro ⟨f, hf, g, hg, s, h1, s', h2, h3⟩
    exact ⟨f, g, hf, hg, s, h1, s', h2, h3⟩
  · rintro ⟨f, g, hf, hg, s, h1, s', h2, h3⟩
    exact ⟨f, hf, g, hg, s, h1, s', h2, h3⟩

/-- **C53.** The rows of `UnscentedKalmanFilter.filter`: joint sigma points of state and both noises,
passed through both functions. -/
theorem C53_filter {p : GParams n m} (hS : p.S0ᵀ = p.S0) (hQ : p.Qᵀ = p.Q)
    (hR : p.Rᵀ = p.R) {os : List (Obs m)} {l : List (Moments n)} :
    ukfFilter p os = .ok l ↔ l.length = os.length ∧
      (∀ (h : 0 < os.length) (h' : 0 < l.length), ∃ g, p.g.at 0 = .ok g ∧
        GenStep (fun x _ => x) g p.Q p.R ⟨p.mu0, p.S0⟩ os[0] l[0]) ∧
      ∀ t (h : t + 1 < os.length) (h' : t + 1 < l.length),
        ∃ f g, p.f.at t = .ok f ∧ p.g.at (t + 1) = .ok g ∧
          GenStep f g p.Q p.R l[t] os[t + 1] l[t + 1] := by
  rw [ukfFilter, runLoop_iff]
  simp only [zero_add, ukfStep_zero hS hQ hR]
  constructor
  · rintro ⟨h1, h2, h3⟩
    have hs : ∀ t (h : t < l.length), (l[t]).covᵀ = (l[t]).cov := by
      intro t
      induction t with
      | zero =>
        intro h
        obtain ⟨g, -, hg⟩ := h2 (h1 ▸ h) h
        exact hg.symm
      | succ t ih =>
        intro h
        have := h3 t (h1 ▸ h) h
        rw [ukfStep_succ hQ hR (ih (by omega))] at this
        obtain ⟨f, g, -, -, h4⟩ := this
        exact h4.symm
    exact ⟨h1, h2, fun t h h' => (ukfStep_succ hQ hR (hs t (by omega))).mp (h3 t h h')⟩
  · rintro ⟨h1, h2, h3⟩
    refine ⟨h1, h2, fun t h h' => (ukfStep_succ hQ hR ?_).mpr (h3 t h h')⟩
    cases t with
    | zero =>
      obtain ⟨g, -, hg⟩ := h2 (by omega) (by omega)
      exact hg.symm
    | succ t =>
      obtain ⟨f, g, -, -, h4⟩ := h3 t (by omega) (by omega)
      exact h4.symm

private theorem general_symm {p : GParams n m} (hS : p.S0ᵀ = p.S0) (hQ : p.Qᵀ = p.Q)
    (hR : p.Rᵀ = p.R) {os : List (Obs m)} {l : List (Moments n)} (h : ukfFilter p os = .ok l)
    (t : ℕ) (ht : t < l.length) : (l[t]).covᵀ = (l[t]).cov := by
  obtain ⟨h1, h2, h3⟩ := (C53_filter hS hQ hR).mp h
  cases t with
  | zero =>
    obtain ⟨g, -, hg⟩ := h2 (by omega) ht
    exact hg.symm
  | succ t =>
    obtain ⟨f, g, -, -, h4⟩ := h3 t (by omega) ht
    exact h4.symm

/-- **C53.** The rows of `UnscentedKalmanFilter.smooth`: joint sigma points of state and transition
noise, passed through the transition function. -/
theorem C53_smooth {p : GParams n m} (hS : p.S0ᵀ = p.S0) (hQ : p.Qᵀ = p.Q)
    (hR : p.Rᵀ = p.R) {os : List (Obs m)} {l' : List (Moments n)} :
    ukfSmooth p os = .ok l' ↔ ∃ l, ukfFilter p os = .ok l ∧ l ≠ [] ∧ l'.length = l.length ∧
      l'.getLast? = l.getLast? ∧
      ∀ t (h : t + 1 < l.length) (h' : t + 1 < l'.length),
        ∃ f, p.f.at t = .ok f ∧ ∃ P Γ, GenPredicts f p.Q l[t] P Γ ∧
          SmoothedBack l[t] P l'[t + 1] Γ l'[t] := by
  rw [ukfSmooth, ok_bind_iff]
  refine exists_congr fun l => and_congr_right fun hl => ?_
  rw [backFull_iff]
  refine and_congr_right fun _ => and_congr_right fun _ => and_congr_right fun _ => ?_
  exact forall_congr' fun t => forall_congr' fun h => forall_congr' fun h' =>
    ukfSmoothStep_iff hQ (general_symm hS hQ hR hl t (by omega))

/-- **C53.** `UnscentedKalmanFilter.filter_update` is one step of the transform with the functions and
covariances passed to it, or the filter's own where they are omitted. -/
theorem C53_update {p : GParams n m} {a : GUpdateArgs n m} {Q : Mat n n} {R : Mat m m}
    (hQ : a.Q = some Q ∨ a.Q = none ∧ p.Q = Q) (hR : a.R = some R ∨ a.R = none ∧ p.R = R)
    (hQs : Qᵀ = Q) (hRs : Rᵀ = R) {M M' : Moments n} (hM : M.covᵀ = M.cov) (o : Obs m) :
    ukfUpdate p M (some o) a = .ok M' ↔
      ∃ f g, Provided a.f p.f f ∧ Provided a.g p.g g ∧ GenStep f g Q R M o M' := by
  have hQ' : a.Q.getD p.Q = Q := by
    rcases hQ with h | ⟨h, h'⟩ <;> simp [h]
    exact h'
  have hR' : a.R.getD p.R = R := by
    rcases hR with h | ⟨h, h'⟩ <;> simp [h]
    exact h'
  simp only [ukfUpdate, ok_bind_iff, pure_ok_iff, defaultFunction_iff, hQ', hR',
    ← genStep_iff hM hQs hRs]
  constructor
  · rintro ⟨f, hf, g, hg, r, h1, h2⟩
    exact ⟨f, g, hf, hg, r, h1, h2⟩
  · rintro ⟨f, g, hf, hg, r, h1, h2⟩
    exact ⟨f, hf, g, hg, r, h1, h2⟩

/-! ### The hypotheses are met, and the transform is not trivial -/

/-- A nonlinear filter with two states, one of them squared in the observation. -/
noncomputable def exSquare : UParams 2 1 where
  f := .flat [fun x => ![x 0 * x 1, x 1]]
  g := .flat [fun x => ![x 0 ^ 2]]
  Q := 1
  R := 1
  mu0 := ![1, 0]
  S0 := 1

/-- It has a result for every sequence of observations, whose rows are those of the transform. -/
example (os : List (Obs 1)) : ∃ l, aukfFilter exSquare os = .ok l ∧ l.length = os.length ∧
    ∀ t (h : t + 1 < os.length) (h' : t + 1 < l.length),
      AddStep (fun x => ![x 0 * x 1, x 1]) (fun x => ![x 0 ^ 2]) 1 1 l[t] os[t + 1] l[t + 1] := by
  obtain ⟨l, hl, -⟩ := (C52_posDef (u := exSquare) (by norm_num) Matrix.PosDef.one
    Matrix.PosDef.one Matrix.PosDef.one os (fun _ _ => ⟨_, rfl⟩) (fun _ _ => ⟨_, rfl⟩)).1
  obtain ⟨h1, -, h3⟩ := (C53_additive_filter (p := exSquare) transpose_one transpose_one
    transpose_one).mp hl
  refine ⟨l, hl, h1, fun t h h' => ?_⟩
  obtain ⟨f, g, hf, hg, hs⟩ := h3 t h h'
  cases hf
  cases hg
  exact hs

/-- The transform sees the curvature of a function: the expectation of `x²` is mean² plus variance. -/
example (μ σ : ℝ) : uexp ![μ] !![σ] (fun x => x 0 ^ 2) = μ ^ 2 + σ ^ 2 := by
  have h3 : √3 * √3 = (3 : ℝ) := Real.mul_self_sqrt (by norm_num)
  simp only [uexp, Finset.univ_unique, Fin.default_eq_zero, Finset.sum_singleton, Pi.add_apply,
    Pi.sub_apply, Pi.smul_apply, Matrix.col_apply, smul_eq_mul, Matrix.cons_val_zero,
    Matrix.of_apply, Nat.cast_one, Matrix.cons_val_fin_one]
  linear_combination (σ ^ 2 / 3) * h3

end Verif
