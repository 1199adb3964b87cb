import Verif.Proofs.Cholesky
import Verif.Proofs.EmLoop
import Verif.Props.Posterior

/-!
# C29, C44: `CholeskyKalmanFilter` against `KalmanFilter`

`qr` is any QR routine (`Verif.QR`): the statements do not depend on its sign convention.
-/

open Matrix

namespace Verif

variable {n m : ℕ}

/-- **C29.** With positive definite constant covariances `CholeskyKalmanFilter.filter` returns what
`KalmanFilter.filter` returns (the same values, or the same exception). -/
theorem C29_filter_eq (qr : QR) {p : Params n m} (h : p.PosDef) (os : List (Obs m)) :
    cholFilter qr p os = kfFilter p os := by
  have := cholFull_bind qr h os (fun l => pure (l.map fun s => (s.filtMean, s.filtCov)))
    (fun l => by simp [List.map_map, Step.forget, Function.comp_def])
  simp only [List.map_map] at this
  exact this

/-- **C29.** Likewise for `smooth`. -/
theorem C29_smooth_eq (qr : QR) {p : Params n m} (h : p.PosDef) (os : List (Obs m)) :
    cholSmooth qr p os = kfSmooth p os :=
  cholFull_bind qr h os (fun l => do
    let sm ← smoothFull p.A l
    pure (sm.map fun s : SStep n => (s.mean, s.cov)))
    fun l => by simp only [smoothFull_forget]

/-- **C29.** Likewise for `loglikelihood`. -/
theorem C29_loglikelihood_eq (qr : QR) {p : Params n m} (h : p.PosDef) (os : List (Obs m)) :
    cholLoglik qr p os = kfLoglik p os :=
  cholFull_bind qr h os (fun l => do
    let ls ← loglikLoop p 0 l os
    pure ls.sum)
    fun l => by simp only [loglikLoop_forget]

/-- **C29.** Likewise for `em`, as long as the parameters of every iteration have positive definite
covariances. -/
theorem C29_em_eq (qr : QR) (p : Params n m) (os : List (Obs m)) (k : ℕ) (vars : EmVar → Bool)
    (h : ∀ j < k, ∀ p', kfEm p os j vars = .ok p' → p'.PosDef) :
    cholEm qr p os k vars = kfEm p os k vars := by
  have key : ∀ (k j : ℕ) (q : Params n m), kfEm p os j vars = .ok q →
      (∀ i < j + k, ∀ p', kfEm p os i vars = .ok p' → p'.PosDef) →
      cholEmLoop qr p vars os k q = emLoop p vars os k q := by
    intro k
    induction k with
    | zero => intros; rfl
    | succ k ih =>
      intro j q hq hpd
      have hqp := hpd j (by omega) q hq
      rw [cholEmLoop, emLoop, cholStats_eq qr hqp]
      cases hs : emStats q os with
      | error e => rfl
      | ok ss =>
        simp only [bind, Except.bind]
        cases he : emStep p vars q ss os with
        | error e => rfl
        | ok p' =>
          refine ih (j + 1) p' ?_ fun i hi => hpd i (by omega)
          rw [kfEm, emLoop_add]
          rw [kfEm] at hq
          rw [hq]
          simp only [bind, Except.bind, emLoop, hs, he]
          rfl
  exact key k 0 p rfl (by simpa using h)

/-- **C29.** Likewise for one `filter_update` whose covariances (given or default, and that of the
state) are positive definite: same mean, and the `(1, n, n)` array holds the same covariance. -/
theorem C29_filter_update_eq (qr : QR) (p : Params n m) (mean : Vec n) {cov : Mat n n}
    (o : Option (Obs m)) (a : UpdateArgs n m) (hcov : cov.PosDef)
    (hQ : ∀ Q, argOrDefault a.Q p.Q = .ok Q → Q.PosDef)
    (hR : ∀ R, argOrDefault a.R p.R = .ok R → R.PosDef) :
    cholUpdate qr p mean cov o a
      = (filterUpdate p mean cov o a).map fun r => (r.1, fun _ => r.2) := by
  simp only [cholUpdate, filterUpdate]
  cases argOrDefault a.b p.b with
  | error e => rfl
  | ok b =>
  cases argOrDefault a.d p.d with
  | error e => rfl
  | ok d =>
  cases argOrDefault a.A p.A with
  | error e => rfl
  | ok A =>
  cases argOrDefault a.C p.C with
  | error e => rfl
  | ok C =>
  cases hq : argOrDefault a.Q p.Q with
  | error e => rfl
  | ok Q =>
  cases hr : argOrDefault a.R p.R with
  | error e => rfl
  | ok R =>
  obtain ⟨Q2, cQ, iQ⟩ := cholesky_of_posDef (hQ Q hq)
  obtain ⟨R2, cR, iR⟩ := cholesky_of_posDef (hR R hr)
  obtain ⟨S2, cS, iS⟩ := cholesky_of_posDef hcov
  simp only [bind, Except.bind, cQ, cR, cS, pure, Except.pure, Except.map]
  obtain ⟨h1, h2⟩ := cholCorrect_eq qr C (hR R hr) iR.mul_transpose d
    (cholPredict qr A Q2 b mean S2).1 (cholPredict qr A Q2 b mean S2).2
    (match o with | none => ⟨0, fun _ => true⟩ | some o => o)
  have e : reconstruct S2 = cov := iS.mul_transpose
  rw [cholPredict_snd, iQ.mul_transpose, cholPredict_fst, e] at h1 h2
  exact congrArg Except.ok (Prod.ext h1 (funext fun _ => h2))

/-- **C29.** If one of the (symmetric, constant) covariances is not positive definite, `filter`
raises `LinAlgError`, whatever the data, although `KalmanFilter.filter` accepts semidefinite ones. -/
theorem C29_not_posDef (qr : QR) {p : Params n m} {Q : Mat n n} {R : Mat m m}
    (hQ : p.Q = .const Q) (hR : p.R = .const R) (sQ : Qᵀ = Q) (sR : Rᵀ = R) (sS : p.S0ᵀ = p.S0)
    (h : ¬ (Q.PosDef ∧ R.PosDef ∧ p.S0.PosDef)) (os : List (Obs m)) :
    cholFilter qr p os = .error .linAlgError := by
  rw [cholFilter, cholFull, hQ, hR, cholParam, cholParam]
  by_cases hq : Q.PosDef
  · obtain ⟨Q2, cQ, -⟩ := cholesky_of_posDef hq
    rw [cQ]
    by_cases hr : R.PosDef
    · obtain ⟨R2, cR, -⟩ := cholesky_of_posDef hr
      rw [cR]
      have hs : ¬ p.S0.PosDef := fun hs => h ⟨hq, hr, hs⟩
      rw [cholesky_of_not_posDef sS hs]
      rfl
    · rw [cholesky_of_not_posDef sR hr]
      rfl
  · rw [cholesky_of_not_posDef sQ hq]
    rfl

/-- **C29.** A covariance that varies with time is refused: no method goes on with one of its
members.  (`Q` is looked at first, so a constant `Q` has to be positive definite here.) -/
theorem C29_time_varying (qr : QR) {p : Params n m}
    (h : (∃ l, p.Q = .seq l) ∨ ((∃ Q, p.Q = .const Q ∧ Q.PosDef) ∧ ∃ l, p.R = .seq l))
    (os : List (Obs m)) :
    cholFilter qr p os = .error .valueError ∧ cholSmooth qr p os = .error .valueError ∧
    cholLoglik qr p os = .error .valueError ∧
    ∀ k vars, cholEm qr p os (k + 1) vars = .error .valueError := by
  have hf : cholFull qr p os = .error .valueError := by
    rcases h with ⟨l, hQ⟩ | ⟨⟨Q, hQ, hQd⟩, l, hR⟩
    · rw [cholFull, hQ]; rfl
    · obtain ⟨Q2, cQ, -⟩ := cholesky_of_posDef hQd
      rw [cholFull, hQ, hR, cholParam, cQ]; rfl
  refine ⟨?_, ?_, ?_, fun k vars => ?_⟩
  · rw [cholFilter, hf]; rfl
  · rw [cholSmooth, hf]; rfl
  · rw [cholLoglik, hf]; rfl
  · rw [cholEm, cholEmLoop, cholStats, hf]; rfl

/-- **C44 (finding).** Whenever `filter_update` of the Cholesky filter succeeds on well-shaped
input, the covariance has a leading axis of length one: it is not a matrix that the next call can
factorise.  The square matrix in it is the updated covariance of `KalmanFilter.filter_update`.
Missing: a result of shape `(n, n)`, as documented. -/
theorem C44_cholesky_filter_update_shape_partial (qr : QR) (p : Params n m) (mean : Vec n)
    {cov : Mat n n} (o : Option (Obs m)) (a : UpdateArgs n m) (hcov : cov.PosDef)
    (hQ : ∀ Q, argOrDefault a.Q p.Q = .ok Q → Q.PosDef)
    (hR : ∀ R, argOrDefault a.R p.R = .ok R → R.PosDef)
    {r : Vec n × (Fin 1 → Mat n n)} (h : cholUpdate qr p mean cov o a = .ok r) :
    filterUpdate p mean cov o a = .ok (r.1, r.2 0) := by
  rw [C29_filter_update_eq qr p mean o a hcov hQ hR] at h
  cases hf : filterUpdate p mean cov o a with
  | error e => rw [hf] at h; cases h
  | ok q => rw [hf] at h; cases h; rfl

/-! ### The hypotheses can be met -/

/-- Positive definite covariances, time-varying transition matrices. -/
noncomputable def exPosDef : Params 2 1 where
  A := .seq [!![1, 1; 0, 1], !![1, 2; 0, 1]]
  b := .const ![0, 1]
  Q := .const !![2, 0; 0, 1]
  C := .const !![1, 0]
  d := .const ![3]
  R := .const !![2]
  mu0 := ![0, 5]
  S0 := 1

theorem exPosDef_posDef : exPosDef.PosDef := by
  refine ⟨⟨_, rfl, ?_⟩, ⟨_, rfl, ?_⟩, PosDef.one⟩
  · have e : (!![2, 0; 0, 1] : Mat 2 2) = diagonal ![2, 1] := by
      ext i j; fin_cases i <;> fin_cases j <;> rfl
    rw [e]
    exact PosDef.diagonal (by intro i; fin_cases i <;> simp)
  · have e : (!![2] : Mat 1 1) = diagonal ![2] := by
      ext i j; fin_cases i; fin_cases j; rfl
    rw [e]
    exact PosDef.diagonal (by intro i; fin_cases i; simp)

example : ∃ p : Params 2 1, (∃ Q, p.Q = .const Q ∧ Q.PosDef) ∧ ∃ l, p.R = .seq l ∧ l.length = 3 :=
  ⟨{ exPosDef with R := .seq [1, 2, 3] }, exPosDef_posDef.Q, _, rfl, rfl⟩

example : Nonempty QR ∧ exPosDef.PosDef ∧ exPosDef.DefinedFor 3 ∧
    (∀ R, argOrDefault none exPosDef.R = .ok R → R.PosDef) ∧
    ∃ Q, exParams.Q = .const Q ∧ Qᵀ = Q ∧ ¬ Q.PosDef := by
  refine ⟨exists_QR, exPosDef_posDef,
    definedFor_iff_covers.mpr ⟨le_refl 2, trivial, trivial, trivial, trivial, trivial⟩,
    fun R hR => ?_, _, rfl, ?_, fun h => ?_⟩
  · obtain ⟨R', h1, h2⟩ := exPosDef_posDef.R
    rw [h1] at hR
    cases hR
    exact h2
  · ext i j; fin_cases i <;> fin_cases j <;> rfl
  · have := h.det_pos
    simp [det_fin_two] at this

end Verif
