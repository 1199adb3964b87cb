import Verif.Model.Mixture
import Verif.Spec.Em
import Verif.Proofs.Density
import Mathlib.Tactic.FinCases

/-!
# C90: `log_multivariate_normal_density`
-/

open Matrix

namespace Verif

variable {m N : ℕ}

open Classical in
/-- The covariance whose density the table is meant to hold: the given one, or, if that is not
positive definite, the one with `minCovar` added to the variances. -/
noncomputable def usedCov (minCovar : ℝ) (S : Mat m m) : Mat m m :=
  if S.PosDef then S else S + minCovar • (1 : Mat m m)

theorem logMvnLoop_cons_ok {X : Fin N → Vec m} {minCovar : ℝ} {c : ℕ} {mu : Vec m} {S : Mat m m}
    {rest : List (Vec m × Mat m m)} {tab : Fin N → ℕ → ℝ} (hs : Sᵀ = S)
    (hS : (usedCov minCovar S).PosDef) :
    logMvnLoop X minCovar c ((mu, S) :: rest) tab
      = logMvnLoop X minCovar (c + 1) rest fun s k =>
        if k = c then logN (X s) mu (usedCov minCovar S) else tab s k := by
  have key : ∀ {U : Mat m m}, U.PosDef → ∀ {L}, cholesky U = .ok L → ∀ x,
      -0.5 * (∑ i, (L⁻¹ *ᵥ (x - mu)) i ^ 2 + m * Real.log (2 * Real.pi)
        + 2 * ∑ i, Real.log (L i i)) = logN x mu U := by
    intro U hU L hL x
    obtain ⟨ℓ, h1, -, h3, -⟩ := logMvn_posDef hU
    have e := h1 x mu
    simp only [logMvn, hL, bind, Except.bind, pure, Except.pure, Except.ok.injEq] at e
    rw [e, h3, logN]
    ring
  by_cases h : S.PosDef
  · have hu : usedCov minCovar S = S := by rw [usedCov, if_pos h]
    obtain ⟨L, hL, -⟩ := cholesky_of_posDef h
    simp only [logMvnLoop, hL, bind, Except.bind, pure, Except.pure, key h hL, hu]
  · have hu : usedCov minCovar S = S + minCovar • (1 : Mat m m) := by rw [usedCov, if_neg h]
    rw [hu] at hS
    obtain ⟨L, hL, -⟩ := cholesky_of_posDef hS
    simp only [logMvnLoop, cholesky_of_not_posDef hs h, hL, bind, Except.bind, key hS hL, hu]

theorem logMvnLoop_cons_error {X : Fin N → Vec m} {minCovar : ℝ} {c : ℕ} {mu : Vec m} {S : Mat m m}
    {rest : List (Vec m × Mat m m)} {tab : Fin N → ℕ → ℝ} (hs : Sᵀ = S)
    (hS : ¬ (usedCov minCovar S).PosDef) :
    logMvnLoop X minCovar c ((mu, S) :: rest) tab = .error .linAlgError := by
  have h : ¬ S.PosDef := fun h => hS (by rwa [usedCov, if_pos h])
  rw [usedCov, if_neg h] at hS
  have h2 : (S + minCovar • (1 : Mat m m))ᵀ = S + minCovar • (1 : Mat m m) := by
    rw [transpose_add, transpose_smul, transpose_one, hs]
  simp only [logMvnLoop, cholesky_of_not_posDef hs h, cholesky_of_not_posDef h2 hS, bind,
    Except.bind]

theorem logMvnLoop_ok {X : Fin N → Vec m} {minCovar : ℝ} {l : List (Vec m × Mat m m)}
    (hs : ∀ q ∈ l, q.2ᵀ = q.2) (hS : ∀ q ∈ l, (usedCov minCovar q.2).PosDef) (c : ℕ)
    (tab : Fin N → ℕ → ℝ) : ∃ tab', logMvnLoop X minCovar c l tab = .ok tab' ∧
      (∀ s k q, l[k]? = some q → tab' s (c + k) = logN (X s) q.1 (usedCov minCovar q.2)) ∧
      ∀ s k, k < c ∨ c + l.length ≤ k → tab' s k = tab s k := by
  induction l generalizing c tab with
  | nil => exact ⟨tab, rfl, fun s k q hq => by simp at hq, fun _ _ _ => rfl⟩
  | cons a rest ih =>
    obtain ⟨mu, S⟩ := a
    rw [logMvnLoop_cons_ok (hs (mu, S) (by simp)) (hS (mu, S) (by simp))]
    obtain ⟨tab', h1, h2, h3⟩ := ih (fun q hq => hs q (by simp [hq]))
      (fun q hq => hS q (by simp [hq])) (c + 1) fun s k =>
        if k = c then logN (X s) mu (usedCov minCovar S) else tab s k
    refine ⟨tab', h1, fun s k q hq => ?_, fun s k hk => ?_⟩
    · cases k with
      | zero =>
        simp only [List.getElem?_cons_zero, Option.some.injEq] at hq
        rw [← hq, Nat.add_zero, h3 s c (Or.inl (by omega)), if_pos rfl]
      | succ k =>
        rw [List.getElem?_cons_succ] at hq
        rw [show c + (k + 1) = c + 1 + k by omega]
        exact h2 s k q hq
    · rw [List.length_cons] at hk
      rw [h3 s k (by omega), if_neg (by omega)]

theorem logMvnLoop_error {X : Fin N → Vec m} {minCovar : ℝ} {l : List (Vec m × Mat m m)}
    (hs : ∀ q ∈ l, q.2ᵀ = q.2) (hS : ∃ q ∈ l, ¬ (usedCov minCovar q.2).PosDef) (c : ℕ)
    (tab : Fin N → ℕ → ℝ) : logMvnLoop X minCovar c l tab = .error .linAlgError := by
  induction l generalizing c tab with
  | nil => obtain ⟨q, hq, -⟩ := hS; cases hq
  | cons a rest ih =>
    obtain ⟨mu, S⟩ := a
    by_cases h : (usedCov minCovar S).PosDef
    · rw [logMvnLoop_cons_ok (hs (mu, S) (by simp)) h]
      refine ih (fun q hq => hs q (by simp [hq])) ?_ _ _
      obtain ⟨q, hq, hn⟩ := hS
      rcases List.mem_cons.mp hq with rfl | hq
      · exact absurd h hn
      · exact ⟨q, hq, hn⟩
    · exact logMvnLoop_cons_error (hs (mu, S) (by simp)) h

variable {X : Fin N → Vec m} {means : List (Vec m)} {covars : List (Mat m m)}

/-- **C90.** As many positive definite covariances as means: the entry for a sample and a component
is the log density of that component at that sample, whatever was in the memory before. -/
theorem C90_density (hl : covars.length = means.length) (hS : ∀ S ∈ covars, S.PosDef)
    (minCovar : ℝ) (junk : Fin N → ℕ → ℝ) :
    ∃ tab, logMvnTable X means covars minCovar junk = .ok tab ∧
      ∀ s (c : Fin means.length), tab s c = logN (X s) means[c] (covars[(c : ℕ)]'(by omega)) := by
  have hmem : ∀ q ∈ means.zip covars, q.2.PosDef := fun q hq => hS _ (List.of_mem_zip hq).2
  have hu : ∀ q ∈ means.zip covars, usedCov minCovar q.2 = q.2 := fun q hq => by
    rw [usedCov, if_pos (hmem q hq)]
  obtain ⟨tab, h1, h2, -⟩ := logMvnLoop_ok (X := X) (minCovar := minCovar)
    (fun q hq => symm_of_posSemidef (hmem q hq).posSemidef)
    (fun q hq => by rw [hu q hq]; exact hmem q hq) 0 junk
  refine ⟨fun s c => tab s c, by simp only [logMvnTable, h1]; rfl, fun s c => ?_⟩
  have hz : (means.zip covars)[(c : ℕ)]? = some (means[c], covars[(c : ℕ)]'(by omega)) := by
    rw [List.getElem?_eq_getElem (by rw [List.length_zip]; omega), List.getElem_zip]
    rfl
  have := h2 s c _ hz
  rwa [Nat.zero_add, hu _ (List.mem_of_getElem? hz)] at this

/-- **C90**, covariances that are not positive definite: the variances are raised by `min_covar`, for
that component only; if this does not help, `LinAlgError`. -/
theorem C90_not_posDef (hl : covars.length = means.length) (hs : ∀ S ∈ covars, Sᵀ = S)
    (minCovar : ℝ) (junk : Fin N → ℕ → ℝ) :
    ((∀ S ∈ covars, S.PosDef ∨ (S + minCovar • (1 : Mat m m)).PosDef) →
      ∃ tab, logMvnTable X means covars minCovar junk = .ok tab ∧
        ∀ s (c : Fin means.length) (S : Mat m m), covars[(c : ℕ)]? = some S →
          (S.PosDef → tab s c = logN (X s) means[c] S) ∧
          (¬ S.PosDef → tab s c = logN (X s) means[c] (S + minCovar • (1 : Mat m m)))) ∧
    ((∃ S ∈ covars, ¬ S.PosDef ∧ ¬ (S + minCovar • (1 : Mat m m)).PosDef) →
      logMvnTable X means covars minCovar junk = .error .linAlgError) := by
  have hs' : ∀ q ∈ means.zip covars, q.2ᵀ = q.2 := fun q hq => hs _ (List.of_mem_zip hq).2
  constructor
  · intro hS
    have hmem : ∀ q ∈ means.zip covars, (usedCov minCovar q.2).PosDef := fun q hq => by
      rw [usedCov]
      split
      · assumption
      · exact (hS _ (List.of_mem_zip hq).2).resolve_left (by assumption)
    obtain ⟨tab, h1, h2, -⟩ := logMvnLoop_ok (X := X) hs' hmem 0 junk
    refine ⟨fun s c => tab s c, by simp only [logMvnTable, h1]; rfl, fun s c S hcS => ?_⟩
    have hz : (means.zip covars)[(c : ℕ)]? = some (means[c], S) := by
      rw [List.getElem?_eq_getElem (by rw [List.length_zip]; omega), List.getElem_zip]
      rw [List.getElem?_eq_getElem (by omega), Option.some.injEq] at hcS
      rw [hcS]
      rfl
    have := h2 s c _ hz
    simp only [Nat.zero_add] at this
    exact ⟨fun h => this.trans (by rw [usedCov, if_pos h]),
      fun h => this.trans (by rw [usedCov, if_neg h])⟩
  · rintro ⟨S, hS, n1, n2⟩
    obtain ⟨i, hi, hiS⟩ := List.mem_iff_getElem.mp hS
    have he : ∃ q ∈ means.zip covars, ¬ (usedCov minCovar q.2).PosDef := by
      refine ⟨(means[i]'(by omega), covars[i]), ?_, ?_⟩
      · rw [← List.getElem_zip]
        exact List.getElem_mem (by rw [List.length_zip]; omega)
      · simp only [hiS]
        rwa [usedCov, if_neg n1]
    simp only [logMvnTable, logMvnLoop_error hs' he 0 junk]
    rfl

/-- **C90**, fewer covariances than means are not refused: the columns of the other means are what was
in the memory before.  More covariances than means: the others are not looked at. -/
theorem C90_lengths (hS : ∀ S ∈ covars, S.PosDef) (minCovar : ℝ) (junk : Fin N → ℕ → ℝ) :
    (∃ tab, logMvnTable X means covars minCovar junk = .ok tab ∧
      ∀ s (c : Fin means.length), covars.length ≤ c → tab s c = junk s c) ∧
    (means.length ≤ covars.length → ∀ more,
      logMvnTable X means (covars ++ more) minCovar junk
        = logMvnTable X means covars minCovar junk) := by
  have hmem : ∀ q ∈ means.zip covars, q.2.PosDef := fun q hq => hS _ (List.of_mem_zip hq).2
  obtain ⟨tab, h1, -, h3⟩ := logMvnLoop_ok (X := X) (minCovar := minCovar)
    (fun q hq => symm_of_posSemidef (hmem q hq).posSemidef)
    (fun q hq => by rw [usedCov, if_pos (hmem q hq)]; exact hmem q hq) 0 junk
  refine ⟨⟨fun s c => tab s c, by simp only [logMvnTable, h1]; rfl, fun s c hc => ?_⟩,
    fun hle more => ?_⟩
  · exact h3 s c (Or.inr (by rw [List.length_zip]; omega))
  · have : means.zip (covars ++ more) = means.zip covars := by
      rw [List.zip_eq_zip_take_min, List.zip_eq_zip_take_min (l₂ := covars)]
      rw [List.length_append, Nat.min_eq_left (by omega), Nat.min_eq_left (by omega),
        List.take_append_of_le_length hle]
    simp only [logMvnTable, this]

/-- **C90**, the call that `loglikelihood` makes (one sample, one component). -/
theorem C90_one (x mu : Vec m) (S : Mat m m) (junk : Fin 1 → ℕ → ℝ) :
    (logMvnTable (fun _ => x) [mu] [S] 1e-7 junk).map (fun tab => tab 0 ⟨0, by simp⟩)
      = logMvn x mu S := by
  simp only [logMvnTable, logMvn, List.zip_cons_cons, List.zip_nil_right, logMvnLoop]
  cases cholesky S with
  | ok L => simp [bind, Except.bind, pure, Except.pure, Except.map]
  | error e =>
    simp only
    cases cholesky (S + (1e-7 : ℝ) • (1 : Mat m m)) with
    | ok L => simp [bind, Except.bind, pure, Except.pure, Except.map]
    | error e => simp [bind, Except.bind, Except.map]

/-- **C90** as one would expect it — the result is determined by the arguments — is false if a
covariance is left out. -/
theorem C90_fails_uninitialised : ∃ junk junk' : Fin 1 → ℕ → ℝ,
    logMvnTable (fun _ => (0 : Vec 1)) [0, 0] [1] 1e-7 junk
      ≠ logMvnTable (fun _ => (0 : Vec 1)) [0, 0] [1] 1e-7 junk' := by
  refine ⟨fun _ _ => 0, fun _ _ => 1, fun h => ?_⟩
  obtain ⟨⟨t, e, ht⟩, -⟩ := C90_lengths (X := fun _ : Fin 1 => (0 : Vec 1)) (means := [0, 0])
    (covars := [1]) (by simp [PosDef.one]) 1e-7 fun _ _ => 0
  obtain ⟨⟨t', e', ht'⟩, -⟩ := C90_lengths (X := fun _ : Fin 1 => (0 : Vec 1)) (means := [0, 0])
    (covars := [1]) (by simp [PosDef.one]) 1e-7 fun _ _ => 1
  rw [e, e', Except.ok.injEq] at h
  have h0 := ht 0 ⟨1, by simp⟩ (by simp)
  have h1 := ht' 0 ⟨1, by simp⟩ (by simp)
  rw [h, h1] at h0
  exact one_ne_zero h0

/-- Two components and three samples that meet the hypotheses of `C90_density`; and a covariance
that is not positive definite but becomes so, as in `C90_not_posDef`. -/
example : ([1, (2 : ℝ) • 1] : List (Mat 2 2)).length = ([![0, 0], ![1, 5]] : List (Vec 2)).length ∧
    (∀ S ∈ ([1, (2 : ℝ) • 1] : List (Mat 2 2)), S.PosDef) ∧
    ¬ (0 : Mat 2 2).PosDef ∧ ((0 : Mat 2 2) + (1e-7 : ℝ) • (1 : Mat 2 2)).PosDef := by
  refine ⟨rfl, ?_, fun h => ?_, ?_⟩
  · intro S hS
    simp only [List.mem_cons, List.not_mem_nil, or_false] at hS
    rcases hS with rfl | rfl
    · exact PosDef.one
    · exact PosDef.one.smul (by norm_num)
  · have := h.dotProduct_mulVec_pos (x := ![1, 0]) fun h0 => by simpa using congrFun h0 0
    simp at this
  · rw [zero_add]
    exact PosDef.one.smul (by norm_num)

end Verif
