import Verif.Proofs.Bierman
import Verif.Proofs.EmLoop
import Verif.Props.Posterior

/-!
# C30 – C33: `BiermanKalmanFilter` against `KalmanFilter`

In `bierFilter store p os` the function `store` is what assigning a number to an entry of an array of
the element type of `initial_state_covariance` does to it: `id` for floats, truncation for integers.
-/

open Matrix

namespace Verif

variable {n m : ℕ}

/-! ### C31: the factorisation -/

/-- **C31.** For a positive semidefinite array of floats `udu` returns a unit upper triangular `U`
and a nonnegative `D` with `U diag(D) Uᵀ` equal to the input. -/
theorem C31_udu {M : Mat n n} (hM : M.PosSemidef) (hn : 0 < n) :
    ∃ c, udu id M = .ok c ∧ (∀ i j, j < i → c.U i j = 0) ∧ (∀ i, c.U i i = 1) ∧ (∀ i, 0 ≤ c.D i) ∧
      c.U * diagonal c.D * c.Uᵀ = M := by
  obtain ⟨c, h1, h2, h3⟩ := udu_posSemidef hM hn
  exact ⟨c, h1, h2.upper, h2.diag, h2.nonneg, h3⟩

/-- Conversion of a number to an integer when it is stored in an array of integers. -/
noncomputable def truncInt (x : ℝ) : ℝ := if 0 ≤ x then (⌊x⌋ : ℝ) else (⌈x⌉ : ℝ)

/-- A positive definite matrix of integers. -/
def exInt : Mat 2 2 := !![2, 1; 1, 2]

theorem exInt_posDef : exInt.PosDef := by
  refine posDef_iff_real.mpr ⟨?_, fun x hx => ?_⟩
  · ext i j; fin_cases i <;> fin_cases j <;> rfl
  · simp only [exInt, mulVec, dotProduct, Fin.sum_univ_two, of_apply, cons_val', cons_val_zero,
      cons_val_one, cons_val_fin_one]
    have h : x 0 ≠ 0 ∨ x 1 ≠ 0 := by
      by_contra h
      push Not at h
      exact hx (by ext i; fin_cases i <;> simp [h.1, h.2])
    have e : x 0 * (2 * x 0 + 1 * x 1) + x 1 * (1 * x 0 + 2 * x 1)
        = x 0 ^ 2 + x 1 ^ 2 + (x 0 + x 1) ^ 2 := by ring
    rw [e]
    rcases h with h | h
    · have := sq_pos_of_ne_zero h; positivity
    · have := sq_pos_of_ne_zero h; positivity

theorem udu_exInt (store : ℝ → ℝ) :
    udu store exInt = .ok ⟨!![1, 1 / 2; 0, 1], ![store (3 / 2), 2]⟩ := by
  have hc : AllCloseT exInt := allCloseT_of_symm (by ext i j; fin_cases i <;> fin_cases j <;> rfl)
  rw [udu, if_pos hc, if_neg (by norm_num)]
  refine congrArg Except.ok ?_
  simp only [UDU.mk.injEq]
  constructor
  · ext i j
    fin_cases i <;> fin_cases j <;>
      norm_num [uduLoop, uduCol, uduInner, mat2, Arr1.set, Arr2.set, arr2, exInt, List.range_succ]
  · ext i
    fin_cases i <;>
      norm_num [uduLoop, uduCol, uduInner, vec1, Arr1.set, Arr2.set, arr2, exInt, List.range_succ]

theorem exInt_wrong : (⟨!![1, 1 / 2; 0, 1], ![truncInt (3 / 2), 2]⟩ : UDU 2).reconstruct ≠ exInt := by
  intro h
  have ht : truncInt (3 / 2) = 1 := by
    rw [truncInt, if_pos (by norm_num)]
    norm_num
  have := congrFun (congrFun h 0) 0
  rw [ht, UDU.reconstruct_eq, Matrix.sum_apply, Fin.sum_univ_two] at this
  norm_num [exInt, vecMulVec_apply] at this

/-- **C31 (finding).** For arrays of integers the claim fails: on the positive definite integer
matrix `[[2, 1], [1, 2]]` `udu` returns, without any error, factors of a different matrix. -/
theorem C31_fails_for_integer_dtype :
    ∃ M : Mat 2 2, M.PosDef ∧ (∀ i j, ∃ k : ℤ, M i j = k) ∧
      ∃ c, udu truncInt M = .ok c ∧ c.U * diagonal c.D * c.Uᵀ ≠ M := by
  refine ⟨exInt, exInt_posDef, ?_, _, udu_exInt truncInt, fun h => ?_⟩
  · intro i j
    fin_cases i <;> fin_cases j
    exacts [⟨2, by simp [exInt]⟩, ⟨1, by simp [exInt]⟩, ⟨1, by simp [exInt]⟩, ⟨2, by simp [exInt]⟩]
  · exact exInt_wrong h

/-! ### C32: one scalar update -/

/-- **C32.** On a properly factored covariance `P` (`U` unit upper triangular, `D ≥ 0`) and for
every observation row `h` and noise variance `R > 0`, `_filter_correct_single` returns a proper
factorisation of the covariance of the standard correction with observation matrix `h`, and the gain
of that correction. -/
theorem C32_scalar_update (hn : 0 < n) {c : UDU n} (hU : ∀ i j, j < i → c.U i j = 0)
    (h1 : ∀ i, c.U i i = 1) (hD : ∀ i, 0 ≤ c.D i) (h : Vec n) {R : ℝ} (hR : 0 < R)
    (mean : Vec n) (o : Obs 1) (ho : ¬ o.missing) :
    let r := correctSingle c h R
    let k := filterCorrect (Matrix.of fun _ => h) (Matrix.of fun _ _ => R) 0 mean c.reconstruct o
    (∀ i j, j < i → r.1.U i j = 0) ∧ (∀ i, r.1.U i i = 1) ∧ (∀ i, 0 ≤ r.1.D i) ∧
      r.1.reconstruct = k.2.2 ∧ ∀ i, r.2 i = k.1 i 0 := by
  intro r k
  have hc : c.Valid := ⟨hU, h1, hD⟩
  obtain ⟨v, e1, e2⟩ := correctSingle_eq hn hc h hR
  refine ⟨v.upper, v.diag, v.nonneg, ?_⟩
  obtain ⟨hs, hq⟩ := posSemidef_iff_real.mp hc.posSemidef
  have hv : h ᵥ* c.reconstruct = c.reconstruct *ᵥ h := by rw [← mulVec_transpose, hs]
  set a := h ⬝ᵥ (c.reconstruct *ᵥ h) + R with ha
  have hpos : 0 < a := add_pos_of_nonneg_of_pos (hq h) hR
  have hS : (Matrix.of fun _ => h : Mat 1 n) * (c.reconstruct * (Matrix.of fun _ => h : Mat 1 n)ᵀ)
      + (Matrix.of fun _ _ => R : Mat 1 1) = Matrix.of fun _ _ => a := by
    ext i j
    simp [Matrix.mul_apply, ha, mulVec, dotProduct]
  have hinv : pinv (Matrix.of fun _ _ => a : Mat 1 1) = Matrix.of fun _ _ => 1 / a := by
    apply pinv_eq_of_mul_eq_one
    ext i j
    fin_cases i; fin_cases j
    simp [Matrix.mul_apply, hpos.ne']
  have hK : c.reconstruct * ((Matrix.of fun _ => h : Mat 1 n)ᵀ * (Matrix.of fun _ _ => 1 / a : Mat 1 1))
      = Matrix.of fun i _ => (1 / a) * (c.reconstruct *ᵥ h) i := by
    ext i j
    simp only [Matrix.mul_apply, Matrix.of_apply, transpose_apply, Fin.sum_univ_one,
      Finset.univ_unique, Finset.sum_const, mulVec, dotProduct, Finset.mul_sum]
    exact Finset.sum_congr rfl fun k _ => by simp; ring
  have hk : k = ((Matrix.of fun i _ => (1 / a) * (c.reconstruct *ᵥ h) i), k.2.1,
      c.reconstruct - (Matrix.of fun i _ => (1 / a) * (c.reconstruct *ᵥ h) i : Mat n 1)
        * ((Matrix.of fun _ => h : Mat 1 n) * c.reconstruct)) := by
    simp only [k, filterCorrect, ho, not_false_eq_true, if_true, hS, hinv, hK]
  constructor
  · rw [hk]
    change r.1.reconstruct = _
    rw [e1]
    congr 1
    ext i j
    have : ((Matrix.of fun _ => h : Mat 1 n) * c.reconstruct) 0 j = (c.reconstruct *ᵥ h) j := by
      rw [← hv]; rfl
    rw [Matrix.mul_apply]
    simp only [Finset.univ_unique, Finset.sum_singleton, Fin.default_eq_zero, Fin.isValue, this]
    simp [vecMulVec_apply, mul_assoc]
  · intro i
    rw [hk]
    change r.2 i = _
    rw [e2]
    rfl

/-! ### C33: one component after the other -/

/-- **C33.** With unit noise covariance, correcting a factored covariance by the components of the
observation one after the other gives the mean and the covariance of the joint standard
correction. -/
theorem C33_sequential_eq_joint (hn : 0 < n) (C : Mat m n) (d : Vec m) (mean : Vec n) {c : UDU n}
    (hU : ∀ i j, j < i → c.U i j = 0) (h1 : ∀ i, c.U i i = 1) (hD : ∀ i, 0 ≤ c.D i) (o : Obs m) :
    let r := bierCorrect C 1 d mean c o
    let k := filterCorrect C 1 d mean c.reconstruct o
    r.1 = k.2.1 ∧ r.2.reconstruct = k.2.2 :=
  (bierCorrect_eq hn C d mean ⟨hU, h1, hD⟩ o).2

/-- **C33.** Decorrelating changes nothing: if `L Lᵀ = R` is positive definite, the sequential
correction with `L⁻¹ C`, `L⁻¹ d`, `L⁻¹ z` and unit noise is the standard joint correction with `C`,
`d`, `z` and noise covariance `R`. -/
theorem C33_decorrelated (hn : 0 < n) (C : Mat m n) {R L : Mat m m} (hR : R.PosDef)
    (hL : L * Lᵀ = R) (d : Vec m) (mean : Vec n) {c : UDU n}
    (hU : ∀ i j, j < i → c.U i j = 0) (h1 : ∀ i, c.U i i = 1) (hD : ∀ i, 0 ≤ c.D i) (o : Obs m) :
    let r := bierCorrect (L⁻¹ * C) 1 (L⁻¹ *ᵥ d) mean c ⟨L⁻¹ *ᵥ o.val, o.mask⟩
    let k := filterCorrect C R d mean c.reconstruct o
    r.1 = k.2.1 ∧ r.2.reconstruct = k.2.2 := by
  have hdet : IsUnit L.det := by
    have := hR.det_pos
    rw [← hL, det_mul, det_transpose] at this
    exact isUnit_iff_ne_zero.mpr (by rintro h; simp [h] at this)
  have := (bierCorrect_decorrelated hn C hR hL d mean ⟨hU, h1, hD⟩ o).2
  rwa [pinv_eq_inv hdet] at this

/-! ### C30: whole runs -/

/-- **C30.** With constant covariances, that of the observation noise positive definite and the
other two positive semidefinite (floats), `BiermanKalmanFilter.filter` returns what
`KalmanFilter.filter` returns (the same values, or the same exception). -/
theorem C30_filter_eq (hn : 0 < n) {p : Params n m} (h : p.NoiseDef) {os : List (Obs m)}
    (hne : os ≠ []) :
    bierFilter id p os = kfFilter p os := by
  have := bierFull_bind hn h hne (fun l => pure (l.map fun s => (s.filtMean, s.filtCov)))
    (fun l => by simp [List.map_map, Step.forget, Function.comp_def])
  exact this

/-- **C30.** Likewise for `smooth`. -/
theorem C30_smooth_eq (hn : 0 < n) {p : Params n m} (h : p.NoiseDef) {os : List (Obs m)}
    (hne : os ≠ []) :
    bierSmooth id p os = kfSmooth p os :=
  bierFull_bind hn h hne (fun l => do
    let sm ← smoothFull p.A l
    pure (sm.map fun s : SStep n => (s.mean, s.cov)))
    fun l => by simp only [smoothFull_forget]

/-- **C30.** Likewise for `loglikelihood`. -/
theorem C30_loglikelihood_eq (hn : 0 < n) {p : Params n m} (h : p.NoiseDef) {os : List (Obs m)}
    (hne : os ≠ []) :
    bierLoglik id p os = kfLoglik p os :=
  bierFull_bind hn h hne (fun l => do
    let ls ← loglikLoop p 0 l os
    pure ls.sum)
    fun l => by simp only [loglikLoop_forget]

/-- **C30.** Likewise for `em`, as long as the parameters of every iteration have such
covariances. -/
theorem C30_em_eq (hn : 0 < n) (p : Params n m) {os : List (Obs m)} (hne : os ≠ []) (k : ℕ)
    (vars : EmVar → Bool)
    (h : ∀ j < k, ∀ p', kfEm p os j vars = .ok p' → p'.NoiseDef) :
    bierEm id p os k vars = kfEm p os k vars := by
  have key : ∀ (k j : ℕ) (q : Params n m), kfEm p os j vars = .ok q →
      (∀ i < j + k, ∀ p', kfEm p os i vars = .ok p' → p'.NoiseDef) →
      bierEmLoop id p vars os k q = emLoop p vars os k q := by
    intro k
    induction k with
    | zero => intros; rfl
    | succ k ih =>
      intro j q hq hpd
      have hqp := hpd j (by omega) q hq
      rw [bierEmLoop, emLoop, bierStats_eq hn hqp hne, ite_self]
      cases hs : emStats q os with
      | error e => rfl
      | ok ss =>
        simp only [bind, Except.bind]
        cases he : emStep p vars q ss os with
        | error e => rfl
        | ok p' =>
          refine ih (j + 1) p' ?_ fun i hi => hpd i (by omega)
          rw [kfEm, emLoop_add]
          rw [kfEm] at hq
          rw [hq]
          simp only [bind, Except.bind, emLoop, hs, he]
          rfl
  exact key k 0 p rfl (by simpa using h)

/-- **C30 (finding).** Without rows the claim fails: `KalmanFilter.filter` returns empty arrays and
`KalmanFilter.loglikelihood` zero, the methods of `BiermanKalmanFilter` raise `IndexError`. -/
theorem C30_no_rows (hn : 0 < n) {p : Params n m} (h : p.NoiseDef) :
    kfFilter p [] = .ok [] ∧ bierFilter id p [] = .error .indexError ∧
    kfSmooth p [] = .error .valueError ∧ bierSmooth id p [] = .error .indexError ∧
    kfLoglik p [] = .ok 0 ∧ bierLoglik id p [] = .error .indexError ∧
    ∀ k vars, bierEm id p [] (k + 1) vars = .error .indexError := by
  obtain ⟨-, ⟨R, hR, hRd⟩, hS⟩ := h
  obtain ⟨R2, cR, -⟩ := cholesky_of_posDef hRd
  obtain ⟨S0, cS, -, -⟩ := udu_posSemidef hS hn
  have hf : bierFull id p [] = .ok [] := by
    simp only [bierFull, decorrelate, cS, hR, cholParam, cR, bind, Except.bind, pure, Except.pure]
    rfl
  refine ⟨rfl, ?_, rfl, ?_, rfl, ?_, fun k vars => ?_⟩
  · rw [bierFilter, hf]; rfl
  · rw [bierSmooth, hf]; rfl
  · rw [bierLoglik, hf]; rfl
  · rw [bierEm, bierEmLoop, bierStats, hf]; rfl

/-- **C30.** An observation covariance that varies with time is refused. -/
theorem C30_time_varying (hn : 0 < n) {p : Params n m} (hS : p.S0.PosSemidef)
    (h : ∃ l, p.R = .seq l) (os : List (Obs m)) :
    bierFilter id p os = .error .valueError ∧ bierSmooth id p os = .error .valueError ∧
    bierLoglik id p os = .error .valueError ∧
    ∀ k vars, bierEm id p os (k + 1) vars = .error .valueError := by
  obtain ⟨l, hR⟩ := h
  obtain ⟨S0, cS, -⟩ := udu_posSemidef hS hn
  have hf : bierFull id p os = .error .valueError := by
    rw [bierFull, cS, decorrelate, hR]; rfl
  refine ⟨?_, ?_, ?_, fun k vars => ?_⟩
  · rw [bierFilter, hf]; rfl
  · rw [bierSmooth, hf]; rfl
  · rw [bierLoglik, hf]; rfl
  · rw [bierEm, bierEmLoop, bierStats, hf]; rfl

example : ∃ p : Params 2 1, p.S0.PosSemidef ∧ ∃ l, p.R = .seq l ∧ l.length = 2 :=
  ⟨⟨.const 1, .const 0, .const 1, .const 0, .const 0, .seq [1, 2], 0, 0⟩, Matrix.PosSemidef.zero, _,
    rfl, rfl⟩

/-- **C30.** Likewise for one `filter_update`: same mean, and the `(1, n, n)` array holds the same
covariance. -/
theorem C30_filter_update_eq (hn : 0 < n) (p : Params n m) (mean : Vec n) {cov : Mat n n}
    (o : Option (Obs m)) (a : UpdateArgs n m) (hcov : cov.PosSemidef)
    (hQ : ∀ Q, argOrDefault a.Q p.Q = .ok Q → Q.PosSemidef)
    (hR : ∀ R, argOrDefault a.R p.R = .ok R → R.PosDef) :
    bierUpdate id p mean cov o a
      = (filterUpdate p mean cov o a).map fun r => (r.1, fun _ => r.2) := by
  simp only [bierUpdate, filterUpdate]
  cases argOrDefault a.b p.b with
  | error e => rfl
  | ok b =>
  cases argOrDefault a.d p.d with
  | error e => rfl
  | ok d =>
  cases argOrDefault a.A p.A with
  | error e => rfl
  | ok A =>
  cases argOrDefault a.C p.C with
  | error e => rfl
  | ok C =>
  cases hq : argOrDefault a.Q p.Q with
  | error e => rfl
  | ok Q =>
  cases hr : argOrDefault a.R p.R with
  | error e => rfl
  | ok R =>
  obtain ⟨S, cS, vS, rS⟩ := udu_posSemidef hcov hn
  obtain ⟨R2, cR, iR⟩ := cholesky_of_posDef (hR R hr)
  obtain ⟨x, g1, g2, g3, g4⟩ := bierPredict_eq hn A (hQ Q hq) b mean vS
  simp only [bind, Except.bind, cS, cR, g1, pure, Except.pure, Except.map]
  obtain ⟨-, h1, h2⟩ := bierCorrect_decorrelated hn C (hR R hr) iR.mul_transpose d x.1 g2
    (match o with | none => ⟨0, fun _ => true⟩ | some o => o)
  rw [g4, g3, rS] at h1 h2
  rw [g3]
  exact congrArg Except.ok (Prod.ext h1 (funext fun _ => h2))

/-- **C30 (finding).** With an `initial_state_covariance` given as integers the claim fails: here
the only observation is masked, `KalmanFilter.filter` returns the given covariance `[[2, 1], [1, 2]]`
and `BiermanKalmanFilter.filter` another one. -/
theorem C30_fails_for_integer_initial_covariance :
    ∃ (p : Params 2 1) (os : List (Obs 1)), p.NoiseDef ∧ p.S0 = !![2, 1; 1, 2] ∧
      (∃ r, kfFilter p os = .ok r) ∧ bierFilter truncInt p os ≠ kfFilter p os := by
  let p : Params 2 1 := ⟨.const 1, .const 0, .const 1, .const 0, .const 0, .const 1, 0, exInt⟩
  let o : Obs 1 := ⟨0, fun _ => true⟩
  have hm : o.missing := ⟨0, rfl⟩
  have hk : kfFilter p [o] = .ok [(0, exInt)] := by
    simp [kfFilter, filterFull, filterLoop, filterStep, lastDims, filterCorrect, hm, p, bind,
      Except.bind, pure, Except.pure]
  refine ⟨p, [o], ⟨⟨_, rfl, PosSemidef.one⟩, ⟨_, rfl, PosDef.one⟩, exInt_posDef.posSemidef⟩, rfl,
    ⟨_, hk⟩, fun h => ?_⟩
  rw [hk] at h
  obtain ⟨R2, cR, -⟩ := cholesky_of_posDef (PosDef.one : (1 : Mat 1 1).PosDef)
  have hm' : (⟨pinv R2 *ᵥ o.val, o.mask⟩ : Obs 1).missing := hm
  simp only [bierFilter, bierRows, BStep.step, bierFull, p, udu_exInt, decorrelate, cholParam, cR, bind, Except.bind, pure,
    Except.pure, TV.map, List.map_cons, List.map_nil, bierLoop, bierStep, lastDims, bierCorrect, hm',
    not_true_eq_false, if_false, Except.ok.injEq, List.cons.injEq, Prod.mk.injEq, true_and,
    and_true] at h
  exact exInt_wrong h

/-- **C44 (finding).** As for the Cholesky filter, the covariance `filter_update` of the Bierman
filter returns has a leading axis of length one; the matrix in it is the updated covariance.
Missing: a result of shape `(n, n)`, as documented. -/
theorem C44_bierman_filter_update_shape_partial (hn : 0 < n) (p : Params n m) (mean : Vec n)
    {cov : Mat n n} (o : Option (Obs m)) (a : UpdateArgs n m) (hcov : cov.PosSemidef)
    (hQ : ∀ Q, argOrDefault a.Q p.Q = .ok Q → Q.PosSemidef)
    (hR : ∀ R, argOrDefault a.R p.R = .ok R → R.PosDef)
    {r : Vec n × (Fin 1 → Mat n n)} (h : bierUpdate id p mean cov o a = .ok r) :
    filterUpdate p mean cov o a = .ok (r.1, r.2 0) := by
  rw [C30_filter_update_eq hn p mean o a hcov hQ hR] at h
  cases hf : filterUpdate p mean cov o a with
  | error e => rw [hf] at h; cases h
  | ok q => rw [hf] at h; cases h; rfl

/-! ### The hypotheses can be met -/

/-- The parameters of the running example have a singular transition covariance. -/
theorem exParams_noiseDef : exParams.NoiseDef := by
  refine ⟨⟨_, rfl, exParams_psd.Q 0 (by norm_num) _ rfl⟩, ⟨_, rfl, ?_⟩, exParams_psd.S0⟩
  have e : (!![2] : Mat 1 1) = diagonal ![2] := by
    ext i j; fin_cases i; fin_cases j; rfl
  rw [e]
  exact PosDef.diagonal (by intro i; fin_cases i; simp)

example : exParams.NoiseDef ∧ exParams.DefinedFor 3 ∧ exInt.PosSemidef ∧
    (∃ c : UDU 2, c.U 0 1 ≠ 0 ∧ (∀ i j, j < i → c.U i j = 0) ∧ (∀ i, c.U i i = 1) ∧
      ∀ i, 0 ≤ c.D i) ∧ ∃ L : Mat 2 2, exInt = L * Lᵀ := by
  refine ⟨exParams_noiseDef, exParams_definedFor, exInt_posDef.posSemidef,
    ⟨⟨!![1, 1 / 2; 0, 1], ![3 / 2, 0]⟩, by simp, ?_, ?_, ?_⟩, ?_⟩
  · intro i j hij; fin_cases i <;> fin_cases j <;> simp_all
  · intro i; fin_cases i <;> simp
  · intro i; fin_cases i <;> norm_num
  · obtain ⟨L, -, h⟩ := cholesky_of_posDef exInt_posDef
    exact ⟨L, h.mul_transpose.symm⟩

end Verif
