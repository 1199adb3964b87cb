import Verif.Proofs.UnscentedGeneral
import Verif.Props.Unscented
import Verif.Props.UnscentedTransform

/-!
# C86: `UnscentedKalmanFilter` when the noise is added
-/

open Matrix

namespace Verif

variable {n m : ℕ}

/-! ### One state dimension -/

/-- **C86.** With one state dimension, positive definite `Q`, `R` and initial covariance, and noise
that is added to arbitrary (nonlinear) functions, `UnscentedKalmanFilter.filter` and `.smooth`
succeed for all data, and all their covariances are positive definite. -/
theorem C86_posDef {u : GParams 1 m} (hQ : u.Q.PosDef) (hR : u.R.PosDef) (hS : u.S0.PosDef)
    (os : List (Obs m))
    (hf : ∀ t, t + 1 < os.length → ∃ φ : Vec 1 → Vec 1, u.f.at t = .ok fun x w => φ x + w)
    (hg : ∀ t, t < os.length → ∃ γ : Vec 1 → Vec m, u.g.at t = .ok fun x v => γ x + v) :
    (∃ l, ukfFilter u os = .ok l ∧ ∀ M ∈ l, M.cov.PosDef) ∧
    (os ≠ [] → ∃ l, ukfSmooth u os = .ok l ∧ ∀ M ∈ l, M.cov.PosDef) := by
  obtain ⟨l, h1, h2⟩ := ukfLoop_posDef_one hQ hR hS os (t := 0) (prev := none) (by simp) (by simp)
    (fun i hi => by simpa using hg i hi)
    (fun i hi h => by
      rcases h with h | h
      · simp at h
      · exact hf (0 + i - 1) (by omega))
  refine ⟨⟨l, h1, h2⟩, fun hne => ?_⟩
  have hlen := runLoop_length h1
  cases l with
  | nil => exact absurd (List.length_eq_zero_iff.mp hlen.symm) hne
  | cons M l =>
    obtain ⟨r, h3, h4, h5⟩ := ukfBack_posDef (by norm_num) hQ l M 0 (h2 M (by simp))
      (fun M' h => h2 M' (by simp [h])) (fun i hi => by
        simpa using hf i (by rw [← hlen]; simpa using hi))
    refine ⟨r.1 :: r.2, ?_, by simpa using ⟨h4, h5⟩⟩
    rw [ukfSmooth, ukfFilter, h1]
    simp only [bind, Except.bind, backFull, h3, pure, Except.pure]

/-- **C86.** The smoother by itself loses nothing up to three state dimensions: if all filtered
covariances are positive definite then it succeeds and so are all smoothed covariances. -/
theorem C86_smooth_posDef (hn : n ≤ 3) {u : GParams n m} (hQ : u.Q.PosDef) {os : List (Obs m)}
    {l : List (Moments n)} (hl : ukfFilter u os = .ok l) (hpos : ∀ M ∈ l, M.cov.PosDef)
    (hne : os ≠ [])
    (hf : ∀ t, t + 1 < os.length → ∃ φ : Vec n → Vec n, u.f.at t = .ok fun x w => φ x + w) :
    ∃ l', ukfSmooth u os = .ok l' ∧ ∀ M ∈ l', M.cov.PosDef := by
  have hlen := runLoop_length hl
  cases l with
  | nil => exact absurd (List.length_eq_zero_iff.mp hlen.symm) hne
  | cons M l =>
    obtain ⟨r, h3, h4, h5⟩ := ukfBack_posDef hn hQ l M 0 (hpos M (by simp))
      (fun M' h => hpos M' (by simp [h])) (fun i hi => by
        simpa using hf i (by rw [← hlen]; simpa using hi))
    refine ⟨r.1 :: r.2, ?_, by simpa using ⟨h4, h5⟩⟩
    rw [ukfSmooth, hl]
    simp only [bind, Except.bind, backFull, h3, pure, Except.pure]

/-! ### The two classes -/

/-- **C86.** If a system has added noise and no observation after the first is available, then
`UnscentedKalmanFilter` returns what `AdditiveUnscentedKalmanFilter` returns: same filtered and same
smoothed estimates.  (With further observations they differ in general, see `C86_classes_differ`.) -/
theorem C86_agrees {u : GParams n m} {p : UParams n m} (hup : AddsNoise u p) (hQ : p.Q.PosDef)
    (hR : p.R.PosDef) (hS : p.S0ᵀ = p.S0) {os : List (Obs m)}
    (hos : ∀ t (h : t + 1 < os.length), (os[t + 1]).missing) :
    (∀ l, aukfFilter p os = .ok l → ukfFilter u os = .ok l) ∧
    (∀ l, aukfSmooth p os = .ok l → ukfSmooth u os = .ok l) := by
  obtain ⟨hf, hg, e1, e2, e3, e4⟩ := hup
  have hQs := symm_of_posSemidef hQ.posSemidef
  have hRs := symm_of_posSemidef hR.posSemidef
  have hQ' : u.Qᵀ = u.Q := by rw [e1, hQs]
  have hR' : u.Rᵀ = u.R := by rw [e2, hRs]
  have hS' : u.S0ᵀ = u.S0 := by rw [e4, hS]
  have key : ∀ l, aukfFilter p os = .ok l → ukfFilter u os = .ok l := by
    intro l hl
    rw [C53_additive_filter hS hQs hRs] at hl
    rw [C53_filter hS' hQ' hR']
    obtain ⟨h1, h2, h3⟩ := hl
    refine ⟨h1, fun h h' => ?_, fun t h h' => ?_⟩
    · obtain ⟨g, h4, h5⟩ := h2 h h'
      refine ⟨_, hg _ _ h4, ?_⟩
      rw [e1, e2, e3, e4]
      exact (genStep_start hQ hR).mpr h5
    · obtain ⟨f, g, h4, h5, h6⟩ := h3 t h h'
      refine ⟨_, _, hf _ _ h4, hg _ _ h5, ?_⟩
      rw [e1, e2]
      exact (genStep_missing hQ hR (hos t h)).mpr (addStep_missing (hos t h) h6)
  refine ⟨key, fun l' hl' => ?_⟩
  rw [C53_additive_smooth hS hQs hRs] at hl'
  rw [C53_smooth hS' hQ' hR']
  obtain ⟨l, h1, h2, h3, h4, h5⟩ := hl'
  refine ⟨l, key l h1, h2, h3, h4, fun t h h' => ?_⟩
  obtain ⟨f, h6, P, Γ, h7, h8⟩ := h5 t h h'
  refine ⟨_, hf _ _ h6, P, Γ, ?_, h8⟩
  rw [e1]
  exact (genPredicts_added hQ).mpr h7

/-! ### From two state dimensions on -/

/-- An observation function: its first entry is `x e + c ‖x‖²`, the others are zero. -/
def tilt (e : Fin n) (c : ℝ) (x : Vec n) : Vec m :=
  fun i => if i.val = 0 then x e + c * ∑ j, x j ^ 2 else 0

section
variable {E : Type} [AddCommGroup E] [Module ℝ E]

private theorem uexp₂_sum (F : Vec n → E) :
    uexp₂ (0 : Vec n) 1 (0 : Vec n) 1 (fun z w => F (z + w))
      = (1 - 2 * (n : ℝ) / 3) • F 0
        + (1 / 3 : ℝ) • ∑ j, (F (Pi.single j √3) + F (Pi.single j (-√3))) := by
  have e1 (j : Fin n) : √3 • (1 : Mat n n).col j = Pi.single j √3 := by
    ext i
    simp [Matrix.one_apply, Pi.single_apply]
  have e2 (j : Fin n) : -Pi.single j √3 = (Pi.single j (-√3) : Vec n) := by
    rw [Pi.single_neg]
  simp only [uexp₂, e1, zero_add, zero_sub, add_zero, e2]
  push_cast
  module

end

private theorem tilt_zero (e : Fin n) (c : ℝ) (i : Fin m) : tilt e c (0 : Vec n) i = 0 := by
  simp [tilt]

private theorem tilt_single (e : Fin n) (c s : ℝ) (j : Fin n) (i : Fin m) :
    tilt e c (Pi.single j s : Vec n) i
      = if i.val = 0 then (if e = j then s else 0) + c * s ^ 2 else 0 := by
  have : ∑ k, (Pi.single j s : Vec n) k ^ 2 = s ^ 2 := by
    rw [Finset.sum_eq_single j]
    · simp
    · intro k _ hk; simp [Pi.single_apply, hk]
    · simp
  rw [tilt, this, Pi.single_apply]

/-- The filter of the counterexample: a random walk with unit covariances. -/
noncomputable def exTilt (e : Fin n) (c : ℝ) : GParams n m where
  f := .flat [fun x w => x + w]
  g := .flat [fun x v => tilt e c x + v]
  Q := 1
  R := 1
  mu0 := 0
  S0 := 1

private theorem one_isCholesky' : IsCholesky (1 : Mat n n) 1 :=
  ⟨fun i j h => Matrix.one_apply_ne (by omega), fun i => by simp, by simp⟩

private theorem tilt_start (e : Fin n) (c : ℝ) {o : Obs m} (ho : o.missing) :
    ukfStep (exTilt e c : GParams n m) 0 none o = .ok ⟨0, 1⟩ := by
  rw [ukfStep_zero (by simp [exTilt]) (by simp [exTilt]) (by simp [exTilt])]
  refine ⟨_, rfl, (genStep_start PosDef.one PosDef.one).mpr ⟨1, one_isCholesky', _, rfl, ?_⟩⟩
  exact ⟨fun _ => rfl, fun h => absurd ho h⟩

private theorem sqrt3 : √3 ^ 2 = (3 : ℝ) := Real.sq_sqrt (by norm_num)

private theorem tilt_mean (e : Fin n) (c : ℝ) :
    uexp₂ (0 : Vec n) 1 (0 : Vec n) 1 (fun z w => (tilt e c (z + w) : Vec m))
      = fun i => if i.val = 0 then 2 * n * c else 0 := by
  rw [uexp₂_sum]
  ext i
  simp only [Pi.add_apply, Pi.smul_apply, Finset.sum_apply, tilt_zero, tilt_single, smul_eq_mul,
    neg_sq, sqrt3]
  by_cases hi : i.val = 0
  · simp only [hi, if_true]
    have (j : Fin n) : (if e = j then √3 else 0) + c * 3 + ((if e = j then -√3 else 0) + c * 3)
        = 6 * c := by
      split_ifs <;> ring
    simp only [this, Finset.sum_const, Finset.card_univ, Fintype.card_fin, nsmul_eq_mul]
    ring
  · simp [hi]

private theorem tilt_cov (e : Fin n) {c : ℝ} (hc : c ^ 2 * (n * (2 * n - 3)) = 1) {y : Vec m}
    (hy : y = fun i => if i.val = 0 then 2 * n * c else 0) :
    uexp₂ (0 : Vec n) 1 (0 : Vec n) 1
      (fun z w => vecMulVec (tilt e c (z + w) - y) (tilt e c (z + w) - y)) = 0 := by
  rw [uexp₂_sum fun x => vecMulVec (tilt e c x - y) (tilt e c x - y)]
  ext i k
  subst hy
  simp only [Matrix.add_apply, Matrix.smul_apply, Matrix.sum_apply, vecMulVec_apply, Pi.sub_apply,
    tilt_zero, tilt_single, smul_eq_mul, neg_sq, sqrt3, Matrix.zero_apply]
  by_cases hi : i.val = 0
  · by_cases hk : k.val = 0
    · simp only [hi, hk, if_true]
      have (j : Fin n) : ((if e = j then √3 else 0) + c * 3 - 2 * n * c)
            * ((if e = j then √3 else 0) + c * 3 - 2 * n * c)
          + ((if e = j then -√3 else 0) + c * 3 - 2 * n * c)
            * ((if e = j then -√3 else 0) + c * 3 - 2 * n * c)
          = (if e = j then 6 else 0) + 2 * (c * 3 - 2 * n * c) ^ 2 := by
        split_ifs
        · linear_combination 2 * sqrt3
        · ring
      simp only [this, Finset.sum_add_distrib, Finset.sum_ite_eq, Finset.mem_univ, if_true,
        Finset.sum_const, Finset.card_univ, Fintype.card_fin, nsmul_eq_mul]
      linear_combination (-2) * hc
    · simp [hk]
  · simp [hi]

private theorem tilt_cross (e : Fin n) {c : ℝ} {y : Vec m} (x : Vec n) (hx : x = 0) :
    (uexp₂ (0 : Vec n) 1 (0 : Vec n) 1
      (fun z w => vecMulVec (z + w - x) (tilt e c (z + w) - y)) : Mat n m)
      = Matrix.of fun i k => if i = e ∧ k.val = 0 then 2 else 0 := by
  subst hx
  rw [uexp₂_sum fun x => vecMulVec (x - 0) (tilt e c x - y)]
  ext i k
  simp only [Matrix.add_apply, Matrix.smul_apply, Matrix.sum_apply, vecMulVec_apply, Pi.sub_apply,
    tilt_single, smul_eq_mul, neg_sq, sqrt3, of_apply, sub_zero, Pi.zero_apply,
    Pi.single_apply, zero_mul, mul_zero, zero_add]
  rw [Finset.sum_eq_single i]
  · by_cases hk : k.val = 0
    · by_cases hi : e = i
      · simp only [hk, hi, if_true, and_self]
        linear_combination (2 / 3 : ℝ) * sqrt3
      · simp only [hk, hi, if_true, Ne.symm hi, if_false, false_and]
        ring
    · simp only [hk, if_true, if_false, and_false]
      ring
  · intro j _ hj
    simp [Ne.symm hj]
  · simp

private theorem walk_cov (x : Vec n) (hx : x = 0) :
    uexp₂ (0 : Vec n) 1 (0 : Vec n) 1 (fun z w => vecMulVec (z + w - x) (z + w - x))
      = (2 : ℝ) • (1 : Mat n n) := by
  subst hx
  rw [uexp₂_sum fun x => vecMulVec (x - 0) (x - 0)]
  ext i k
  simp only [Matrix.add_apply, Matrix.smul_apply, Matrix.sum_apply, vecMulVec_apply, sub_zero,
    smul_eq_mul, Pi.zero_apply, Pi.single_apply, zero_mul, mul_zero, zero_add, Matrix.one_apply]
  rw [Finset.sum_eq_single i]
  · by_cases hk : k = i
    · simp only [hk, if_true]
      linear_combination (2 / 3 : ℝ) * sqrt3
    · simp [hk, Ne.symm hk]
  · intro j _ hj
    simp [Ne.symm hj]
  · simp

/-- The covariance after the second row. -/
private theorem tilt_second (e : Fin n) {c : ℝ} (hc : c ^ 2 * (n * (2 * n - 3)) = 1) (hm : 0 < m)
    {o : Obs m} (ho : ¬ o.missing) :
    ∃ M : Moments n, ukfStep (exTilt e c : GParams n m) 1 (some ⟨0, 1⟩) o = .ok M ∧
      M.covᵀ = M.cov ∧ M.cov e e = -2 := by
  obtain ⟨Γ, hΓ⟩ : ∃ Γ : Mat n m, Γ = Matrix.of fun i k => if i = e ∧ k.val = 0 then 2 else 0 :=
    ⟨_, rfl⟩
  obtain ⟨y, hy⟩ : ∃ y : Vec m, y = fun i => if i.val = 0 then 2 * n * c else 0 := ⟨_, rfl⟩
  have hx : uexp₂ (0 : Vec n) 1 (0 : Vec n) 1 (fun z w => z + w) = 0 := by
    rw [uexp₂_sum fun x => x]
    ext i
    simp [← Pi.single_add]
  refine ⟨⟨0 + Γ *ᵥ (o.val - y), (2 : ℝ) • 1 - Γ * Γᵀ⟩, ?_, ?_, ?_⟩
  · rw [ukfStep_succ (t := 0) (by simp [exTilt]) (by simp [exTilt]) (by simp)]
    refine ⟨_, _, rfl, rfl, (genStep_added PosDef.one).mpr ⟨1, 1, one_isCholesky', one_isCholesky',
      0, y, hx.symm, ?_, ?_⟩⟩
    · rw [hy]; exact (tilt_mean e c).symm
    · rw [walk_cov 0 rfl, tilt_cov e hc hy, tilt_cross e 0 rfl, ← hΓ, zero_add]
      refine ⟨fun h => absurd h ho, fun _ => ⟨1, ?_, ?_, ?_⟩⟩
      · constructor <;> simp [exTilt]
      · simp
      · simp [exTilt]
  · simp
  · have : (Γ * Γᵀ) e e = 4 := by
      rw [Matrix.mul_apply, Finset.sum_eq_single ⟨0, hm⟩]
      · simp [hΓ]; norm_num
      · intro k _ hk
        have : k.val ≠ 0 := fun h => hk (Fin.ext h)
        simp [hΓ, this]
      · simp
    simp only [Matrix.sub_apply, this, Matrix.smul_apply, Matrix.one_apply_eq, smul_eq_mul]
    norm_num

/-- **C86 (limit of the claim).** From two state dimensions on the claim fails, for every number of
observed quantities: for a random walk with unit covariances and a quadratic observation function, a
missing first observation and any second one, `filter` returns a covariance with a negative
variance, and with a third row it raises `LinAlgError`. -/
theorem C86_fails_from_two_dimensions (hn : 2 ≤ n) (hm : 0 < m) (e : Fin n) :
    ∃ c : ℝ, ∀ o₀ o₁ o₂ : Obs m, o₀.missing → ¬ o₁.missing →
      (∃ M M', ukfFilter (exTilt e c : GParams n m) [o₀, o₁] = .ok [M, M'] ∧ M'.cov e e = -2) ∧
      ukfFilter (exTilt e c : GParams n m) [o₀, o₁, o₂] = .error .linAlgError := by
  have hn' : (2 : ℝ) ≤ n := by exact_mod_cast hn
  have hpos : 0 < (n : ℝ) * (2 * n - 3) := mul_pos (by linarith) (by linarith)
  refine ⟨1 / √(n * (2 * n - 3)), fun o₀ o₁ o₂ h0 h1 => ?_⟩
  have hc : (1 / √((n : ℝ) * (2 * n - 3))) ^ 2 * (n * (2 * n - 3)) = 1 := by
    rw [div_pow, one_pow, Real.sq_sqrt hpos.le, one_div, inv_mul_cancel₀ hpos.ne']
  obtain ⟨c, hc'⟩ : ∃ c, c = 1 / √((n : ℝ) * (2 * n - 3)) := ⟨_, rfl⟩
  rw [← hc'] at hc ⊢
  obtain ⟨M, h2, h3, h4⟩ := tilt_second e hc hm h1
  refine ⟨⟨⟨0, 1⟩, M, ?_, h4⟩, ?_⟩
  · simp only [ukfFilter, runLoop, tilt_start e c h0, h2, bind, Except.bind, pure, Except.pure]
  · have herr : augFilterPoints M (1 : Mat n n) (1 : Mat m m) = .error .linAlgError := by
      rw [augFilterPoints, moments2points_error]
      · rfl
      · simp only [blockDiag]
        rw [transpose_submatrix, fromBlocks_transpose, transpose_submatrix, fromBlocks_transpose]
        simp [h3]
      · intro h
        have := (posDef_of_blockDiag (posDef_of_blockDiag h).1).1.diag_pos (i := e)
        rw [h4] at this
        norm_num at this
    have h5 : ukfStep (exTilt e c : GParams n m) 2 (some M) o₂ = .error .linAlgError := by
      simp only [ukfStep, Option.getD_some, exTilt, herr, bind, Except.bind]
    simp only [ukfFilter, runLoop, tilt_start e c h0, h2, h5, bind, Except.bind]

/-- **C86.** With a second observation the two classes differ in general, even for one and the same
system with added noise: the additive class (whose covariances stay positive definite up to three
dimensions, C52) and the general class return different estimates. -/
theorem C86_classes_differ (hn : 2 ≤ n) (hn' : n ≤ 3) (hm : 0 < m) :
    ∃ (u : GParams n m) (p : UParams n m), AddsNoise u p ∧ p.Q.PosDef ∧ p.R.PosDef ∧ p.S0.PosDef ∧
      ∀ o₀ o₁ : Obs m, o₀.missing → ¬ o₁.missing →
        ∃ l l', ukfFilter u [o₀, o₁] = .ok l ∧ aukfFilter p [o₀, o₁] = .ok l' ∧ l ≠ l' := by
  obtain ⟨c, hc⟩ := C86_fails_from_two_dimensions hn hm ⟨0, by omega⟩
  refine ⟨exTilt ⟨0, by omega⟩ c, ⟨.flat [fun x => x], .flat [tilt ⟨0, by omega⟩ c], 1, 1, 0, 1⟩,
    ⟨?_, ?_, rfl, rfl, rfl, rfl⟩, PosDef.one, PosDef.one, PosDef.one, fun o₀ o₁ h0 h1 => ?_⟩
  · intro t φ h
    cases h
    rfl
  · intro t φ h
    cases h
    rfl
  · obtain ⟨⟨M, M', h2, h3⟩, -⟩ := hc o₀ o₁ o₁ h0 h1
    obtain ⟨⟨l, h4, h5⟩, -⟩ := C52_posDef hn' (u := ⟨.flat [fun x => x],
      .flat [tilt ⟨0, by omega⟩ c], 1, 1, 0, 1⟩) PosDef.one PosDef.one PosDef.one [o₀, o₁]
      (fun _ _ => ⟨_, rfl⟩) (fun _ _ => ⟨_, rfl⟩)
    refine ⟨_, _, h2, h4, ?_⟩
    rintro rfl
    have := (h5 M' (by simp)).diag_pos (i := ⟨0, by omega⟩)
    rw [h3] at this
    norm_num at this

/-! ### The hypotheses are met -/

/-- A strongly nonlinear system with one state and two observed quantities meets the hypotheses of
`C86_posDef`, for all data. -/
example (os : List (Obs 2)) (hne : os ≠ []) :
    ∃ l, ukfSmooth (⟨.flat [fun x w => (fun i => Real.exp (x i)) + w],
      .flat [fun x v => ![x 0 ^ 3, Real.sin (x 0)] + v], 1, 1, 0, 1⟩ : GParams 1 2) os = .ok l ∧
      ∀ M ∈ l, M.cov.PosDef :=
  (C86_posDef PosDef.one PosDef.one PosDef.one os (fun _ _ => ⟨fun x i => Real.exp (x i), rfl⟩)
    (fun _ _ => ⟨fun x => ![x 0 ^ 3, Real.sin (x 0)], rfl⟩)).2 hne

/-- `C86_agrees` applies to a nonlinear system with one observation followed by two missing ones. -/
example (o : Obs 1) :
    ∃ l, ukfFilter (⟨.flat [fun x w => (fun i => x i ^ 2) + w], .flat [fun x v => x + v], 1, 1, 0, 1⟩ :
      GParams 1 1) [o, ⟨0, fun _ => true⟩, ⟨0, fun _ => true⟩] = .ok l ∧
      aukfFilter (⟨.flat [fun x i => x i ^ 2], .flat [fun x => x], 1, 1, 0, 1⟩ : UParams 1 1)
        [o, ⟨0, fun _ => true⟩, ⟨0, fun _ => true⟩] = .ok l := by
  obtain ⟨⟨l, hl, -⟩, -⟩ := C52_posDef (n := 1) (m := 1) (by norm_num)
    (u := ⟨.flat [fun x i => x i ^ 2], .flat [fun x => x], 1, 1, 0, 1⟩)
    PosDef.one PosDef.one PosDef.one [o, ⟨0, fun _ => true⟩, ⟨0, fun _ => true⟩]
    (fun _ _ => ⟨_, rfl⟩) (fun _ _ => ⟨_, rfl⟩)
  refine ⟨l, (C86_agrees (p := ⟨.flat [fun x i => x i ^ 2], .flat [fun x => x], 1, 1, 0, 1⟩)
    ⟨fun t φ h => by cases h; rfl, fun t φ h => by cases h; rfl, rfl, rfl, rfl, rfl⟩ PosDef.one
    PosDef.one (by simp) ?_).1 l hl, hl⟩
  intro t h
  match t, h with
  | 0, _ => exact ⟨0, rfl⟩
  | 1, _ => exact ⟨0, rfl⟩

end Verif
