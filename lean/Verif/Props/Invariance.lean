import Verif.Spec.Invariance
import Verif.Proofs.Rows
import Verif.Props.Posterior

/-!
# C69, C70: only ratios of covariances matter; known quantities stay known
-/

open Matrix

namespace Verif

variable {n m k : ℕ}

theorem pinv_smul {c : ℝ} (hc : c ≠ 0) (M : Mat n m) : pinv (c • M) = c⁻¹ • pinv M := by
  have h := pinv_penrose M
  apply pinv_eq_of_penrose
  have e1 : c • M * c⁻¹ • pinv M = M * pinv M := by
    rw [Matrix.smul_mul, Matrix.mul_smul, smul_smul, mul_inv_cancel₀ hc, one_smul]
  have e2 : c⁻¹ • pinv M * c • M = pinv M * M := by
    rw [Matrix.smul_mul, Matrix.mul_smul, smul_smul, inv_mul_cancel₀ hc, one_smul]
  exact ⟨by rw [e1, Matrix.mul_smul, h.mul_mul], by rw [e2, Matrix.mul_smul, h.mul_mul'],
    by rw [e1, h.symm_left], by rw [e2, h.symm_right]⟩

theorem gain_smul {c : ℝ} (hc : c ≠ 0) (P : Mat n n) (R : Mat m m) (C : Mat m n) :
    gain (c • P) (c • R) C = gain P R C := by
  have e : C * (c • P) * Cᵀ + c • R = c • (C * P * Cᵀ + R) := by
    rw [Matrix.mul_smul, Matrix.smul_mul, smul_add]
  rw [gain, gain, e, pinv_smul hc, Matrix.smul_mul, Matrix.smul_mul, Matrix.mul_smul, smul_smul,
    mul_inv_cancel₀ hc, one_smul]

/-- The same for parameters as functions of time. -/
structure PFun.Scaled (P P' : PFun n m) (c : ℝ) (T : ℕ) : Prop where
  A : ∀ t, t + 1 < T → P'.A t = P.A t
  b : ∀ t, t + 1 < T → P'.b t = P.b t
  Q : ∀ t, t + 1 < T → P'.Q t = c • P.Q t
  C : ∀ t, t < T → P'.C t = P.C t
  d : ∀ t, t < T → P'.d t = P.d t
  R : ∀ t, t < T → P'.R t = c • P.R t
  mu0 : P'.mu0 = P.mu0
  S0 : P'.S0 = c • P.S0

theorem PFun.Scaled.kf {P P' : PFun n m} {c : ℝ} {T : ℕ} (h : P.Scaled P' c T) (hc : c ≠ 0)
    (z : ℕ → Obs m) {t : ℕ} (ht : t < T) :
    (P'.kf z t).filtMean = (P.kf z t).filtMean ∧ (P'.kf z t).filtCov = c • (P.kf z t).filtCov := by
  have step : ∀ t, t < T → (P'.kf z t).predMean = (P.kf z t).predMean →
      (P'.kf z t).predCov = c • (P.kf z t).predCov →
      (P'.kf z t).filtMean = (P.kf z t).filtMean ∧
        (P'.kf z t).filtCov = c • (P.kf z t).filtCov := by
    intro t ht e1 e2
    by_cases hm : (z t).missing
    · rw [(P.kf_missing z hm).2.1, (P.kf_missing z hm).2.2, (P'.kf_missing z hm).2.1,
        (P'.kf_missing z hm).2.2]
      exact ⟨e1, e2⟩
    · obtain ⟨-, a, b⟩ := P.kf_observed z hm
      obtain ⟨-, a', b'⟩ := P'.kf_observed z hm
      rw [a, b, a', b', e1, e2, h.C t ht, h.d t ht, h.R t ht, gain_smul hc]
      exact ⟨rfl, by rw [Matrix.mul_smul, smul_sub]⟩
  induction t with
  | zero => exact step 0 ht h.mu0 h.S0
  | succ t ih =>
    obtain ⟨i1, i2⟩ := ih (by omega)
    apply step (t + 1) ht
    · rw [(P.kf_pred_succ z t).1, (P'.kf_pred_succ z t).1, i1, h.A t ht, h.b t ht]
    · rw [(P.kf_pred_succ z t).2, (P'.kf_pred_succ z t).2, i2, h.A t ht, h.Q t ht, Matrix.mul_smul,
        Matrix.smul_mul, smul_add]

theorem PFun.Scaled.ks {P P' : PFun n m} {c : ℝ} {T : ℕ} (h : P.Scaled P' c (T + 1)) (hc : c ≠ 0)
    (z : ℕ → Obs m) {t : ℕ} (ht : t ≤ T) :
    (P'.ks z T t).mean = (P.ks z T t).mean ∧ (P'.ks z T t).cov = c • (P.ks z T t).cov := by
  obtain ⟨j, hj⟩ : ∃ j, T = t + j := ⟨T - t, by omega⟩
  induction j generalizing t with
  | zero =>
    obtain rfl : t = T := by omega
    rw [P.ks_last, P'.ks_last]
    exact h.kf hc z (by omega)
  | succ j ih =>
    obtain ⟨i1, i2⟩ := ih (t := t + 1) (by omega) (by omega)
    obtain ⟨f1, f2⟩ := h.kf hc z (t := t) (by omega)
    rw [P.ks_lt' z (by omega), P'.ks_lt' z (by omega)]
    simp only [i1, i2, f1, f2, h.A t (by omega), h.b t (by omega), h.Q t (by omega), gain_smul hc]
    refine ⟨trivial, ?_⟩
    simp only [Matrix.mul_smul, Matrix.smul_mul, smul_add, ← smul_sub, ← smul_add]

theorem ScaledNoise.covers {p p' : Params n m} {c : ℝ} {T : ℕ} (h : ScaledNoise p p' c T)
    (hc : p.Covers T) : p'.Covers T := by
  have hdef := definedFor_iff_covers.mpr hc
  refine definedFor_iff_covers.mp ⟨by rw [h.A]; exact hdef.A, by rw [h.b]; exact hdef.b,
    fun t ht => ?_, by rw [h.C]; exact hdef.C, by rw [h.d]; exact hdef.d, fun t ht => ?_⟩
  · obtain ⟨Q, hQ⟩ := hdef.Q t ht
    exact ⟨_, h.Q t ht Q hQ⟩
  · obtain ⟨R, hR⟩ := hdef.R t ht
    exact ⟨_, h.R t ht R hR⟩

theorem ScaledNoise.fn {p p' : Params n m} {c : ℝ} {T : ℕ} (h : ScaledNoise p p' c T)
    (hc : p.Covers T) : p.fn.Scaled p'.fn c T := by
  have hc' := h.covers hc
  refine ⟨fun t _ => by simp only [Params.fn, h.A], fun t _ => by simp only [Params.fn, h.b],
    fun t ht => ?_, fun t _ => by simp only [Params.fn, h.C], fun t _ => by simp only [Params.fn, h.d],
    fun t ht => ?_, h.mu0, h.S0⟩
  · exact lastDims_get hc'.Q (by omega) (h.Q t ht _ (lastDims_eq_ok (hc.Q.mono (by omega))))
  · exact lastDims_get hc'.R ht (h.R t ht _ (lastDims_eq_ok (hc.R.mono (by omega))))

/-- **C69.** If all covariances (initial, transition, observation) are multiplied by the same
positive number `c`, then `filter` and `smooth` return the same means, and their covariances are
multiplied by `c`. -/
theorem C69_only_noise_ratios (p p' : Params n m) (os : List (Obs m)) {c : ℝ} (hc : 0 < c)
    (h : ScaledNoise p p' c os.length) :
    (∀ out, kfFilter p os = .ok out → kfFilter p' os = .ok (out.map fun r => (r.1, c • r.2))) ∧
    (∀ out, kfSmooth p os = .ok out → kfSmooth p' os = .ok (out.map fun r => (r.1, c • r.2))) := by
  constructor
  · intro out ho
    by_cases hne : os = []
    · subst hne
      rw [kfFilter_ok ho]
      rfl
    · have hcov := kfFilter_covers ho hne
      rw [kfFilter_ok ho, kfFilter_eq (h.covers hcov), List.map_map]
      congr 1
      refine List.map_congr_left fun t ht => ?_
      obtain ⟨e1, e2⟩ := (h.fn hcov).kf hc.ne' (obsFn os) (List.mem_range.mp ht)
      simp only [Function.comp, e1, e2]
  · intro out ho
    obtain ⟨hne, hcov, e⟩ := kfSmooth_ok ho
    have hpos : 0 < os.length := List.length_pos_iff.mpr hne
    rw [e, kfSmooth_eq hne (h.covers hcov), List.map_map]
    congr 1
    refine List.map_congr_left fun t ht => ?_
    have hs : p.fn.Scaled p'.fn c (os.length - 1 + 1) := by
      rw [show os.length - 1 + 1 = os.length by omega]; exact h.fn hcov
    obtain ⟨e1, e2⟩ := hs.ks hc.ne' (obsFn os) (t := t)
      (by have := List.mem_range.mp ht; omega)
    simp only [Function.comp, e1, e2]

/-- A scaled version of the example model exists. -/
example : ScaledNoise exParams { exParams with
    Q := .const ((3 : ℝ) • !![0, 0; 0, 1]), R := .const ((3 : ℝ) • !![2]), S0 := (3 : ℝ) • 1 } 3 3 :=
  ⟨rfl, rfl, rfl, rfl, fun _ _ _ h => by cases h; rfl, fun _ _ _ h => by cases h; rfl, rfl, rfl⟩

/-! ### C70 -/

theorem known_gain {H : Mat k n} {P : Mat n n} (h : H * P = 0) (R : Mat m m) (C : Mat m n) :
    H * gain P R C = 0 := by
  rw [gain, ← Matrix.mul_assoc, ← Matrix.mul_assoc, h, Matrix.zero_mul, Matrix.zero_mul]

/-- A transition that maps the quantity to itself does so linearly. -/
theorem KnownQuantity.kernel {H : Mat k n} {A : Mat n n} {b : Vec n} {y y' : Vec k} {x₀ : Vec n}
    (h₀ : H *ᵥ x₀ = y) (h : ∀ x, H *ᵥ x = y → H *ᵥ (A *ᵥ x + b) = y') {j : ℕ} {M : Mat n j}
    (hM : H * M = 0) : H * (A * M) = 0 := by
  have key : ∀ v : Vec n, H *ᵥ v = 0 → H *ᵥ (A *ᵥ v) = 0 := by
    intro v hv
    have e1 := h x₀ h₀
    have e2 := h (x₀ + v) (by rw [mulVec_add, h₀, hv, add_zero])
    rw [mulVec_add A, add_right_comm, mulVec_add, e1] at e2
    exact add_eq_left.mp e2
  ext i j'
  have hv : H *ᵥ (fun l => M l j') = 0 := by
    ext i'
    exact congrFun (congrFun hM i') j'
  exact congrFun (key _ hv) i

theorem KnownQuantity.kf {p : Params n m} {H : Mat k n} {y : ℕ → Vec k} {T : ℕ}
    (h : KnownQuantity p H y T) (hc : p.Covers T) (z : ℕ → Obs m) {t : ℕ} (ht : t < T) :
    H *ᵥ (p.fn.kf z t).filtMean = y t ∧ H * (p.fn.kf z t).filtCov = 0 := by
  have step : ∀ t, t < T → H *ᵥ (p.fn.kf z t).predMean = y t → H * (p.fn.kf z t).predCov = 0 →
      H *ᵥ (p.fn.kf z t).filtMean = y t ∧ H * (p.fn.kf z t).filtCov = 0 := by
    intro t ht e1 e2
    by_cases hm : (z t).missing
    · rw [(p.fn.kf_missing z hm).2.1, (p.fn.kf_missing z hm).2.2]
      exact ⟨e1, e2⟩
    · obtain ⟨-, a, b⟩ := p.fn.kf_observed z hm
      rw [a, b, mulVec_add, mulVec_mulVec, known_gain e2, zero_mulVec, add_zero, Matrix.mul_sub, e2,
        ← Matrix.mul_assoc, ← Matrix.mul_assoc, known_gain e2, Matrix.zero_mul, Matrix.zero_mul,
        sub_zero]
      exact ⟨e1, rfl⟩
  induction t with
  | zero => exact step 0 ht h.init.1 h.init.2
  | succ t ih =>
    obtain ⟨i1, i2⟩ := ih (by omega)
    have hAt := lastDims_eq_ok (hc.A.mono (show t + 1 ≤ T - 1 by omega))
    have hbt := lastDims_eq_ok (hc.b.mono (show t + 1 ≤ T - 1 by omega))
    have hQt := lastDims_eq_ok (hc.Q.mono (show t + 1 ≤ T - 1 by omega))
    have htr := h.trans t ht _ _ hAt hbt
    apply step (t + 1) ht
    · rw [(p.fn.kf_pred_succ z t).1]
      exact htr _ i1
    · rw [(p.fn.kf_pred_succ z t).2, Matrix.mul_add, ← Matrix.mul_assoc,
        show H * (p.fn.A t * (p.fn.kf z t).filtCov) = 0 from KnownQuantity.kernel i1 htr i2,
        Matrix.zero_mul, zero_add]
      exact h.noise t ht _ hQt

theorem KnownQuantity.ks {p : Params n m} {H : Mat k n} {y : ℕ → Vec k} {T : ℕ}
    (h : KnownQuantity p H y (T + 1)) (hc : p.Covers (T + 1)) (z : ℕ → Obs m) {t : ℕ} (ht : t ≤ T) :
    H *ᵥ (p.fn.ks z T t).mean = y t ∧ H * (p.fn.ks z T t).cov = 0 := by
  obtain ⟨f1, f2⟩ := h.kf hc z (t := t) (by omega)
  by_cases hT : t = T
  · subst hT
    rw [p.fn.ks_last]
    exact ⟨f1, f2⟩
  · rw [p.fn.ks_lt' z (by omega)]
    simp only [mulVec_add, mulVec_mulVec, Matrix.mul_add, ← Matrix.mul_assoc, known_gain f2,
      Matrix.zero_mul, zero_mulVec, add_zero, f1, f2, and_self]

/-- **C70.** A linear combination of the state components that is known initially, that every
transition determines from itself and that no noise enters (for example a total that stays constant)
is known at all times: every filtered and every smoothed mean has the exact value, and the reported
covariance in this direction is 0. -/
theorem C70_known_quantities (p : Params n m) (os : List (Obs m)) (H : Mat k n) (y : ℕ → Vec k)
    (h : KnownQuantity p H y os.length) :
    (∀ out, kfFilter p os = .ok out → ∀ t r, out[t]? = some r → H *ᵥ r.1 = y t ∧ H * r.2 = 0) ∧
    (∀ out, kfSmooth p os = .ok out → ∀ t r, out[t]? = some r → H *ᵥ r.1 = y t ∧ H * r.2 = 0) := by
  constructor
  · intro out ho t r hr
    obtain ⟨ht, hc, rfl⟩ := kfFilter_row ho hr
    exact h.kf hc _ ht
  · intro out ho t r hr
    obtain ⟨ht, hc, rfl⟩ := kfSmooth_row ho hr
    refine KnownQuantity.ks (T := os.length - 1) ?_ ?_ _ (by omega)
    · rwa [show os.length - 1 + 1 = os.length by omega]
    · rwa [show os.length - 1 + 1 = os.length by omega]

/-- Mass moves between two compartments, the total is 1; the first compartment is observed. -/
noncomputable def exCompartments : Params 2 1 where
  A := .seq [!![1 / 2, 1 / 4; 1 / 2, 3 / 4], !![1, 1; 0, 0]]
  b := .const 0
  Q := .const !![1, -1; -1, 1]
  C := .const !![1, 0]
  d := .const ![0]
  R := .const !![1]
  mu0 := ![1 / 3, 2 / 3]
  S0 := !![1, -1; -1, 1]

/-- The total meets the hypotheses of C70. -/
example : KnownQuantity exCompartments !![1, 1] (fun _ => ![1]) 3 := by
  refine ⟨⟨?_, ?_⟩, ?_, ?_⟩
  · ext i
    fin_cases i
    simp [exCompartments, Matrix.mulVec, dotProduct, Fin.sum_univ_succ]
    norm_num
  · ext i j
    fin_cases i
    fin_cases j <;> simp [exCompartments, Matrix.mul_apply, Fin.sum_univ_succ]
  · intro t _ Q hQ
    cases hQ
    ext i j
    fin_cases i
    fin_cases j <;> simp [Matrix.mul_apply, Fin.sum_univ_succ]
  · intro t ht A b hA hb x hx
    cases hb
    have hx' := congrFun hx 0
    simp [Matrix.mulVec, dotProduct, Fin.sum_univ_succ] at hx'
    have : t = 0 ∨ t = 1 := by omega
    rcases this with rfl | rfl
    · cases hA
      ext i
      fin_cases i
      simp [Matrix.mulVec, dotProduct, Fin.sum_univ_succ]
      linarith
    · cases hA
      ext i
      fin_cases i
      simp [Matrix.mulVec, dotProduct, Fin.sum_univ_succ]
      linarith

end Verif
