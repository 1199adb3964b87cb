import Verif.Proofs.UnscentedSymmetry
import Verif.Props.UnscentedTransform
import Verif.Props.UnscentedExact

/-!
# C82: units do not matter to the unscented filters, the order of the components does

`Spec/UnscentedSymmetry.lean` says what a model in other coordinates is.
-/

open Matrix

namespace Verif

variable {n m : ℕ}

/-- **C82.** The additive unscented filter in other units (and, more generally, in coordinates
`L x + c` with `L` lower triangular with positive diagonal): the same results, in the other
coordinates, and the same exceptions. -/
theorem C82_additive_filter {p : UParams n m} {L : Mat n n} (hL : Units L) (c : Vec n)
    (hS : p.S0ᵀ = p.S0) (hQ : p.Qᵀ = p.Q) (hR : p.Rᵀ = p.R) (os : List (Obs m)) :
    aukfFilter (p.changeState L c) os
      = (aukfFilter p os).map (List.map fun M => ⟨L *ᵥ M.mean + c, L * M.cov * Lᵀ⟩) :=
  (aukfFilter_changeState hL c hS hQ hR os).1

/-- **C82.** The same for the additive unscented smoother. -/
theorem C82_additive_smooth {p : UParams n m} {L : Mat n n} (hL : Units L) (c : Vec n)
    (hS : p.S0ᵀ = p.S0) (hQ : p.Qᵀ = p.Q) (hR : p.Rᵀ = p.R) (os : List (Obs m)) :
    aukfSmooth (p.changeState L c) os
      = (aukfSmooth p os).map (List.map fun M => ⟨L *ᵥ M.mean + c, L * M.cov * Lᵀ⟩) :=
  aukfSmooth_changeState hL c hS hQ hR os

/-- **C82.** The same for `UnscentedKalmanFilter.filter`, where both noises may have other units
too. -/
theorem C82_filter {p : GParams n m} {L N : Mat n n} {V : Mat m m} (hL : Units L)
    (hN : Units N) (hV : Units V) (c : Vec n) (hS : p.S0ᵀ = p.S0) (hQ : p.Qᵀ = p.Q)
    (hR : p.Rᵀ = p.R) (os : List (Obs m)) :
    ukfFilter (p.changeState L c N V) os
      = (ukfFilter p os).map (List.map fun M => ⟨L *ᵥ M.mean + c, L * M.cov * Lᵀ⟩) :=
  (ukfFilter_changeState hL hN hV c hS hQ hR os).1

/-- **C82.** The same for `UnscentedKalmanFilter.smooth`, if its predicted covariances are
invertible. -/
theorem C82_smooth {p : GParams n m} {L N : Mat n n} {V : Mat m m} (hL : Units L)
    (hN : Units N) (hV : Units V) (c : Vec n) (hS : p.S0ᵀ = p.S0) (hQ : p.Qᵀ = p.Q)
    (hR : p.Rᵀ = p.R) (os : List (Obs m))
    (hdet : ∀ l, ukfFilter p os = .ok l → ∀ t (h : t + 1 < l.length) f P Γ, p.f.at t = .ok f →
      GenPredicts f p.Q l[t] P Γ → P.cov.det ≠ 0) :
    ukfSmooth (p.changeState L c N V) os
      = (ukfSmooth p os).map (List.map fun M => ⟨L *ᵥ M.mean + c, L * M.cov * Lᵀ⟩) := by
  obtain ⟨h1, h2⟩ := ukfFilter_changeState hL hN hV c hS hQ hR os
  rw [ukfSmooth, ukfSmooth, h1]
  cases hl : ukfFilter p os with
  | error e => rfl
  | ok l =>
    simp only [Except.map, bind, Except.bind]
    refine backFull_map l fun i x hx hi next => ?_
    obtain ⟨hi', rfl⟩ := List.getElem?_eq_some_iff.mp hx
    have hs := h2 l hl _ (List.getElem_mem hi')
    refine ukfSmoothStep_changeState hL hN c hQ i hs ?_ next
    intro pts f hm hf
    obtain ⟨P, Γ, hP, e⟩ := genPredicts_of_augPoints hQ hs hm f
    rw [e]
    exact (hdet l hl i hi f P Γ hf hP).isUnit

/-- **C82.** Observations in other units, or mixed by any invertible matrix: the same results, with at
most three state components and positive definite covariances. -/
theorem C82_observations (hn : n ≤ 3) {p : UParams n m} {V : Mat m m} (hV : IsUnit V.det)
    (d : Vec m) (hS : p.S0.PosDef) (hQ : p.Q.PosDef) (hR : p.R.PosDef) (os : List (Obs m)) :
    aukfFilter (p.changeObs V d) (os.map fun o => ⟨V *ᵥ o.val + d, o.mask⟩) = aukfFilter p os ∧
    aukfSmooth (p.changeObs V d) (os.map fun o => ⟨V *ᵥ o.val + d, o.mask⟩) = aukfSmooth p os := by
  have h := aukfFilter_changeObs hn hV d hS hQ hR os
  refine ⟨h, ?_⟩
  have h' : aukfFilter (p.changeObs V d) (os.map fun o => ⟨V *ᵥ o.val + d, o.mask⟩)
      = aukfFilter p os := h
  rw [aukfSmooth, aukfSmooth, h']
  rfl

/-! ### The order of the components -/

/-- Exchanges two components. -/
def swap₂ : Mat 2 2 := !![0, 1; 1, 0]

/-- The fourth power of the first component. -/
def fourthPower (x : Vec 2) : Vec 2 := ![x 0 ^ 4, x 1]

/-- A state with two correlated components that is not observed. -/
noncomputable def exOrder : UParams 2 1 where
  f := .flat [fourthPower]
  g := .flat [fun x => ![x 0]]
  Q := 1
  R := 1
  mu0 := 0
  S0 := !![1, 3 / 4; 3 / 4, 25 / 16]

/-- Two steps without observation: the second mean is the unscented expectation of the transition. -/
private theorem two_missing {p : UParams 2 1} (hS : p.S0.PosDef) (hQ : p.Q = 1) (hR : p.R = 1)
    {f : Vec 2 → Vec 2} (hf : p.f = .flat [f]) {g : Vec 2 → Vec 1} (hg : p.g = .flat [g])
    {o o' : Obs 1} (ho : o.missing) (ho' : o'.missing) {L : Mat 2 2} (hL : IsCholesky p.S0 L) :
    ∃ M M', aukfFilter p [o, o'] = .ok [M, M'] ∧ M'.mean = uexp p.mu0 L f := by
  obtain ⟨l, hl, -⟩ := (C52_posDef (n := 2) (by norm_num) (u := p) (by rw [hQ]; exact PosDef.one)
    (by rw [hR]; exact PosDef.one) hS [o, o'] (fun t _ => ⟨f, by rw [hf]; rfl⟩)
    (fun t _ => ⟨g, by rw [hg]; rfl⟩)).1
  obtain ⟨h1, h2, h3⟩ := (C53_additive_filter (symm_of_posSemidef hS.posSemidef)
    (by rw [hQ, transpose_one]) (by rw [hR, transpose_one])).mp hl
  simp only [List.length_cons, List.length_nil] at h1
  obtain ⟨M, M', rfl⟩ := List.length_eq_two.mp h1
  obtain ⟨g', -, L', -, y, -, hc⟩ := h2 (by simp) (by simp)
  have hM : M = ⟨p.mu0, p.S0⟩ := hc.1 ho
  obtain ⟨f', g', hf', -, P, Γ, ⟨L', hL', hP, -⟩, L₁, -, y, -, hc⟩ := h3 0 (by simp) (by simp)
  have hf : f' = f := by rw [hf] at hf'; cases hf'; rfl
  have hM' : M' = P := hc.1 ho'
  subst hf hM'
  refine ⟨M, M', hl, ?_⟩
  simp only [List.getElem_cons_zero, hM] at hL' hP
  rw [hP, hL'.unique hL]

theorem exOrder_chol : IsCholesky exOrder.S0 !![1, 0; 3 / 4, 1] := by
  refine ⟨fun i j h => ?_, fun i => ?_, ?_⟩
  · fin_cases i <;> fin_cases j <;> simp_all
  · fin_cases i <;> simp
  · ext i j
    fin_cases i <;> fin_cases j <;> simp [exOrder, Matrix.mul_apply, Fin.sum_univ_two] <;> norm_num

theorem exOrder_swap_S0 : (exOrder.changeState swap₂ 0).S0 = !![25 / 16, 3 / 4; 3 / 4, 1] := by
  ext i j
  fin_cases i <;> fin_cases j <;>
    simp [exOrder, UParams.changeState, swap₂, Matrix.mul_apply, Fin.sum_univ_two, vecMul,
      dotProduct]

theorem exOrder_swap_chol :
    IsCholesky (exOrder.changeState swap₂ 0).S0 !![5 / 4, 0; 3 / 5, 4 / 5] := by
  rw [exOrder_swap_S0]
  refine ⟨fun i j h => ?_, fun i => ?_, ?_⟩
  · fin_cases i <;> fin_cases j <;> simp_all
  · fin_cases i <;> simp
  · ext i j
    fin_cases i <;> fin_cases j <;> simp [Matrix.mul_apply, Fin.sum_univ_two] <;> norm_num

theorem swap₂_mul : swap₂ * swap₂ = 1 := by
  ext i j
  fin_cases i <;> fin_cases j <;> simp [swap₂, Matrix.mul_apply, Fin.sum_univ_two]

theorem swap₂_transpose : swap₂ᵀ = swap₂ := by
  ext i j
  fin_cases i <;> fin_cases j <;> simp [swap₂]

theorem swap₂_inv : swap₂⁻¹ = swap₂ := inv_eq_left_inv swap₂_mul

theorem swap₂_mulVec (x : Vec 2) : swap₂ *ᵥ x = ![x 1, x 0] := by
  funext i
  fin_cases i <;> simp [swap₂, mulVec, dotProduct, Fin.sum_univ_two]

/-- **C82.** The order of the components matters: with the two components of the state exchanged, an
otherwise identical model (with positive definite covariances) predicts 1011/625 instead of 3 for the
same quantity. -/
theorem C82_order_matters {o o' : Obs 1} (ho : o.missing) (ho' : o'.missing) :
    exOrder.S0.PosDef ∧ exOrder.Q.PosDef ∧ exOrder.R.PosDef ∧ IsUnit swap₂.det ∧
    ∃ M M' K K', aukfFilter exOrder [o, o'] = .ok [M, M'] ∧
      aukfFilter (exOrder.changeState swap₂ 0) [o, o'] = .ok [K, K'] ∧
      M'.mean 0 = 3 ∧ K'.mean 1 = 1011 / 625 ∧ K'.mean ≠ swap₂ *ᵥ M'.mean := by
  have h3 : √3 * √3 = (3 : ℝ) := Real.mul_self_sqrt (by norm_num)
  have h9 : √3 ^ 4 = (9 : ℝ) := by
    calc √3 ^ 4 = (√3 * √3) * (√3 * √3) := by ring
      _ = 9 := by rw [h3]; norm_num
  have even4 : Even 4 := by decide
  obtain ⟨M, M', h1, h2⟩ := two_missing (p := exOrder) exOrder_chol.posDef rfl rfl rfl rfl ho ho'
    exOrder_chol
  obtain ⟨K, K', k1, k2⟩ := two_missing (p := exOrder.changeState swap₂ 0) exOrder_swap_chol.posDef
    (by simp [UParams.changeState, exOrder, swap₂_transpose, swap₂_mul]) rfl rfl rfl ho ho'
    exOrder_swap_chol
  have e1 : M'.mean 0 = 3 := by
    rw [h2, uexp_apply, gexp]
    simp [exOrder, fourthPower, Fin.sum_univ_two, h9, even4.neg_pow]
    norm_num
  have e2 : K'.mean 1 = 1011 / 625 := by
    rw [k2, uexp_apply, gexp]
    simp only [swap₂_inv, swap₂_mulVec, fourthPower, Fin.sum_univ_two]
    simp [exOrder, UParams.changeState, mul_pow, h9, even4.neg_pow]
    norm_num
  refine ⟨exOrder_chol.posDef, PosDef.one, PosDef.one, ?_, M, M', K, K', h1, k1, e1, e2, ?_⟩
  · simp [swap₂, det_fin_two]
  · intro h
    have := congrFun h 1
    rw [swap₂_mulVec, e2] at this
    simp only [cons_val_one, cons_val_zero] at this
    rw [e1] at this
    norm_num at this

/-! ### The hypotheses are met -/

/-- Metres to centimetres and degrees Celsius to kelvin, for a nonlinear filter that succeeds on every
sequence of observations. -/
example (os : List (Obs 1)) : ∃ l, aukfFilter exSquare os = .ok l ∧
    aukfFilter (exSquare.changeState (diagonal ![100, 1]) ![0, 273]) os
      = .ok (l.map fun M => ⟨diagonal ![100, 1] *ᵥ M.mean + ![0, 273],
          diagonal ![100, 1] * M.cov * (diagonal ![100, 1])ᵀ⟩) := by
  obtain ⟨l, hl, -⟩ := (C52_posDef (u := exSquare) (by norm_num) Matrix.PosDef.one
    Matrix.PosDef.one Matrix.PosDef.one os (fun _ _ => ⟨_, rfl⟩) (fun _ _ => ⟨_, rfl⟩)).1
  refine ⟨l, hl, ?_⟩
  have := C82_additive_filter (p := exSquare) (Units.diagonal (u := ![100, 1])
    (by intro i; fin_cases i <;> simp)) ![0, 273] transpose_one transpose_one transpose_one os
  rw [this, hl]
  rfl

/-- For a random walk with general noise the predicted covariances are invertible. -/
example {Q : Mat 1 1} {M P : Moments 1} {Γ : Mat 1 1}
    (h : GenPredicts (fun x w => x + w) Q M P Γ) : P.cov.det ≠ 0 := by
  obtain ⟨L, LQ, hL, -, h1, h2, -⟩ := h
  have h3 : √3 * √3 = (3 : ℝ) := Real.mul_self_sqrt (by norm_num)
  have e1 : P.mean 0 = M.mean 0 := by
    rw [h1]
    simp [uexp₂]
    ring
  have e2 : P.cov 0 0 = L 0 0 ^ 2 + LQ 0 0 ^ 2 := by
    rw [h2]
    simp [uexp₂, vecMulVec_apply, e1]
    linear_combination (L 0 0 ^ 2 + LQ 0 0 ^ 2) / 3 * h3
  rw [det_fin_one, e2]
  have := hL.diag_pos 0
  positivity

end Verif
