import Verif.Proofs.Consistency

/-!
# C89: a state that does not change is found
-/

open Matrix

namespace Verif

variable {n m : ℕ} {p : Params n m} {C : ℕ → Mat m n} {d : ℕ → Vec m} {R : ℕ → Mat m m}
  {os : List (Obs m)}

/-- **C89**, covariances.  A state that does not change.  If the rows `0 … t` tell at least `k` times
as much about every direction as one measurement with precision `M` does, the reported covariance of
row `t` is at most the `k`th part of the inverse of `M`. -/
theorem C89_covariance (hs : p.Static) (h : p.Observes C d R os.length) (hS : p.S0.PosDef)
    (hR : ∀ t, t < os.length → (R t).PosDef) {out : List (Vec n × Mat n n)}
    (hf : kfFilter p os = .ok out) {t : ℕ} {r : Vec n × Mat n n} (hr : out[t]? = some r)
    {M : Mat n n} (hM : M.PosDef) {k : ℝ}
    (hk : ∀ v, k * (v ⬝ᵥ (M *ᵥ v)) ≤ obsInfo C R os (t + 1) v) (v : Vec n) :
    k * (v ⬝ᵥ (r.2 *ᵥ v)) ≤ v ⬝ᵥ (M⁻¹ *ᵥ v) := by
  obtain ⟨e0, e1, -⟩ := (C72_linear_regression hs h hS hR).1 out hf t r hr
  rw [e1]
  refine inv_quad_le e0 hM (fun v => (hk v).trans ?_) v
  rw [quad_regPrecision]
  have := (posSemidef_iff_real.mp hS.inv.posSemidef).2 v
  linarith

/-- **C89**, means.  A state that does not change, and any data.  If the state is `x`, the reported
mean of row `t` is, in every direction, at most as many reported standard deviations from `x` as the
square root of: the squared error of the initial mean, plus the squared errors of the rows `0 … t`
that are not missing, each in units of its covariance. -/
theorem C89_error (hs : p.Static) (h : p.Observes C d R os.length) (hS : p.S0.PosDef)
    (hR : ∀ t, t < os.length → (R t).PosDef) {out : List (Vec n × Mat n n)}
    (hf : kfFilter p os = .ok out) {t : ℕ} {r : Vec n × Mat n n} (hr : out[t]? = some r)
    (x v : Vec n) :
    (v ⬝ᵥ (r.1 - x)) ^ 2 ≤ (v ⬝ᵥ (r.2 *ᵥ v))
      * (weighted p.S0 (p.mu0 - x) + obsErrors C d R os (t + 1) x) := by
  obtain ⟨e0, e1, e2⟩ := (C72_linear_regression hs h hS hR).1 out hf t r hr
  obtain ⟨ht, -, -⟩ := kfFilter_row hf hr
  obtain ⟨L, hL⟩ : ∃ L, L = regPrecision p.S0 C R os (t + 1) := ⟨_, rfl⟩
  have hu : IsUnit L.det := by rw [hL]; exact e0.det_pos.ne'.isUnit
  have hsym : (L⁻¹)ᵀ = L⁻¹ := by
    rw [hL]; exact symm_of_posSemidef e0.inv.posSemidef
  have h1 := (dot_regInfo_sq (C := C) (d := d) hS (T := t + 1) (by omega) hR p.mu0 x
    (L⁻¹ *ᵥ v)).1
  rw [← hL] at h1 e1 e2
  have h2 : v ⬝ᵥ (r.1 - x)
      = (L⁻¹ *ᵥ v) ⬝ᵥ (regInfo p.mu0 p.S0 C d R os (t + 1) - L *ᵥ x) := by
    have : r.1 - x = L⁻¹ *ᵥ (regInfo p.mu0 p.S0 C d R os (t + 1) - L *ᵥ x) := by
      rw [mulVec_sub, mulVec_mulVec, nonsing_inv_mul _ hu, one_mulVec, e2]
    rw [this, dot_mulVec_left, hsym]
  have h3 : (L⁻¹ *ᵥ v) ⬝ᵥ (L *ᵥ (L⁻¹ *ᵥ v)) = v ⬝ᵥ (r.2 *ᵥ v) := by
    rw [mulVec_mulVec, mul_nonsing_inv _ hu, one_mulVec, e1, dotProduct_comm]
  rw [h2, ← h3]
  exact h1

/-- **C89**, rate.  A state that does not change, constant observation parameters, an observation
matrix under which no direction is invisible.  After `N` rows that are not missing the reported
covariance is at most the `N`th part of that of estimating from one row alone.  If these rows are
exact, the squared error of the reported mean is at most the `N`th part of a bound in which neither
the data nor their number occur. -/
theorem C89_rate {C : Mat m n} {d : Vec m} {R : Mat m m} {mu0 : Vec n} {S0 : Mat n n}
    (hS : S0.PosDef) (hR : R.PosDef) (hC : ∀ v, C *ᵥ v = 0 → v = 0)
    {out : List (Vec n × Mat n n)}
    (hf : kfFilter ⟨.const 1, .const 0, .const 0, .const C, .const d, .const R, mu0, S0⟩ os
      = .ok out) {t : ℕ} {r : Vec n × Mat n n} (hr : out[t]? = some r) (v : Vec n) :
    ((os.take (t + 1)).countP fun o => !decide o.missing) * (v ⬝ᵥ (r.2 *ᵥ v))
        ≤ v ⬝ᵥ ((Cᵀ * R⁻¹ * C)⁻¹ *ᵥ v) ∧
    ∀ x : Vec n, (∀ o ∈ os.take (t + 1), ¬ o.missing → o.val = C *ᵥ x + d) →
      ((os.take (t + 1)).countP fun o => !decide o.missing) * (v ⬝ᵥ (r.1 - x)) ^ 2
        ≤ (v ⬝ᵥ ((Cᵀ * R⁻¹ * C)⁻¹ *ᵥ v)) * weighted S0 (mu0 - x) := by
  obtain ⟨ht, -, -⟩ := kfFilter_row hf hr
  obtain ⟨p, hp⟩ : ∃ p : Params n m,
    p = ⟨.const 1, .const 0, .const 0, .const C, .const d, .const R, mu0, S0⟩ := ⟨_, rfl⟩
  have hst : p.Static := by rw [hp]; exact ⟨rfl, rfl, rfl⟩
  have hob : p.Observes (fun _ => C) (fun _ => d) (fun _ => R) os.length := by
    rw [hp]; exact ⟨fun _ _ => rfl, fun _ _ => rfl, fun _ _ => rfl⟩
  have hpS : p.S0 = S0 := by rw [hp]
  have hpm : p.mu0 = mu0 := by rw [hp]
  rw [← hp] at hf
  have hM : (Cᵀ * R⁻¹ * C).PosDef := by
    have h0 := posSemidef_conj' hR.inv.posSemidef Cᵀ
    rw [transpose_transpose] at h0
    refine PosDef.of_dotProduct_mulVec_pos h0.isHermitian fun x hx => ?_
    rw [star_trivial, ← mulVec_mulVec, ← mulVec_mulVec, dotProduct_mulVec, ← mulVec_transpose,
      transpose_transpose]
    have := hR.inv.dotProduct_mulVec_pos (x := C *ᵥ x) fun h => hx (hC x h)
    rwa [star_trivial] at this
  have count : ∀ T, T ≤ os.length → ∀ w : Vec n,
      ((os.take T).countP fun o => !decide o.missing) * (w ⬝ᵥ ((Cᵀ * R⁻¹ * C) *ᵥ w))
        = obsInfo (fun _ => C) (fun _ => R) os T w := by
    intro T
    induction T with
    | zero => intro _ w; simp [obsInfo]
    | succ T ih =>
      intro hT w
      have hTl : T < os.length := by omega
      have ih' := ih (by omega) w
      rw [obsInfo] at ih' ⊢
      rw [Finset.sum_range_succ, ← ih', List.take_succ_eq_append_getElem hTl, List.countP_append,
        List.countP_singleton, List.getElem?_eq_getElem hTl]
      by_cases hm : os[T].missing
      · simp [hm]
      · have : w ⬝ᵥ ((Cᵀ * R⁻¹ * C) *ᵥ w) = weighted R (C *ᵥ w) := by
          rw [weighted, ← mulVec_mulVec, ← mulVec_mulVec, dotProduct_mulVec, ← mulVec_transpose,
            transpose_transpose]
        simp only [hm, decide_false, Bool.not_false, if_true, if_false, ← this]
        push_cast
        ring
  have hcov := C89_covariance hst hob (by rwa [hpS]) (fun _ _ => hR) hf hr hM
    (k := (os.take (t + 1)).countP fun o => !decide o.missing)
    (fun w => (count (t + 1) (by omega) w).le) v
  refine ⟨hcov, fun x hx => ?_⟩
  have herr := C89_error hst hob (by rwa [hpS]) (fun _ _ => hR) hf hr x v
  have h0 : obsErrors (fun _ => C) (fun _ => d) (fun _ => R) os (t + 1) x = 0 := by
    rw [obsErrors]
    refine Finset.sum_eq_zero fun i hi => ?_
    rw [Finset.mem_range] at hi
    rw [List.getElem?_eq_getElem (show i < os.length by omega)]
    simp only
    split
    · rfl
    · next hm =>
      have hmem : os[i] ∈ os.take (t + 1) :=
        List.mem_take_iff_getElem.mpr ⟨i, by omega, rfl⟩
      rw [hx _ hmem hm, sub_self]
      simp [weighted]
  rw [h0, add_zero, hpS, hpm] at herr
  have hw := weighted_nonneg hS (mu0 - x)
  have hN : (0 : ℝ) ≤ ((os.take (t + 1)).countP fun o => !decide o.missing) := Nat.cast_nonneg _
  calc _ ≤ _ * ((v ⬝ᵥ (r.2 *ᵥ v)) * weighted S0 (mu0 - x)) :=
        mul_le_mul_of_nonneg_left herr hN
    _ = (_ * (v ⬝ᵥ (r.2 *ᵥ v))) * weighted S0 (mu0 - x) := by ring
    _ ≤ _ := mul_le_mul_of_nonneg_right hcov hw

/-- A case that meets the hypotheses of `C89_covariance` and `C89_error`: the line of C72, whose
three rows tell something about intercept and slope. -/
example (os : List (Obs 1)) (hl : os.length = 3) (ho : ∀ o ∈ os, ¬ o.missing) :
    exLine.Static ∧
    exLine.Observes (fun t => !![1, (t : ℝ)]) (fun _ => 0) (fun _ => 1) os.length ∧
    exLine.S0.PosDef ∧ (∃ out, kfFilter exLine os = .ok out) ∧ (1 : Mat 2 2).PosDef ∧
    ∀ v : Vec 2, (1 / 2 : ℝ) * (v ⬝ᵥ ((1 : Mat 2 2) *ᵥ v))
      ≤ obsInfo (fun t => !![1, (t : ℝ)]) (fun _ => 1) os (2 + 1) v := by
  have hst : exLine.Static := ⟨rfl, rfl, rfl⟩
  have hob : exLine.Observes (fun t => !![1, (t : ℝ)]) (fun _ => 0) (fun _ => 1) os.length := by
    rw [hl]
    refine ⟨?_, fun _ _ => rfl, fun _ _ => rfl⟩
    intro t ht
    have : t = 0 ∨ t = 1 ∨ t = 2 := by omega
    rcases this with rfl | rfl | rfl <;> simp [exLine, lastDims]
  refine ⟨hst, hob, PosDef.one, ⟨_, kfFilter_eq (hob.covers hst)⟩, PosDef.one, fun v => ?_⟩
  match os, hl, ho with
  | [a, b, c], _, ho =>
    have ha := ho a (by simp)
    have hb := ho b (by simp)
    have hc := ho c (by simp)
    simp only [obsInfo, Finset.sum_range_succ, Finset.range_zero, Finset.sum_empty]
    simp [ha, hb, hc, weighted, Matrix.mulVec, dotProduct, Fin.sum_univ_two]
    nlinarith [sq_nonneg (v 0 + v 1), sq_nonneg (v 0 + 2 * v 1), sq_nonneg (v 0),
      sq_nonneg (2 * v 0 + 3 * v 1)]

/-- A case that meets the hypotheses of `C89_rate`: two sensors of a static plane, exact data with
missing rows. -/
example (x : Vec 2) (mask : List Bool) : ∃ (os : List (Obs 2)) (out : List (Vec 2 × Mat 2 2)),
    os.length = mask.length ∧
    kfFilter ⟨.const 1, .const 0, .const 0, .const !![1, 1; 0, 1], .const ![1, 0], .const 1,
      ![5, 7], 1⟩ os = .ok out ∧
    (1 : Mat 2 2).PosDef ∧ (∀ v : Vec 2, !![(1 : ℝ), 1; 0, 1] *ᵥ v = 0 → v = 0) ∧
    ((os.countP fun o => !decide o.missing) = mask.countP fun b => !b) ∧
    ∀ o ∈ os, ¬ o.missing → o.val = !![1, 1; 0, 1] *ᵥ x + ![1, 0] := by
  refine ⟨mask.map fun b => ⟨!![1, 1; 0, 1] *ᵥ x + ![1, 0], fun _ => b⟩, _, by simp,
    kfFilter_eq ⟨trivial, trivial, trivial, trivial, trivial, trivial⟩, PosDef.one, ?_, ?_, ?_⟩
  · intro v hv
    have h0 := congrFun hv 0
    have h1 := congrFun hv 1
    simp [Matrix.mulVec, dotProduct, Fin.sum_univ_two] at h0 h1
    ext i
    fin_cases i
    · simp; linarith
    · simpa using h1
  · rw [List.countP_map]
    refine List.countP_congr fun b _ => ?_
    simp [Obs.missing]
  · intro o ho _
    obtain ⟨b, -, rfl⟩ := List.mem_map.mp ho
    rfl

end Verif
