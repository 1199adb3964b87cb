import Verif.Proofs.EmLimit
import Verif.Proofs.EmStrict
import Verif.Spec.EmBounded
import Mathlib.Topology.Instances.Matrix
import Mathlib.Topology.MetricSpace.Sequences

/-!
# Limit points of `em`, and an upper bound for the likelihood
-/

open Matrix Filter Topology

namespace Verif

variable {n m : ℕ}

/-- An iteration that does not increase the likelihood changes nothing. -/
theorem em_eq_of_predLL_le {p p' : Params n m} {vars : EmVar → Bool} {g : ℕ → Obs m} {T : ℕ}
    (h : EmEqs p vars p (p.fn.stats g T) g T p') (hcov : p.Covers (T + 1))
    (hc : p.EmInvariant vars) (hp : p.fn.PD (T + 1)) (hp' : p'.fn.PD (T + 1)) (hT : 0 < T)
    (hN : 0 < obsCount g (T + 1)) (hle : p'.fn.predLL g T ≤ p.fn.predLL g T) : p' = p := by
  obtain ⟨Ω, i1, ν, i2, X, hX⟩ := exists_statsMoments hcov hp.psd g
  have h1 := predLL_ge hX hp hp'
  exact em_ascent_eq g h (stats_pairPSD hp.psd _) (fun t ht => hp.smooth g ht) hc hp hp' hT hN
    (by linarith)

/-- The likelihood is continuous in the parameters estimated by `em`. -/
theorem predLL_assemble {vars : EmVar → Bool} {p : Params n m} {x : EmSpace n m} {T : ℕ}
    (hP : (assemble vars p x).fn.PD (T + 1)) (g : ℕ → Obs m) :
    ContinuousAt (fun θ => (assemble vars p θ).fn.predLL g T) x := by
  have hz : SmoothObs 0 (fun _ : EmSpace n m => g) x (T + 1) := by
    intro t _
    by_cases hm : (g t).missing
    · exact Or.inl fun _ => hm
    · exact Or.inr ⟨fun _ => hm, SmoothV.const _⟩
  exact ((assemble_smooth (r := 0) vars p x (T + 1)).predLL hz (hP.regular _)).continuousAt

/-- If a subsequence of the iterates converges, then to a fixed point. -/
theorem em_limit_point {vars : EmVar → Bool} {p lim : Params n m} {q : ℕ → Params n m} {T : ℕ}
    {g : ℕ → Obs m} {φ : ℕ → ℕ} (h0 : q 0 = p)
    (hq : ∀ k, EmEqs (q k) vars (q k) ((q k).fn.stats g T) g T (q (k + 1)))
    (hmono : Monotone fun k => (q k).fn.predLL g T) (hφ : StrictMono φ)
    (hl : EmConverges vars p (fun k => q (φ k)) lim) (hpd : lim.fn.PD (T + 1))
    (hpd' : (emNext p vars lim (lim.fn.stats g T) g T).fn.PD (T + 1))
    (hcov : lim.Covers (T + 1)) (hinv : lim.EmInvariant vars) (hT : 0 < T)
    (hN : 0 < obsCount g (T + 1)) :
    EmEqs lim vars lim (lim.fn.stats g T) g T lim := by
  have hf : ∀ k, SameFixed vars p (q k) := by
    intro k
    induction k with
    | zero => rw [h0]; exact SameFixed.refl _ _
    | succ k ih => exact ih.trans (hq k).sameFixed
  have hql : assemble vars p (emCoord vars lim) = lim := assemble_coord hl.selConst hl.sameFixed
  have hqk : ∀ k, 0 < k → assemble vars p (emCoord vars (q k)) = q k := by
    intro k hk
    obtain ⟨j, rfl⟩ := Nat.exists_eq_succ_of_ne_zero hk.ne'
    exact assemble_coord (hq j).selConst (hf (j + 1))
  have hstep : ∀ k, emNext p vars (q k) ((q k).fn.stats g T) g T = q (k + 1) := fun k =>
    ((hq k).eq_emNext.trans (emNext_given (hf k))).symm
  have hpos : ∀ k, 0 < φ (k + 1) := fun k => lt_of_lt_of_le (Nat.succ_pos k) (hφ.le_apply)
  have hc1 : Tendsto (fun k => emCoord vars (q (φ (k + 1)))) atTop (𝓝 (emCoord vars lim)) :=
    hl.coord.comp (tendsto_add_atTop_nat 1)
  have hL1 := (predLL_assemble (vars := vars) (p := p) (x := emCoord vars lim) (T := T)
    (by rw [hql]; exact hpd) g).tendsto.comp hc1
  simp only [Function.comp_def, hql, hqk _ (hpos _)] at hL1
  have hF := (emNext_coord (vars := vars) (p := p) (x := emCoord vars lim) (T := T)
    (by rw [hql]; exact hpd) g).tendsto.comp hc1
  simp only [Function.comp_def, hql, hqk _ (hpos _), hstep] at hF
  have he := emNext_eqs p vars lim (lim.fn.stats g T) g T
  have hqn := assemble_coord he.selConst he.sameFixed
  have hL2 := (predLL_assemble (vars := vars) (p := p)
    (x := emCoord vars (emNext p vars lim (lim.fn.stats g T) g T)) (T := T)
    (by rw [hqn]; exact hpd') g).tendsto.comp hF
  simp only [Function.comp_def, hqn, hqk _ (Nat.succ_pos _)] at hL2
  have hle : (emNext p vars lim (lim.fn.stats g T) g T).fn.predLL g T ≤ lim.fn.predLL g T := by
    refine le_of_tendsto_of_tendsto' hL2 (hL1.comp (tendsto_add_atTop_nat 1)) fun k => ?_
    exact hmono (Nat.succ_le_of_lt (hφ (Nat.lt_succ_self (k + 1))))
  have he' := he.given hl.sameFixed
  rw [em_eq_of_predLL_le he' hcov hinv hpd hpd' hT hN hle] at he'
  exact he'

/-- Along a convergent subsequence the likelihood tends to that of the limit. -/
theorem predLL_limit_point {vars : EmVar → Bool} {p lim : Params n m} {q : ℕ → Params n m} {T : ℕ}
    {g : ℕ → Obs m} {φ : ℕ → ℕ} (h0 : q 0 = p)
    (hq : ∀ k, EmEqs (q k) vars (q k) ((q k).fn.stats g T) g T (q (k + 1))) (hφ : StrictMono φ)
    (hl : EmConverges vars p (fun k => q (φ k)) lim) (hpd : lim.fn.PD (T + 1)) :
    Tendsto (fun k => (q (φ (k + 1))).fn.predLL g T) atTop (𝓝 (lim.fn.predLL g T)) := by
  have hf : ∀ k, SameFixed vars p (q k) := by
    intro k
    induction k with
    | zero => rw [h0]; exact SameFixed.refl _ _
    | succ k ih => exact ih.trans (hq k).sameFixed
  have hql : assemble vars p (emCoord vars lim) = lim := assemble_coord hl.selConst hl.sameFixed
  have hqk : ∀ k, 0 < k → assemble vars p (emCoord vars (q k)) = q k := by
    intro k hk
    obtain ⟨j, rfl⟩ := Nat.exists_eq_succ_of_ne_zero hk.ne'
    exact assemble_coord (hq j).selConst (hf (j + 1))
  have hpos : ∀ k, 0 < φ (k + 1) := fun k => lt_of_lt_of_le (Nat.succ_pos k) (hφ.le_apply)
  have hc1 : Tendsto (fun k => emCoord vars (q (φ (k + 1)))) atTop (𝓝 (emCoord vars lim)) :=
    hl.coord.comp (tendsto_add_atTop_nat 1)
  have hL1 := (predLL_assemble (vars := vars) (p := p) (x := emCoord vars lim) (T := T)
    (by rw [hql]; exact hpd) g).tendsto.comp hc1
  simpa only [Function.comp_def, hql, hqk _ (hpos _)] using hL1

/-! ### Limit points exist -/

theorem TendstoM.det {k : ℕ} {a : ℕ → Mat k k} {b : Mat k k} (h : TendstoM a b) :
    Tendsto (fun i => (a i).det) atTop (𝓝 b.det) := by
  have hc : Continuous fun M : Mat k k => M.det := continuous_id.matrix_det
  exact (hc.tendsto b).comp h.pi

/-- Limits of positive definite matrices with determinants bounded away from zero. -/
theorem posDef_of_limit {k : ℕ} {a : ℕ → Mat k k} {b : Mat k k} (h : TendstoM a b)
    (hp : ∀ i, (a i).PosDef) {ε : ℝ} (hε : 0 < ε) (hd : ∀ i, ε ≤ (a i).det) : b.PosDef := by
  have hs : b.PosSemidef := by
    refine posSemidef_iff_real.mpr ⟨?_, fun x => ?_⟩
    · ext i j
      refine tendsto_nhds_unique (h j i) ?_
      have e : ∀ l, a l j i = a l i j := fun l =>
        congrFun (congrFun (symm_of_posSemidef (hp l).posSemidef) i) j
      simp only [e]
      exact h i j
    · have hl : Tendsto (fun l => x ⬝ᵥ (a l *ᵥ x)) atTop (𝓝 (x ⬝ᵥ (b *ᵥ x))) := by
        simp only [dotProduct, mulVec]
        exact tendsto_finset_sum _ fun i _ => (tendsto_finset_sum _ fun j _ =>
          (h i j).mul_const _).const_mul _
      exact ge_of_tendsto' hl fun l => (posSemidef_iff_real.mp (hp l).posSemidef).2 x
  refine hs.posDef_iff_isUnit.mpr ?_
  rw [Matrix.isUnit_iff_isUnit_det, isUnit_iff_ne_zero]
  exact (lt_of_lt_of_le hε (ge_of_tendsto' h.det hd)).ne'

theorem norm_sel_le {α : Type*} [SeminormedAddCommGroup α] {s : Bool} {a : α} {B : ℝ} (hB : 0 ≤ B)
    (h : s = true → ‖a‖ ≤ B) : ‖if s then a else 0‖ ≤ B := by
  cases s
  · simpa using hB
  · exact h rfl

theorem norm_mat_le {ι κ : Type} [Fintype ι] [Fintype κ] {a : ι → κ → ℝ} {B : ℝ} (hB : 0 ≤ B)
    (h : ∀ i j, |a i j| ≤ B) : ‖a‖ ≤ B :=
  (pi_norm_le_iff_of_nonneg hB).mpr fun i => (pi_norm_le_iff_of_nonneg hB).mpr fun j => h i j

theorem norm_vec_le {ι : Type} [Fintype ι] {a : ι → ℝ} {B : ℝ} (hB : 0 ≤ B)
    (h : ∀ i, |a i| ≤ B) : ‖a‖ ≤ B :=
  (pi_norm_le_iff_of_nonneg hB).mpr fun i => h i

theorem EmBounded.norm_le {vars : EmVar → Bool} {B ε : ℝ} {q : Params n m} (hB : 0 ≤ B)
    (h : EmBounded vars B ε q) : ‖emCoord vars q‖ ≤ B := by
  simp only [emCoord, Prod.norm_def, sup_le_iff]
  exact ⟨norm_sel_le hB fun e => norm_mat_le hB (h.A e), norm_sel_le hB fun e => norm_vec_le hB (h.b e),
    norm_sel_le hB fun e => norm_mat_le hB (h.Q e).1,
    norm_sel_le hB fun e => norm_mat_le hB (h.C e), norm_sel_le hB fun e => norm_vec_le hB (h.d e),
    norm_sel_le hB fun e => norm_mat_le hB (h.R e).1,
    norm_sel_le hB fun e => norm_vec_le hB (h.mu0 e),
    norm_sel_le hB fun e => norm_mat_le hB (h.S0 e).1⟩

theorem tendsto_of_sel_M {ι κ : Type} {s : Bool} {a : ℕ → ι → κ → ℝ} {x : ι → κ → ℝ}
    {b : TV (Matrix ι κ ℝ)}
    (h : Tendsto (fun k => if s then a k else 0) atTop (𝓝 x)) :
    if s then (if s then TV.const (Matrix.of x) else b).IsConst ∧
      TendstoM a ((if s then TV.const (Matrix.of x) else b).at 0)
    else (if s then TV.const (Matrix.of x) else b) = b := by
  cases s
  · rfl
  · refine ⟨⟨_, rfl⟩, fun i j => ?_⟩
    exact tendsto_pi_nhds.mp (tendsto_pi_nhds.mp h i) j

theorem tendsto_of_sel_V {ι : Type} {s : Bool} {a : ℕ → ι → ℝ} {x : ι → ℝ} {b : TV (ι → ℝ)}
    (h : Tendsto (fun k => if s then a k else 0) atTop (𝓝 x)) :
    if s then (if s then TV.const x else b).IsConst ∧
      TendstoV a ((if s then TV.const x else b).at 0)
    else (if s then TV.const x else b) = b := by
  cases s
  · rfl
  · exact ⟨⟨_, rfl⟩, fun i => tendsto_pi_nhds.mp h i⟩

/-- Bounded sequences of parameters have convergent subsequences. -/
theorem exists_emConverges {vars : EmVar → Bool} {p : Params n m} {q : ℕ → Params n m} {B ε : ℝ}
    (hB : 0 ≤ B) (h : ∀ k, EmBounded vars B ε (q k)) :
    ∃ (lim : Params n m) (φ : ℕ → ℕ), StrictMono φ ∧ EmConverges vars p (fun k => q (φ k)) lim := by
  obtain ⟨x, -, φ, hφ, hx⟩ := tendsto_subseq_of_bounded
    (Metric.isBounded_closedBall (x := (0 : EmSpace n m)) (r := B))
    (x := fun k => emCoord vars (q k)) fun k => by
      rw [mem_closedBall_zero_iff]; exact (h k).norm_le hB
  refine ⟨assemble vars p x, φ, hφ, ?_⟩
  have h1 := (continuous_fst.tendsto x).comp hx
  have s1 := (continuous_snd.tendsto x).comp hx
  have h2 := (continuous_fst.tendsto _).comp s1
  have s2 := (continuous_snd.tendsto _).comp s1
  have h3 := (continuous_fst.tendsto _).comp s2
  have s3 := (continuous_snd.tendsto _).comp s2
  have h4 := (continuous_fst.tendsto _).comp s3
  have s4 := (continuous_snd.tendsto _).comp s3
  have h5 := (continuous_fst.tendsto _).comp s4
  have s5 := (continuous_snd.tendsto _).comp s4
  have h6 := (continuous_fst.tendsto _).comp s5
  have s6 := (continuous_snd.tendsto _).comp s5
  have h7 := (continuous_fst.tendsto _).comp s6
  have h8 := (continuous_snd.tendsto _).comp s6
  refine ⟨tendsto_of_sel_M h1, tendsto_of_sel_V h2, tendsto_of_sel_M h3, tendsto_of_sel_M h4,
    tendsto_of_sel_V h5, tendsto_of_sel_M h6, ?_, ?_⟩
  · simp only [assemble, Function.comp_def, emCoord] at h7 ⊢
    cases hv : vars .initialStateMean
    · simp
    · simp only [hv, if_true] at h7 ⊢
      exact fun i => tendsto_pi_nhds.mp h7 i
  · simp only [assemble, Function.comp_def, emCoord] at h8 ⊢
    cases hv : vars .initialStateCovariance
    · simp
    · simp only [hv, if_true] at h8 ⊢
      exact fun i j => tendsto_pi_nhds.mp (tendsto_pi_nhds.mp h8 i) j

/-! ### An upper bound -/

theorem logDet_mono {k : ℕ} {R S : Mat k k} (hR : R.PosDef) (h : (S - R).PosSemidef) :
    Real.log R.det ≤ Real.log S.det := by
  have hS : S.PosDef := by
    have := hR.add_posSemidef h
    rwa [add_sub_cancel] at this
  have h1 := logDet_sub_le hS hR
  have h2 := trace_mul_nonneg hS.inv.posSemidef h
  rw [Matrix.mul_sub, Matrix.trace_sub, nonsing_inv_mul _ hS.det_pos.ne'.isUnit] at h2
  simp only [Matrix.trace_one, Fintype.card_fin] at h2
  linarith

/-- A Gaussian log density is at most that of the centre, and that decreases with the covariance. -/
theorem logN_le {k : ℕ} {R S : Mat k k} (x c : Vec k) (hR : R.PosDef) (h : (S - R).PosSemidef) :
    logN x c S ≤ logN 0 0 R := by
  have hS : S.PosDef := by
    have := hR.add_posSemidef h
    rwa [add_sub_cancel] at this
  have h1 := logDet_mono hR h
  have h2 := (posSemidef_iff_real.mp hS.inv.posSemidef).2 (x - c)
  simp only [logN, sub_self, zero_dotProduct, add_zero]
  linarith

theorem predLL_le {P : PFun n m} {T : ℕ} (hP : P.PD (T + 1)) {R : Mat m m} (hR : R.PosDef)
    (hPR : ∀ t ≤ T, (P.R t - R).PosSemidef) (g : ℕ → Obs m) :
    P.predLL g T ≤ obsCount g (T + 1) * logN 0 0 R := by
  rw [PFun.predLL, obsCount_eq, Finset.sum_mul]
  refine Finset.sum_le_sum fun t ht => mul_le_mul_of_nonneg_left ?_ (g t).w_nonneg
  have ht : t < T + 1 := Finset.mem_range.mp ht
  refine logN_le _ _ hR ?_
  rw [add_sub_assoc]
  exact (posSemidef_conj' (hP.filt g ht).1.posSemidef _).add (hPR t (by omega))

end Verif
