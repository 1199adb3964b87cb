import Verif.Proofs.Gauss
import Verif.Linalg.Gain
import Mathlib.Probability.Kernel.CondDistrib
import Mathlib.Probability.Independence.Basic
import Mathlib.Data.Matrix.ColumnRowPartitioned

/-!
# Conditionally Gaussian random vectors

`CondGauss μ X Y f S`: the pair `(Y, X)` has the law of `(Y, f Y + E)` with `E` centred Gaussian
with covariance `S` and independent of `Y`.  Rules for prediction, correction and smoothing, and
the translation to Mathlib's conditional distribution.
-/

open MeasureTheory ProbabilityTheory Matrix

namespace Verif

variable {Ω H H' : Type*} [MeasurableSpace Ω] [MeasurableSpace H] [MeasurableSpace H']
  {ι κ τ : Type*} [Fintype ι] [DecidableEq ι] [Fintype κ] [DecidableEq κ]
  [Fintype τ] [DecidableEq τ]
  {μ : Measure Ω} [IsProbabilityMeasure μ]

structure CondGauss (μ : Measure Ω) (X : Ω → ι → ℝ) (Y : Ω → H) (f : H → ι → ℝ)
    (S : Matrix ι ι ℝ) : Prop where
  measX : Measurable X
  measY : Measurable Y
  measf : Measurable f
  psd : S.PosSemidef
  law : μ.map (fun ω => (Y ω, X ω))
    = ((μ.map Y).prod (gauss 0 S)).map (fun p => (p.1, f p.1 + p.2))

/-- Joint law with an independent variable. -/
theorem CondGauss.law_indep {X : Ω → ι → ℝ} {Y : Ω → H} {f : H → ι → ℝ} {S : Matrix ι ι ℝ}
    (h : CondGauss μ X Y f S) {W : Ω → H'} (hW : Measurable W)
    (hi : IndepFun (fun ω => (Y ω, X ω)) W μ) :
    μ.map (fun ω => ((Y ω, X ω), W ω))
      = ((μ.map Y).prod ((gauss 0 S).prod (μ.map W))).map
        (fun p => ((p.1, f p.1 + p.2.1), p.2.2)) := by
  have hf := h.measf
  have hX := h.measX
  have hY := h.measY
  haveI : IsProbabilityMeasure (μ.map Y) := Measure.isProbabilityMeasure_map hY.aemeasurable
  haveI : IsProbabilityMeasure (μ.map W) := Measure.isProbabilityMeasure_map hW.aemeasurable
  rw [(indepFun_iff_map_prod_eq_prod_map_map (by fun_prop) (by fun_prop)).mp hi, h.law]
  have e : (μ.map W) = (μ.map W).map id := by simp
  conv_lhs => rw [e]
  rw [Measure.map_prod_map _ _ (by fun_prop) (by fun_prop), ← Measure.prodAssoc_prod,
    Measure.map_map (by fun_prop) (by fun_prop)]
  rfl

/-- Prediction: an affine image plus independent noise. -/
theorem CondGauss.predict {X : Ω → ι → ℝ} {Y : Ω → H} {f : H → ι → ℝ} {S : Matrix ι ι ℝ}
    (h : CondGauss μ X Y f S) {W : Ω → κ → ℝ} (hW : Measurable W)
    (hi : IndepFun (fun ω => (Y ω, X ω)) W μ) {Q : Matrix κ κ ℝ} (hQ : Q.PosSemidef)
    (hlaw : μ.map W = gauss 0 Q) (A : Matrix κ ι ℝ) (b : κ → ℝ) :
    CondGauss μ (fun ω => A *ᵥ X ω + b + W ω) Y (fun y => A *ᵥ f y + b) (A * S * Aᵀ + Q) := by
  have hf := h.measf
  have hX := h.measX
  have hY := h.measY
  haveI : IsProbabilityMeasure (μ.map Y) := Measure.isProbabilityMeasure_map hY.aemeasurable
  refine ⟨by fun_prop, hY, by fun_prop, (posSemidef_conj h.psd A).add hQ, ?_⟩
  have e1 : μ.map (fun ω => (Y ω, A *ᵥ X ω + b + W ω))
      = (μ.map (fun ω => ((Y ω, X ω), W ω))).map (fun p => (p.1.1, A *ᵥ p.1.2 + b + p.2)) := by
    rw [Measure.map_map (by fun_prop) (by fun_prop)]; rfl
  have e2 : gauss 0 (A * S * Aᵀ + Q)
      = ((gauss 0 S).prod (gauss 0 Q)).map (fun p => A *ᵥ p.1 + (1 : Matrix κ κ ℝ) *ᵥ p.2) := by
    rw [gauss_prod_map h.psd hQ]; simp
  have e3 : μ.map Y = (μ.map Y).map id := by simp
  rw [e1, h.law_indep hW hi, hlaw, e2]
  conv_rhs => rw [e3]
  rw [Measure.map_prod_map _ _ (by fun_prop) (by fun_prop), Measure.map_map (by fun_prop)
    (by fun_prop), Measure.map_map (by fun_prop) (by fun_prop)]
  congr 1
  funext p
  simp only [Function.comp, Prod.map, id, one_mulVec, mulVec_add, Prod.mk.injEq, true_and]
  abel

/-- Law of the innovation representation of history and new observation. -/
theorem CondGauss.correct {X : Ω → ι → ℝ} {Y : Ω → H} {f : H → ι → ℝ} {S : Matrix ι ι ℝ}
    (h : CondGauss μ X Y f S) {V : Ω → κ → ℝ} (hV : Measurable V)
    (hi : IndepFun (fun ω => (Y ω, X ω)) V μ) {R : Matrix κ κ ℝ} (hR : R.PosSemidef)
    (hlaw : μ.map V = gauss 0 R) (C : Matrix κ ι ℝ) (d : κ → ℝ) :
    CondGauss μ X (fun ω => (Y ω, C *ᵥ X ω + d + V ω))
      (fun y => f y.1 + gain S R C *ᵥ (y.2 - (C *ᵥ f y.1 + d))) (S - gain S R C * C * S) := by
  have hf := h.measf
  have hX := h.measX
  have hY := h.measY
  have hS := h.psd
  haveI : IsProbabilityMeasure (μ.map Y) := Measure.isProbabilityMeasure_map hY.aemeasurable
  have hpred := h.predict hV hi hR hlaw C d
  refine ⟨hX, by fun_prop, by fun_prop, updated_posSemidef C hS hR, ?_⟩
  set K := gain S R C with hK
  set Sz := C * S * Cᵀ + R with hSz
  have hSz' : Sz.PosSemidef := innov_posSemidef C hS hR
  have e1 : μ.map (fun ω => ((Y ω, C *ᵥ X ω + d + V ω), X ω))
      = (μ.map (fun ω => ((Y ω, X ω), V ω))).map
          (fun p => ((p.1.1, C *ᵥ p.1.2 + d + p.2), p.1.2)) := by
    rw [Measure.map_map (by fun_prop) (by fun_prop)]; rfl
  have key := gauss_prod_map_pair_eq (A := C) (B := (1 : Matrix κ κ ℝ)) (A' := (1 : Matrix ι ι ℝ))
    (B' := (0 : Matrix ι κ ℝ)) (C := (1 : Matrix κ κ ℝ)) (D := (0 : Matrix κ ι ℝ)) (C' := K)
    (D' := (1 : Matrix ι ι ℝ)) hS hR hSz' (updated_posSemidef C hS hR)
    (by simp [hSz]) (by simp [hK, hSz, gain_mul C hS hR])
    (by
      rw [hK, hSz]
      simp [gain_mul_transpose C hS hR])
  rw [e1, h.law_indep hV hi, hlaw, hpred.law]
  rw [Measure.map_map (by fun_prop) (by fun_prop)]
  -- left: factor through the pair of Gaussians
  have e3 : μ.map Y = (μ.map Y).map id := by simp
  have e4 : (gauss 0 (S - K * C * S)) = (gauss 0 (S - K * C * S)).map id := by simp
  have l1 : ((μ.map Y).prod ((gauss 0 S).prod (gauss 0 R))).map
      ((fun p => ((p.1.1, C *ᵥ p.1.2 + d + p.2), p.1.2)) ∘
        fun p : H × ((ι → ℝ) × (κ → ℝ)) => ((p.1, f p.1 + p.2.1), p.2.2))
      = ((μ.map Y).prod (((gauss 0 S).prod (gauss 0 R)).map
          (fun p => (C *ᵥ p.1 + (1 : Matrix κ κ ℝ) *ᵥ p.2,
            (1 : Matrix ι ι ℝ) *ᵥ p.1 + (0 : Matrix ι κ ℝ) *ᵥ p.2)))).map
        (fun q => ((q.1, C *ᵥ f q.1 + d + q.2.1), f q.1 + q.2.2)) := by
    conv_rhs => rw [e3]
    rw [Measure.map_prod_map _ _ (by fun_prop) (by fun_prop), Measure.map_map (by fun_prop)
      (by fun_prop)]
    congr 1
    funext p
    simp only [Function.comp, Prod.map, id, one_mulVec, zero_mulVec, add_zero, mulVec_add,
      Prod.mk.injEq, true_and, and_true]
    abel
  rw [l1, key]
  conv_lhs => rw [e3]
  rw [Measure.map_prod_map _ _ (by fun_prop) (by fun_prop), Measure.map_map (by fun_prop)
    (by fun_prop)]
  conv_rhs => rw [e4]
  rw [Measure.map_prod_map _ _ (by fun_prop) (by fun_prop), Measure.map_map (by fun_prop)
    (by fun_prop), ← Measure.prodAssoc_prod, Measure.map_map (by fun_prop) (by fun_prop)]
  congr 1
  funext p
  simp only [Function.comp, Prod.map, id, one_mulVec, zero_mulVec, add_zero,
    MeasurableEquiv.prodAssoc, MeasurableEquiv.coe_mk, Equiv.prodAssoc_apply, Prod.mk.injEq,
    true_and]
  rw [add_sub_cancel_left]
  abel

/-- Information that is computed from the condition and independent noise is irrelevant. -/
theorem CondGauss.extend {X : Ω → ι → ℝ} {Y : Ω → H} {f : H → ι → ℝ} {S : Matrix ι ι ℝ}
    (h : CondGauss μ X Y f S) {W : Ω → H'} (hW : Measurable W)
    (hi : IndepFun (fun ω => (Y ω, X ω)) W μ) {H'' : Type*} [MeasurableSpace H'']
    {φ : H × H' → H''} (hφ : Measurable φ) :
    CondGauss μ X (fun ω => (Y ω, φ (Y ω, W ω))) (fun y => f y.1) S := by
  have hf := h.measf
  have hX := h.measX
  have hY := h.measY
  haveI : IsProbabilityMeasure (μ.map Y) := Measure.isProbabilityMeasure_map hY.aemeasurable
  haveI : IsProbabilityMeasure (μ.map W) := Measure.isProbabilityMeasure_map hW.aemeasurable
  refine ⟨hX, by fun_prop, by fun_prop, h.psd, ?_⟩
  have e1 : μ.map (fun ω => ((Y ω, φ (Y ω, W ω)), X ω))
      = (μ.map (fun ω => ((Y ω, X ω), W ω))).map
          (fun p => ((p.1.1, φ (p.1.1, p.2)), p.1.2)) := by
    rw [Measure.map_map (by fun_prop) (by fun_prop)]; rfl
  have hYW : IndepFun Y W μ := hi.comp measurable_fst measurable_id
  have e2 : μ.map (fun ω => (Y ω, φ (Y ω, W ω)))
      = ((μ.map Y).prod (μ.map W)).map (fun p => (p.1, φ p)) := by
    rw [← (indepFun_iff_map_prod_eq_prod_map_map (by fun_prop) (by fun_prop)).mp hYW,
      Measure.map_map (by fun_prop) (by fun_prop)]
    rfl
  have e4 : (gauss 0 S) = (gauss 0 S).map id := by simp
  have e3 : μ.map Y = (μ.map Y).map id := by simp
  rw [e1, h.law_indep hW hi, e2, ← Measure.prod_swap (μ := μ.map W) (ν := gauss 0 S)]
  conv_rhs => rw [e4]
  conv_lhs => rw [e3]
  rw [Measure.map_prod_map _ _ (by fun_prop) (by fun_prop), Measure.map_map (by fun_prop)
    (by fun_prop), Measure.map_map (by fun_prop) (by fun_prop),
    Measure.map_prod_map _ _ (by fun_prop) (by fun_prop), Measure.map_map (by fun_prop)
    (by fun_prop), ← Measure.prodAssoc_prod, Measure.map_map (by fun_prop) (by fun_prop)]
  rfl

/-- Smoothing: marginalise the next state. -/
theorem CondGauss.smooth {X : Ω → ι → ℝ} {X' : Ω → κ → ℝ} {Y : Ω → H} {fs : H → κ → ℝ}
    {Ps : Matrix κ κ ℝ} (h' : CondGauss μ X' Y fs Ps) {g : H → ι → ℝ} (hg : Measurable g)
    {J : Matrix ι κ ℝ} {S : Matrix ι ι ℝ}
    (h : CondGauss μ X (fun ω => (Y ω, X' ω)) (fun y => g y.1 + J *ᵥ y.2) S) :
    CondGauss μ X Y (fun y => g y + J *ᵥ fs y) (J * Ps * Jᵀ + S) := by
  have hfs := h'.measf
  have hX := h.measX
  have hX' := h'.measX
  have hY := h'.measY
  haveI : IsProbabilityMeasure (μ.map Y) := Measure.isProbabilityMeasure_map hY.aemeasurable
  refine ⟨hX, hY, by fun_prop, (posSemidef_conj h'.psd J).add h.psd, ?_⟩
  have e1 : μ.map (fun ω => (Y ω, X ω))
      = (μ.map (fun ω => ((Y ω, X' ω), X ω))).map (fun p => (p.1.1, p.2)) := by
    rw [Measure.map_map (by fun_prop) (by fun_prop)]; rfl
  have e2 : gauss 0 (J * Ps * Jᵀ + S)
      = ((gauss 0 Ps).prod (gauss 0 S)).map (fun p => J *ᵥ p.1 + (1 : Matrix ι ι ℝ) *ᵥ p.2) := by
    rw [gauss_prod_map h'.psd h.psd]; simp
  have e3 : μ.map Y = (μ.map Y).map id := by simp
  have e4 : (gauss 0 S) = (gauss 0 S).map id := by simp
  have hl := h.law
  rw [h'.law] at hl
  rw [e1, hl, e2]
  conv_lhs => rw [e4]
  rw [Measure.map_prod_map _ _ (by fun_prop) (by fun_prop), Measure.map_map (by fun_prop)
    (by fun_prop), Measure.map_map (by fun_prop) (by fun_prop)]
  conv_rhs => rw [e3]
  rw [Measure.map_prod_map _ _ (by fun_prop) (by fun_prop), Measure.map_map (by fun_prop)
    (by fun_prop), ← Measure.prodAssoc_prod, Measure.map_map (by fun_prop) (by fun_prop)]
  congr 1
  funext p
  simp only [Function.comp, Prod.map, id, one_mulVec, mulVec_add,
    MeasurableEquiv.prodAssoc, MeasurableEquiv.coe_mk, Equiv.prodAssoc_apply, Prod.mk.injEq,
    true_and]
  abel

theorem measurable_sumElim {G κ ι : Type*} [MeasurableSpace G] {a : G → κ → ℝ} {b : G → ι → ℝ}
    (ha : Measurable a) (hb : Measurable b) : Measurable (fun x => Sum.elim (a x) (b x)) := by
  rw [measurable_pi_iff]
  rintro (i | i)
  · exact (measurable_pi_apply i).comp ha
  · exact (measurable_pi_apply i).comp hb

/-- Joint law of two vectors, one known given the other. -/
theorem CondGauss.pair {X : Ω → ι → ℝ} {X' : Ω → κ → ℝ} {Y : Ω → H} {fs : H → κ → ℝ}
    {Ps : Matrix κ κ ℝ} (h' : CondGauss μ X' Y fs Ps) {g : H → ι → ℝ} (hg : Measurable g)
    {J : Matrix ι κ ℝ} {S : Matrix ι ι ℝ}
    (h : CondGauss μ X (fun ω => (Y ω, X' ω)) (fun y => g y.1 + J *ᵥ y.2) S) :
    CondGauss μ (fun ω => Sum.elim (X' ω) (X ω)) Y
      (fun y => Sum.elim (fs y) (g y + J *ᵥ fs y))
      (fromBlocks Ps (Ps * Jᵀ) (J * Ps) (J * Ps * Jᵀ + S)) := by
  have hfs := h'.measf
  have hX := h.measX
  have hX' := h'.measX
  have hY := h'.measY
  haveI : IsProbabilityMeasure (μ.map Y) := Measure.isProbabilityMeasure_map hY.aemeasurable
  set A : Matrix (κ ⊕ ι) κ ℝ := fromRows (1 : Matrix κ κ ℝ) J with eA
  set B : Matrix (κ ⊕ ι) ι ℝ := fromRows (0 : Matrix κ ι ℝ) (1 : Matrix ι ι ℝ) with eB
  have hA : ∀ v, A *ᵥ v = Sum.elim v (J *ᵥ v) := by
    intro v; rw [eA, fromRows_mulVec, one_mulVec]
  have hB : ∀ v, B *ᵥ v = Sum.elim (fun _ => (0 : ℝ)) v := by
    intro v; rw [eB, fromRows_mulVec, one_mulVec, zero_mulVec]; rfl
  have hcov : fromBlocks Ps (Ps * Jᵀ) (J * Ps) (J * Ps * Jᵀ + S) = A * Ps * Aᵀ + B * S * Bᵀ := by
    rw [eA, eB, transpose_fromRows, transpose_fromRows, fromRows_mul 1 J Ps,
      fromRows_mul 0 1 S, fromRows_mul_fromCols, fromRows_mul_fromCols, fromBlocks_add]
    simp
  have hpsd : (A * Ps * Aᵀ + B * S * Bᵀ).PosSemidef :=
    (posSemidef_conj h'.psd A).add (posSemidef_conj h.psd B)
  refine ⟨measurable_sumElim hX' hX, hY, measurable_sumElim hfs (by fun_prop), by rw [hcov]; exact hpsd, ?_⟩
  have hm1 : Measurable (fun p : (H × (κ → ℝ)) × (ι → ℝ) => (p.1.1, Sum.elim p.1.2 p.2)) :=
    Measurable.prodMk (by fun_prop) (measurable_sumElim (by fun_prop) (by fun_prop))
  have hm2 : Measurable (fun p : H × (κ ⊕ ι → ℝ) =>
      (p.1, Sum.elim (fs p.1) (g p.1 + J *ᵥ fs p.1) + p.2)) := by
    have := measurable_sumElim (G := H) hfs (b := fun y => g y + J *ᵥ fs y) (by fun_prop)
    exact Measurable.prodMk (by fun_prop) ((this.comp measurable_fst).add measurable_snd)
  have e1 : μ.map (fun ω => (Y ω, Sum.elim (X' ω) (X ω)))
      = (μ.map (fun ω => ((Y ω, X' ω), X ω))).map (fun p => (p.1.1, Sum.elim p.1.2 p.2)) := by
    rw [Measure.map_map hm1 (by fun_prop)]; rfl
  have e2 : gauss 0 (A * Ps * Aᵀ + B * S * Bᵀ)
      = ((gauss 0 Ps).prod (gauss 0 S)).map (fun p => A *ᵥ p.1 + B *ᵥ p.2) := by
    rw [gauss_prod_map h'.psd h.psd]
  have e3 : μ.map Y = (μ.map Y).map id := by simp
  have e4 : (gauss 0 S) = (gauss 0 S).map id := by simp
  have hl := h.law
  rw [h'.law] at hl
  rw [e1, hl, hcov, e2]
  conv_lhs => rw [e4]
  rw [Measure.map_prod_map _ _ (by fun_prop) (by fun_prop), Measure.map_map hm1
    (by fun_prop), Measure.map_map (hm1.comp (by fun_prop)) (by fun_prop)]
  conv_rhs => rw [e3]
  rw [Measure.map_prod_map _ _ (by fun_prop) (by fun_prop), Measure.map_map hm2
    (by fun_prop), ← Measure.prodAssoc_prod,
    Measure.map_map (hm2.comp (by fun_prop)) (by fun_prop)]
  congr 1
  funext p
  simp only [Function.comp, Prod.map, id, hA, hB, mulVec_add,
    MeasurableEquiv.prodAssoc, MeasurableEquiv.coe_mk, Equiv.prodAssoc_apply, Prod.mk.injEq,
    true_and]
  funext i
  rcases i with i | i
  · simp
  · simp; ring

/-- Only the part of the condition that the conditional mean uses matters. -/
theorem CondGauss.coarsen {X : Ω → ι → ℝ} {Y : Ω → H} {f : H → ι → ℝ} {S : Matrix ι ι ℝ}
    (h : CondGauss μ X Y f S) {φ : H → H'} (hφ : Measurable φ) {f' : H' → ι → ℝ}
    (hf' : Measurable f') (hf : ∀ y, f y = f' (φ y)) {Y' : Ω → H'} (hY' : ∀ ω, Y' ω = φ (Y ω)) :
    CondGauss μ X Y' f' S := by
  have hX := h.measX
  have hY := h.measY
  have : Y' = fun ω => φ (Y ω) := funext hY'
  subst this
  haveI : IsProbabilityMeasure (μ.map Y) := Measure.isProbabilityMeasure_map hY.aemeasurable
  have hfm := h.measf
  refine ⟨hX, by fun_prop, hf', h.psd, ?_⟩
  have e1 : μ.map (fun ω => (φ (Y ω), X ω))
      = (μ.map (fun ω => (Y ω, X ω))).map (fun p => (φ p.1, p.2)) := by
    rw [Measure.map_map (by fun_prop) (by fun_prop)]; rfl
  have e2 : μ.map (fun ω => φ (Y ω)) = (μ.map Y).map φ := by
    rw [Measure.map_map (by fun_prop) (by fun_prop)]; rfl
  have e4 : (gauss 0 S) = (gauss 0 S).map id := by simp
  rw [e1, h.law, e2]
  conv_rhs => rw [e4]
  rw [Measure.map_prod_map _ _ (by fun_prop) (by fun_prop), Measure.map_map (by fun_prop)
    (by fun_prop), Measure.map_map (by fun_prop) (by fun_prop)]
  congr 1
  funext p
  simp [Prod.map, hf]

/-- Start: a Gaussian vector is conditionally Gaussian given a constant. -/
theorem CondGauss.init {X : Ω → ι → ℝ} (hX : Measurable X) {Y : Ω → H} {y₀ : H}
    (hY : ∀ ω, Y ω = y₀) {m₀ : ι → ℝ} {S : Matrix ι ι ℝ} (hS : S.PosSemidef)
    (hlaw : μ.map X = gauss m₀ S) : CondGauss μ X Y (fun _ => m₀) S := by
  have hY' : Y = fun _ => y₀ := funext hY
  subst hY'
  refine ⟨hX, by fun_prop, by fun_prop, hS, ?_⟩
  have : μ.map (fun ω => (y₀, X ω)) = (μ.map X).map (fun x => (y₀, x)) := by
    rw [Measure.map_map (by fun_prop) (by fun_prop)]; rfl
  rw [this, hlaw, gauss_eq_map hS, Measure.map_const]
  simp only [measure_univ, one_smul]
  rw [Measure.dirac_prod, Measure.map_map (by fun_prop) (by fun_prop),
    Measure.map_map (by fun_prop) (by fun_prop)]
  rfl

/-- The kernel `y ↦ gauss (f y) S`. -/
noncomputable def gaussKernel (f : H → ι → ℝ) (hf : Measurable f) (S : Matrix ι ι ℝ) :
    Kernel H (ι → ℝ) :=
  ((Kernel.deterministic f hf) ×ₖ (Kernel.const H (gauss 0 S))).map (fun p => p.1 + p.2)

instance (f : H → ι → ℝ) (hf : Measurable f) (S : Matrix ι ι ℝ) :
    IsMarkovKernel (gaussKernel f hf S) :=
  Kernel.IsMarkovKernel.map _ (by fun_prop)

theorem gaussKernel_apply (f : H → ι → ℝ) (hf : Measurable f) {S : Matrix ι ι ℝ}
    (hS : S.PosSemidef) (y : H) : gaussKernel f hf S y = gauss (f y) S := by
  rw [gaussKernel, Kernel.map_apply _ (by fun_prop), Kernel.prod_apply,
    Kernel.deterministic_apply, Kernel.const_apply, Measure.dirac_prod,
    Measure.map_map (by fun_prop) (by fun_prop), gauss_eq_map hS (f y)]
  rfl

theorem CondGauss.condDistrib {X : Ω → ι → ℝ} {Y : Ω → H} {f : H → ι → ℝ} {S : Matrix ι ι ℝ}
    (h : CondGauss μ X Y f S) :
    ∀ᵐ ω ∂μ, condDistrib X Y μ (Y ω) = gauss (f (Y ω)) S := by
  have hf := h.measf
  have hY := h.measY
  haveI : IsProbabilityMeasure (μ.map Y) := Measure.isProbabilityMeasure_map hY.aemeasurable
  have key : μ.map (fun ω => (Y ω, X ω)) = μ.map Y ⊗ₘ gaussKernel f hf S := by
    rw [h.law]
    ext s hs
    rw [Measure.compProd_apply hs, Measure.map_apply (by fun_prop) hs,
      Measure.prod_apply (by measurability)]
    refine lintegral_congr fun y => ?_
    rw [gaussKernel_apply f hf h.psd, gauss_eq_map h.psd (f y), Measure.map_apply (by fun_prop)
      (measurable_prodMk_left hs)]
    rfl
  have := condDistrib_ae_eq_of_measure_eq_compProd Y h.measX.aemeasurable key
  filter_upwards [ae_of_ae_map hY.aemeasurable this] with ω hω
  rw [hω, gaussKernel_apply f hf h.psd]

end Verif
