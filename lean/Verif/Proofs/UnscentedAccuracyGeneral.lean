import Verif.Spec.UnscentedAccuracyGeneral
import Verif.Proofs.UnscentedAccuracy

/-! # Approximate moments for noise that enters in any way: proofs -/

open MeasureTheory Matrix

namespace Verif

section law

variable {ι κ : Type*} [Fintype ι] [Fintype κ] [DecidableEq ι] [DecidableEq κ]

theorem blocks_gen {P : Matrix ι ι ℝ} {Q : Matrix κ κ ℝ} :
    fromRows (1 : Matrix ι ι ℝ) (0 : Matrix κ ι ℝ) * P
        * (fromRows (1 : Matrix ι ι ℝ) (0 : Matrix κ ι ℝ))ᵀ
      + fromRows (0 : Matrix ι κ ℝ) (1 : Matrix κ κ ℝ) * Q
        * (fromRows (0 : Matrix ι κ ℝ) (1 : Matrix κ κ ℝ))ᵀ = fromBlocks P 0 0 Q := by
  simp only [transpose_fromRows, fromRows_mul, mul_fromCols, transpose_one, transpose_zero,
    Matrix.one_mul, Matrix.mul_one, Matrix.zero_mul, Matrix.mul_zero]
  ext (i | i) (j | j) <;> simp

theorem blocks_posSemidef {P : Matrix ι ι ℝ} {Q : Matrix κ κ ℝ} (hP : P.PosSemidef)
    (hQ : Q.PosSemidef) : (fromBlocks P 0 0 Q).PosSemidef := by
  rw [← blocks_gen]
  exact (posSemidef_conj hP _).add (posSemidef_conj hQ _)

theorem measurable_elim :
    Measurable fun p : (ι → ℝ) × (κ → ℝ) => (Sum.elim p.1 p.2 : ι ⊕ κ → ℝ) := by
  refine measurable_pi_lambda _ fun i => ?_
  cases i
  · exact (measurable_pi_apply _).comp measurable_fst
  · exact (measurable_pi_apply _).comp measurable_snd

theorem gauss_prod_sum_gen {P : Matrix ι ι ℝ} {Q : Matrix κ κ ℝ} (hP : P.PosSemidef)
    (hQ : Q.PosSemidef) (μ : ι → ℝ) (ν : κ → ℝ) :
    ((gauss μ P).prod (gauss ν Q)).map (fun p => Sum.elim p.1 p.2)
      = gauss (Sum.elim μ ν) (fromBlocks P 0 0 Q) := by
  set A := fromRows (1 : Matrix ι ι ℝ) (0 : Matrix κ ι ℝ) with hA
  set B := fromRows (0 : Matrix ι κ ℝ) (1 : Matrix κ κ ℝ) with hB
  have hAB : A * P * Aᵀ + B * Q * Bᵀ = fromBlocks P 0 0 Q := blocks_gen
  have hPQ := blocks_posSemidef hP hQ
  have e : ∀ p : (ι → ℝ) × (κ → ℝ), A *ᵥ p.1 + B *ᵥ p.2 = Sum.elim p.1 p.2 := by
    intro p
    rw [hA, hB, fromRows_mulVec, fromRows_mulVec]
    funext i
    cases i <;> simp
  have h := gauss_prod_map hP hQ A B
  rw [hAB] at h
  simp only [e] at h
  have hm := measurable_elim (ι := ι) (κ := κ)
  rw [gauss_eq_map hP, gauss_eq_map hQ, gauss_eq_map hPQ, ← h,
    Measure.map_prod_map _ _ (by fun_prop) (by fun_prop), Measure.map_map hm (by fun_prop),
    Measure.map_map (by fun_prop) hm]
  congr 1
  funext p i
  cases i <;> simp

theorem covOf_map {Ω Ω' : Type*} [MeasurableSpace Ω] [MeasurableSpace Ω'] {ν : Measure Ω}
    {T : Ω → Ω'} (hT : Measurable T) {φ ψ : Ω' → ℝ} (hφ : Measurable φ) (hψ : Measurable ψ) :
    covOf (ν.map T) φ ψ = covOf ν (φ ∘ T) (ψ ∘ T) := by
  unfold covOf
  rw [integral_map hT.aemeasurable hφ.aestronglyMeasurable,
    integral_map hT.aemeasurable hψ.aestronglyMeasurable,
    integral_map hT.aemeasurable (Measurable.aestronglyMeasurable (by fun_prop))]
  rfl

/-- Smoothness of a function of some of the coordinates. -/
theorem iteratedFDeriv_coords_le (e : ι → κ) {φ : (ι → ℝ) → ℝ} {k : ℕ} (hφ : ContDiff ℝ k φ) {B : ℝ}
    (h : ∀ x, ‖iteratedFDeriv ℝ k φ x‖ ≤ B) (z : κ → ℝ) :
    ‖iteratedFDeriv ℝ k (fun z : κ → ℝ => φ fun a => z (e a)) z‖ ≤ B := by
  set T : (κ → ℝ) →L[ℝ] (ι → ℝ) := ContinuousLinearMap.pi fun a => ContinuousLinearMap.proj (e a)
    with hT
  have hn : ‖T‖ ≤ 1 := ContinuousLinearMap.opNorm_le_bound _ zero_le_one fun v => by
    rw [one_mul]
    exact (pi_norm_le_iff_of_nonneg (norm_nonneg _)).mpr fun a => norm_le_pi_norm v (e a)
  have h' : (fun z : κ → ℝ => φ fun a => z (e a)) = φ ∘ T := rfl
  rw [h', ContinuousLinearMap.iteratedFDeriv_comp_right (n := (k : WithTop ℕ∞)) _ hφ _ le_rfl]
  refine (ContinuousMultilinearMap.norm_compContinuousLinearMap_le _ _).trans ?_
  rw [Finset.prod_const]
  exact (mul_le_of_le_one_right (norm_nonneg _) (pow_le_one₀ (norm_nonneg _) hn)).trans (h _)

theorem fderiv_coords_le (e : ι → κ) {φ : (ι → ℝ) → ℝ} (hφ : Differentiable ℝ φ) (z : κ → ℝ) :
    ‖fderiv ℝ (fun z : κ → ℝ => φ fun a => z (e a)) z‖ ≤ ‖fderiv ℝ φ fun a => z (e a)‖ := by
  set T : (κ → ℝ) →L[ℝ] (ι → ℝ) := ContinuousLinearMap.pi fun a => ContinuousLinearMap.proj (e a)
    with hT
  have hn : ‖T‖ ≤ 1 := ContinuousLinearMap.opNorm_le_bound _ zero_le_one fun v => by
    rw [one_mul]
    exact (pi_norm_le_iff_of_nonneg (norm_nonneg _)).mpr fun a => norm_le_pi_norm v (e a)
  have h' : (fun z : κ → ℝ => φ fun a => z (e a)) = φ ∘ T := rfl
  rw [h', fderiv_comp z (hφ _) T.differentiableAt, T.fderiv]
  refine (ContinuousLinearMap.opNorm_comp_le _ _).trans ?_
  exact mul_le_of_le_one_right (norm_nonneg _) hn

theorem Smooth23.coords (e : ι → κ) {φ : (ι → ℝ) → ℝ} {C D : ℝ} (h : Smooth23 φ C D) :
    Smooth23 (fun z : κ → ℝ => φ fun a => z (e a)) C D where
  contDiff := h.contDiff.comp (contDiff_pi.mpr fun a => contDiff_apply ℝ ℝ (e a))
  second := iteratedFDeriv_coords_le e (h.contDiff.of_le (by norm_num)) h.second
  third := iteratedFDeriv_coords_le e h.contDiff h.third

end law

variable {n m : ℕ}

section two

variable {M : Moments n} {Q : Mat n n} {L LQ : Mat n n}

theorem lawTwo_map (hP : M.cov.PosSemidef) (hQ : Q.PosSemidef) :
    (lawTwo M Q).map (fun p => (Sum.elim p.1 p.2 : Fin n ⊕ Fin n → ℝ))
      = gauss (Sum.elim M.mean 0) (fromBlocks M.cov 0 0 Q) := gauss_prod_sum_gen hP hQ _ _

theorem uexp₂_entry {a b : ℕ} (μ ν : Vec n) (L L' : Mat n n) (f : Vec n → Vec n → Mat a b)
    (i : Fin a) (j : Fin b) :
    uexp₂ μ L ν L' f i j = gexp (Sum.elim μ ν) (fromBlocks L 0 0 L') (ofTwo fun x w => f x w i j) := by
  simp only [uexp₂, gexp, ofTwo, Matrix.add_apply, Matrix.smul_apply, smul_eq_mul, Matrix.sum_apply,
    Fintype.card_sum, Fintype.card_fin, Fintype.sum_sum_type, Sum.elim_inl, Sum.elim_inr,
    Pi.add_apply, Pi.smul_apply,
    Pi.sub_apply, Matrix.col_apply, fromBlocks_apply₁₁, fromBlocks_apply₁₂, fromBlocks_apply₂₁,
    fromBlocks_apply₂₂, Matrix.zero_apply, mul_zero, add_zero, sub_zero]
  rfl

theorem nearPredicts (hL : IsCholesky M.cov L) (hLQ : IsCholesky Q LQ) {f : Vec n → Vec n → Vec n}
    {B C D : Fin n → ℝ} (h4 : ∀ i, Smooth4 (ofTwo fun x w => f x w i) (B i))
    (h23 : ∀ i, Smooth23 (ofTwo fun x w => f x w i) (C i) (D i)) {x : Vec n}
    (hx : x = uexp₂ M.mean L 0 LQ f) :
    NearPredicts f Q M B C D
      ⟨x, uexp₂ M.mean L 0 LQ (fun z w => vecMulVec (f z w - x) (f z w - x))⟩
      (uexp₂ M.mean L 0 LQ (fun z w => vecMulVec (z - M.mean) (f z w - x))) := by
  have hP := hL.posDef.posSemidef
  have hQ := hLQ.posDef.posSemidef
  have hb := blocks_posSemidef hP hQ
  have hm : fromBlocks L 0 0 LQ * (fromBlocks L 0 0 LQ)ᵀ = fromBlocks M.cov 0 0 Q := by
    rw [fromBlocks_transpose, fromBlocks_multiply]
    simp [hL.mul_transpose, hLQ.mul_transpose]
  have htr : (fromBlocks M.cov 0 0 Q).trace = M.cov.trace + Q.trace := by
    simp [trace, Fintype.sum_sum_type]
  have hmeas : ∀ i, Measurable (ofTwo fun x w => f x w i) := fun i =>
    (h4 i).contDiff.continuous.measurable
  have hxi : ∀ i, x i = gexp (Sum.elim M.mean 0) (fromBlocks L 0 0 LQ) (ofTwo fun x w => f x w i) :=
    fun i => by rw [hx, uexp₂_apply]; rfl
  refine ⟨fun i => ?_, fun i j => ?_, fun i j => ?_⟩
  · have key := (gexp_error hb hm (Sum.elim M.mean 0) (h4 i)).2
    rw [← lawTwo_map hP hQ, integral_map measurable_elim.aemeasurable
      (hmeas i).aestronglyMeasurable, htr, ← hxi] at key
    exact key
  · have key := gexp_cov_error hb hm (Sum.elim M.mean 0) (h23 i) (h23 j)
    rw [← lawTwo_map hP hQ, covOf_map measurable_elim (hmeas i) (hmeas j), htr, ← hxi, ← hxi] at key
    simp only
    rw [uexp₂_entry]
    exact key
  · have key := gexp_cross_error hb hm (Sum.elim M.mean 0) (h23 j) (.inl i)
    rw [← lawTwo_map hP hQ, covOf_map measurable_elim (measurable_pi_apply _) (hmeas j), htr,
      ← hxi] at key
    rw [uexp₂_entry]
    exact key

end two

section three

variable {M : Moments n} {Q : Mat n n} {R : Mat m m} {L LQ : Mat n n} {LR : Mat m m}

/-- One vector made of three. -/
def join3 (p : (Vec n × Vec n) × Vec m) : (Fin n ⊕ Fin n) ⊕ Fin m → ℝ :=
  Sum.elim (Sum.elim p.1.1 p.1.2) p.2

theorem measurable_join3 : Measurable (join3 : (Vec n × Vec n) × Vec m → _) :=
  measurable_elim.comp ((measurable_elim.comp measurable_fst).prodMk measurable_snd)

theorem lawThree_map (hP : M.cov.PosSemidef) (hQ : Q.PosSemidef) (hR : R.PosSemidef) :
    (lawThree M Q R).map join3
      = gauss (Sum.elim (Sum.elim M.mean 0) 0) (fromBlocks (fromBlocks M.cov 0 0 Q) 0 0 R) := by
  rw [← gauss_prod_sum_gen (blocks_posSemidef hP hQ) hR, ← lawTwo_map hP hQ]
  have hid : (gauss (0 : Vec m) R) = (gauss 0 R).map id := Measure.map_id.symm
  have : SFinite (lawTwo M Q) := by unfold lawTwo; infer_instance
  conv_rhs => rw [hid]
  rw [Measure.map_prod_map _ _ measurable_elim measurable_id,
    Measure.map_map measurable_elim (measurable_elim.prodMap measurable_id)]
  rfl

theorem uexp₃_apply {k : ℕ} (μ ν : Vec n) (ξ : Vec m) (L L' : Mat n n) (L'' : Mat m m)
    (f : Vec n → Vec n → Vec m → Vec k) (i : Fin k) :
    uexp₃ μ L ν L' ξ L'' f i = gexp (Sum.elim (Sum.elim μ ν) ξ)
      (fromBlocks (fromBlocks L 0 0 L') 0 0 L'') (ofThree fun x w v => f x w v i) := by
  simp only [uexp₃, gexp, ofThree, Pi.add_apply, Pi.smul_apply, smul_eq_mul, Finset.sum_apply,
    Fintype.card_sum, Fintype.card_fin, Fintype.sum_sum_type, Sum.elim_inl, Sum.elim_inr,
    Pi.sub_apply, Matrix.col_apply, fromBlocks_apply₁₁, fromBlocks_apply₁₂, fromBlocks_apply₂₁,
    fromBlocks_apply₂₂, Matrix.zero_apply, mul_zero, add_zero, sub_zero]
  rfl

theorem uexp₃_entry {a b : ℕ} (μ ν : Vec n) (ξ : Vec m) (L L' : Mat n n) (L'' : Mat m m)
    (f : Vec n → Vec n → Vec m → Mat a b) (i : Fin a) (j : Fin b) :
    uexp₃ μ L ν L' ξ L'' f i j = gexp (Sum.elim (Sum.elim μ ν) ξ)
      (fromBlocks (fromBlocks L 0 0 L') 0 0 L'') (ofThree fun x w v => f x w v i j) := by
  simp only [uexp₃, gexp, ofThree, Matrix.add_apply, Matrix.smul_apply, Matrix.sum_apply,
    Pi.add_apply, Pi.smul_apply, smul_eq_mul,
    Fintype.card_sum, Fintype.card_fin, Fintype.sum_sum_type, Sum.elim_inl, Sum.elim_inr,
    Pi.sub_apply, Matrix.col_apply, fromBlocks_apply₁₁, fromBlocks_apply₁₂, fromBlocks_apply₂₁,
    fromBlocks_apply₂₂, Matrix.zero_apply, mul_zero, add_zero, sub_zero]
  rfl

theorem nearObserves (hL : IsCholesky M.cov L) (hLQ : IsCholesky Q LQ) (hLR : IsCholesky R LR)
    {f : Vec n → Vec n → Vec n} {g : Vec n → Vec m → Vec m} {C' D' : Fin n → ℝ} {B C D : Fin m → ℝ}
    (hf : ∀ i, Smooth23 (ofTwo fun x w => f x w i) (C' i) (D' i))
    (h4 : ∀ i, Smooth4 (ofThree fun x w v => g (f x w) v i) (B i))
    (h23 : ∀ i, Smooth23 (ofThree fun x w v => g (f x w) v i) (C i) (D i)) {x : Vec n} {y : Vec m}
    (hx : x = uexp₂ M.mean L 0 LQ f)
    (hy : y = uexp₃ M.mean L 0 LQ 0 LR (fun x w v => g (f x w) v)) :
    NearObserves f g Q R M C' D' B C D y
      (uexp₃ M.mean L 0 LQ 0 LR fun z w v => vecMulVec (g (f z w) v - y) (g (f z w) v - y))
      (uexp₃ M.mean L 0 LQ 0 LR fun z w v => vecMulVec (f z w - x) (g (f z w) v - y)) := by
  have hP := hL.posDef.posSemidef
  have hQ := hLQ.posDef.posSemidef
  have hR := hLR.posDef.posSemidef
  have hb := blocks_posSemidef (blocks_posSemidef hP hQ) hR
  have hm : fromBlocks (fromBlocks L 0 0 LQ) 0 0 LR * (fromBlocks (fromBlocks L 0 0 LQ) 0 0 LR)ᵀ
      = fromBlocks (fromBlocks M.cov 0 0 Q) 0 0 R := by
    rw [fromBlocks_transpose, fromBlocks_multiply, fromBlocks_transpose, fromBlocks_multiply]
    simp [hL.mul_transpose, hLQ.mul_transpose, hLR.mul_transpose]
  have htr : (fromBlocks (fromBlocks M.cov 0 0 Q) 0 0 R).trace = M.cov.trace + Q.trace + R.trace := by
    simp [trace, Fintype.sum_sum_type]
  have hmeas : ∀ i, Measurable (ofThree fun x w v => g (f x w) v i) := fun i =>
    (h4 i).contDiff.continuous.measurable
  have hf' : ∀ i, Smooth23 (ofThree fun x w (_ : Vec m) => f x w i) (C' i) (D' i) := fun i =>
    (hf i).coords Sum.inl
  have hmeas' : ∀ i, Measurable (ofThree fun x w (_ : Vec m) => f x w i) := fun i =>
    (hf' i).contDiff.continuous.measurable
  have hd : ∀ i, ‖fderiv ℝ (ofThree fun x w (_ : Vec m) => f x w i) (Sum.elim (Sum.elim M.mean 0) 0)‖
      ≤ ‖fderiv ℝ (ofTwo fun x w => f x w i) (Sum.elim M.mean 0)‖ := fun i =>
    fderiv_coords_le Sum.inl ((hf i).contDiff.differentiable (by norm_num)) _
  have hyi : ∀ i, y i = gexp (Sum.elim (Sum.elim M.mean 0) 0)
      (fromBlocks (fromBlocks L 0 0 LQ) 0 0 LR) (ofThree fun x w v => g (f x w) v i) :=
    fun i => by rw [hy, uexp₃_apply]
  have hxi : ∀ i, x i = gexp (Sum.elim (Sum.elim M.mean 0) 0)
      (fromBlocks (fromBlocks L 0 0 LQ) 0 0 LR) (ofThree fun x w _ => f x w i) :=
    fun i => by rw [hx, ← uexp₃_forget _ _ _ _ (0 : Vec m) LR, uexp₃_apply]
  refine ⟨fun i => ?_, fun i j => ?_, fun i j => ?_⟩
  · have key := (gexp_error hb hm (Sum.elim (Sum.elim M.mean 0) 0) (h4 i)).2
    rw [← lawThree_map hP hQ hR, integral_map measurable_join3.aemeasurable
      (hmeas i).aestronglyMeasurable, htr, ← hyi] at key
    exact key
  · have key := gexp_cov_error hb hm (Sum.elim (Sum.elim M.mean 0) 0) (h23 i) (h23 j)
    rw [← lawThree_map hP hQ hR, covOf_map measurable_join3 (hmeas i) (hmeas j), htr, ← hyi,
      ← hyi] at key
    rw [uexp₃_entry]
    exact key
  · have key := gexp_cov_error hb hm (Sum.elim (Sum.elim M.mean 0) 0) (hf' i) (h23 j)
    rw [← lawThree_map hP hQ hR, covOf_map measurable_join3 (hmeas' i) (hmeas j), htr, ← hyi,
      ← hxi] at key
    rw [uexp₃_entry]
    refine key.trans ?_
    have hD : 0 ≤ D j := (norm_nonneg _).trans ((h23 j).third 0)
    have := mul_le_mul_of_nonneg_right (hd i) hD
    gcongr

end three

end Verif
