import Verif.Proofs.Moments
import Verif.Props.Posterior

/-!
# C07: the gain is optimal among all linear gains
-/

open MeasureTheory Matrix

namespace Verif

variable {n m : ℕ}

/-- Second moments of the error of an estimator `est` of `x`. -/
noncomputable def errorMoments {Ω : Type*} [MeasurableSpace Ω] (μ : Measure Ω)
    (x est : Ω → Vec n) : Mat n n :=
  Matrix.of fun i j => ∫ ω, (x ω i - est ω i) * (x ω j - est ω j) ∂μ

/-- **C07.** Take any (not necessarily Gaussian) state `x` and noise `v` such that the predicted
mean has error moments `predCov`, the noise has second moments `R`, and error and noise are
uncorrelated; let the observation be `C x + d + v`.  Then among all linear corrections of the
predicted mean by the innovation, the one with the filter's gain has the least error moments in
the positive-semidefinite order, these are the filtered covariance, and the filtered mean is this
correction evaluated at the recorded observation. -/
theorem C07_gain_optimal (p : Params n m) (os : List (Obs m)) (steps : List (Step n m))
    (h : filterFull p os = .ok steps) (hpsd : p.PSD os.length)
    (t : ℕ) (s : Step n m) (hs : steps[t]? = some s) (o : Obs m) (ho : os[t]? = some o)
    (hobs : ¬ o.missing) (C : Mat m n) (d : Vec m) (R : Mat m m)
    (hC : lastDims p.C t = .ok C) (hd : lastDims p.d t = .ok d) (hR : lastDims p.R t = .ok R)
    {Ω : Type*} [MeasurableSpace Ω] (μ : Measure Ω) (x : Ω → Vec n) (v : Ω → Vec m)
    (hxx : ∀ i j, Integrable (fun ω => (x ω i - s.predMean i) * (x ω j - s.predMean j)) μ ∧
      ∫ ω, (x ω i - s.predMean i) * (x ω j - s.predMean j) ∂μ = s.predCov i j)
    (hvv : ∀ i j, Integrable (fun ω => v ω i * v ω j) μ ∧ ∫ ω, v ω i * v ω j ∂μ = R i j)
    (hxv : ∀ i j, Integrable (fun ω => (x ω i - s.predMean i) * v ω j) μ ∧
      ∫ ω, (x ω i - s.predMean i) * v ω j ∂μ = 0) :
    let est : Mat n m → Vec m → Vec n :=
      fun K z => s.predMean + K *ᵥ (z - (C *ᵥ s.predMean + d))
    let err : Mat n m → Mat n n :=
      fun K => errorMoments μ x (fun ω => est K (C *ᵥ x ω + d + v ω))
    (∀ K, (err K - err s.gain).PosSemidef) ∧ err s.gain = s.filtCov ∧
      est s.gain o.val = s.filtMean := by
  intro est err
  obtain ⟨ht, ho'⟩ := List.getElem?_eq_some_iff.mp ho
  have hc : p.Covers os.length := by
    rcases filterFull_ok_iff.mp ⟨_, h⟩ with rfl | hc
    · simp at ht
    · exact hc
  have hP := hpsd.fn hc
  have hl := filterFull_ok h
  have hs' : s = p.fn.kf (obsFn os) t := by
    rw [hl] at hs
    simp only [List.getElem?_map, List.getElem?_range ht, Option.map_some, Option.some.injEq] at hs
    exact hs.symm
  have hz : obsFn os t = o := by rw [obsFn_eq ht, ho']
  have eC := (lastDims_ok_get hC).1
  have ed := (lastDims_ok_get hd).1
  have eR := (lastDims_ok_get hR).1
  have hCf : p.fn.C t = C := eC.symm
  have hdf : p.fn.d t = d := ed.symm
  have hRf : p.fn.R t = R := eR.symm
  obtain ⟨hg, hm, hcov⟩ := p.fn.kf_observed (obsFn os) (t := t) (by rw [hz]; exact hobs)
  rw [← hs', hCf, hRf] at hg hcov
  rw [← hs', hCf, hRf, hdf, hz] at hm
  have hpc : s.predCov.PosSemidef := by rw [hs']; exact hP.pred ht _
  have hRpsd : R.PosSemidef := by rw [← hRf]; exact hP.R t ht
  -- error moments of an arbitrary gain
  have herr : ∀ K, err K = (1 - K * C) * s.predCov * (1 - K * C)ᵀ + K * R * Kᵀ := by
    intro K
    let y : Ω → Fin n ⊕ Fin m → ℝ := fun ω => Sum.elim (fun i => x ω i - s.predMean i) (v ω)
    let M : Matrix (Fin n) (Fin n ⊕ Fin m) ℝ := fromCols (1 - K * C) (-K)
    have hint : ∀ a b, Integrable (fun ω => y ω a * y ω b) μ := by
      rintro (a | a) (b | b)
      · exact (hxx a b).1
      · exact (hxv a b).1
      · have := (hxv b a).1
        simpa only [y, Sum.elim_inl, Sum.elim_inr, mul_comm] using this
      · exact (hvv a b).1
    have hmom : ∀ a b, ∫ ω, y ω a * y ω b ∂μ = fromBlocks s.predCov 0 0 R a b := by
      rintro (a | a) (b | b)
      · exact (hxx a b).2
      · exact (hxv a b).2
      · have := (hxv b a).2
        simpa only [y, Sum.elim_inl, Sum.elim_inr, mul_comm, fromBlocks_apply₂₁,
          Matrix.zero_apply] using this
      · exact (hvv a b).2
    have hlin : ∀ ω, x ω - est K (C *ᵥ x ω + d + v ω) = M *ᵥ y ω := by
      intro ω
      have e1 : y ω = Sum.elim (x ω - s.predMean) (v ω) := rfl
      rw [e1, fromCols_mulVec_sumElim]
      simp only [est, sub_mulVec, one_mulVec, neg_mulVec, mulVec_sub, mulVec_add, ← mulVec_mulVec]
      abel
    have e2 : err K = M * fromBlocks s.predCov 0 0 R * Mᵀ := by
      ext i j
      rw [← moment_mulVec y M _ hint hmom i j]
      simp only [← hlin]
      rfl
    rw [e2]
    have e3 : Mᵀ = fromRows (1 - K * C)ᵀ (-Kᵀ) := by
      rw [transpose_fromCols, transpose_neg]
    rw [e3, fromCols_mul_fromBlocks, fromCols_mul_fromRows]
    simp
  have hopt : err s.gain = s.filtCov := by
    rw [herr, joseph C hpc hRpsd, hg, sub_self]
    simp only [Matrix.zero_mul, add_zero]
    exact hcov.symm
  refine ⟨fun K => ?_, hopt, by rw [hm, ← hg]⟩
  rw [hopt, herr, joseph C hpc hRpsd, hcov, add_sub_cancel_left]
  exact posSemidef_conj' (innov_posSemidef C hpc hRpsd) _

/-- The hypotheses about moments are met by a two-point state and a two-point noise: predicted
variance 1, noise variance 4, on the four-point uniform space `Bool × Bool`. -/
example : ∃ (μ : Measure (Bool × Bool)) (x v : Bool × Bool → Vec 1),
    (∀ i j, Integrable (fun ω => (x ω i - (0 : Vec 1) i) * (x ω j - (0 : Vec 1) j)) μ ∧
      ∫ ω, (x ω i - (0 : Vec 1) i) * (x ω j - (0 : Vec 1) j) ∂μ = (1 : Mat 1 1) i j) ∧
    (∀ i j, Integrable (fun ω => v ω i * v ω j) μ ∧ ∫ ω, v ω i * v ω j ∂μ = !![(4 : ℝ)] i j) ∧
    (∀ i j, Integrable (fun ω => (x ω i - (0 : Vec 1) i) * v ω j) μ ∧
      ∫ ω, (x ω i - (0 : Vec 1) i) * v ω j ∂μ = 0) := by
  have hsum : ∀ f : Bool × Bool → ℝ,
      Integrable f ((1 / 4 : ENNReal) • Measure.count) ∧
      ∫ ω, f ω ∂((1 / 4 : ENNReal) • Measure.count)
        = (f (true, true) + f (true, false) + f (false, true) + f (false, false)) / 4 := by
    intro f
    refine ⟨(Integrable.of_finite).smul_measure (by simp), ?_⟩
    rw [integral_smul_measure, integral_count, Fintype.sum_prod_type]
    simp [ENNReal.toReal_inv]
    ring
  refine ⟨(1 / 4 : ENNReal) • Measure.count, fun ω _ => if ω.1 then 1 else -1,
    fun ω _ => if ω.2 then 2 else -2, ?_, ?_, ?_⟩ <;>
  · intro i j
    refine ⟨(hsum _).1, ?_⟩
    rw [(hsum _).2]
    fin_cases i
    fin_cases j
    simp
    try norm_num

end Verif
