import Verif.Proofs.SecondOrder
import Verif.Proofs.Symmetry
import Verif.Spec.Symmetry

/-!
# Smoothed covariances of a model and of a noisier one
-/

open MeasureTheory Matrix

namespace Verif

variable {n m : ℕ}

/-- The estimator of the noisier model with the larger mask, as an estimator from the data of the
other one: its mean square error is at least the smoothed covariance of the other model, and at most
its own. -/
theorem smoothC_mono {p p' : Params n m} {T : ℕ} (hp : MoreNoise p p' T) (hc : p.Covers T)
    (hc' : p'.Covers T) (hpsd : p.PSD T) (hpsd' : p'.PSD T) {mask mask' : MaskPat m}
    (hm : ∀ t < T, mask.rowMissing t → mask'.rowMissing t) {t : ℕ} (ht : t < T) :
    (p'.fn.smoothC mask' T t - p.fn.smoothC mask T t).PosSemidef := by
  obtain ⟨L, hL, hcov⟩ := smooth_coef hc' hpsd' mask' ht
  obtain ⟨Ω, i1, μ, i2, X, Z, noise, hlg⟩ := exists_lg hc
  have hP := hpsd.fn hc
  obtain ⟨Ω', i1', μ', i2', X', Z', noise', hlg'⟩ := exists_lg hc'
  have hmeas : Measurable (p'.fn.smoothM mask' T t) :=
    (hlg'.smooth (hpsd'.fn hc') mask' ht).measf
  have hz : Measurable fun (y : Fin T → Vec m) (s : Fin T) =>
      if mask'.rowMissing s then 0 else y s :=
    measurable_pi_lambda _ fun s => by
      by_cases h : mask'.rowMissing s
      · simp only [h, if_true]
        exact measurable_const
      · simp only [h, if_false]
        exact measurable_pi_apply s
  have hseen : ∀ ω, (fun s : Fin T => if mask'.rowMissing s then 0 else seen mask Z T ω s)
      = seen mask' Z T ω := by
    intro ω
    funext s
    by_cases h : mask'.rowMissing s
    · simp [seen, h]
    · have h' : ¬ mask.rowMissing s := fun h1 => h (hm s s.2 h1)
      simp [seen, h, h']
  have key := hlg.best hP (hlg.smooth hP mask ht) (L := L) (c := 0) (hmeas.comp hz) fun ω => by
    have hof := hlg.outcome ω
    have hof' : (outcome p.fn X Z (deviations p.fn noise) ω).Of p'.fn T := by
      refine ⟨hof.init, fun s hs => ?_, fun s hs => ?_⟩
      · have := hof.trans s hs
        simpa only [Params.fn, hp.A, hp.b] using this
      · have := hof.obs s hs
        simpa only [Params.fn, hp.C, hp.d] using this
    have e := hL _ hof'
    have e2 : p'.fn.smoothM mask' T t (seen mask' Z T ω)
        = (p'.fn.ks ((outcome p.fn X Z (deviations p.fn noise) ω).rows mask') (T - 1) t).mean := by
      rw [p'.fn.ks_congr (fun i hi => rows_sim mask' _ Z ω (fun _ => rfl) (show i < T by omega))
        (by omega)]
      rfl
    have e3 : p'.fn.withMu (outcome p.fn X Z (deviations p.fn noise) ω).mu0 = p'.fn := by
      show ({ p'.fn with mu0 := p.mu0 } : PFun n m) = p'.fn
      rw [← hp.mu0]
      rfl
    rw [e3] at e
    rw [zero_add]
    refine Eq.trans ?_ e
    show X t ω - p'.fn.smoothM mask' T t
      (fun s : Fin T => if mask'.rowMissing s then 0 else seen mask Z T ω s) = X t ω - _
    rw [hseen, e2]
  have hmono := L.cov_mono T hp.S0 (Q := p.fn.Q) (Q' := p'.fn.Q) (R := p.fn.R) (R' := p'.fn.R)
    (fun s hs => by
      obtain ⟨Q', h1, h2⟩ := hp.Q s hs _ (lastDims_eq_ok (hc.Q.mono (by omega)))
      rw [(lastDims_ok_get h1).1] at h2
      exact h2)
    (fun s hs => by
      obtain ⟨R', h1, h2⟩ := hp.R s hs _ (lastDims_eq_ok (hc.R.mono (by omega)))
      rw [(lastDims_ok_get h1).1] at h2
      exact h2)
  have h0 : vecMulVec (0 : Vec n) (0 : Vec n) = 0 := by
    ext i j
    simp [vecMulVec_apply]
  rw [h0, zero_add] at key
  have := hmono.add key
  rw [← hcov]
  rwa [show L.cov T p'.S0 p'.fn.Q p'.fn.R - L.cov T p.S0 p.fn.Q p.fn.R
    + (L.cov T p.fn.S0 p.fn.Q p.fn.R - p.fn.smoothC mask T t)
    = L.cov T p'.fn.S0 p'.fn.Q p'.fn.R - p.fn.smoothC mask T t from sub_add_sub_cancel _ _ _] at this

theorem MoreNoise.psd {p p' : Params n m} {T : ℕ} (hp : MoreNoise p p' T) (hc : p.Covers T)
    (hpsd : p.PSD T) : p'.PSD T := by
  refine ⟨fun t ht Q' hQ' => ?_, fun t ht R' hR' => ?_, ?_⟩
  · have h0 := lastDims_eq_ok (p := p.Q) (t := t) (hc.Q.mono (by omega))
    obtain ⟨Q₁, h1, h2⟩ := hp.Q t ht _ h0
    rw [h1] at hQ'
    cases hQ'
    have := h2.add (hpsd.Q t ht _ h0)
    rwa [sub_add_cancel] at this
  · have h0 := lastDims_eq_ok (p := p.R) (t := t) (hc.R.mono (by omega))
    obtain ⟨R₁, h1, h2⟩ := hp.R t ht _ h0
    rw [h1] at hR'
    cases hR'
    have := h2.add (hpsd.R t ht _ h0)
    rwa [sub_add_cancel] at this
  · have := hp.S0.add hpsd.S0
    rwa [sub_add_cancel] at this

end Verif
