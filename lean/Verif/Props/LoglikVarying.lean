import Verif.Proofs.Likelihood
import Verif.Props.Posterior

/-!
# C49: `loglikelihood` and time-varying observation covariances

The property fails: `filter` accepts a time-varying observation covariance, `loglikelihood` does
not.
-/

open Matrix

namespace Verif

variable {n m : ℕ}

theorem loglikLoop_error {p : Params n m} {l : List (Mat m m)} (hR : p.R = .seq l)
    (steps : List (Step n m)) (os : List (Obs m)) (t : ℕ)
    (hl : steps.length = os.length) (hC : p.C.Covers (t + os.length))
    (hd : p.d.Covers (t + os.length)) (h : ∃ o ∈ os, ¬ o.missing) :
    loglikLoop p t steps os = .error .valueError := by
  induction os generalizing steps t with
  | nil => obtain ⟨o, h, -⟩ := h; cases h
  | cons o os ih =>
    cases steps with
    | nil => simp at hl
    | cons s steps =>
      rw [loglikLoop]
      by_cases hm : o.missing
      · have h2 : ∃ o ∈ os, ¬ o.missing := by
          obtain ⟨o', h1, h2⟩ := h
          rcases List.mem_cons.mp h1 with rfl | h3
          · exact absurd hm h2
          · exact ⟨o', h3, h2⟩
        have e : loglikStep p t s o = .ok 0 := by rw [loglikStep, if_neg (by simpa using hm)]; rfl
        rw [e]
        simp only [bind, Except.bind]
        rw [ih steps (t + 1) (by simpa using hl)
          (by rwa [List.length_cons, show t + (os.length + 1) = t + 1 + os.length by omega] at hC)
          (by rwa [List.length_cons, show t + (os.length + 1) = t + 1 + os.length by omega] at hd) h2]
      · have e : loglikStep p t s o = .error .valueError := by
          rw [loglikStep, if_pos hm, hR,
            lastDims_eq_ok (hC.mono (by simp)), lastDims_eq_ok (hd.mono (by simp))]
          rfl
        rw [e]; rfl

/-- **C49, the failure.** For *every* model with a time-varying observation covariance (a sequence
of matrices) and every data set with an unmasked row: whenever `filter` succeeds, `loglikelihood`
raises `ValueError`. -/
theorem C49_fails_for_time_varying_covariance {p : Params n m} {os : List (Obs m)}
    {l : List (Mat m m)} (hR : p.R = .seq l) (hun : ∃ o ∈ os, ¬ o.missing)
    {out : List (Vec n × Mat n n)} (h : kfFilter p os = .ok out) :
    kfLoglik p os = .error .valueError := by
  have hne : os ≠ [] := by rintro rfl; simp at hun
  cases hf : filterFull p os with
  | error e => rw [kfFilter, hf] at h; cases h
  | ok st =>
    have hc := (filterFull_ok_iff.mp ⟨st, hf⟩).resolve_left hne
    have hlen : st.length = os.length := by rw [filterFull_ok hf]; simp
    rw [kfLoglik, hf]
    simp only [bind, Except.bind]
    rw [loglikLoop_error hR st os 0 hlen (by simpa using hc.C) (by simpa using hc.d) hun]

/-- A model meeting the hypotheses: two rows, observation variances 1 and 2. -/
noncomputable def exVarying : Params 1 1 :=
  ⟨.const 1, .const 0, .const 1, .const 1, .const 0, .seq [1, 2], 0, 1⟩

example : exVarying.R = .seq [1, 2] ∧
    (∃ o ∈ ([⟨![3], ![false]⟩, ⟨![4], ![false]⟩] : List (Obs 1)), ¬ o.missing) ∧
    (∃ out, kfFilter exVarying [⟨![3], ![false]⟩, ⟨![4], ![false]⟩] = .ok out) :=
  ⟨rfl, ⟨⟨![3], ![false]⟩, by simp, by simp [Obs.missing]⟩,
    ⟨_, kfFilter_eq (os := [⟨![3], ![false]⟩, ⟨![4], ![false]⟩])
      ⟨trivial, trivial, trivial, trivial, trivial, le_refl 2⟩⟩⟩

/-- **C49** as stated is false. -/
theorem C49_negation : ¬ ∀ (p : Params 1 1) (os : List (Obs 1)) (out : List (Vec 1 × Mat 1 1)),
    kfFilter p os = .ok out → ∃ l, kfLoglik p os = .ok l := by
  intro h
  have h1 : kfFilter exVarying [⟨![3], ![false]⟩, ⟨![4], ![false]⟩] = .ok _ :=
    kfFilter_eq ⟨trivial, trivial, trivial, trivial, trivial, le_refl 2⟩
  obtain ⟨l, hl⟩ := h _ _ _ h1
  have := C49_fails_for_time_varying_covariance (l := [1, 2]) rfl
    ⟨⟨![3], ![false]⟩, by simp, by simp [Obs.missing]⟩ h1
  rw [this] at hl
  cases hl

theorem logMvn_ok {S : Mat m m} (hS : S.PosSemidef) (x mu : Vec m) : ∃ l, logMvn x mu S = .ok l := by
  by_cases h : S.PosDef
  · obtain ⟨L, hL⟩ := cholesky_of_posDef h
    exact ⟨_, by simp only [logMvn, hL]; rfl⟩
  · have h2 : (S + (1e-7 : ℝ) • (1 : Mat m m)).PosDef := by
      rw [add_comm]
      exact (PosDef.one.smul (by norm_num)).add_posSemidef hS
    obtain ⟨L, hL⟩ := cholesky_of_posDef h2
    exact ⟨_, by simp only [logMvn, cholesky_of_not_posDef (symm_of_posSemidef hS) h, hL.1]; rfl⟩

/-- **C49, the part that holds.** With a constant observation covariance and positive semidefinite
covariances `loglikelihood` succeeds exactly when `filter` does, with any of the other parameters
varying in time.  Missing from C49: time-varying observation covariances, for which
`C49_fails_for_time_varying_covariance` shows the opposite. -/
theorem C49_loglik_accepts_what_filter_accepts_partial {p : Params n m} {os : List (Obs m)}
    (hR : p.R.IsConst) (hpsd : p.PSD os.length) :
    (∃ l, kfLoglik p os = .ok l) ↔ ∃ out, kfFilter p os = .ok out := by
  obtain ⟨R, hR⟩ := hR
  constructor
  · rintro ⟨l, h⟩
    rw [kfLoglik] at h
    rw [kfFilter]
    cases hf : filterFull p os with
    | error e => rw [hf] at h; cases h
    | ok st => exact ⟨_, rfl⟩
  · rintro ⟨out, h⟩
    cases hf : filterFull p os with
    | error e => rw [kfFilter, hf] at h; cases h
    | ok st =>
      rcases filterFull_ok_iff.mp ⟨st, hf⟩ with rfl | hc
      · exact ⟨0, by rw [kfLoglik, hf]; cases hf; rfl⟩
      have hst := filterFull_ok hf
      have hP := hpsd.fn hc
      have key : ∀ k t, t + k = os.length →
          ∃ ls, loglikLoop p t (((List.range k).map fun i => p.fn.kf (obsFn os) (t + i)))
            ((List.range k).map fun i => obsFn os (t + i)) = .ok ls := by
        intro k
        induction k with
        | zero => exact fun t _ => ⟨[], rfl⟩
        | succ k ih =>
          intro t ht
          obtain ⟨ls, hls⟩ := ih (t + 1) (by omega)
          have shift : ∀ {α : Type} (f : ℕ → α), ((List.range (k + 1)).map fun i => f (t + i))
              = f t :: (List.range k).map fun i => f (t + 1 + i) := by
            intro α f
            rw [List.range_succ_eq_map, List.map_cons, List.map_map]
            simp only [add_zero, List.cons.injEq, true_and]
            exact List.map_congr_left fun i _ => by
              simp only [Function.comp]; congr 1; omega
          rw [shift, shift, loglikLoop]
          have : ∃ l, loglikStep p t (p.fn.kf (obsFn os) t) (obsFn os t) = .ok l := by
            rw [loglikStep]
            split
            · rw [lastDims_eq_ok (hc.C.mono (show t + 1 ≤ os.length by omega)),
                lastDims_eq_ok (hc.d.mono (show t + 1 ≤ os.length by omega)), hR]
              simp only [bind, Except.bind, pure, Except.pure]
              apply logMvn_ok
              rw [← Matrix.mul_assoc]
              have hRt := hP.R t (by omega)
              have e : p.fn.R t = R := by simp only [Params.fn, hR, TV.get]
              rw [e] at hRt
              exact innov_posSemidef _ (hP.pred (by omega) _) hRt
            · exact ⟨0, rfl⟩
          obtain ⟨l, hl⟩ := this
          rw [hl, hls]
          exact ⟨_, rfl⟩
      obtain ⟨ls, hls⟩ := key os.length 0 (by omega)
      simp only [zero_add] at hls
      have hos : (List.range os.length).map (fun i => obsFn os i) = os := by
        apply List.ext_getElem
        · simp
        · intro i h1 h2
          simp [obsFn_eq h2]
      rw [hos] at hls
      exact ⟨ls.sum, by rw [kfLoglik, hf, hst]; simp only [bind, Except.bind]; rw [hls]; rfl⟩

/-- The hypotheses hold with a time-varying transition matrix and a singular `Q`. -/
example : exParams.R.IsConst ∧ exParams.PSD 3 := ⟨⟨_, rfl⟩, exParams_psd⟩

/-- The hypotheses of the theorems of C17 (`Props/Runs`) hold for `exParams`: the log-likelihood of
two observations exists, and so do their filtered moments and the parameters of the next step. -/
example : ∃ l out mean cov, kfLoglik exParams [⟨![1], fun _ => false⟩, ⟨![2], fun _ => true⟩] = .ok l ∧
    kfFilter exParams [⟨![1], fun _ => false⟩, ⟨![2], fun _ => true⟩] = .ok out ∧
    out.getLast? = some (mean, cov) ∧ lastDims exParams.A 1 = .ok !![1, 2; 0, 1] ∧
    lastDims exParams.Q 1 = .ok !![0, 0; 0, 1] ∧ lastDims exParams.b 1 = .ok ![0, 1] ∧
    exParams.DefinedFor (2 + 1) := by
  have hf := kfFilter_eq (p := exParams) (os := [⟨![1], fun _ => false⟩, ⟨![2], fun _ => true⟩])
    ((definedFor_iff_covers.mp exParams_definedFor).mono (by simp))
  obtain ⟨l, hl⟩ := (C49_loglik_accepts_what_filter_accepts_partial (p := exParams)
    (os := [⟨![1], fun _ => false⟩, ⟨![2], fun _ => true⟩]) ⟨_, rfl⟩
    ⟨fun t ht => exParams_psd.Q t (by simp at ht; omega),
      fun t ht => exParams_psd.R t (by simp at ht; omega), exParams_psd.S0⟩).mpr ⟨_, hf⟩
  exact ⟨l, _, _, _, hl, hf, rfl, rfl, rfl, rfl, exParams_definedFor⟩

end Verif
