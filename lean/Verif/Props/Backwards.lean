import Verif.Proofs.BackwardsCov
import Verif.Props.LeaveOneOut
import Verif.Spec.Stationary

/-!
# C116: running a model backwards in time
-/

open Matrix

namespace Verif

variable {n m : ℕ}

theorem obsFn_reverse {os : List (Obs m)} {T : ℕ} (hT : os.length = T + 1) {s : ℕ} (hs : s ≤ T) :
    obsFn os.reverse s = obsFn os (T - s) := by
  rw [obsFn_eq (by rw [List.length_reverse]; omega), obsFn_eq (by omega), List.getElem_reverse]
  congr 1
  omega

/-- `lastDims` succeeds where it equals a value. -/
theorem tv_covers_of_rows {α : Type} {p : TV α} {k : ℕ}
    (h : ∀ t, t < k → ∃ a, lastDims p t = .ok a) : p.Covers k := by
  cases k with
  | zero => exact p.covers_zero
  | succ k =>
    obtain ⟨a, ha⟩ := h k (by omega)
    by_contra hc
    rw [lastDims_eq_error hc] at ha
    cases ha

theorem Backwards.covers {p p' : Params n m} {T : ℕ} {mean : ℕ → Vec n} {cov : ℕ → Mat n n}
    (h : Backwards p p' T mean cov) (hc : p.Covers T) : p'.Covers T := by
  have hs : ∀ s, s < T - 1 → _ := fun s hs =>
    h.step' s (T - 2 - s) (by omega) _ (lastDims_eq_ok (hc.A.mono (by omega)))
  refine ⟨tv_covers_of_rows fun s hs' => ?_, tv_covers_of_rows fun s hs' => ?_,
    tv_covers_of_rows fun s hs' => ?_, tv_covers_of_rows fun s hs' => ?_,
    tv_covers_of_rows fun s hs' => ?_, tv_covers_of_rows fun s hs' => ?_⟩
  · obtain ⟨A', b', Q', h1, h2, h3, -⟩ := hs s hs'
    exact ⟨_, h1⟩
  · obtain ⟨A', b', Q', h1, h2, h3, -⟩ := hs s hs'
    exact ⟨_, h2⟩
  · obtain ⟨A', b', Q', h1, h2, h3, -⟩ := hs s hs'
    exact ⟨_, h3⟩
  · exact ⟨_, (h.sensors s (T - 1 - s) (by omega)).1.trans (lastDims_eq_ok (hc.C.mono (by omega)))⟩
  · exact ⟨_, (h.sensors s (T - 1 - s) (by omega)).2.1.trans
      (lastDims_eq_ok (hc.d.mono (by omega)))⟩
  · exact ⟨_, (h.sensors s (T - 1 - s) (by omega)).2.2.trans
      (lastDims_eq_ok (hc.R.mono (by omega)))⟩

theorem Backwards.fn {p p' : Params n m} {T : ℕ} {mean : ℕ → Vec n} {cov : ℕ → Mat n n}
    (h : Backwards p p' (T + 1) mean cov) (hc : p.Covers (T + 1)) :
    p.fn.Rev p'.fn T mean cov := by
  have hs : ∀ t, t < T → _ := fun t ht => h.step t (by omega) _ _ _
    (lastDims_eq_ok (hc.A.mono (by omega))) (lastDims_eq_ok (hc.b.mono (by omega)))
    (lastDims_eq_ok (hc.Q.mono (by omega)))
  have hs' : ∀ s t, s + t + 1 = T → p'.fn.A s * cov (t + 1) = cov t * (p.fn.A t)ᵀ ∧
      p'.fn.b s = mean t - p'.fn.A s *ᵥ mean (t + 1) ∧
      p'.fn.Q s = cov t - p'.fn.A s * p.fn.A t * cov t := by
    intro s t ht
    obtain ⟨A', b', Q', h1, h2, h3, h4, h5, h6⟩ :=
      h.step' s t (by omega) _ (lastDims_eq_ok (hc.A.mono (by omega)))
    have e1 := (lastDims_ok_get h1).1
    have e2 := (lastDims_ok_get h2).1
    have e3 := (lastDims_ok_get h3).1
    subst e1 e2 e3
    exact ⟨h4, h5, h6⟩
  refine ⟨h.start.1, h.start.2, fun t ht => (hs t ht).1, fun t ht => (hs t ht).2, h.start'.1,
    h.start'.2, fun s t ht => (hs' s t ht).1, fun s t ht => (hs' s t ht).2.1,
    fun s t ht => (hs' s t ht).2.2, fun s t ht => ?_, fun s t ht => ?_, fun s t ht => ?_⟩
  · exact ((lastDims_ok_get ((h.sensors s t (by omega)).1.trans
      (lastDims_eq_ok (hc.C.mono (by omega))))).1).symm
  · exact ((lastDims_ok_get ((h.sensors s t (by omega)).2.1.trans
      (lastDims_eq_ok (hc.d.mono (by omega))))).1).symm
  · exact ((lastDims_ok_get ((h.sensors s t (by omega)).2.2.trans
      (lastDims_eq_ok (hc.R.mono (by omega))))).1).symm

/-- **C116.** Take the model of the same process backwards in time, and the rows in reverse order:
`smooth` returns the same means and covariances in reverse order. -/
theorem C116_backwards (p p' : Params n m) (os : List (Obs m)) (hm : 0 < m) (hpd : p.PD os.length)
    {mean : ℕ → Vec n} {cov : ℕ → Mat n n} (h : Backwards p p' os.length mean cov)
    {out : List (Vec n × Mat n n)} (hs : kfSmooth p os = .ok out) :
    kfSmooth p' os.reverse = .ok out.reverse := by
  obtain ⟨hne, hc, rfl⟩ := kfSmooth_ok hs
  obtain ⟨T, hT⟩ : ∃ T, os.length = T + 1 :=
    ⟨os.length - 1, by have := List.length_pos_iff.mpr hne; omega⟩
  have hc' := h.covers hc
  rw [hT] at h
  have hR := h.fn (hT ▸ hc)
  have hP := hpd.fn hc
  rw [hT] at hP
  rw [kfSmooth_eq (by simpa using hne) (by rw [List.length_reverse]; exact hc'), List.length_reverse,
    hT, Nat.add_sub_cancel]
  congr 1
  refine List.ext_getElem (by simp) fun s h1 h2 => ?_
  simp only [List.length_map, List.length_range] at h1
  simp only [List.getElem_reverse, List.getElem_map, List.getElem_range, List.length_map,
    List.length_range]
  have ht : s + (T + 1 - 1 - s) = T := by omega
  obtain ⟨a, b⟩ := hR.smooth hP hm (obsFn os) ht
  rw [p'.fn.ks_congr (z' := fun s => obsFn os (T - s))
    (fun i hi => sim_refl_of_eq (obsFn_reverse hT hi)) (by omega), a, b]

/-- **C116, filter.** So the first row of `smooth` is the last row of `filter` of the model backwards
on the rows in reverse order: a filter running from the end. -/
theorem C116_filter_from_the_end (p p' : Params n m) (os : List (Obs m)) (hm : 0 < m)
    (hpd : p.PD os.length) {mean : ℕ → Vec n} {cov : ℕ → Mat n n}
    (h : Backwards p p' os.length mean cov) {out out' : List (Vec n × Mat n n)}
    (hs : kfSmooth p os = .ok out) (hf : kfFilter p' os.reverse = .ok out') :
    out'.getLast? = out.head? := by
  have e := C116_backwards p p' os hm hpd h hs
  obtain ⟨hne, hc, ho⟩ := kfSmooth_ok e
  obtain ⟨T, hT⟩ : ∃ T, os.reverse.length = T + 1 :=
    ⟨os.reverse.length - 1, by have := List.length_pos_iff.mpr hne; omega⟩
  rw [kfFilter_eq hc] at hf
  cases hf
  rw [← List.reverse_reverse out, List.head?_reverse, ho, hT]
  simp only [List.range_succ, List.map_append, List.map_cons, List.map_nil,
    List.getLast?_concat, Nat.add_sub_cancel, PFun.ks_last]

/-- **C116, loglikelihood.** The log likelihood of the rows is the same in both directions. -/
theorem C116_loglikelihood (p p' : Params n m) (os : List (Obs m)) (hm : 0 < m)
    (hdef : p.DefinedFor os.length) (hpd : p.PD os.length) {R : Mat m m} (hR : p.R = .const R)
    (hR' : p'.R = .const R) {mean : ℕ → Vec n} {cov : ℕ → Mat n n}
    (h : Backwards p p' os.length mean cov) : kfLoglik p' os.reverse = kfLoglik p os := by
  by_cases hne : os = []
  · subst hne; rfl
  have hc := definedFor_iff_covers.mp hdef
  have hc' := h.covers hc
  obtain ⟨T, hT⟩ : ∃ T, os.length = T + 1 :=
    ⟨os.length - 1, by have := List.length_pos_iff.mpr hne; omega⟩
  have hP := hpd.fn hc
  have hRd : R.PosDef := hpd.R 0 (by omega) R (by rw [hR]; rfl)
  rw [hT] at h
  have hr := h.fn (hT ▸ hc)
  rw [hT] at hP
  have hpsd : p.PSD os.length := ⟨fun t ht S hS => (hpd.Q t ht S hS).posSemidef,
    fun t ht S hS => (hpd.R t ht S hS).posSemidef, hpd.S0.posSemidef⟩
  have hpsd' : p'.PSD os.reverse.length := by
    have q := hr.pd hP
    rw [List.length_reverse, hT]
    refine ⟨fun t ht S hS => ?_, fun t ht S hS => ?_, q.S0.posSemidef⟩
    · rw [(lastDims_ok_get hS).1]; exact (q.Q t ht).posSemidef
    · rw [(lastDims_ok_get hS).1]; exact (q.R t ht).posSemidef
  rw [loglik_rowLL (by rw [List.length_reverse]; exact hc') hpsd' hR' hRd,
    loglik_rowLL hc hpsd hR hRd, List.length_reverse, hT, ← hr.loglik hP hm (obsFn os)]
  congr 1
  refine Finset.sum_congr rfl fun s hs => ?_
  refine p'.fn.rowLL_congr fun i hi => sim_refl_of_eq (obsFn_reverse hT ?_)
  have := Finset.mem_range.mp hs
  omega

/-- **C116, reversible processes.** A process that starts in its stationary law and whose transition
matrix satisfies `A S₀ = S₀ Aᵀ` (every autoregression of one variable does) is its own reversal: data
may be smoothed from either end. -/
theorem C116_reversible (p : Params n m) (os : List (Obs m)) (hm : 0 < m) {A Q : Mat n n} {b : Vec n}
    {C : Mat m n} {d : Vec m} {R : Mat m m} (hst : StartsStationary p A Q b C d R)
    (hA : A * p.S0 = p.S0 * Aᵀ) (hQ : Q.PosDef) (hR : R.PosDef) (hS : p.S0.PosDef)
    {out : List (Vec n × Mat n n)} (hs : kfSmooth p os = .ok out) :
    kfSmooth p os.reverse = .ok out.reverse ∧ kfLoglik p os.reverse = kfLoglik p os := by
  have hb : Backwards p p os.length (fun _ => p.mu0) (fun _ => p.S0) := by
    refine ⟨⟨rfl, rfl⟩, fun t _ A₁ b₁ Q₁ h1 h2 h3 => ?_, ⟨rfl, rfl⟩, fun s t _ A₁ h1 => ?_,
      fun s t _ => ?_⟩
    · rw [hst.A] at h1; rw [hst.b] at h2; rw [hst.Q] at h3
      cases h1; cases h2; cases h3
      exact ⟨hst.mean.symm, hst.cov.symm⟩
    · rw [hst.A] at h1
      cases h1
      refine ⟨A, b, Q, by rw [hst.A]; rfl, by rw [hst.b]; rfl, by rw [hst.Q]; rfl, hA, ?_, ?_⟩
      · exact eq_sub_of_add_eq' hst.mean
      · have := hst.cov
        rw [Matrix.mul_assoc, ← hA, ← Matrix.mul_assoc] at this
        exact eq_sub_of_add_eq' this
    · rw [hst.C, hst.d, hst.R]
      exact ⟨rfl, rfl, rfl⟩
  have hpd : p.PD os.length := by
    refine ⟨fun t _ S h => ?_, fun t _ S h => ?_, hS⟩
    · rw [hst.Q] at h; cases h; exact hQ
    · rw [hst.R] at h; cases h; exact hR
  obtain ⟨-, hc, -⟩ := kfSmooth_ok hs
  exact ⟨C116_backwards p p os hm hpd hb hs,
    C116_loglikelihood p p os hm (definedFor_iff_covers.mpr hc) hpd hst.R hst.R hb⟩

/-- An autoregression with coefficient 1/2 and stationary variance 4. -/
noncomputable def exAutoregression : Params 1 1 where
  A := .const ((1 / 2 : ℝ) • 1)
  b := .const 0
  Q := .const ((3 : ℝ) • 1)
  C := .const 1
  d := .const 0
  R := .const 1
  mu0 := 0
  S0 := (4 : ℝ) • 1

/-- The hypotheses of `C116_reversible` hold for it, and `smooth` returns for all data. -/
example (os : List (Obs 1)) (hne : os ≠ []) :
    StartsStationary exAutoregression ((1 / 2 : ℝ) • 1) ((3 : ℝ) • 1) 0 1 0 1 ∧
    ((1 / 2 : ℝ) • 1 : Mat 1 1) * exAutoregression.S0
      = exAutoregression.S0 * ((1 / 2 : ℝ) • 1 : Mat 1 1)ᵀ ∧
    ((3 : ℝ) • 1 : Mat 1 1).PosDef ∧ exAutoregression.S0.PosDef ∧
    ∃ out, kfSmooth exAutoregression os = .ok out := by
  refine ⟨⟨?_, ?_, rfl, rfl, rfl, rfl, rfl, rfl⟩, ?_, PosDef.one.smul (by norm_num),
    PosDef.one.smul (by norm_num), ⟨_, kfSmooth_eq hne (definedFor_iff_covers.mp ?_)⟩⟩
  · simp [exAutoregression]
  · simp only [exAutoregression, transpose_smul, transpose_one, Matrix.smul_mul, Matrix.mul_smul,
      Matrix.one_mul, smul_smul, ← add_smul]
    norm_num
  · simp only [exAutoregression, transpose_smul, transpose_one, Matrix.smul_mul, Matrix.mul_smul,
      Matrix.one_mul, smul_smul]
    norm_num
  · exact ⟨fun _ _ => ⟨_, rfl⟩, fun _ _ => ⟨_, rfl⟩, fun _ _ => ⟨_, rfl⟩, fun _ _ => ⟨_, rfl⟩,
      fun _ _ => ⟨_, rfl⟩, fun _ _ => ⟨_, rfl⟩⟩

/-- A random walk from variance 1, and the model backwards on two rows: from variance 2, halfway back
to the initial mean, with variance 1/2. -/
noncomputable def exWalkForwards : Params 1 1 where
  A := .const 1
  b := .const 0
  Q := .const 1
  C := .const 1
  d := .const 0
  R := .const 1
  mu0 := fun _ => 3
  S0 := 1

/-- See `exWalkForwards`. -/
noncomputable def exWalkBackwards : Params 1 1 where
  A := .const ((1 / 2 : ℝ) • 1)
  b := .const fun _ => 3 / 2
  Q := .const ((1 / 2 : ℝ) • 1)
  C := .const 1
  d := .const 0
  R := .const 1
  mu0 := fun _ => 3
  S0 := (2 : ℝ) • 1

/-- The hypotheses of the other theorems hold for these models, which are not each other's copies. -/
example : Backwards exWalkForwards exWalkBackwards 2 (fun _ _ => 3) (fun t => ((t : ℝ) + 1) • 1) ∧
    exWalkForwards.PD 2 ∧ exWalkForwards.DefinedFor 2 := by
  refine ⟨⟨⟨rfl, ?_⟩, ?_, ⟨rfl, ?_⟩, ?_, ?_⟩, ⟨?_, ?_, PosDef.one⟩, ?_⟩
  · simp [exWalkForwards]
  · rintro t ht _ _ _ ⟨⟩ ⟨⟩ ⟨⟩
    constructor
    · simp
    · simp only [transpose_one, Matrix.mul_one, Matrix.one_mul, Nat.cast_add, Nat.cast_one]
      rw [add_smul _ (1 : ℝ), one_smul]
  · simp only [exWalkBackwards, show 2 - 1 = 1 from rfl, Nat.cast_one]
    norm_num
  · rintro s t ht _ ⟨⟩
    obtain ⟨rfl, rfl⟩ : s = 0 ∧ t = 0 := by omega
    refine ⟨_, _, _, rfl, rfl, rfl, ?_, ?_, ?_⟩
    · simp only [transpose_one, Matrix.smul_mul, Matrix.mul_one, smul_smul, Matrix.one_mul]
      norm_num
    · funext i
      rw [Subsingleton.elim i 0]
      simp only [smul_mulVec, one_mulVec, Pi.sub_apply, Pi.smul_apply, smul_eq_mul]
      norm_num
    · simp only [Matrix.mul_one, Matrix.smul_mul, Matrix.mul_smul, smul_smul, ← sub_smul]
      norm_num
  · intro s t ht; exact ⟨rfl, rfl, rfl⟩
  · rintro t - _ ⟨⟩; exact PosDef.one
  · rintro t - _ ⟨⟩; exact PosDef.one
  · exact ⟨fun _ _ => ⟨_, rfl⟩, fun _ _ => ⟨_, rfl⟩, fun _ _ => ⟨_, rfl⟩, fun _ _ => ⟨_, rfl⟩,
      fun _ _ => ⟨_, rfl⟩, fun _ _ => ⟨_, rfl⟩⟩

end Verif
