import Verif.Proofs.EmLoop
import Verif.Props.Posterior

/-!
# C23, C24: what `em` leaves unchanged, and validity of the covariances it returns
-/

open Matrix

namespace Verif

variable {n m : ℕ}

/-- **C23.** `em` leaves every parameter outside `em_vars` as it was when `em` was called, for
every selection, iteration count and data set. -/
theorem C23_em_only_selected {p p' : Params n m} {os : List (Obs m)} {k : ℕ}
    {vars : EmVar → Bool} (h : kfEm p os k vars = .ok p') : AgreeOff vars p p' :=
  kfEm_agree h

/-- **C23.** With `n_iter = 0`, or with nothing selected, `em` changes nothing. -/
theorem C23_em_nothing {p : Params n m} {os : List (Obs m)} (vars : EmVar → Bool) :
    kfEm p os 0 vars = .ok p ∧
    ∀ k p', kfEm p os k (fun _ => false) = .ok p' → p' = p := by
  refine ⟨rfl, fun k p' h => ?_⟩
  obtain ⟨h1, h2, h3, h4, h5, h6, h7, h8⟩ := kfEm_agree h
  cases p; cases p'
  simp_all

/-- **C23.** `em` with `a + b` iterations is `em` with `a` iterations followed by a second call
with `b` iterations (also when one of the calls raises). -/
theorem C23_em_add (p : Params n m) (os : List (Obs m)) (vars : EmVar → Bool) (a b : ℕ) :
    kfEm p os (a + b) vars = kfEm p os a vars >>= fun p' => kfEm p' os b vars := by
  rw [kfEm, emLoop_add]
  cases h : emLoop p vars os a p with
  | error e => simp only [kfEm, h]; rfl
  | ok p' =>
    simp only [kfEm, h]
    exact (emLoop_congr (kfEm_agree h) os b p').symm

/-- **C23.** `em` succeeds on every nonempty data set all of whose time steps have parameters, and
the result again has parameters for all these time steps. -/
theorem C23_em_succeeds {p : Params n m} {os : List (Obs m)} (hne : os ≠ [])
    (hdef : p.DefinedFor os.length) (k : ℕ) (vars : EmVar → Bool) :
    ∃ p', kfEm p os k vars = .ok p' ∧ p'.DefinedFor os.length := by
  have hg := definedFor_iff_covers.mp hdef
  have : ∀ q : Params n m, q.Covers os.length →
      ∃ p', emLoop p vars os k q = .ok p' ∧ p'.Covers os.length := by
    induction k with
    | zero => exact fun q hq => ⟨q, rfl, hq⟩
    | succ k ih =>
      intro q hq
      obtain ⟨p1, e1, c1, -⟩ := emIter_ok (vars := vars) hne hq hg
      rw [emLoop_succ, e1]
      exact ih p1 c1
  obtain ⟨p', h1, h2⟩ := this p hg
  exact ⟨p', h1, definedFor_iff_covers.mpr h2⟩

/-- **C24.** If the covariances are positive semidefinite when `em` is called, those of the result
are positive semidefinite (symmetric included), whatever the data, the mask, the selection and the
number of iterations. -/
theorem C24_em_covariances_psd {p p' : Params n m} {os : List (Obs m)} {k : ℕ}
    {vars : EmVar → Bool} (hpsd : ∀ T, p.PSD T) (h : kfEm p os k vars = .ok p') :
    ∀ T, p'.PSD T := by
  cases k with
  | zero => cases h; exact hpsd
  | succ k =>
    have h' := h
    rw [kfEm, emLoop] at h'
    cases hss : emStats p os with
    | error e => rw [hss] at h'; cases h'
    | ok ss =>
      refine emLoop_ok h (emStats_covers hss).2 (fun q => ∀ T, q.PSD T) hpsd ?_
      intro q q' hq hne hc _ _ he S
      obtain ⟨T, hT⟩ : ∃ T, os.length = T + 1 :=
        ⟨os.length - 1, by have := List.length_pos_iff.mpr hne; omega⟩
      rw [hT, Nat.add_sub_cancel] at he
      rw [hT] at hc
      have hP : q.fn.PSD (T + 1) := (hq _).fn hc
      have hs : ∀ t < T + 1, (q.fn.stats (obsFn os) T t).cov.PosSemidef :=
        fun t ht => hP.smooth (by omega) _
      refine ⟨fun t ht Q hQ => ?_, fun t ht R hR => ?_, ?_⟩
      · rw [he.Q] at hQ
        split at hQ
        · cases hQ
          rw [newQ]
          have := transScatter_posSemidef hP (obsFn os) q'.A.get q.b.get
          split
          · exact smul_posSemidef (by positivity) this
          · exact this
        · exact (hpsd (t + 2)).Q t (by omega) Q hQ
      · rw [he.R] at hR
        split at hR
        · cases hR
          rw [newR]
          have := obsScatter_posSemidef hs (obsFn os) q'.C.get q.d.get
          split
          · exact smul_posSemidef (by positivity) this
          · exact this
        · exact (hpsd (t + 1)).R t (by omega) R hR
      · rw [he.S0]
        split
        · exact (hs 0 (by omega)).add (vecMulVec_posSemidef _)
        · exact (hpsd 0).S0

theorem exParams_psd_all (T : ℕ) : exParams.PSD T := by
  obtain ⟨h1, h2, h3⟩ := exParams_psd
  exact ⟨fun t _ Q hQ => h1 0 (by omega) Q (by cases hQ; rfl),
    fun t _ R hR => h2 0 (by omega) R (by cases hR; rfl), h3⟩

/-- The hypotheses of C23 and C24 are met by a model with time-varying `A`, singular `Q`, three rows
one of which is masked, any selection and any number of iterations. -/
example (k : ℕ) (vars : EmVar → Bool) :
    (∀ T, exParams.PSD T) ∧ ∃ p', kfEm exParams
      [⟨![1], ![false]⟩, ⟨![0], ![true]⟩, ⟨![4], ![false]⟩] k vars = .ok p' := by
  refine ⟨exParams_psd_all, ?_⟩
  obtain ⟨p', h, -⟩ := C23_em_succeeds (p := exParams)
    (os := [⟨![1], ![false]⟩, ⟨![0], ![true]⟩, ⟨![4], ![false]⟩]) (by simp)
    exParams_definedFor k vars
  exact ⟨p', h⟩

end Verif
