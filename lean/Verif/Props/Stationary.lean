import Verif.Spec.Stationary
import Verif.Props.Gaps

/-!
# C71: a process that starts in its stationary law
-/

open Matrix

namespace Verif

variable {n m : ℕ} {p : Params n m} {A Q : Mat n n} {b : Vec n} {C : Mat m n} {d : Vec m} {R : Mat m m}

theorem StartsStationary.withoutFirst (h : StartsStationary p A Q b C d R) (T : ℕ) :
    WithoutStep p p 0 T := by
  have e : ∀ {α : Type} {x : TV α} {a : α}, x = .const a → ∀ s t, lastDims x s = lastDims x t := by
    rintro α x a rfl s t; rfl
  refine ⟨⟨fun t ht => by omega, fun t _ _ => e h.C _ _⟩, ⟨fun t ht => by omega, fun t _ _ => e h.d _ _⟩,
    ⟨fun t ht => by omega, fun t _ _ => e h.R _ _⟩, fun t ht => by omega,
    fun t _ _ => ⟨e h.A _ _, e h.b _ _, e h.Q _ _⟩, fun j hj => by omega, ?_, fun h0 => absurd rfl h0⟩
  intro _ _ A' b' Q' hA hb hQ
  rw [h.A] at hA
  rw [h.b] at hb
  rw [h.Q] at hQ
  cases hA
  cases hb
  cases hQ
  exact ⟨h.mean.symm, h.cov.symm⟩

theorem StartsStationary.covers (h : StartsStationary p A Q b C d R) (T : ℕ) : p.Covers T := by
  refine ⟨?_, ?_, ?_, ?_, ?_, ?_⟩
  · rw [h.A]; trivial
  · rw [h.b]; trivial
  · rw [h.Q]; trivial
  · rw [h.C]; trivial
  · rw [h.d]; trivial
  · rw [h.R]; trivial

/-- **C71, time origin.** If the process starts in its stationary law, it does not matter when the
record starts: any number of masked rows in front of the data leaves the rows that `filter` and
`smooth` return for the data, and the log likelihood, as they are.  For the rows in front, `filter`
returns the initial moments. -/
theorem C71_time_origin (h : StartsStationary p A Q b C d R) (hQ : Q.PosSemidef) (hR : R.PosSemidef)
    (hS : p.S0.PosSemidef) (gap os : List (Obs m)) (hg : ∀ o ∈ gap, o.missing) :
    (∃ out, kfFilter p os = .ok out ∧
      kfFilter p (gap ++ os) = .ok (List.replicate gap.length (p.mu0, p.S0) ++ out)) ∧
    (os ≠ [] → ∃ front out, kfSmooth p os = .ok out ∧ front.length = gap.length ∧
      kfSmooth p (gap ++ os) = .ok (front ++ out)) ∧
    kfLoglik p (gap ++ os) = kfLoglik p os := by
  have hpsd : ∀ T, p.PSD T := fun T =>
    ⟨fun t _ Q' e => by rw [h.Q] at e; cases e; exact hQ,
      fun t _ R' e => by rw [h.R] at e; cases e; exact hR, hS⟩
  induction gap with
  | nil =>
    refine ⟨⟨_, kfFilter_eq (h.covers _), by rw [kfFilter_eq (h.covers _)]; rfl⟩, fun hne => ?_, rfl⟩
    exact ⟨[], _, kfSmooth_eq hne (h.covers _), rfl, kfSmooth_eq hne (h.covers _)⟩
  | cons g gap ih =>
    obtain ⟨⟨out, i1, i1'⟩, i2, i3⟩ := ih fun o ho => hg o (List.mem_cons_of_mem _ ho)
    have hm : g.missing := hg g List.mem_cons_self
    have hk : ((g :: gap) ++ os)[0]? = some g := rfl
    refine ⟨⟨out, i1, ?_⟩, fun hne => ?_, ?_⟩
    · have e := kfFilter_eq (os := (g :: gap) ++ os) (h.covers _)
      have e' := C71_gap_filter p p _ 0 hk hm (h.withoutFirst _) _ e
      have et : ((g :: gap) ++ os).eraseIdx 0 = gap ++ os := rfl
      rw [et, i1'] at e'
      have l : 0 < ((g :: gap) ++ os).length := by simp
      have k0 : p.fn.kf (obsFn ((g :: gap) ++ os)) 0
          = p.fn.correct 0 p.mu0 p.S0 (obsFn ((g :: gap) ++ os) 0) := rfl
      have hm0 : (obsFn ((g :: gap) ++ os) 0).missing := by
        rw [obsFn_eq l]; exact hm
      have f1 := (p.fn.kf_missing _ hm0).2.1
      have f2 := (p.fn.kf_missing _ hm0).2.2
      have p1 : (p.fn.kf (obsFn ((g :: gap) ++ os)) 0).predMean = p.mu0 := rfl
      have p2 : (p.fn.kf (obsFn ((g :: gap) ++ os)) 0).predCov = p.S0 := rfl
      rw [e]
      congr 1
      have e'' := Except.ok.inj e'
      rw [show ((g :: gap) ++ os).length = (gap ++ os).length + 1 from rfl, List.range_succ_eq_map,
        List.map_cons, List.eraseIdx_cons_zero] at e''
      rw [show ((g :: gap) ++ os).length = (gap ++ os).length + 1 from rfl, List.range_succ_eq_map,
        List.map_cons, ← e'', f1, f2, p1, p2, List.length_cons, List.replicate_succ, List.cons_append]
    · obtain ⟨front, out', j1, j2, j3⟩ := i2 hne
      have hne' : (g :: gap) ++ os ≠ [] := by simp
      have e := kfSmooth_eq hne' (h.covers _)
      have h2 : 2 ≤ ((g :: gap) ++ os).length := by
        have := List.length_pos_iff.mpr hne
        simp
        omega
      have e' := C71_gap_smooth p p _ 0 hk hm (h.withoutFirst _) (hpsd _) h2 _ e
      have et : ((g :: gap) ++ os).eraseIdx 0 = gap ++ os := rfl
      rw [et, j3] at e'
      have e'' := Except.ok.inj e'
      rw [show ((g :: gap) ++ os).length = (gap ++ os).length + 1 from rfl, List.range_succ_eq_map,
        List.map_cons, List.eraseIdx_cons_zero] at e''
      rw [show ((g :: gap) ++ os).length = (gap ++ os).length + 1 from rfl, List.range_succ_eq_map,
        List.map_cons, ← e''] at e
      exact ⟨_ :: front, out', j1, by rw [List.length_cons, List.length_cons, j2], e⟩
    · rw [← i3]
      exact (C71_gap_loglik p p _ 0 hk hm (h.withoutFirst _) R h.R h.R _
        (kfFilter_eq (h.covers _))).symm

/-- A process that forgets half of its value in every step, in its stationary law. -/
noncomputable def exHalving : Params 1 1 where
  A := .const !![1 / 2]
  b := .const ![1]
  Q := .const !![3 / 4]
  C := .const 1
  d := .const 0
  R := .const 1
  mu0 := ![2]
  S0 := 1

/-- The hypotheses hold for the example. -/
example : StartsStationary exHalving !![1 / 2] !![3 / 4] ![1] 1 0 1 ∧
    (!![3 / 4] : Mat 1 1).PosSemidef := by
  refine ⟨⟨?_, ?_, rfl, rfl, rfl, rfl, rfl, rfl⟩, ?_⟩
  · ext i
    fin_cases i
    simp [exHalving, mulVec, dotProduct]
    norm_num
  · ext i j
    fin_cases i
    fin_cases j
    simp [exHalving, vecMul, dotProduct]
    norm_num
  · have : (!![3 / 4] : Mat 1 1) = (3 / 4 : ℝ) • 1 := by
      ext i j
      rw [Subsingleton.elim j i, Matrix.smul_apply, Matrix.one_apply_eq]
      fin_cases i
      simp
    rw [this]
    exact PosSemidef.one.smul (by norm_num)

end Verif
