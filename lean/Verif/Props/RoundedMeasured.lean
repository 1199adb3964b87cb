import Verif.Props.RoundedUniform

/-!
# C81: rounding errors of the log likelihood when every reading determines the state
-/

open Matrix

namespace Verif

/-- **C81**, `loglikelihood` without a condition on what `filter` returns: if every row is observed and
every reading determines the state up to noise, the error is at most `K u` per row plus that of adding
up the rows, with `K` and `u₀` independent of the model, the data and their length. -/
theorem C81_measured_state_loglik (c : ℕ → ℝ) (n m : ℕ) (κ : ℝ) {q r : ℝ} (hq : 0 < q)
    (hr : 0 < r) :
    ∃ K u₀ : ℝ, 0 < u₀ ∧ ∀ (p : Params n m) (os : List (Obs m)) (R : Mat m m) (G : ℕ → Mat n m),
      p.R = .const R → p.DefinedFor os.length → p.PSD os.length → p.WithinBounds os κ q r →
      (∀ o ∈ os, ¬ o.missing) → (∀ t i j, |G t i j| ≤ κ) →
      (∀ t C, t < os.length → lastDims p.C t = .ok C → G t * C = 1) →
      ∀ u, 0 ≤ u → u ≤ u₀ → ∀ ar : ArithL c u,
        ∃ x L, flLoglik ar p os = .ok x ∧ kfLoglik p os = .ok L ∧
          |x - L| ≤ K * u * (os.length + |c os.length| * (os.length + 1)) := by
  obtain ⟨κ', hκ'⟩ : ∃ x : ℝ, x = max (max κ 0) (m * (max κ 0 * (m * (max κ 0 * max κ 0)))) :=
    ⟨_, rfl⟩
  have k1 : κ ≤ κ' := by rw [hκ']; exact (le_max_left _ _).trans (le_max_left _ _)
  have k2 : m * (max κ 0 * (m * (max κ 0 * max κ 0))) ≤ κ' := by rw [hκ']; exact le_max_right _ _
  obtain ⟨K, u₀, hu₀, h⟩ := C81_loglik c n m κ' hq hr
  refine ⟨K, u₀, hu₀, fun p os R G hR hdef hpsd hb hobs hG hGC u hu0 hu ar => ?_⟩
  have hb' : p.WithinBounds os κ' q r :=
    ⟨fun t A h1 h2 i j => (hb.A t A h1 h2 i j).trans k1, fun t b h1 h2 i => (hb.b t b h1 h2 i).trans k1,
      fun t Q h1 h2 i j => (hb.Q t Q h1 h2 i j).trans k1,
      fun t C h1 h2 i j => (hb.C t C h1 h2 i j).trans k1,
      fun t d h1 h2 i => (hb.d t d h1 h2 i).trans k1,
      fun t R h1 h2 i j => (hb.R t R h1 h2 i j).trans k1, fun i => (hb.mu0 i).trans k1,
      fun i j => (hb.S0 i j).trans k1, fun o ho hm i => (hb.obs o ho hm i).trans k1,
      hb.noiseQ, hb.noiseR⟩
  exact h p os R hR hdef hpsd hb' (fun l hl x hx i =>
    (var_le_of_measured (le_max_right κ 0) hpsd
      (fun t R h1 h2 i j => (hb.R t R h1 h2 i j).trans (le_max_left _ _)) hobs
      (fun t i j => (hG t i j).trans (le_max_left _ _)) hGC l hl x hx i).trans k2) u hu0 hu ar

/-- The hypotheses hold for `exNoisyWalk` (see `C81_measured_state`), whose observation covariance is
constant. -/
example : exNoisyWalk.R = .const 1 := rfl

end Verif
