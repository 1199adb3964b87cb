import Verif.Proofs.RoundedUniformSmooth
import Verif.Proofs.RoundedUniformLoglik
import Verif.Props.RoundedLoglik
import Verif.Props.Sensors

/-!
# C81: rounding errors do not accumulate

The constants of C79 depend on the model and on the data, hence on the length of the data.  Here they
depend only on bounds: a filter may run for any number of steps.
-/

open Matrix Topology

namespace Verif

variable {n m : ℕ} {c : ℕ → ℝ}

theorem Params.WithinBounds.fn {p : Params n m} {os : List (Obs m)} {κ q r : ℝ}
    (hc : p.Covers os.length) (h : p.WithinBounds os κ q r)
    (hvar : ∀ l, kfFilter p os = .ok l → ∀ x ∈ l, ∀ i, x.2 i i ≤ κ) :
    p.fn.Within (obsFn os) os.length κ q r where
  A t ht := h.A t _ ht (lastDims_eq_ok (hc.A.mono (by omega)))
  b t ht := h.b t _ ht (lastDims_eq_ok (hc.b.mono (by omega)))
  Q t ht := h.Q t _ ht (lastDims_eq_ok (hc.Q.mono (by omega)))
  Qlow t ht := h.noiseQ t _ ht (lastDims_eq_ok (hc.Q.mono (by omega)))
  C t ht := h.C t _ ht (lastDims_eq_ok (hc.C.mono ht))
  d t ht := h.d t _ ht (lastDims_eq_ok (hc.d.mono ht))
  R t ht := h.R t _ ht (lastDims_eq_ok (hc.R.mono ht))
  Rlow t ht := h.noiseR t _ ht (lastDims_eq_ok (hc.R.mono ht))
  mu0 := h.mu0
  S0 := h.S0
  obs t ht ho := by
    rw [obsFn_eq ht] at ho ⊢
    exact h.obs _ (List.getElem_mem ht) ho
  var t ht a := hvar _ (kfFilter_eq hc) _ (List.mem_map.mpr ⟨t, List.mem_range.mpr ht, rfl⟩) a

/-- **C81.** `filter`.  For bounds `κ` (on parameters, data and reported variances), `q`, `r` there
are a constant `K` and a precision `u₀` such that for *every* model and *every* data, of any length,
within these bounds the computed means and covariances differ from the exact ones by at most
`K u`. -/
theorem C81_filter (c : ℕ → ℝ) (n m : ℕ) (κ : ℝ) {q r : ℝ} (hq : 0 < q) (hr : 0 < r) :
    ∃ K u₀ : ℝ, 0 < u₀ ∧ ∀ (p : Params n m) (os : List (Obs m)), p.DefinedFor os.length →
      p.PSD os.length → p.WithinBounds os κ q r →
      (∀ l, kfFilter p os = .ok l → ∀ x ∈ l, ∀ i, x.2 i i ≤ κ) →
      ∀ u, 0 ≤ u → u ≤ u₀ → ∀ ar : Arith c u,
        ∃ l l', flFilter ar p os = .ok l ∧ kfFilter p os = .ok l' ∧ WithinErr (K * u) l l' := by
  obtain ⟨B, ρ, hB, hρ0, hρ1, htame⟩ := exists_tame n m κ hq hr
  obtain ⟨K, u₀, -, hu₀, hrun⟩ := exists_run_const c n m B hB hρ0 hρ1 hq hr
  refine ⟨K, u₀, hu₀, fun p os hdef hpsd hb hvar u hu0 hu ar => ?_⟩
  have hc := definedFor_iff_covers.mp hdef
  have hP := hpsd.fn hc
  have h := hrun p.fn (obsFn os) os.length hP (htame _ _ _ hP (hb.fn hc hvar)) u hu0 hu ar
  refine ⟨_, _, flFilter_eq hc, kfFilter_eq hc, ?_⟩
  rw [WithinErr, List.forall₂_map_left_iff, List.forall₂_map_right_iff, List.forall₂_same]
  intro t ht
  obtain ⟨-, -, h1, h2⟩ := h t (List.mem_range.mp ht)
  exact ⟨h1, h2⟩

/-- **C81.** `smooth`. -/
theorem C81_smooth (c : ℕ → ℝ) (n m : ℕ) (κ : ℝ) {q r : ℝ} (hq : 0 < q) (hr : 0 < r) :
    ∃ K u₀ : ℝ, 0 < u₀ ∧ ∀ (p : Params n m) (os : List (Obs m)), os ≠ [] →
      p.DefinedFor os.length → p.PSD os.length → p.WithinBounds os κ q r →
      (∀ l, kfFilter p os = .ok l → ∀ x ∈ l, ∀ i, x.2 i i ≤ κ) →
      ∀ u, 0 ≤ u → u ≤ u₀ → ∀ ar : Arith c u,
        ∃ l l', flSmooth ar p os = .ok l ∧ kfSmooth p os = .ok l' ∧ WithinErr (K * u) l l' := by
  obtain ⟨B, ρ, hB, hρ0, hρ1, htame⟩ := exists_tame n m κ hq hr
  obtain ⟨K, u₀, -, hu₀, hrun⟩ := exists_smooth_run_const c n m B hB hρ0 hρ1 hq hr
  refine ⟨K, u₀, hu₀, fun p os hne hdef hpsd hb hvar u hu0 hu ar => ?_⟩
  have hc := definedFor_iff_covers.mp hdef
  have hP := hpsd.fn hc
  have hpos := List.length_pos_iff.mpr hne
  have hl : os.length - 1 + 1 = os.length := by omega
  have hT := htame _ _ _ hP (hb.fn hc hvar)
  rw [← hl] at hP hT
  have h := hrun p.fn (obsFn os) (os.length - 1) hP hT u hu0 hu ar
  refine ⟨_, _, flSmooth_eq hne hc, kfSmooth_eq hne hc, ?_⟩
  rw [WithinErr, List.forall₂_map_left_iff, List.forall₂_map_right_iff, List.forall₂_same]
  intro t ht
  exact h t (by have := List.mem_range.mp ht; omega)

/-- **C81.** `loglikelihood`.  The error of each term is at most `K u`; the sum of `T` terms adds the
error of `np.sum` (`c T` is its constant: about `T` for summation in order, about `log T` for
summation by pairs).  `K` and `u₀` do not depend on the model, the data or their length. -/
theorem C81_loglik (c : ℕ → ℝ) (n m : ℕ) (κ : ℝ) {q r : ℝ} (hq : 0 < q) (hr : 0 < r) :
    ∃ K u₀ : ℝ, 0 < u₀ ∧ ∀ (p : Params n m) (os : List (Obs m)) (R : Mat m m), p.R = .const R →
      p.DefinedFor os.length → p.PSD os.length → p.WithinBounds os κ q r →
      (∀ l, kfFilter p os = .ok l → ∀ x ∈ l, ∀ i, x.2 i i ≤ κ) →
      ∀ u, 0 ≤ u → u ≤ u₀ → ∀ ar : ArithL c u,
        ∃ x L, flLoglik ar p os = .ok x ∧ kfLoglik p os = .ok L ∧
          |x - L| ≤ K * u * (os.length + |c os.length| * (os.length + 1)) := by
  obtain ⟨B, ρ, hB, hρ0, hρ1, htame⟩ := exists_tame n m κ hq hr
  obtain ⟨K, u₀, -, hu₀, hrun⟩ := exists_run_const c n m B hB hρ0 hρ1 hq hr
  obtain ⟨D, δ, -, hδ, hll⟩ := exists_loglik_const c n m B K hr
  refine ⟨D, min u₀ (min δ 1), lt_min hu₀ (lt_min hδ one_pos),
    fun p os R hR hdef hpsd hb hvar u hu0 hu ar => ?_⟩
  have hc := definedFor_iff_covers.mp hdef
  have hP := hpsd.fn hc
  have hT := htame _ _ _ hP (hb.fn hc hvar)
  have h := hrun p.fn (obsFn os) os.length hP hT u hu0 (hu.trans (min_le_left _ _)) ar.toArith
  have hu' := hu.trans (min_le_right _ _)
  exact hll p os ρ q R hc hR hP hT u hu0 (hu'.trans (min_le_left _ _)) (hu'.trans (min_le_right _ _)) ar
    fun t ht => ⟨(h t ht).1, (h t ht).2.1⟩

/-- If every reading determines the state (up to noise), the reported variances are bounded. -/
theorem var_le_of_measured {p : Params n m} {os : List (Obs m)} {κ : ℝ} (hκ : 0 ≤ κ)
    (hpsd : p.PSD os.length)
    (hR : ∀ t R, t < os.length → lastDims p.R t = .ok R → ∀ i j, |R i j| ≤ κ)
    (hobs : ∀ o ∈ os, ¬ o.missing) {G : ℕ → Mat n m} (hG : ∀ t i j, |G t i j| ≤ κ)
    (hGC : ∀ t C, t < os.length → lastDims p.C t = .ok C → G t * C = 1) :
    ∀ l, kfFilter p os = .ok l → ∀ x ∈ l, ∀ i, x.2 i i ≤ m * (κ * (m * (κ * κ))) := by
  intro l hl x hx i
  obtain ⟨t, ht⟩ := List.mem_iff_getElem?.mp hx
  obtain ⟨htl, hc, -⟩ := kfFilter_row hl ht
  have hC := lastDims_eq_ok (hc.C.mono htl)
  have hRt := lastDims_eq_ok (hc.R.mono htl)
  have h := (C67_never_worse_than_sensor p os hpsd (List.getElem?_eq_getElem htl)
    (hobs _ (List.getElem_mem htl)) hC hRt (a := Pi.single i 1) (w := G t i) (fun y => by
      rw [single_one_dotProduct]
      have : (G t *ᵥ (p.C.get t *ᵥ y)) i = y i := by
        rw [mulVec_mulVec, hGC t _ htl hC, one_mulVec]
      exact this.symm)).1 l x hl ht
  rw [single_one_dotProduct, mulVec_single_one, Matrix.col_apply] at h
  refine h.trans ((le_abs_self _).trans ?_)
  have h1 := abs_mulVec_entry (M := p.R.get t) (v := G t i) hκ (hR t _ htl hRt) (hG t i)
  have h2 := abs_mulVec_entry (M := Matrix.of fun (_ : Fin 1) j => G t i j)
    (v := p.R.get t *ᵥ G t i) hκ (fun _ j => hG t i j) h1 0
  exact h2

/-- **C81**, without a condition on what `filter` returns: if every row is observed and every reading
determines the state up to noise (`G t * C = 1`, with `G` bounded), then the errors of `filter` and
`smooth` are at most `K u` for runs of every length. -/
theorem C81_measured_state (c : ℕ → ℝ) (n m : ℕ) (κ : ℝ) {q r : ℝ} (hq : 0 < q) (hr : 0 < r) :
    ∃ K u₀ : ℝ, 0 < u₀ ∧ ∀ (p : Params n m) (os : List (Obs m)) (G : ℕ → Mat n m), os ≠ [] →
      p.DefinedFor os.length → p.PSD os.length → p.WithinBounds os κ q r →
      (∀ o ∈ os, ¬ o.missing) → (∀ t i j, |G t i j| ≤ κ) →
      (∀ t C, t < os.length → lastDims p.C t = .ok C → G t * C = 1) →
      ∀ u, 0 ≤ u → u ≤ u₀ → ∀ ar : Arith c u,
        (∃ l l', flFilter ar p os = .ok l ∧ kfFilter p os = .ok l' ∧ WithinErr (K * u) l l') ∧
        ∃ l l', flSmooth ar p os = .ok l ∧ kfSmooth p os = .ok l' ∧ WithinErr (K * u) l l' := by
  obtain ⟨κ', hκ'⟩ : ∃ x : ℝ, x = max (max κ 0) (m * (max κ 0 * (m * (max κ 0 * max κ 0)))) :=
    ⟨_, rfl⟩
  have k1 : κ ≤ κ' := by rw [hκ']; exact (le_max_left _ _).trans (le_max_left _ _)
  have k2 : m * (max κ 0 * (m * (max κ 0 * max κ 0))) ≤ κ' := by rw [hκ']; exact le_max_right _ _
  obtain ⟨K₁, u₁, hu₁, h₁⟩ := C81_filter c n m κ' hq hr
  obtain ⟨K₂, u₂, hu₂, h₂⟩ := C81_smooth c n m κ' hq hr
  refine ⟨max K₁ K₂, min u₁ u₂, lt_min hu₁ hu₂,
    fun p os G hne hdef hpsd hb hobs hG hGC u hu0 hu ar => ?_⟩
  have hb' : p.WithinBounds os κ' q r :=
    ⟨fun t A h1 h2 i j => (hb.A t A h1 h2 i j).trans k1, fun t b h1 h2 i => (hb.b t b h1 h2 i).trans k1,
      fun t Q h1 h2 i j => (hb.Q t Q h1 h2 i j).trans k1,
      fun t C h1 h2 i j => (hb.C t C h1 h2 i j).trans k1,
      fun t d h1 h2 i => (hb.d t d h1 h2 i).trans k1,
      fun t R h1 h2 i j => (hb.R t R h1 h2 i j).trans k1, fun i => (hb.mu0 i).trans k1,
      fun i j => (hb.S0 i j).trans k1, fun o ho hm i => (hb.obs o ho hm i).trans k1,
      hb.noiseQ, hb.noiseR⟩
  have hvar : ∀ l, kfFilter p os = .ok l → ∀ x ∈ l, ∀ i, x.2 i i ≤ κ' := fun l hl x hx i =>
    (var_le_of_measured (le_max_right κ 0) hpsd
      (fun t R h1 h2 i j => (hb.R t R h1 h2 i j).trans (le_max_left _ _)) hobs
      (fun t i j => (hG t i j).trans (le_max_left _ _)) hGC l hl x hx i).trans k2
  have mono : ∀ {e e' : ℝ} {l l' : List (Vec n × Mat n n)}, e ≤ e' → WithinErr e l l' →
      WithinErr e' l l' := fun he h =>
    List.Forall₂.imp (fun _ _ hxy => ⟨fun i => (hxy.1 i).trans he, fun i j => (hxy.2 i j).trans he⟩) h
  obtain ⟨l, l', q1, q2, q3⟩ := h₁ p os hdef hpsd hb' hvar u hu0 (hu.trans (min_le_left _ _)) ar
  obtain ⟨s, s', q4, q5, q6⟩ := h₂ p os hne hdef hpsd hb' hvar u hu0 (hu.trans (min_le_right _ _)) ar
  exact ⟨⟨l, l', q1, q2, mono (mul_le_mul_of_nonneg_right (le_max_left _ _) hu0) q3⟩,
    s, s', q4, q5, mono (mul_le_mul_of_nonneg_right (le_max_right _ _) hu0) q6⟩

/-- A random walk observed with noise. -/
noncomputable def exNoisyWalk : Params 1 1 :=
  ⟨.const 1, .const 0, .const 1, .const 1, .const 0, .const 1, 0, 1⟩

/-- The hypotheses hold for it with bounds that do not depend on the number of observations. -/
example (os : List (Obs 1)) (ho : ∀ o ∈ os, ¬ o.missing) (hv : ∀ o ∈ os, |o.val 0| ≤ 5) :
    exNoisyWalk.DefinedFor os.length ∧ exNoisyWalk.PSD os.length ∧ exNoisyWalk.WithinBounds os 5 1 1 ∧
      (∀ i j, |(1 : Mat 1 1) i j| ≤ 5) ∧
      (∀ t C, t < os.length → lastDims exNoisyWalk.C t = .ok C → (1 : Mat 1 1) * C = 1) ∧
      ∀ l, kfFilter exNoisyWalk os = .ok l → ∀ x ∈ l, ∀ i, x.2 i i ≤ 5 := by
  have one : ∀ i j, |(1 : Mat 1 1) i j| ≤ 5 := by
    intro i j
    fin_cases i; fin_cases j
    norm_num
  have hpsd : exNoisyWalk.PSD os.length := ⟨fun t _ Q h => by cases h; exact PosSemidef.one,
    fun t _ R h => by cases h; exact PosSemidef.one, PosSemidef.one⟩
  refine ⟨definedFor_iff_covers.mpr ⟨trivial, trivial, trivial, trivial, trivial, trivial⟩, hpsd,
    ⟨?_, ?_, ?_, ?_, ?_, ?_, ?_, ?_, ?_, ?_, ?_⟩, one, ?_, ?_⟩
  · intro t A _ h; cases h; exact one
  · intro t A _ h; cases h; simp
  · intro t A _ h; cases h; exact one
  · intro t A _ h; cases h; exact one
  · intro t A _ h; cases h; simp
  · intro t A _ h; cases h; exact one
  · intro i; simp [exNoisyWalk]
  · exact one
  · intro o h _ i; fin_cases i; exact hv o h
  · intro t A _ h v; cases h; simp
  · intro t A _ h v; cases h; simp
  · intro t C _ h; cases h; simp
  · intro l hl x hx i
    refine (var_le_of_measured (G := fun _ => 1) zero_le_one hpsd (fun t R _ h i j => ?_) ho
      (fun _ i j => ?_) (fun t C _ h => ?_) l hl x hx i).trans (by norm_num)
    · cases h; fin_cases i; fin_cases j; simp
    · fin_cases i; fin_cases j; simp
    · cases h; simp

/-- The covariance of its observation noise is a constant, and there are inexact arithmetics for its
`loglikelihood`. -/
example : (∃ R, exNoisyWalk.R = .const R) ∧ ∃ c : ℕ → ℝ, ∀ u, 0 ≤ u → Nonempty (ArithL c u) := by
  obtain ⟨svd⟩ := exists_svdRoutine
  exact ⟨⟨_, rfl⟩, _, fun u hu => ⟨scaledArithL svd hu (abs_one_sub_sub_one hu)⟩⟩

/-! ### The condition on the transition noise -/

/-- A constant that is known exactly, observed with noise: no transition noise. -/
noncomputable def exStill : Params 1 1 :=
  ⟨.const 1, .const 0, .const 0, .const 1, .const 0, .const 1, fun _ => 1, 0⟩

theorem exStill_covers (T : ℕ) : exStill.Covers T :=
  ⟨trivial, trivial, trivial, trivial, trivial, trivial⟩

theorem sc_mul (svd : SvdRoutine) {u s : ℝ} (hu : 0 ≤ u) (hs : |s - 1| ≤ u) {a b k : ℕ}
    (X : Mat a k) (Y : Mat k b) : (scaledArith svd hu hs).mul X Y = s • (X * Y) := rfl

theorem sc_mulV (svd : SvdRoutine) {u s : ℝ} (hu : 0 ≤ u) (hs : |s - 1| ≤ u) {a k : ℕ}
    (X : Mat a k) (y : Vec k) : (scaledArith svd hu hs).mulV X y = s • (X *ᵥ y) := rfl

theorem sc_vadd (svd : SvdRoutine) {u s : ℝ} (hu : 0 ≤ u) (hs : |s - 1| ≤ u) {k : ℕ}
    (x y : Vec k) : (scaledArith svd hu hs).vadd x y = x + y := rfl

theorem sc_madd (svd : SvdRoutine) {u s : ℝ} (hu : 0 ≤ u) (hs : |s - 1| ≤ u) {a b : ℕ}
    (X Y : Mat a b) : (scaledArith svd hu hs).madd X Y = X + Y := rfl

theorem sc_msub (svd : SvdRoutine) {u s : ℝ} (hu : 0 ≤ u) (hs : |s - 1| ≤ u) {a b : ℕ}
    (X Y : Mat a b) : (scaledArith svd hu hs).msub X Y = X - Y := rfl

/-- The computed filter loses a factor `s` in every step. -/
theorem exStill_kfFl (svd : SvdRoutine) {u s : ℝ} (hu : 0 ≤ u) (hs : |s - 1| ≤ u)
    (z : ℕ → Obs 1) (t : ℕ) :
    (exStill.fn.kfFl (scaledArith svd hu hs) z t).filtMean = (fun _ => s ^ t) ∧
    (exStill.fn.kfFl (scaledArith svd hu hs) z t).filtCov = 0 := by
  have key : ∀ t, (exStill.fn.kfFl (scaledArith svd hu hs) z t).predMean = (fun _ => s ^ t) →
      (exStill.fn.kfFl (scaledArith svd hu hs) z t).predCov = 0 →
      (exStill.fn.kfFl (scaledArith svd hu hs) z t).filtMean = (fun _ => s ^ t) ∧
      (exStill.fn.kfFl (scaledArith svd hu hs) z t).filtCov = 0 := by
    intro t h1 h2
    obtain ⟨f1, f2⟩ := PFun.kfFl_correct (scaledArith svd hu hs) exStill.fn z t
    rw [f1, f2, h1, h2]
    by_cases hm : (z t).missing
    · simp [flCorrect, hm]
    · simp [flCorrect, hm, sc_mul, sc_mulV, sc_vadd, sc_msub]
  induction t with
  | zero => exact key 0 (by simp only [pow_zero]; rfl) rfl
  | succ t ih =>
    have h := PFun.kfFl_pred_succ (scaledArith svd hu hs) exStill.fn z t
    rw [ih.1, ih.2] at h
    have e : exStill.fn.A t = 1 ∧ exStill.fn.Q t = 0 ∧ exStill.fn.b t = 0 := ⟨rfl, rfl, rfl⟩
    simp only [flPredict, e.1, e.2.1, e.2.2, sc_mul, sc_mulV, sc_vadd, sc_madd,
      Prod.mk.injEq] at h
    refine key (t + 1) (h.1.trans ?_) (h.2.trans ?_)
    · ext i; simp [pow_succ, mul_comm]
    · simp

theorem exStill_kf (z : ℕ → Obs 1) (t : ℕ) :
    (exStill.fn.kf z t).filtMean = (fun _ => 1) ∧ (exStill.fn.kf z t).filtCov = 0 := by
  have key : ∀ t, (exStill.fn.kf z t).predMean = (fun _ => 1) →
      (exStill.fn.kf z t).predCov = 0 →
      (exStill.fn.kf z t).filtMean = (fun _ => 1) ∧ (exStill.fn.kf z t).filtCov = 0 := by
    intro t h1 h2
    by_cases hm : (z t).missing
    · rw [(exStill.fn.kf_missing z hm).2.1, (exStill.fn.kf_missing z hm).2.2]
      exact ⟨h1, h2⟩
    · rw [(exStill.fn.kf_observed z hm).2.1, (exStill.fn.kf_observed z hm).2.2, h1, h2]
      simp [gain]
  induction t with
  | zero => exact key 0 rfl rfl
  | succ t ih =>
    obtain ⟨h1, h2⟩ := exStill.fn.kf_pred_succ z t
    rw [ih.1] at h1
    rw [ih.2] at h2
    have e : exStill.fn.A t = 1 ∧ exStill.fn.Q t = 0 ∧ exStill.fn.b t = 0 := ⟨rfl, rfl, rfl⟩
    refine key (t + 1) ?_ ?_
    · rw [h1, e.1, e.2.2]; simp
    · rw [h2, e.1, e.2.1]; simp

/-- **C81, why the transition noise matters.** Without it errors do accumulate, for bounded
parameters, data and variances: for a constant that is known exactly there is no `K` that serves for
runs of all lengths. -/
theorem C81_needs_transition_noise : ∃ c : ℕ → ℝ, ¬ ∃ K u₀ : ℝ, 0 < u₀ ∧ ∀ os : List (Obs 1),
    (∀ o ∈ os, ¬ o.missing ∧ ∀ i, |o.val i| ≤ 1) → ∀ u, 0 ≤ u → u ≤ u₀ → ∀ ar : Arith c u,
      ∃ l l', flFilter ar exStill os = .ok l ∧ kfFilter exStill os = .ok l' ∧
        WithinErr (K * u) l l' := by
  obtain ⟨svd⟩ := exists_svdRoutine
  refine ⟨fun k => (k : ℝ) + 1, ?_⟩
  rintro ⟨K, u₀, hu₀, h⟩
  obtain ⟨u, hu⟩ : ∃ u : ℝ, u = min u₀ (min (1 / 2) (1 / (4 * (|K| + 1)))) := ⟨_, rfl⟩
  have K1 : 0 < |K| + 1 := by positivity
  have hu0 : 0 < u := by rw [hu]; exact lt_min hu₀ (lt_min (by norm_num) (by positivity))
  have hu1 : u ≤ 1 / 2 := by rw [hu]; exact (min_le_right _ _).trans (min_le_left _ _)
  have hu2 : K * u ≤ 1 / 4 := by
    have : u ≤ 1 / (4 * (|K| + 1)) := by
      rw [hu]; exact (min_le_right _ _).trans (min_le_right _ _)
    rw [le_div_iff₀ (by positivity)] at this
    nlinarith [le_abs_self K]
  obtain ⟨T, hT⟩ := exists_pow_lt_of_lt_one (show (0 : ℝ) < 1 / 2 by norm_num)
    (show 1 - u < 1 by linarith)
  obtain ⟨os, hos⟩ : ∃ os : List (Obs 1), os = List.replicate (T + 1) ⟨0, fun _ => false⟩ :=
    ⟨_, rfl⟩
  have hlen : os.length = T + 1 := by rw [hos, List.length_replicate]
  obtain ⟨l, l', h1, h2, h3⟩ := h os (fun o ho => by
      rw [hos] at ho
      rw [List.eq_of_mem_replicate ho]
      exact ⟨by simp [Obs.missing], by simp⟩) u hu0.le (by rw [hu]; exact min_le_left _ _)
    (scaledArith svd hu0.le (abs_one_sub_sub_one hu0.le))
  rw [flFilter_eq (exStill_covers _), Except.ok.injEq] at h1
  rw [kfFilter_eq (exStill_covers _), Except.ok.injEq] at h2
  rw [← h1, ← h2, WithinErr, List.forall₂_map_left_iff, List.forall₂_map_right_iff,
    List.forall₂_same] at h3
  have h4 := (h3 T (by rw [hlen]; simp)).1 0
  simp only [(exStill_kfFl _ _ _ _ _).1, (exStill_kf _ _).1] at h4
  rw [abs_le] at h4
  linarith [h4.1]

/-- The model is a legitimate one, with bounded variances; only `q` is missing. -/
example (os : List (Obs 1)) (hv : ∀ o ∈ os, |o.val 0| ≤ 1) :
    exStill.DefinedFor os.length ∧ exStill.PSD os.length ∧ exStill.WithinBounds os 1 0 1 ∧
      ∀ l, kfFilter exStill os = .ok l → ∀ x ∈ l, ∀ i, x.2 i i ≤ 1 := by
  have one : ∀ i j, |(1 : Mat 1 1) i j| ≤ 1 := by
    intro i j
    fin_cases i; fin_cases j
    norm_num
  refine ⟨definedFor_iff_covers.mpr (exStill_covers _),
    ⟨fun t _ Q h => by cases h; exact PosSemidef.zero,
      fun t _ R h => by cases h; exact PosSemidef.one, PosSemidef.zero⟩,
    ⟨?_, ?_, ?_, ?_, ?_, ?_, ?_, ?_, ?_, ?_, ?_⟩, ?_⟩
  · intro t A _ h; cases h; exact one
  · intro t A _ h; cases h; simp
  · intro t A _ h; cases h; simp
  · intro t A _ h; cases h; exact one
  · intro t A _ h; cases h; simp
  · intro t A _ h; cases h; exact one
  · intro i; simp [exStill]
  · intro i j; simp [exStill]
  · intro o h _ i; fin_cases i; exact hv o h
  · intro t A _ h v; cases h; simp
  · intro t A _ h v; cases h; simp
  · intro l hl x hx i
    rw [kfFilter_eq (exStill_covers _), Except.ok.injEq] at hl
    rw [← hl, List.mem_map] at hx
    obtain ⟨t, -, rfl⟩ := hx
    simp [(exStill_kf _ t).2]

end Verif
