import Verif.Proofs.RoundedUniform

/-!
# The smoother with rounding errors, for runs of any length
-/

open Matrix Topology
open scoped MatrixOrder

namespace Verif

variable {n m : ℕ} {c : ℕ → ℝ}

/-! ### One step, uniformly -/

/-- Data of a step of the smoother: exact moments, and the computed ones (with a prime). -/
structure SmIdx (c : ℕ → ℝ) (n : ℕ) where
  u : ℝ
  ar : Arith c u
  A : Mat n n
  fm : Vec n
  fc : Mat n n
  pm : Vec n
  pc : Mat n n
  fm' : Vec n
  fc' : Mat n n
  pm' : Vec n
  pc' : Mat n n
  nm : Vec n
  nc : Mat n n

/-- The data are bounded by `B`, the errors of the filter by `K u`. -/
structure SmIdx.Ok (B K q : ℝ) (i : SmIdx c n) : Prop where
  u0 : 0 ≤ i.u
  A : ∀ a b, |i.A a b| ≤ B
  fm : ∀ a, |i.fm a| ≤ B
  fc : ∀ a b, |i.fc a b| ≤ B
  pm : ∀ a, |i.pm a| ≤ B
  pc : ∀ a b, |i.pc a b| ≤ B
  nm : ∀ a, |i.nm a| ≤ B
  nc : ∀ a b, |i.nc a b| ≤ B
  efm : ∀ a, |i.fm' a - i.fm a| ≤ K * i.u
  efc : ∀ a b, |i.fc' a b - i.fc a b| ≤ K * i.u
  epm : ∀ a, |i.pm' a - i.pm a| ≤ K * i.u
  epc : ∀ a b, |i.pc' a b - i.pc a b| ≤ K * i.u
  low : AtLeast q i.pc

theorem exists_smooth_const (c : ℕ → ℝ) (n : ℕ) (B K : ℝ) {q : ℝ} (hq : 0 < q) :
    ∃ D δ : ℝ, 0 < D ∧ 0 < δ ∧ ∀ i : SmIdx c n, i.Ok B K q → i.u ≤ δ →
      (∀ a b, |(flSmoothUpdate i.ar i.A i.fm' i.fc' i.pm' i.pc' i.nm i.nc).cov a b
        - (smoothUpdate i.A i.fm i.fc i.pm i.pc i.nm i.nc).cov a b| ≤ D * i.u) ∧
      ∀ a, |(flSmoothUpdate i.ar i.A i.fm' i.fc' i.pm' i.pc' i.nm i.nc).mean a
        - (smoothUpdate i.A i.fm i.fc i.pm i.pc i.nm i.nc).mean a| ≤ D * i.u := by
  set S : Set (SmIdx c n) := {i | i.Ok B K q} with hS
  set F := smallIn S SmIdx.u with hF
  have hmem : ∀ᶠ i in F, i.Ok B K q := smallIn_mem S _
  have hw : Filter.Tendsto (fun i : SmIdx c n => i.u) F (𝓝 0) := smallIn_tendsto S _
  have nearV : ∀ {f g : SmIdx c n → Vec n}, (∀ i ∈ S, ∀ a, |g i a| ≤ B) →
      (∀ i ∈ S, ∀ a, |f i a - g i a| ≤ K * i.u) → NearV F SmIdx.u f g := fun {f g} hg h =>
    ⟨fun a => Asymptotics.IsBigO.of_bound K (hmem.mono fun i hi => by
      rw [Real.norm_eq_abs, Real.norm_eq_abs, abs_of_nonneg hi.u0, Pi.zero_apply, sub_zero]
      exact h i hi a), bddV_smallIn hg⟩
  have nearM : ∀ {f g : SmIdx c n → Mat n n}, (∀ i ∈ S, ∀ a b, |g i a b| ≤ B) →
      (∀ i ∈ S, ∀ a b, |f i a b - g i a b| ≤ K * i.u) → NearM F SmIdx.u f g := fun {f g} hg h =>
    ⟨fun a b => Asymptotics.IsBigO.of_bound K (hmem.mono fun i hi => by
      rw [Real.norm_eq_abs, Real.norm_eq_abs, abs_of_nonneg hi.u0, Matrix.zero_apply, sub_zero]
      exact h i hi a b), bddM_smallIn hg⟩
  have nA : NearM F SmIdx.u (fun i => i.A) (fun i => i.A) := .refl (bddM_smallIn fun i hi => hi.A)
  have nfm : NearV F SmIdx.u (fun i => i.fm') (fun i => i.fm) :=
    nearV (fun i hi => hi.fm) (fun i hi => hi.efm)
  have nfc : NearM F SmIdx.u (fun i => i.fc') (fun i => i.fc) :=
    nearM (fun i hi => hi.fc) (fun i hi => hi.efc)
  have npm : NearV F SmIdx.u (fun i => i.pm') (fun i => i.pm) :=
    nearV (fun i hi => hi.pm) (fun i hi => hi.epm)
  have npc : NearM F SmIdx.u (fun i => i.pc') (fun i => i.pc) :=
    nearM (fun i hi => hi.pc) (fun i hi => hi.epc)
  have nnm : NearV F SmIdx.u (fun i => i.nm) (fun i => i.nm) :=
    .refl (bddV_smallIn fun i hi => hi.nm)
  have nnc : NearM F SmIdx.u (fun i => i.nc) (fun i => i.nc) :=
    .refl (bddM_smallIn fun i hi => hi.nc)
  have nJ := nfc.fl_mul (br := fun i => i.ar) hw (nA.transpose.fl_mul (br := fun i => i.ar) hw
    (npc.fl_pinv (br := fun i => i.ar) hw ((smallIn_mem S _).mono fun i hi => hi.low.det hq)
      (bddM_smallIn fun i hi a b => hi.low.pinv_le hq a b)))
  have h1 := (nfc.fl_add (br := fun i => i.ar) hw (nJ.fl_mul (br := fun i => i.ar) hw
    ((nnc.fl_sub (br := fun i => i.ar) hw npc).fl_mul (br := fun i => i.ar) hw nJ.transpose))).diff
  have h2 := (nfm.fl_add (br := fun i => i.ar) hw (nJ.fl_mulV (br := fun i => i.ar) hw
    (nnm.fl_sub (br := fun i => i.ar) hw npm))).diff
  obtain ⟨K1, δ1, hK1, hδ1, b1⟩ := smallIn_boundM h1
  obtain ⟨K2, δ2, hK2, hδ2, b2⟩ := smallIn_boundV h2
  refine ⟨max K1 K2, min δ1 δ2, lt_max_of_lt_left hK1, lt_min hδ1 hδ2, fun i hi hs => ?_⟩
  refine ⟨fun a b => ?_, fun a => ?_⟩
  · have := b1 i hi (by rw [abs_of_nonneg hi.u0]; exact hs.trans (min_le_left _ _)) a b
    rw [abs_of_nonneg hi.u0] at this
    exact this.trans (mul_le_mul_of_nonneg_right (le_max_left _ _) hi.u0)
  · have := b2 i hi (by rw [abs_of_nonneg hi.u0]; exact hs.trans (min_le_right _ _)) a
    rw [abs_of_nonneg hi.u0] at this
    exact this.trans (mul_le_mul_of_nonneg_right (le_max_right _ _) hi.u0)

/-! ### Exact runs -/

/-- The gain of the smoother. -/
noncomputable def PFun.smGain (P : PFun n m) (z : ℕ → Obs m) (t : ℕ) : Mat n n :=
  (P.kf z t).filtCov * ((P.A t)ᵀ * pinv (P.kf z (t + 1)).predCov)

theorem PFun.PSD.filt_le_pred {P : PFun n m} {T t : ℕ} (h : P.PSD T) (ht : t < T)
    (z : ℕ → Obs m) : (P.kf z t).filtCov ≤ (P.kf z t).predCov := by
  by_cases hm : (z t).missing
  · rw [(P.kf_missing z hm).2.2]
  · rw [(P.kf_observed z hm).2.2, Matrix.le_iff]
    exact updated_le _ (h.pred ht z) (h.R t ht)

theorem PFun.Tame.smGain_le {P : PFun n m} {z : ℕ → Obs m} {T : ℕ} {B ρ q r : ℝ} (hq : 0 < q)
    (hP : P.PSD T) (hT : P.Tame z T B ρ q r) {t : ℕ} (ht : t + 1 < T) :
    P.smGain z t * (P.kf z (t + 1)).predCov * (P.smGain z t)ᵀ ≤ ρ ^ 2 • (P.kf z t).filtCov :=
  smoother_gain_le (hP.filt_nonneg z (by omega)).2 ((hT.low t ht).det hq)
    (symm_of_posSemidef (hP.pred ht z)) (hT.rate t ht)

theorem PFun.ks_lt_mean (P : PFun n m) (z : ℕ → Obs m) {T t : ℕ} (h : t < T) :
    (P.ks z T t).mean = (P.kf z t).filtMean
      + P.smGain z t *ᵥ ((P.ks z T (t + 1)).mean - (P.kf z (t + 1)).predMean) := by
  rw [P.ks_lt z h]; rfl

/-- Means and covariances of the smoother are bounded. -/
theorem exists_smooth_tame (n m : ℕ) (B : ℝ) {ρ q r : ℝ} (hB : 1 ≤ B) (hρ0 : 0 ≤ ρ)
    (hρ1 : ρ < 1) (hq : 0 < q) :
    ∃ X : ℝ, B ≤ X ∧ ∀ (P : PFun n m) (z : ℕ → Obs m) (T : ℕ), P.PSD (T + 1) →
      P.Tame z (T + 1) B ρ q r → ∀ t, t ≤ T →
        (∀ a, |(P.ks z T t).mean a| ≤ X) ∧ ∀ a b, |(P.ks z T t).cov a b| ≤ X := by
  have B0 : 0 ≤ B := zero_le_one.trans hB
  have hsq := Real.sqrt_pos.mpr hq
  have h1ρ : 0 < 1 - ρ := by linarith
  obtain ⟨j, hj⟩ : ∃ x : ℝ, x = n * (B * (n * (B * q⁻¹))) := ⟨_, rfl⟩
  have j0 : 0 ≤ j := by rw [hj]; positivity
  obtain ⟨M, hM⟩ : ∃ x : ℝ, x = B + n * (j * B) := ⟨_, rfl⟩
  have M0 : 0 ≤ M := by rw [hM]; positivity
  obtain ⟨L, hL⟩ : ∃ x : ℝ, x = n * B / √q + n * M / √q / (1 - ρ) := ⟨_, rfl⟩
  have L0 : 0 ≤ L := by rw [hL]; positivity
  have hLs : ρ * L + n * M / √q ≤ L := by
    have : n * M / √q ≤ (1 - ρ) * L := by
      rw [hL, mul_add, mul_div_cancel₀ _ h1ρ.ne']
      exact le_add_of_nonneg_left (by positivity)
    linarith
  have hLB : n * B / √q ≤ L := by rw [hL]; exact le_add_of_nonneg_right (by positivity)
  refine ⟨B + (L * √B + M), le_add_of_nonneg_right (by positivity), fun P z T hP hT => ?_⟩
  have hpc : ∀ t, t ≤ T → ∀ a, (P.kf z t).predCov a a ≤ B := fun t ht a =>
    (le_abs_self _).trans (hT.predCov t (by omega) a a)
  have hfc : ∀ t, t ≤ T → ∀ a, (P.kf z t).filtCov a a ≤ B := fun t ht a =>
    (le_abs_self _).trans (hT.filtCov t (by omega) a a)
  have hJ : ∀ t, t < T → ∀ a b, |P.smGain z t a b| ≤ j := by
    intro t ht a b
    rw [hj]
    exact abs_mul_entry B0 (hT.filtCov t (by omega)) (abs_mul_entry B0
      (fun i j => hT.A t (by omega) j i) ((hT.low t (by omega)).pinv_le hq)) a b
  have hrest : ∀ t, t < T →
      ∀ a, |((P.kf z t).filtMean - P.smGain z t *ᵥ (P.kf z (t + 1)).predMean) a| ≤ M := by
    intro t ht a
    rw [hM]
    exact (abs_sub _ _).trans (add_le_add (hT.filtMean t (by omega) a)
      (abs_mulVec_entry j0 (hJ t ht) (hT.predMean (t + 1) (by omega)) a))
  -- one step
  have step : ∀ t, t < T → DomV L (P.ks z T (t + 1)).mean (P.kf z (t + 1)).predCov →
      DomV (ρ * L) (P.smGain z t *ᵥ (P.ks z T (t + 1)).mean) (P.kf z t).filtCov := fun t ht h =>
    (h.map (P.smGain z t)).mono L0 hρ0 (hT.smGain_le hq hP (by omega))
  have e : ∀ t, t < T → (P.ks z T t).mean = P.smGain z t *ᵥ (P.ks z T (t + 1)).mean
      + ((P.kf z t).filtMean - P.smGain z t *ᵥ (P.kf z (t + 1)).predMean) := fun t ht => by
    rw [P.ks_lt_mean z ht, mulVec_sub]; abel
  have dom : ∀ j t, T = t + 1 + j →
      DomV L (P.ks z T (t + 1)).mean (P.kf z (t + 1)).predCov := by
    intro j
    induction j with
    | zero =>
      rintro t hTt
      have hTt' : t + 1 = T := by omega
      have : (P.ks z T (t + 1)).mean = (P.kf z (t + 1)).filtMean := by rw [hTt', P.ks_last]
      rw [this]
      exact (domV_of_entries hq (hT.low t (by omega)) B0
        (hT.filtMean (t + 1) (by omega))).weaken hLB
    | succ j ih =>
      intro t hTt
      have h1 := step (t + 1) (by omega) (ih (t + 1) (by omega))
      have h2 := h1.mono (ρ := 1) (S' := (P.kf z (t + 1)).predCov) (mul_nonneg hρ0 L0) zero_le_one
        (by rw [one_pow, one_smul]; exact hP.filt_le_pred (t := t + 1) (by omega) z)
      rw [one_mul] at h2
      rw [e (t + 1) (by omega)]
      exact (h2.add (domV_of_entries hq (hT.low t (by omega)) M0
        (hrest (t + 1) (by omega)))).weaken hLs
  intro t ht
  constructor
  · intro a
    rcases Nat.lt_or_ge t T with h | h
    · have h1 := step t h (dom (T - (t + 1)) t (by omega))
      have h2 := h1.entry (mul_nonneg hρ0 L0) a (hfc t ht a)
      rw [e t h]
      refine (abs_add_le _ _).trans ((add_le_add h2 (hrest t h a)).trans ?_)
      have : ρ * L * √B ≤ 1 * L * √B := by gcongr
      linarith
    · obtain rfl : t = T := by omega
      rw [P.ks_last]
      exact (hT.filtMean t (by omega) a).trans (le_add_of_nonneg_right (by positivity))
  · refine fun a b => le_trans (abs_entry_le_of_diag (hP.smooth ht z) (β := B) (fun a => ?_) a b)
      (le_add_of_nonneg_right (by positivity))
    have := (posSemidef_iff_real.mp (hP.smooth_le_filt ht z)).2 (Pi.single a 1)
    rw [single_one_dotProduct, mulVec_single_one, Matrix.col_apply, Matrix.sub_apply] at this
    linarith [hfc t ht a]

/-! ### Errors -/

/-- The errors of the computed smoothed moments are at most a constant times `u`, where the constant
does not depend on the length of the run. -/
theorem exists_smooth_run_const (c : ℕ → ℝ) (n m : ℕ) (B : ℝ) {ρ q r : ℝ} (hB : 1 ≤ B)
    (hρ0 : 0 ≤ ρ) (hρ1 : ρ < 1) (hq : 0 < q) (hr : 0 < r) :
    ∃ K u₀ : ℝ, 0 < K ∧ 0 < u₀ ∧ ∀ (P : PFun n m) (z : ℕ → Obs m) (T : ℕ), P.PSD (T + 1) →
      P.Tame z (T + 1) B ρ q r → ∀ u, 0 ≤ u → u ≤ u₀ → ∀ ar : Arith c u, ∀ t, t ≤ T →
        (∀ a, |(P.ksFl ar z T t).mean a - (P.ks z T t).mean a| ≤ K * u) ∧
        ∀ a b, |(P.ksFl ar z T t).cov a b - (P.ks z T t).cov a b| ≤ K * u := by
  have B0 : 0 ≤ B := zero_le_one.trans hB
  have hsq := Real.sqrt_pos.mpr hq
  have h1ρ : 0 < 1 - ρ := by linarith
  have h1ρ2 : 0 < 1 - ρ ^ 2 := by nlinarith
  obtain ⟨K, u₁, K0, hu₁, hrun⟩ := exists_run_const c n m B hB hρ0 hρ1 hq hr
  obtain ⟨X, hBX, htame⟩ := exists_smooth_tame n m B hB hρ0 hρ1 hq (r := r)
  obtain ⟨D, δ, hD, hδ, hsm⟩ := exists_smooth_const c n (X + 1) K hq
  have X0 : 0 ≤ X := B0.trans hBX
  obtain ⟨L, hL⟩ : ∃ x : ℝ, x = n * n * K / q + n * n * D / q / (1 - ρ ^ 2) := ⟨_, rfl⟩
  have L0 : 0 ≤ L := by rw [hL]; positivity
  have hLs : ρ ^ 2 * L + n * n * D / q ≤ L := by
    have : n * n * D / q ≤ (1 - ρ ^ 2) * L := by
      rw [hL, mul_add, mul_div_cancel₀ _ h1ρ2.ne']
      exact le_add_of_nonneg_left (by positivity)
    linarith
  have hLK : n * n * K / q ≤ L := by rw [hL]; exact le_add_of_nonneg_right (by positivity)
  obtain ⟨L', hL'⟩ : ∃ x : ℝ, x = n * K / √q + n * D / √q / (1 - ρ) := ⟨_, rfl⟩
  have L'0 : 0 ≤ L' := by rw [hL']; positivity
  have hLs' : ρ * L' + n * D / √q ≤ L' := by
    have : n * D / √q ≤ (1 - ρ) * L' := by
      rw [hL', mul_add, mul_div_cancel₀ _ h1ρ.ne']
      exact le_add_of_nonneg_left (by positivity)
    linarith
  have hLK' : n * K / √q ≤ L' := by rw [hL']; exact le_add_of_nonneg_right (by positivity)
  obtain ⟨K', hK'⟩ : ∃ x : ℝ, x = K + (L * B + D) + (L' * √B + D) := ⟨_, rfl⟩
  have K'0 : 0 < K' := by rw [hK']; positivity
  refine ⟨K', min u₁ (min δ (1 / K')), K'0, lt_min hu₁ (lt_min hδ (by positivity)),
    fun P z T hP hT u hu hu₀ ar => ?_⟩
  have u1 : u ≤ u₁ := hu₀.trans (min_le_left _ _)
  have u2 : u ≤ δ := hu₀.trans ((min_le_right _ _).trans (min_le_left _ _))
  have u3 : K' * u ≤ 1 := by
    have : u ≤ 1 / K' := hu₀.trans ((min_le_right _ _).trans (min_le_right _ _))
    rw [le_div_iff₀ K'0] at this
    linarith
  have hf := hrun P z (T + 1) hP hT u hu u1 ar
  have hs := htame P z T hP hT
  have hpc : ∀ t, t ≤ T → ∀ a, (P.kf z t).predCov a a ≤ B := fun t ht a =>
    (le_abs_self _).trans (hT.predCov t (by omega) a a)
  have hfc : ∀ t, t ≤ T → ∀ a, (P.kf z t).filtCov a a ≤ B := fun t ht a =>
    (le_abs_self _).trans (hT.filtCov t (by omega) a a)
  have Lu : 0 ≤ L * u := mul_nonneg L0 hu
  have L'u : 0 ≤ L' * u := mul_nonneg L'0 hu
  have Du : 0 ≤ D * u := mul_nonneg hD.le hu
  have Ku : 0 ≤ K * u := mul_nonneg K0.le hu
  have kk : K' * u = K * u + (L * u * B + D * u) + (L' * u * √B + D * u) := by rw [hK']; ring
  have kB : 0 ≤ L * u * B := mul_nonneg Lu B0
  have kB' : 0 ≤ L' * u * √B := mul_nonneg L'u (Real.sqrt_nonneg _)
  -- one step backwards
  have step : ∀ t, t < T →
      (∀ a, |(P.ksFl ar z T (t + 1)).mean a - (P.ks z T (t + 1)).mean a| ≤ K' * u) →
      (∀ a b, |(P.ksFl ar z T (t + 1)).cov a b - (P.ks z T (t + 1)).cov a b| ≤ K' * u) →
      ∃ (g : Mat n n) (γ : Vec n), (∀ a b, |g a b| ≤ D * u) ∧ (∀ a, |γ a| ≤ D * u) ∧
        (P.ksFl ar z T t).cov - (P.ks z T t).cov = P.smGain z t
          * ((P.ksFl ar z T (t + 1)).cov - (P.ks z T (t + 1)).cov) * (P.smGain z t)ᵀ + g ∧
        (P.ksFl ar z T t).mean - (P.ks z T t).mean = P.smGain z t
          *ᵥ ((P.ksFl ar z T (t + 1)).mean - (P.ks z T (t + 1)).mean) + γ := by
    intro t ht h1 h2
    obtain ⟨-, -, f3, f4⟩ := hf t (by omega)
    obtain ⟨f5, f6, -, -⟩ := hf (t + 1) (by omega)
    obtain ⟨s1, s2⟩ := hs (t + 1) (by omega)
    have up : ∀ {x : ℝ}, x ≤ B → x ≤ X + 1 := fun {x} h => by linarith
    obtain ⟨p1, p2⟩ := hsm ⟨u, ar, P.A t, (P.kf z t).filtMean, (P.kf z t).filtCov,
      (P.kf z (t + 1)).predMean, (P.kf z (t + 1)).predCov, (P.kfFl ar z t).filtMean,
      (P.kfFl ar z t).filtCov, (P.kfFl ar z (t + 1)).predMean, (P.kfFl ar z (t + 1)).predCov,
      (P.ksFl ar z T (t + 1)).mean, (P.ksFl ar z T (t + 1)).cov⟩
      ⟨hu, fun a b => up (hT.A t (by omega) a b), fun a => up (hT.filtMean t (by omega) a),
        fun a b => up (hT.filtCov t (by omega) a b),
        fun a => up (hT.predMean (t + 1) (by omega) a),
        fun a b => up (hT.predCov (t + 1) (by omega) a b), fun a => by
          have q1 := h1 a
          have q2 := s1 a
          rw [abs_le] at q1 q2 ⊢
          constructor <;> linarith [q1.1, q1.2, q2.1, q2.2], fun a b => by
          have q1 := h2 a b
          have q2 := s2 a b
          rw [abs_le] at q1 q2 ⊢
          constructor <;> linarith [q1.1, q1.2, q2.1, q2.2],
        f3, f4, f5, f6, hT.low t (by omega)⟩ u2
    have e1 : P.ksFl ar z T t = flSmoothUpdate ar (P.A t) (P.kfFl ar z t).filtMean
        (P.kfFl ar z t).filtCov (P.kfFl ar z (t + 1)).predMean (P.kfFl ar z (t + 1)).predCov
        (P.ksFl ar z T (t + 1)).mean (P.ksFl ar z T (t + 1)).cov := stSmoothFl_lt _ _ ht
    refine ⟨(P.ksFl ar z T t).cov - (smoothUpdate (P.A t) (P.kf z t).filtMean (P.kf z t).filtCov
        (P.kf z (t + 1)).predMean (P.kf z (t + 1)).predCov (P.ksFl ar z T (t + 1)).mean
        (P.ksFl ar z T (t + 1)).cov).cov,
      (P.ksFl ar z T t).mean - (smoothUpdate (P.A t) (P.kf z t).filtMean (P.kf z t).filtCov
        (P.kf z (t + 1)).predMean (P.kf z (t + 1)).predCov (P.ksFl ar z T (t + 1)).mean
        (P.ksFl ar z T (t + 1)).cov).mean,
      fun a b => ?_, fun a => ?_, ?_, ?_⟩
    · rw [e1]; exact p1 a b
    · rw [e1]; exact p2 a
    · rw [P.ks_lt z ht]
      have : ∀ (J M N O V W : Mat n n), W - (V + J * ((N - O) * Jᵀ))
          = J * (M - N) * Jᵀ + (W - (V + J * ((M - O) * Jᵀ))) := by
        intro J M N O V W
        simp only [Matrix.mul_sub, Matrix.sub_mul, Matrix.mul_assoc]
        abel
      exact this _ _ _ _ _ _
    · rw [P.ks_lt z ht]
      have : ∀ (J : Mat n n) (x y w v z : Vec n), z - (v + J *ᵥ (y - w))
          = J *ᵥ (x - y) + (z - (v + J *ᵥ (x - w))) := by
        intro J x y w v z
        simp only [mulVec_sub]
        abel
      exact this _ _ _ _ _ _
  have main : ∀ j t, T = t + j →
      (∀ a, |(P.ksFl ar z T t).mean a - (P.ks z T t).mean a| ≤ K' * u) ∧
      (∀ a b, |(P.ksFl ar z T t).cov a b - (P.ks z T t).cov a b| ≤ K' * u) ∧
      (0 < t → DomV (L' * u) ((P.ksFl ar z T t).mean - (P.ks z T t).mean) (P.kf z t).predCov ∧
        DomM (L * u) ((P.ksFl ar z T t).cov - (P.ks z T t).cov) (P.kf z t).predCov) := by
    intro j
    induction j with
    | zero =>
      rintro t hTt
      obtain rfl : T = t := hTt
      obtain ⟨-, -, f3, f4⟩ := hf T (by omega)
      have e1 : P.ksFl ar z T T = ⟨(P.kfFl ar z T).filtMean, (P.kfFl ar z T).filtCov, 0⟩ :=
        stSmoothFl_last _ _ _
      rw [e1, P.ks_last]
      refine ⟨fun a => (f3 a).trans (by rw [kk]; linarith),
        fun a b => (f4 a b).trans (by rw [kk]; linarith), fun h0 => ?_⟩
      have hl := hT.low (T - 1) (by omega)
      rw [Nat.sub_add_cancel h0] at hl
      refine ⟨(domV_of_entries hq hl Ku f3).weaken ?_, (domM_of_entries hq hl Ku f4).weaken ?_⟩
      · calc n * (K * u) / √q = n * K / √q * u := by ring
          _ ≤ L' * u := mul_le_mul_of_nonneg_right hLK' hu
      · calc n * n * (K * u) / q = n * n * K / q * u := by ring
          _ ≤ L * u := mul_le_mul_of_nonneg_right hLK hu
    | succ j ih =>
      intro t hTt
      obtain ⟨i1, i2, i3⟩ := ih (t + 1) (by omega)
      obtain ⟨i4, i5⟩ := i3 (by omega)
      obtain ⟨g, γ, hg, hγ, e1, e2⟩ := step t (by omega) i1 i2
      have d1 := (i5.map (P.smGain z t)).mono (S' := (P.kf z t).filtCov) Lu hρ0
        (hT.smGain_le hq hP (by omega))
      have d2 := (i4.map (P.smGain z t)).mono (S' := (P.kf z t).filtCov) L'u hρ0
        (hT.smGain_le hq hP (by omega))
      have ρ2 : ρ ^ 2 ≤ 1 := by nlinarith
      refine ⟨fun a => ?_, fun a b => ?_, fun h0 => ?_⟩
      · rw [← Pi.sub_apply, e2]
        have q1 := d2.entry (mul_nonneg hρ0 L'u) a (hfc t (by omega) a)
        refine (abs_add_le _ _).trans ((add_le_add q1 (hγ a)).trans ?_)
        have : ρ * (L' * u) * √B ≤ 1 * (L' * u) * √B := by gcongr
        rw [kk]; linarith
      · rw [← Matrix.sub_apply, e1]
        have q1 := d1.entry (mul_nonneg (sq_nonneg ρ) Lu) B0 (hfc t (by omega)) a b
        refine (abs_add_le _ _).trans ((add_le_add q1 (hg a b)).trans ?_)
        have : ρ ^ 2 * (L * u) * B ≤ 1 * (L * u) * B := by gcongr
        rw [kk]; linarith
      · have hl := hT.low (t - 1) (by omega)
        rw [Nat.sub_add_cancel h0] at hl
        have hle : (P.kf z t).filtCov ≤ (1 : ℝ) ^ 2 • (P.kf z t).predCov := by
          rw [one_pow, one_smul]; exact hP.filt_le_pred (by omega) z
        have d3 := d1.mono (mul_nonneg (sq_nonneg ρ) Lu) zero_le_one hle
        have d4 := d2.mono (mul_nonneg hρ0 L'u) zero_le_one hle
        rw [one_pow, one_mul] at d3
        rw [one_mul] at d4
        rw [e1, e2]
        constructor
        · refine (d4.add (domV_of_entries hq hl Du hγ)).weaken ?_
          calc ρ * (L' * u) + n * (D * u) / √q = (ρ * L' + n * D / √q) * u := by ring
            _ ≤ L' * u := mul_le_mul_of_nonneg_right hLs' hu
        · refine (d3.add (domM_of_entries hq hl Du hg)).weaken ?_
          calc ρ ^ 2 * (L * u) + n * n * (D * u) / q = (ρ ^ 2 * L + n * n * D / q) * u := by ring
            _ ≤ L * u := mul_le_mul_of_nonneg_right hLs hu
  intro t ht
  obtain ⟨m1, m2, -⟩ := main (T - t) t (by omega)
  exact ⟨m1, m2⟩

end Verif
