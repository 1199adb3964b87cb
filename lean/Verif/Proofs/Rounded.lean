import Verif.Model.Rounded
import Verif.Linalg.Svd
import Verif.Proofs.NoisyRow

/-!
# Runs in arithmetic with rounding errors, and their limits
-/

open Matrix Topology

namespace Verif

variable {n m k l : ℕ} {c : ℕ → ℝ} {u : ℝ} {ar : Arith c u}

/-- Correction of the predicted moments at time `t`. -/
noncomputable def PFun.correctFl (ar : Arith c u) (P : PFun n m) (t : ℕ)
    (mean : Vec n) (cov : Mat n n) (o : Obs m) : Step n m :=
  let c := flCorrect ar (P.C t) (P.R t) (P.d t) mean cov o
  ⟨mean, cov, c.1, c.2.1, c.2.2⟩

/-- Step from time `t` to `t + 1`. -/
noncomputable def PFun.nextFl (ar : Arith c u) (P : PFun n m) (t : ℕ)
    (s : Step n m) (o : Obs m) : Step n m :=
  let pr := flPredict ar (P.A t) (P.Q t) (P.b t) s.filtMean s.filtCov
  P.correctFl ar (t + 1) pr.1 pr.2 o

/-- The filter as a function of time. -/
noncomputable def PFun.kfFl (ar : Arith c u) (P : PFun n m) (z : ℕ → Obs m) :
    ℕ → Step n m
  | 0 => P.correctFl ar 0 P.mu0 P.S0 (z 0)
  | t + 1 => P.nextFl ar t (P.kfFl ar z t) (z (t + 1))


theorem flStep_none {p : Params n m} (o : Obs m)
    (hC : p.C.Covers 1) (hd : p.d.Covers 1) (hR : p.R.Covers 1) :
    flStep ar p 0 none o = .ok (p.fn.correctFl ar 0 p.mu0 p.S0 o) := by
  simp only [flStep, lastDims_eq_ok hC, lastDims_eq_ok hd, lastDims_eq_ok hR]
  rfl

theorem flStep_some {p : Params n m} {t : ℕ} (s : Step n m) (o : Obs m)
    (h : p.Covers (t + 2)) :
    flStep ar p (t + 1) (some s) o = .ok (p.fn.nextFl ar t s o) := by
  have hA : p.A.Covers (t + 1) := h.A
  have hb : p.b.Covers (t + 1) := h.b
  have hQ : p.Q.Covers (t + 1) := h.Q
  have hC : p.C.Covers (t + 1 + 1) := h.C
  have hd : p.d.Covers (t + 1 + 1) := h.d
  have hR : p.R.Covers (t + 1 + 1) := h.R
  simp only [flStep, Nat.add_sub_cancel, lastDims_eq_ok hA, lastDims_eq_ok hb,
    lastDims_eq_ok hQ, lastDims_eq_ok hC, lastDims_eq_ok hd, lastDims_eq_ok hR]
  rfl

theorem flLoop_some {p : Params n m} (z : ℕ → Obs m) (os : List (Obs m)) (t : ℕ)
    (h : p.Covers (t + 1 + os.length)) (hz : ∀ i (hi : i < os.length), z (t + 1 + i) = os[i]) :
    flLoop ar p (t + 1) (some (p.fn.kfFl ar z t)) os
      = .ok ((List.range os.length).map fun i => p.fn.kfFl ar z (t + 1 + i)) := by
  induction os generalizing t with
  | nil => rfl
  | cons o os ih =>
    have h0 : z (t + 1) = o := hz 0 (by simp)
    have e : p.fn.nextFl ar t (p.fn.kfFl ar z t) o = p.fn.kfFl ar z (t + 1) := by rw [← h0]; rfl
    rw [flLoop, flStep_some _ _ (h.mono (by simp; omega)), e]
    have := ih (t + 1) (by rw [List.length_cons] at h; convert h using 1; omega) (fun i hi => by
      have := hz (i + 1) (by simpa using hi)
      rw [← add_assoc, add_right_comm] at this
      simpa using this)
    simp only [bind, Except.bind, this, pure, Except.pure, List.length_cons]
    congr 1
    rw [List.range_succ_eq_map, List.map_cons, List.map_map]
    simp only [add_zero, List.cons.injEq, true_and]
    apply List.map_congr_left
    intro i _
    simp only [Function.comp]
    congr 1
    omega

theorem flFull_eq {p : Params n m} (z : ℕ → Obs m) (os : List (Obs m))
    (h : p.Covers os.length) (hz : ∀ i (hi : i < os.length), z i = os[i]) :
    flFull ar p os = .ok ((List.range os.length).map (p.fn.kfFl ar z)) := by
  cases os with
  | nil => rfl
  | cons o os =>
    have h0 : z 0 = o := hz 0 (by simp)
    have h1 := h.mono (show 1 ≤ (o :: os).length by simp)
    have e : p.fn.correctFl ar 0 p.mu0 p.S0 o = p.fn.kfFl ar z 0 := by rw [← h0]; rfl
    rw [flFull, flLoop, flStep_none o h1.C h1.d h1.R, e]
    have := flLoop_some (ar := ar) (p := p) z os 0
      (by rw [List.length_cons] at h; convert h using 1; omega) (fun i hi => by
      have := hz (i + 1) (by simpa using hi)
      rw [show 0 + 1 + i = i + 1 by omega, this]
      simp)
    simp only [bind, Except.bind, zero_add] at this ⊢
    rw [this]
    simp only [pure, Except.pure, List.length_cons]
    congr 1
    rw [List.range_succ_eq_map, List.map_cons, List.map_map]
    simp only [List.cons.injEq, true_and]
    apply List.map_congr_left
    intro i _
    simp only [Function.comp, add_comm 1 i]

theorem flFull_obsFn {p : Params n m} {os : List (Obs m)} (h : p.Covers os.length) :
    flFull ar p os = .ok ((List.range os.length).map (p.fn.kfFl ar (obsFn os))) :=
  flFull_eq _ _ h fun _ hi => obsFn_eq hi


/-- The smoother, `j` steps before the last time `T`, for given rows of the filter. -/
noncomputable def stBackFl (ar : Arith c u) (A : ℕ → Mat n n) (st : ℕ → Step n m) (T : ℕ) :
    ℕ → SStep n
  | 0 => ⟨(st T).filtMean, (st T).filtCov, 0⟩
  | j + 1 =>
    let t := T - (j + 1)
    flSmoothUpdate ar (A t) (st t).filtMean (st t).filtCov (st (t + 1)).predMean
      (st (t + 1)).predCov (stBackFl ar A st T j).mean (stBackFl ar A st T j).cov

/-- The smoother at time `t` for a run with last time `T`. -/
noncomputable def stSmoothFl (ar : Arith c u) (A : ℕ → Mat n n) (st : ℕ → Step n m) (T t : ℕ) :
    SStep n :=
  stBackFl ar A st T (T - t)

theorem stSmoothFl_last (A : ℕ → Mat n n) (st : ℕ → Step n m) (T : ℕ) :
    stSmoothFl ar A st T T = ⟨(st T).filtMean, (st T).filtCov, 0⟩ := by
  simp [stSmoothFl, stBackFl]

theorem stSmoothFl_lt (A : ℕ → Mat n n) (st : ℕ → Step n m) {T t : ℕ} (h : t < T) :
    stSmoothFl ar A st T t = flSmoothUpdate ar (A t) (st t).filtMean (st t).filtCov
      (st (t + 1)).predMean (st (t + 1)).predCov (stSmoothFl ar A st T (t + 1)).mean
      (stSmoothFl ar A st T (t + 1)).cov := by
  obtain ⟨j, rfl⟩ : ∃ j, T = t + 1 + j := ⟨T - (t + 1), by omega⟩
  have h1 : t + 1 + j - t = j + 1 := by omega
  have h2 : t + 1 + j - (t + 1) = j := by omega
  have h3 : t + 1 + j - (j + 1) = t := by omega
  simp only [stSmoothFl, h1, h2, stBackFl, h3]

theorem flSmoothLoop_eq {p : Params n m} (st : ℕ → Step n m) (k t T : ℕ) (hT : T = t + k)
    (hA : p.A.Covers T) :
    flSmoothLoop ar p.A t (st t) ((List.range k).map fun i => st (t + 1 + i))
      = .ok (stSmoothFl ar p.fn.A st T t,
          (List.range k).map fun i => stSmoothFl ar p.fn.A st T (t + 1 + i)) := by
  induction k generalizing t with
  | zero =>
    simp only [add_zero] at hT
    subst hT
    simp [flSmoothLoop, stSmoothFl_last, pure, Except.pure]
  | succ k ih =>
    have := ih (t + 1) (by omega)
    rw [List.range_succ_eq_map, List.map_cons, List.map_map, flSmoothLoop]
    have e : ((List.range k).map ((fun i => st (t + 1 + i)) ∘ Nat.succ))
        = (List.range k).map fun i => st (t + 1 + 1 + i) := by
      apply List.map_congr_left
      intro i _
      simp only [Function.comp]
      congr 1
      omega
    rw [e]
    simp only [add_zero]
    rw [this, lastDims_eq_ok (hA.mono (by omega))]
    simp only [bind, Except.bind, pure, Except.pure]
    congr 2
    · rw [stSmoothFl_lt (t := t) _ _ (by omega)]; rfl
    · rw [List.map_cons, List.map_map]
      simp only [add_zero, List.cons.injEq, true_and]
      apply List.map_congr_left
      intro i _
      simp only [Function.comp]
      congr 1
      omega

theorem flSmoothFull_eq {p : Params n m} (st : ℕ → Step n m) (T : ℕ) (hA : p.A.Covers T) :
    flSmoothFull ar p.A ((List.range (T + 1)).map st)
      = .ok ((List.range (T + 1)).map (stSmoothFl ar p.fn.A st T)) := by
  rw [List.range_succ_eq_map, List.map_cons, List.map_map, flSmoothFull]
  have := flSmoothLoop_eq (ar := ar) (p := p) st T 0 T (by omega) hA
  have e : (List.range T).map (st ∘ Nat.succ)
      = (List.range T).map fun i => st (0 + 1 + i) := by
    apply List.map_congr_left
    intro i _
    simp only [Function.comp]
    congr 1
    omega
  rw [e, this]
  simp only [bind, Except.bind, pure, Except.pure, List.map_cons, List.map_map]
  congr 2
  apply List.map_congr_left
  intro i _
  simp only [Function.comp]
  congr 1
  omega

/-- The smoother at time `t` for a run with last time `T`. -/
noncomputable def PFun.ksFl (ar : Arith c u) (P : PFun n m)
    (z : ℕ → Obs m) (T t : ℕ) : SStep n :=
  stSmoothFl ar P.A (P.kfFl ar z) T t

theorem flSmooth_eq {p : Params n m} {os : List (Obs m)} (hne : os ≠ [])
    (hc : p.Covers os.length) :
    flSmooth ar p os = .ok ((List.range os.length).map
      (fun t => ((p.fn.ksFl ar (obsFn os) (os.length - 1) t).mean,
        (p.fn.ksFl ar (obsFn os) (os.length - 1) t).cov))) := by
  obtain ⟨T, hT⟩ : ∃ T, os.length = T + 1 :=
    ⟨os.length - 1, by have := List.length_pos_iff.mpr hne; omega⟩
  have hA : p.A.Covers T := by have := hc.A; rwa [hT] at this
  rw [flSmooth, flFull_obsFn hc]
  simp only [bind, Except.bind, hT, flSmoothFull_eq _ T hA, pure, Except.pure, List.map_map]
  rfl

theorem flFilter_eq {p : Params n m} {os : List (Obs m)} (hc : p.Covers os.length) :
    flFilter ar p os = .ok ((List.range os.length).map
      (fun t => ((p.fn.kfFl ar (obsFn os) t).filtMean, (p.fn.kfFl ar (obsFn os) t).filtCov))) := by
  rw [flFilter, flFull_obsFn hc]
  simp only [bind, Except.bind, pure, Except.pure, List.map_map]
  rfl


/-! ### Limits -/

theorem orth_entry_le {W : Mat k k} (h : Wᵀ * W = 1) (i j : Fin k) : |W i j| ≤ 1 := by
  have h1 : ∑ a, W a j * W a j = 1 := by
    have := congrFun (congrFun h j) j
    simpa [Matrix.mul_apply] using this
  have h2 : W i j * W i j ≤ 1 := by
    rw [← h1]
    exact Finset.single_le_sum (f := fun a => W a j * W a j) (fun a _ => mul_self_nonneg _)
      (Finset.mem_univ i)
  exact abs_le_one_iff_mul_self_le_one.mpr h2

theorem sumAbs_nonneg (M : Mat k l) : 0 ≤ sumAbs M :=
  Finset.sum_nonneg fun _ _ => Finset.sum_nonneg fun _ _ => abs_nonneg _

theorem form_le_sumAbs {U V : Mat k k} (hU : Uᵀ * U = 1) (hV : Vᵀ * V = 1) (M : Mat k k)
    (i j : Fin k) : |(Uᵀ * M * V) i j| ≤ sumAbs M := by
  have e : (Uᵀ * M * V) i j = ∑ b, ∑ a, U a i * M a b * V b j := by
    simp [Matrix.mul_apply, Finset.sum_mul]
  rw [e, Finset.sum_comm]
  refine (Finset.abs_sum_le_sum_abs _ _).trans (Finset.sum_le_sum fun a _ => ?_)
  refine (Finset.abs_sum_le_sum_abs _ _).trans (Finset.sum_le_sum fun b _ => ?_)
  rw [abs_mul, abs_mul]
  have h1 := orth_entry_le hU a i
  have h2 := orth_entry_le hV b j
  calc |U a i| * |M a b| * |V b j| ≤ 1 * |M a b| * 1 := by gcongr
    _ = |M a b| := by ring

theorem IsSVD.le_sumAbs {M U V : Mat k k} {s : Vec k} (h : IsSVD M U s V) (i : Fin k) :
    s i ≤ sumAbs M := by
  have e : Uᵀ * M * V = diagonal s := by
    rw [h.eq]
    calc Uᵀ * (U * diagonal s * Vᵀ) * V = Uᵀ * U * diagonal s * (Vᵀ * V) := by noncomm_ring
      _ = diagonal s := by rw [h.left, h.right]; simp
  have := form_le_sumAbs h.left h.right M i i
  rw [e, diagonal_apply_eq] at this
  exact (le_abs_self _).trans this

theorem IsSVD.inv_le_sumAbs {M U V : Mat k k} {s : Vec k} (h : IsSVD M U s V)
    (hM : IsUnit M.det) (i : Fin k) : 0 < s i ∧ (s i)⁻¹ ≤ sumAbs (pinv M) := by
  have e : Uᵀ * M * V = diagonal s := by
    rw [h.eq]
    calc Uᵀ * (U * diagonal s * Vᵀ) * V = Uᵀ * U * diagonal s * (Vᵀ * V) := by noncomm_ring
      _ = diagonal s := by rw [h.left, h.right]; simp
  have e2 : Vᵀ * M⁻¹ * U * diagonal s = 1 := by
    rw [← e]
    calc Vᵀ * M⁻¹ * U * (Uᵀ * M * V) = Vᵀ * M⁻¹ * (U * Uᵀ) * M * V := by noncomm_ring
      _ = Vᵀ * (M⁻¹ * M) * V := by rw [h.left']; noncomm_ring
      _ = 1 := by rw [nonsing_inv_mul _ hM, Matrix.mul_one, h.right]
  have e3 : (Vᵀ * M⁻¹ * U) i i * s i = 1 := by
    have := congrFun (congrFun e2 i) i
    simpa [Matrix.mul_diagonal] using this
  have h0 : s i ≠ 0 := by
    intro h0
    rw [h0, mul_zero] at e3
    exact zero_ne_one e3
  refine ⟨lt_of_le_of_ne (h.nonneg i) h0.symm, ?_⟩
  have := form_le_sumAbs h.right h.left M⁻¹ i i
  rw [pinv_eq_inv hM, inv_eq_of_mul_eq_one_left e3]
  exact (le_abs_self _).trans this

variable {ι : Type*} {F : Filter ι}

theorem tends_mat_iff {f : ι → Mat k l} {a : Mat k l} :
    Filter.Tendsto f F (𝓝 a) ↔ ∀ i j, Filter.Tendsto (fun x => f x i j) F (𝓝 (a i j)) :=
  tendsto_pi_nhds.trans (forall_congr' fun _ => tendsto_pi_nhds)

theorem tends_sumAbs {f : ι → Mat k l} {a : Mat k l} (h : Filter.Tendsto f F (𝓝 a)) :
    Filter.Tendsto (fun i => sumAbs (f i)) F (𝓝 (sumAbs a)) :=
  tendsto_finsetSum _ fun i _ => tendsto_finsetSum _ fun j _ => ((tends_mat_iff.mp h) i j).abs

/-- `f` differs from `a` by at most a constant times `w`. -/
def Ow (F : Filter ι) (w : ι → ℝ) (f : ι → ℝ) (a : ℝ) : Prop :=
  Asymptotics.IsBigO F (fun i => f i - a) w

/-- The same for the entries of a vector. -/
def OwV (F : Filter ι) (w : ι → ℝ) (f : ι → Vec k) (a : Vec k) : Prop :=
  ∀ j, Ow F w (fun i => f i j) (a j)

/-- The same for the entries of a matrix. -/
def OwM (F : Filter ι) (w : ι → ℝ) (f : ι → Mat k l) (a : Mat k l) : Prop :=
  ∀ p q, Ow F w (fun i => f i p q) (a p q)

variable {w : ι → ℝ}

theorem Ow.tendsto {f : ι → ℝ} {a : ℝ} (h : Ow F w f a) (hw : Filter.Tendsto w F (𝓝 0)) :
    Filter.Tendsto f F (𝓝 a) := by
  have h1 : Filter.Tendsto (fun i => f i - a) F (𝓝 0) := Asymptotics.IsBigO.trans_tendsto h hw
  simpa using h1.add_const a

theorem OwM.tendsto {f : ι → Mat k l} {a : Mat k l} (h : OwM F w f a)
    (hw : Filter.Tendsto w F (𝓝 0)) : Filter.Tendsto f F (𝓝 a) :=
  tends_mat_iff.mpr fun p q => (h p q).tendsto hw

theorem ow_const (a : ℝ) : Ow F w (fun _ => a) a := by
  have : Asymptotics.IsBigO F (fun _ : ι => (0 : ℝ)) w := Asymptotics.isBigO_zero _ _
  simpa [Ow] using this

theorem owV_const (a : Vec k) : OwV F w (fun _ => a) a := fun _ => ow_const _

theorem owM_const (a : Mat k l) : OwM F w (fun _ => a) a := fun _ _ => ow_const _

theorem Ow.add {f g : ι → ℝ} {a b : ℝ} (hf : Ow F w f a) (hg : Ow F w g b) :
    Ow F w (fun i => f i + g i) (a + b) := by
  have := Asymptotics.IsBigO.add hf hg
  refine this.congr_left fun i => ?_
  ring

theorem Ow.neg {f : ι → ℝ} {a : ℝ} (hf : Ow F w f a) : Ow F w (fun i => -f i) (-a) := by
  have := Asymptotics.IsBigO.neg_left hf
  refine this.congr_left fun i => ?_
  ring

theorem Ow.sub {f g : ι → ℝ} {a b : ℝ} (hf : Ow F w f a) (hg : Ow F w g b) :
    Ow F w (fun i => f i - g i) (a - b) := by
  have := Asymptotics.IsBigO.sub hf hg
  refine this.congr_left fun i => ?_
  ring

theorem Ow.mul (hw : Filter.Tendsto w F (𝓝 0)) {f g : ι → ℝ} {a b : ℝ} (hf : Ow F w f a)
    (hg : Ow F w g b) : Ow F w (fun i => f i * g i) (a * b) := by
  have h1 : Asymptotics.IsBigO F (fun i => (f i - a) * g i) (fun i => w i * 1) :=
    Asymptotics.IsBigO.mul hf ((hg.tendsto hw).isBigO_one ℝ)
  have h2 : Asymptotics.IsBigO F (fun i => a * (g i - b)) w :=
    Asymptotics.IsBigO.const_mul_left hg a
  simp only [mul_one] at h1
  refine (h1.add h2).congr_left fun i => ?_
  ring

theorem Ow.sum {κ : Type*} {s : Finset κ} {f : κ → ι → ℝ} {a : κ → ℝ}
    (h : ∀ j ∈ s, Ow F w (f j) (a j)) : Ow F w (fun i => ∑ j ∈ s, f j i) (∑ j ∈ s, a j) := by
  have := Asymptotics.IsBigO.sum (s := s) (g := w) (l := F) (A := fun j i => f j i - a j) h
  refine this.congr_left fun i => ?_
  rw [Finset.sum_apply, Finset.sum_sub_distrib]

/-- An additional error of the size of `w`. -/
theorem ow_of_err {f g B : ι → ℝ} {K a b : ℝ} (hg : Ow F w g a)
    (hB : Filter.Tendsto B F (𝓝 b)) (h : ∀ i, |f i - g i| ≤ K * w i * (B i + 1)) :
    Ow F w f a := by
  have h1 : Asymptotics.IsBigO F (fun i => f i - g i) (fun i => K * w i * (B i + 1)) :=
    Asymptotics.IsBigO.of_bound 1 (Filter.Eventually.of_forall fun i => by
      rw [one_mul, Real.norm_eq_abs]
      exact (h i).trans (le_abs_self _))
  have h2 : Asymptotics.IsBigO F (fun i => K * w i * (B i + 1)) (fun i => w i * 1) := by
    refine Asymptotics.IsBigO.mul ?_ ((hB.add_const 1).isBigO_one ℝ)
    exact (Asymptotics.isBigO_refl w F).const_mul_left K
  simp only [mul_one] at h2
  refine ((h1.trans h2).add hg).congr_left fun i => ?_
  ring

theorem owM_mul (hw : Filter.Tendsto w F (𝓝 0)) {r : ℕ} {f : ι → Mat k l} {g : ι → Mat l r}
    {a : Mat k l} {b : Mat l r} (hf : OwM F w f a) (hg : OwM F w g b) :
    OwM F w (fun i => f i * g i) (a * b) := fun p q => by
  simp only [Matrix.mul_apply]
  exact Ow.sum fun j _ => (hf p j).mul hw (hg j q)

theorem owM_transpose {f : ι → Mat k l} {a : Mat k l} (hf : OwM F w f a) :
    OwM F w (fun i => (f i)ᵀ) aᵀ := fun p q => hf q p

/-- Inverses of matrices near a regular one. -/
theorem owM_pinv (hw : Filter.Tendsto w F (𝓝 0)) {M : ι → Mat k k} {S : Mat k k}
    (hM : OwM F w M S) (hS : IsUnit S.det) : OwM F w (fun i => pinv (M i)) (pinv S) := by
  have hP := tends_pinv (hM.tendsto hw) hS
  have hdet : ∀ᶠ i in F, IsUnit (M i).det := by
    have hc : Continuous fun x : Mat k k => x.det := continuous_id.matrix_det
    exact (((hc.tendsto S).comp (hM.tendsto hw)).eventually_ne hS.ne_zero).mono
      fun i hi => hi.isUnit
  intro p q
  have heq : ∀ᶠ i in F, (pinv (M i) * (S - M i) * pinv S) p q = pinv (M i) p q - pinv S p q := by
    filter_upwards [hdet] with i hi
    rw [pinv_eq_inv hi, pinv_eq_inv hS, Matrix.mul_sub, Matrix.sub_mul, nonsing_inv_mul _ hi,
      Matrix.one_mul, Matrix.mul_assoc, mul_nonsing_inv _ hS, Matrix.mul_one, Matrix.sub_apply]
  refine Asymptotics.IsBigO.congr' ?_ heq Filter.EventuallyEq.rfl
  simp only [Matrix.mul_apply, Matrix.sub_apply]
  have hsum : ∀ f : Fin k → ι → ℝ, (∀ b, Asymptotics.IsBigO F (f b) w) →
      Asymptotics.IsBigO F (fun i => ∑ b, f b i) w := fun f hf => by
    have := Asymptotics.IsBigO.sum (s := Finset.univ) (fun b _ => hf b)
    refine this.congr_left fun i => ?_
    rw [Finset.sum_apply]
  refine hsum _ fun b => ?_
  have h1 : Asymptotics.IsBigO F (fun i => ∑ j, pinv (M i) p j * (S j b - M i j b)) w := by
    refine hsum _ fun j => ?_
    have h2 : Asymptotics.IsBigO F (fun i => S j b - M i j b) w := by
      refine (Asymptotics.IsBigO.neg_left (hM j b)).congr_left fun i => ?_
      ring
    have h3 := (((tends_mat_iff.mp hP) p j).isBigO_one ℝ).mul h2
    simpa only [one_mul] using h3
  have h4 := h1.mul (Asymptotics.isBigO_refl (fun _ : ι => pinv S b q) F)
  refine h4.trans ?_
  refine (Asymptotics.IsBigO.const_mul_left (Asymptotics.isBigO_refl w F) (pinv S b q)).congr_left
    fun i => ?_
  ring

variable {br : ∀ i, Arith c (w i)}

theorem ow_fl_add (hw : Filter.Tendsto w F (𝓝 0)) {x y : ι → ℝ} {a b : ℝ}
    (hx : Ow F w x a) (hy : Ow F w y b) : Ow F w (fun i => (br i).add (x i) (y i)) (a + b) :=
  ow_of_err (K := 1) (hx.add hy) ((hx.add hy).tendsto hw).abs fun i => by
    rw [one_mul]; exact (br i).add_err _ _

theorem ow_fl_sub (hw : Filter.Tendsto w F (𝓝 0)) {x y : ι → ℝ} {a b : ℝ}
    (hx : Ow F w x a) (hy : Ow F w y b) : Ow F w (fun i => (br i).sub (x i) (y i)) (a - b) :=
  ow_of_err (K := 1) (hx.sub hy) ((hx.sub hy).tendsto hw).abs fun i => by
    rw [one_mul]; exact (br i).sub_err _ _

theorem ow_fl_dot (hw : Filter.Tendsto w F (𝓝 0)) {x y : ι → Vec k} {a b : Vec k}
    (hx : OwV F w x a) (hy : OwV F w y b) :
    Ow F w (fun i => (br i).dot k (x i) (y i)) (a ⬝ᵥ b) :=
  ow_of_err (Ow.sum fun j _ => (hx j).mul hw (hy j))
    (tendsto_finsetSum _ fun j _ => ((hx j).tendsto hw).abs.mul ((hy j).tendsto hw).abs)
    fun i => (br i).dot_err k _ _

theorem ow_fl_vadd (hw : Filter.Tendsto w F (𝓝 0)) {x y : ι → Vec k} {a b : Vec k}
    (hx : OwV F w x a) (hy : OwV F w y b) : OwV F w (fun i => (br i).vadd (x i) (y i)) (a + b) :=
  fun j => ow_fl_add hw (hx j) (hy j)

theorem ow_fl_vsub (hw : Filter.Tendsto w F (𝓝 0)) {x y : ι → Vec k} {a b : Vec k}
    (hx : OwV F w x a) (hy : OwV F w y b) : OwV F w (fun i => (br i).vsub (x i) (y i)) (a - b) :=
  fun j => ow_fl_sub hw (hx j) (hy j)

theorem ow_fl_madd (hw : Filter.Tendsto w F (𝓝 0)) {x y : ι → Mat k l} {a b : Mat k l}
    (hx : OwM F w x a) (hy : OwM F w y b) : OwM F w (fun i => (br i).madd (x i) (y i)) (a + b) :=
  fun i j => ow_fl_add hw (hx i j) (hy i j)

theorem ow_fl_msub (hw : Filter.Tendsto w F (𝓝 0)) {x y : ι → Mat k l} {a b : Mat k l}
    (hx : OwM F w x a) (hy : OwM F w y b) : OwM F w (fun i => (br i).msub (x i) (y i)) (a - b) :=
  fun i j => ow_fl_sub hw (hx i j) (hy i j)

theorem ow_fl_mulV (hw : Filter.Tendsto w F (𝓝 0)) {x : ι → Mat k l} {y : ι → Vec l}
    {a : Mat k l} {b : Vec l} (hx : OwM F w x a) (hy : OwV F w y b) :
    OwV F w (fun i => (br i).mulV (x i) (y i)) (a *ᵥ b) :=
  fun j => ow_fl_dot hw (fun q => hx j q) hy

theorem ow_fl_mul {r : ℕ} (hw : Filter.Tendsto w F (𝓝 0)) {x : ι → Mat k l} {y : ι → Mat l r}
    {a : Mat k l} {b : Mat l r} (hx : OwM F w x a) (hy : OwM F w y b) :
    OwM F w (fun i => (br i).mul (x i) (y i)) (a * b) :=
  fun i j => ow_fl_dot hw (fun q => hx i q) (fun q => hy q j)

theorem ow_fl_pinv (hw : Filter.Tendsto w F (𝓝 0)) {M : ι → Mat k k} {S : Mat k k}
    (hM : OwM F w M S) (hS : IsUnit S.det) :
    OwM F w (fun i => (br i).pinv k (M i)) (pinv S) := by
  choose E r U s V hE hr0 hr hsvd hB using fun i => (br i).pinv_err k (M i)
  have hN : OwM F w (fun i => M i + E i) S := fun a b =>
    ow_of_err (K := c k) (hM a b) (tends_sumAbs (hM.tendsto hw)) fun i => by
      show |(M i + E i) a b - M i a b| ≤ _
      rw [Matrix.add_apply, add_sub_cancel_left]
      exact hE i a b
  have hPO := owM_pinv hw hN hS
  have hP := hPO.tendsto hw
  have hdet : ∀ᶠ i in F, IsUnit (M i + E i).det := by
    have hc : Continuous fun x : Mat k k => x.det := continuous_id.matrix_det
    exact (((hc.tendsto S).comp (hN.tendsto hw)).eventually_ne hS.ne_zero).mono
      fun i hi => hi.isUnit
  have hsmall : ∀ᶠ i in F, c k * w i * sumAbs (M i + E i) * sumAbs (pinv (M i + E i)) < 1 := by
    have h0 := ((hw.const_mul (c k)).mul (tends_sumAbs (hN.tendsto hw))).mul (tends_sumAbs hP)
    rw [mul_zero, zero_mul, zero_mul] at h0
    exact h0.eventually (gt_mem_nhds one_pos)
  have heq : ∀ᶠ i in F, svdPinv (r i) (U i) (s i) (V i) = pinv (M i + E i) := by
    filter_upwards [hdet, hsmall] with i hi hlt
    refine (hsvd i).svdPinv_eq_pinv (hr0 i) fun j _ => ?_
    obtain ⟨hpos, hinv⟩ := (hsvd i).inv_le_sumAbs hi j
    have hmax : maxSingular (s i) ≤ sumAbs (M i + E i) :=
      maxSingular_le (sumAbs_nonneg _) fun q => (hsvd i).le_sumAbs q
    have h1 : r i * maxSingular (s i) * (s i j)⁻¹ < 1 := by
      refine lt_of_le_of_lt ?_ hlt
      have := hr0 i
      have h2 := maxSingular_nonneg (s i)
      have h3 : 0 ≤ (s i j)⁻¹ := (inv_pos.mpr hpos).le
      have h4 : 0 ≤ c k * w i := this.trans (hr i)
      exact mul_le_mul (mul_le_mul (hr i) hmax h2 h4) hinv h3 (mul_nonneg h4 (sumAbs_nonneg _))
    rwa [← div_eq_mul_inv, div_lt_one hpos] at h1
  have hP' : OwM F w (fun i => svdPinv (r i) (U i) (s i) (V i)) (pinv S) := fun a b =>
    (hPO a b).congr' (heq.mono fun i hi => congrArg (fun X : Mat k k => X a b - pinv S a b) hi.symm) Filter.EventuallyEq.rfl
  exact fun a b => ow_of_err (hP' a b) (tends_sumAbs (hP'.tendsto hw)) fun i => hB i a b

/-- Errors of all quantities of one step. -/
structure FlNear (F : Filter ι) (w : ι → ℝ) (f : ι → Step n m) (a : Step n m) : Prop where
  predMean : OwV F w (fun s => (f s).predMean) a.predMean
  predCov : OwM F w (fun s => (f s).predCov) a.predCov
  filtMean : OwV F w (fun s => (f s).filtMean) a.filtMean
  filtCov : OwM F w (fun s => (f s).filtCov) a.filtCov

theorem near_flCorrect (hw : Filter.Tendsto w F (𝓝 0)) (P : PFun n m) (t : ℕ) {mu : ι → Vec n}
    {mu' : Vec n} {V : ι → Mat n n} {V' : Mat n n} (hmu : OwV F w mu mu')
    (hV : OwM F w V V') (o : Obs m)
    (hS : ¬ o.missing → IsUnit (P.C t * (V' * (P.C t)ᵀ) + P.R t).det) :
    FlNear F w (fun i => P.correctFl (br i) t (mu i) (V i) o) (P.correct t mu' V' o) := by
  by_cases h : o.missing
  · simp only [PFun.correctFl, PFun.correct, flCorrect, filterCorrect, h, not_true_eq_false,
      if_false]
    exact ⟨hmu, hV, hmu, hV⟩
  · simp only [PFun.correctFl, PFun.correct, flCorrect, filterCorrect, h, not_false_eq_true,
      if_true]
    have hC : OwM F w (fun _ : ι => P.C t) (P.C t) := owM_const _
    have hCt : OwM F w (fun _ : ι => (P.C t)ᵀ) (P.C t)ᵀ := owM_const _
    have hG := ow_fl_mul (br := br) hw hV (ow_fl_mul (br := br) hw hCt
      (ow_fl_pinv (br := br) hw (ow_fl_madd (br := br) hw
        (ow_fl_mul (br := br) hw hC (ow_fl_mul (br := br) hw hV hCt))
        (owM_const (P.R t))) (hS h)))
    exact ⟨hmu, hV, ow_fl_vadd hw hmu (ow_fl_mulV hw hG (ow_fl_vsub hw
      (owV_const _) (ow_fl_vadd hw (ow_fl_mulV hw hC hmu) (owV_const _)))),
      ow_fl_msub hw hV (ow_fl_mul hw hG (ow_fl_mul hw hC hV))⟩

theorem near_kfFl (hw : Filter.Tendsto w F (𝓝 0)) (P : PFun n m) (z : ℕ → Obs m) (t : ℕ)
    (hS : ∀ s ≤ t, ¬ (z s).missing →
      IsUnit (P.C s * ((P.kf z s).predCov * (P.C s)ᵀ) + P.R s).det) :
    FlNear F w (fun i => P.kfFl (br i) z t) (P.kf z t) := by
  induction t with
  | zero => exact near_flCorrect hw P 0 (owV_const _) (owM_const _) _ (hS 0 le_rfl)
  | succ t ih =>
    have h := ih fun s hs => hS s (by omega)
    have hA : OwM F w (fun _ : ι => P.A t) (P.A t) := owM_const _
    have hAt : OwM F w (fun _ : ι => (P.A t)ᵀ) (P.A t)ᵀ := owM_const _
    exact near_flCorrect hw P (t + 1)
      (ow_fl_vadd hw (ow_fl_mulV hw hA h.filtMean) (owV_const _))
      (ow_fl_madd hw (ow_fl_mul hw hA (ow_fl_mul hw h.filtCov hAt)) (owM_const _))
      _ (hS (t + 1) le_rfl)

theorem near_stSmoothFl (hw : Filter.Tendsto w F (𝓝 0)) (P : PFun n m) (z : ℕ → Obs m)
    {st : ι → ℕ → Step n m} (T j : ℕ)
    (hk : ∀ t ≤ T, FlNear F w (fun i => st i t) (P.kf z t))
    (hV : ∀ t, t < T → T ≤ t + j → IsUnit (P.kf z (t + 1)).predCov.det) (hj : j ≤ T) :
    OwV F w (fun i => (stBackFl (br i) P.A (st i) T j).mean) (P.ksBack z T j).mean ∧
    OwM F w (fun i => (stBackFl (br i) P.A (st i) T j).cov) (P.ksBack z T j).cov := by
  induction j with
  | zero => exact ⟨(hk T le_rfl).filtMean, (hk T le_rfl).filtCov⟩
  | succ j ih =>
    obtain ⟨h1, h2⟩ := ih (fun t ht hj => hV t ht (by omega)) (by omega)
    have ht := hk (T - (j + 1)) (by omega)
    have ht1 := hk (T - (j + 1) + 1) (by omega)
    have hA : OwM F w (fun _ : ι => (P.A (T - (j + 1)))ᵀ) (P.A (T - (j + 1)))ᵀ := owM_const _
    have hG := ow_fl_mul (br := br) hw ht.filtCov (ow_fl_mul (br := br) hw hA
      (ow_fl_pinv (br := br) hw ht1.predCov (hV _ (by omega) (by omega))))
    exact ⟨ow_fl_vadd hw ht.filtMean (ow_fl_mulV hw hG (ow_fl_vsub hw h1 ht1.predMean)),
      ow_fl_madd hw ht.filtCov (ow_fl_mul hw hG (ow_fl_mul hw
        (ow_fl_msub hw h2 ht1.predCov) (owM_transpose hG)))⟩

end Verif
