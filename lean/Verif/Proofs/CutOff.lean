import Verif.Linalg.Svd
import Verif.Proofs.Pure
import Verif.Proofs.Causal

/-!
# Runs with a parameter for the pseudo-inverse
-/

open Matrix

namespace Verif

variable {n m : ℕ} {pi : ∀ k, Mat k k → Mat k k}

/-- Correction of the predicted moments at time `t`. -/
noncomputable def PFun.correctWith (pi : ∀ k, Mat k k → Mat k k) (P : PFun n m) (t : ℕ)
    (mean : Vec n) (cov : Mat n n) (o : Obs m) : Step n m :=
  let c := filterCorrectWith pi (P.C t) (P.R t) (P.d t) mean cov o
  ⟨mean, cov, c.1, c.2.1, c.2.2⟩

/-- Step from time `t` to `t + 1`. -/
noncomputable def PFun.nextWith (pi : ∀ k, Mat k k → Mat k k) (P : PFun n m) (t : ℕ)
    (s : Step n m) (o : Obs m) : Step n m :=
  let pr := filterPredict (P.A t) (P.Q t) (P.b t) s.filtMean s.filtCov
  P.correctWith pi (t + 1) pr.1 pr.2 o

/-- The filter as a function of time. -/
noncomputable def PFun.kfWith (pi : ∀ k, Mat k k → Mat k k) (P : PFun n m) (z : ℕ → Obs m) :
    ℕ → Step n m
  | 0 => P.correctWith pi 0 P.mu0 P.S0 (z 0)
  | t + 1 => P.nextWith pi t (P.kfWith pi z t) (z (t + 1))


theorem filterStepWith_none {p : Params n m} (o : Obs m)
    (hC : p.C.Covers 1) (hd : p.d.Covers 1) (hR : p.R.Covers 1) :
    filterStepWith pi p 0 none o = .ok (p.fn.correctWith pi 0 p.mu0 p.S0 o) := by
  simp only [filterStepWith, lastDims_eq_ok hC, lastDims_eq_ok hd, lastDims_eq_ok hR]
  rfl

theorem filterStepWith_some {p : Params n m} {t : ℕ} (s : Step n m) (o : Obs m)
    (h : p.Covers (t + 2)) :
    filterStepWith pi p (t + 1) (some s) o = .ok (p.fn.nextWith pi t s o) := by
  have hA : p.A.Covers (t + 1) := h.A
  have hb : p.b.Covers (t + 1) := h.b
  have hQ : p.Q.Covers (t + 1) := h.Q
  have hC : p.C.Covers (t + 1 + 1) := h.C
  have hd : p.d.Covers (t + 1 + 1) := h.d
  have hR : p.R.Covers (t + 1 + 1) := h.R
  simp only [filterStepWith, Nat.add_sub_cancel, lastDims_eq_ok hA, lastDims_eq_ok hb,
    lastDims_eq_ok hQ, lastDims_eq_ok hC, lastDims_eq_ok hd, lastDims_eq_ok hR]
  rfl

theorem filterLoopWith_some {p : Params n m} (z : ℕ → Obs m) (os : List (Obs m)) (t : ℕ)
    (h : p.Covers (t + 1 + os.length)) (hz : ∀ i (hi : i < os.length), z (t + 1 + i) = os[i]) :
    filterLoopWith pi p (t + 1) (some (p.fn.kfWith pi z t)) os
      = .ok ((List.range os.length).map fun i => p.fn.kfWith pi z (t + 1 + i)) := by
  induction os generalizing t with
  | nil => rfl
  | cons o os ih =>
    have h0 : z (t + 1) = o := hz 0 (by simp)
    have e : p.fn.nextWith pi t (p.fn.kfWith pi z t) o = p.fn.kfWith pi z (t + 1) := by rw [← h0]; rfl
    rw [filterLoopWith, filterStepWith_some _ _ (h.mono (by simp; omega)), e]
    have := ih (t + 1) (by rw [List.length_cons] at h; convert h using 1; omega) (fun i hi => by
      have := hz (i + 1) (by simpa using hi)
      rw [← add_assoc, add_right_comm] at this
      simpa using this)
    simp only [bind, Except.bind, this, pure, Except.pure, List.length_cons]
    congr 1
    rw [List.range_succ_eq_map, List.map_cons, List.map_map]
    simp only [add_zero, List.cons.injEq, true_and]
    apply List.map_congr_left
    intro i _
    simp only [Function.comp]
    congr 1
    omega

theorem filterFullWith_eq {p : Params n m} (z : ℕ → Obs m) (os : List (Obs m))
    (h : p.Covers os.length) (hz : ∀ i (hi : i < os.length), z i = os[i]) :
    filterFullWith pi p os = .ok ((List.range os.length).map (p.fn.kfWith pi z)) := by
  cases os with
  | nil => rfl
  | cons o os =>
    have h0 : z 0 = o := hz 0 (by simp)
    have h1 := h.mono (show 1 ≤ (o :: os).length by simp)
    have e : p.fn.correctWith pi 0 p.mu0 p.S0 o = p.fn.kfWith pi z 0 := by rw [← h0]; rfl
    rw [filterFullWith, filterLoopWith, filterStepWith_none o h1.C h1.d h1.R, e]
    have := filterLoopWith_some (pi := pi) (p := p) z os 0
      (by rw [List.length_cons] at h; convert h using 1; omega) (fun i hi => by
      have := hz (i + 1) (by simpa using hi)
      rw [show 0 + 1 + i = i + 1 by omega, this]
      simp)
    simp only [bind, Except.bind, zero_add] at this ⊢
    rw [this]
    simp only [pure, Except.pure, List.length_cons]
    congr 1
    rw [List.range_succ_eq_map, List.map_cons, List.map_map]
    simp only [List.cons.injEq, true_and]
    apply List.map_congr_left
    intro i _
    simp only [Function.comp, add_comm 1 i]

theorem filterFullWith_obsFn {p : Params n m} {os : List (Obs m)} (h : p.Covers os.length) :
    filterFullWith pi p os = .ok ((List.range os.length).map (p.fn.kfWith pi (obsFn os))) :=
  filterFullWith_eq _ _ h fun _ hi => obsFn_eq hi


/-- The smoother, `j` steps before the last time `T`. -/
noncomputable def PFun.ksBackWith (pi : ∀ k, Mat k k → Mat k k) (P : PFun n m)
    (z : ℕ → Obs m) (T : ℕ) : ℕ → SStep n
  | 0 => ⟨(P.kfWith pi z T).filtMean, (P.kfWith pi z T).filtCov, 0⟩
  | j + 1 =>
    let t := T - (j + 1)
    smoothUpdateWith pi (P.A t) (P.kfWith pi z t).filtMean (P.kfWith pi z t).filtCov
      (P.kfWith pi z (t + 1)).predMean (P.kfWith pi z (t + 1)).predCov (P.ksBackWith pi z T j).mean
      (P.ksBackWith pi z T j).cov

/-- The smoother at time `t` for a run with last time `T`. -/
noncomputable def PFun.ksWith (pi : ∀ k, Mat k k → Mat k k) (P : PFun n m)
    (z : ℕ → Obs m) (T t : ℕ) : SStep n :=
  P.ksBackWith pi z T (T - t)

theorem PFun.ksWith_last (P : PFun n m) (z : ℕ → Obs m) (T : ℕ) :
    P.ksWith pi z T T = ⟨(P.kfWith pi z T).filtMean, (P.kfWith pi z T).filtCov, 0⟩ := by
  simp [PFun.ksWith, PFun.ksBackWith]

theorem PFun.ksWith_lt (P : PFun n m) (z : ℕ → Obs m) {T t : ℕ} (h : t < T) :
    P.ksWith pi z T t = smoothUpdateWith pi (P.A t) (P.kfWith pi z t).filtMean (P.kfWith pi z t).filtCov
      (P.kfWith pi z (t + 1)).predMean (P.kfWith pi z (t + 1)).predCov (P.ksWith pi z T (t + 1)).mean
      (P.ksWith pi z T (t + 1)).cov := by
  obtain ⟨j, rfl⟩ : ∃ j, T = t + 1 + j := ⟨T - (t + 1), by omega⟩
  have h1 : t + 1 + j - t = j + 1 := by omega
  have h2 : t + 1 + j - (t + 1) = j := by omega
  have h3 : t + 1 + j - (j + 1) = t := by omega
  simp only [PFun.ksWith, h1, h2, PFun.ksBackWith, h3]

theorem smoothLoopWith_eq {p : Params n m} (z : ℕ → Obs m) (k t T : ℕ) (hT : T = t + k)
    (hA : p.A.Covers T) :
    smoothLoopWith pi p.A t (p.fn.kfWith pi z t) ((List.range k).map fun i => p.fn.kfWith pi z (t + 1 + i))
      = .ok (p.fn.ksWith pi z T t, (List.range k).map fun i => p.fn.ksWith pi z T (t + 1 + i)) := by
  induction k generalizing t with
  | zero =>
    simp only [add_zero] at hT
    subst hT
    simp [smoothLoopWith, PFun.ksWith_last, pure, Except.pure]
  | succ k ih =>
    have := ih (t + 1) (by omega)
    rw [List.range_succ_eq_map, List.map_cons, List.map_map, smoothLoopWith]
    have e : ((List.range k).map ((fun i => p.fn.kfWith pi z (t + 1 + i)) ∘ Nat.succ))
        = (List.range k).map fun i => p.fn.kfWith pi z (t + 1 + 1 + i) := by
      apply List.map_congr_left
      intro i _
      simp only [Function.comp]
      congr 1
      omega
    rw [e]
    simp only [add_zero]
    rw [this, lastDims_eq_ok (hA.mono (by omega))]
    simp only [bind, Except.bind, pure, Except.pure]
    congr 2
    · rw [PFun.ksWith_lt (t := t) _ _ (by omega)]; rfl
    · rw [List.map_cons, List.map_map]
      simp only [add_zero, List.cons.injEq, true_and]
      apply List.map_congr_left
      intro i _
      simp only [Function.comp]
      congr 1
      omega

theorem smoothFullWith_eq {p : Params n m} (z : ℕ → Obs m) (T : ℕ) (hA : p.A.Covers T) :
    smoothFullWith pi p.A ((List.range (T + 1)).map (p.fn.kfWith pi z))
      = .ok ((List.range (T + 1)).map (p.fn.ksWith pi z T)) := by
  rw [List.range_succ_eq_map, List.map_cons, List.map_map, smoothFullWith]
  have := smoothLoopWith_eq (pi := pi) (p := p) z T 0 T (by omega) hA
  have e : (List.range T).map (p.fn.kfWith pi z ∘ Nat.succ)
      = (List.range T).map fun i => p.fn.kfWith pi z (0 + 1 + i) := by
    apply List.map_congr_left
    intro i _
    simp only [Function.comp]
    congr 1
    omega
  rw [e, this]
  simp only [bind, Except.bind, pure, Except.pure, List.map_cons, List.map_map]
  congr 2
  apply List.map_congr_left
  intro i _
  simp only [Function.comp]
  congr 1
  omega


theorem kfSmoothWith_eq {p : Params n m} {os : List (Obs m)} (hne : os ≠ [])
    (hc : p.Covers os.length) :
    kfSmoothWith pi p os = .ok ((List.range os.length).map
      (fun t => ((p.fn.ksWith pi (obsFn os) (os.length - 1) t).mean,
        (p.fn.ksWith pi (obsFn os) (os.length - 1) t).cov))) := by
  obtain ⟨T, hT⟩ : ∃ T, os.length = T + 1 :=
    ⟨os.length - 1, by have := List.length_pos_iff.mpr hne; omega⟩
  have hA : p.A.Covers T := by have := hc.A; rwa [hT] at this
  rw [kfSmoothWith, filterFullWith_obsFn hc]
  simp only [bind, Except.bind, hT, smoothFullWith_eq _ T hA, pure, Except.pure, List.map_map]
  rfl

theorem kfFilterWith_eq {p : Params n m} {os : List (Obs m)} (hc : p.Covers os.length) :
    kfFilterWith pi p os = .ok ((List.range os.length).map
      (fun t => ((p.fn.kfWith pi (obsFn os) t).filtMean, (p.fn.kfWith pi (obsFn os) t).filtCov))) := by
  rw [kfFilterWith, filterFullWith_obsFn hc]
  simp only [bind, Except.bind, pure, Except.pure, List.map_map]
  rfl

/-! ### Rows -/

theorem filterCorrectWith_missing (C : Mat m n) (R : Mat m m) (d : Vec m) (mean : Vec n)
    (cov : Mat n n) {o : Obs m} (h : o.missing) :
    filterCorrectWith pi C R d mean cov o = (0, mean, cov) := by
  simp [filterCorrectWith, h]

theorem filterCorrectWith_observed (C : Mat m n) (R : Mat m m) (d : Vec m) (mean : Vec n)
    (cov : Mat n n) {o : Obs m} (h : ¬ o.missing) :
    filterCorrectWith pi C R d mean cov o
      = (cov * Cᵀ * pi m (C * cov * Cᵀ + R),
        mean + (cov * Cᵀ * pi m (C * cov * Cᵀ + R)) *ᵥ (o.val - (C *ᵥ mean + d)),
        cov - cov * Cᵀ * pi m (C * cov * Cᵀ + R) * C * cov) := by
  simp only [filterCorrectWith, h, not_false_eq_true, if_true, Matrix.mul_assoc]

theorem PFun.kfWith_correct (P : PFun n m) (z : ℕ → Obs m) (t : ℕ) :
    P.kfWith pi z t
      = P.correctWith pi t (P.kfWith pi z t).predMean (P.kfWith pi z t).predCov (z t) := by
  cases t <;> rfl

theorem PFun.kfWith_missing (P : PFun n m) (z : ℕ → Obs m) {t : ℕ} (h : (z t).missing) :
    (P.kfWith pi z t).filtMean = (P.kfWith pi z t).predMean ∧
    (P.kfWith pi z t).filtCov = (P.kfWith pi z t).predCov := by
  have e := P.kfWith_correct (pi := pi) z t
  rw [PFun.correctWith, filterCorrectWith_missing _ _ _ _ _ h] at e
  exact ⟨congrArg Step.filtMean e, congrArg Step.filtCov e⟩

/-- The gain with the given routine. -/
def gainWith (pi : ∀ k, Mat k k → Mat k k) (P : Mat n n) (R : Mat m m) (C : Mat m n) : Mat n m :=
  P * Cᵀ * pi m (C * P * Cᵀ + R)

theorem PFun.kfWith_observed (P : PFun n m) (z : ℕ → Obs m) {t : ℕ} (h : ¬ (z t).missing) :
    (P.kfWith pi z t).filtMean = (P.kfWith pi z t).predMean
      + gainWith pi (P.kfWith pi z t).predCov (P.R t) (P.C t) *ᵥ
        ((z t).val - (P.C t *ᵥ (P.kfWith pi z t).predMean + P.d t)) ∧
    (P.kfWith pi z t).filtCov = (P.kfWith pi z t).predCov
      - gainWith pi (P.kfWith pi z t).predCov (P.R t) (P.C t) * P.C t
        * (P.kfWith pi z t).predCov := by
  have e := P.kfWith_correct (pi := pi) z t
  rw [PFun.correctWith, filterCorrectWith_observed _ _ _ _ _ h] at e
  exact ⟨congrArg Step.filtMean e, congrArg Step.filtCov e⟩

theorem PFun.kfWith_pred_succ (P : PFun n m) (z : ℕ → Obs m) (t : ℕ) :
    (P.kfWith pi z (t + 1)).predMean = P.A t *ᵥ (P.kfWith pi z t).filtMean + P.b t ∧
    (P.kfWith pi z (t + 1)).predCov = P.A t * (P.kfWith pi z t).filtCov * (P.A t)ᵀ + P.Q t := by
  refine ⟨rfl, ?_⟩
  show P.A t * ((P.kfWith pi z t).filtCov * (P.A t)ᵀ) + P.Q t = _
  rw [Matrix.mul_assoc]

/-- Covariances depend on the data through the mask only. -/
theorem PFun.kfWith_cov_congr (P : PFun n m) {z z' : ℕ → Obs m} {t : ℕ}
    (h : ∀ i, i ≤ t → ((z i).missing ↔ (z' i).missing)) :
    (P.kfWith pi z t).predCov = (P.kfWith pi z' t).predCov ∧
    (P.kfWith pi z t).filtCov = (P.kfWith pi z' t).filtCov := by
  have step : ∀ i, i ≤ t → (P.kfWith pi z i).predCov = (P.kfWith pi z' i).predCov →
      (P.kfWith pi z i).filtCov = (P.kfWith pi z' i).filtCov := by
    intro i hi e
    by_cases hm : (z i).missing
    · rw [(P.kfWith_missing z hm).2, (P.kfWith_missing z' ((h i hi).mp hm)).2, e]
    · rw [(P.kfWith_observed z hm).2, (P.kfWith_observed z' (fun hm' => hm ((h i hi).mpr hm'))).2, e]
  have key : ∀ i, i ≤ t → (P.kfWith pi z i).predCov = (P.kfWith pi z' i).predCov := by
    intro i
    induction i with
    | zero => intro _; rfl
    | succ i ih =>
      intro hi
      rw [(P.kfWith_pred_succ z i).2, (P.kfWith_pred_succ z' i).2,
        step i (by omega) (ih (by omega))]
  exact ⟨key t le_rfl, step t le_rfl (key t le_rfl)⟩

/-- Where the routine returns the Moore–Penrose inverse, nothing changes. -/
theorem PFun.kfWith_eq_kf (P : PFun n m) (z : ℕ → Obs m) {t : ℕ}
    (h : ∀ i, i ≤ t → ¬ (z i).missing →
      pi m (P.C i * (P.kf z i).predCov * (P.C i)ᵀ + P.R i)
        = pinv (P.C i * (P.kf z i).predCov * (P.C i)ᵀ + P.R i)) :
    P.kfWith pi z t = P.kf z t := by
  have step : ∀ i, i ≤ t → ∀ a : Vec n, P.correctWith pi i a (P.kf z i).predCov (z i)
      = P.correct i a (P.kf z i).predCov (z i) := by
    intro i hi a
    by_cases hm : (z i).missing
    · rw [PFun.correctWith, PFun.correct, filterCorrectWith_missing _ _ _ _ _ hm,
        filterCorrect_missing hm]
    · have hg := h i hi hm
      rw [Matrix.mul_assoc] at hg
      simp only [PFun.correctWith, PFun.correct, filterCorrectWith, filterCorrect, hm,
        not_false_eq_true, if_true, hg]
  induction t with
  | zero => exact step 0 le_rfl _
  | succ t ih =>
    have e := ih (fun i hi => h i (by omega)) (fun i hi => step i (by omega))
    have := step (t + 1) le_rfl (P.kf z (t + 1)).predMean
    show P.nextWith pi t (P.kfWith pi z t) (z (t + 1)) = P.next t (P.kf z t) (z (t + 1))
    rw [e]
    exact this

theorem PFun.ksWith_eq_ks (P : PFun n m) (z : ℕ → Obs m) {T t : ℕ} (ht : t ≤ T)
    (h : ∀ i, i ≤ T → ¬ (z i).missing →
      pi m (P.C i * (P.kf z i).predCov * (P.C i)ᵀ + P.R i)
        = pinv (P.C i * (P.kf z i).predCov * (P.C i)ᵀ + P.R i))
    (hs : ∀ i, i < T → pi n (P.kf z (i + 1)).predCov = pinv (P.kf z (i + 1)).predCov) :
    P.ksWith pi z T t = P.ks z T t := by
  have hf : ∀ i, i ≤ T → P.kfWith pi z i = P.kf z i := fun i hi =>
    P.kfWith_eq_kf z fun l hl => h l (by omega)
  obtain ⟨j, hj⟩ : ∃ j, T = t + j := ⟨T - t, by omega⟩
  induction j generalizing t with
  | zero =>
    obtain rfl : T = t := by omega
    rw [P.ksWith_last, P.ks_last, hf T le_rfl]
  | succ j ih =>
    rw [P.ksWith_lt z (show t < T by omega), P.ks_lt z (show t < T by omega),
      ih (t := t + 1) (by omega) (by omega), hf t (by omega), hf (t + 1) (by omega)]
    simp only [smoothUpdateWith, smoothUpdate, hs t (by omega)]

end Verif
