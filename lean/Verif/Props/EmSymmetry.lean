import Verif.Proofs.EmSymmetry
import Verif.Props.EmMonotone
import Verif.Props.Cholesky
import Verif.Props.Bierman
import Verif.Spec.Symmetry

/-!
# C83: `em` in other units
-/

open Matrix

namespace Verif

variable {n m : ℕ}

theorem obsCount_pos_of_mem {os : List (Obs m)} (h : ∃ o ∈ os, ¬ o.missing) :
    0 < obsCount (obsFn os) os.length := by
  obtain ⟨o, ho, hm⟩ := h
  obtain ⟨t, ht, rfl⟩ := List.getElem_of_mem ho
  rw [obsCount, Finset.card_pos]
  exact ⟨t, Finset.mem_filter.mpr ⟨Finset.mem_range.mpr ht, by rwa [obsFn_eq ht]⟩⟩

/-- **C83.** Fitting in other units gives the same model: `em` started from the parameters for the
state `S x` and given the data `V z + w` returns, for every data set, mask pattern, selection of
parameters and number of iterations, the parameters for `S x` and `V z + w` that belong to those
returned for `x` and `z` - and raises the same error if it raises one.  The covariances are positive
definite at the start; those `em` computes stay so by themselves, except that of the observation
noise, for which it is assumed.  If the origin of the observations moves, some row must be unmasked
or the observation offsets not be estimated. -/
theorem C83_em {p : Params n m} {os : List (Obs m)} {k : ℕ} {vars : EmVar → Bool} {S : Mat n n}
    {V : Mat m m} (w : Vec m) (hS : IsUnit S.det) (hV : IsUnit V.det) (hp : p.PD os.length)
    (hR : vars .observationCovariance = true → ∀ j, 0 < j → j < k → ∀ q,
      kfEm p os j vars = .ok q → ∀ R, q.R = .const R → R.PosDef)
    (hw : w = 0 ∨ (∃ o ∈ os, ¬ o.missing) ∨ vars .observationOffsets = false) :
    kfEm (p.changeUnits S V w) (os.map (Obs.affine V w)) k vars
      = (kfEm p os k vars).map fun q => q.changeUnits S V w := by
  have key : ∀ j < k, ∀ q, kfEm p os j vars = .ok q → q.PD os.length := by
    intro j
    induction j with
    | zero => intro _ q hq; cases hq; exact hp
    | succ j ih =>
      intro hj q hq
      have hq' := hq
      rw [C23_em_add p os vars j 1] at hq'
      cases h1 : kfEm p os j vars with
      | error e => rw [h1] at hq'; cases hq'
      | ok p1 =>
        rw [h1] at hq'
        exact C24_em_covariances_posDef (ih (by omega) p1 h1) hq'
          fun hv => hR hv (j + 1) (by omega) hj q hq
  have hw' : w = 0 ∨ 0 < obsCount (obsFn os) os.length ∨ vars .observationOffsets = false := by
    rcases hw with h | h | h
    · exact Or.inl h
    · exact Or.inr (Or.inl (obsCount_pos_of_mem h))
    · exact Or.inr (Or.inr h)
  exact emLoop_changeUnits hS hV hw' k p (fun _ h => h) key

theorem Params.PosDef.pd {p : Params n m} (h : p.PosDef) (T : ℕ) : p.PD T := by
  obtain ⟨⟨Q, hQ, hQ'⟩, ⟨R, hR, hR'⟩, hS⟩ := h
  refine ⟨fun t _ X hX => ?_, fun t _ X hX => ?_, hS⟩
  · rw [hQ] at hX; cases hX; exact hQ'
  · rw [hR] at hX; cases hX; exact hR'

theorem posDef_conj_unit {k : ℕ} {S M : Mat k k} (hS : IsUnit S.det) (hM : M.PosDef) :
    (S * M * Sᵀ).PosDef := by
  have := hM.mul_mul_conjTranspose_same (B := S)
    (Matrix.vecMul_injective_of_isUnit ((Matrix.isUnit_iff_isUnit_det S).mpr hS))
  rwa [conjTranspose_eq_transpose_of_trivial] at this

theorem Params.PosDef.changeUnits {p : Params n m} (h : p.PosDef) {S : Mat n n} {V : Mat m m}
    (w : Vec m) (hS : IsUnit S.det) (hV : IsUnit V.det) : (p.changeUnits S V w).PosDef := by
  obtain ⟨⟨Q, hQ, hQ'⟩, ⟨R, hR, hR'⟩, h0⟩ := h
  refine ⟨⟨S * Q * Sᵀ, ?_, posDef_conj_unit hS hQ'⟩, ⟨V * R * Vᵀ, ?_, posDef_conj_unit hV hR'⟩,
    posDef_conj_unit hS h0⟩
  · simp only [Params.changeUnits, hQ, TV.map]
  · simp only [Params.changeUnits, hR, TV.map]

theorem Params.PosDef.noiseDef {p : Params n m} (h : p.PosDef) : p.NoiseDef := by
  obtain ⟨⟨Q, hQ, hQ'⟩, ⟨R, hR, hR'⟩, h0⟩ := h
  exact ⟨⟨Q, hQ, hQ'.posSemidef⟩, ⟨R, hR, hR'⟩, h0.posSemidef⟩

theorem em_iterates_changed {p : Params n m} {os : List (Obs m)} {k : ℕ} {vars : EmVar → Bool}
    {S : Mat n n} {V : Mat m m} (w : Vec m) (hS : IsUnit S.det) (hV : IsUnit V.det)
    (hp : ∀ j < k, ∀ q, kfEm p os j vars = .ok q → q.PosDef)
    (hw : w = 0 ∨ (∃ o ∈ os, ¬ o.missing) ∨ vars .observationOffsets = false) :
    (∀ j < k, ∀ q, kfEm (p.changeUnits S V w) (os.map (Obs.affine V w)) j vars = .ok q → q.PosDef)
      ∧ kfEm (p.changeUnits S V w) (os.map (Obs.affine V w)) k vars
        = (kfEm p os k vars).map fun q => q.changeUnits S V w := by
  have main : ∀ j ≤ k, kfEm (p.changeUnits S V w) (os.map (Obs.affine V w)) j vars
      = (kfEm p os j vars).map fun q => q.changeUnits S V w := by
    intro j hj
    rcases Nat.eq_zero_or_pos k with rfl | hk
    · obtain rfl : j = 0 := by omega
      rfl
    · refine C83_em w hS hV ((hp 0 hk p rfl).pd _) (fun _ i _ hi q hq R hR => ?_) hw
      obtain ⟨R', hR', h⟩ := (hp i (by omega) q hq).R
      rw [hR] at hR'
      cases hR'
      exact h
  refine ⟨fun j hj q hq => ?_, main k le_rfl⟩
  rw [main j hj.le] at hq
  cases h1 : kfEm p os j vars with
  | error e => rw [h1] at hq; cases hq
  | ok q0 =>
    rw [h1] at hq
    cases hq
    exact (hp j hj q0 h1).changeUnits w hS hV

/-- **C83.** Likewise for `CholeskyKalmanFilter`, while the covariances are positive definite. -/
theorem C83_cholesky_em (qr : QR) {p : Params n m} {os : List (Obs m)} {k : ℕ} {vars : EmVar → Bool}
    {S : Mat n n} {V : Mat m m} (w : Vec m) (hS : IsUnit S.det) (hV : IsUnit V.det)
    (hp : ∀ j < k, ∀ q, kfEm p os j vars = .ok q → q.PosDef)
    (hw : w = 0 ∨ (∃ o ∈ os, ¬ o.missing) ∨ vars .observationOffsets = false) :
    cholEm qr (p.changeUnits S V w) (os.map (Obs.affine V w)) k vars
      = (cholEm qr p os k vars).map fun q => q.changeUnits S V w := by
  obtain ⟨h1, h2⟩ := em_iterates_changed w hS hV hp hw
  rw [C29_em_eq qr _ _ _ _ h1, C29_em_eq qr _ _ _ _ hp, h2]

/-- **C83.** Likewise for `BiermanKalmanFilter`. -/
theorem C83_bierman_em (hn : 0 < n) {p : Params n m} {os : List (Obs m)} {k : ℕ}
    {vars : EmVar → Bool} {S : Mat n n} {V : Mat m m} (w : Vec m) (hS : IsUnit S.det)
    (hV : IsUnit V.det) (hp : ∀ j < k, ∀ q, kfEm p os j vars = .ok q → q.PosDef)
    (hw : w = 0 ∨ (∃ o ∈ os, ¬ o.missing) ∨ vars .observationOffsets = false) :
    bierEm id (p.changeUnits S V w) (os.map (Obs.affine V w)) k vars
      = (bierEm id p os k vars).map fun q => q.changeUnits S V w := by
  obtain ⟨h1, h2⟩ := em_iterates_changed w hS hV hp hw
  by_cases hne : os = []
  · subst hne
    cases k with
    | zero => rfl
    | succ k =>
      rw [(C30_no_rows hn (hp 0 k.succ_pos p rfl).noiseDef).2.2.2.2.2.2]
      exact (C30_no_rows hn (h1 0 k.succ_pos _ rfl).noiseDef).2.2.2.2.2.2 k vars
  rw [C30_em_eq hn _ (by simpa using hne) _ _ fun j hj q hq => (h1 j hj q hq).noiseDef,
    C30_em_eq hn _ hne _ _ fun j hj q hq => (hp j hj q hq).noiseDef, h2]

/-! ### Moving the origin of the state -/

/-- A state without memory around `c`, seen without offset: for every `c` the same process with
the origin moved by `c`. -/
def movedOrigin (c : ℝ) : Params 1 1 where
  A := .const 0
  b := .const fun _ => c
  Q := .const 1
  C := .const 1
  d := .const fun _ => -c
  R := .const 1
  mu0 := fun _ => c
  S0 := 1

/-- A missing row and the observation `2`. -/
def movedOriginData : List (Obs 1) := [⟨0, fun _ => true⟩, ⟨fun _ => 2, fun _ => false⟩]

theorem pinv_one_by_one {a : ℝ} (ha : a ≠ 0) (M : Mat 1 1) (hM : M 0 0 = a) :
    pinv M = Matrix.of fun _ _ => a⁻¹ := by
  have hd : M.det = a := by rw [det_fin_one, hM]
  rw [pinv_eq_inv (by rw [hd]; exact ha.isUnit), inv_def, hd]
  ext i j
  fin_cases i; fin_cases j
  simp [adjugate_fin_one]

theorem movedOrigin_em (c : ℝ) : ∃ q, kfEm (movedOrigin c) movedOriginData 1
    (fun v => decide (v = .transitionMatrices)) = .ok q ∧ q.A = .const (Matrix.of fun _ _ => c / (1 + c ^ 2)) := by
  have hc : (movedOrigin c).Covers movedOriginData.length :=
    ⟨trivial, trivial, trivial, trivial, trivial, trivial⟩
  obtain ⟨q, h1, -, h3⟩ := emIter_ok (given := movedOrigin c) (p := movedOrigin c)
    (vars := fun v => decide (v = .transitionMatrices)) (os := movedOriginData) (by decide) hc hc
  refine ⟨q, ?_, ?_⟩
  · rw [kfEm, emLoop_succ, h1]
    rfl
  rw [h3.A, if_pos (by simp)]
  congr 1
  set P := (movedOrigin c).fn with hP
  set z := obsFn movedOriginData with hz
  have z0 : (z 0).missing := ⟨0, rfl⟩
  have z1 : ¬ (z 1).missing := by rintro ⟨i, hi⟩; exact Bool.noConfusion hi
  have zv : (z 1).val = fun _ => 2 := rfl
  obtain ⟨-, m0, c0⟩ := P.kf_missing z z0
  rw [(P.kf_zero_pred z).1] at m0
  rw [(P.kf_zero_pred z).2] at c0
  obtain ⟨-, m1, -⟩ := P.kf_observed z z1
  obtain ⟨pm, pc⟩ := P.kf_pred_succ z 0
  have pA : P.A 0 = 0 := rfl
  have pb : P.b 0 = fun _ => c := rfl
  have pQ : P.Q 0 = 1 := rfl
  have pC : P.C 1 = 1 := rfl
  have pR : P.R 1 = 1 := rfl
  have pd : P.d 1 = fun _ => -c := rfl
  have pmu : P.mu0 = fun _ => c := rfl
  have pS : P.S0 = 1 := rfl
  rw [zero_add, pA, pb, Matrix.zero_mulVec, zero_add] at pm
  rw [zero_add, pA, pQ, Matrix.zero_mul, Matrix.zero_mul, zero_add] at pc
  have mean1 : (P.kf z 1).filtMean = fun _ => c + 1 := by
    rw [m1, pm, pc, pR, pC, pd, zv, Verif.gain, pinv_one_by_one (a := 2) (by norm_num) _
      (by simp; norm_num)]
    ext i
    simp [mulVec, dotProduct]
  have g0 : (P.ks z 1 0).gain = 0 := by
    rw [P.ks_lt' z (by norm_num : 0 < 1)]
    simp [Verif.gain, pA]
  have k0 : (P.ks z 1 0).mean = (fun _ => c) ∧ (P.ks z 1 0).cov = 1 := by
    rw [P.ks_lt' z (by norm_num : 0 < 1)]
    simp [Verif.gain, pA, m0, c0, pmu, pS]
  have k1 : (P.ks z 1 1).mean = fun _ => c + 1 := by rw [P.ks_last]; exact mean1
  have hlen : movedOriginData.length - 1 = 1 := rfl
  rw [hlen, newA, Finset.sum_range_one, Finset.sum_range_one]
  simp only [PFun.stats, zero_add, k0.1, k0.2, k1, Nat.sub_self, g0, one_ne_zero, if_false,
    transpose_zero, Matrix.mul_zero]
  rw [pinv_one_by_one (a := 1 + c ^ 2) (by positivity) _ (by simp [vecMulVec_apply, sq])]
  ext i j
  fin_cases i; fin_cases j
  simp [Matrix.mul_apply, vecMulVec_apply, movedOrigin, TV.get]
  ring

/-- **C83, the origin of the state matters.**  Moving the origin of the state (an equivalent model:
same transitions, noises and observations in the moved coordinates) changes what `em` returns: the
matrices are fitted with the offsets held at their old values.  Here the matrix of a process
described by its deviation from `0` is left at `0`; described from an origin moved by `1`, it becomes
`1 / 2`. -/
theorem C83_origin_matters : ∃ (p p' : Params 1 1) (os : List (Obs 1)) (vars : EmVar → Bool)
    (q q' : Params 1 1), p.PosDef ∧ p'.PosDef ∧ StateChange p p' 1 (fun _ => 1) os.length ∧
      kfEm p os 1 vars = .ok q ∧ kfEm p' os 1 vars = .ok q' ∧ q.A = .const 0 ∧
      q'.A = .const (Matrix.of fun _ _ => 1 / 2) := by
  obtain ⟨q, h1, h2⟩ := movedOrigin_em 0
  obtain ⟨q', h1', h2'⟩ := movedOrigin_em 1
  have hpd : ∀ c, (movedOrigin c).PosDef := fun c =>
    ⟨⟨1, rfl, PosDef.one⟩, ⟨1, rfl, PosDef.one⟩, PosDef.one⟩
  refine ⟨movedOrigin 0, movedOrigin 1, movedOriginData, _, q, q', hpd 0, hpd 1, ?_, h1, h1', ?_, ?_⟩
  · refine ⟨fun t _ A b hA hb => ⟨0, fun _ => 1, rfl, rfl, fun x => ?_⟩, fun t _ Q hQ => ?_,
      fun t _ C d hC hd => ⟨1, fun _ => -1, rfl, rfl, fun x => ?_⟩, rfl, ?_, ?_⟩
    · cases hA; cases hb
      ext i
      simp
    · cases hQ
      simp [movedOrigin, lastDims]
    · cases hC; cases hd
      ext i
      simp
    · ext i; simp [movedOrigin]
    · simp [movedOrigin]
  · rw [h2]
    congr 1
    ext i j
    simp
  · rw [h2']
    congr 1
    ext i j
    norm_num

/-- The hypotheses of the theorems above are met: the process above with the state in units `3`
times and the observations in units `2` times smaller, with the origin of the observations moved by
`5`, and everything estimated. -/
example (qr : QR) :
    kfEm ((movedOrigin 1).changeUnits !![3] !![2] ![5])
      (movedOriginData.map (Obs.affine !![2] ![5])) 1 (fun _ => true)
      = ((kfEm (movedOrigin 1) movedOriginData 1 fun _ => true).map
        fun q => q.changeUnits !![3] !![2] ![5]) ∧
    cholEm qr ((movedOrigin 1).changeUnits !![3] !![2] ![5])
      (movedOriginData.map (Obs.affine !![2] ![5])) 1 (fun _ => true)
      = ((cholEm qr (movedOrigin 1) movedOriginData 1 fun _ => true).map
        fun q => q.changeUnits !![3] !![2] ![5]) ∧
    bierEm id ((movedOrigin 1).changeUnits !![3] !![2] ![5])
      (movedOriginData.map (Obs.affine !![2] ![5])) 1 (fun _ => true)
      = ((bierEm id (movedOrigin 1) movedOriginData 1 fun _ => true).map
        fun q => q.changeUnits !![3] !![2] ![5]) ∧
    ∃ q, kfEm (movedOrigin 1) movedOriginData 1 (fun _ => true) = .ok q := by
  have h3 : IsUnit (!![3] : Mat 1 1).det := by rw [det_fin_one]; norm_num
  have h2 : IsUnit (!![2] : Mat 1 1).det := by rw [det_fin_one]; norm_num
  have hpd : (movedOrigin 1).PosDef := ⟨⟨1, rfl, PosDef.one⟩, ⟨1, rfl, PosDef.one⟩, PosDef.one⟩
  have hw : (![5] : Vec 1) = 0 ∨ (∃ o ∈ movedOriginData, ¬ o.missing) ∨
      (fun _ => true : EmVar → Bool) .observationOffsets = false := by
    refine Or.inr (Or.inl ⟨_, List.mem_cons_of_mem _ List.mem_cons_self, ?_⟩)
    rintro ⟨i, hi⟩
    exact Bool.noConfusion hi
  have hj : ∀ j < 1, ∀ q, kfEm (movedOrigin 1) movedOriginData j (fun _ => true) = .ok q →
      q.PosDef := by
    intro j hj q hq
    obtain rfl : j = 0 := by omega
    cases hq
    exact hpd
  have hc : (movedOrigin 1).Covers movedOriginData.length :=
    ⟨trivial, trivial, trivial, trivial, trivial, trivial⟩
  obtain ⟨q, hq, -⟩ := emIter_ok (given := movedOrigin 1) (p := movedOrigin 1)
    (vars := fun _ => true) (os := movedOriginData) (by decide) hc hc
  refine ⟨C83_em _ h3 h2 (hpd.pd _) (fun _ j h1 h2 => by omega) hw,
    C83_cholesky_em qr _ h3 h2 hj hw, C83_bierman_em Nat.one_pos _ h3 h2 hj hw, q, ?_⟩
  rw [kfEm, emLoop_succ, hq]
  rfl

end Verif
