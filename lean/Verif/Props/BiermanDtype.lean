import Verif.Proofs.BiermanDtype
import Verif.Proofs.UnscentedTransform
import Verif.Props.Bierman
import Verif.Props.Runs

/-!
# C103: `BiermanKalmanFilter` with parameters given as integers

In `bierFilterStored store storeC p os` the functions say what assigning a number to an entry of an
array does to it: `store` for the element type of `initial_state_covariance`, `storeC` for that of
`observation_matrices`; `id` for floats, `truncInt` (towards zero) for integers.  `IsCholesky R L`
says that `L` is lower triangular with a positive diagonal and `L Lᵀ = R`.
-/

open Matrix

namespace Verif

variable {n m : ℕ}

theorem truncInt_int (k : ℤ) : truncInt (k : ℝ) = k := by
  unfold truncInt
  split_ifs <;> simp

theorem truncInt_zero : truncInt 0 = 0 := by simpa using truncInt_int 0

theorem truncInt_small {x : ℝ} (h : |x| < 1) : truncInt x = 0 := by
  obtain ⟨h1, h2⟩ := abs_lt.mp h
  unfold truncInt
  split_ifs with h0
  · rw [Int.floor_eq_zero_iff.mpr ⟨h0, h2⟩, Int.cast_zero]
  · rw [Int.ceil_eq_zero_iff.mpr ⟨h1, (not_le.mp h0).le⟩, Int.cast_zero]

/-! ### What is right -/

/-- **C103.** For observation matrices of floats the methods are those of C30 – C33. -/
theorem C103_floats (store : ℝ → ℝ) (p : Params n m) (os : List (Obs m)) :
    bierFilterStored store id p os = bierFilter store p os ∧
    bierSmoothStored store id p os = bierSmooth store p os ∧
    bierLoglikStored store id p os = bierLoglik store p os ∧
    ∀ k vars, bierEmStored store id p os k vars = bierEm store p os k vars := by
  refine ⟨?_, ?_, ?_, fun k vars => ?_⟩
  · rw [bierFilterStored, bierFilter, bierFullStored_id]
  · rw [bierSmoothStored, bierSmooth, bierFullStored_id]
  · rw [bierLoglikStored, bierLoglik, bierFullStored_id]
  · have key : ∀ k (store : ℝ → ℝ) q,
        bierEmLoopStored store id p vars os k q = bierEmLoop store p vars os k q := by
      intro k
      induction k with
      | zero => intros; rfl
      | succ k ih =>
        intro store q
        simp only [bierEmLoopStored, bierEmLoop, ite_self, ih,
          bierStatsStored_congr (bierFullStored_id store q os)]
    exact key k store p

/-- **C103.** One observation matrix for all time steps may be given as integers. -/
theorem C103_constant_observation_matrix (store storeC : ℝ → ℝ) {p : Params n m}
    (hC : ∃ X, p.C = .const X) (os : List (Obs m)) :
    bierFilterStored store storeC p os = bierFilter store p os ∧
    bierSmoothStored store storeC p os = bierSmooth store p os ∧
    bierLoglikStored store storeC p os = bierLoglik store p os ∧
    ∀ k vars, bierEmStored store storeC p os k vars = bierEm store p os k vars := by
  have e := bierFullStored_const store storeC hC os
  refine ⟨?_, ?_, ?_, fun k vars => ?_⟩
  · rw [bierFilterStored, bierFilter, e]
  · rw [bierSmoothStored, bierSmooth, e]
  · rw [bierLoglikStored, bierLoglik, e]
  · have key : ∀ k (store storeC : ℝ → ℝ) (q : Params n m), (∃ X, q.C = .const X) →
        bierEmLoopStored store storeC p vars os k q = bierEmLoop store p vars os k q := by
      intro k
      induction k with
      | zero => intros; rfl
      | succ k ih =>
        intro store storeC q hq
        simp only [bierEmLoopStored, bierEmLoop,
          bierStatsStored_congr (bierFullStored_const store storeC hq os)]
        cases bierStats store q os with
        | error e => rfl
        | ok ss =>
          simp only [bind, Except.bind]
          cases hs : emStep p vars q ss os with
          | error e => rfl
          | ok q' =>
            refine ih _ _ q' ?_
            unfold emStep at hs
            obtain ⟨C, hC', hs⟩ := ok_bind_iff.mp hs
            obtain ⟨R, -, hs⟩ := ok_bind_iff.mp hs
            obtain ⟨A, -, hs⟩ := ok_bind_iff.mp hs
            obtain ⟨Q, -, hs⟩ := ok_bind_iff.mp hs
            obtain ⟨mu0, -, hs⟩ := ok_bind_iff.mp hs
            obtain ⟨S0, -, hs⟩ := ok_bind_iff.mp hs
            obtain ⟨b, -, hs⟩ := ok_bind_iff.mp hs
            obtain ⟨d, -, hs⟩ := ok_bind_iff.mp hs
            cases hs
            show ∃ X, C = .const X
            unfold emPick at hC'
            split_ifs at hC'
            · unfold emConst at hC'
              obtain ⟨X, -, hX⟩ := ok_bind_iff.mp hC'
              cases hX
              exact ⟨_, rfl⟩
            · cases hC'
              exact hC
    exact key k store storeC p hC

/-- **C103.** A diagonal initial covariance may be given as integers. -/
theorem C103_diagonal_initial_covariance (storeC : ℝ → ℝ) {p : Params n m} (v : Fin n → ℤ)
    (hS : p.S0 = diagonal fun i => (v i : ℝ)) (os : List (Obs m)) :
    bierFilterStored truncInt storeC p os = bierFilterStored id storeC p os ∧
    bierSmoothStored truncInt storeC p os = bierSmoothStored id storeC p os ∧
    bierLoglikStored truncInt storeC p os = bierLoglikStored id storeC p os ∧
    ∀ k vars, bierEmStored truncInt storeC p os k vars = bierEmStored id storeC p os k vars := by
  have hu : ∀ {q : Params n m}, q.S0 = p.S0 → udu truncInt q.S0 = udu id q.S0 := by
    intro q hq
    rw [hq, hS]
    exact udu_diagonal _ truncInt_zero fun i => truncInt_int _
  have e := bierFullStored_initial storeC (hu rfl) os
  refine ⟨?_, ?_, ?_, fun k vars => ?_⟩
  · rw [bierFilterStored, bierFilterStored, e]
  · rw [bierSmoothStored, bierSmoothStored, e]
  · rw [bierLoglikStored, bierLoglikStored, e]
  · have key : ∀ k (storeC : ℝ → ℝ) (q : Params n m), q.S0 = p.S0 →
        bierEmLoopStored truncInt storeC p vars os k q
          = bierEmLoopStored id storeC p vars os k q := by
      intro k
      induction k with
      | zero => intros; rfl
      | succ k ih =>
        intro storeC q hq
        have es : bierStatsStored truncInt storeC q os = bierStatsStored id storeC q os := by
          rw [bierStatsStored, bierStatsStored, bierFullStored_initial storeC (hu hq) os]
        simp only [bierEmLoopStored, es, ite_self]
        cases bierStatsStored id storeC q os with
        | error e => rfl
        | ok ss =>
          simp only [bind, Except.bind]
          cases hs : emStep p vars q ss os with
          | error e => rfl
          | ok q' =>
            simp only
            by_cases hv : vars .initialStateCovariance = true
            · rw [if_pos hv]
            · rw [if_neg hv]
              refine ih _ q' ?_
              unfold emStep at hs
              obtain ⟨C, -, hs⟩ := ok_bind_iff.mp hs
              obtain ⟨R, -, hs⟩ := ok_bind_iff.mp hs
              obtain ⟨A, -, hs⟩ := ok_bind_iff.mp hs
              obtain ⟨Q, -, hs⟩ := ok_bind_iff.mp hs
              obtain ⟨mu0, -, hs⟩ := ok_bind_iff.mp hs
              obtain ⟨S0, hS0, hs⟩ := ok_bind_iff.mp hs
              obtain ⟨b, -, hs⟩ := ok_bind_iff.mp hs
              obtain ⟨d, -, hs⟩ := ok_bind_iff.mp hs
              cases hs
              show S0 = p.S0
              rw [emPick, if_neg hv] at hS0
              cases hS0
              rfl
    exact key k storeC p rfl

/-! ### What happens to observation matrices of integers, one per time step -/

/-- **C103 (finding).** With an observation matrix for every time step `filter` and `smooth` return
what `KalmanFilter` returns for other observation matrices: `L g(L⁻¹ C_t)` instead of `C_t`, where
`L` is the Cholesky factor of the observation covariance and `g` the conversion to the element type
of the array. -/
theorem C103_time_varying (hn : 0 < n) {p : Params n m} (h : p.NoiseDef) (storeC : ℝ → ℝ)
    {R L : Mat m m} (hR : p.R = .const R) (hL : IsCholesky R L) {l : List (Mat m n)}
    (hC : p.C = .seq l) {os : List (Obs m)} (hne : os ≠ []) :
    let p' := { p with C := .seq (l.map fun X => L * (L⁻¹ * X : Mat m n).map storeC) }
    bierFilterStored id storeC p os = kfFilter p' os ∧
    bierSmoothStored id storeC p os = kfSmooth p' os := by
  intro p'
  have h' : p'.NoiseDef := ⟨h.Q, h.R, h.S0⟩
  have e : bierFullStored id storeC p os = bierFull id p' os := bierFullStored_seq id storeC hR hL hC os
  constructor
  · rw [← C30_filter_eq hn h' hne, bierFilterStored, bierFilter, e]
  · rw [← C30_smooth_eq hn h' hne, bierSmoothStored, bierSmooth, e]

/-- **C103.** If the entries of all `L⁻¹ C_t` are integers, for example when the observation
covariance is the identity, integer observation matrices do no harm. -/
theorem C103_integers_exact (hn : 0 < n) {p : Params n m} (h : p.NoiseDef)
    {R L : Mat m m} (hR : p.R = .const R) (hL : IsCholesky R L) {l : List (Mat m n)}
    (hC : p.C = .seq l) (hl : ∀ X ∈ l, ∀ i j, ∃ k : ℤ, (L⁻¹ * X : Mat m n) i j = k)
    {os : List (Obs m)} (hne : os ≠ []) :
    bierFilterStored id truncInt p os = kfFilter p os ∧
    bierSmoothStored id truncInt p os = kfSmooth p os ∧
    bierLoglikStored id truncInt p os = kfLoglik p os := by
  have hu : IsUnit L.det := isUnit_iff_ne_zero.mpr hL.det_ne_zero
  have el : l.map (storedMat truncInt L) = l := by
    conv_rhs => rw [← List.map_id l]
    refine List.map_congr_left fun X hX => ?_
    have : (L⁻¹ * X : Mat m n).map truncInt = L⁻¹ * X := by
      ext i j
      obtain ⟨k, hk⟩ := hl X hX i j
      rw [Matrix.map_apply, hk, truncInt_int]
    rw [storedMat, this, ← Matrix.mul_assoc, Matrix.mul_nonsing_inv L hu, Matrix.one_mul, id]
  have e : bierFullStored id truncInt p os = bierFull id p os := by
    rw [bierFullStored_seq id truncInt hR hL hC os, el, ← hC]
  refine ⟨?_, ?_, ?_⟩
  · rw [← C30_filter_eq hn h hne, bierFilterStored, bierFilter, e]
  · rw [← C30_smooth_eq hn h hne, bierSmoothStored, bierSmooth, e]
  · rw [← C30_loglikelihood_eq hn h hne, bierLoglikStored, bierLoglik, e]

/-- Rows at times with zero observation matrices can be exchanged. -/
theorem kf_zero_rows (p : Params n m) {os os' : List (Obs m)} (hlen : os.length = os'.length)
    (hC : ∀ t < os.length, lastDims p.C t = .ok 0) :
    kfFilter p os = kfFilter p os' ∧ kfSmooth p os = kfSmooth p os' := by
  have key : ∀ k ≤ os.length, kfFilter p os = kfFilter p (os'.take k ++ os.drop k) ∧
      kfSmooth p os = kfSmooth p (os'.take k ++ os.drop k) := by
    intro k
    induction k with
    | zero => intro _; simp
    | succ k ih =>
      intro hk
      obtain ⟨h1, h2⟩ := ih (by omega)
      have hk' : k < os'.length := by omega
      obtain ⟨c1, c2⟩ := C22_zero_observation_matrix p (os'.take k ++ os.drop k) k (hC k (by omega))
        os'[k]
      have e : (os'.take k ++ os.drop k).set k os'[k] = os'.take (k + 1) ++ os.drop (k + 1) := by
        have hl : (os'.take k).length = k := by simp; omega
        rw [List.set_append_right _ _ (by omega), hl, Nat.sub_self, List.drop_eq_getElem_cons (by omega),
          List.set_cons_zero, List.take_succ_eq_append_getElem hk', List.append_assoc]
        rfl
      rw [e] at c1 c2
      exact ⟨h1.trans c1, h2.trans c2⟩
  have := key os.length le_rfl
  rw [List.drop_length, List.append_nil, hlen, List.take_length] at this
  exact this

/-- **C103 (finding).** If all entries of all `L⁻¹ C_t` are smaller than one in absolute value,
integer observation matrices are turned into zeros: `filter` and `smooth` return, without any error,
results in which the data play no part. -/
theorem C103_data_ignored (hn : 0 < n) {p : Params n m} (h : p.NoiseDef)
    {R L : Mat m m} (hR : p.R = .const R) (hL : IsCholesky R L) {l : List (Mat m n)}
    (hC : p.C = .seq l) (hl : ∀ X ∈ l, ∀ i j, |(L⁻¹ * X : Mat m n) i j| < 1)
    {os os' : List (Obs m)} (hlen : os.length = os'.length) (hcov : os.length ≤ l.length)
    (hne : os ≠ []) :
    bierFilterStored id truncInt p os = bierFilterStored id truncInt p os' ∧
    bierSmoothStored id truncInt p os = bierSmoothStored id truncInt p os' := by
  have hne' : os' ≠ [] := by
    rintro rfl
    exact hne (List.eq_nil_of_length_eq_zero hlen)
  obtain ⟨f1, s1⟩ := C103_time_varying hn h truncInt hR hL hC hne
  obtain ⟨f2, s2⟩ := C103_time_varying hn h truncInt hR hL hC hne'
  rw [f1, f2, s1, s2]
  refine kf_zero_rows _ hlen fun t ht => ?_
  have ht' : t < (l.map fun X => L * (L⁻¹ * X : Mat m n).map truncInt).length := by
    rw [List.length_map]; omega
  have e0 : (L⁻¹ * l[t]'(by omega) : Mat m n).map truncInt = 0 := by
    ext i j
    rw [Matrix.map_apply, truncInt_small (hl _ (List.getElem_mem _) i j)]
    rfl
  simp only [lastDims]
  rw [List.getElem?_eq_getElem ht', List.getElem_map, e0, Matrix.mul_zero]

/-- **C103 (finding).** In particular: sensors that each show a component of the state or its
negative, or sums of such, as matrices of entries `-1`, `0`, `1` for every time step, and independent
noise of variance above one. -/
theorem C103_data_ignored_unit_sensors (hn : 0 < n) {p : Params n m} (h : p.NoiseDef) {r : ℝ}
    (hr : 1 < r) (hR : p.R = .const (diagonal fun _ => r)) {l : List (Mat m n)}
    (hC : p.C = .seq l) (hl : ∀ X ∈ l, ∀ i j, X i j = -1 ∨ X i j = 0 ∨ X i j = 1)
    {os os' : List (Obs m)} (hlen : os.length = os'.length) (hcov : os.length ≤ l.length)
    (hne : os ≠ []) :
    bierFilterStored id truncInt p os = bierFilterStored id truncInt p os' ∧
    bierSmoothStored id truncInt p os = bierSmoothStored id truncInt p os' := by
  have hs : 1 < Real.sqrt r := by
    rw [show (1 : ℝ) = Real.sqrt 1 from Real.sqrt_one.symm]
    exact Real.sqrt_lt_sqrt (by norm_num) hr
  have hs0 : 0 < Real.sqrt r := by linarith
  have hL : IsCholesky (diagonal fun _ : Fin m => r) (diagonal fun _ => Real.sqrt r) := by
    refine ⟨fun i j hij => diagonal_apply_ne _ hij.ne, fun i => ?_, ?_⟩
    · rw [diagonal_apply_eq]; exact hs0
    · rw [diagonal_transpose, diagonal_mul_diagonal]
      congr 1
      funext i
      exact Real.mul_self_sqrt (by linarith)
  have hi : (diagonal fun _ : Fin m => Real.sqrt r)⁻¹ = diagonal fun _ => (Real.sqrt r)⁻¹ := by
    refine Matrix.inv_eq_right_inv ?_
    rw [diagonal_mul_diagonal, ← diagonal_one]
    congr 1
    funext i
    exact mul_inv_cancel₀ hs0.ne'
  refine C103_data_ignored hn h hR hL hC (fun X hX i j => ?_) hlen hcov hne
  rw [hi, diagonal_mul, abs_mul, abs_of_pos (inv_pos.mpr hs0)]
  have h1 : (Real.sqrt r)⁻¹ < 1 := inv_lt_one_of_one_lt₀ hs
  have h2 : |X i j| ≤ 1 := by
    rcases hl X hX i j with e | e | e <;> simp [e]
  calc (Real.sqrt r)⁻¹ * |X i j| ≤ (Real.sqrt r)⁻¹ * 1 :=
        mul_le_mul_of_nonneg_left h2 (inv_pos.mpr hs0).le
    _ < 1 := by linarith

/-- One state, observed directly (the number 1, an integer) with noise of variance 4. -/
noncomputable def exDtype : Params 1 1 :=
  ⟨.const 1, .const 0, .const 1, .seq [1], .const 0, .const (diagonal fun _ => 4), 0, 1⟩

theorem exDtype_noiseDef : exDtype.NoiseDef :=
  ⟨⟨_, rfl, PosSemidef.one⟩, ⟨_, rfl, PosDef.diagonal fun _ => by norm_num⟩, PosSemidef.one⟩

theorem exDtype_kf (z : ℝ) :
    kfFilter exDtype [⟨fun _ => z, fun _ => false⟩]
      = .ok [(fun _ => z / 5, fun _ _ => 4 / 5)] := by
  have hm : ¬ (⟨fun _ => z, fun _ => false⟩ : Obs 1).missing := by
    rintro ⟨i, hi⟩; cases hi
  have hp : pinv (1 + (diagonal fun _ => 4) : Mat 1 1) = diagonal fun _ => 1 / 5 := by
    apply pinv_eq_of_mul_eq_one
    ext i j
    fin_cases i; fin_cases j
    norm_num [Matrix.mul_apply]
  simp only [kfFilter, filterFull, filterLoop, filterStep, lastDims, filterCorrect, hm, exDtype, bind,
    Except.bind, pure, Except.pure, List.getElem?_cons_zero, not_false_eq_true, if_true, List.map_cons,
    List.map_nil, Except.ok.injEq, List.cons.injEq, and_true, Prod.mk.injEq, Matrix.one_mul,
    Matrix.transpose_one, hp]
  refine Prod.ext ?_ ?_
  · ext i
    fin_cases i
    simp [Matrix.mulVec, dotProduct]
    ring
  · ext i j
    fin_cases i; fin_cases j
    norm_num

/-- **C103 (finding).** So the claim of C30 fails for integer observation matrices: for a state
observed directly with noise of variance 4, `KalmanFilter.filter` moves the estimate to a fifth of
the value observed, `BiermanKalmanFilter.filter` returns for all values the same. -/
theorem C103_fails_for_integer_observation_matrices :
    ∃ p : Params 1 1, p.NoiseDef ∧ p.C = .seq [1] ∧
      (∀ z : ℝ, ∃ P, kfFilter p [⟨fun _ => z, fun _ => false⟩] = .ok [(fun _ => z / 5, P)]) ∧
      (∀ o o' : Obs 1, bierFilterStored id truncInt p [o] = bierFilterStored id truncInt p [o']) ∧
      ∃ o : Obs 1, bierFilterStored id truncInt p [o] ≠ kfFilter p [o] := by
  have hign : ∀ o o' : Obs 1, bierFilterStored id truncInt exDtype [o]
      = bierFilterStored id truncInt exDtype [o'] := fun o o' =>
    (C103_data_ignored_unit_sensors (by norm_num) exDtype_noiseDef (r := 4) (by norm_num) rfl rfl
      (fun X hX i j => by
        rw [List.mem_singleton.mp hX]
        fin_cases i; fin_cases j
        simp) (os := [o]) (os' := [o']) rfl le_rfl (List.cons_ne_nil _ _)).1
  refine ⟨exDtype, exDtype_noiseDef, rfl, fun z => ⟨_, exDtype_kf z⟩, hign, ?_⟩
  by_contra hcon
  push Not at hcon
  have h0 := hcon ⟨fun _ => 0, fun _ => false⟩
  have h5 := hcon ⟨fun _ => 5, fun _ => false⟩
  rw [hign _ ⟨fun _ => 5, fun _ => false⟩, h5, exDtype_kf, exDtype_kf] at h0
  simp only [Except.ok.injEq, List.cons.injEq, and_true, Prod.mk.injEq] at h0
  have := congrFun (Prod.mk.inj h0).1 0
  norm_num at this

/-! ### The hypotheses can be met -/

example : exDtype.NoiseDef ∧ exDtype.C = .seq [1] ∧ (1 : ℝ) < 4 ∧
    exDtype.R = .const (diagonal fun _ => 4) ∧
    (∃ v : Fin 1 → ℤ, exDtype.S0 = diagonal fun i => (v i : ℝ)) ∧
    IsCholesky (1 : Mat 1 1) 1 ∧ (∀ i j, ∃ k : ℤ, ((1 : Mat 1 1)⁻¹ * 1 : Mat 1 1) i j = k) := by
  refine ⟨exDtype_noiseDef, rfl, by norm_num, rfl, ⟨fun _ => 1, ?_⟩,
    ⟨fun i j hij => Matrix.one_apply_ne hij.ne, fun i => by simp, by simp⟩, fun i j => ⟨1, ?_⟩⟩
  · ext i j; fin_cases i; fin_cases j; simp [exDtype]
  · fin_cases i; fin_cases j; simp

end Verif
