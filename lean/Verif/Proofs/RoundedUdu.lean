import Verif.Model.RoundedBierman
import Verif.Proofs.RoundedEm
import Verif.Proofs.RoundedCholesky
import Verif.Proofs.BiermanStep
import Mathlib.Analysis.SpecialFunctions.Sqrt

/-!
# Factors of Bierman's filter in arithmetic with rounding errors

The factors of a positive definite matrix, computed by `udu` or `scipy.linalg.cholesky`, converge as
the errors go to zero, and so do the factors after a scalar update.
-/

open Matrix Topology

namespace Verif

variable {n m k l : ℕ} {c : ℕ → ℝ} {ι : Type} {F : Filter ι} {w : ι → ℝ}
variable {α β : Type}

/-! ### Success, for small errors -/

/-- The exact computation succeeds, the other one for small errors, with related values. -/
def EvNear (F : Filter ι) (R : (ι → α) → α → Prop) (f : ι → Res α) (a : Res α) : Prop :=
  ∃ v g, a = .ok v ∧ (∀ᶠ i in F, f i = .ok (g i)) ∧ R g v

theorem EvNear.pure {R : (ι → α) → α → Prop} {g : ι → α} {v : α} (h : R g v) :
    EvNear F R (fun i => (Pure.pure (g i) : Res α)) (Pure.pure v) :=
  ⟨v, g, rfl, Filter.Eventually.of_forall fun _ => rfl, h⟩

theorem EvNear.bind {R : (ι → α) → α → Prop} {S : (ι → β) → β → Prop} {f : ι → Res α} {a : Res α}
    (h : EvNear F R f a) {p : ι → α → Res β} {q : α → Res β}
    (hk : ∀ g v, a = .ok v → R g v → EvNear F S (fun i => p i (g i)) (q v)) :
    EvNear F S (fun i => f i >>= p i) (a >>= q) := by
  obtain ⟨v, g, rfl, hf, hR⟩ := h
  obtain ⟨v', g', hv, hg, hS⟩ := hk g v rfl hR
  refine ⟨v', g', hv, ?_, hS⟩
  filter_upwards [hf, hg] with i h1 h2
  rw [h1]
  exact h2

theorem RNear.ev {R : (ι → α) → α → Prop} {f : ι → Res α} {a : Res α} {v : α}
    (h : RNear R f a) (hv : a = .ok v) : EvNear F R f a := by
  subst hv
  obtain ⟨g, hg, hR⟩ := h
  exact ⟨v, g, rfl, Filter.Eventually.of_forall hg, hR⟩

/-! ### Quotients and arrays -/

section Basic

variable {er : ∀ i, ArithE c (w i)}

theorem Ow.div (hw : Filter.Tendsto w F (𝓝 0)) {x y : ι → ℝ} {a b : ℝ} (hx : Ow F w x a)
    (hy : Ow F w y b) (hb : b ≠ 0) : Ow F w (fun i => x i / y i) (a / b) := by
  have h := hy.comp hw (φ := fun t => t⁻¹) (differentiableAt_inv hb)
  simpa only [div_eq_mul_inv] using hx.mul hw h

theorem ow_fl_div (hw : Filter.Tendsto w F (𝓝 0)) {x y : ι → ℝ} {a b : ℝ}
    (hx : Ow F w x a) (hy : Ow F w y b) (hb : b ≠ 0) :
    Ow F w (fun i => (er i).divr (x i) (y i)) (a / b) := by
  have h := hx.div hw hy hb
  refine ow_of_err' (K := 1) h (h.bdd hw).abs ?_
  filter_upwards [(hy.tendsto hw).eventually_ne hb] with i hi
  rw [one_mul]
  exact (er i).divr_err _ _ hi

end Basic

/-- Entries of a one-dimensional array. -/
def OwA1 (F : Filter ι) (w : ι → ℝ) (f : ι → Arr1) (a : Arr1) : Prop :=
  ∀ r, Ow F w (fun i => f i r) (a r)

/-- Entries of a two-dimensional array. -/
def OwA2 (F : Filter ι) (w : ι → ℝ) (f : ι → Arr2) (a : Arr2) : Prop :=
  ∀ r q, Ow F w (fun i => f i r q) (a r q)

theorem OwA1.set {f : ι → Arr1} {a : Arr1} (h : OwA1 F w f a) (j : ℕ) {x : ι → ℝ} {y : ℝ}
    (hx : Ow F w x y) : OwA1 F w (fun i => (f i).set j (x i)) (a.set j y) := by
  intro r
  simp only [Arr1.set]
  split_ifs
  · exact hx
  · exact h r

theorem OwA2.set {f : ι → Arr2} {a : Arr2} (h : OwA2 F w f a) (j q : ℕ) {x : ι → ℝ} {y : ℝ}
    (hx : Ow F w x y) : OwA2 F w (fun i => (f i).set j q (x i)) (a.set j q y) := by
  intro r s
  simp only [Arr2.set]
  split_ifs
  · exact hx
  · exact h r s

theorem owA1_const (a : Arr1) : OwA1 F w (fun _ => a) a := fun _ => ow_const _

theorem owA2_const (a : Arr2) : OwA2 F w (fun _ => a) a := fun _ _ => ow_const _

theorem owA1_arr1 {x : ι → Vec n} {a : Vec n} (h : OwV F w x a) :
    OwA1 F w (fun i => arr1 (x i)) (arr1 a) := by
  intro r
  simp only [arr1]
  split_ifs with hr
  · exact h _
  · exact ow_const _

theorem owA2_arr2 {M : ι → Mat n n} {a : Mat n n} (h : OwM F w M a) :
    OwA2 F w (fun i => arr2 (M i)) (arr2 a) := by
  intro r q
  simp only [arr2]
  split_ifs with hr
  · exact h _ _
  · exact ow_const _

/-- Factors. -/
structure UDNear (F : Filter ι) (w : ι → ℝ) (f : ι → UDU n) (a : UDU n) : Prop where
  U : OwM F w (fun i => (f i).U) a.U
  D : OwV F w (fun i => (f i).D) a.D

/-- The arrays of `udu`. -/
structure UNear (F : Filter ι) (w : ι → ℝ) (f : ι → UduState) (a : UduState) : Prop where
  M : OwA2 F w (fun i => (f i).M) a.M
  U : OwA2 F w (fun i => (f i).U) a.U
  d : OwA1 F w (fun i => (f i).d) a.d

/-! ### `udu` -/

variable {ar : ∀ i, ArithEL c (w i)}

theorem near_flUduInner (hw : Filter.Tendsto w F (𝓝 0)) (j q : ℕ) {alpha : ι → ℝ} {alpha' : ℝ}
    (ha : Ow F w alpha alpha') {s : ι → UduState} {s' : UduState} (h : UNear F w s s') :
    UNear F w (fun i => flUduInner (ar i) j (alpha i) (s i) q) (uduInner id j alpha' s' q) := by
  have hU : OwA2 F w (fun i => (s i).U.set (q + 1 - 1) (j - 1)
      ((ar i).mulr (alpha i) ((s i).M (q + 1 - 1) (j - 1))))
      (s'.U.set (q + 1 - 1) (j - 1) (alpha' * s'.M (q + 1 - 1) (j - 1))) :=
    h.U.set _ _ (ow_fl_mulr (er := fun i => (ar i).toArithE) hw ha (h.M _ _))
  refine ⟨fun r p => ?_, hU, h.d⟩
  simp only [flUduInner, uduInner, id]
  split_ifs
  · exact ow_fl_sub (br := fun i => (ar i).toArith) hw (h.M _ _)
      (ow_fl_mulr (er := fun i => (ar i).toArithE) hw (h.M _ _) (hU _ _))
  · exact h.M r p

theorem near_uduFold (hw : Filter.Tendsto w F (𝓝 0)) (j : ℕ) {alpha : ι → ℝ} {alpha' : ℝ}
    (ha : Ow F w alpha alpha') (qs : List ℕ) {s : ι → UduState} {s' : UduState}
    (h : UNear F w s s') :
    UNear F w (fun i => qs.foldl (flUduInner (ar i) j (alpha i)) (s i))
      (qs.foldl (uduInner id j alpha') s') := by
  induction qs generalizing s s' with
  | nil => exact h
  | cons q qs ih => exact ih (near_flUduInner hw j q ha h)

theorem near_flUduCol (hw : Filter.Tendsto w F (𝓝 0)) (j : ℕ) {s : ι → UduState} {s' : UduState}
    (h : UNear F w s s') (hpos : 0 < s'.M (j - 1) (j - 1)) :
    UNear F w (fun i => flUduCol (ar i) j (s i)) (uduCol id j s') := by
  have hd := h.d.set (j - 1) (h.M (j - 1) (j - 1))
  have hdj := hd (j - 1)
  have e : (s'.d.set (j - 1) (s'.M (j - 1) (j - 1))) (j - 1) = s'.M (j - 1) (j - 1) := by
    simp [Arr1.set]
  rw [e] at hdj
  refine near_uduFold hw j ?_ _ ⟨h.M, h.U, hd⟩
  have h1 := ow_fl_div (er := fun i => (ar i).toArithE) hw (ow_const 1) hdj hpos.ne'
  rw [e, if_pos hpos, show (1.0 : ℝ) = 1 by norm_num]
  refine h1.congr_ev ?_
  filter_upwards [(hdj.tendsto hw).eventually (lt_mem_nhds hpos)] with i hi
  rw [if_pos hi]

theorem uduInner_fold_d (store : ℝ → ℝ) (j : ℕ) (alpha : ℝ) (qs : List ℕ) (s : UduState) :
    (qs.foldl (uduInner store j alpha) s).d = s.d := by
  induction qs generalizing s with
  | nil => rfl
  | cons q qs ih => exact ih _

theorem uduCol_d (store : ℝ → ℝ) (j : ℕ) (s : UduState) :
    (uduCol store j s).d = s.d.set (j - 1) (s.M (j - 1) (j - 1)) := uduInner_fold_d _ _ _ _ _

theorem uduLoop_d (store : ℝ → ℝ) (q : ℕ) (s : UduState) {r : ℕ} (hr : q < r) :
    (uduLoop store q s).d r = s.d r := by
  induction q generalizing s with
  | zero => rfl
  | succ q ih =>
    rw [uduLoop, ih _ (by omega), uduCol_d, Arr1.set, if_neg (by omega)]

theorem near_flUduLoop (hw : Filter.Tendsto w F (𝓝 0)) (q : ℕ) {s : ι → UduState} {s' : UduState}
    (h : UNear F w s s') (hpos : ∀ r, 0 < r → r ≤ q → 0 < (uduLoop id q s').d r) :
    UNear F w (fun i => flUduLoop (ar i) q (s i)) (uduLoop id q s') := by
  induction q generalizing s s' with
  | zero => exact h
  | succ q ih =>
    have hp := hpos (q + 1) (by omega) le_rfl
    rw [uduLoop, uduLoop_d _ _ _ (by omega), uduCol_d, Arr1.set, if_pos (by omega)] at hp
    exact ih (near_flUduCol hw _ h hp) fun r h0 hr => hpos r h0 (by omega)

/-- The factors of a positive definite matrix have a positive diagonal. -/
theorem UDU.Valid.pos {a : UDU n} (h : a.Valid) (hd : a.reconstruct.PosDef) (i : Fin n) :
    0 < a.D i := by
  have hU : a.U.det = 1 := by
    rw [Matrix.det_of_upperTriangular (fun p q hpq => h.upper p q hpq)]
    exact Finset.prod_eq_one fun p _ => h.diag p
  have e : a.reconstruct.det = ∏ i, a.D i := by
    rw [UDU.reconstruct, det_mul, det_mul, det_transpose, hU, det_diagonal]
    ring
  have hpos := hd.det_pos
  rw [e] at hpos
  refine lt_of_le_of_ne (h.nonneg i) fun h0 => hpos.ne' ?_
  exact Finset.prod_eq_zero (Finset.mem_univ i) h0.symm

theorem near_flUdu (hw : Filter.Tendsto w F (𝓝 0)) (hn : 0 < n) {M : ι → Mat n n} {M' : Mat n n}
    (hM : OwM F w M M') (hp : M'.PosDef) :
    EvNear F (fun g a => UDNear F w g a ∧ a.Valid ∧ a.reconstruct = M')
      (fun i => flUdu (ar i) (M i)) (udu id M') := by
  obtain ⟨a, ha, hv, hr⟩ := udu_posSemidef hp.posSemidef hn
  have hpos := hv.pos (by rw [hr]; exact hp)
  set s0 : UduState := ⟨fun i j => if i ≤ j then arr2 M' i j else 0,
    fun i j => if i = j then 1 else 0, fun _ => 0⟩ with hs0
  set s := uduLoop id (n - 1) s0 with hs
  have hsym : M'ᵀ = M' := symm_of_posSemidef hp.posSemidef
  have ea : a = ⟨mat2 n s.U, vec1 n (s.d.set 0 (s.M 0 0))⟩ := by
    rw [udu, if_pos (allCloseT_of_symm hsym), if_neg (by omega)] at ha
    exact (Except.ok.inj ha).symm
  have h0 : UNear F w (fun i => ⟨fun r q => if r ≤ q then arr2 (M i) r q else 0,
      fun i j => if i = j then 1 else 0, fun _ => 0⟩) s0 := by
    refine ⟨fun r q => ?_, owA2_const _, owA1_const _⟩
    simp only [hs0]
    split_ifs
    · exact owA2_arr2 hM r q
    · exact ow_const _
  have h1 := near_flUduLoop (ar := ar) hw (n - 1) h0 fun r hr0 hrn => by
    have := hpos ⟨r, by omega⟩
    rw [ea] at this
    simp only [vec1, Arr1.set, if_neg hr0.ne'] at this
    exact this
  refine ⟨a, fun i => ⟨mat2 n (flUduLoop (ar i) (n - 1) ⟨fun r q => if r ≤ q then arr2 (M i) r q
      else 0, fun i j => if i = j then 1 else 0, fun _ => 0⟩).U,
    vec1 n ((flUduLoop (ar i) (n - 1) ⟨fun r q => if r ≤ q then arr2 (M i) r q
      else 0, fun i j => if i = j then 1 else 0, fun _ => 0⟩).d.set 0
      ((flUduLoop (ar i) (n - 1) ⟨fun r q => if r ≤ q then arr2 (M i) r q
      else 0, fun i j => if i = j then 1 else 0, fun _ => 0⟩).M 0 0))⟩, ha, ?_, ?_, hv, hr⟩
  · have hclose : ∀ᶠ i in F, FlAllCloseT (ar i) (M i) := by
      simp only [FlAllCloseT]
      refine Filter.eventually_all.mpr fun p => Filter.eventually_all.mpr fun q => ?_
      have hs : M' p q = M' q p := congrFun (congrFun hsym q) p
      have h2 := ow_fl_sub (br := fun i => (ar i).toArith) hw (hM p q) (hM q p)
      have h3 := ow_fl_add (br := fun i => (ar i).toArith) hw (ow_const 1e-8)
        (ow_fl_mulr (er := fun i => (ar i).toArithE) hw (ow_const 1e-5)
          (x := fun _ => 1e-5) (y := fun i => |M i q p|) (b := |M' q p|) ?_)
      · rw [hs, sub_self] at h2
        have h4 : (|0| : ℝ) < 1e-8 + 1e-5 * |M' q p| := by
          rw [abs_zero]
          positivity
        exact ((h2.tendsto hw).abs.eventually_lt (h3.tendsto hw) h4).mono fun i hi => hi.le
      · have := (hM q p)
        refine Asymptotics.IsBigO.trans (Asymptotics.IsBigO.of_bound 1
          (Filter.Eventually.of_forall fun i => ?_)) this
        rw [one_mul, Real.norm_eq_abs, Real.norm_eq_abs]
        exact abs_abs_sub_abs_le _ _
    filter_upwards [hclose] with i hi
    rw [flUdu, if_pos hi, if_neg (by omega)]
  · rw [ea]
    exact ⟨fun p q => h1.U p q, fun p => h1.d.set 0 (h1.M 0 0) p⟩

/-! ### `scipy.linalg.cholesky` -/

theorem IsCholesky.entry {A L : Mat k k} (h : IsCholesky A L) (i j : Fin k) :
    A i j = ∑ q ∈ Finset.univ.filter (· < j), L i q * L j q + L i j * L j j := by
  rw [← h.mul_transpose, Matrix.mul_apply]
  simp only [transpose_apply]
  have hz : ∀ q, j < q → L j q = 0 := fun q hq => h.lower j q hq
  rw [← Finset.sum_filter_add_sum_filter_not Finset.univ (· < j)]
  congr 1
  rw [Finset.sum_eq_single j]
  · intro q hq hqj
    have : j < q := lt_of_le_of_ne (not_lt.mp (Finset.mem_filter.mp hq).2) (Ne.symm hqj)
    rw [hz q this, mul_zero]
  · intro hj
    simp at hj

/-- Cholesky factors of matrices near a positive definite one. -/
theorem owM_isCholesky (hw : Filter.Tendsto w F (𝓝 0)) {N L : ι → Mat k k} {S L' : Mat k k}
    (hN : OwM F w N S) (hL : ∀ᶠ i in F, IsCholesky (N i) (L i)) (hL' : IsCholesky S L') :
    OwM F w L L' := by
  have key : ∀ (a : ℕ) (j : Fin k), (j : ℕ) = a → ∀ p, Ow F w (fun i => L i p j) (L' p j) := by
    intro a
    induction a using Nat.strong_induction_on with
    | _ a ih =>
      rintro j rfl p
      have hs : ∀ p, Ow F w (fun i => N i p j - ∑ q ∈ Finset.univ.filter (· < j), L i p q * L i j q)
          (L' p j * L' j j) := by
        intro p
        have h1 : Ow F w (fun i => ∑ q ∈ Finset.univ.filter (· < j), L i p q * L i j q)
            (∑ q ∈ Finset.univ.filter (· < j), L' p q * L' j q) :=
          Ow.sum fun q hq => by
            have hq : q < j := (Finset.mem_filter.mp hq).2
            exact (ih q hq q rfl p).mul hw (ih q hq q rfl j)
        have := (hN p j).sub h1
        rwa [hL'.entry p j, add_sub_cancel_left] at this
      have hd : Ow F w (fun i => L i j j) (L' j j) := by
        have h1 := (hs j).comp hw (φ := Real.sqrt)
          (Real.hasDerivAt_sqrt (mul_pos (hL'.diag_pos j) (hL'.diag_pos j)).ne').differentiableAt
        rw [Real.sqrt_mul_self (hL'.diag_pos j).le] at h1
        refine h1.congr_ev (hL.mono fun i hi => ?_)
        rw [hi.entry j j, add_sub_cancel_left, Real.sqrt_mul_self (hi.diag_pos j).le]
      have h2 := (hs p).div hw hd (hL'.diag_pos j).ne'
      rw [mul_div_cancel_right₀ _ (hL'.diag_pos j).ne'] at h2
      refine h2.congr_ev (hL.mono fun i hi => ?_)
      rw [hi.entry p j, add_sub_cancel_left, mul_div_cancel_right₀ _ (hi.diag_pos j).ne']
  exact fun p j => key j j rfl p

theorem near_chol (hw : Filter.Tendsto w F (𝓝 0)) {M : ι → Mat k k} {S : Mat k k}
    (hM : OwM F w M S) (hS : S.PosDef) :
    EvNear F (fun g v => OwM F w g v ∧ IsCholesky S v) (fun i => (ar i).chol k (M i))
      (cholesky S) := by
  obtain ⟨L', e, hL'⟩ := cholesky_of_posDef hS
  obtain ⟨L, N, h1, h2, h3⟩ := ow_chol (br := fun i => (ar i).toArithL) hw hM hS
  exact ⟨L', L, e, h1, owM_isCholesky hw h3 h2 hL', hL'⟩

/-! ### Scalar updates -/

/-- The arrays of `_filter_correct_single`. -/
structure SingleNear (F : Filter ι) (w : ι → ℝ) (f : ι → SingleState) (a : SingleState) : Prop where
  gamma : OwA1 F w (fun i => (f i).gamma) a.gamma
  U : OwA2 F w (fun i => (f i).U) a.U
  D : OwA1 F w (fun i => (f i).D) a.D
  k : OwA1 F w (fun i => (f i).k) a.k

theorem near_flSingleBody (hw : Filter.Tendsto w F (𝓝 0)) {U : ι → Arr2} {U' : Arr2}
    {D f g : ι → Arr1} {D' f' g' : Arr1} (hU : OwA2 F w U U') (hD : OwA1 F w D D')
    (hf : OwA1 F w f f') (hg : OwA1 F w g g') {s : ι → SingleState} {s' : SingleState}
    (h : SingleNear F w s s') (q : ℕ) (h0 : s'.gamma q ≠ 0)
    (h1 : s'.gamma q + g' (q + 1) * f' (q + 1) ≠ 0) :
    SingleNear F w (fun i => flSingleBody (ar i) (U i) (D i) (f i) (g i) (s i) q)
      (singleBody U' D' f' g' s' q) := by
  have hm : ∀ {x y : ι → ℝ} {a b : ℝ}, Ow F w x a → Ow F w y b →
      Ow F w (fun i => (ar i).mulr (x i) (y i)) (a * b) := fun hx hy =>
    ow_fl_mulr (er := fun i => (ar i).toArithE) hw hx hy
  have hG : OwA1 F w (fun i => (s i).gamma.set (q + 1)
      ((ar i).add ((s i).gamma (q + 1 - 1)) ((ar i).mulr (g i (q + 1)) (f i (q + 1)))))
      (s'.gamma.set (q + 1) (s'.gamma (q + 1 - 1) + g' (q + 1) * f' (q + 1))) :=
    h.gamma.set _ (ow_fl_add (br := fun i => (ar i).toArith) hw (h.gamma _) (hm (hg _) (hf _)))
  refine ⟨hG, fun r p => ?_, ?_, fun r => ?_⟩
  · simp only [flSingleBody, singleBody]
    split_ifs
    · refine ow_fl_sub (br := fun i => (ar i).toArith) hw (hU _ _) (hm ?_ (h.k r))
      refine ow_fl_div (er := fun i => (ar i).toArithE) hw (hf _) (hG _) ?_
      simpa [Arr1.set] using h0
    · exact h.U r p
  · refine h.D.set _ (ow_fl_div (er := fun i => (ar i).toArithE) hw (hm (hD _) (hG _)) (hG _) ?_)
    simpa [Arr1.set] using h1
  · exact ow_fl_add (br := fun i => (ar i).toArith) hw (h.k r) (hm (hg _) (hU _ _))

theorem single_gamma_pos {U : Arr2} {D f g : Arr1} (hg : ∀ q, 0 ≤ g q * f q) (s : SingleState)
    (h0 : 0 < s.gamma 0) (i : ℕ) :
    0 < ((List.range i).foldl (singleBody U D f g) s).gamma i := by
  induction i with
  | zero => exact h0
  | succ i ih =>
    rw [List.range_succ, List.foldl_append]
    simp only [List.foldl_cons, List.foldl_nil, singleBody, Arr1.set, if_true,
      Nat.add_sub_cancel]
    exact add_pos_of_pos_of_nonneg ih (hg _)

theorem near_singleFold (hw : Filter.Tendsto w F (𝓝 0)) {U : ι → Arr2} {U' : Arr2}
    {D f g : ι → Arr1} {D' f' g' : Arr1} (hU : OwA2 F w U U') (hD : OwA1 F w D D')
    (hf : OwA1 F w f f') (hg : OwA1 F w g g') (hgf : ∀ q, 0 ≤ g' q * f' q) {s : ι → SingleState}
    {s' : SingleState} (h : SingleNear F w s s') (h0 : 0 < s'.gamma 0) (r : ℕ) :
    SingleNear F w
      (fun i => (List.range r).foldl (flSingleBody (ar i) (U i) (D i) (f i) (g i)) (s i))
      ((List.range r).foldl (singleBody U' D' f' g') s') := by
  induction r with
  | zero => exact h
  | succ r ih =>
    simp only [List.range_succ, List.foldl_append, List.foldl_cons, List.foldl_nil]
    have hp := single_gamma_pos (U := U') (D := D') hgf s' h0 r
    exact near_flSingleBody hw hU hD hf hg ih r hp.ne'
      (add_pos_of_pos_of_nonneg hp (hgf _)).ne'

theorem near_flCorrectSingle (hw : Filter.Tendsto w F (𝓝 0)) {a : ι → UDU n} {a' : UDU n}
    (ha : UDNear F w a a') (hv : a'.Valid) {h : ι → Vec n} {h' : Vec n} (hh : OwV F w h h')
    {R : ℝ} (hR : 0 < R) :
    UDNear F w (fun i => (flCorrectSingle (ar i) (a i) (h i) R).1) (correctSingle a' h' R).1 ∧
    OwV F w (fun i => (flCorrectSingle (ar i) (a i) (h i) R).2) (correctSingle a' h' R).2 := by
  have hm : ∀ {x y : ι → ℝ} {a b : ℝ}, Ow F w x a → Ow F w y b →
      Ow F w (fun i => (ar i).mulr (x i) (y i)) (a * b) := fun hx hy =>
    ow_fl_mulr (er := fun i => (ar i).toArithE) hw hx hy
  have hf : OwV F w (fun i j => (ar i).dot n (h i) fun q => (a i).U q j) (h' ᵥ* a'.U) := fun j =>
    ow_fl_dot (br := fun i => (ar i).toArith) hw hh (fun q => ha.U q j)
  have hdiag : OwM F w (fun i => diagonal (a i).D) (diagonal a'.D) := fun p q => by
    simp only [diagonal_apply]
    split_ifs
    · exact ha.D p
    · exact ow_const _
  have hg := ow_fl_mulV (br := fun i => (ar i).toArith) hw hdiag hf
  have hgf : ∀ q : Fin n, 0 ≤ (diagonal a'.D *ᵥ (h' ᵥ* a'.U)) q * (h' ᵥ* a'.U) q := fun q => by
    rw [mulVec_diagonal, mul_assoc]
    exact mul_nonneg (hv.nonneg q) (mul_self_nonneg _)
  have hgf' : ∀ q : ℕ, 0 ≤ arr1 (diagonal a'.D *ᵥ (h' ᵥ* a'.U)) q * arr1 (h' ᵥ* a'.U) q := fun q => by
    simp only [arr1]
    split_ifs with hq
    · exact hgf _
    · simp
  have hpos : 0 < R + arr1 (diagonal a'.D *ᵥ (h' ᵥ* a'.U)) 0 * arr1 (h' ᵥ* a'.U) 0 :=
    add_pos_of_pos_of_nonneg hR (hgf' 0)
  have hpos' : 0 < Arr1.set (fun _ => 0) 0
      (R + arr1 (diagonal a'.D *ᵥ (h' ᵥ* a'.U)) 0 * arr1 (h' ᵥ* a'.U) 0) 0 := by
    simpa [Arr1.set] using hpos
  have hG : OwA1 F w (fun i => Arr1.set (fun _ => 0) 0 ((ar i).add R ((ar i).mulr
      (arr1 ((ar i).mulV (diagonal (a i).D) fun j => (ar i).dot n (h i) fun q => (a i).U q j) 0)
      (arr1 (fun j => (ar i).dot n (h i) fun q => (a i).U q j) 0)))) _ :=
    (owA1_const fun _ => 0).set 0 (ow_fl_add (br := fun i => (ar i).toArith) hw (ow_const R)
      (hm (owA1_arr1 hg 0) (owA1_arr1 hf 0)))
  have key := near_singleFold (ar := ar) hw (owA2_arr2 ha.U) (owA1_arr1 ha.D) (owA1_arr1 hf)
    (owA1_arr1 hg) hgf' (s := fun i => ⟨_, Arr2.set (fun _ _ => 0) 0 0 1, _, _⟩)
    (s' := ⟨Arr1.set (fun _ => 0) 0
        (R + arr1 (diagonal a'.D *ᵥ (h' ᵥ* a'.U)) 0 * arr1 (h' ᵥ* a'.U) 0),
      Arr2.set (fun _ _ => 0) 0 0 1, Arr1.set (fun _ => 0) 0 (arr1 a'.D 0 * R
        / Arr1.set (fun _ => 0) 0
          (R + arr1 (diagonal a'.D *ᵥ (h' ᵥ* a'.U)) 0 * arr1 (h' ᵥ* a'.U) 0) 0),
      Arr1.set (fun _ => 0) 0 (arr1 (diagonal a'.D *ᵥ (h' ᵥ* a'.U)) 0)⟩)
    ⟨hG, owA2_const _, (owA1_const fun _ => 0).set 0
      (ow_fl_div (er := fun i => (ar i).toArithE) hw (hm (owA1_arr1 ha.D 0) (ow_const R)) (hG 0)
        hpos'.ne'),
      (owA1_const fun _ => 0).set 0 (owA1_arr1 hg 0)⟩ hpos' (n - 1)
  refine ⟨⟨fun p q => key.U p q, fun p => key.D p⟩, fun p => ?_⟩
  have halpha : 0 < (h' ᵥ* a'.U) ⬝ᵥ (diagonal a'.D *ᵥ (h' ᵥ* a'.U)) + R := by
    refine add_pos_of_nonneg_of_pos (Finset.sum_nonneg fun q _ => ?_) hR
    rw [mul_comm]
    exact hgf q
  have := ow_fl_div (er := fun i => (ar i).toArithE) hw (key.k p)
    (ow_fl_add (br := fun i => (ar i).toArith) hw
      (ow_fl_dot (br := fun i => (ar i).toArith) hw hf hg) (ow_const R)) halpha.ne'
  rw [div_eq_inv_mul, inv_eq_one_div] at this
  exact this

end Verif
