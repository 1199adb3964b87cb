import Verif.Proofs.SqrtSmoothTwo
import Verif.Props.Unscented

/-!
# C40, C41: the square-root unscented filter
-/

open Matrix

namespace Verif

variable {n m v : ℕ}

/-! ### C41 -/

/-- **C41.** For an upper triangular `A2` with nonzero diagonal (of any sign), vectors in the rows of
`X` and any weight for which the updated matrix is positive definite, `cholupdate` returns an upper
triangular factor of `A2ᵀ A2 + w Σ xᵢ xᵢᵀ`. -/
theorem C41_cholupdate {A : Mat n n} (hA : ∀ i j, j < i → A i j = 0) (hd : ∀ i, A i i ≠ 0)
    (X : Mat v n) (w : ℝ) (hM : (Aᵀ * A + w • ∑ i, vecMulVec (X i) (X i)).PosDef) :
    ∃ B, cholupdate A X w = .ok B ∧ (∀ i j, j < i → B i j = 0) ∧
      Bᵀ * B = Aᵀ * A + w • ∑ i, vecMulVec (X i) (X i) := by
  rw [← sum_vecMulVec] at hM ⊢
  obtain ⟨B, h1, h2, -, h4⟩ := cholupdate_spec ⟨hA, hd⟩ X w hM
  exact ⟨B, h1, h2.upper, h4⟩

/-- **C41.** With at least one vector, the result is what `linalg.cholesky` returns for the updated
matrix. -/
theorem C41_eq_cholesky {A : Mat n n} (hA : ∀ i j, j < i → A i j = 0) (hd : ∀ i, A i i ≠ 0)
    (X : Mat v n) (hv : 0 < v) (w : ℝ)
    (hM : (Aᵀ * A + w • ∑ i, vecMulVec (X i) (X i)).PosDef) :
    cholupdate A X w = cholUpper (Aᵀ * A + w • ∑ i, vecMulVec (X i) (X i)) := by
  rw [← sum_vecMulVec] at hM ⊢
  obtain ⟨B, h1, h2, h3, h4⟩ := cholupdate_spec ⟨hA, hd⟩ X w hM
  have hB : IsCholesky (Aᵀ * A + w • (Xᵀ * X)) Bᵀ :=
    ⟨fun i j hij => h2.upper j i hij, fun i => h3 hv i, by rw [transpose_transpose, h4]⟩
  rw [h1, cholUpper, cholUpperT, symm_of_posSemidef hM.posSemidef, cholesky_eq_ok hB]
  simp only [bind, Except.bind, pure, Except.pure, transpose_transpose]

/-- **C41.** Updates with a nonnegative weight need no further condition. -/
theorem C41_update {A : Mat n n} (hA : ∀ i j, j < i → A i j = 0) (hd : ∀ i, A i i ≠ 0)
    (X : Mat v n) {w : ℝ} (hw : 0 ≤ w) :
    ∃ B, cholupdate A X w = .ok B ∧ (∀ i j, j < i → B i j = 0) ∧
      Bᵀ * B = Aᵀ * A + w • ∑ i, vecMulVec (X i) (X i) := by
  refine C41_cholupdate hA hd X w ?_
  rw [← sum_vecMulVec]
  have h := posSemidef_conj' (PosSemidef.one : (1 : Mat v v).PosSemidef) Xᵀ
  rw [Matrix.mul_one, transpose_transpose] at h
  exact (UFactor.posDef ⟨hA, hd⟩).add_posSemidef (h.smul hw)

/-- **C41 (limit of the claim).** If the matrix after a downdate is not positive semidefinite,
`cholupdate` does not raise but returns a factor of another matrix: `1 - 2²` becomes `0`. -/
theorem C41_clips : ∃ B : Mat 1 1, cholupdate (1 : Mat 1 1) (Matrix.of fun (_ _ : Fin 1) => 2) (-1) = .ok B ∧
    Bᵀ * B = 0 := by
  refine ⟨0, ?_, by simp⟩
  have hs : Real.sign (-1) = -1 := Real.sign_of_neg (by norm_num)
  simp only [cholupdate, hs, abs_neg, abs_one, Real.sqrt_one, one_smul]
  have hf : List.finRange 1 = [0] := rfl
  rw [hf]
  simp only [List.foldlM_cons, List.foldlM_nil, cholupdateVec, hf, bind, Except.bind, pure,
    Except.pure]
  have hr : cholupdateR (-1) ((1 : Mat 1 1) 0 0) ((Matrix.of fun (_ _ : Fin 1) => (2 : ℝ)) 0 0) = 0 := by
    rw [cholupdateR]
    norm_num
  have : ¬ (((0 : Fin 1) : ℕ) + 1 < 1 ∧ ((1 : Mat 1 1) 0 0 = 0
      ∨ cholupdateR (-1) ((1 : Mat 1 1) 0 0) ((Matrix.of fun (_ _ : Fin 1) => (2 : ℝ)) 0 0) = 0)) := by
    rintro ⟨h, -⟩; simp at h
  rw [cholupdateStep_eq, if_neg this, hr]
  simp only
  congr 1
  ext i j
  have hi : i = 0 := Subsingleton.elim _ _
  have hj : j = 0 := Subsingleton.elim _ _
  subst hi hj
  rw [updateRow_self, cuRow_self]
  rfl

/-- **C41 (limit of the claim).** A downdate to a singular matrix can divide by zero, although the
result exists: `diag(1, 1) - e₀ e₀ᵀ`. -/
theorem C41_singular : cholupdate (1 : Mat 2 2) (Matrix.of fun (_ : Fin 1) => ![1, 0]) (-1)
    = .error .nonFinite := by
  have hs : Real.sign (-1) = -1 := Real.sign_of_neg (by norm_num)
  simp only [cholupdate, hs, abs_neg, abs_one, Real.sqrt_one, one_smul]
  have hf : List.finRange 1 = [0] := rfl
  have hf2 : List.finRange 2 = [0, 1] := rfl
  rw [hf]
  simp only [List.foldlM_cons, cholupdateVec, hf2]
  have hr : cholupdateR (-1) ((1 : Mat 2 2) 0 0) ((Matrix.of fun (_ : Fin 1) => ![(1 : ℝ), 0]) 0 0) = 0 := by
    simp [cholupdateR]
  rw [cholupdateStep_eq, if_pos ⟨by decide, Or.inr hr⟩]
  rfl

/-! ### C40: where the square-root filter agrees with the additive filter -/

theorem cholUpper_diagonal {q : Vec n} (hq : (diagonal q : Mat n n).PosDef) :
    cholUpper (diagonal q) = .ok (diagonal fun i => Real.sqrt (q i)) := by
  have hpos : ∀ i, 0 < q i := fun i => by simpa using hq.diag_pos (i := i)
  have : IsCholesky (diagonal q) (diagonal fun i => Real.sqrt (q i)) := by
    refine ⟨fun i j hij => diagonal_apply_ne _ hij.ne, fun i => ?_, ?_⟩
    · rw [diagonal_apply_eq]; exact Real.sqrt_pos.mpr (hpos i)
    · rw [diagonal_transpose, diagonal_mul_diagonal]
      congr 1
      funext i
      exact Real.mul_self_sqrt (hpos i).le
  rw [cholUpper, cholUpperT, diagonal_transpose, cholesky_eq_ok this]
  simp only [bind, Except.bind, pure, Except.pure, diagonal_transpose]

theorem root_map {l l2 : List (Moments n)} (h : List.Forall₂ Root l l2) :
    l2.map Moments.unroot = l := by
  induction h with
  | nil => rfl
  | cons h _ ih => rw [List.map_cons, h.unroot, ih]

theorem sqFilter_eq (qr : QR) {u : UParams n 1} (hu : StepFine u) {q : Vec n}
    (hq : u.Q = diagonal q) (hQ : u.Q.PosDef) (hR : u.R.PosDef) (hS : u.S0.PosDef)
    {os : List (Obs 1)} {l : List (Moments n)} (h : aukfFilter u os = .ok l) :
    ∃ Q2 R2 l2, cholUpper u.Q = .ok Q2 ∧ cholUpper u.R = .ok R2 ∧ Q2 * Q2ᵀ = u.Q ∧ R2 * R2ᵀ = u.R ∧
      runLoop (sqStep qr u Q2 R2) 0 none os = .ok l2 ∧ List.Forall₂ Root l l2 := by
  obtain ⟨R2, r1, -, -, r4, -⟩ := cholUpper_spec hR
  have hQ2 := hQ
  rw [hq] at hQ2
  have q1 := cholUpper_diagonal hQ2
  have hq2 : (diagonal fun i => Real.sqrt (q i)) * (diagonal fun i => Real.sqrt (q i))ᵀ = u.Q := by
    rw [hq, diagonal_transpose, diagonal_mul_diagonal]
    congr 1
    funext i
    have : 0 < q i := by simpa using hQ2.diag_pos (i := i)
    exact Real.mul_self_sqrt this.le
  rw [← normal_one] at r4
  obtain ⟨l2, h1, h2⟩ := sqLoop_spec qr hu hS hq2 r4 os 0 Option.Rel.none h
  exact ⟨_, R2, l2, by rw [hq]; exact q1, r1, hq2, r4, h1, h2⟩

/-- **C40 (partial).** With at most three state dimensions, one observation dimension, a diagonal
transition covariance, and positive definite covariances, the square-root filter returns exactly what
the additive unscented filter returns: arbitrary functions, all data.  Missing: more observation
dimensions, correlated transition noise, more state dimensions, for which the claim is false, see
below. -/
theorem C40_filter_partial (qr : QR) (hn : n ≤ 3) {u : UParams n 1} {q : Vec n}
    (hq : u.Q = diagonal q) (hQ : u.Q.PosDef) (hR : u.R.PosDef) (hS : u.S0.PosDef)
    {os : List (Obs 1)} {l : List (Moments n)} (h : aukfFilter u os = .ok l) :
    sqFilter qr u os = .ok l := by
  obtain ⟨Q2, R2, l2, h1, h2, -, -, h5, h6⟩ :=
    sqFilter_eq qr (stepFine_of_le_three hn hQ hR) hq hQ hR hS h
  simp only [sqFilter, sqFull, h1, h2, h5, bind, Except.bind, pure, Except.pure, root_map h6]

/-- **C40 (partial).** For affine functions there is no restriction on the number of state
dimensions (together with C35: the square-root filter is then the Kalman filter). -/
theorem C40_affine_filter_partial (qr : QR) {u : UParams n 1} {q : Vec n}
    (hf : ∀ t f, u.f.at t = .ok f → ∃ (A : Mat n n) (b : Vec n), ∀ x, f x = A *ᵥ x + b)
    (hg : ∀ t g, u.g.at t = .ok g → ∃ (C : Mat 1 n) (d : Vec 1), ∀ x, g x = C *ᵥ x + d)
    (hq : u.Q = diagonal q) (hQ : u.Q.PosDef) (hR : u.R.PosDef) (hS : u.S0.PosDef)
    {os : List (Obs 1)} {l : List (Moments n)} (h : aukfFilter u os = .ok l) :
    sqFilter qr u os = .ok l := by
  obtain ⟨Q2, R2, l2, h1, h2, -, -, h5, h6⟩ :=
    sqFilter_eq qr (stepFine_of_affine hQ hR hf hg) hq hQ hR hS h
  simp only [sqFilter, sqFull, h1, h2, h5, bind, Except.bind, pure, Except.pure, root_map h6]

/-- **C40 (partial).** Under the same conditions `filter_update` returns the moments that
`filter_update` of the additive filter returns (up to the shape of the covariance array, C44). -/
theorem C40_filter_update_partial (qr : QR) (hn : n ≤ 3) {u : UParams n 1} {M : Moments n}
    {o : Option (Obs 1)} {a : UUpdateArgs n 1} {q : Vec n} (hq : a.Q.getD u.Q = diagonal q)
    (hQ : (a.Q.getD u.Q).PosDef) (hR : (a.R.getD u.R).PosDef) (hM : M.cov.PosDef)
    {M' : Moments n} (h : aukfUpdate u M o a = .ok M') : sqUpdate qr u M o a = .ok M' := by
  have hfu : ∀ f g, defaultFunction a.f u.f = .ok f → defaultFunction a.g u.g = .ok g →
      aukfStep (⟨.flat [f], .flat [g], a.Q.getD u.Q, a.R.getD u.R, 0, 1⟩ : UParams n 1) 1 (some M)
        (o.getD ⟨0, fun _ => true⟩) = .ok M' := by
    intro f g hf hg
    simp only [aukfUpdate, hf, hg, bind, Except.bind] at h
    simp only [aukfStep, Option.getD_some, Fns.at, first, bind, Except.bind]
    cases o <;> exact h
  cases hf : defaultFunction a.f u.f with
  | error e => simp only [aukfUpdate, hf, bind, Except.bind] at h; cases h
  | ok f =>
    cases hg : defaultFunction a.g u.g with
    | error e => simp only [aukfUpdate, hf, hg, bind, Except.bind] at h; cases h
    | ok g =>
      obtain ⟨P2, p1, p2, -, p4, -⟩ := cholUpper_spec hM
      obtain ⟨R2, r1, -, -, r4, -⟩ := cholUpper_spec hR
      have hQ2 := hQ
      rw [hq] at hQ2
      have q1 := cholUpper_diagonal hQ2
      rw [← hq] at q1
      have hq2 : (diagonal fun i => Real.sqrt (q i)) * (diagonal fun i => Real.sqrt (q i))ᵀ
          = a.Q.getD u.Q := by
        rw [hq, diagonal_transpose, diagonal_mul_diagonal]
        congr 1
        funext i
        have : 0 < q i := by simpa using hQ2.diag_pos (i := i)
        exact Real.mul_self_sqrt this.le
      rw [← normal_one] at r4
      obtain ⟨M2, h1, h2⟩ := sqStep_spec qr
        (u := (⟨.flat [f], .flat [g], a.Q.getD u.Q, a.R.getD u.R, 0, 1⟩ : UParams n 1))
        (stepFine_of_le_three hn hQ hR) PosDef.one hq2 r4 1
        (Option.Rel.some (a := M) (b := ⟨M.mean, P2⟩) ⟨rfl, p2, p4⟩) _ (hfu f g hf hg)
      simp only [sqStep, Fns.at, first, bind, Except.bind] at h1
      simp only [sqUpdate, hf, hg, p1, q1, r1, bind, Except.bind, pure, Except.pure]
      generalize sqPoints2moments qr ((sqMoments2points ⟨M.mean, P2⟩).map f)
        (some (diagonal fun i => Real.sqrt (q i))) = r at h1 ⊢
      cases r with
      | error e => cases h1
      | ok pred =>
        simp only at h1 ⊢
        cases o <;>
        · simp only [Option.getD_none, Option.getD_some] at h1
          rw [h1]
          simp only [h2.unroot]

/-- **C40 (partial).** With one state and one observation dimension the square-root smoother returns
exactly what the additive unscented smoother returns, for arbitrary functions.  For two state
dimensions see `C40_smooth_two_partial`; from three on (more precisely from two more than observation
dimensions) the claim is false for every input, see `C40_smooth_divides_by_zero`. -/
theorem C40_smooth_partial (qr : QR) {u : UParams 1 1} (hQ : u.Q.PosDef) (hR : u.R.PosDef)
    (hS : u.S0.PosDef) {os : List (Obs 1)} {l : List (Moments 1)} (h : aukfSmooth u os = .ok l) :
    sqSmooth qr u os = .ok l := by
  have hq : u.Q = diagonal fun i => u.Q i i := by
    ext i j
    have hi : i = 0 := Subsingleton.elim _ _
    have hj : j = 0 := Subsingleton.elim _ _
    subst hi hj
    simp
  rw [aukfSmooth] at h
  cases hf : aukfFilter u os with
  | error e => rw [hf] at h; cases h
  | ok lf =>
    rw [hf] at h
    obtain ⟨Q2, R2, l2, h1, h2, h3, h4, h5, h6⟩ :=
      sqFilter_eq qr (stepFine_of_le_three (by norm_num) hQ hR) hq hQ hR hS hf
    simp only [bind, Except.bind] at h
    simp only [sqSmooth, sqFull, sqSmoothFull, h1, h2, h5, bind, Except.bind, pure, Except.pure]
    cases os with
    | nil => cases hf; cases h
    | cons o os =>
      rw [aukfFilter, runLoop] at hf
      cases hs : aukfStep u 0 none o with
      | error e => rw [hs] at hf; cases hf
      | ok M =>
        rw [hs] at hf
        simp only [bind, Except.bind] at hf
        cases hr : runLoop (aukfStep u) (0 + 1) (some M) os with
        | error e => rw [hr] at hf; cases hf
        | ok l' =>
          rw [hr] at hf
          cases hf
          cases h6 with
          | @cons _ M2 _ l2' g1 g2 =>
          rw [backFull] at h
          cases hb : backLoop (aukfSmoothStep u) 0 M l' with
          | error e => rw [hb] at h; cases h
          | ok r =>
            rw [hb] at h
            cases h
            obtain ⟨r2, b1, b2, b3, -⟩ := sqBack_one qr hQ hR hS (R2 := R2) h3 os 0 g1 hr g2 hb
            simp only [backFull, b1, bind, Except.bind, pure, Except.pure]
            rw [root_map (List.Forall₂.cons b2 b3)]

/-- At every row but the first the whole of the data tells something about the first component of the
state that the rows before do not: its smoothed variance is less than the variance that `filter`
returns if the row (and what follows) is missing. -/
def ImprovesFirst (u : UParams 2 m) (os : List (Obs m)) (smoothed : List (Moments 2)) : Prop :=
  ∀ t, 0 < t → t < os.length → ∀ hidden a b,
    aukfFilter u (os.take t ++ [⟨0, fun _ => true⟩]) = .ok hidden →
    hidden[t]? = some a → smoothed[t]? = some b → b.cov 0 0 < a.cov 0 0

theorem gains_iff_improvesFirst {u : UParams 2 m} {o : Obs m} {os : List (Obs m)} {M : Moments 2}
    {l : List (Moments 2)} (hl : aukfFilter u (o :: os) = .ok (M :: l)) (r : Moments 2)
    {rs : List (Moments 2)} (hrs : rs.length = os.length) :
    Gains u 0 (M :: l) rs ↔ ImprovesFirst u (o :: os) (r :: rs) := by
  have hlen := runLoop_length hl
  have key : ∀ i, i < os.length → ∀ Mi, (M :: l)[i]? = some Mi →
      aukfFilter u ((o :: os).take (i + 1) ++ [⟨0, fun _ => true⟩])
        = (aukfStep u (0 + i + 1) (some Mi) ⟨0, fun _ => true⟩).map
            fun pred => (M :: l).take (i + 1) ++ [pred] := by
    intro i hi Mi hMi
    have hpre : runLoop (aukfStep u) 0 none ((o :: os).take (i + 1))
        = .ok ((M :: l).take (i + 1)) := by
      have := runLoop_take (os := (o :: os).take (i + 1)) (os' := (o :: os).drop (i + 1))
        (by rw [List.take_append_drop]; exact hl)
      rw [this, List.length_take, List.length_cons, min_eq_left (by omega)]
    have hlast : ((M :: l).take (i + 1)).getLast? = some Mi := by
      rw [List.getLast?_eq_getElem?, List.length_take, hlen, List.length_cons,
        min_eq_left (by omega), Nat.add_sub_cancel, List.getElem?_take_of_lt (by omega)]
      exact hMi
    rw [aukfFilter, runLoop_append, hpre]
    simp only [bind, Except.bind, hlast]
    rw [List.length_take, List.length_cons, min_eq_left (by omega)]
    rw [runLoop]
    have e : 0 + (i + 1) = 0 + i + 1 := by omega
    rw [e]
    cases aukfStep u (0 + i + 1) (some Mi) ⟨0, fun _ => true⟩ <;> rfl
  have hval : ∀ i, i < os.length → ∀ pred : Moments 2,
      ((M :: l).take (i + 1) ++ [pred])[i + 1]? = some pred := by
    intro i hi pred
    have hlen' : ((M :: l).take (i + 1)).length = i + 1 := by
      rw [List.length_take, hlen, List.length_cons, min_eq_left (by omega)]
    rw [List.getElem?_append_right (by omega), hlen', Nat.sub_self]
    rfl
  constructor
  · intro h t h0 ht hidden a b h1 h2 h3
    obtain ⟨i, rfl⟩ := Nat.exists_eq_add_of_le' h0
    have hi : i < os.length := by simpa using ht
    have hMi : (M :: l)[i]? = some ((M :: l)[i]'(by rw [hlen, List.length_cons]; omega)) :=
      List.getElem?_eq_getElem _
    rw [key i hi _ hMi] at h1
    cases hs : aukfStep u (0 + i + 1) (some ((M :: l)[i]'(by rw [hlen, List.length_cons]; omega)))
        ⟨0, fun _ => true⟩ with
    | error e => rw [hs] at h1; cases h1
    | ok pred =>
      rw [hs] at h1
      cases h1
      rw [hval i hi] at h2
      cases h2
      exact h i _ b a hMi (by simpa using h3) hs
  · intro h i Mi x pred h1 h2 h3
    have hi : i < os.length := by
      rw [← hrs]
      exact (List.getElem?_eq_some_iff.mp h2).1
    have h4 := key i hi Mi h1
    rw [h3] at h4
    exact h (i + 1) (by omega) (by simpa using hi) _ pred x h4 (hval i hi pred) (by simpa using h2)

theorem backLoop_length {σ : Type} {step : ℕ → σ → σ → Res σ} (l : List σ) (t : ℕ) (s : σ)
    {r : σ × List σ} (h : backLoop step t s l = .ok r) : r.2.length = l.length := by
  induction l generalizing t s r with
  | nil => cases h; rfl
  | cons s' l ih =>
    rw [backLoop] at h
    cases hb : backLoop step (t + 1) s' l with
    | error e => rw [hb] at h; cases h
    | ok q =>
      rw [hb] at h
      simp only [bind, Except.bind] at h
      cases hx : step t s q.1 with
      | error e => rw [hx] at h; cases h
      | ok x =>
        rw [hx] at h
        cases h
        simp [ih _ _ hb]

/-- **C40 (partial).** With two state dimensions and one observation dimension the square-root
smoother returns exactly what the additive unscented smoother returns, for arbitrary functions, if at
every row but the first the data improve the estimate of the first component; otherwise it divides by
zero.  Missing: correlated transition noise. -/
theorem C40_smooth_two_partial (qr : QR) {u : UParams 2 1} {q : Vec 2} (hq : u.Q = diagonal q)
    (hQ : u.Q.PosDef) (hR : u.R.PosDef) (hS : u.S0.PosDef) {os : List (Obs 1)}
    {l : List (Moments 2)} (h : aukfSmooth u os = .ok l) :
    (ImprovesFirst u os l → sqSmooth qr u os = .ok l) ∧
    (¬ ImprovesFirst u os l → sqSmooth qr u os = .error .nonFinite) := by
  rw [aukfSmooth] at h
  cases hf : aukfFilter u os with
  | error e => rw [hf] at h; cases h
  | ok lf =>
    rw [hf] at h
    obtain ⟨Q2, R2, l2, h1, h2, h3, h4, h5, h6⟩ :=
      sqFilter_eq qr (stepFine_of_le_three (by norm_num) hQ hR) hq hQ hR hS hf
    simp only [bind, Except.bind] at h
    simp only [sqSmooth, sqFull, sqSmoothFull, h1, h2, h5, bind, Except.bind, pure, Except.pure]
    cases os with
    | nil => cases hf; cases h
    | cons o os =>
      have hff := hf
      rw [aukfFilter, runLoop] at hf
      cases hs : aukfStep u 0 none o with
      | error e => rw [hs] at hf; cases hf
      | ok M =>
        rw [hs] at hf
        simp only [bind, Except.bind] at hf
        cases hr : runLoop (aukfStep u) (0 + 1) (some M) os with
        | error e => rw [hr] at hf; cases hf
        | ok l' =>
          rw [hr] at hf
          cases hf
          cases h6 with
          | @cons _ M2 _ l2' g1 g2 =>
          rw [backFull] at h
          cases hb : backLoop (aukfSmoothStep u) 0 M l' with
          | error e => rw [hb] at h; cases h
          | ok r =>
            rw [hb] at h
            cases h
            have hlen : r.2.length = os.length :=
              (backLoop_length _ _ _ hb).trans (runLoop_length hr)
            obtain ⟨b1, b2, -, -⟩ := sqBack_two qr hQ hR h3 os 0 g1 hr g2 hb
            rw [← gains_iff_improvesFirst hff r.1 hlen]
            refine ⟨fun hG => ?_, fun hG => ?_⟩
            · obtain ⟨r2, c1, c2, c3⟩ := b1 hG
              simp only [backFull, c1, bind, Except.bind, pure, Except.pure]
              rw [root_map (List.Forall₂.cons c2 c3)]
            · simp only [backFull, b2 hG, bind, Except.bind]

/-! ### C40: where it does not -/

/-- **C40 (the claim fails).** From two state dimensions on the square-root smoother never returns
finite numbers if the last of two or more rows is missing, whatever the functions, the parameters and
the other data. -/
theorem C40_smooth_missing_last (hn : 2 ≤ n) (qr : QR) (u : UParams n m) {os : List (Obs m)}
    (hos : os ≠ []) {o : Obs m} (ho : o.missing) (l : List (Moments n)) :
    sqSmooth qr u (os ++ [o]) ≠ .ok l :=
  sqSmooth_missing_fails hn qr u os hos ho l

/-- **C40 (the claim fails).** With at least two more state than observation dimensions the
square-root smoother never returns finite numbers on two or more time steps, whatever the functions,
the parameters and the data: already the first downdate of the backward pass, which subtracts the
last filtered covariance from the last predicted one, is singular and divides by zero (in exact
arithmetic; in floating point the divisor is a rounding error or zero). -/
theorem C40_smooth_divides_by_zero (hn : m + 2 ≤ n) (qr : QR) (u : UParams n m) (os : List (Obs m))
    (hT : 2 ≤ os.length) (l : List (Moments n)) : sqSmooth qr u os ≠ .ok l :=
  sqSmooth_fails hn qr u os hT l

/-- A scalar state observed twice with independent noise. -/
noncomputable def exTwice : UParams 1 2 :=
  ⟨.flat [fun x => x], .flat [fun x _ => x 0], 1, 1, 0, 1⟩

/-- **C40 (the claim fails).** With two observation dimensions the gain is `P (R Rᵀ)⁻¹` instead of
`P (Rᵀ R)⁻¹`, where `R` is the triangular factor of the innovation covariance.  For a scalar state
observed twice, the square-root filter does not return the mean `1/3`, which the additive filter
returns. -/
theorem C40_fails_two_observations (qr : QR) :
    (∃ M, aukfFilter exTwice [⟨![1, 0], fun _ => false⟩] = .ok [M] ∧ M.mean 0 = 1 / 3) ∧
    ∀ M, sqFilter qr exTwice [⟨![1, 0], fun _ => false⟩] = .ok [M] → M.mean 0 ≠ 1 / 3 := by
  have hpd : exTwice.S0.PosDef := PosDef.one
  have hfine : StepFine exTwice := stepFine_of_le_three (by norm_num) PosDef.one PosDef.one
  set C : Mat 2 1 := Matrix.of fun _ _ => 1 with hC
  have hg : ∀ x : Vec 1, (fun (x : Vec 1) (_ : Fin 2) => x 0) x = C *ᵥ x + 0 := by
    intro x
    funext i
    simp [hC, mulVec, dotProduct]
  have ho : ¬ (⟨![1, 0], fun _ => false⟩ : Obs 2).missing := by rintro ⟨i, hi⟩; cases hi
  obtain ⟨S2, L, pred2, h1, h5, h6, h8, hpr, h7, h9⟩ := sqFirst_eq qr (u := exTwice) hpd
  have hs : IsSigma (sigmaPoints exTwice.mu0 L none none none) exTwice.mu0 1 := by
    have := isSigma_sigmaPoints exTwice.mu0 L none none none default_spread
    rwa [h5] at this
  have hS : C * (1 : Mat 1 1) * Cᵀ + (1 : Mat 2 2) = !![2, 1; 1, 2] := by
    ext i j
    fin_cases i <;> fin_cases j <;> simp [hC, Matrix.mul_apply] <;> norm_num
  have hinv : (!![2, 1; 1, 2] : Mat 2 2) * !![2/3, -1/3; -1/3, 2/3] = 1 := by
    ext i j
    fin_cases i <;> fin_cases j <;> simp [Matrix.mul_apply, Fin.sum_univ_two] <;> norm_num
  constructor
  · refine ⟨ufCorrect (fun x _ => x 0) ⟨exTwice.mu0, exTwice.S0⟩
      (sigmaPoints exTwice.mu0 L none none none) ⟨![1, 0], fun _ => false⟩ 1, ?_, ?_⟩
    · rw [aukfFilter, runLoop]
      simp only [aukfStep, Option.getD_none, h6, bind, Except.bind, runLoop, pure, Except.pure]
      have : exTwice.g.at 0 = .ok fun x _ => x 0 := rfl
      rw [this]
      simp only
      have hs' : points2moments (sigmaPoints exTwice.mu0 L none none none) none
        = ⟨exTwice.mu0, exTwice.S0⟩ := hs.points2moments
      rw [hs']
      rfl
    · have := ufCorrect_affine (R := (1 : Mat 2 2)) (S := (1 : Mat 1 1)) (by simp) hs hg
        ⟨![1, 0], fun _ => false⟩
      have e : exTwice.S0 = 1 := rfl
      rw [e, this]
      simp only [filterCorrect, ho, not_false_eq_true, if_true, toMoments]
      rw [show C * ((1 : Mat 1 1) * Cᵀ) + (1 : Mat 2 2) = !![2, 1; 1, 2] by rw [← Matrix.mul_assoc, hS],
        pinv_eq_of_mul_eq_one hinv]
      simp [exTwice, hC, mulVec, dotProduct, Matrix.mul_apply, Fin.sum_univ_two]
      norm_num
  · intro M hM hmean
    have hR2 : cholUpper exTwice.R = .ok 1 := by
      have := cholUpper_diagonal (q := fun _ : Fin 2 => (1 : ℝ)) (by simpa using PosDef.one)
      simpa [exTwice] using this
    have hQ2 : cholUpper exTwice.Q = .ok 1 := by
      have := cholUpper_diagonal (q := fun _ : Fin 1 => (1 : ℝ)) (by simpa using PosDef.one)
      simpa [exTwice] using this
    have hg0 : exTwice.g.at 0 = .ok fun x _ => x 0 := rfl
    obtain ⟨obs2, k1, k2, k3⟩ := sqCorrect_eq qr hfine (R2 := 1) (by simp [exTwice]) hpr h5 h7
      (fun g h => h9 g h) hg0 ⟨![1, 0], fun _ => false⟩
    have hgm := (hs.map C 0 hg).points2moments_some (1 : Mat 2 2)
    have hcr : crossCov (sigmaPoints exTwice.mu0 L none none none) exTwice.mu0
        ((sigmaPoints exTwice.mu0 L none none none).map fun x _ => x 0) (C *ᵥ exTwice.mu0 + 0)
          = (1 : Mat 1 1) * Cᵀ := by
      have := hs.crossCov (F := fun x => x) (1 : Mat 1 1) 0 (by simp) C 0 hg
      simpa [SigmaPoints.map_id] using this
    have eR : exTwice.R = 1 := rfl
    simp only [eR] at k1 k3
    rw [hgm, hS] at k1
    rw [hgm] at k3
    simp only at k3
    rw [hcr] at k3
    simp only [sqFilter, sqFull, hQ2, hR2, bind, Except.bind, runLoop, sqStep, h1, h8, hg0,
      pure, Except.pure] at hM
    rw [k3] at hM
    simp only [sqUnscentedCorrect, ho, not_false_eq_true, if_true, bind, Except.bind] at hM
    -- the gain satisfies `K (R Rᵀ) = [1, 1]`
    have hu := k1.factor.isUnit_det
    have hut : IsUnit (obs2.covᵀ).det := by rw [det_transpose]; exact hu
    generalize hK : (lstsq obs2.covᵀ (lstsq obs2.cov ((1 : Mat 1 1) * Cᵀ)ᵀ))ᵀ = K at hM
    have hKR : K * (obs2.cov * obs2.covᵀ) = Cᵀ := by
      rw [← hK, lstsq, lstsq, pinv_eq_inv hut, pinv_eq_inv hu, Matrix.one_mul, transpose_transpose,
        transpose_mul, transpose_mul, transpose_nonsing_inv, transpose_nonsing_inv,
        transpose_transpose, Matrix.mul_assoc, ← Matrix.mul_assoc obs2.cov⁻¹,
        nonsing_inv_mul _ hu, Matrix.one_mul, Matrix.mul_assoc,
        nonsing_inv_mul _ hut, Matrix.mul_one]
    cases hc : cholupdate pred2.cov (K * obs2.cov)ᵀ (-1.0) with
    | error e => rw [hc] at hM; cases hM
    | ok B =>
      rw [hc] at hM
      simp only [pure, Except.pure, List.map_cons, List.map_nil, Except.ok.injEq, List.cons.injEq,
        and_true] at hM
      have hmean0 : M.mean 0 = K 0 0 := by
        rw [← hM]
        have hp0 : pred2.mean = 0 := hpr.mean
        have ho0 : obs2.mean = C *ᵥ exTwice.mu0 + 0 := k1.mean
        simp [Moments.unroot, hp0, ho0, exTwice, mulVec, dotProduct, Fin.sum_univ_two]
      rw [hmean] at hmean0
      have hgram := k1.gram
      simp only at hgram
      have g00 := congrFun (congrFun hgram 0) 0
      have g01 := congrFun (congrFun hgram 0) 1
      have g11 := congrFun (congrFun hgram 1) 1
      have z10 : obs2.cov 1 0 = 0 := k2 1 0 (by decide)
      simp [Matrix.mul_apply, Fin.sum_univ_two, z10] at g00 g01 g11
      have e0 := congrFun (congrFun hKR 0) 0
      have e1 := congrFun (congrFun hKR 0) 1
      simp [Matrix.mul_apply, Fin.sum_univ_two, z10, hC, ← hmean0] at e0 e1
      set a := obs2.cov 0 0
      set b := obs2.cov 0 1
      set c := obs2.cov 1 1
      set k := K 0 1
      have hb : b * b = 1 / 2 := by nlinarith
      have hcc : c * c = 3 / 2 := by linarith
      have hbc : (b * c) * (b * c) = 3 / 4 := by
        calc (b * c) * (b * c) = (b * b) * (c * c) := by ring
          _ = 3 / 4 := by rw [hb, hcc]; norm_num
      have f0 : k * (c * b) = 1 / 6 := by
        have : a * a + b * b = 5 / 2 := by rw [g00, hb]; norm_num
        rw [this] at e0
        linarith
      have f1 : 1 / 3 * (b * c) + k * (3 / 2) = 1 := by rw [hcc] at e1; linarith
      have f2 : b * c = 1 / 2 := by nlinarith
      rw [f2] at hbc
      norm_num at hbc

theorem sqPoints2moments_ok (qr : QR) {N k : ℕ} (s : SigmaPoints N k) (S2 : Mat k k) :
    ∃ M, sqPoints2moments qr s (some S2) = .ok M := by
  obtain ⟨R, h1, -, -⟩ := qrSquare_spec qr
    (hstack (qrPoints s ((Matrix.of s.points)ᵀ *ᵥ s.wm)) S2)ᵀ (by omega)
  refine ⟨⟨(Matrix.of s.points)ᵀ *ᵥ s.wm, R⟩, ?_⟩
  simp only [sqPoints2moments, h1, bind, Except.bind, pure, Except.pure]

theorem sqCorrect_missing (qr : QR) {N : ℕ} (g : Vec n → Vec m) (pred : Moments n)
    (pts : SigmaPoints N n) {o : Obs m} (ho : o.missing) (R2 : Mat m m) :
    sqCorrect qr g pred pts o R2 = .ok pred := by
  obtain ⟨M, h⟩ := sqPoints2moments_ok qr (pts.map g) R2
  simp only [sqCorrect, h, bind, Except.bind, sqUnscentedCorrect, ho, not_true_eq_false, if_false,
    pure, Except.pure]

theorem sqFirst_missing (qr : QR) {u : UParams n m} (hS : u.S0.PosDef) (Q2 : Mat n n) (R2 : Mat m m)
    {g : Vec n → Vec m} (hg : u.g.at 0 = .ok g) {o : Obs m} (ho : o.missing) :
    ∃ M2, sqStep qr u Q2 R2 0 none o = .ok M2 ∧ Root ⟨u.mu0, u.S0⟩ M2 := by
  obtain ⟨S2, L, pred2, h1, h5, h6, h8, hpr, h7, h9⟩ := sqFirst_eq qr (u := u) hS
  refine ⟨pred2, ?_, hpr⟩
  simp only [sqStep, h1, h8, hg, bind, Except.bind, sqCorrect_missing qr g pred2 _ ho]

/-- **C40 (the claim fails).** Without data, for a random walk with transition covariance `Q`, the
square-root filter adds `U Uᵀ` to the covariance, where `U` is the upper Cholesky factor of
`Q = Uᵀ U`; the additive filter adds `Q`. -/
theorem C40_adds_wrong_covariance (qr : QR) {Q S0 : Mat n n} {R : Mat m m} (hQ : Q.PosDef)
    (hS : S0.PosDef) (hR : R.PosDef) (mu0 : Vec n) (g : Vec n → Vec m) {o o' : Obs m}
    (ho : o.missing) (ho' : o'.missing) :
    ∃ U : Mat n n, (∀ i j, j < i → U i j = 0) ∧ Uᵀ * U = Q ∧
      aukfFilter ⟨.flat [fun x => x], .flat [g], Q, R, mu0, S0⟩ [o, o']
        = .ok [⟨mu0, S0⟩, ⟨mu0, S0 + Q⟩] ∧
      sqFilter qr ⟨.flat [fun x => x], .flat [g], Q, R, mu0, S0⟩ [o, o']
        = .ok [⟨mu0, S0⟩, ⟨mu0, S0 + U * Uᵀ⟩] := by
  obtain ⟨U, q1, q2, -, q4, -⟩ := cholUpper_spec hQ
  obtain ⟨R2, r1, -, -, -, -⟩ := cholUpper_spec hR
  refine ⟨U, q2.upper, q4, ?_, ?_⟩
  · obtain ⟨L, l1, l2, -⟩ := moments2points_of_posDef ⟨mu0, S0⟩ hS none none none default_spread
    have hs := isSigma_sigmaPoints mu0 L none none none default_spread
    rw [l1.mul_transpose] at hs
    have hs2 : points2moments (sigmaPoints mu0 L none none none) (some Q) = ⟨mu0, S0 + Q⟩ := by
      have := (hs.map (1 : Mat n n) 0 (F := fun x => x) (by simp)).points2moments_some Q
      simpa [SigmaPoints.map_id] using this
    obtain ⟨L', -, l2', -⟩ := moments2points_of_posDef ⟨mu0, S0 + Q⟩ (hS.add hQ) none none none
      default_spread
    simp only [aukfFilter, runLoop, aukfStep, Option.getD_none, Option.getD_some, l2, l2', Fns.at, first, ufCorrect,
      unscentedCorrect, ho, ho', not_true_eq_false, if_false, bind, Except.bind, pure, Except.pure,
      hs.points2moments, SigmaPoints.map_id, hs2]
  · obtain ⟨M2, h1, h2⟩ := sqFirst_missing qr
      (u := ⟨.flat [fun x => x], .flat [g], Q, R, mu0, S0⟩) hS U R2 (g := g) rfl ho
    obtain ⟨L, l1, -, l3⟩ := h2.points
    have hf := finePoints_sigma h2.mean l3 (finePoints_self l1)
    obtain ⟨B, b1, -, b3⟩ := sqPoints2moments_some qr hf U
    have hs := isSigma_sigmaPoints mu0 L none none none default_spread
    rw [show L * Lᵀ = S0 from l1] at hs
    have e : ∀ noise, points2moments ((sqMoments2points M2).map fun x => x) noise
        = points2moments (sigmaPoints mu0 L none none none) noise := by
      intro noise
      have := l3.points2moments (fun x => x) noise
      rw [← this, SigmaPoints.map_id]
    rw [e] at b1 b3
    have hs2 : points2moments (sigmaPoints mu0 L none none none) (some (U * Uᵀ))
        = ⟨mu0, S0 + U * Uᵀ⟩ := by
      have := (hs.map (1 : Mat n n) 0 (F := fun x => x) (by simp)).points2moments_some (U * Uᵀ)
      simpa [SigmaPoints.map_id] using this
    rw [hs2] at b3
    rw [hs.points2moments] at b1
    have h3 : sqStep qr ⟨.flat [fun x => x], .flat [g], Q, R, mu0, S0⟩ U R2 (0 + 1) (some M2) o'
        = .ok ⟨mu0, B⟩ := by
      simp only [sqStep, Fns.at, first, b1, bind, Except.bind]
      exact sqCorrect_missing qr g _ _ ho' R2
    simp only [sqFilter, sqFull, q1, r1, runLoop, h1, h3, bind, Except.bind, pure, Except.pure,
      List.map_cons, List.map_nil, h2.unroot]
    rw [Moments.unroot, reconstructU, b3]

theorem posDef_corr : (!![2, 1; 1, 2] : Mat 2 2).PosDef := by
  rw [posDef_iff_real]
  refine ⟨by ext i j; fin_cases i <;> fin_cases j <;> rfl, fun x hx => ?_⟩
  have h : x 0 ≠ 0 ∨ x 1 ≠ 0 := by
    by_contra h
    push Not at h
    exact hx (by ext i; fin_cases i <;> simp [h.1, h.2])
  simp [mulVec, dotProduct, Fin.sum_univ_two]
  rcases h with h | h
  · nlinarith [sq_nonneg (x 0 + x 1), sq_nonneg (x 1), pow_two_pos_of_ne_zero h]
  · nlinarith [sq_nonneg (x 0 + x 1), sq_nonneg (x 0), pow_two_pos_of_ne_zero h]

/-- **C40 (the claim fails).** An instance with two state dimensions and one observation dimension:
correlated transition noise. -/
theorem C40_fails_correlated_noise (qr : QR) (g : Vec 2 → Vec 1) {o o' : Obs 1} (ho : o.missing)
    (ho' : o'.missing) :
    ∃ l l2, aukfFilter ⟨.flat [fun x => x], .flat [g], !![2, 1; 1, 2], 1, 0, 1⟩ [o, o'] = .ok l ∧
      sqFilter qr ⟨.flat [fun x => x], .flat [g], !![2, 1; 1, 2], 1, 0, 1⟩ [o, o'] = .ok l2 ∧
      l ≠ l2 := by
  obtain ⟨U, h1, h2, h3, h4⟩ := C40_adds_wrong_covariance qr (m := 1) posDef_corr PosDef.one
    PosDef.one 0 g ho ho'
  refine ⟨_, _, h3, h4, fun h => ?_⟩
  have hc := congrArg (fun l => (l.map fun M => M.cov 0 0)) h
  simp [Matrix.mul_apply, Fin.sum_univ_two] at hc
  have g00 := congrFun (congrFun h2 0) 0
  have g01 := congrFun (congrFun h2 0) 1
  have z10 : U 1 0 = 0 := h1 1 0 (by decide)
  simp [Matrix.mul_apply, Fin.sum_univ_two, z10] at g00 g01
  have : U 0 1 * U 0 1 = 0 := by linarith
  have : U 0 1 = 0 := by simpa using this
  rw [this] at g01
  norm_num at g01

/-- **C40 (the claim fails).** From four state dimensions on the weight of the central point is
negative; the square-root filter uses its absolute value, and returns numbers where the additive
filter finds an indefinite covariance and raises `LinAlgError`. -/
theorem C40_fails_from_four_dimensions (qr : QR) (hn : 4 ≤ n) (g : Vec n → Vec m) {o o' : Obs m}
    (ho : o.missing) (ho' : o'.missing) :
    aukfFilter (⟨.flat [sqNorm], .flat [g], 1, 1, 0, 1⟩ : UParams n m) [o, o']
      = .error .linAlgError ∧
    ∃ l, sqFilter qr (⟨.flat [sqNorm], .flat [g], 1, 1, 0, 1⟩ : UParams n m) [o, o'] = .ok l := by
  refine ⟨C52_fails_from_four_dimensions hn g o o' ho, ?_⟩
  obtain ⟨U, q1, -⟩ := cholUpper_spec (PosDef.one : (1 : Mat n n).PosDef)
  obtain ⟨R2, r1, -⟩ := cholUpper_spec (PosDef.one : (1 : Mat m m).PosDef)
  obtain ⟨M2, h1, h2⟩ := sqFirst_missing qr
    (u := (⟨.flat [sqNorm], .flat [g], 1, 1, 0, 1⟩ : UParams n m)) PosDef.one U R2 (g := g) rfl ho
  obtain ⟨M3, h3⟩ := sqPoints2moments_ok qr ((sqMoments2points M2).map sqNorm) U
  have h4 : sqStep qr (⟨.flat [sqNorm], .flat [g], 1, 1, 0, 1⟩ : UParams n m) U R2 (0 + 1) (some M2)
      o' = .ok M3 := by
    simp only [sqStep, Fns.at, first, h3, bind, Except.bind]
    exact sqCorrect_missing qr g _ _ ho' R2
  refine ⟨[M2, M3].map Moments.unroot, ?_⟩
  simp only [sqFilter, sqFull, q1, r1, runLoop, h1, h4, bind, Except.bind, pure, Except.pure]

/-! ### The hypotheses can be met -/

/-- Downdate of a `2 × 2` factor by two vectors. -/
example : (∀ i j : Fin 2, j < i → (!![-3, 1; 0, 2] : Mat 2 2) i j = 0) ∧
    (∀ i, (!![-3, 1; 0, 2] : Mat 2 2) i i ≠ 0) ∧
    ((!![-3, 1; 0, 2] : Mat 2 2)ᵀ * !![-3, 1; 0, 2]
      + (-1 : ℝ) • ∑ i, vecMulVec ((!![1, 0; 1, 1] : Mat 2 2) i) ((!![1, 0; 1, 1] : Mat 2 2) i)).PosDef := by
  refine ⟨?_, ?_, ?_⟩
  · intro i j h; fin_cases i <;> fin_cases j <;> simp_all
  · intro i; fin_cases i <;> simp
  · have : (!![-3, 1; 0, 2] : Mat 2 2)ᵀ * !![-3, 1; 0, 2]
      + (-1 : ℝ) • ∑ i, vecMulVec ((!![1, 0; 1, 1] : Mat 2 2) i) ((!![1, 0; 1, 1] : Mat 2 2) i)
        = !![7, -4; -4, 4] := by
      ext i j
      fin_cases i <;> fin_cases j <;> simp [Matrix.mul_apply, Fin.sum_univ_two, vecMulVec_apply] <;> norm_num
    rw [this, posDef_iff_real]
    refine ⟨by ext i j; fin_cases i <;> fin_cases j <;> rfl, fun x hx => ?_⟩
    have h : x 0 ≠ 0 ∨ x 1 ≠ 0 := by
      by_contra h
      push Not at h
      exact hx (by ext i; fin_cases i <;> simp [h.1, h.2])
    simp [mulVec, dotProduct, Fin.sum_univ_two]
    rcases h with h | h
    · nlinarith [sq_nonneg (2 * x 0 - 2 * x 1), sq_nonneg (x 1), pow_two_pos_of_ne_zero h]
    · nlinarith [sq_nonneg (2 * x 0 - 1.5 * x 1), sq_nonneg (x 0), pow_two_pos_of_ne_zero h]

/-- A nonlinear scalar model, masked and unmasked rows: filter and smoother of both kinds run, and
`C40` says their results are the same. -/
example (qr : QR) : ∃ l l', sqFilter qr (⟨.flat [fun x i => Real.sin (x i)], .flat [fun x _ => x 0 ^ 2],
      1, 1, 0, 1⟩ : UParams 1 1) [⟨![2], fun _ => false⟩, ⟨0, fun _ => true⟩] = .ok l ∧
    sqSmooth qr (⟨.flat [fun x i => Real.sin (x i)], .flat [fun x _ => x 0 ^ 2],
      1, 1, 0, 1⟩ : UParams 1 1) [⟨![2], fun _ => false⟩, ⟨0, fun _ => true⟩] = .ok l' := by
  obtain ⟨⟨l, h, -⟩, h'⟩ := C52_posDef (n := 1) (by norm_num)
    (u := (⟨.flat [fun x i => Real.sin (x i)], .flat [fun x _ => x 0 ^ 2], 1, 1,
      0, 1⟩ : UParams 1 1)) PosDef.one PosDef.one PosDef.one
    [⟨![2], fun _ => false⟩, ⟨0, fun _ => true⟩] (fun t _ => ⟨_, rfl⟩) (fun t _ => ⟨_, rfl⟩)
  obtain ⟨l', h', -⟩ := h' (by simp)
  exact ⟨l, l', C40_filter_partial qr (by norm_num) (q := fun _ => 1) (by simp) PosDef.one PosDef.one
    PosDef.one h, C40_smooth_partial qr PosDef.one PosDef.one PosDef.one h'⟩

end Verif
