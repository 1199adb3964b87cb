import Verif.Spec.UnscentedTransform
import Verif.Proofs.Unscented
import Verif.Proofs.Loops

/-!
# The unscented filters compute unscented transforms
-/

open Matrix

namespace Verif

variable {n m k l a b c N : ℕ}

/-- Weighted sum over sigma points. -/
def SigmaPoints.expect {E : Type} [AddCommGroup E] [Module ℝ E] (s : SigmaPoints N k)
    (φ : Vec k → E) : E := ∑ i, s.wm i • φ (s.points i)

/-- Both families of weights agree. -/
def SigmaPoints.OneWeight (s : SigmaPoints N k) : Prop := s.wc = s.wm

section
variable {E : Type} [AddCommGroup E] [Module ℝ E]

theorem expect_sigmaPoints (mu : Vec n) (L : Mat n n) (φ : Vec n → E) :
    (sigmaPoints mu L none none none).expect φ = uexp mu L φ := by
  have hc : ((n : ℝ) + ((1.0 : ℝ) * 1.0 * (n + (3.0 - n)) - n)) = 3 := by norm_num
  have hl : ((1.0 : ℝ) * 1.0 * (n + (3.0 - n)) - n) = 3 - n := by norm_num
  simp only [SigmaPoints.expect, sigmaPoints, Option.getD_none]
  rw [hc, hl, Fin.sum_univ_succ, Fin.sum_univ_add]
  simp only [sigmaRows, Fin.cons_zero, Fin.cons_succ, Fin.append_left, Fin.append_right]
  rw [uexp, ← Finset.sum_add_distrib, Finset.smul_sum]
  congr 1
  · congr 1; field_simp
  · apply Finset.sum_congr rfl
    intro j _
    have e : (0.5 / 3 : ℝ) = 1 / 6 := by norm_num
    have e1 : (fun i => mu i + L i j * √3) = mu + √3 • L.col j := by
      funext i; simp [mul_comm]
    have e2 : (fun i => mu i - L i j * √3) = mu - √3 • L.col j := by
      funext i; simp [mul_comm]
    rw [e, e1, e2, smul_add]

theorem oneWeight_sigmaPoints (mu : Vec n) (L : Mat n n) :
    (sigmaPoints mu L none none none).OneWeight := by
  simp only [SigmaPoints.OneWeight, sigmaPoints, Option.getD_none]
  congr 1
  norm_num

end

theorem expect_mean (s : SigmaPoints N k) (F : Vec k → Vec l) (noise : Option (Mat l l)) :
    (points2moments (s.map F) noise).mean = s.expect F := by
  rw [points2moments_mean]
  funext i
  simp only [SigmaPoints.map, SigmaPoints.expect, mulVec, dotProduct, transpose_apply, of_apply,
    Finset.sum_apply, Pi.smul_apply, smul_eq_mul, mul_comm]

theorem expect_outer (s : SigmaPoints N k) (F : Vec k → Vec l) (G : Vec k → Vec m) (u : Vec l)
    (v : Vec m) :
    (Matrix.of fun i j => (s.map F).points j i - u i : Mat l N) * diagonal s.wm
        * (Matrix.of fun j i => (s.map G).points j i - v i : Mat N m)
      = s.expect fun x => vecMulVec (F x - u) (G x - v) := by
  ext i j
  rw [Matrix.mul_apply]
  simp only [SigmaPoints.expect, SigmaPoints.map, mul_diagonal, of_apply, Matrix.sum_apply, Matrix.smul_apply, vecMulVec_apply, Pi.sub_apply, smul_eq_mul]
  apply Finset.sum_congr rfl
  intro x _
  ring

theorem expect_cov (s : SigmaPoints N k) (hs : s.OneWeight) (F : Vec k → Vec l) :
    (points2moments (s.map F) none).cov
      = s.expect fun x => vecMulVec (F x - s.expect F) (F x - s.expect F) := by
  have := expect_outer s F F (s.expect F) (s.expect F)
  rw [← this]
  have hm := expect_mean s F none
  simp only [points2moments] at hm ⊢
  rw [hm]
  simp only [SigmaPoints.map]
  rw [hs]
  rfl

theorem expect_cov_some (s : SigmaPoints N k) (hs : s.OneWeight) (F : Vec k → Vec l)
    (Q : Mat l l) :
    (points2moments (s.map F) (some Q)).cov
      = (s.expect fun x => vecMulVec (F x - s.expect F) (F x - s.expect F)) + Q := by
  rw [← expect_cov s hs F]
  rfl

theorem expect_crossCov (s : SigmaPoints N k) (F : Vec k → Vec n) (G : Vec k → Vec m) (u : Vec n)
    (v : Vec m) :
    crossCov (s.map F) u (s.map G) v = s.expect fun x => vecMulVec (F x - u) (G x - v) :=
  expect_outer s F G u v

/-- Outer products with themselves have symmetric expectations. -/
theorem expect_symm (s : SigmaPoints N k) (F : Vec k → Vec l) :
    (s.expect fun x => vecMulVec (F x) (F x))ᵀ = s.expect fun x => vecMulVec (F x) (F x) := by
  simp only [SigmaPoints.expect, transpose_sum, transpose_smul, transpose_vecMulVec]

theorem expect_transpose (s : SigmaPoints N k) (F : Vec k → Vec l) (G : Vec k → Vec m) :
    (s.expect fun x => vecMulVec (F x) (G x))ᵀ = s.expect fun x => vecMulVec (G x) (F x) := by
  simp only [SigmaPoints.expect, transpose_sum, transpose_smul, transpose_vecMulVec]

theorem unscentedCorrect_iff {P : Moments n} {y : Vec m} {S : Mat m m} (hS : Sᵀ = S)
    {Γ : Mat n m} {o : Obs m} {M : Moments n} :
    unscentedCorrect Γ P ⟨y, S⟩ o = M ↔ Corrected P y S Γ o M := by
  have hp := pinv_penrose S
  have hps := pinv_symm hS
  have hk : (Γ * pinv S) * S * (Γ * pinv S)ᵀ = Γ * pinv S * Γᵀ := by
    rw [transpose_mul, hps]
    calc Γ * pinv S * S * (pinv S * Γᵀ) = Γ * (pinv S * S * pinv S) * Γᵀ := by
          simp only [Matrix.mul_assoc]
      _ = _ := by rw [hp.mul_mul']
  unfold unscentedCorrect Corrected
  by_cases ho : o.missing
  · simp [ho, eq_comm]
  · simp only [ho, not_false_eq_true, if_true, false_imp_iff, true_and, true_imp_iff]
    constructor
    · rintro rfl
      exact ⟨pinv S, hp, rfl, by rw [hk]⟩
    · rintro ⟨S', h', h1, h2⟩
      obtain rfl := h'.unique hp
      rw [hk] at h2
      cases M
      simp only at h1 h2
      rw [h1, h2]

theorem Corrected.symm {P : Moments n} {y : Vec m} {S : Mat m m} (hS : Sᵀ = S) {Γ : Mat n m}
    {o : Obs m} {M : Moments n} (hP : P.covᵀ = P.cov) (h : Corrected P y S Γ o M) :
    M.covᵀ = M.cov := by
  by_cases ho : o.missing
  · rw [h.1 ho, hP]
  · obtain ⟨S', -, -, h2⟩ := h.2 ho
    rw [h2, transpose_sub, hP, transpose_mul, transpose_transpose, transpose_mul _ S, hS,
      Matrix.mul_assoc (Γ * S')]

/-- Sigma points of a symmetric covariance. -/
theorem moments2points_iff {M : Moments n} (hM : M.covᵀ = M.cov) {s : SigmaPoints (n + n + 1) n} :
    moments2points M = .ok s ↔
      ∃ L, IsCholesky M.cov L ∧ s = sigmaPoints M.mean L none none none := by
  constructor
  · intro h
    by_cases hp : M.cov.PosDef
    · obtain ⟨L, h1, h2, -⟩ := moments2points_of_posDef M hp none none none default_spread
      rw [h2] at h
      cases h
      exact ⟨L, h1, rfl⟩
    · rw [moments2points_error hM hp] at h
      cases h
  · rintro ⟨L, hL, rfl⟩
    obtain ⟨L', h1, h2, -⟩ := moments2points_of_posDef M hL.posDef none none none default_spread
    rw [h2, hL.unique h1]

theorem ufCorrect_iff {g : Vec n → Vec m} {P : Moments n} {L : Mat n n} {o : Obs m} {R : Mat m m}
    (hR : Rᵀ = R) {M : Moments n} :
    ufCorrect g P (sigmaPoints P.mean L none none none) o R = M ↔
      Corrected P (uexp P.mean L g)
        (uexp P.mean L (fun x => vecMulVec (g x - uexp P.mean L g) (g x - uexp P.mean L g)) + R)
        (uexp P.mean L (fun x => vecMulVec (x - P.mean) (g x - uexp P.mean L g))) o M := by
  have h1 := expect_mean (sigmaPoints P.mean L none none none) g (some R)
  have h2 := expect_cov_some (sigmaPoints P.mean L none none none) (oneWeight_sigmaPoints _ _) g R
  have h3 := expect_crossCov (sigmaPoints P.mean L none none none) (fun x => x) g P.mean
    (uexp P.mean L g)
  have h4 := expect_symm (sigmaPoints P.mean L none none none) (fun x => g x - uexp P.mean L g)
  simp only [expect_sigmaPoints] at h1 h2 h3 h4
  rw [SigmaPoints.map_id] at h3
  rw [← unscentedCorrect_iff (by rw [transpose_add, h4, hR]), ufCorrect]
  simp only [h1, h3]
  rw [show points2moments ((sigmaPoints P.mean L none none none).map g) (some R) = ⟨_, _⟩ from
    congrArg₂ Moments.mk h1 h2]

theorem AddPredicts.symm {f : Vec n → Vec n} {Q : Mat n n} (hQ : Qᵀ = Q) {M P : Moments n}
    {Γ : Mat n n} (h : AddPredicts f Q M P Γ) : P.covᵀ = P.cov := by
  obtain ⟨L, -, -, h2, -⟩ := h
  have := expect_symm (sigmaPoints M.mean L none none none) (fun x => f x - P.mean)
  rw [expect_sigmaPoints] at this
  rw [h2, transpose_add, this, hQ]

theorem AddCorrects.symm {g : Vec n → Vec m} {R : Mat m m} (hR : Rᵀ = R) {P M : Moments n}
    {o : Obs m} (h : AddCorrects g R P o M) : M.covᵀ = M.cov := by
  obtain ⟨L, hL, y, -, h2⟩ := h
  have := expect_symm (sigmaPoints P.mean L none none none) (fun x => g x - y)
  rw [expect_sigmaPoints] at this
  exact h2.symm (by rw [transpose_add, this, hR]) (symm_of_posSemidef hL.posDef.posSemidef)

theorem ok_bind_iff {α β : Type} {x : Res α} {f : α → Res β} {y : β} :
    (x >>= f) = .ok y ↔ ∃ u, x = .ok u ∧ f u = .ok y := by
  cases x with
  | error e => simp [bind, Except.bind]
  | ok u => simp [bind, Except.bind]

theorem pure_ok_iff {α : Type} {x y : α} : (pure x : Res α) = .ok y ↔ x = y := by
  simp [pure, Except.pure]

theorem correct_iff {g : Vec n → Vec m} {P : Moments n} {o : Obs m} {R : Mat m m}
    (hP : P.covᵀ = P.cov) (hR : Rᵀ = R) {M : Moments n} :
    (∃ s, moments2points P = .ok s ∧ ufCorrect g P s o R = M) ↔ AddCorrects g R P o M := by
  constructor
  · rintro ⟨s, h1, h2⟩
    obtain ⟨L, hL, rfl⟩ := (moments2points_iff hP).mp h1
    exact ⟨L, hL, _, rfl, (ufCorrect_iff hR).mp h2⟩
  · rintro ⟨L, hL, y, rfl, h⟩
    exact ⟨_, (moments2points_iff hP).mpr ⟨L, hL, rfl⟩, (ufCorrect_iff hR).mpr h⟩

theorem predict_iff {f : Vec n → Vec n} {M P : Moments n} {Q : Mat n n} (hM : M.covᵀ = M.cov) :
    (∃ s, moments2points M = .ok s ∧ points2moments (s.map f) (some Q) = P) ↔
      ∃ Γ, AddPredicts f Q M P Γ := by
  have key : ∀ L, points2moments ((sigmaPoints M.mean L none none none).map f) (some Q)
      = ⟨uexp M.mean L f, uexp M.mean L (fun x => vecMulVec (f x - uexp M.mean L f)
          (f x - uexp M.mean L f)) + Q⟩ := by
    intro L
    have h1 := expect_mean (sigmaPoints M.mean L none none none) f (some Q)
    have h2 := expect_cov_some (sigmaPoints M.mean L none none none) (oneWeight_sigmaPoints _ _) f Q
    simp only [expect_sigmaPoints] at h1 h2
    exact congrArg₂ Moments.mk h1 h2
  constructor
  · rintro ⟨s, h1, rfl⟩
    obtain ⟨L, hL, rfl⟩ := (moments2points_iff hM).mp h1
    rw [key]
    exact ⟨_, L, hL, rfl, rfl, rfl⟩
  · rintro ⟨Γ, L, hL, h1, h2, -⟩
    refine ⟨_, (moments2points_iff hM).mpr ⟨L, hL, rfl⟩, ?_⟩
    rw [key, ← h1, ← h2]

theorem step_iff {f : Vec n → Vec n} {g : Vec n → Vec m} {M M' : Moments n} {o : Obs m}
    {Q : Mat n n} {R : Mat m m} (hM : M.covᵀ = M.cov) (hQ : Qᵀ = Q) (hR : Rᵀ = R) :
    (∃ s, moments2points M = .ok s ∧ ∃ s',
        moments2points (points2moments (s.map f) (some Q)) = .ok s' ∧
        ufCorrect g (points2moments (s.map f) (some Q)) s' o R = M') ↔
      AddStep f g Q R M o M' := by
  constructor
  · rintro ⟨s, h1, s', h2, h3⟩
    obtain ⟨Γ, h⟩ := (predict_iff (f := f) (Q := Q) hM).mp ⟨s, h1, rfl⟩
    exact ⟨_, Γ, h, (correct_iff (h.symm hQ) hR).mp ⟨s', h2, h3⟩⟩
  · rintro ⟨P, Γ, h, h'⟩
    obtain ⟨s, h1, rfl⟩ := (predict_iff hM).mpr ⟨Γ, h⟩
    obtain ⟨s', h2, h3⟩ := (correct_iff (h.symm hQ) hR).mpr h'
    exact ⟨s, h1, s', h2, h3⟩

theorem AddStep.symm {f : Vec n → Vec n} {g : Vec n → Vec m} {M M' : Moments n} {o : Obs m}
    {Q : Mat n n} {R : Mat m m} (hR : Rᵀ = R) (h : AddStep f g Q R M o M') : M'.covᵀ = M'.cov := by
  obtain ⟨P, Γ, -, h⟩ := h
  exact h.symm hR

theorem aukfStep_zero {p : UParams n m} (hS : p.S0ᵀ = p.S0) (hR : p.Rᵀ = p.R) {o : Obs m}
    {M : Moments n} :
    aukfStep p 0 none o = .ok M ↔
      ∃ g, p.g.at 0 = .ok g ∧ AddCorrects g p.R ⟨p.mu0, p.S0⟩ o M := by
  simp only [aukfStep, Option.getD_none, ok_bind_iff, pure_ok_iff]
  constructor
  · rintro ⟨s, h1, g, hg, h2⟩
    refine ⟨g, hg, (correct_iff (P := ⟨p.mu0, p.S0⟩) hS hR).mp ⟨s, h1, ?_⟩⟩
    obtain ⟨L, hL, rfl⟩ := (moments2points_iff (M := ⟨p.mu0, p.S0⟩) hS).mp h1
    have := isSigma_sigmaPoints p.mu0 L none none none default_spread
    rw [hL.mul_transpose] at this
    rwa [this.points2moments] at h2
  · rintro ⟨g, hg, h⟩
    obtain ⟨s, h1, h2⟩ := (correct_iff (P := ⟨p.mu0, p.S0⟩) hS hR).mpr h
    refine ⟨s, h1, g, hg, ?_⟩
    obtain ⟨L, hL, rfl⟩ := (moments2points_iff (M := ⟨p.mu0, p.S0⟩) hS).mp h1
    have := isSigma_sigmaPoints p.mu0 L none none none default_spread
    rw [hL.mul_transpose] at this
    rwa [this.points2moments]

theorem aukfStep_succ {p : UParams n m} (hQ : p.Qᵀ = p.Q) (hR : p.Rᵀ = p.R) {t : ℕ} {o : Obs m}
    {M M' : Moments n} (hM : M.covᵀ = M.cov) :
    aukfStep p (t + 1) (some M) o = .ok M' ↔
      ∃ f g, p.f.at t = .ok f ∧ p.g.at (t + 1) = .ok g ∧ AddStep f g p.Q p.R M o M' := by
  simp only [aukfStep, Option.getD_some, ok_bind_iff, pure_ok_iff, Nat.add_sub_cancel,
    ← step_iff hM hQ hR]
  constructor
  · rintro ⟨s, h1, f, hf, s', h2, g, hg, h3⟩
    exact ⟨f, g, hf, hg, s, h1, s', h2, h3⟩
  · rintro ⟨f, g, hf, hg, s, h1, s', h2, h3⟩
    exact ⟨s, h1, f, hf, s', h2, g, hg, h3⟩

/-! ### Loops -/

theorem runLoop_iff {σ : Type} {step : ℕ → Option σ → Obs m → Res σ} {os : List (Obs m)} {t : ℕ}
    {prev : Option σ} {l : List σ} :
    runLoop step t prev os = .ok l ↔ l.length = os.length ∧
      (∀ (h : 0 < os.length) (h' : 0 < l.length), step t prev os[0] = .ok l[0]) ∧
      ∀ i (h : i + 1 < os.length) (h' : i + 1 < l.length),
        step (t + (i + 1)) (some l[i]) os[i + 1] = .ok l[i + 1] := by
  induction os generalizing t prev l with
  | nil =>
    rw [runLoop, pure_ok_iff]
    constructor
    · rintro rfl
      exact ⟨rfl, by simp, by simp⟩
    · rintro ⟨h, -⟩
      exact (List.length_eq_zero_iff.mp h).symm
  | cons o os ih =>
    rw [runLoop]
    simp only [ok_bind_iff, pure_ok_iff]
    constructor
    · rintro ⟨s, hs, l', hl', rfl⟩
      obtain ⟨h1, h2, h3⟩ := ih.mp hl'
      refine ⟨by simp [h1], fun _ _ => by simpa using hs, fun i hi hi' => ?_⟩
      cases i with
      | zero => simpa using h2 (by simpa using hi) (by simpa using hi')
      | succ i =>
        have := h3 i (by simpa using hi) (by simpa using hi')
        rw [show t + (i + 1 + 1) = t + 1 + (i + 1) by omega]
        simpa using this
    · rintro ⟨h1, h2, h3⟩
      cases l with
      | nil => simp at h1
      | cons s l =>
        refine ⟨s, h2 (by simp) (by simp), l, ih.mpr ⟨by simpa using h1,
          fun h h' => ?_, fun i h h' => ?_⟩, rfl⟩
        · simpa using h3 0 (by simpa using h) (by simpa using h')
        · have := h3 (i + 1) (by simpa using h) (by simpa using h')
          rw [show t + (i + 1 + 1) = t + 1 + (i + 1) by omega] at this
          simpa using this

theorem backLoop_iff {σ : Type} {step : ℕ → σ → σ → Res σ} {rest : List σ} {t : ℕ} {s : σ}
    {r : σ × List σ} :
    backLoop step t s rest = .ok r ↔ (r.1 :: r.2).length = (s :: rest).length ∧
      (r.1 :: r.2).getLast? = (s :: rest).getLast? ∧
      ∀ i (h : i + 1 < (s :: rest).length) (h' : i + 1 < (r.1 :: r.2).length),
        step (t + i) ((s :: rest)[i]'(by omega)) (r.1 :: r.2)[i + 1]
          = .ok ((r.1 :: r.2)[i]'(by omega)) := by
  induction rest generalizing t s r with
  | nil =>
    rw [backLoop, pure_ok_iff]
    obtain ⟨x, l⟩ := r
    constructor
    · rintro h
      cases h
      exact ⟨rfl, rfl, by simp⟩
    · rintro ⟨h1, h2, -⟩
      have : l = [] := by simpa using h1
      subst this
      simp only [List.getLast?_singleton, Option.some.injEq] at h2
      rw [h2]
  | cons s' rest ih =>
    rw [backLoop]
    simp only [ok_bind_iff, pure_ok_iff]
    constructor
    · rintro ⟨r', hr', x, hx, rfl⟩
      obtain ⟨h1, h2, h3⟩ := ih.mp hr'
      refine ⟨by simpa using h1, by simpa [List.getLast?_cons_cons] using h2, fun i h h' => ?_⟩
      cases i with
      | zero => simpa using hx
      | succ i =>
        have := h3 i (by simpa using h) (by simpa using h')
        rw [show t + (i + 1) = t + 1 + i by omega]
        simpa using this
    · obtain ⟨x, l⟩ := r
      rintro ⟨h1, h2, h3⟩
      cases l with
      | nil => simp at h1
      | cons y l =>
        refine ⟨(y, l), ih.mpr ⟨by simpa using h1, by simpa [List.getLast?_cons_cons] using h2,
          fun i h h' => ?_⟩, x, by simpa using h3 0 (by simp) (by simp), rfl⟩
        have := h3 (i + 1) (by simpa using h) (by simpa using h')
        rw [show t + (i + 1) = t + 1 + i by omega] at this
        simpa using this

theorem backFull_iff {σ : Type} {step : ℕ → σ → σ → Res σ} {l l' : List σ} :
    backFull step l = .ok l' ↔ l ≠ [] ∧ l'.length = l.length ∧ l'.getLast? = l.getLast? ∧
      ∀ i (h : i + 1 < l.length) (h' : i + 1 < l'.length),
        step i (l[i]'(by omega)) l'[i + 1] = .ok (l'[i]'(by omega)) := by
  cases l with
  | nil => simp [backFull]
  | cons s rest =>
    rw [backFull]
    simp only [ok_bind_iff, pure_ok_iff, ne_eq, reduceCtorEq, not_false_eq_true, true_and]
    constructor
    · rintro ⟨r, hr, rfl⟩
      simpa using backLoop_iff.mp hr
    · intro h
      cases l' with
      | nil => simp at h
      | cons x l' => exact ⟨(x, l'), backLoop_iff.mpr (by simpa using h), rfl⟩

/-! ### Smoothing -/

theorem ufSmooth_iff {s : SigmaPoints N k} (hs : s.OneWeight) (X F : Vec k → Vec n)
    {M P M' M'' : Moments n} :
    ufSmooth M (s.map X) (s.map F) P M' = M'' ↔
      SmoothedBack M P M' (s.expect fun x => vecMulVec (X x - M.mean) (F x - P.mean)) M'' := by
  have h : ((Matrix.of fun i j => (s.map F).points j i - P.mean i : Mat n N)
      * diagonal (s.map F).wc * (Matrix.of fun j i => (s.map X).points j i - M.mean i : Mat N n))ᵀ
      = s.expect fun x => vecMulVec (X x - M.mean) (F x - P.mean) := by
    have h1 := expect_outer s F X P.mean M.mean
    have h2 := expect_transpose s (fun x => F x - P.mean) (fun x => X x - M.mean)
    rw [← h2, ← h1]
    rw [show (s.map F).wc = s.wm from hs]
  unfold ufSmooth SmoothedBack
  rw [h]
  constructor
  · rintro rfl
    exact ⟨pinv P.cov, pinv_penrose _, rfl, rfl⟩
  · rintro ⟨P', h', h1, h2⟩
    obtain rfl := h'.unique (pinv_penrose _)
    cases M''
    simp only at h1 h2
    rw [h1, h2]

theorem aukfSmoothStep_iff {p : UParams n m} {t : ℕ} {M M' M'' : Moments n}
    (hM : M.covᵀ = M.cov) :
    aukfSmoothStep p t M M' = .ok M'' ↔
      ∃ f, p.f.at t = .ok f ∧ ∃ P Γ, AddPredicts f p.Q M P Γ ∧ SmoothedBack M P M' Γ M'' := by
  simp only [aukfSmoothStep, ok_bind_iff, pure_ok_iff]
  constructor
  · rintro ⟨s, h1, f, hf, h2⟩
    obtain ⟨L, hL, rfl⟩ := (moments2points_iff hM).mp h1
    have h3 := (ufSmooth_iff (oneWeight_sigmaPoints _ _) (fun x => x) f).mp h2
    simp only [expect_sigmaPoints] at h3
    refine ⟨f, hf, _, _, ⟨L, hL, ?_, ?_, rfl⟩, h3⟩
    · rw [expect_mean, expect_sigmaPoints]
    · rw [expect_cov_some _ (oneWeight_sigmaPoints _ _), expect_mean]
      simp only [expect_sigmaPoints]
  · rintro ⟨f, hf, P, Γ, ⟨L, hL, h1, h2, h3⟩, h⟩
    refine ⟨_, (moments2points_iff hM).mpr ⟨L, hL, rfl⟩, f, hf, ?_⟩
    refine (ufSmooth_iff (oneWeight_sigmaPoints _ _) (fun x => x) f).mpr ?_
    have e : points2moments ((sigmaPoints M.mean L none none none).map f) (some p.Q) = P := by
      have h4 := expect_mean (sigmaPoints M.mean L none none none) f (some p.Q)
      have h5 := expect_cov_some (sigmaPoints M.mean L none none none)
        (oneWeight_sigmaPoints _ _) f p.Q
      simp only [expect_sigmaPoints, ← h1] at h4 h5
      rw [← h2] at h5
      exact congrArg₂ Moments.mk h4 h5
    rw [e, expect_sigmaPoints, ← h3]
    exact h

/-! ### General noise -/

theorem blockDiag_mul {S S' : Mat a a} {T T' : Mat b b} :
    blockDiag S T * blockDiag S' T' = blockDiag (S * S') (T * T') := by
  rw [blockDiag, blockDiag, submatrix_mul_equiv, fromBlocks_multiply]
  simp [blockDiag]

theorem isCholesky_blockDiag {S L : Mat a a} {T L' : Mat b b} (h : IsCholesky S L)
    (h' : IsCholesky T L') : IsCholesky (blockDiag S T) (blockDiag L L') := by
  refine ⟨fun i j hij => ?_, fun i => ?_, ?_⟩
  · obtain ⟨i, rfl⟩ := finSumFinEquiv.surjective i
    obtain ⟨j, rfl⟩ := finSumFinEquiv.surjective j
    rcases i with i | i <;> rcases j with j | j
    · simpa [blockDiag] using h.lower i j (by
        rw [finSumFinEquiv_apply_left, finSumFinEquiv_apply_left] at hij; exact hij)
    · simp [blockDiag]
    · simp [blockDiag]
    · simpa [blockDiag] using h'.lower i j (by simpa using hij)
  · obtain ⟨i, rfl⟩ := finSumFinEquiv.surjective i
    rcases i with i | i
    · simpa [blockDiag] using h.diag_pos i
    · simpa [blockDiag] using h'.diag_pos i
  · rw [blockDiag_transpose, blockDiag_mul, h.mul_transpose, h'.mul_transpose]

theorem blockDiag_injective {S S' : Mat a a} {T T' : Mat b b}
    (h : blockDiag S T = blockDiag S' T') : S = S' ∧ T = T' := by
  constructor
  · rw [← blockDiag_ll S T, h, blockDiag_ll]
  · rw [← blockDiag_rr S T, h, blockDiag_rr]

theorem posDef_of_blockDiag {S : Mat a a} {T : Mat b b} (h : (blockDiag S T).PosDef) :
    S.PosDef ∧ T.PosDef := by
  have hs := (posDef_iff_real.mp h).1
  rw [blockDiag_transpose] at hs
  obtain ⟨h1, h2⟩ := blockDiag_injective hs
  constructor
  · refine posDef_iff_real.mpr ⟨h1, fun x hx => ?_⟩
    have := (posDef_iff_real.mp h).2 (concat x 0) fun h0 => hx (by
      funext i; simpa [concat] using congrFun h0 (Fin.castAdd b i))
    rw [blockDiag_quad] at this
    simpa [concat] using this
  · refine posDef_iff_real.mpr ⟨h2, fun x hx => ?_⟩
    have := (posDef_iff_real.mp h).2 (concat 0 x) fun h0 => hx (by
      funext i; simpa [concat] using congrFun h0 (Fin.natAdd a i))
    rw [blockDiag_quad] at this
    simpa [concat] using this

theorem isCholesky_blockDiag_iff {S : Mat a a} {T : Mat b b} {L : Mat (a + b) (a + b)} :
    IsCholesky (blockDiag S T) L ↔
      ∃ L₁ L₂, IsCholesky S L₁ ∧ IsCholesky T L₂ ∧ L = blockDiag L₁ L₂ := by
  constructor
  · intro h
    obtain ⟨h1, h2⟩ := posDef_of_blockDiag h.posDef
    obtain ⟨L₁, hL₁⟩ := exists_isCholesky S h1
    obtain ⟨L₂, hL₂⟩ := exists_isCholesky T h2
    exact ⟨L₁, L₂, hL₁, hL₂, h.unique (isCholesky_blockDiag hL₁ hL₂)⟩
  · rintro ⟨L₁, L₂, h1, h2, rfl⟩
    exact isCholesky_blockDiag h1 h2

theorem concat_add (u u' : Vec a) (v v' : Vec b) :
    concat u v + concat u' v' = concat (u + u') (v + v') := by
  funext i
  obtain ⟨i, rfl⟩ := finSumFinEquiv.surjective i
  rcases i with i | i <;> simp [concat]

theorem concat_sub (u u' : Vec a) (v v' : Vec b) :
    concat u v - concat u' v' = concat (u - u') (v - v') := by
  funext i
  obtain ⟨i, rfl⟩ := finSumFinEquiv.surjective i
  rcases i with i | i <;> simp [concat]

theorem concat_smul (r : ℝ) (u : Vec a) (v : Vec b) :
    r • concat u v = concat (r • u) (r • v) := by
  funext i
  obtain ⟨i, rfl⟩ := finSumFinEquiv.surjective i
  rcases i with i | i <;> simp [concat]

theorem blockDiag_col_left (S : Mat a a) (T : Mat b b) (j : Fin a) :
    (blockDiag S T).col (Fin.castAdd b j) = concat (S.col j) 0 := by
  funext i
  obtain ⟨i, rfl⟩ := finSumFinEquiv.surjective i
  rcases i with i | i <;> simp [concat, blockDiag]

theorem blockDiag_col_right (S : Mat a a) (T : Mat b b) (j : Fin b) :
    (blockDiag S T).col (Fin.natAdd a j) = concat 0 (T.col j) := by
  funext i
  obtain ⟨i, rfl⟩ := finSumFinEquiv.surjective i
  rcases i with i | i <;> simp [concat, blockDiag]

section
variable {E : Type} [AddCommGroup E] [Module ℝ E]

theorem uexp_concat (μ : Vec a) (L : Mat a a) (ν : Vec b) (L' : Mat b b)
    (φ : Vec (a + b) → E) :
    uexp (concat μ ν) (blockDiag L L') φ = uexp₂ μ L ν L' fun x w => φ (concat x w) := by
  rw [uexp, uexp₂, Fin.sum_univ_add]
  simp only [blockDiag_col_left, blockDiag_col_right, concat_smul, concat_add, concat_sub,
    smul_zero, add_zero, sub_zero]

theorem uexp_concat₃ (μ : Vec a) (L : Mat a a) (ν : Vec b) (L' : Mat b b) (ξ : Vec c)
    (L'' : Mat c c) (φ : Vec (a + b + c) → E) :
    uexp (concat (concat μ ν) ξ) (blockDiag (blockDiag L L') L'') φ
      = uexp₃ μ L ν L' ξ L'' fun x w v => φ (concat (concat x w) v) := by
  rw [uexp, uexp₃, Fin.sum_univ_add, Fin.sum_univ_add]
  simp only [blockDiag_col_left, blockDiag_col_right, concat_smul, concat_add, concat_sub,
    smul_zero, add_zero, sub_zero]

end

/-- First part of a vector. -/
def partL (a b : ℕ) (z : Vec (a + b)) : Vec a := fun i => z (Fin.castAdd b i)

/-- Second part of a vector. -/
def partR (a b : ℕ) (z : Vec (a + b)) : Vec b := fun i => z (Fin.natAdd a i)

theorem partL_concat (u : Vec a) (v : Vec b) : partL a b (concat u v) = u := by
  funext i; simp [partL, concat]

theorem partR_concat (u : Vec a) (v : Vec b) : partR a b (concat u v) = v := by
  funext i; simp [partR, concat]

theorem augFilterPoints_iff {M : Moments n} {Q : Mat n n} {R : Mat m m} (hM : M.covᵀ = M.cov)
    (hQ : Qᵀ = Q) (hR : Rᵀ = R) {r} :
    augFilterPoints M Q R = .ok r ↔
      ∃ L LQ LR, IsCholesky M.cov L ∧ IsCholesky Q LQ ∧ IsCholesky R LR ∧
        r = ((sigmaPoints (concat (concat M.mean (0 : Vec n)) (0 : Vec m))
              (blockDiag (blockDiag L LQ) LR) none none none).map
                fun z => partL n n (partL (n + n) m z),
            (sigmaPoints (concat (concat M.mean (0 : Vec n)) (0 : Vec m))
              (blockDiag (blockDiag L LQ) LR) none none none).map
                fun z => partR n n (partL (n + n) m z),
            (sigmaPoints (concat (concat M.mean (0 : Vec n)) (0 : Vec m))
              (blockDiag (blockDiag L LQ) LR) none none none).map
                fun z => partR (n + n) m z) := by
  have hs : (blockDiag (blockDiag M.cov Q) R)ᵀ = blockDiag (blockDiag M.cov Q) R := by
    rw [blockDiag_transpose, blockDiag_transpose, hM, hQ, hR]
  rw [augFilterPoints, ok_bind_iff]
  simp only [pure_ok_iff, moments2points_iff (M := ⟨concat (concat M.mean (0 : Vec n)) (0 : Vec m),
    blockDiag (blockDiag M.cov Q) R⟩) hs, isCholesky_blockDiag_iff]
  constructor
  · rintro ⟨s, ⟨L, ⟨L', LR, ⟨L₁, LQ, h1, h2, rfl⟩, h3, rfl⟩, rfl⟩, rfl⟩
    exact ⟨L₁, LQ, LR, h1, h2, h3, rfl⟩
  · rintro ⟨L, LQ, LR, h1, h2, h3, rfl⟩
    exact ⟨_, ⟨_, ⟨_, LR, ⟨L, LQ, h1, h2, rfl⟩, h3, rfl⟩, rfl⟩, rfl⟩

theorem augPoints_iff {M : Moments n} {Q : Mat n n} (hM : M.covᵀ = M.cov)
    (hQ : Qᵀ = Q) {r} :
    augPoints M (⟨0, Q⟩ : Moments n) = .ok r ↔
      ∃ L LQ, IsCholesky M.cov L ∧ IsCholesky Q LQ ∧
        r = ((sigmaPoints (concat M.mean (0 : Vec n)) (blockDiag L LQ) none none none).map
                fun z => partL n n z,
            (sigmaPoints (concat M.mean (0 : Vec n)) (blockDiag L LQ) none none none).map
                fun z => partR n n z) := by
  have hs : (blockDiag M.cov Q)ᵀ = blockDiag M.cov Q := by
    rw [blockDiag_transpose, hM, hQ]
  rw [augPoints, ok_bind_iff]
  simp only [pure_ok_iff, moments2points_iff (M := ⟨concat M.mean (0 : Vec n),
    blockDiag M.cov Q⟩) hs, isCholesky_blockDiag_iff]
  constructor
  · rintro ⟨s, ⟨L, ⟨L₁, LQ, h1, h2, rfl⟩, rfl⟩, rfl⟩
    exact ⟨L₁, LQ, h1, h2, rfl⟩
  · rintro ⟨L, LQ, h1, h2, rfl⟩
    exact ⟨_, ⟨_, ⟨L, LQ, h1, h2, rfl⟩, rfl⟩, rfl⟩

/-- Correction with noise points, in terms of joint points. -/
theorem ufCorrect₂_iff {s : SigmaPoints N k} (hs : s.OneWeight) (X : Vec k → Vec n)
    (V : Vec k → Vec m) {g : Vec n → Vec m → Vec m} {o : Obs m} {M : Moments n} :
    ufCorrect₂ g (points2moments (s.map X) none) (s.map X) o (s.map V) = M ↔
      Corrected ⟨s.expect X, s.expect fun z => vecMulVec (X z - s.expect X) (X z - s.expect X)⟩
        (s.expect fun z => g (X z) (V z))
        (s.expect fun z => vecMulVec (g (X z) (V z) - s.expect fun z => g (X z) (V z))
          (g (X z) (V z) - s.expect fun z => g (X z) (V z)))
        (s.expect fun z => vecMulVec (X z - s.expect X)
          (g (X z) (V z) - s.expect fun z => g (X z) (V z))) o M := by
  rw [← unscentedCorrect_iff (expect_symm s _), ufCorrect₂]
  have hp : points2moments (s.map X) none = ⟨_, _⟩ :=
    congrArg₂ Moments.mk (expect_mean s X none) (expect_cov s hs X)
  have hq : points2moments ((s.map X).map₂ (s.map V) g) none = ⟨_, _⟩ :=
    congrArg₂ Moments.mk (expect_mean s (fun z => g (X z) (V z)) none)
      (expect_cov s hs fun z => g (X z) (V z))
  simp only [hp, hq]
  rw [SigmaPoints.map_map₂, expect_crossCov]

/-- `GenStep` in terms of joint points. -/
theorem genStep_iff {f : Vec n → Vec n → Vec n} {g : Vec n → Vec m → Vec m} {M M' : Moments n}
    {o : Obs m} {Q : Mat n n} {R : Mat m m} (hM : M.covᵀ = M.cov) (hQ : Qᵀ = Q) (hR : Rᵀ = R) :
    (∃ r, augFilterPoints M Q R = .ok r ∧
      ufCorrect₂ g (points2moments (r.1.map₂ r.2.1 f) none) (r.1.map₂ r.2.1 f) o r.2.2 = M') ↔
      GenStep f g Q R M o M' := by
  constructor
  · rintro ⟨r, h1, h2⟩
    obtain ⟨L, LQ, LR, hL, hLQ, hLR, rfl⟩ := (augFilterPoints_iff hM hQ hR).mp h1
    refine ⟨L, LQ, LR, hL, hLQ, hLR, _, _, rfl, rfl, ?_⟩
    simp only [SigmaPoints.map_map₂] at h2
    have h3 := (ufCorrect₂_iff (oneWeight_sigmaPoints _ _) _ _).mp h2
    simpa only [expect_sigmaPoints, uexp_concat₃, partL_concat, partR_concat] using h3
  · rintro ⟨L, LQ, LR, hL, hLQ, hLR, x, y, rfl, rfl, h⟩
    refine ⟨_, (augFilterPoints_iff hM hQ hR).mpr ⟨L, LQ, LR, hL, hLQ, hLR, rfl⟩, ?_⟩
    simp only [SigmaPoints.map_map₂]
    refine (ufCorrect₂_iff (oneWeight_sigmaPoints _ _) _ _).mpr ?_
    simpa only [expect_sigmaPoints, uexp_concat₃, partL_concat, partR_concat] using h

theorem GenStep.symm {f : Vec n → Vec n → Vec n} {g : Vec n → Vec m → Vec m} {M M' : Moments n}
    {o : Obs m} {Q : Mat n n} {R : Mat m m} (h : GenStep f g Q R M o M') :
    M'.covᵀ = M'.cov := by
  obtain ⟨L, LQ, LR, -, -, -, x, y, -, -, h⟩ := h
  have e : ∀ {l : ℕ} (F : Vec n → Vec n → Vec m → Vec l),
      (uexp₃ M.mean L 0 LQ 0 LR fun z w v => vecMulVec (F z w v) (F z w v))ᵀ
        = uexp₃ M.mean L 0 LQ 0 LR fun z w v => vecMulVec (F z w v) (F z w v) := by
    intro l F
    have := expect_symm (sigmaPoints (concat (concat M.mean (0 : Vec n)) (0 : Vec m))
      (blockDiag (blockDiag L LQ) LR) none none none)
      (fun z => F (partL n n (partL (n + n) m z)) (partR n n (partL (n + n) m z))
        (partR (n + n) m z))
    simpa only [expect_sigmaPoints, uexp_concat₃, partL_concat, partR_concat] using this
  exact h.symm (e fun z w v => g (f z w) v - y) (e fun z w _ => f z w - x)

theorem ukfStep_zero {p : GParams n m} (hS : p.S0ᵀ = p.S0) (hQ : p.Qᵀ = p.Q) (hR : p.Rᵀ = p.R)
    {o : Obs m} {M : Moments n} :
    ukfStep p 0 none o = .ok M ↔
      ∃ g, p.g.at 0 = .ok g ∧ GenStep (fun x _ => x) g p.Q p.R ⟨p.mu0, p.S0⟩ o M := by
  simp only [ukfStep, Option.getD_none, ok_bind_iff, pure_ok_iff,
    ← genStep_iff (M := ⟨p.mu0, p.S0⟩) hS hQ hR]
  constructor
  · rintro ⟨r, h1, g, hg, h2⟩
    exact ⟨g, hg, r, h1, h2⟩
  · rintro ⟨g, hg, r, h1, h2⟩
    exact ⟨r, h1, g, hg, h2⟩

theorem ukfStep_succ {p : GParams n m} (hQ : p.Qᵀ = p.Q) (hR : p.Rᵀ = p.R) {t : ℕ} {o : Obs m}
    {M M' : Moments n} (hM : M.covᵀ = M.cov) :
    ukfStep p (t + 1) (some M) o = .ok M' ↔
      ∃ f g, p.f.at t = .ok f ∧ p.g.at (t + 1) = .ok g ∧ GenStep f g p.Q p.R M o M' := by
  simp only [ukfStep, Option.getD_some, ok_bind_iff, pure_ok_iff, Nat.add_sub_cancel,
    ← genStep_iff hM hQ hR]
  constructor
  · rintro ⟨r, h1, f, hf, g, hg, h2⟩
    exact ⟨f, g, hf, hg, r, h1, h2⟩
  · rintro ⟨f, g, hf, hg, r, h1, h2⟩
    exact ⟨r, h1, f, hf, g, hg, h2⟩

theorem ukfSmoothStep_iff {p : GParams n m} (hQ : p.Qᵀ = p.Q) {t : ℕ} {M M' M'' : Moments n}
    (hM : M.covᵀ = M.cov) :
    ukfSmoothStep p t M M' = .ok M'' ↔
      ∃ f, p.f.at t = .ok f ∧ ∃ P Γ, GenPredicts f p.Q M P Γ ∧ SmoothedBack M P M' Γ M'' := by
  simp only [ukfSmoothStep, ok_bind_iff, pure_ok_iff]
  have key : ∀ L LQ (f : Vec n → Vec n → Vec n),
      points2moments ((sigmaPoints (concat M.mean (0 : Vec n)) (blockDiag L LQ)
        none none none).map fun z => f (partL n n z) (partR n n z)) none
      = ⟨uexp₂ M.mean L 0 LQ f, uexp₂ M.mean L 0 LQ fun x w =>
          vecMulVec (f x w - uexp₂ M.mean L 0 LQ f) (f x w - uexp₂ M.mean L 0 LQ f)⟩ := by
    intro L LQ f
    have h4 := expect_mean (sigmaPoints (concat M.mean (0 : Vec n)) (blockDiag L LQ)
      none none none) (fun z => f (partL n n z) (partR n n z)) none
    have h5 := expect_cov (sigmaPoints (concat M.mean (0 : Vec n)) (blockDiag L LQ)
      none none none) (oneWeight_sigmaPoints _ _) (fun z => f (partL n n z) (partR n n z))
    simp only [expect_sigmaPoints, uexp_concat, partL_concat, partR_concat] at h4 h5
    exact congrArg₂ Moments.mk h4 h5
  constructor
  · rintro ⟨r, h1, f, hf, h2⟩
    obtain ⟨L, LQ, hL, hLQ, rfl⟩ := (augPoints_iff hM hQ).mp h1
    simp only [SigmaPoints.map_map₂, key] at h2
    have h3 := (ufSmooth_iff (oneWeight_sigmaPoints _ _) _ _).mp h2
    simp only [expect_sigmaPoints, uexp_concat, partL_concat, partR_concat] at h3
    exact ⟨f, hf, _, _, ⟨L, LQ, hL, hLQ, rfl, rfl, rfl⟩, h3⟩
  · rintro ⟨f, hf, P, Γ, ⟨L, LQ, hL, hLQ, h1, h2, h3⟩, h⟩
    refine ⟨_, (augPoints_iff hM hQ).mpr ⟨L, LQ, hL, hLQ, rfl⟩, f, hf, ?_⟩
    simp only [SigmaPoints.map_map₂, key]
    refine (ufSmooth_iff (oneWeight_sigmaPoints _ _) _ _).mpr ?_
    simp only [expect_sigmaPoints, uexp_concat, partL_concat, partR_concat]
    rw [← h1, ← h2, ← h3]
    exact h

end Verif
