import Verif.Spec.UnscentedSymmetry
import Verif.Proofs.UnscentedTransform
import Verif.Proofs.UnscentedPos

/-!
# Unscented filters in other coordinates
-/

open Matrix

namespace Verif

variable {n m k l N : ℕ}

/-! ### Cholesky factors -/

theorem Units.det {L : Mat n n} (h : Units L) : IsUnit L.det :=
  (IsCholesky.det_ne_zero (A := L * Lᵀ) ⟨h.lower, h.pos, rfl⟩).isUnit

theorem lowerTri_mul {L M : Mat n n} (hL : ∀ i j, i < j → L i j = 0)
    (hM : ∀ i j, i < j → M i j = 0) : ∀ i j, i < j → (L * M) i j = 0 := by
  intro i j hij
  rw [Matrix.mul_apply]
  refine Finset.sum_eq_zero fun x _ => ?_
  rcases lt_or_ge i x with h | h
  · rw [hL i x h, zero_mul]
  · rw [hM x j (h.trans_lt hij), mul_zero]

theorem lowerTri_mul_diag {L M : Mat n n} (hL : ∀ i j, i < j → L i j = 0)
    (hM : ∀ i j, i < j → M i j = 0) (i : Fin n) : (L * M) i i = L i i * M i i := by
  rw [Matrix.mul_apply]
  refine Finset.sum_eq_single i (fun x _ hx => ?_) (by simp)
  rcases lt_or_gt_of_ne hx with h | h
  · rw [hM x i h, mul_zero]
  · rw [hL i x h, zero_mul]

theorem Units.isCholesky {L A G : Mat n n} (h : Units L) (hG : IsCholesky A G) :
    IsCholesky (L * A * Lᵀ) (L * G) := by
  refine ⟨lowerTri_mul h.lower hG.lower, fun i => ?_, ?_⟩
  · rw [lowerTri_mul_diag h.lower hG.lower]
    exact mul_pos (h.pos i) (hG.diag_pos i)
  · rw [transpose_mul, ← hG.mul_transpose]
    simp only [Matrix.mul_assoc]

theorem posDef_conj_iff {L A : Mat n n} (hL : IsUnit L.det) :
    (L * A * Lᵀ).PosDef ↔ A.PosDef := by
  have key : ∀ {L A : Mat n n}, IsUnit L.det → A.PosDef → (L * A * Lᵀ).PosDef := by
    intro L A hL hA
    refine posDef_iff_real.mpr ⟨?_, fun x hx => ?_⟩
    · simp only [transpose_mul, transpose_transpose, (posDef_iff_real.mp hA).1, Matrix.mul_assoc]
    · have h0 : Lᵀ *ᵥ x ≠ 0 := by
        intro h0
        have hu : IsUnit Lᵀ.det := by rwa [det_transpose]
        apply hx
        have := congrArg ((Lᵀ)⁻¹ *ᵥ ·) h0
        simpa [mulVec_mulVec, nonsing_inv_mul _ hu] using this
      have := (posDef_iff_real.mp hA).2 _ h0
      rw [← mulVec_mulVec, ← mulVec_mulVec, dotProduct_mulVec, ← mulVec_transpose]
      exact this
  refine ⟨fun h => ?_, key hL⟩
  have hi : IsUnit (L⁻¹).det := by
    rw [det_nonsing_inv]
    exact isUnit_ringInverse.mpr hL
  have := key hi h
  rwa [transpose_nonsing_inv, show L⁻¹ * (L * A * Lᵀ) * Lᵀ⁻¹ = A by
    have hu : IsUnit Lᵀ.det := by rwa [det_transpose]
    rw [Matrix.mul_assoc L, ← Matrix.mul_assoc L⁻¹, nonsing_inv_mul _ hL, Matrix.one_mul,
      Matrix.mul_assoc, mul_nonsing_inv _ hu, Matrix.mul_one]] at this

theorem symm_conj {L A : Mat n n} (hA : Aᵀ = A) : (L * A * Lᵀ)ᵀ = L * A * Lᵀ := by
  simp only [transpose_mul, transpose_transpose, hA, Matrix.mul_assoc]

theorem Units.cholUpperT {L A : Mat n n} (h : Units L) (hA : Aᵀ = A) :
    cholUpperT (L * A * Lᵀ) = (Verif.cholUpperT A).map (L * ·) := by
  unfold Verif.cholUpperT
  rw [hA, symm_conj hA]
  by_cases hp : A.PosDef
  · obtain ⟨G, h1, h2⟩ := cholesky_of_posDef hp
    rw [h1, cholesky_eq_ok (h.isCholesky h2)]
    rfl
  · rw [cholesky_of_not_posDef hA hp, cholesky_of_not_posDef (symm_conj hA)
      (fun h' => hp ((posDef_conj_iff h.det).mp h'))]
    rfl

/-! ### Sigma points -/

theorem sigmaRows_affine (L : Mat n n) (c mu : Vec n) (G : Mat n n) (a : ℝ)
    (i : Fin (n + n + 1)) :
    sigmaRows (L *ᵥ mu + c) (L * G) a i = L *ᵥ sigmaRows mu G a i + c := by
  refine Fin.cases ?_ (fun j => ?_) i
  · simp [sigmaRows]
  · simp only [sigmaRows, Fin.cons_succ]
    refine Fin.addCases (fun j => ?_) (fun j => ?_) j
    · simp only [Fin.append_left]
      have e : (fun i => mu i + G i j * √a) = mu + √a • G.col j := by
        funext i; simp [mul_comm]
      rw [e, mulVec_add, mulVec_smul]
      funext i
      simp only [Pi.add_apply, Pi.smul_apply, smul_eq_mul, Matrix.mul_apply, mulVec, dotProduct,
        Matrix.col_apply]
      ring
    · simp only [Fin.append_right]
      have e : (fun i => mu i - G i j * √a) = mu - √a • G.col j := by
        funext i; simp [mul_comm]
      rw [e, mulVec_sub, mulVec_smul]
      funext i
      simp only [Pi.add_apply, Pi.sub_apply, Pi.smul_apply, smul_eq_mul, Matrix.mul_apply, mulVec,
        dotProduct, Matrix.col_apply]
      ring

theorem Units.moments2points {L : Mat n n} (h : Units L) (c : Vec n) {M : Moments n}
    (hM : M.covᵀ = M.cov) :
    moments2points (M.affine L c)
      = (Verif.moments2points M).map fun s => s.map fun x => L *ᵥ x + c := by
  simp only [Verif.moments2points, Moments.affine, h.cholUpperT hM]
  cases Verif.cholUpperT M.cov with
  | error e => rfl
  | ok G =>
    simp only [bind, Except.bind, Except.map, pure, Except.pure, sigmaPoints, SigmaPoints.map]
    congr 2
    funext i
    exact sigmaRows_affine ..

/-- The weights of the points are normalised. -/
theorem moments2points_sum {M : Moments n} {s : SigmaPoints (n + n + 1) n}
    (h : moments2points M = .ok s) : ∑ i, s.wm i = 1 := by
  simp only [moments2points] at h
  cases hc : cholUpperT M.cov with
  | error e => rw [hc] at h; cases h
  | ok G =>
    rw [hc] at h
    simp only [bind, Except.bind, pure, Except.pure, Except.ok.injEq] at h
    rw [← h]
    exact (isSigma_sigmaPoints M.mean G none none none default_spread).sum

theorem SigmaPoints.mean_affine {s : SigmaPoints N k} (hs : ∑ i, s.wm i = 1) (L : Mat l k)
    (c : Vec l) : (Matrix.of (s.map fun x => L *ᵥ x + c).points)ᵀ *ᵥ s.wm
      = L *ᵥ ((Matrix.of s.points)ᵀ *ᵥ s.wm) + c := by
  funext i
  have : (L *ᵥ ((Matrix.of s.points)ᵀ *ᵥ s.wm)) i = ∑ j, (L *ᵥ s.points j) i * s.wm j := by
    rw [mulVec_mulVec]
    simp only [mulVec, dotProduct, Matrix.mul_apply, transpose_apply, of_apply]
  rw [Pi.add_apply, this]
  simp only [mulVec, dotProduct, transpose_apply, of_apply, SigmaPoints.map, Pi.add_apply, add_mul,
    Finset.sum_add_distrib]
  rw [← Finset.mul_sum, hs, mul_one]

theorem of_diffs_affine (p : Fin N → Vec k) (mu : Vec k) (L : Mat l k) (c : Vec l) :
    (Matrix.of fun i j => (L *ᵥ p j + c) i - (L *ᵥ mu + c) i : Mat l N)
      = L * (Matrix.of fun i j => p j i - mu i : Mat k N) := by
  ext i j
  rw [of_apply, Matrix.mul_apply]
  simp only [of_apply, Pi.add_apply, mulVec, dotProduct, mul_sub, Finset.sum_sub_distrib]
  ring

theorem points2moments_affine {s : SigmaPoints N k} (hs : ∑ i, s.wm i = 1) (L : Mat k k) (c : Vec k)
    (noise : Option (Mat k k)) :
    points2moments (s.map fun x => L *ᵥ x + c) (noise.map fun S => L * S * Lᵀ)
      = (points2moments s noise).affine L c := by
  have e := s.mean_affine hs L c
  have e2 : ∀ D : Mat k N, L * D * diagonal s.wc * (L * D)ᵀ = L * (D * diagonal s.wc * Dᵀ) * Lᵀ := by
    intro D
    rw [transpose_mul]
    simp only [Matrix.mul_assoc]
  have hw : (s.map fun x => L *ᵥ x + c).wm = s.wm := rfl
  have hw' : (s.map fun x => L *ᵥ x + c).wc = s.wc := rfl
  cases noise with
  | none =>
    simp only [points2moments, Option.map_none, Moments.affine, hw, hw', e]
    congr 1
    simp only [SigmaPoints.map]
    rw [of_diffs_affine, e2]
  | some S =>
    simp only [points2moments, Option.map_some, Moments.affine, hw, hw', e]
    congr 1
    simp only [SigmaPoints.map]
    rw [of_diffs_affine, e2, Matrix.mul_add, Matrix.add_mul]

theorem points2moments_symm (s : SigmaPoints N k) {noise : Option (Mat k k)}
    (h : ∀ S ∈ noise, Sᵀ = S) : (points2moments s noise).covᵀ = (points2moments s noise).cov := by
  have e : ∀ (D : Mat k N) (w : Fin N → ℝ), (D * diagonal w * Dᵀ)ᵀ = D * diagonal w * Dᵀ := by
    intro D w
    simp only [transpose_mul, transpose_transpose, diagonal_transpose, Matrix.mul_assoc]
  cases noise with
  | none => simp only [points2moments, e]
  | some S => simp only [points2moments, transpose_add, e, h S rfl]

theorem unscentedCorrect_affine (L : Mat n n) (c : Vec n) (cross : Mat n m) (pred : Moments n)
    (obs : Moments m) (o : Obs m) :
    unscentedCorrect (L * cross) (pred.affine L c) obs o
      = (unscentedCorrect cross pred obs o).affine L c := by
  unfold unscentedCorrect
  split_ifs
  · rfl
  · simp only [Moments.affine, mulVec_add, mulVec_mulVec, Matrix.mul_assoc, Matrix.mul_sub,
      Matrix.sub_mul, transpose_mul]
    congr 1
    abel

theorem unscentedCorrect_symm {cross : Mat n m} {pred : Moments n} {obs : Moments m} {o : Obs m}
    (hp : pred.covᵀ = pred.cov) (ho : obs.covᵀ = obs.cov) :
    (unscentedCorrect cross pred obs o).covᵀ = (unscentedCorrect cross pred obs o).cov := by
  unfold unscentedCorrect
  split_ifs
  · exact hp
  · simp only [transpose_sub, transpose_mul, transpose_transpose, hp, pinv_symm ho,
      Matrix.mul_assoc]

theorem inv_affine {L : Mat n n} (hL : IsUnit L.det) (c x : Vec n) :
    L⁻¹ *ᵥ (L *ᵥ x + c - c) = x := by
  rw [add_sub_cancel_right, mulVec_mulVec, nonsing_inv_mul _ hL, one_mulVec]

theorem crossCov_affine (L : Mat n n) (c : Vec n) (p : SigmaPoints N n) (mu : Vec n)
    (q : SigmaPoints N m) (nu : Vec m) :
    crossCov (p.map fun x => L *ᵥ x + c) (L *ᵥ mu + c) q nu = L * crossCov p mu q nu := by
  unfold crossCov
  have := of_diffs_affine p.points mu L c
  simp only [SigmaPoints.map] at this ⊢
  rw [this]
  simp only [Matrix.mul_assoc]

theorem ufCorrect_changeState {L : Mat n n} (hL : IsUnit L.det) (c : Vec n) (g : Vec n → Vec m)
    (pred : Moments n) (pts : SigmaPoints N n) (o : Obs m) (R : Mat m m) :
    ufCorrect (fun y => g (L⁻¹ *ᵥ (y - c))) (pred.affine L c) (pts.map fun x => L *ᵥ x + c) o R
      = (ufCorrect g pred pts o R).affine L c := by
  have e : (pts.map fun x => L *ᵥ x + c).map (fun y => g (L⁻¹ *ᵥ (y - c))) = pts.map g := by
    simp only [SigmaPoints.map, inv_affine hL]
  simp only [ufCorrect, e]
  rw [← unscentedCorrect_affine, ← crossCov_affine L c]
  rfl

theorem ufCorrect_symm {g : Vec n → Vec m} {pred : Moments n} {pts : SigmaPoints N n} {o : Obs m}
    {R : Mat m m} (hp : pred.covᵀ = pred.cov) (hR : Rᵀ = R) :
    (ufCorrect g pred pts o R).covᵀ = (ufCorrect g pred pts o R).cov :=
  unscentedCorrect_symm hp (points2moments_symm _ (by simpa using hR))

/-! ### Loops -/

theorem runLoop_map {σ τ : Type} {step : ℕ → Option σ → Obs m → Res σ}
    {step' : ℕ → Option τ → Obs m → Res τ} {φ : σ → τ} {ψ : Obs m → Obs m} {I : σ → Prop}
    (h : ∀ t prev o, (∀ s ∈ prev, I s) → step' t (prev.map φ) (ψ o) = (step t prev o).map φ ∧
      ∀ s, step t prev o = .ok s → I s) (os : List (Obs m)) (t : ℕ) (prev : Option σ)
    (hp : ∀ s ∈ prev, I s) :
    runLoop step' t (prev.map φ) (os.map ψ) = (runLoop step t prev os).map (List.map φ) ∧
      ∀ l, runLoop step t prev os = .ok l → ∀ s ∈ l, I s := by
  induction os generalizing t prev with
  | nil =>
    refine ⟨rfl, fun l hl => ?_⟩
    cases hl
    simp
  | cons o os ih =>
    obtain ⟨h1, h2⟩ := h t prev o hp
    rw [List.map_cons, runLoop, runLoop, h1]
    cases hs : step t prev o with
    | error e =>
      refine ⟨rfl, fun l hl => ?_⟩
      cases hl
    | ok s =>
      obtain ⟨i1, i2⟩ := ih (t + 1) (some s) (by simpa using h2 s hs)
      simp only [Option.map_some] at i1
      simp only [Except.map, bind, Except.bind, i1]
      cases hr : runLoop step (t + 1) (some s) os with
      | error e =>
        refine ⟨rfl, fun l hl => ?_⟩
        cases hl
      | ok l =>
        refine ⟨rfl, fun l' hl => ?_⟩
        simp only [pure, Except.pure, Except.ok.injEq] at hl
        subst hl
        simpa using ⟨h2 s hs, i2 l hr⟩

theorem backLoop_map {σ τ : Type} {step : ℕ → σ → σ → Res σ} {step' : ℕ → τ → τ → Res τ} {φ : σ → τ}
    (rest : List σ) (t : ℕ) (s : σ)
    (h : ∀ i x, (s :: rest)[i]? = some x → i < rest.length →
      ∀ next, step' (t + i) (φ x) (φ next) = (step (t + i) x next).map φ) :
    backLoop step' t (φ s) (rest.map φ)
      = (backLoop step t s rest).map fun r => (φ r.1, r.2.map φ) := by
  induction rest generalizing t s with
  | nil => rfl
  | cons s' rest ih =>
    have h0 := h 0 s rfl (by simp)
    rw [List.map_cons, backLoop, backLoop, ih (t + 1) s' fun i x hx hi next => by
      have := h (i + 1) x (by simpa using hx) (by simpa using hi) next
      rwa [show t + (i + 1) = t + 1 + i by omega] at this]
    cases backLoop step (t + 1) s' rest with
    | error e => rfl
    | ok r =>
      simp only [Except.map, bind, Except.bind, add_zero] at h0 ⊢
      rw [h0]
      cases step t s r.1 with
      | error e => rfl
      | ok x => rfl

theorem backFull_map {σ τ : Type} {step : ℕ → σ → σ → Res σ} {step' : ℕ → τ → τ → Res τ} {φ : σ → τ}
    (l : List σ)
    (h : ∀ i x, l[i]? = some x → i + 1 < l.length →
      ∀ next, step' i (φ x) (φ next) = (step i x next).map φ) :
    backFull step' (l.map φ) = (backFull step l).map (List.map φ) := by
  cases l with
  | nil => rfl
  | cons s rest =>
    rw [List.map_cons, backFull, backFull, backLoop_map rest 0 s fun i x hx hi next => by
      simpa using h i x hx (by simpa using hi) next]
    cases backLoop step 0 s rest with
    | error e => rfl
    | ok r => rfl

/-! ### The additive filter -/

theorem Fns.at_map {α β : Type} (F : Fns α) (h : α → β) (t : ℕ) :
    (F.map h).at t = (F.at t).map h := by
  cases F with
  | flat l => cases l <;> rfl
  | nested l =>
    simp only [Fns.map, Fns.at, List.getElem?_map]
    cases l[t]? with
    | none => rfl
    | some r => cases r <;> rfl

theorem aukfStep_changeState {p : UParams n m} {L : Mat n n} (hL : Units L) (c : Vec n)
    (hS : p.S0ᵀ = p.S0) (hQ : p.Qᵀ = p.Q) (hR : p.Rᵀ = p.R) (t : ℕ) (prev : Option (Moments n))
    (o : Obs m) (hp : ∀ s ∈ prev, s.covᵀ = s.cov) :
    aukfStep (p.changeState L c) t (prev.map (Moments.affine L c)) o
        = (aukfStep p t prev o).map (Moments.affine L c) ∧
      ∀ s, aukfStep p t prev o = .ok s → s.covᵀ = s.cov := by
  cases prev with
  | none =>
    have e := hL.moments2points c (M := ⟨p.mu0, p.S0⟩) hS
    simp only [Moments.affine] at e
    simp only [aukfStep, Option.map_none, Option.getD_none, UParams.changeState, e, Fns.at_map]
    cases hm : moments2points (⟨p.mu0, p.S0⟩ : Moments n) with
    | error e => exact ⟨rfl, fun s hs => by cases hs⟩
    | ok pts =>
      simp only [Except.map, bind, Except.bind]
      cases p.g.at t with
      | error e => exact ⟨rfl, fun s hs => by cases hs⟩
      | ok g =>
        simp only [pure, Except.pure]
        constructor
        · have h1 := points2moments_affine (moments2points_sum hm) L c none
          rw [Option.map_none] at h1
          rw [h1, ufCorrect_changeState hL.det]
        · intro s hs
          cases hs
          exact ufCorrect_symm (points2moments_symm _ (by simp)) hR
  | some M =>
    simp only [aukfStep, Option.map_some, Option.getD_some, UParams.changeState,
      hL.moments2points c (hp M rfl), Fns.at_map]
    cases hm : moments2points M with
    | error e => exact ⟨rfl, fun s hs => by cases hs⟩
    | ok pts =>
      simp only [Except.map, bind, Except.bind]
      cases p.f.at (t - 1) with
      | error e => exact ⟨rfl, fun s hs => by cases hs⟩
      | ok f =>
        have e : (pts.map fun x => L *ᵥ x + c).map (fun y => L *ᵥ f (L⁻¹ *ᵥ (y - c)) + c)
            = (pts.map f).map fun x => L *ᵥ x + c := by
          simp only [SigmaPoints.map, inv_affine hL.det]
        have h1 := points2moments_affine (s := pts.map f) (show ∑ i, pts.wm i = 1 from moments2points_sum hm) L c (some p.Q)
        rw [Option.map_some] at h1
        have hps : (points2moments (pts.map f) (some p.Q)).covᵀ
            = (points2moments (pts.map f) (some p.Q)).cov :=
          points2moments_symm _ (by simpa using hQ)
        simp only [e, h1, hL.moments2points c hps]
        cases moments2points (points2moments (pts.map f) (some p.Q)) with
        | error e => exact ⟨rfl, fun s hs => by cases hs⟩
        | ok pts' =>
          simp only [Except.map]
          cases p.g.at t with
          | error e => exact ⟨rfl, fun s hs => by cases hs⟩
          | ok g =>
            simp only [pure, Except.pure]
            constructor
            · rw [ufCorrect_changeState hL.det]
            · intro s hs
              cases hs
              exact ufCorrect_symm hps hR

theorem ufSmooth_changeState {L : Mat n n} (hL : IsUnit L.det) (c : Vec n) (filt : Moments n)
    (pts ptsPred : SigmaPoints N n) {pred : Moments n} (hdet : IsUnit pred.cov.det)
    (next : Moments n) :
    ufSmooth (filt.affine L c) (pts.map fun x => L *ᵥ x + c) (ptsPred.map fun x => L *ᵥ x + c)
      (pred.affine L c) (next.affine L c) = (ufSmooth filt pts ptsPred pred next).affine L c := by
  have hu : IsUnit Lᵀ.det := by rwa [det_transpose]
  have hpin : pinv (L * pred.cov * Lᵀ) = Lᵀ⁻¹ * pinv pred.cov * L⁻¹ := by
    rw [pinv_eq_inv hdet, pinv_eq_inv (by
      rw [det_mul, det_mul]; exact (hL.mul hdet).mul hu), Matrix.mul_inv_rev, Matrix.mul_inv_rev,
      Matrix.mul_assoc]
  have e1 := of_diffs_affine pts.points filt.mean L c
  have e2 := of_diffs_affine ptsPred.points pred.mean L c
  have e3 : (Matrix.of fun j i => (L *ᵥ pts.points j + c) i - (L *ᵥ filt.mean + c) i : Mat N n)
      = (Matrix.of fun j i => pts.points j i - filt.mean i : Mat N n) * Lᵀ := by
    have := congrArg transpose e1
    rw [transpose_mul] at this
    exact this
  have key : ∀ X : Mat n n, L * X * Lᵀ * (Lᵀ⁻¹ * pinv pred.cov * L⁻¹) = L * (X * pinv pred.cov) * L⁻¹ := by
    intro X
    rw [← Matrix.mul_assoc, ← Matrix.mul_assoc, Matrix.mul_assoc (L * X), mul_nonsing_inv _ hu,
      Matrix.mul_one, Matrix.mul_assoc L]
  have pairT : ∀ (D : Mat n N) (W : Mat N N) (E : Mat N n),
      (L * D * W * (E * Lᵀ))ᵀ = L * (D * W * E)ᵀ * Lᵀ := by
    intro D W E
    simp only [transpose_mul, transpose_transpose, Matrix.mul_assoc]
  simp only [ufSmooth, Moments.affine, SigmaPoints.map]
  rw [e2, e3, pairT, hpin, key]
  generalize ((Matrix.of fun i j => ptsPred.points j i - pred.mean i : Mat n N)
    * diagonal ptsPred.wc * (Matrix.of fun j i => pts.points j i - filt.mean i : Mat N n))ᵀ
      * pinv pred.cov = J
  have k1 : ∀ v : Vec n, (L * J * L⁻¹) *ᵥ (L *ᵥ v) = L *ᵥ (J *ᵥ v) := by
    intro v
    rw [mulVec_mulVec, Matrix.mul_assoc, nonsing_inv_mul _ hL, Matrix.mul_one, mulVec_mulVec]
  have k2 : ∀ X : Mat n n, L * J * L⁻¹ * (L * X * Lᵀ) * (L * J * L⁻¹)ᵀ = L * (J * X * Jᵀ) * Lᵀ := by
    intro X
    have : Lᵀ * (L * J * L⁻¹)ᵀ = Jᵀ * Lᵀ := by
      rw [← transpose_mul, Matrix.mul_assoc, nonsing_inv_mul _ hL, Matrix.mul_one, transpose_mul]
    rw [Matrix.mul_assoc L X, Matrix.mul_assoc (L * J), ← Matrix.mul_assoc L⁻¹,
      nonsing_inv_mul _ hL, Matrix.one_mul, Matrix.mul_assoc (L * J), Matrix.mul_assoc X, this]
    simp only [Matrix.mul_assoc]
  congr 1
  · rw [add_sub_add_right_eq_sub, ← mulVec_sub, k1, mulVec_add]
    abel
  · rw [← Matrix.sub_mul, ← Matrix.mul_sub, k2, Matrix.mul_add, Matrix.add_mul]

theorem aukfSmoothStep_changeState {p : UParams n m} {L : Mat n n} (hL : Units L) (c : Vec n)
    (t : ℕ) {s : Moments n} (hs : s.covᵀ = s.cov)
    (hdet : ∀ pts f, moments2points s = .ok pts → p.f.at t = .ok f →
      IsUnit (points2moments (pts.map f) (some p.Q)).cov.det) (next : Moments n) :
    aukfSmoothStep (p.changeState L c) t (s.affine L c) (next.affine L c)
      = (aukfSmoothStep p t s next).map (Moments.affine L c) := by
  simp only [aukfSmoothStep, UParams.changeState, hL.moments2points c hs, Fns.at_map]
  cases hm : moments2points s with
  | error e => rfl
  | ok pts =>
    simp only [Except.map, bind, Except.bind]
    cases hf : p.f.at t with
    | error e => rfl
    | ok f =>
      have e : (pts.map fun x => L *ᵥ x + c).map (fun y => L *ᵥ f (L⁻¹ *ᵥ (y - c)) + c)
          = (pts.map f).map fun x => L *ᵥ x + c := by
        simp only [SigmaPoints.map, inv_affine hL.det]
      have h1 := points2moments_affine (s := pts.map f) (show ∑ i, pts.wm i = 1 from moments2points_sum hm) L c (some p.Q)
      rw [Option.map_some] at h1
      simp only [pure, Except.pure, e, h1]
      rw [ufSmooth_changeState hL.det _ _ _ _ (hdet pts f hm hf)]

theorem aukfFilter_changeState {p : UParams n m} {L : Mat n n} (hL : Units L) (c : Vec n)
    (hS : p.S0ᵀ = p.S0) (hQ : p.Qᵀ = p.Q) (hR : p.Rᵀ = p.R) (os : List (Obs m)) :
    aukfFilter (p.changeState L c) os = (aukfFilter p os).map (List.map (Moments.affine L c)) ∧
      ∀ l, aukfFilter p os = .ok l → ∀ s ∈ l, s.covᵀ = s.cov := by
  have := runLoop_map (ψ := id) (fun t prev o => aukfStep_changeState hL c hS hQ hR t prev o) os 0
    none (by simp)
  rwa [List.map_id, Option.map_none] at this

/-- If a step of the filter succeeded, the predicted covariance was positive definite. -/
theorem aukfStep_pred_posDef {p : UParams n m} (hQ : p.Qᵀ = p.Q) {t : ℕ} {M M' : Moments n}
    {o : Obs m} (h : aukfStep p (t + 1) (some M) o = .ok M') {pts f}
    (hm : moments2points M = .ok pts) (hf : p.f.at t = .ok f) :
    (points2moments (pts.map f) (some p.Q)).cov.PosDef := by
  simp only [aukfStep, Option.getD_some, ok_bind_iff, Nat.add_sub_cancel] at h
  obtain ⟨pts1, h1, f1, h2, pts2, h3, -⟩ := h
  rw [hm] at h1
  rw [hf] at h2
  cases h1
  cases h2
  obtain ⟨G, hG, -⟩ := (moments2points_iff (points2moments_symm _ (by simpa using hQ))).mp h3
  exact hG.posDef

theorem aukfSmooth_changeState {p : UParams n m} {L : Mat n n} (hL : Units L) (c : Vec n)
    (hS : p.S0ᵀ = p.S0) (hQ : p.Qᵀ = p.Q) (hR : p.Rᵀ = p.R) (os : List (Obs m)) :
    aukfSmooth (p.changeState L c) os = (aukfSmooth p os).map (List.map (Moments.affine L c)) := by
  obtain ⟨h1, h2⟩ := aukfFilter_changeState hL c hS hQ hR os
  rw [aukfSmooth, aukfSmooth, h1]
  cases hl : aukfFilter p os with
  | error e => rfl
  | ok l =>
    simp only [Except.map, bind, Except.bind]
    refine backFull_map l fun i x hx hi next => ?_
    obtain ⟨hi', rfl⟩ := List.getElem?_eq_some_iff.mp hx
    refine aukfSmoothStep_changeState hL c i (h2 l hl _ (List.getElem_mem _)) ?_ next
    intro pts f hm hf
    obtain ⟨h3, -, h4⟩ := runLoop_iff.mp hl
    have := h4 i (by omega) hi
    rw [zero_add] at this
    exact (aukfStep_pred_posDef hQ this hm hf).det_pos.ne'.isUnit

/-! ### The filter with general noise -/

theorem Units.blockDiag {a b : ℕ} {S : Mat a a} {T : Mat b b} (hS : Units S) (hT : Units T) :
    Units (Verif.blockDiag S T) := by
  have := isCholesky_blockDiag (S := S * Sᵀ) (T := T * Tᵀ) ⟨hS.lower, hS.pos, rfl⟩
    ⟨hT.lower, hT.pos, rfl⟩
  exact ⟨this.lower, this.diag_pos⟩

theorem blockDiag_mulVec_left {a b : ℕ} (S : Mat a a) (T : Mat b b) (x : Vec (a + b)) (i : Fin a) :
    (blockDiag S T *ᵥ x) (Fin.castAdd b i) = (S *ᵥ fun j => x (Fin.castAdd b j)) i := by
  simp [blockDiag, mulVec, dotProduct, Fin.sum_univ_add]

theorem blockDiag_mulVec_right {a b : ℕ} (S : Mat a a) (T : Mat b b) (x : Vec (a + b)) (i : Fin b) :
    (blockDiag S T *ᵥ x) (Fin.natAdd a i) = (T *ᵥ fun j => x (Fin.natAdd a j)) i := by
  simp [blockDiag, mulVec, dotProduct, Fin.sum_univ_add]

theorem SigmaPoints.left_affine {a b : ℕ} (s : SigmaPoints N (a + b)) (S : Mat a a) (T : Mat b b)
    (c : Vec a) (d : Vec b) :
    (s.map fun x => blockDiag S T *ᵥ x + concat c d).left = s.left.map fun x => S *ᵥ x + c := by
  simp only [SigmaPoints.left, SigmaPoints.map, SigmaPoints.mk.injEq, and_true]
  funext i j
  simp only [Pi.add_apply, blockDiag_mulVec_left, concat, Fin.append_left]

theorem SigmaPoints.right_affine {a b : ℕ} (s : SigmaPoints N (a + b)) (S : Mat a a) (T : Mat b b)
    (c : Vec a) (d : Vec b) :
    (s.map fun x => blockDiag S T *ᵥ x + concat c d).right = s.right.map fun x => T *ᵥ x + d := by
  simp only [SigmaPoints.right, SigmaPoints.map, SigmaPoints.mk.injEq, and_true]
  funext i j
  simp only [Pi.add_apply, blockDiag_mulVec_right, concat, Fin.append_right]

theorem concat_affine {a b : ℕ} (S : Mat a a) (T : Mat b b) (c u : Vec a) (d v : Vec b) :
    blockDiag S T *ᵥ concat u v + concat c d = concat (S *ᵥ u + c) (T *ᵥ v + d) := by
  funext i
  refine Fin.addCases (fun i => ?_) (fun i => ?_) i
  · simp only [Pi.add_apply, blockDiag_mulVec_left, concat, Fin.append_left]
  · simp only [Pi.add_apply, blockDiag_mulVec_right, concat, Fin.append_right]

theorem blockDiag_conj {a b : ℕ} (S A : Mat a a) (T B : Mat b b) :
    blockDiag S T * blockDiag A B * (blockDiag S T)ᵀ = blockDiag (S * A * Sᵀ) (T * B * Tᵀ) := by
  rw [blockDiag_transpose, blockDiag_mul, blockDiag_mul]

theorem augPoints_affine {a b : ℕ} {S : Mat a a} {T : Mat b b} (hS : Units S) (hT : Units T)
    (c : Vec a) {M : Moments a} {Q : Mat b b} (hM : M.covᵀ = M.cov) (hQ : Qᵀ = Q) :
    augPoints (M.affine S c) ⟨0, T * Q * Tᵀ⟩
      = (augPoints M ⟨0, Q⟩).map fun r =>
        (r.1.map fun x => S *ᵥ x + c, r.2.map fun x => T *ᵥ x + 0) := by
  have e := (hS.blockDiag hT).moments2points (concat c 0)
    (M := ⟨concat M.mean 0, Verif.blockDiag M.cov Q⟩) (by simp only [blockDiag_transpose, hM, hQ])
  simp only [Moments.affine, concat_affine, mulVec_zero, add_zero, blockDiag_conj] at e
  simp only [augPoints, Moments.affine, e]
  cases moments2points ⟨concat M.mean 0, Verif.blockDiag M.cov Q⟩ with
  | error e => rfl
  | ok s =>
    simp only [Except.map, bind, Except.bind, pure, Except.pure, SigmaPoints.left_affine,
      SigmaPoints.right_affine]

theorem augPoints_sum {a b : ℕ} {M : Moments a} {M' : Moments b} {r}
    (h : augPoints M M' = .ok r) : ∑ i, r.1.wm i = 1 := by
  simp only [augPoints, ok_bind_iff, pure_ok_iff] at h
  obtain ⟨s, h1, rfl⟩ := h
  exact moments2points_sum h1

theorem augFilterPoints_affine {L N : Mat n n} {V : Mat m m} (hL : Units L) (hN : Units N)
    (hV : Units V) (c : Vec n) {M : Moments n} {Q : Mat n n} {R : Mat m m} (hM : M.covᵀ = M.cov)
    (hQ : Qᵀ = Q) (hR : Rᵀ = R) :
    augFilterPoints (M.affine L c) (N * Q * Nᵀ) (V * R * Vᵀ)
      = (augFilterPoints M Q R).map fun r => (r.1.map fun x => L *ᵥ x + c,
          r.2.1.map fun x => N *ᵥ x + 0, r.2.2.map fun x => V *ᵥ x + 0) := by
  have e := ((hL.blockDiag hN).blockDiag hV).moments2points (concat (concat c 0) 0)
    (M := ⟨concat (concat M.mean (0 : Vec n)) (0 : Vec m),
      Verif.blockDiag (Verif.blockDiag M.cov Q) R⟩)
    (by simp only [blockDiag_transpose, hM, hQ, hR])
  simp only [Moments.affine, concat_affine, mulVec_zero, add_zero, blockDiag_conj] at e
  simp only [augFilterPoints, Moments.affine, e]
  cases moments2points (⟨concat (concat M.mean (0 : Vec n)) (0 : Vec m),
      Verif.blockDiag (Verif.blockDiag M.cov Q) R⟩ : Moments (n + n + m)) with
  | error e => rfl
  | ok s =>
    simp only [Except.map, bind, Except.bind, pure, Except.pure, SigmaPoints.left_affine,
      SigmaPoints.right_affine]

theorem augFilterPoints_sum {M : Moments n} {Q : Mat n n} {R : Mat m m} {r}
    (h : augFilterPoints M Q R = .ok r) : ∑ i, r.1.wm i = 1 := by
  simp only [augFilterPoints, ok_bind_iff, pure_ok_iff] at h
  obtain ⟨s, h1, rfl⟩ := h
  exact moments2points_sum h1

theorem ufCorrect₂_changeState {L : Mat n n} {V : Mat m m} (hL : IsUnit L.det) (hV : IsUnit V.det)
    (c : Vec n) (g : Vec n → Vec m → Vec m) (pred : Moments n) (pts : SigmaPoints N n) (o : Obs m)
    (w : SigmaPoints N m) :
    ufCorrect₂ (fun y v => g (L⁻¹ *ᵥ (y - c)) (V⁻¹ *ᵥ v)) (pred.affine L c)
        (pts.map fun x => L *ᵥ x + c) o (w.map fun x => V *ᵥ x + 0)
      = (ufCorrect₂ g pred pts o w).affine L c := by
  have e : (pts.map fun x => L *ᵥ x + c).map₂ (w.map fun x => V *ᵥ x + 0)
      (fun y v => g (L⁻¹ *ᵥ (y - c)) (V⁻¹ *ᵥ v)) = pts.map₂ w g := by
    simp only [SigmaPoints.map, SigmaPoints.map₂, inv_affine hL, add_zero, mulVec_mulVec,
      nonsing_inv_mul _ hV, one_mulVec]
  simp only [ufCorrect₂, e]
  rw [← unscentedCorrect_affine, ← crossCov_affine L c]
  rfl

theorem map₂_changeState {L N' : Mat n n} (hL : IsUnit L.det) (hN : IsUnit N'.det) (c : Vec n)
    (f : Vec n → Vec n → Vec n) (pts w : SigmaPoints N n) :
    (pts.map fun x => L *ᵥ x + c).map₂ (w.map fun x => N' *ᵥ x + 0)
        (fun y w => L *ᵥ f (L⁻¹ *ᵥ (y - c)) (N'⁻¹ *ᵥ w) + c)
      = (pts.map₂ w f).map fun x => L *ᵥ x + c := by
  simp only [SigmaPoints.map, SigmaPoints.map₂, inv_affine hL, add_zero, mulVec_mulVec,
    nonsing_inv_mul _ hN, one_mulVec]

theorem ufCorrect₂_symm {g : Vec n → Vec m → Vec m} {pred : Moments n} {pts : SigmaPoints N n}
    {o : Obs m} {w : SigmaPoints N m} (hp : pred.covᵀ = pred.cov) :
    (ufCorrect₂ g pred pts o w).covᵀ = (ufCorrect₂ g pred pts o w).cov :=
  unscentedCorrect_symm hp (points2moments_symm _ (by simp))

theorem ukfStep_changeState {p : GParams n m} {L N' : Mat n n} {V : Mat m m} (hL : Units L)
    (hN : Units N') (hV : Units V) (c : Vec n)
    (hS : p.S0ᵀ = p.S0) (hQ : p.Qᵀ = p.Q) (hR : p.Rᵀ = p.R) (t : ℕ) (prev : Option (Moments n))
    (o : Obs m) (hp : ∀ s ∈ prev, s.covᵀ = s.cov) :
    ukfStep (p.changeState L c N' V) t (prev.map (Moments.affine L c)) o
        = (ukfStep p t prev o).map (Moments.affine L c) ∧
      ∀ s, ukfStep p t prev o = .ok s → s.covᵀ = s.cov := by
  cases prev with
  | none =>
    have e := augFilterPoints_affine hL hN hV c (M := ⟨p.mu0, p.S0⟩) hS hQ hR
    simp only [Moments.affine] at e
    simp only [ukfStep, Option.map_none, Option.getD_none, GParams.changeState, e, Fns.at_map]
    cases hm : augFilterPoints (⟨p.mu0, p.S0⟩ : Moments n) p.Q p.R with
    | error e => exact ⟨rfl, fun s hs => by cases hs⟩
    | ok pts =>
      simp only [Except.map, bind, Except.bind]
      cases p.g.at t with
      | error e => exact ⟨rfl, fun s hs => by cases hs⟩
      | ok g =>
        simp only [pure, Except.pure]
        constructor
        · have h1 := points2moments_affine (augFilterPoints_sum hm) L c none
          rw [Option.map_none] at h1
          rw [h1, ufCorrect₂_changeState hL.det hV.det]
        · intro s hs
          cases hs
          exact ufCorrect₂_symm (points2moments_symm _ (by simp))
  | some M =>
    simp only [ukfStep, Option.map_some, Option.getD_some, GParams.changeState,
      augFilterPoints_affine hL hN hV c (hp M rfl) hQ hR, Fns.at_map]
    cases hm : augFilterPoints M p.Q p.R with
    | error e => exact ⟨rfl, fun s hs => by cases hs⟩
    | ok pts =>
      simp only [Except.map, bind, Except.bind]
      cases p.f.at (t - 1) with
      | error e => exact ⟨rfl, fun s hs => by cases hs⟩
      | ok f =>
        have h1 := points2moments_affine (s := pts.1.map₂ pts.2.1 f)
          (show ∑ i, pts.1.wm i = 1 from augFilterPoints_sum hm) L c none
        rw [Option.map_none] at h1
        simp only [map₂_changeState hL.det hN.det, h1]
        cases p.g.at t with
        | error e => exact ⟨rfl, fun s hs => by cases hs⟩
        | ok g =>
          simp only [pure, Except.pure]
          constructor
          · rw [ufCorrect₂_changeState hL.det hV.det]
          · intro s hs
            cases hs
            exact ufCorrect₂_symm (points2moments_symm _ (by simp))

theorem ukfFilter_changeState {p : GParams n m} {L N' : Mat n n} {V : Mat m m} (hL : Units L)
    (hN : Units N') (hV : Units V) (c : Vec n)
    (hS : p.S0ᵀ = p.S0) (hQ : p.Qᵀ = p.Q) (hR : p.Rᵀ = p.R) (os : List (Obs m)) :
    ukfFilter (p.changeState L c N' V) os
        = (ukfFilter p os).map (List.map (Moments.affine L c)) ∧
      ∀ l, ukfFilter p os = .ok l → ∀ s ∈ l, s.covᵀ = s.cov := by
  have := runLoop_map (ψ := id)
    (fun t prev o => ukfStep_changeState hL hN hV c hS hQ hR t prev o) os 0 none (by simp)
  rwa [List.map_id, Option.map_none] at this

theorem ukfSmoothStep_changeState {p : GParams n m} {L N' : Mat n n} {V : Mat m m} (hL : Units L)
    (hN : Units N') (c : Vec n) (hQ : p.Qᵀ = p.Q)
    (t : ℕ) {s : Moments n} (hs : s.covᵀ = s.cov)
    (hdet : ∀ pts f, augPoints s (⟨0, p.Q⟩ : Moments n) = .ok pts → p.f.at t = .ok f →
      IsUnit (points2moments (pts.1.map₂ pts.2 f) none).cov.det) (next : Moments n) :
    ukfSmoothStep (p.changeState L c N' V) t (s.affine L c) (next.affine L c)
      = (ukfSmoothStep p t s next).map (Moments.affine L c) := by
  simp only [ukfSmoothStep, GParams.changeState, augPoints_affine hL hN c hs hQ, Fns.at_map]
  cases hm : augPoints s (⟨0, p.Q⟩ : Moments n) with
  | error e => rfl
  | ok pts =>
    simp only [Except.map, bind, Except.bind]
    cases hf : p.f.at t with
    | error e => rfl
    | ok f =>
      have h1 := points2moments_affine (s := pts.1.map₂ pts.2 f)
        (show ∑ i, pts.1.wm i = 1 from augPoints_sum hm) L c none
      rw [Option.map_none] at h1
      simp only [pure, Except.pure, map₂_changeState hL.det hN.det, h1]
      rw [ufSmooth_changeState hL.det _ _ _ _ (hdet pts f hm hf)]

theorem genPredicts_of_augPoints {M : Moments n} {Q : Mat n n} (hQ : Qᵀ = Q)
    (hM : M.covᵀ = M.cov) {pts} (h : augPoints M (⟨0, Q⟩ : Moments n) = .ok pts)
    (f : Vec n → Vec n → Vec n) :
    ∃ P Γ, GenPredicts f Q M P Γ ∧ points2moments (pts.1.map₂ pts.2 f) none = P := by
  obtain ⟨L, LQ, hL, hLQ, rfl⟩ := (augPoints_iff hM hQ).mp h
  refine ⟨_, _, ⟨L, LQ, hL, hLQ, ?_, ?_, rfl⟩, rfl⟩
  · simp only [SigmaPoints.map_map₂]
    rw [expect_mean, expect_sigmaPoints, uexp_concat]
    simp only [partL_concat, partR_concat]
  · simp only [SigmaPoints.map_map₂]
    rw [expect_cov _ (oneWeight_sigmaPoints _ _), expect_mean]
    simp only [expect_sigmaPoints, uexp_concat, partL_concat, partR_concat]

/-! ### Observations in other units -/

theorem crossCov_affine_right (V : Mat m m) (d : Vec m) (p : SigmaPoints N n) (mu : Vec n)
    (q : SigmaPoints N m) (nu : Vec m) :
    crossCov p mu (q.map fun z => V *ᵥ z + d) (V *ᵥ nu + d) = crossCov p mu q nu * Vᵀ := by
  have h := congrArg transpose (of_diffs_affine q.points nu V d)
  rw [transpose_mul] at h
  have h' : (Matrix.of fun j i => (V *ᵥ q.points j + d) i - (V *ᵥ nu + d) i : Mat N m)
      = (Matrix.of fun j i => q.points j i - nu i : Mat N m) * Vᵀ := h
  unfold crossCov
  simp only [SigmaPoints.map]
  rw [h', Matrix.mul_assoc, Matrix.mul_assoc, Matrix.mul_assoc]

theorem ufCorrect_changeObs {V : Mat m m} (hV : IsUnit V.det) (d : Vec m) (g : Vec n → Vec m)
    (pred : Moments n) {pts : SigmaPoints N n} (hs : ∑ i, pts.wm i = 1) (hw : GoodWeights pts)
    (o : Obs m) {R : Mat m m} (hR : R.PosDef) :
    ufCorrect (fun x => V *ᵥ g x + d) pred pts (o.affine V d) (V * R * Vᵀ)
      = ufCorrect g pred pts o R := by
  have h1 := points2moments_affine (s := pts.map g) hs V d (some R)
  rw [Option.map_some] at h1
  have hdet : IsUnit (points2moments (pts.map g) (some R)).cov.det :=
    (predict_posDef hw g hR).det_pos.ne'.isUnit
  have hVt : IsUnit Vᵀ.det := by rwa [det_transpose]
  have hpin : pinv (V * (points2moments (pts.map g) (some R)).cov * Vᵀ)
      = Vᵀ⁻¹ * pinv (points2moments (pts.map g) (some R)).cov * V⁻¹ := by
    rw [pinv_eq_inv hdet, pinv_eq_inv (by
      rw [det_mul, det_mul]; exact (hV.mul hdet).mul hVt), Matrix.mul_inv_rev, Matrix.mul_inv_rev,
      Matrix.mul_assoc]
  have e : pts.map (fun x => V *ᵥ g x + d) = (pts.map g).map fun z => V *ᵥ z + d := rfl
  simp only [ufCorrect, e, h1]
  unfold unscentedCorrect
  by_cases ho : o.missing
  · have ho' : (o.affine V d).missing := ho
    simp only [ho, ho', not_true_eq_false, if_false]
  · have ho' : ¬ (o.affine V d).missing := ho
    rw [if_pos ho', if_pos ho]
    simp only [Moments.affine, Obs.affine, crossCov_affine_right, hpin]
    generalize crossCov pts pred.mean (pts.map g) _ = Γ
    generalize pinv (points2moments (pts.map g) (some R)).cov = S'
    have hk : Γ * Vᵀ * (Vᵀ⁻¹ * S' * V⁻¹) = Γ * S' * V⁻¹ := by
      rw [← Matrix.mul_assoc, ← Matrix.mul_assoc, Matrix.mul_assoc Γ, mul_nonsing_inv _ hVt,
        Matrix.mul_one]
    rw [hk]
    congr 1
    · rw [add_sub_add_right_eq_sub, ← mulVec_sub, mulVec_mulVec, Matrix.mul_assoc,
        nonsing_inv_mul _ hV, Matrix.mul_one]
    · rw [transpose_mul, transpose_transpose, Matrix.mul_assoc, ← Matrix.mul_assoc V⁻¹,
        nonsing_inv_mul _ hV, Matrix.one_mul]

theorem aukfStep_changeObs (hn : n ≤ 3) {p : UParams n m} {V : Mat m m} (hV : IsUnit V.det)
    (d : Vec m) (hS : p.S0.PosDef) (hQ : p.Q.PosDef) (hR : p.R.PosDef) (t : ℕ)
    (prev : Option (Moments n)) (o : Obs m) (hp : ∀ s ∈ prev, s.cov.PosDef) :
    aukfStep (p.changeObs V d) t (prev.map id) (o.affine V d) = (aukfStep p t prev o).map id ∧
      ∀ s, aukfStep p t prev o = .ok s → s.cov.PosDef := by
  rw [Option.map_id_apply]
  cases prev with
  | none =>
    obtain ⟨pts, hm, hsig, hw⟩ := moments2points_good hn ⟨p.mu0, p.S0⟩ hS
    simp only [aukfStep, Option.getD_none, UParams.changeObs, hm, Fns.at_map, bind, Except.bind]
    cases p.g.at t with
    | error e => exact ⟨rfl, fun s hs => by cases hs⟩
    | ok g =>
      simp only [Except.map, pure, Except.pure, id]
      refine ⟨by rw [ufCorrect_changeObs hV d g _ hsig.sum hw o hR], ?_⟩
      intro s hs
      cases hs
      rw [hsig.points2moments]
      exact ufCorrect_posDef hsig hw hS hR g o
  | some M =>
    obtain ⟨pts, hm, hsig, hw⟩ := moments2points_good hn M (hp M rfl)
    simp only [aukfStep, Option.getD_some, UParams.changeObs, hm, Fns.at_map, bind, Except.bind]
    cases p.f.at (t - 1) with
    | error e => exact ⟨rfl, fun s hs => by cases hs⟩
    | ok f =>
      have hP := predict_posDef hw f hQ
      obtain ⟨pts', hm', hsig', hw'⟩ := moments2points_good hn _ hP
      simp only [hm']
      cases p.g.at t with
      | error e => exact ⟨rfl, fun s hs => by cases hs⟩
      | ok g =>
        simp only [Except.map, pure, Except.pure, id]
        refine ⟨by rw [ufCorrect_changeObs hV d g _ hsig'.sum hw' o hR], ?_⟩
        intro s hs
        cases hs
        exact ufCorrect_posDef hsig' hw' hP hR g o

theorem aukfFilter_changeObs (hn : n ≤ 3) {p : UParams n m} {V : Mat m m} (hV : IsUnit V.det)
    (d : Vec m) (hS : p.S0.PosDef) (hQ : p.Q.PosDef) (hR : p.R.PosDef) (os : List (Obs m)) :
    aukfFilter (p.changeObs V d) (os.map (Obs.affine V d)) = aukfFilter p os := by
  have := (runLoop_map (fun t prev o => aukfStep_changeObs hn hV d hS hQ hR t prev o) os 0 none
    (by simp)).1
  rw [Option.map_none, List.map_id_fun] at this
  rw [aukfFilter, aukfFilter, this]
  cases runLoop (aukfStep p) 0 none os <;> rfl

end Verif
