import Verif.Spec.RoundedUnscented
import Verif.Proofs.RoundedBierman
import Verif.Proofs.UnscentedTransform
import Mathlib.Topology.MetricSpace.Lipschitz
import Mathlib.Analysis.Asymptotics.Lemmas

/-!
# Rounding errors in the unscented filters: lemmas
-/

open Matrix Topology

namespace Verif

variable {n m k l N : ℕ} {c : ℕ → ℝ} {ι : Type} {F : Filter ι} {w : ι → ℝ} {α β : Type}

/-! ### Functions -/

/-- A computed function, at a computed point. -/
theorem owV_fn {E : Type} [NormedAddCommGroup E] (hw : Filter.Tendsto w F (𝓝 0))
    {f : ι → E → Vec l} {g : E → Vec l} {κ : E → ℝ} (hκ : Continuous κ)
    (hf : ∀ i, FnErr κ (w i) (f i) (g)) (hg : LocallyLipschitz g) {x : ι → E} {a : E}
    (hx : Asymptotics.IsBigO F (fun i => x i - a) w) :
    OwV F w (fun i => f i (x i)) (g a) := by
  have hxa : Filter.Tendsto x F (𝓝 a) := by
    have := hx.trans_tendsto hw
    simpa using this.add_const a
  obtain ⟨K, t, ht, hL⟩ := hg a
  intro q
  have h1 : Ow F w (fun i => g (x i) q) (g a q) := by
    refine Asymptotics.IsBigO.trans (Asymptotics.IsBigO.of_bound K ?_) hx
    filter_upwards [hxa ht] with i hi
    have h2 := hL.dist_le_mul (x i) hi a (mem_of_mem_nhds ht)
    rw [dist_eq_norm (x i) a] at h2
    refine le_trans ?_ h2
    rw [Real.norm_eq_abs, ← Real.dist_eq]
    exact dist_le_pi_dist _ _ q
  have hb : Bdd F fun i => κ (x i) := ((hκ.tendsto a).comp hxa).isBigO_one ℝ
  have h3 : Asymptotics.IsBigO F (fun i => f i (x i) q - g (x i) q) w := by
    have h4 : Asymptotics.IsBigO F (fun i => w i * κ (x i)) (fun i => w i * 1) :=
      (Asymptotics.isBigO_refl w F).mul hb
    simp only [mul_one] at h4
    refine Asymptotics.IsBigO.trans (Asymptotics.IsBigO.of_bound 1
      (Filter.Eventually.of_forall fun i => ?_)) h4
    rw [one_mul, Real.norm_eq_abs]
    exact (hf i (x i) q).trans (le_abs_self _)
  refine (h3.add h1).congr_left fun i => ?_
  ring

theorem OwV.isBigO {x : ι → Vec k} {a : Vec k} (h : OwV F w x a) :
    Asymptotics.IsBigO F (fun i => x i - a) w := by
  rw [Asymptotics.isBigO_pi]
  exact h

theorem Fns.Within.at {d : ι → α → β → Prop} {f : ι → Fns α} {g : Fns β}
    (h : ∀ i, (f i).Within (d i) g) {t : ℕ} {v : β} (hv : g.at t = .ok v) :
    ∃ a : ι → α, (∀ i, (f i).at t = .ok (a i)) ∧ ∀ i, d i (a i) v := by
  have : ∀ i, ∃ a, (f i).at t = .ok a ∧ d i a v := by
    intro i
    have hi := h i
    have hfirst : ∀ {l : List α} {l' : List β}, List.Forall₂ (d i) l l' → first l' = .ok v →
        ∃ a, first l = .ok a ∧ d i a v := by
      intro l l' hl e
      cases hl with
      | nil => cases e
      | cons h1 h2 =>
        cases e
        exact ⟨_, rfl, h1⟩
    cases hfi : f i with
    | flat l =>
      cases g with
      | flat l' =>
        rw [hfi] at hi
        exact hfirst hi hv
      | nested l' => rw [hfi] at hi; exact hi.elim
    | nested l =>
      cases g with
      | flat l' => rw [hfi] at hi; exact hi.elim
      | nested l' =>
        rw [hfi] at hi
        simp only [Fns.at] at hv ⊢
        have hi : List.Forall₂ (List.Forall₂ (d i)) l l' := hi
        have hlen := hi.length_eq
        cases e : l'[t]? with
        | none => rw [e] at hv; cases hv
        | some r' =>
          rw [e] at hv
          obtain ⟨ht, er'⟩ := List.getElem?_eq_some_iff.mp e
          have ht' : t < l.length := by omega
          have hr := List.Forall₂.get hi ht' ht
          rw [List.getElem?_eq_getElem ht']
          refine hfirst hr ?_
          rw [← er'] at hv
          exact hv
  choose a h1 h2 using this
  exact ⟨a, h1, h2⟩

theorem Fns.All.at {q : α → Prop} {f : Fns α} (h : f.All q) {t : ℕ} {v : α}
    (hv : f.at t = .ok v) : q v := by
  cases f with
  | flat l =>
    cases l with
    | nil => cases hv
    | cons a l => cases hv; exact h _ (by simp)
  | nested l =>
    simp only [Fns.at] at hv
    cases e : l[t]? with
    | none => rw [e] at hv; cases hv
    | some r =>
      rw [e] at hv
      cases r with
      | nil => cases hv
      | cons a r' => cases hv; exact h _ (List.mem_of_getElem? e) _ (by simp)

/-! ### Moments and points -/

/-- Moments near exact ones with a symmetric covariance. -/
structure MomNear (F : Filter ι) (w : ι → ℝ) (g : ι → Moments k) (v : Moments k) : Prop where
  mean : OwV F w (fun i => (g i).mean) v.mean
  cov : OwM F w (fun i => (g i).cov) v.cov
  symm : v.covᵀ = v.cov

/-- Points and weights near exact ones. -/
structure SigNear (F : Filter ι) (w : ι → ℝ) (g : ι → SigmaPoints N k) (v : SigmaPoints N k) :
    Prop where
  points : ∀ j, OwV F w (fun i => (g i).points j) (v.points j)
  wm : OwV F w (fun i => (g i).wm) v.wm
  wc : OwV F w (fun i => (g i).wc) v.wc

theorem SigNear.map (hw : Filter.Tendsto w F (𝓝 0)) {g : ι → SigmaPoints N k} {v : SigmaPoints N k}
    (h : SigNear F w g v) {f : ι → Vec k → Vec l} {f' : Vec k → Vec l} {κ : Vec k → ℝ}
    (hκ : Continuous κ) (hf : ∀ i, FnErr κ (w i) (f i) f') (hf' : LocallyLipschitz f') :
    SigNear F w (fun i => (g i).map (f i)) (v.map f') :=
  ⟨fun j => owV_fn hw hκ hf hf' (h.points j).isBigO, h.wm, h.wc⟩

theorem SigNear.map₂ (hw : Filter.Tendsto w F (𝓝 0)) {q : ℕ} {g : ι → SigmaPoints N k}
    {v : SigmaPoints N k} (h : SigNear F w g v) {g₂ : ι → SigmaPoints N q} {v₂ : SigmaPoints N q}
    (h₂ : SigNear F w g₂ v₂) {f : ι → Vec k → Vec q → Vec l} {f' : Vec k → Vec q → Vec l}
    {κ : Vec k × Vec q → ℝ} (hκ : Continuous κ)
    (hf : ∀ i, FnErr κ (w i) (fun x => f i x.1 x.2) (fun x => f' x.1 x.2))
    (hf' : LocallyLipschitz fun x : Vec k × Vec q => f' x.1 x.2) :
    SigNear F w (fun i => (g i).map₂ (g₂ i) (f i)) (v.map₂ v₂ f') :=
  ⟨fun j => owV_fn (E := Vec k × Vec q) (x := fun i => ((g i).points j, (g₂ i).points j))
    (a := (v.points j, v₂.points j)) hw hκ hf hf'
    ((h.points j).isBigO.prod_left (h₂.points j).isBigO), h.wm, h.wc⟩

theorem owM_diagonal {x : ι → Vec k} {a : Vec k} (h : OwV F w x a) :
    OwM F w (fun i => diagonal (x i)) (diagonal a) := fun p q => by
  by_cases e : p = q
  · subst e
    simpa only [diagonal_apply_eq] using h p
  · simpa only [diagonal_apply_ne _ e] using ow_const (F := F) (w := w) 0

theorem points2moments_transpose (s : SigmaPoints N k) {noise : Option (Mat k k)}
    (hn : ∀ S ∈ noise, Sᵀ = S) : (points2moments s noise).covᵀ = (points2moments s noise).cov := by
  cases noise with
  | none =>
    simp only [points2moments, transpose_mul, transpose_transpose, diagonal_transpose,
      Matrix.mul_assoc]
  | some S =>
    simp only [points2moments, transpose_add, hn S rfl, transpose_mul, transpose_transpose,
      diagonal_transpose, Matrix.mul_assoc]

section Steps

variable {ar : ∀ i, ArithU c (w i)}

theorem near_points2moments (hw : Filter.Tendsto w F (𝓝 0)) {g : ι → SigmaPoints N k}
    {v : SigmaPoints N k} (h : SigNear F w g v) {noise : Option (Mat k k)}
    (hn : ∀ S ∈ noise, Sᵀ = S) :
    MomNear F w (fun i => flPoints2moments (ar i) (g i) noise) (points2moments v noise) := by
  have hP : OwM F w (fun i => (Matrix.of (g i).points)ᵀ) (Matrix.of v.points)ᵀ :=
    fun p q => h.points q p
  have hmu := ow_fl_mulV (br := fun i => (ar i).toArith) hw hP h.wm
  have hd : OwM F w (fun i => (Matrix.of fun p q => (ar i).sub ((g i).points q p)
      ((ar i).mulV (Matrix.of (g i).points)ᵀ (g i).wm p) : Mat k N))
      (Matrix.of fun p q => v.points q p - ((Matrix.of v.points)ᵀ *ᵥ v.wm) p : Mat k N) :=
    fun p q => ow_fl_sub (br := fun i => (ar i).toArith) hw (h.points q p) (hmu p)
  have hs := ow_fl_mul (br := fun i => (ar i).toArith) hw
    (ow_fl_mul (br := fun i => (ar i).toArith) hw hd (owM_diagonal h.wc)) (owM_transpose hd)
  have hsym := points2moments_transpose v hn
  cases noise with
  | none => exact ⟨hmu, hs, hsym⟩
  | some S => exact ⟨hmu, ow_fl_madd (br := fun i => (ar i).toArith) hw hs (owM_const S), hsym⟩

theorem ow_fl_sqrt (hw : Filter.Tendsto w F (𝓝 0)) {x : ι → ℝ} {a : ℝ} (hx : Ow F w x a)
    (ha : 0 < a) : Ow F w (fun i => (ar i).sqrt (x i)) (Real.sqrt a) := by
  have h := hx.comp hw (φ := Real.sqrt) (Real.hasDerivAt_sqrt ha.ne').differentiableAt
  refine ow_of_err' (K := 1) h (h.bdd hw) ?_
  filter_upwards [(hx.tendsto hw).eventually (lt_mem_nhds ha)] with i hi
  rw [one_mul]
  exact (ar i).sqrt_err _ hi.le

theorem near_sigmaPoints (hw : Filter.Tendsto w F (𝓝 0)) {mu : ι → Vec n} {mu' : Vec n}
    (hmu : OwV F w mu mu') {S : ι → Mat n n} {S' : Mat n n} (hS : OwM F w S S') :
    SigNear F w (fun i => flSigmaPoints (ar i) (mu i) (S i))
      (sigmaPoints mu' S' none none none) := by
  have hk := ow_fl_sub (br := fun i => (ar i).toArith) hw (ow_const (3.0 : ℝ)) (ow_const (n : ℝ))
  have haa := ow_fl_mulr (er := fun i => (ar i).toArithE) hw (ow_const (1.0 : ℝ))
    (ow_const (1.0 : ℝ))
  have hl := ow_fl_sub (br := fun i => (ar i).toArith) hw
    (ow_fl_mulr (er := fun i => (ar i).toArithE) hw haa
      (ow_fl_add (br := fun i => (ar i).toArith) hw (ow_const (n : ℝ)) hk)) (ow_const (n : ℝ))
  have hc := ow_fl_add (br := fun i => (ar i).toArith) hw (ow_const (n : ℝ)) hl
  have e3 : (n : ℝ) + ((1.0 : ℝ) * 1.0 * ((n : ℝ) + (3.0 - n)) - n) = 3 := by norm_num
  have hc0 : 0 < (n : ℝ) + ((1.0 : ℝ) * 1.0 * ((n : ℝ) + (3.0 - n)) - n) := by
    rw [e3]; norm_num
  have hsq := ow_fl_sqrt (ar := ar) hw hc hc0
  have hw0 := ow_fl_div (er := fun i => (ar i).toArithE) hw hl hc hc0.ne'
  have hwj := ow_fl_div (er := fun i => (ar i).toArithE) hw (ow_const (0.5 : ℝ)) hc hc0.ne'
  have hb := ow_fl_add (br := fun i => (ar i).toArith) hw
    (ow_fl_sub (br := fun i => (ar i).toArith) hw (ow_const (1 : ℝ)) haa) (ow_const (0.0 : ℝ))
  refine ⟨fun j q => ?_, fun j => ?_, fun j => ?_⟩
  · refine Fin.cases (hmu q) (fun j => ?_) j
    simp only [flSigmaPoints, flSigmaRows, sigmaPoints, sigmaRows, Fin.cons_succ, Option.getD_none]
    refine Fin.addCases (fun j => ?_) (fun j => ?_) j
    · simp only [Fin.append_left]
      exact ow_fl_add (br := fun i => (ar i).toArith) hw (hmu q)
        (ow_fl_mulr (er := fun i => (ar i).toArithE) hw (hS q j) hsq)
    · simp only [Fin.append_right]
      exact ow_fl_sub (br := fun i => (ar i).toArith) hw (hmu q)
        (ow_fl_mulr (er := fun i => (ar i).toArithE) hw (hS q j) hsq)
  · refine Fin.cases hw0 (fun j => hwj) j
  · refine Fin.cases ?_ (fun j => hwj) j
    exact ow_fl_add (br := fun i => (ar i).toArith) hw hw0 hb

theorem posDef_of_moments2points {M : Moments n} (hs : M.covᵀ = M.cov)
    {s : SigmaPoints (n + n + 1) n} (h : moments2points M = .ok s) : M.cov.PosDef := by
  by_contra hc
  have := cholesky_of_not_posDef hs hc
  simp only [moments2points, cholUpperT, hs, this] at h
  cases h

theorem near_moments2points (hw : Filter.Tendsto w F (𝓝 0)) {M : ι → Moments n} {M' : Moments n}
    (h : MomNear F w M M') {s : SigmaPoints (n + n + 1) n} (hs : moments2points M' = .ok s) :
    EvNear F (SigNear F w) (fun i => flMoments2points (ar i) (M i)) (moments2points M') := by
  have hP := posDef_of_moments2points h.symm hs
  unfold flMoments2points moments2points
  refine (near_chol (ar := fun i => (ar i).toArithEL) hw (owM_transpose h.cov)
    (by rw [h.symm]; exact hP)).bind fun L L' _ hL => ?_
  exact EvNear.pure (near_sigmaPoints hw h.mean hL.1)

theorem near_crossCov (hw : Filter.Tendsto w F (𝓝 0)) {p : ι → SigmaPoints N n}
    {p' : SigmaPoints N n} (hp : SigNear F w p p') {mu : ι → Vec n} {mu' : Vec n}
    (hmu : OwV F w mu mu') {q : ι → SigmaPoints N m} {q' : SigmaPoints N m}
    (hq : SigNear F w q q') {nu : ι → Vec m} {nu' : Vec m} (hnu : OwV F w nu nu') :
    OwM F w (fun i => flCrossCov (ar i) (p i) (mu i) (q i) (nu i)) (crossCov p' mu' q' nu') :=
  ow_fl_mul (br := fun i => (ar i).toArith) hw
    (ow_fl_mul (br := fun i => (ar i).toArith) hw
      (fun a b => ow_fl_sub (br := fun i => (ar i).toArith) hw (hp.points b a) (hmu a))
      (owM_diagonal hp.wm))
    (fun a b => ow_fl_sub (br := fun i => (ar i).toArith) hw (hq.points a b) (hnu b))

theorem near_unscentedCorrect (hw : Filter.Tendsto w F (𝓝 0)) {X : ι → Mat n m} {X' : Mat n m}
    (hX : OwM F w X X') {pr : ι → Moments n} {pr' : Moments n} (hpr : MomNear F w pr pr')
    {ob : ι → Moments m} {ob' : Moments m} (hob : MomNear F w ob ob') (o : Obs m)
    (hreg : ¬ o.missing → IsUnit ob'.cov.det) :
    MomNear F w (fun i => flUnscentedCorrect (ar i) (X i) (pr i) (ob i) o)
      (unscentedCorrect X' pr' ob' o) := by
  by_cases ho : o.missing
  · simpa only [flUnscentedCorrect, unscentedCorrect, ho, not_true_eq_false, if_false] using hpr
  · simp only [flUnscentedCorrect, unscentedCorrect, ho, not_false_eq_true, if_true]
    have hu := hreg ho
    have hK := ow_fl_mul (br := fun i => (ar i).toArith) hw hX
      (ow_fl_pinv (br := fun i => (ar i).toArith) hw hob.cov hu)
    refine ⟨ow_fl_vadd (br := fun i => (ar i).toArith) hw hpr.mean
      (ow_fl_mulV (br := fun i => (ar i).toArith) hw hK
        (ow_fl_vsub (br := fun i => (ar i).toArith) hw (owV_const o.val) hob.mean)),
      ow_fl_msub (br := fun i => (ar i).toArith) hw hpr.cov
        (ow_fl_mul (br := fun i => (ar i).toArith) hw hK (owM_transpose hX)), ?_⟩
    have hp : (pinv ob'.cov)ᵀ = pinv ob'.cov := by
      rw [pinv_eq_inv hu, transpose_nonsing_inv, hob.symm]
    rw [transpose_sub, hpr.symm, transpose_mul, transpose_mul, transpose_transpose, hp,
      Matrix.mul_assoc]

theorem near_ufCorrect (hw : Filter.Tendsto w F (𝓝 0)) {g : ι → Vec n → Vec m}
    {g' : Vec n → Vec m} {κ : Vec n → ℝ} (hκ : Continuous κ) (hg : ∀ i, FnErr κ (w i) (g i) g')
    (hg' : LocallyLipschitz g') {pr : ι → Moments n} {pr' : Moments n} (hpr : MomNear F w pr pr')
    {pts : ι → SigmaPoints N n} {pts' : SigmaPoints N n} (hpts : SigNear F w pts pts') (o : Obs m)
    {R : Mat m m} (hR : Rᵀ = R)
    (hreg : ¬ o.missing → IsUnit (points2moments (pts'.map g') (some R)).cov.det) :
    MomNear F w (fun i => flUfCorrect (ar i) (g i) (pr i) (pts i) o R)
      (ufCorrect g' pr' pts' o R) := by
  have hq := hpts.map hw hκ hg hg'
  have hob := near_points2moments (ar := ar) hw hq (noise := some R) (by simpa using hR)
  exact near_unscentedCorrect hw (near_crossCov hw hpts hpr.mean hq hob.mean) hpr hob o hreg

theorem near_ufCorrect₂ (hw : Filter.Tendsto w F (𝓝 0)) {g : ι → Vec n → Vec m → Vec m}
    {g' : Vec n → Vec m → Vec m} {κ : Vec n × Vec m → ℝ} (hκ : Continuous κ)
    (hg : ∀ i, FnErr κ (w i) (fun x => g i x.1 x.2) (fun x => g' x.1 x.2))
    (hg' : LocallyLipschitz fun x : Vec n × Vec m => g' x.1 x.2) {pr : ι → Moments n}
    {pr' : Moments n} (hpr : MomNear F w pr pr')
    {pts : ι → SigmaPoints N n} {pts' : SigmaPoints N n} (hpts : SigNear F w pts pts') (o : Obs m)
    {v : ι → SigmaPoints N m} {v' : SigmaPoints N m} (hv : SigNear F w v v')
    (hreg : ¬ o.missing → IsUnit (points2moments (pts'.map₂ v' g') none).cov.det) :
    MomNear F w (fun i => flUfCorrect₂ (ar i) (g i) (pr i) (pts i) o (v i))
      (ufCorrect₂ g' pr' pts' o v') := by
  have hq := hpts.map₂ hw hv hκ hg hg'
  have hob := near_points2moments (ar := ar) hw hq (noise := none) (by simp)
  exact near_unscentedCorrect hw (near_crossCov hw hpts hpr.mean hq hob.mean) hpr hob o hreg

theorem near_ufSmooth (hw : Filter.Tendsto w F (𝓝 0)) {fi : ι → Moments n} {fi' : Moments n}
    (hfi : MomNear F w fi fi') {p : ι → SigmaPoints N n} {p' : SigmaPoints N n}
    (hp : SigNear F w p p') {q : ι → SigmaPoints N n} {q' : SigmaPoints N n}
    (hq : SigNear F w q q') {pr : ι → Moments n} {pr' : Moments n} (hpr : MomNear F w pr pr')
    {ne : ι → Moments n} {ne' : Moments n} (hne : MomNear F w ne ne')
    (hreg : IsUnit pr'.cov.det) :
    MomNear F w (fun i => flUfSmooth (ar i) (fi i) (p i) (q i) (pr i) (ne i))
      (ufSmooth fi' p' q' pr' ne') := by
  have hpair := owM_transpose (ow_fl_mul (br := fun i => (ar i).toArith) hw
    (ow_fl_mul (br := fun i => (ar i).toArith) hw
      (fun a b => ow_fl_sub (br := fun i => (ar i).toArith) hw (hq.points b a) (hpr.mean a))
      (owM_diagonal hq.wc))
    (x := fun i => (ar i).mul (Matrix.of fun a b => (ar i).sub ((q i).points b a) ((pr i).mean a))
      (diagonal (q i).wc))
    (a := (Matrix.of fun a b => q'.points b a - pr'.mean a : Mat n N) * diagonal q'.wc)
    (y := fun i => (Matrix.of fun b a => (ar i).sub ((p i).points b a) ((fi i).mean a) : Mat N n))
    (b := (Matrix.of fun b a => p'.points b a - fi'.mean a : Mat N n))
    (fun a b => ow_fl_sub (br := fun i => (ar i).toArith) hw (hp.points a b) (hfi.mean b)))
  have hG := ow_fl_mul (br := fun i => (ar i).toArith) hw hpair
    (ow_fl_pinv (br := fun i => (ar i).toArith) hw hpr.cov hreg)
  refine ⟨ow_fl_vadd (br := fun i => (ar i).toArith) hw hfi.mean
    (ow_fl_mulV (br := fun i => (ar i).toArith) hw hG
      (ow_fl_vsub (br := fun i => (ar i).toArith) hw hne.mean hpr.mean)),
    ow_fl_madd (br := fun i => (ar i).toArith) hw hfi.cov
      (ow_fl_mul (br := fun i => (ar i).toArith) hw
        (ow_fl_mul (br := fun i => (ar i).toArith) hw hG
          (ow_fl_msub (br := fun i => (ar i).toArith) hw hne.cov hpr.cov)) (owM_transpose hG)), ?_⟩
  simp only [ufSmooth]
  generalize ((Matrix.of fun i j => q'.points j i - pr'.mean i : Mat n N)
    * diagonal q'.wc * (Matrix.of fun j i => p'.points j i - fi'.mean i : Mat N n))ᵀ
    * pinv pr'.cov = G
  rw [transpose_add, hfi.symm, transpose_mul, transpose_mul, transpose_transpose, transpose_sub,
    hne.symm, hpr.symm, Matrix.mul_assoc]

/-! ### Loops -/

/-- The row before, if there is one. -/
def OptNear (R : (ι → α) → α → Prop) (f : ι → Option α) : Option α → Prop
  | none => ∀ i, f i = none
  | some v => ∃ g, (∀ i, f i = some (g i)) ∧ R g v

theorem near_runLoop {R : (ι → α) → α → Prop} {step : ι → ℕ → Option α → Obs m → Res α}
    {step' : ℕ → Option α → Obs m → Res α} {P : ℕ → Option α → Obs m → Prop}
    (hstep : ∀ t prev prev' o s, OptNear R prev prev' → P t prev' o → step' t prev' o = .ok s →
      EvNear F R (fun i => step i t (prev i) o) (step' t prev' o))
    (os : List (Obs m)) (t : ℕ) {prev : ι → Option α} {prev' : Option α}
    (hprev : OptNear R prev prev') {l : List α} (hl : runLoop step' t prev' os = .ok l)
    (hP : ∀ j o, os[j]? = some o → P (t + j) (if j = 0 then prev' else l[j - 1]?) o) :
    EvNear F (LNear R) (fun i => runLoop (step i) t (prev i) os) (runLoop step' t prev' os) := by
  induction os generalizing t prev prev' l with
  | nil => exact EvNear.pure .nil
  | cons o os ih =>
    simp only [runLoop] at hl ⊢
    obtain ⟨s, hs, hl⟩ := ok_bind_iff.mp hl
    obtain ⟨r, hr, hl⟩ := ok_bind_iff.mp hl
    cases hl
    refine (hstep t prev prev' o s hprev (by simpa using hP 0 o rfl) hs).bind fun g v hv hg => ?_
    obtain rfl : s = v := by rw [hs] at hv; cases hv; rfl
    refine (ih (t + 1) (prev := fun i => some (g i)) (prev' := some s) ⟨g, fun _ => rfl, hg⟩ hr
      fun j o' hj => ?_).bind fun gs vs _ hgs => EvNear.pure (.cons hg hgs)
    have := hP (j + 1) o' (by simpa using hj)
    rw [add_assoc, add_comm 1 j]
    cases j with
    | zero => simpa using this
    | succ j => simpa using this

theorem near_backLoop {R : (ι → α) → α → Prop} {step : ι → ℕ → α → α → Res α}
    {step' : ℕ → α → α → Res α} {P : ℕ → α → Prop}
    (hstep : ∀ t s s' x x' v, R s s' → R x x' → P t s' → step' t s' x' = .ok v →
      EvNear F R (fun i => step i t (s i) (x i)) (step' t s' x'))
    {rest : ι → List α} {rest' : List α} (hrest : LNear R rest rest') (t : ℕ) {s : ι → α} {s' : α}
    (hs : R s s') {r : α × List α} (hr : backLoop step' t s' rest' = .ok r)
    (hP : ∀ j x, j < rest'.length → (s' :: rest')[j]? = some x → P (t + j) x) :
    EvNear F (fun g v => R (fun i => (g i).1) v.1 ∧ LNear R (fun i => (g i).2) v.2)
      (fun i => backLoop (step i) t (s i) (rest i)) (backLoop step' t s' rest') := by
  induction hrest generalizing t s s' r with
  | nil => exact EvNear.pure (g := fun i => (s i, ([] : List α))) (v := (s', [])) ⟨hs, .nil⟩
  | @cons f a g l h ht ih =>
    simp only [backLoop] at hr ⊢
    obtain ⟨q, hq, hr⟩ := ok_bind_iff.mp hr
    obtain ⟨x, hx, -⟩ := ok_bind_iff.mp hr
    refine (ih (t + 1) h hq fun j x hj hx => ?_).bind fun y y' hy hy' => ?_
    · have := hP (j + 1) x (by simpa using hj) (by simpa using hx)
      rwa [add_assoc, add_comm 1 j]
    · obtain rfl : q = y' := by rw [hq] at hy; cases hy; rfl
      refine (hstep t s s' (fun i => (y i).1) q.1 x hs hy'.1
        (by simpa using hP 0 s' (by simp) rfl) hx).bind fun z z' _ hz => ?_
      exact EvNear.pure (g := fun i => (z i, (y i).1 :: (y i).2)) (v := (z', q.1 :: q.2))
        ⟨hz, .cons hy'.1 hy'.2⟩

theorem near_backFull {R : (ι → α) → α → Prop} {step : ι → ℕ → α → α → Res α}
    {step' : ℕ → α → α → Res α} {P : ℕ → α → Prop}
    (hstep : ∀ t s s' x x' v, R s s' → R x x' → P t s' → step' t s' x' = .ok v →
      EvNear F R (fun i => step i t (s i) (x i)) (step' t s' x'))
    {rows : ι → List α} {rows' : List α} (hrows : LNear R rows rows')
    {l : List α} (hl : backFull step' rows' = .ok l)
    (hP : ∀ j x, j + 1 < rows'.length → rows'[j]? = some x → P j x) :
    EvNear F (LNear R) (fun i => backFull (step i) (rows i)) (backFull step' rows') := by
  cases hrows with
  | nil => cases hl
  | @cons f a g r h ht =>
    simp only [backFull] at hl ⊢
    obtain ⟨q, hq, -⟩ := ok_bind_iff.mp hl
    refine (near_backLoop hstep ht 0 h hq fun j x hj hx => ?_).bind fun y y' _ hy => ?_
    · rw [zero_add]
      exact hP j x (by simpa using hj) hx
    · exact EvNear.pure (.cons hy.1 hy.2)

/-! ### The additive filter -/

/-- Computed functions for `p`. -/
structure UFnsNear (κf κg : Vec n → ℝ) (p : UParams n m) (w : ι → ℝ)
    (f : ι → Fns (Vec n → Vec n)) (g : ι → Fns (Vec n → Vec m)) : Prop where
  cf : Continuous κf
  cg : Continuous κg
  f : ∀ i, (f i).Within (FnErr κf (w i)) p.f
  g : ∀ i, (g i).Within (FnErr κg (w i)) p.g
  lf : p.f.All LocallyLipschitz
  lg : p.g.All LocallyLipschitz

theorem ev_at {d : ι → α → β → Prop} {f : ι → Fns α} {g : Fns β}
    (h : ∀ i, (f i).Within (d i) g) {t : ℕ} {v : β} (hv : g.at t = .ok v) {S : Type}
    {q : ι → α → Res S} {r : β → Res S} {T : (ι → S) → S → Prop}
    (hk : ∀ a : ι → α, (∀ i, d i (a i) v) → EvNear F T (fun i => q i (a i)) (r v)) :
    EvNear F T (fun i => (f i).at t >>= q i) (g.at t >>= r) := by
  obtain ⟨a, h1, h2⟩ := Fns.Within.at h hv
  have := hk a h2
  simp only [h1, hv]
  exact this

theorem near_aukfStep (hw : Filter.Tendsto w F (𝓝 0)) {p : UParams n m} {κf κg : Vec n → ℝ}
    {f : ι → Fns (Vec n → Vec n)} {g : ι → Fns (Vec n → Vec m)} (hp : UFnsNear κf κg p w f g)
    (hQ : p.Qᵀ = p.Q) (hR : p.Rᵀ = p.R) (hS : p.S0ᵀ = p.S0)
    (t : ℕ) (prev : ι → Option (Moments n)) (prev' : Option (Moments n)) (o : Obs m) (s : Moments n)
    (hprev : OptNear (MomNear F w) prev prev')
    (hreg : ¬ o.missing → ∀ M, p.obsMoments t prev' = .ok M → IsUnit M.cov.det)
    (hs : aukfStep p t prev' o = .ok s) :
    EvNear F (MomNear F w)
      (fun i => flAukfStep (ar i) { p with f := f i, g := g i } t (prev i) o)
      (aukfStep p t prev' o) := by
  cases prev' with
  | none =>
    have hprev : ∀ i, prev i = none := hprev
    simp only [flAukfStep, aukfStep, hprev, Option.getD_none] at hs ⊢
    obtain ⟨pts, e1, hs⟩ := ok_bind_iff.mp hs
    obtain ⟨g', e2, -⟩ := ok_bind_iff.mp hs
    refine (near_moments2points (ar := ar) hw (M := fun _ => ⟨p.mu0, p.S0⟩)
      ⟨owV_const _, owM_const _, hS⟩ e1).bind fun x x' hx hx' => ?_
    obtain rfl : pts = x' := by rw [e1] at hx; cases hx; rfl
    refine ev_at hp.g e2 fun a ha => EvNear.pure ?_
    refine near_ufCorrect hw hp.cg ha (hp.lg.at e2)
      (near_points2moments hw hx' (noise := none) (by simp)) hx' o hR fun ho => ?_
    refine hreg ho _ ?_
    simp only [UParams.obsMoments, e1, e2]
    rfl
  | some M' =>
    obtain ⟨M, eM, hM⟩ := hprev
    simp only [flAukfStep, aukfStep, eM, Option.getD_some] at hs ⊢
    obtain ⟨pts, e1, hs⟩ := ok_bind_iff.mp hs
    obtain ⟨f', e2, hs⟩ := ok_bind_iff.mp hs
    obtain ⟨pts', e3, hs⟩ := ok_bind_iff.mp hs
    obtain ⟨g', e4, -⟩ := ok_bind_iff.mp hs
    refine (near_moments2points (ar := ar) hw hM e1).bind fun x x' hx hx' => ?_
    obtain rfl : pts = x' := by rw [e1] at hx; cases hx; rfl
    refine ev_at hp.f e2 fun a ha => ?_
    have hpr := near_points2moments (ar := ar) hw (hx'.map hw hp.cf ha (hp.lf.at e2))
      (noise := some p.Q) (by simpa using hQ)
    refine (near_moments2points (ar := ar) hw hpr e3).bind fun y y' hy hy' => ?_
    obtain rfl : pts' = y' := by rw [e3] at hy; cases hy; rfl
    refine ev_at hp.g e4 fun b hb => EvNear.pure ?_
    refine near_ufCorrect hw hp.cg hb (hp.lg.at e4) hpr hy' o hR fun ho => ?_
    refine hreg ho _ ?_
    simp only [UParams.obsMoments]
    exact ok_bind_iff.mpr ⟨_, e1, ok_bind_iff.mpr ⟨_, e2, ok_bind_iff.mpr ⟨_, e3,
      ok_bind_iff.mpr ⟨_, e4, rfl⟩⟩⟩⟩

theorem near_aukfFilter (hw : Filter.Tendsto w F (𝓝 0)) {p : UParams n m} {κf κg : Vec n → ℝ}
    {f : ι → Fns (Vec n → Vec n)} {g : ι → Fns (Vec n → Vec m)} (hp : UFnsNear κf κg p w f g)
    (hQ : p.Qᵀ = p.Q) (hR : p.Rᵀ = p.R) (hS : p.S0ᵀ = p.S0) {os : List (Obs m)}
    {l : List (Moments n)} (hl : aukfFilter p os = .ok l) (hreg : ObsRegular p.obsMoments os l) :
    EvNear F (LNear (MomNear F w))
      (fun i => flAukfFilter (ar i) { p with f := f i, g := g i } os) (aukfFilter p os) := by
  refine near_runLoop (P := fun t prev o => ¬ o.missing → ∀ M, p.obsMoments t prev = .ok M →
    IsUnit M.cov.det) (near_aukfStep hw hp hQ hR hS) os 0 (prev := fun _ => none) (prev' := none)
    (fun _ => rfl) hl fun j o hj ho M hM => ?_
  refine hreg j o hj ho M ?_
  rw [zero_add] at hM
  exact hM

theorem near_aukfSmoothStep (hw : Filter.Tendsto w F (𝓝 0)) {p : UParams n m}
    {κf κg : Vec n → ℝ} {f : ι → Fns (Vec n → Vec n)} {g : ι → Fns (Vec n → Vec m)}
    (hp : UFnsNear κf κg p w f g) (hQ : p.Qᵀ = p.Q)
    (t : ℕ) (s : ι → Moments n) (s' : Moments n) (x : ι → Moments n) (x' v : Moments n)
    (hs : MomNear F w s s') (hx : MomNear F w x x')
    (hreg : ∀ pts f', moments2points s' = .ok pts → p.f.at t = .ok f' →
      IsUnit (points2moments (pts.map f') (some p.Q)).cov.det)
    (hv : aukfSmoothStep p t s' x' = .ok v) :
    EvNear F (MomNear F w)
      (fun i => flAukfSmoothStep (ar i) { p with f := f i, g := g i } t (s i) (x i))
      (aukfSmoothStep p t s' x') := by
  simp only [flAukfSmoothStep, aukfSmoothStep] at hv ⊢
  obtain ⟨pts, e1, hv⟩ := ok_bind_iff.mp hv
  obtain ⟨f', e2, -⟩ := ok_bind_iff.mp hv
  refine (near_moments2points (ar := ar) hw hs e1).bind fun y y' hy hy' => ?_
  obtain rfl : pts = y' := by rw [e1] at hy; cases hy; rfl
  refine ev_at hp.f e2 fun a ha => EvNear.pure ?_
  have hm := hy'.map hw hp.cf ha (hp.lf.at e2)
  exact near_ufSmooth hw hs hy' hm
    (near_points2moments (ar := ar) hw hm (noise := some p.Q) (by simpa using hQ)) hx
    (hreg _ _ e1 e2)

theorem runLoop_consecutive {step : ℕ → Option α → Obs m → Res α} (os : List (Obs m)) (t : ℕ)
    (prev : Option α) {l : List α} (hl : runLoop step t prev os = .ok l) {j : ℕ} {x : α}
    (hj : j + 1 < l.length) (hx : l[j]? = some x) :
    ∃ o y, step (t + j + 1) (some x) o = .ok y := by
  induction os generalizing t prev l j with
  | nil => cases hl; simp at hj
  | cons o os ih =>
    simp only [runLoop] at hl
    obtain ⟨s, hs, hl⟩ := ok_bind_iff.mp hl
    obtain ⟨r, hr, hl⟩ := ok_bind_iff.mp hl
    cases hl
    cases j with
    | zero =>
      obtain rfl : s = x := by simpa using hx
      cases os with
      | nil => cases hr; simp at hj
      | cons o' os =>
        simp only [runLoop] at hr
        obtain ⟨y, hy, -⟩ := ok_bind_iff.mp hr
        exact ⟨o', y, hy⟩
    | succ j =>
      obtain ⟨o', y, h⟩ := ih (t + 1) (some s) hr (j := j) (by simpa using hj) (by simpa using hx)
      refine ⟨o', y, ?_⟩
      rw [← h]
      congr 1
      omega

theorem near_aukfSmooth (hw : Filter.Tendsto w F (𝓝 0)) {p : UParams n m} {κf κg : Vec n → ℝ}
    {f : ι → Fns (Vec n → Vec n)} {g : ι → Fns (Vec n → Vec m)} (hp : UFnsNear κf κg p w f g)
    (hQ : p.Qᵀ = p.Q) (hR : p.Rᵀ = p.R) (hS : p.S0ᵀ = p.S0) {os : List (Obs m)}
    {l ls : List (Moments n)} (hl : aukfFilter p os = .ok l) (hls : aukfSmooth p os = .ok ls)
    (hreg : ObsRegular p.obsMoments os l) :
    EvNear F (LNear (MomNear F w))
      (fun i => flAukfSmooth (ar i) { p with f := f i, g := g i } os) (aukfSmooth p os) := by
  unfold flAukfSmooth aukfSmooth
  have hls' : backFull (aukfSmoothStep p) l = .ok ls := by
    unfold aukfSmooth at hls
    obtain ⟨l', h1, h2⟩ := ok_bind_iff.mp hls
    rw [hl] at h1
    cases h1
    exact h2
  refine (near_aukfFilter (ar := ar) hw hp hQ hR hS hl hreg).bind fun x x' hx hx' => ?_
  obtain rfl : l = x' := by rw [hl] at hx; cases hx; rfl
  refine near_backFull (P := fun t s' => ∀ pts f', moments2points s' = .ok pts → p.f.at t = .ok f' →
    IsUnit (points2moments (pts.map f') (some p.Q)).cov.det)
    (near_aukfSmoothStep hw hp hQ) hx' hls' fun j s hj hs pts f' e1 e2 => ?_
  obtain ⟨o, y, h⟩ := runLoop_consecutive os 0 none hl hj hs
  simp only [aukfStep, Option.getD_some, zero_add, Nat.add_sub_cancel] at h
  obtain ⟨pts1, d1, h⟩ := ok_bind_iff.mp h
  obtain ⟨f1, d2, h⟩ := ok_bind_iff.mp h
  obtain ⟨pts2, d3, -⟩ := ok_bind_iff.mp h
  rw [e1] at d1
  rw [e2] at d2
  cases d1
  cases d2
  exact (posDef_of_moments2points (points2moments_transpose _ (by simpa using hQ)) d3).det_pos.ne'.isUnit

/-! ### The general filter -/

/-- Computed functions for `p`. -/
structure GFnsNear (κf : Vec n × Vec n → ℝ) (κg : Vec n × Vec m → ℝ) (p : GParams n m) (w : ι → ℝ)
    (f : ι → Fns (Vec n → Vec n → Vec n)) (g : ι → Fns (Vec n → Vec m → Vec m)) : Prop where
  cf : Continuous κf
  cg : Continuous κg
  f : ∀ i, (f i).Within (fun a b => FnErr κf (w i) (fun x => a x.1 x.2) fun x => b x.1 x.2) p.f
  g : ∀ i, (g i).Within (fun a b => FnErr κg (w i) (fun x => a x.1 x.2) fun x => b x.1 x.2) p.g
  lf : p.f.All fun f => LocallyLipschitz fun x : Vec n × Vec n => f x.1 x.2
  lg : p.g.All fun g => LocallyLipschitz fun x : Vec n × Vec m => g x.1 x.2

theorem owV_concat {a b : ℕ} {x : ι → Vec a} {x' : Vec a} (hx : OwV F w x x') {y : ι → Vec b}
    {y' : Vec b} (hy : OwV F w y y') : OwV F w (fun i => concat (x i) (y i)) (concat x' y') :=
  fun j => by
    refine Fin.addCases (fun j => ?_) (fun j => ?_) j
    · simpa only [concat, Fin.append_left] using hx j
    · simpa only [concat, Fin.append_right] using hy j

theorem owM_blockDiag {a b : ℕ} {x : ι → Mat a a} {x' : Mat a a} (hx : OwM F w x x')
    {y : ι → Mat b b} {y' : Mat b b} (hy : OwM F w y y') :
    OwM F w (fun i => blockDiag (x i) (y i)) (blockDiag x' y') :=
  owM_fromBlocks hx (owM_const 0) (owM_const 0) hy

theorem blockDiag_symm {a b : ℕ} {S : Mat a a} {T : Mat b b} (hS : Sᵀ = S) (hT : Tᵀ = T) :
    (blockDiag S T)ᵀ = blockDiag S T := by
  simp only [blockDiag, transpose_submatrix, fromBlocks_transpose, hS, hT, transpose_zero]

theorem SigNear.left {a b : ℕ} {g : ι → SigmaPoints N (a + b)} {v : SigmaPoints N (a + b)}
    (h : SigNear F w g v) : SigNear F w (fun i => (g i).left) v.left :=
  ⟨fun j q => h.points j _, h.wm, h.wc⟩

theorem SigNear.right {a b : ℕ} {g : ι → SigmaPoints N (a + b)} {v : SigmaPoints N (a + b)}
    (h : SigNear F w g v) : SigNear F w (fun i => (g i).right) v.right :=
  ⟨fun j q => h.points j _, h.wm, h.wc⟩

theorem near_augPoints {a b : ℕ} (hw : Filter.Tendsto w F (𝓝 0)) {M : ι → Moments a}
    {M' : Moments a} (hM : MomNear F w M M') {R : ι → Moments b} {R' : Moments b}
    (hR : MomNear F w R R') {s : _} (hs : augPoints M' R' = .ok s) :
    EvNear F (fun g v => SigNear F w (fun i => (g i).1) v.1 ∧ SigNear F w (fun i => (g i).2) v.2)
      (fun i => flAugPoints (ar i) (M i) (R i)) (augPoints M' R') := by
  simp only [flAugPoints, augPoints] at hs ⊢
  obtain ⟨x, hx, -⟩ := ok_bind_iff.mp hs
  refine (near_moments2points (ar := ar) hw (M := fun i => ⟨concat (M i).mean (R i).mean,
    blockDiag (M i).cov (R i).cov⟩) ⟨owV_concat hM.mean hR.mean, owM_blockDiag hM.cov hR.cov,
    blockDiag_symm hM.symm hR.symm⟩ hx).bind fun y y' _ hy => ?_
  exact EvNear.pure (g := fun i => ((y i).left, (y i).right)) (v := (y'.left, y'.right))
    ⟨hy.left, hy.right⟩

theorem near_augFilterPoints (hw : Filter.Tendsto w F (𝓝 0)) {M : ι → Moments n}
    {M' : Moments n} (hM : MomNear F w M M') {Q : Mat n n} (hQ : Qᵀ = Q) {R : Mat m m}
    (hR : Rᵀ = R) {s : _} (hs : augFilterPoints M' Q R = .ok s) :
    EvNear F (fun g v => SigNear F w (fun i => (g i).1) v.1 ∧
        SigNear F w (fun i => (g i).2.1) v.2.1 ∧ SigNear F w (fun i => (g i).2.2) v.2.2)
      (fun i => flAugFilterPoints (ar i) (M i) Q R) (augFilterPoints M' Q R) := by
  simp only [flAugFilterPoints, augFilterPoints] at hs ⊢
  obtain ⟨x, hx, -⟩ := ok_bind_iff.mp hs
  refine (near_moments2points (ar := ar) hw (M := fun i =>
    ⟨concat (concat (M i).mean (0 : Vec n)) (0 : Vec m), blockDiag (blockDiag (M i).cov Q) R⟩)
    ⟨owV_concat (owV_concat hM.mean (owV_const _)) (owV_const _),
      owM_blockDiag (owM_blockDiag hM.cov (owM_const Q)) (owM_const R),
      blockDiag_symm (blockDiag_symm hM.symm hQ) hR⟩ hx).bind fun y y' _ hy => ?_
  exact EvNear.pure (g := fun i => ((y i).left.left, (y i).left.right, (y i).right))
    (v := (y'.left.left, y'.left.right, y'.right)) ⟨hy.left.left, hy.left.right, hy.right⟩

theorem near_ukfStep (hw : Filter.Tendsto w F (𝓝 0)) {p : GParams n m} {κf : Vec n × Vec n → ℝ}
    {κg : Vec n × Vec m → ℝ} {f : ι → Fns (Vec n → Vec n → Vec n)}
    {g : ι → Fns (Vec n → Vec m → Vec m)} (hp : GFnsNear κf κg p w f g)
    (hQ : p.Qᵀ = p.Q) (hR : p.Rᵀ = p.R) (hS : p.S0ᵀ = p.S0)
    (t : ℕ) (prev : ι → Option (Moments n)) (prev' : Option (Moments n)) (o : Obs m) (s : Moments n)
    (hprev : OptNear (MomNear F w) prev prev')
    (hreg : ¬ o.missing → ∀ M, p.obsMoments t prev' = .ok M → IsUnit M.cov.det)
    (hs : ukfStep p t prev' o = .ok s) :
    EvNear F (MomNear F w)
      (fun i => flUkfStep (ar i) { p with f := f i, g := g i } t (prev i) o)
      (ukfStep p t prev' o) := by
  cases prev' with
  | none =>
    have hprev : ∀ i, prev i = none := hprev
    simp only [flUkfStep, ukfStep, hprev, Option.getD_none] at hs ⊢
    obtain ⟨pts, e1, hs⟩ := ok_bind_iff.mp hs
    obtain ⟨g', e2, -⟩ := ok_bind_iff.mp hs
    refine (near_augFilterPoints (ar := ar) hw (M := fun _ => ⟨p.mu0, p.S0⟩)
      ⟨owV_const _, owM_const _, hS⟩ hQ hR e1).bind fun x x' hx hx' => ?_
    obtain rfl : pts = x' := by rw [e1] at hx; cases hx; rfl
    refine ev_at hp.g e2 fun a ha => EvNear.pure ?_
    refine near_ufCorrect₂ hw hp.cg ha (hp.lg.at e2)
      (near_points2moments hw hx'.1 (noise := none) (by simp)) hx'.1 o hx'.2.2 fun ho => ?_
    refine hreg ho _ ?_
    simp only [GParams.obsMoments, e1, e2]
    rfl
  | some M' =>
    obtain ⟨M, eM, hM⟩ := hprev
    simp only [flUkfStep, ukfStep, eM, Option.getD_some] at hs ⊢
    obtain ⟨pts, e1, hs⟩ := ok_bind_iff.mp hs
    obtain ⟨f', e2, hs⟩ := ok_bind_iff.mp hs
    obtain ⟨g', e4, -⟩ := ok_bind_iff.mp hs
    refine (near_augFilterPoints (ar := ar) hw hM hQ hR e1).bind fun x x' hx hx' => ?_
    obtain rfl : pts = x' := by rw [e1] at hx; cases hx; rfl
    refine ev_at hp.f e2 fun a ha => ?_
    have hm := hx'.1.map₂ hw hx'.2.1 hp.cf ha (hp.lf.at e2)
    refine ev_at hp.g e4 fun b hb => EvNear.pure ?_
    refine near_ufCorrect₂ hw hp.cg hb (hp.lg.at e4)
      (near_points2moments (ar := ar) hw hm (noise := none) (by simp)) hm o hx'.2.2 fun ho => ?_
    refine hreg ho _ ?_
    simp only [GParams.obsMoments, e1, e2, e4]
    rfl

theorem near_ukfFilter (hw : Filter.Tendsto w F (𝓝 0)) {p : GParams n m} {κf : Vec n × Vec n → ℝ}
    {κg : Vec n × Vec m → ℝ} {f : ι → Fns (Vec n → Vec n → Vec n)}
    {g : ι → Fns (Vec n → Vec m → Vec m)} (hp : GFnsNear κf κg p w f g)
    (hQ : p.Qᵀ = p.Q) (hR : p.Rᵀ = p.R) (hS : p.S0ᵀ = p.S0) {os : List (Obs m)}
    {l : List (Moments n)} (hl : ukfFilter p os = .ok l) (hreg : ObsRegular p.obsMoments os l) :
    EvNear F (LNear (MomNear F w))
      (fun i => flUkfFilter (ar i) { p with f := f i, g := g i } os) (ukfFilter p os) := by
  refine near_runLoop (P := fun t prev o => ¬ o.missing → ∀ M, p.obsMoments t prev = .ok M →
    IsUnit M.cov.det) (near_ukfStep hw hp hQ hR hS) os 0 (prev := fun _ => none) (prev' := none)
    (fun _ => rfl) hl fun j o hj ho M hM => ?_
  refine hreg j o hj ho M ?_
  rw [zero_add] at hM
  exact hM

theorem near_ukfSmoothStep (hw : Filter.Tendsto w F (𝓝 0)) {p : GParams n m}
    {κf : Vec n × Vec n → ℝ} {κg : Vec n × Vec m → ℝ} {f : ι → Fns (Vec n → Vec n → Vec n)}
    {g : ι → Fns (Vec n → Vec m → Vec m)} (hp : GFnsNear κf κg p w f g) (hQ : p.Qᵀ = p.Q)
    (t : ℕ) (s : ι → Moments n) (s' : Moments n) (x : ι → Moments n) (x' v : Moments n)
    (hs : MomNear F w s s') (hx : MomNear F w x x')
    (hreg : ∀ M, p.nextMoments t s' = .ok M → IsUnit M.cov.det)
    (hv : ukfSmoothStep p t s' x' = .ok v) :
    EvNear F (MomNear F w)
      (fun i => flUkfSmoothStep (ar i) { p with f := f i, g := g i } t (s i) (x i))
      (ukfSmoothStep p t s' x') := by
  simp only [flUkfSmoothStep, ukfSmoothStep] at hv ⊢
  obtain ⟨pts, e1, hv⟩ := ok_bind_iff.mp hv
  obtain ⟨f', e2, -⟩ := ok_bind_iff.mp hv
  refine (near_augPoints (ar := ar) hw hs (R := fun _ => ⟨0, p.Q⟩)
    ⟨owV_const _, owM_const _, hQ⟩ e1).bind fun y y' hy hy' => ?_
  obtain rfl : pts = y' := by rw [e1] at hy; cases hy; rfl
  refine ev_at hp.f e2 fun a ha => EvNear.pure ?_
  have hm := hy'.1.map₂ hw hy'.2 hp.cf ha (hp.lf.at e2)
  refine near_ufSmooth hw hs hy'.1 hm
    (near_points2moments (ar := ar) hw hm (noise := none) (by simp)) hx (hreg _ ?_)
  simp only [GParams.nextMoments, e1, e2]
  rfl

theorem near_ukfSmooth (hw : Filter.Tendsto w F (𝓝 0)) {p : GParams n m} {κf : Vec n × Vec n → ℝ}
    {κg : Vec n × Vec m → ℝ} {f : ι → Fns (Vec n → Vec n → Vec n)}
    {g : ι → Fns (Vec n → Vec m → Vec m)} (hp : GFnsNear κf κg p w f g)
    (hQ : p.Qᵀ = p.Q) (hR : p.Rᵀ = p.R) (hS : p.S0ᵀ = p.S0) {os : List (Obs m)}
    {l ls : List (Moments n)} (hl : ukfFilter p os = .ok l) (hls : ukfSmooth p os = .ok ls)
    (hreg : ObsRegular p.obsMoments os l) (hnext : NextRegular p.nextMoments l) :
    EvNear F (LNear (MomNear F w))
      (fun i => flUkfSmooth (ar i) { p with f := f i, g := g i } os) (ukfSmooth p os) := by
  unfold flUkfSmooth ukfSmooth
  have hls' : backFull (ukfSmoothStep p) l = .ok ls := by
    unfold ukfSmooth at hls
    obtain ⟨l', h1, h2⟩ := ok_bind_iff.mp hls
    rw [hl] at h1
    cases h1
    exact h2
  refine (near_ukfFilter (ar := ar) hw hp hQ hR hS hl hreg).bind fun x x' hx hx' => ?_
  obtain rfl : l = x' := by rw [hl] at hx; cases hx; rfl
  exact near_backFull (near_ukfSmoothStep hw hp hQ) hx' hls' hnext

end Steps

end Verif
