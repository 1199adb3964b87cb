import Verif.Model.RoundedCholesky
import Verif.Proofs.RoundedLoglik
import Verif.Proofs.Cholesky

/-!
# `CholeskyKalmanFilter` in arithmetic with rounding errors

The square roots need not converge if the errors go to zero (signs are not determined), but they are
bounded, and their products with their transposes converge.
-/

open Matrix Topology

namespace Verif

variable {n m k l : ℕ} {c : ℕ → ℝ} {u : ℝ} {ar : ArithC c u}

/-! ### Runs -/

/-- Correction of the predicted moments at time `t`. -/
def PFun.correctFlC (ar : ArithC c u) (P : PFun n m) (R2 : Mat m m) (t : ℕ)
    (mean : Vec n) (cov2 : Mat n n) (o : Obs m) : CStep n :=
  let c := flCholCorrect ar (P.C t) R2 (P.d t) mean cov2 o
  ⟨mean, cov2, c.1, c.2⟩

/-- The square root filter as a function of time. -/
def PFun.ckFl (ar : ArithC c u) (P : PFun n m) (Q2 : Mat n n) (R2 : Mat m m) (S2 : Mat n n)
    (z : ℕ → Obs m) : ℕ → CStep n
  | 0 => P.correctFlC ar R2 0 P.mu0 S2 (z 0)
  | t + 1 =>
    let s := P.ckFl ar Q2 R2 S2 z t
    let pr := flCholPredict ar (P.A t) Q2 (P.b t) s.filtMean s.filtCov2
    P.correctFlC ar R2 (t + 1) pr.1 pr.2 (z (t + 1))

theorem flCholLoop_some {p : Params n m} {Q2 : Mat n n} {R2 : Mat m m} {S2 : Mat n n}
    (z : ℕ → Obs m) (os : List (Obs m)) (t : ℕ)
    (h : p.Covers (t + 1 + os.length)) (hz : ∀ i (hi : i < os.length), z (t + 1 + i) = os[i]) :
    flCholLoop ar p Q2 R2 S2 (t + 1) (some (p.fn.ckFl ar Q2 R2 S2 z t)) os
      = .ok ((List.range os.length).map fun i => p.fn.ckFl ar Q2 R2 S2 z (t + 1 + i)) := by
  induction os generalizing t with
  | nil => rfl
  | cons o os ih =>
    have h0 : z (t + 1) = o := hz 0 (by simp)
    have h2 : p.Covers (t + 2) := h.mono (by simp; omega)
    have hA : p.A.Covers (t + 1) := h2.A
    have hb : p.b.Covers (t + 1) := h2.b
    have hC : p.C.Covers (t + 1 + 1) := h2.C
    have hd : p.d.Covers (t + 1 + 1) := h2.d
    have e : flCholStep ar p Q2 R2 S2 (t + 1) (some (p.fn.ckFl ar Q2 R2 S2 z t)) o
        = .ok (p.fn.ckFl ar Q2 R2 S2 z (t + 1)) := by
      simp only [flCholStep, Nat.add_sub_cancel, lastDims_eq_ok hA, lastDims_eq_ok hb,
        lastDims_eq_ok hC, lastDims_eq_ok hd]
      rw [← h0]
      rfl
    rw [flCholLoop, e]
    have := ih (t + 1) (by rw [List.length_cons] at h; convert h using 1; omega) (fun i hi => by
      have := hz (i + 1) (by simpa using hi)
      rw [← add_assoc, add_right_comm] at this
      simpa using this)
    simp only [bind, Except.bind, this, pure, Except.pure, List.length_cons]
    congr 1
    rw [List.range_succ_eq_map, List.map_cons, List.map_map]
    simp only [add_zero, List.cons.injEq, true_and]
    apply List.map_congr_left
    intro i _
    simp only [Function.comp]
    congr 1
    omega

theorem flCholLoop_obsFn {p : Params n m} {Q2 : Mat n n} {R2 : Mat m m} {S2 : Mat n n}
    {os : List (Obs m)} (h : p.Covers os.length) :
    flCholLoop ar p Q2 R2 S2 0 none os
      = .ok ((List.range os.length).map (p.fn.ckFl ar Q2 R2 S2 (obsFn os))) := by
  have hz : ∀ i (hi : i < os.length), obsFn os i = os[i] := fun _ hi => obsFn_eq hi
  generalize obsFn os = z at hz ⊢
  cases os with
  | nil => rfl
  | cons o os =>
    have h0 : z 0 = o := hz 0 (by simp)
    have h1 := h.mono (show 1 ≤ (o :: os).length by simp)
    have e : flCholStep ar p Q2 R2 S2 0 none o = .ok (p.fn.ckFl ar Q2 R2 S2 z 0) := by
      simp only [flCholStep, lastDims_eq_ok h1.C, lastDims_eq_ok h1.d]
      rw [← h0]
      rfl
    rw [flCholLoop, e]
    have := flCholLoop_some (ar := ar) (p := p) (Q2 := Q2) (R2 := R2) (S2 := S2) z os 0
      (by rw [List.length_cons] at h; convert h using 1; omega) (fun i hi => by
      have := hz (i + 1) (by simpa using hi)
      rw [show 0 + 1 + i = i + 1 by omega, this]
      simp)
    simp only [bind, Except.bind, zero_add] at this ⊢
    rw [this]
    simp only [pure, Except.pure, List.length_cons]
    congr 1
    rw [List.range_succ_eq_map, List.map_cons, List.map_map]
    simp only [List.cons.injEq, true_and]
    apply List.map_congr_left
    intro i _
    simp only [Function.comp, add_comm 1 i]

/-! ### Bounded matrices -/

variable {ι : Type*} {F : Filter ι} {w : ι → ℝ}

/-- The entries are bounded along the filter. -/
def BddM (F : Filter ι) (f : ι → Mat k l) : Prop := ∀ p q, Bdd F fun i => f i p q

/-- The entries are bounded along the filter. -/
def BddV (F : Filter ι) (f : ι → Vec k) : Prop := ∀ p, Bdd F fun i => f i p

theorem OwM.bdd (hw : Filter.Tendsto w F (𝓝 0)) {f : ι → Mat k l} {a : Mat k l}
    (h : OwM F w f a) : BddM F f := fun p q => (h p q).bdd hw

theorem OwV.bdd (hw : Filter.Tendsto w F (𝓝 0)) {f : ι → Vec k} {a : Vec k}
    (h : OwV F w f a) : BddV F f := fun p => (h p).bdd hw

theorem BddM.transpose {f : ι → Mat k l} (h : BddM F f) : BddM F fun i => (f i)ᵀ :=
  fun p q => h q p

theorem BddM.mul {r : ℕ} {f : ι → Mat k l} {g : ι → Mat l r} (hf : BddM F f) (hg : BddM F g) :
    BddM F fun i => f i * g i := fun p q => by
  simp only [Matrix.mul_apply]
  exact Bdd.sum fun j _ => (hf p j).mul (hg j q)

theorem BddM.mulVec {f : ι → Mat k l} {g : ι → Vec l} (hf : BddM F f) (hg : BddV F g) :
    BddV F fun i => f i *ᵥ g i := fun p => by
  simp only [Matrix.mulVec, dotProduct]
  exact Bdd.sum fun j _ => (hf p j).mul (hg j)

theorem BddM.sumAbs {f : ι → Mat k l} (hf : BddM F f) : Bdd F fun i => sumAbs (f i) :=
  Bdd.sum fun p _ => Bdd.sum fun q _ => (hf p q).abs

theorem Bdd.congr' {f g : ι → ℝ} (hf : Bdd F f) (h : ∀ᶠ i in F, f i = g i) : Bdd F g :=
  Asymptotics.IsBigO.congr' hf h Filter.EventuallyEq.rfl

theorem BddM.congr' {f g : ι → Mat k l} (hf : BddM F f) (h : ∀ᶠ i in F, f i = g i) : BddM F g :=
  fun p q => (hf p q).congr' (h.mono fun i hi => by rw [hi])

theorem Ow.congr_ev {f g : ι → ℝ} {a : ℝ} (hf : Ow F w f a) (h : ∀ᶠ i in F, f i = g i) :
    Ow F w g a :=
  Asymptotics.IsBigO.congr' hf (h.mono fun i hi => by simp only [hi]) Filter.EventuallyEq.rfl

theorem OwM.congr_ev {f g : ι → Mat k l} {a : Mat k l} (hf : OwM F w f a)
    (h : ∀ᶠ i in F, f i = g i) : OwM F w g a :=
  fun p q => (hf p q).congr_ev (h.mono fun i hi => by rw [hi])

theorem OwV.congr_ev {f g : ι → Vec k} {a : Vec k} (hf : OwV F w f a)
    (h : ∀ᶠ i in F, f i = g i) : OwV F w g a :=
  fun p => (hf p).congr_ev (h.mono fun i hi => by rw [hi])

theorem ow_zero_mul {f g : ι → ℝ} (hf : Ow F w f 0) (hg : Bdd F g) :
    Ow F w (fun i => f i * g i) 0 := by
  have h1 : Asymptotics.IsBigO F (fun i => f i) w := by simpa [Ow] using hf
  have := h1.mul hg
  simpa [Ow] using this

theorem owM_zero_mul {r : ℕ} {f : ι → Mat k l} {g : ι → Mat l r} (hf : OwM F w f 0)
    (hg : BddM F g) : OwM F w (fun i => f i * g i) 0 := fun p q => by
  have : Ow F w (fun i => ∑ j, f i p j * g i j q) (∑ _j : Fin l, 0) :=
    Ow.sum fun j _ => ow_zero_mul (hf p j) (hg j q)
  simpa only [Matrix.mul_apply, Finset.sum_const_zero, Matrix.zero_apply] using this

theorem owM_mul_zero {r : ℕ} {f : ι → Mat k l} {g : ι → Mat l r} (hf : BddM F f)
    (hg : OwM F w g 0) : OwM F w (fun i => f i * g i) 0 := by
  have h0 : OwM F w (fun i => (g i)ᵀ) (0 : Mat r l) := fun p q => hg q p
  have := owM_zero_mul h0 hf.transpose
  intro p q
  have h := this q p
  simp only [← transpose_mul] at h
  exact h

theorem owV_zero_mulVec {f : ι → Mat k l} {g : ι → Vec l} (hf : OwM F w f 0)
    (hg : BddV F g) : OwV F w (fun i => f i *ᵥ g i) 0 := fun p => by
  have : Ow F w (fun i => ∑ j, f i p j * g i j) (∑ _j : Fin l, 0) :=
    Ow.sum fun j _ => ow_zero_mul (hf p j) (hg j)
  simpa only [Matrix.mulVec, dotProduct, Finset.sum_const_zero, Pi.zero_apply] using this

theorem owV_mulVec_zero {f : ι → Mat k l} {g : ι → Vec l} (hf : BddM F f)
    (hg : OwV F w g 0) : OwV F w (fun i => f i *ᵥ g i) 0 := fun p => by
  have : Ow F w (fun i => ∑ j, g i j * f i p j) (∑ _j : Fin l, 0) :=
    Ow.sum fun j _ => ow_zero_mul (hg j) (hf p j)
  simpa only [Matrix.mulVec, dotProduct, Finset.sum_const_zero, mul_comm, Pi.zero_apply] using this

theorem owV_mulVec (hw : Filter.Tendsto w F (𝓝 0)) {f : ι → Mat k l} {g : ι → Vec l}
    {a : Mat k l} {b : Vec l} (hf : OwM F w f a) (hg : OwV F w g b) :
    OwV F w (fun i => f i *ᵥ g i) (a *ᵥ b) := fun p => by
  simp only [Matrix.mulVec, dotProduct]
  exact Ow.sum fun j _ => (hf p j).mul hw (hg j)

theorem OwM.add {f g : ι → Mat k l} {a b : Mat k l} (hf : OwM F w f a) (hg : OwM F w g b) :
    OwM F w (fun i => f i + g i) (a + b) := fun p q => (hf p q).add (hg p q)

theorem OwM.sub {f g : ι → Mat k l} {a b : Mat k l} (hf : OwM F w f a) (hg : OwM F w g b) :
    OwM F w (fun i => f i - g i) (a - b) := fun p q => (hf p q).sub (hg p q)

theorem OwV.add {f g : ι → Vec k} {a b : Vec k} (hf : OwV F w f a) (hg : OwV F w g b) :
    OwV F w (fun i => f i + g i) (a + b) := fun p => (hf p).add (hg p)

theorem BddM.add {f g : ι → Mat k l} (hf : BddM F f) (hg : BddM F g) :
    BddM F (fun i => f i + g i) := fun p q => (hf p q).add (hg p q)

theorem BddV.add {f g : ι → Vec k} (hf : BddV F f) (hg : BddV F g) :
    BddV F (fun i => f i + g i) := fun p => (hf p).add (hg p)

/-- Near a family that converges. -/
theorem OwM.of_near {f g : ι → Mat k l} {a : Mat k l} (hg : OwM F w g a)
    (h : OwM F w (fun i => f i - g i) 0) : OwM F w f a := by
  have := hg.add h
  simpa using this

theorem OwV.of_near {f g : ι → Vec k} {a : Vec k} (hg : OwV F w g a)
    (h : OwV F w (fun i => f i - g i) 0) : OwV F w f a := by
  have := hg.add h
  simpa using this

theorem BddM.of_near (hw : Filter.Tendsto w F (𝓝 0)) {f g : ι → Mat k l} (hg : BddM F g)
    (h : OwM F w (fun i => f i - g i) 0) : BddM F f := by
  have := hg.add (h.bdd hw)
  simpa using this

theorem BddV.of_near (hw : Filter.Tendsto w F (𝓝 0)) {f g : ι → Vec k} (hg : BddV F g)
    (h : OwV F w (fun i => f i - g i) 0) : BddV F f := by
  have := hg.add (h.bdd hw)
  simpa using this

/-- A small error of the factor is a small error of the product. -/
theorem owM_gram (hw : Filter.Tendsto w F (𝓝 0)) {B E : ι → Mat k l} {G : Mat l l}
    (hB : BddM F B) (hE : OwM F w E 0) (hG : OwM F w (fun i => (B i)ᵀ * B i) G) :
    OwM F w (fun i => (B i + E i)ᵀ * (B i + E i)) G := by
  have h1 := owM_mul_zero hB.transpose hE
  have h2 := owM_zero_mul (f := fun i => (E i)ᵀ) (fun p q => hE q p) (hB.add (hE.bdd hw))
  have := hG.add (h1.add h2)
  rw [add_zero, add_zero] at this
  refine this.congr_ev (Filter.Eventually.of_forall fun i => ?_)
  simp only [transpose_add, Matrix.add_mul, Matrix.mul_add]
  abel

theorem gram_sq_le (B : Mat k l) (p : Fin k) (q : Fin l) : B p q ^ 2 ≤ (Bᵀ * B) q q := by
  have : (Bᵀ * B) q q = ∑ j, B j q ^ 2 := by simp [Matrix.mul_apply, sq]
  rw [this]
  exact Finset.single_le_sum (f := fun j => B j q ^ 2) (fun a _ => sq_nonneg _) (Finset.mem_univ p)

theorem bddM_of_gram {B : ι → Mat k l} (hG : BddM F (fun i => (B i)ᵀ * B i)) : BddM F B := by
  intro p q
  refine Bdd.of_le ((hG q q).add (bdd_const 1)) (Filter.Eventually.of_forall fun i => ?_)
  have h1 := gram_sq_le (B i) p q
  have h2 : 0 ≤ ((B i)ᵀ * B i) q q := (sq_nonneg _).trans h1
  rw [abs_of_nonneg (by linarith : 0 ≤ ((B i)ᵀ * B i) q q + 1)]
  have h3 := sq_abs (B i p q)
  nlinarith [abs_nonneg (B i p q)]

theorem bddM_of_gram' {B : ι → Mat k l} (hG : BddM F (fun i => B i * (B i)ᵀ)) : BddM F B := by
  have := bddM_of_gram (B := fun i => (B i)ᵀ) (by simpa only [transpose_transpose] using hG)
  exact fun p q => this q p

/-- Inverses of matrices near bounded ones with bounded inverses. -/
theorem owM_pinv_near (hw : Filter.Tendsto w F (𝓝 0)) {M N : ι → Mat k k}
    (hdet : ∀ᶠ i in F, IsUnit (M i).det) (hP : BddM F fun i => pinv (M i))
    (hN : OwM F w (fun i => N i - M i) 0) :
    (∀ᶠ i in F, IsUnit (N i).det) ∧ OwM F w (fun i => pinv (N i) - pinv (M i)) 0 := by
  -- `M⁻¹ N` is near `1`
  have h1 : OwM F w (fun i => pinv (M i) * N i) 1 := by
    have h := (owM_const (F := F) (w := w) (1 : Mat k k)).add (owM_mul_zero hP hN)
    rw [add_zero] at h
    refine h.congr_ev (hdet.mono fun i hi => ?_)
    rw [Matrix.mul_sub, pinv_eq_inv hi, nonsing_inv_mul _ hi]
    abel
  have hd : ∀ᶠ i in F, (pinv (M i) * N i).det ≠ 0 :=
    ((h1.det hw).tendsto hw).eventually_ne (by simp)
  have hNd : ∀ᶠ i in F, IsUnit (N i).det := hd.mono fun i hi => by
    rw [det_mul] at hi
    exact (mul_ne_zero_iff.mp hi).2.isUnit
  refine ⟨hNd, ?_⟩
  have h2 := owM_pinv hw h1 (by simp)
  have e1 : pinv (1 : Mat k k) = 1 := by rw [pinv_eq_inv (by simp), inv_one]
  rw [e1] at h2
  have h3 := h2.sub (owM_const (F := F) (w := w) (1 : Mat k k))
  rw [sub_self] at h3
  have h4 := owM_zero_mul h3 hP
  refine h4.congr_ev ?_
  filter_upwards [hd, hNd, hdet] with i hi hn hm
  rw [pinv_eq_inv hi.isUnit, pinv_eq_inv hm, pinv_eq_inv hn, Matrix.mul_inv_rev,
    Matrix.nonsing_inv_nonsing_inv _ hm, Matrix.sub_mul, Matrix.one_mul, Matrix.mul_assoc,
    mul_nonsing_inv _ hm, Matrix.mul_one]

/-! ### Operations on bounded matrices -/

section Basic

variable {br : ∀ i, Arith c (w i)}

theorem near_fl_dot {x y : ι → Vec k} (hx : BddV F x) (hy : BddV F y) :
    Ow F w (fun i => (br i).dot k (x i) (y i) - x i ⬝ᵥ y i) 0 :=
  ow_of_err' (g := fun _ => 0) (ow_const 0)
    (Bdd.sum (s := Finset.univ) fun j _ => (hx j).abs.mul (hy j).abs)
    (Filter.Eventually.of_forall fun i => by rw [sub_zero]; exact (br i).dot_err k _ _)

theorem near_fl_mul {r : ℕ} {x : ι → Mat k l} {y : ι → Mat l r} (hx : BddM F x) (hy : BddM F y) :
    OwM F w (fun i => (br i).mul (x i) (y i) - x i * y i) 0 :=
  fun p q => near_fl_dot (fun j => hx p j) (fun j => hy j q)

theorem near_fl_mulV {x : ι → Mat k l} {y : ι → Vec l} (hx : BddM F x) (hy : BddV F y) :
    OwV F w (fun i => (br i).mulV (x i) (y i) - x i *ᵥ y i) 0 :=
  fun p => near_fl_dot (fun j => hx p j) hy

theorem near_fl_pinv (hw : Filter.Tendsto w F (𝓝 0)) {M : ι → Mat k k} (hM : BddM F M)
    (hdet : ∀ᶠ i in F, IsUnit (M i).det) (hP : BddM F fun i => pinv (M i)) :
    OwM F w (fun i => (br i).pinv k (M i) - pinv (M i)) 0 := by
  choose E r U s V hE hr0 hr hsvd hB using fun i => (br i).pinv_err k (M i)
  have hN0 : OwM F w (fun i => M i + E i - M i) 0 := fun a b =>
    ow_of_err' (K := c k) (g := fun _ => 0) (ow_const 0) hM.sumAbs
      (Filter.Eventually.of_forall fun i => by
        rw [sub_zero]
        show |(M i + E i - M i) a b| ≤ _
        rw [add_sub_cancel_left]
        exact hE i a b)
  obtain ⟨hNd, hPO⟩ := owM_pinv_near hw hdet hP hN0
  have hNb : BddM F fun i => M i + E i := hM.of_near hw hN0
  have hPb : BddM F fun i => pinv (M i + E i) := hP.of_near hw hPO
  have hsmall : ∀ᶠ i in F, c k * w i * sumAbs (M i + E i) * sumAbs (pinv (M i + E i)) < 1 := by
    have h1 : Asymptotics.IsBigO F (fun i => c k * w i * sumAbs (M i + E i)
        * sumAbs (pinv (M i + E i))) (fun i => w i * 1 * 1) :=
      (((Asymptotics.isBigO_refl w F).const_mul_left (c k)).mul hNb.sumAbs).mul hPb.sumAbs
    simp only [mul_one] at h1
    exact (h1.trans_tendsto hw).eventually (gt_mem_nhds one_pos)
  have heq : ∀ᶠ i in F, svdPinv (r i) (U i) (s i) (V i) = pinv (M i + E i) := by
    filter_upwards [hNd, hsmall] with i hi hlt
    refine (hsvd i).svdPinv_eq_pinv (hr0 i) fun j _ => ?_
    obtain ⟨hpos, hinv⟩ := (hsvd i).inv_le_sumAbs hi j
    have hmax : maxSingular (s i) ≤ sumAbs (M i + E i) :=
      maxSingular_le (sumAbs_nonneg _) fun q => (hsvd i).le_sumAbs q
    have h1 : r i * maxSingular (s i) * (s i j)⁻¹ < 1 := by
      refine lt_of_le_of_lt ?_ hlt
      have := hr0 i
      have h2 := maxSingular_nonneg (s i)
      have h3 : 0 ≤ (s i j)⁻¹ := (inv_pos.mpr hpos).le
      have h4 : 0 ≤ c k * w i := this.trans (hr i)
      exact mul_le_mul (mul_le_mul (hr i) hmax h2 h4) hinv h3 (mul_nonneg h4 (sumAbs_nonneg _))
    rwa [← div_eq_mul_inv, div_lt_one hpos] at h1
  have hsb : BddM F fun i => svdPinv (r i) (U i) (s i) (V i) :=
    hPb.congr' (heq.mono fun i hi => hi.symm)
  have h5 : OwM F w (fun i => (br i).pinv k (M i) - svdPinv (r i) (U i) (s i) (V i)) 0 :=
    fun a b => ow_of_err' (g := fun _ => 0) (ow_const 0) hsb.sumAbs
      (Filter.Eventually.of_forall fun i => by rw [sub_zero]; exact hB i a b)
  have := h5.add hPO
  rw [add_zero] at this
  refine this.congr_ev (heq.mono fun i hi => ?_)
  rw [hi]
  abel

end Basic

/-! ### Triangular factors -/

/-- Gram matrix of the top square block of a tall upper trapezoidal matrix. -/
theorem gram_top_of_upper {N L : ℕ} {S : Mat (L + N) L}
    (hS : ∀ (i : Fin (L + N)) (j : Fin L), (j : ℕ) < (i : ℕ) → S i j = 0) :
    (S.submatrix (Fin.castAdd N) id)ᵀ * S.submatrix (Fin.castAdd N) id = Sᵀ * S := by
  ext i j
  simp only [mul_apply, transpose_apply, submatrix_apply, id]
  rw [Fin.sum_univ_add]
  have : ∀ k : Fin N, S (Fin.natAdd L k) i = 0 := by
    intro k
    apply hS
    simp only [Fin.val_natAdd]
    omega
  simp [this]

/-- Blocks of the Gram matrix of an upper triangular matrix. -/
theorem gram_blocks_of_upper {S : Mat (m + n) (m + n)}
    (hS : ∀ i j : Fin (m + n), (j : ℕ) < (i : ℕ) → S i j = 0) :
    let S11 := S.submatrix (Fin.castAdd n) (Fin.castAdd n)
    let S12 := S.submatrix (Fin.castAdd n) (Fin.natAdd m)
    let S22 := S.submatrix (Fin.natAdd m) (Fin.natAdd m)
    S11ᵀ * S11 = (Sᵀ * S).submatrix (Fin.castAdd n) (Fin.castAdd n) ∧
    S12ᵀ * S11 = (Sᵀ * S).submatrix (Fin.natAdd m) (Fin.castAdd n) ∧
    S12ᵀ * S12 + S22ᵀ * S22 = (Sᵀ * S).submatrix (Fin.natAdd m) (Fin.natAdd m) := by
  intro S11 S12 S22
  have h21 : ∀ (i : Fin n) (j : Fin m), S (Fin.natAdd m i) (Fin.castAdd n j) = 0 := by
    intro i j
    apply hS
    simp only [Fin.val_natAdd, Fin.val_castAdd]
    omega
  refine ⟨?_, ?_, ?_⟩ <;> ext i j <;>
    simp only [S11, S12, S22, Matrix.add_apply, mul_apply, transpose_apply, submatrix_apply,
      Fin.sum_univ_add, h21, mul_zero, zero_mul, Finset.sum_const_zero, add_zero]

variable {br : ∀ i, ArithC c (w i)}

theorem owM_qr (hw : Filter.Tendsto w F (𝓝 0)) {N L : ℕ} (hLN : L ≤ N) {B : ι → Mat N L}
    {G : Mat L L} (hG : OwM F w (fun i => (B i)ᵀ * B i) G) :
    OwM F w (fun i => ((br i).qr N L (B i))ᵀ * (br i).qr N L (B i)) G := by
  have hB := bddM_of_gram (hG.bdd hw)
  choose E hE hq using fun i => (br i).qr_err N L (B i) hLN
  have hE0 : OwM F w E 0 := fun a b =>
    ow_of_err' (K := c N) (g := fun _ => 0) (ow_const 0) hB.sumAbs
      (Filter.Eventually.of_forall fun i => by rw [sub_zero]; exact hE i a b)
  exact (owM_gram hw hB hE0 hG).congr_ev (Filter.Eventually.of_forall fun i => (hq i).symm)

/-- The product of a computed product with its transpose. -/
theorem owM_fl_outer (hw : Filter.Tendsto w F (𝓝 0)) {A : ι → Mat k n} {A' : Mat k n}
    (hA : OwM F w A A') {P2 : ι → Mat n n} {P : Mat n n}
    (hP : OwM F w (fun i => P2 i * (P2 i)ᵀ) P) :
    OwM F w (fun i => (br i).mul (A i) (P2 i) * ((br i).mul (A i) (P2 i))ᵀ) (A' * (P * A'ᵀ)) ∧
    OwM F w (fun i => P2 i * ((br i).mul (A i) (P2 i))ᵀ) (P * A'ᵀ) := by
  have hb : BddM F P2 := bddM_of_gram' (hP.bdd hw)
  have hAt : OwM F w (fun i => (A i)ᵀ) A'ᵀ := owM_transpose hA
  have hE := near_fl_mul (br := fun i => (br i).toArith) (hA.bdd hw) hb
  have hX : OwM F w (fun i => (A i * P2 i)ᵀᵀ * (A i * P2 i)ᵀ) (A' * (P * A'ᵀ)) :=
    (owM_mul hw hA (owM_mul hw hP hAt)).congr_ev (Filter.Eventually.of_forall fun i => by
      rw [transpose_transpose, transpose_mul]
      simp only [Matrix.mul_assoc])
  constructor
  · have := owM_gram hw (B := fun i => (A i * P2 i)ᵀ)
      (E := fun i => ((br i).mul (A i) (P2 i) - A i * P2 i)ᵀ)
      ((hA.bdd hw).mul hb).transpose (fun p q => hE q p) hX
    refine this.congr_ev (Filter.Eventually.of_forall fun i => ?_)
    rw [← transpose_add, transpose_transpose, add_sub_cancel]
  · have h1 := owM_mul hw hP hAt
    have h2 := owM_mul_zero hb (g := fun i => ((br i).mul (A i) (P2 i) - A i * P2 i)ᵀ)
      (fun p q => hE q p)
    have := h1.add h2
    rw [add_zero] at this
    refine this.congr_ev (Filter.Eventually.of_forall fun i => ?_)
    rw [Matrix.mul_assoc, ← transpose_mul, ← Matrix.mul_add, ← transpose_add, add_sub_cancel]

theorem near_flCholPredict (hw : Filter.Tendsto w F (𝓝 0)) {A : ι → Mat n n}
    {A' : Mat n n} (hA : OwM F w A A') (b : ι → Vec n)
    {mean : ι → Vec n} {P2 Q2 : ι → Mat n n} {P Q : Mat n n}
    (hP : OwM F w (fun i => P2 i * (P2 i)ᵀ) P) (hQ : OwM F w (fun i => Q2 i * (Q2 i)ᵀ) Q) :
    OwM F w (fun i => (flCholPredict (br i) (A i) (Q2 i) (b i) (mean i) (P2 i)).2
      * ((flCholPredict (br i) (A i) (Q2 i) (b i) (mean i) (P2 i)).2)ᵀ) (A' * (P * A'ᵀ) + Q) := by
  have h1 : OwM F w (fun i => (hstack ((br i).mul (A i) (P2 i)) (Q2 i))ᵀᵀ
      * (hstack ((br i).mul (A i) (P2 i)) (Q2 i))ᵀ) (A' * (P * A'ᵀ) + Q) :=
    ((owM_fl_outer (br := br) hw hA hP).1.add hQ).congr_ev (Filter.Eventually.of_forall fun i => by
      rw [transpose_transpose, hstack_mul_transpose])
  have h2 := owM_qr (br := br) hw (by omega : n ≤ n + n) h1
  refine h2.congr_ev (Filter.Eventually.of_forall fun i => ?_)
  simp only [flCholPredict, transpose_transpose]
  rw [gram_top_of_upper]
  exact fun a b => (br i).qr_upper _ _ _ a b

/-- Blocks of the Gram matrix of the matrix of `_filter_correct`. -/
theorem gram_flCholCorrectM (ar : ArithC c u) (C : Mat m n) (R2 : Mat m m) (P2 : Mat n n) :
    (flCholCorrectM ar C R2 P2)ᵀ * flCholCorrectM ar C R2 P2
      = (fromBlocks (R2 * R2ᵀ + ar.mul C P2 * (ar.mul C P2)ᵀ) (P2 * (ar.mul C P2)ᵀ)ᵀ
          (P2 * (ar.mul C P2)ᵀ) (P2 * P2ᵀ)).submatrix finSumFinEquiv.symm finSumFinEquiv.symm := by
  rw [flCholCorrectM, transpose_submatrix, submatrix_mul_equiv, fromBlocks_transpose,
    fromBlocks_multiply]
  simp only [transpose_transpose, transpose_zero, Matrix.zero_mul, Matrix.mul_zero, zero_add,
    transpose_mul]

theorem owM_fromBlocks {f11 : ι → Mat m m} {f12 : ι → Mat m n} {f21 : ι → Mat n m}
    {f22 : ι → Mat n n} {a11 : Mat m m} {a12 : Mat m n} {a21 : Mat n m} {a22 : Mat n n}
    (h11 : OwM F w f11 a11) (h12 : OwM F w f12 a12) (h21 : OwM F w f21 a21)
    (h22 : OwM F w f22 a22) :
    OwM F w (fun i => (fromBlocks (f11 i) (f12 i) (f21 i) (f22 i)).submatrix finSumFinEquiv.symm
        finSumFinEquiv.symm : ι → Mat (m + n) (m + n))
      ((fromBlocks a11 a12 a21 a22).submatrix finSumFinEquiv.symm finSumFinEquiv.symm) := by
  intro p q
  obtain ⟨p, rfl⟩ := finSumFinEquiv.surjective p
  obtain ⟨q, rfl⟩ := finSumFinEquiv.surjective q
  simp only [submatrix_apply, Equiv.symm_apply_apply]
  rcases p with p | p <;> rcases q with q | q
  · exact h11 p q
  · exact h12 p q
  · exact h21 p q
  · exact h22 p q

theorem near_flCholCorrect (hw : Filter.Tendsto w F (𝓝 0)) {C : ι → Mat m n} {C' : Mat m n}
    (hC : OwM F w C C') {R : Mat m m} {d : ι → Vec m} {d' : Vec m} (hd : OwV F w d d')
    {mu : ι → Vec n} {mu' : Vec n} {P2 : ι → Mat n n} {R2 : ι → Mat m m} {P : Mat n n}
    (hmu : OwV F w mu mu') (hP : OwM F w (fun i => P2 i * (P2 i)ᵀ) P) (hPs : P.PosSemidef)
    (hR : OwM F w (fun i => R2 i * (R2 i)ᵀ) R) (hRp : R.PosDef) (o : Obs m) :
    OwV F w (fun i => (flCholCorrect (br i) (C i) (R2 i) (d i) (mu i) (P2 i) o).1)
      (filterCorrect C' R d' mu' P o).2.1 ∧
    OwM F w (fun i => (flCholCorrect (br i) (C i) (R2 i) (d i) (mu i) (P2 i) o).2
      * ((flCholCorrect (br i) (C i) (R2 i) (d i) (mu i) (P2 i) o).2)ᵀ)
      (filterCorrect C' R d' mu' P o).2.2 := by
  by_cases ho : o.missing
  · simp only [flCholCorrect, filterCorrect, ho, not_true_eq_false, if_false]
    exact ⟨hmu, hP⟩
  simp only [flCholCorrect, filterCorrect, ho, not_false_eq_true, if_true]
  have hPt : Pᵀ = P := symm_of_posSemidef hPs
  set V := C' * (P * C'ᵀ) + R with hV
  have hVp : V.PosDef := by
    have := hRp.posSemidef_add (posSemidef_conj' hPs C')
    rwa [Matrix.mul_assoc] at this
  have hVu : IsUnit V.det := hVp.det_pos.ne'.isUnit
  obtain ⟨hYY, hPY⟩ := owM_fl_outer (br := br) hw hC hP
  -- the Gram matrix of the factor
  have hM : OwM F w (fun i => (flCholCorrectM (br i) (C i) (R2 i) (P2 i))ᵀ
      * flCholCorrectM (br i) (C i) (R2 i) (P2 i))
      ((fromBlocks V (P * C'ᵀ)ᵀ (P * C'ᵀ) P).submatrix finSumFinEquiv.symm finSumFinEquiv.symm) := by
    have h11 := hR.add hYY
    rw [add_comm R] at h11
    exact (owM_fromBlocks h11 (owM_transpose hPY) hPY hP).congr_ev
      (Filter.Eventually.of_forall fun i => (gram_flCholCorrectM _ _ _ _).symm)
  have hS := owM_qr (br := br) hw le_rfl hM
  set S := fun i => (br i).qr (m + n) (m + n) (flCholCorrectM (br i) (C i) (R2 i) (P2 i)) with hSdef
  have hSb : BddM F S := bddM_of_gram (hS.bdd hw)
  set S11 := fun i => (S i).submatrix (Fin.castAdd n) (Fin.castAdd n) with h11d
  set S12 := fun i => (S i).submatrix (Fin.castAdd n) (Fin.natAdd m) with h12d
  set S22 := fun i => (S i).submatrix (Fin.natAdd m) (Fin.natAdd m) with h22d
  have hb12 : BddM F S12 := fun p q => hSb _ _
  have hb11 : BddM F S11 := fun p q => hSb _ _
  have hbl := fun i => gram_blocks_of_upper (S := S i) (fun a b => (br i).qr_upper _ _ _ a b)
  have g11 : OwM F w (fun i => (S11 i)ᵀ * S11 i) V := by
    intro p q
    have := hS (Fin.castAdd n p) (Fin.castAdd n q)
    refine (this.congr_ev (Filter.Eventually.of_forall fun i =>
      (congrFun (congrFun (hbl i).1 p) q).symm)).congr_left fun i => ?_
    simp [S11]
  have g21 : OwM F w (fun i => (S12 i)ᵀ * S11 i) (P * C'ᵀ) := by
    intro p q
    have := hS (Fin.natAdd m p) (Fin.castAdd n q)
    refine (this.congr_ev (Filter.Eventually.of_forall fun i =>
      (congrFun (congrFun (hbl i).2.1 p) q).symm)).congr_left fun i => ?_
    simp [S11, S12]
  have g22 : OwM F w (fun i => (S12 i)ᵀ * S12 i + (S22 i)ᵀ * S22 i) P := by
    intro p q
    have := hS (Fin.natAdd m p) (Fin.natAdd m q)
    refine (this.congr_ev (Filter.Eventually.of_forall fun i =>
      (congrFun (congrFun (hbl i).2.2 p) q).symm)).congr_left fun i => ?_
    simp [S12, S22]
  -- the inverse of the first block
  have hGinv := owM_pinv hw g11 hVu
  have hd11 : ∀ᶠ i in F, IsUnit (S11 i).det :=
    (((g11.det hw).tendsto hw).eventually_ne hVu.ne_zero).mono fun i hi => by
      rw [det_mul, det_transpose] at hi
      exact (mul_ne_zero_iff.mp hi).2.isUnit
  have hdT : ∀ᶠ i in F, IsUnit (S11 i)ᵀ.det := hd11.mono fun i hi => by rwa [det_transpose]
  have hfac : ∀ᶠ i in F, pinv ((S11 i)ᵀ * S11 i) = (S11 i)⁻¹ * pinv (S11 i)ᵀ := by
    filter_upwards [hd11, hdT] with i h1 h2
    rw [pinv_eq_inv (by rw [det_mul]; exact h2.mul h1), Matrix.mul_inv_rev, pinv_eq_inv h2]
  have hbP : BddM F fun i => pinv (S11 i)ᵀ := by
    refine bddM_of_gram ((hGinv.bdd hw).congr' ?_)
    filter_upwards [hfac, hdT] with i h1 h2
    rw [h1, pinv_eq_inv h2, transpose_nonsing_inv, transpose_transpose]
  -- the gain
  have hK : OwM F w (fun i => (S12 i)ᵀ * pinv (S11 i)ᵀ) (P * (C'ᵀ * pinv V)) := by
    have h := owM_mul hw g21 hGinv
    rw [Matrix.mul_assoc] at h
    refine h.congr_ev ?_
    filter_upwards [hfac, hd11] with i h1 h2
    rw [h1, Matrix.mul_assoc, ← Matrix.mul_assoc (S11 i), mul_nonsing_inv _ h2, Matrix.one_mul]
  constructor
  · have hinn := ow_fl_vsub (br := fun i => (br i).toArith) hw (owV_const o.val)
      (ow_fl_vadd (br := fun i => (br i).toArith) hw
        (ow_fl_mulV (br := fun i => (br i).toArith) hw hC hmu) hd)
    have hpi := near_fl_pinv (br := fun i => (br i).toArith) hw hb11.transpose hdT hbP
    have hpb := hbP.of_near hw hpi
    have hx1 := near_fl_mulV (br := fun i => (br i).toArith) hpb (hinn.bdd hw)
    have hxb := (hpb.mulVec (hinn.bdd hw)).of_near hw hx1
    have hx2 := near_fl_mulV (br := fun i => (br i).toArith) hb12.transpose hxb
    have e1 := owV_mulVec hw hK hinn
    have e2 := owV_mulVec_zero hb12.transpose (owV_zero_mulVec hpi (hinn.bdd hw))
    have e3 := owV_mulVec_zero hb12.transpose hx1
    have := ((e1.add e2).add e3).add hx2
    rw [add_zero, add_zero, add_zero] at this
    refine ow_fl_vadd (br := fun i => (br i).toArith) hw hmu
      (this.congr_ev (Filter.Eventually.of_forall fun i => ?_))
    simp only [mulVec_sub, sub_mulVec, ← mulVec_mulVec]
    abel
  · have h1 := owM_mul hw hK (owM_transpose g21)
    have h2 := g22.sub h1
    have e : P - P * (C'ᵀ * pinv V) * (P * C'ᵀ)ᵀ = P - P * (C'ᵀ * pinv V) * (C' * P) := by
      rw [transpose_mul, transpose_transpose, hPt]
    rw [e] at h2
    refine h2.congr_ev ?_
    filter_upwards [hdT] with i hi
    rw [transpose_transpose, transpose_mul, transpose_transpose, Matrix.mul_assoc,
      ← Matrix.mul_assoc (pinv _), pinv_eq_inv hi, nonsing_inv_mul _ hi, Matrix.one_mul]
    exact add_sub_cancel_left _ _

/-- Errors of all quantities of one step; square roots are compared after reconstruction. -/
structure CNear (F : Filter ι) (w : ι → ℝ) (f : ι → CStep n) (a : Step n m) : Prop where
  predMean : OwV F w (fun s => (f s).predMean) a.predMean
  predCov : OwM F w (fun s => (f s).predCov2 * ((f s).predCov2)ᵀ) a.predCov
  filtMean : OwV F w (fun s => (f s).filtMean) a.filtMean
  filtCov : OwM F w (fun s => (f s).filtCov2 * ((f s).filtCov2)ᵀ) a.filtCov

theorem near_ckFl (hw : Filter.Tendsto w F (𝓝 0)) {P : PFun n m} {T : ℕ} (hP : P.PSD T)
    {Q : Mat n n} {R : Mat m m} (hQ : ∀ t, P.Q t = Q) (hR : ∀ t, P.R t = R) (hRp : R.PosDef)
    {Q2 S2 : ι → Mat n n} {R2 : ι → Mat m m} (hQ2 : OwM F w (fun i => Q2 i * (Q2 i)ᵀ) Q)
    (hR2 : OwM F w (fun i => R2 i * (R2 i)ᵀ) R) (hS2 : OwM F w (fun i => S2 i * (S2 i)ᵀ) P.S0)
    (z : ℕ → Obs m) (t : ℕ) (ht : t < T) :
    CNear F w (fun i => P.ckFl (br i) (Q2 i) (R2 i) (S2 i) z t) (P.kf z t) := by
  induction t with
  | zero =>
    have hps := hP.pred ht z
    have := near_flCholCorrect (br := br) hw (owM_const (P.C 0)) (owV_const (P.d 0)) (owV_const P.mu0) hS2 hps hR2 hRp (z 0)
    rw [← hR 0] at this
    exact ⟨owV_const _, hS2, this.1, this.2⟩
  | succ t ih =>
    have h := ih (by omega)
    have hps := hP.pred ht z
    have hA : OwM F w (fun _ : ι => P.A t) (P.A t) := owM_const _
    have hm := ow_fl_vadd (br := fun i => (br i).toArith) hw
      (ow_fl_mulV (br := fun i => (br i).toArith) hw hA h.filtMean) (owV_const (P.b t))
    have hc := near_flCholPredict (br := br) hw hA (fun _ => P.b t)
      (mean := fun i => (P.ckFl (br i) (Q2 i) (R2 i) (S2 i) z t).filtMean) h.filtCov hQ2
    rw [← hQ t] at hc
    have := near_flCholCorrect (br := br) hw (owM_const (P.C (t + 1))) (owV_const (P.d (t + 1))) hm hc hps hR2 hRp
      (z (t + 1))
    rw [← hR (t + 1)] at this
    exact ⟨hm, hc, this.1, this.2⟩

/-- The rows with reconstructed covariances. -/
theorem CNear.flNear (hw : Filter.Tendsto w F (𝓝 0)) {f : ι → CStep n} {a : Step n m}
    (h : CNear F w f a) : FlNear F w (fun i => (f i).flStep (br i) m) a := by
  have key : ∀ {M : ι → Mat n n} {P : Mat n n}, OwM F w (fun i => M i * (M i)ᵀ) P →
      OwM F w (fun i => flReconstruct (br i) (M i)) P := by
    intro M P hM
    have hb : BddM F M := bddM_of_gram' (hM.bdd hw)
    exact hM.of_near (near_fl_mul (br := fun i => (br i).toArith) hb hb.transpose)
  exact ⟨h.predMean, key h.predCov, h.filtMean, key h.filtCov⟩

/-- The initial factors: they are computed without an exception if the errors are small. -/
theorem ow_cholParam (hw : Filter.Tendsto w F (𝓝 0)) {S : Mat k k} (hS : S.PosDef) :
    ∃ L : ι → Mat k k, (∀ᶠ i in F, (br i).chol k S = .ok (L i)) ∧
      OwM F w (fun i => L i * (L i)ᵀ) S := by
  obtain ⟨L, N, h1, h2, h3⟩ := ow_chol (br := fun i => (br i).toArithL) hw (owM_const S) hS
  exact ⟨L, h1, h3.congr_ev (h2.mono fun i hi => hi.mul_transpose.symm)⟩

/-- All rows of the square root filter. -/
theorem near_flCholFull (hw : Filter.Tendsto w F (𝓝 0)) {p : Params n m} {os : List (Obs m)}
    (hc : p.Covers os.length) (hp : p.PosDef) (hpsd : p.fn.PSD os.length) :
    ∃ st : ι → ℕ → CStep n,
      (∀ᶠ i in F, flCholFull (br i) p os = .ok ((List.range os.length).map (st i))) ∧
      ∀ t, t < os.length →
        FlNear F w (fun i => (st i t).flStep (br i) m) (p.fn.kf (obsFn os) t) := by
  obtain ⟨⟨Q, hQ, hQd⟩, ⟨R, hR, hRd⟩, hS⟩ := hp
  obtain ⟨Q2, q1, q2⟩ := ow_cholParam (br := br) hw hQd
  obtain ⟨R2, r1, r2⟩ := ow_cholParam (br := br) hw hRd
  obtain ⟨S2, s1, s2⟩ := ow_cholParam (br := br) hw hS
  refine ⟨fun i => p.fn.ckFl (br i) (Q2 i) (R2 i) (S2 i) (obsFn os), ?_, fun t ht => ?_⟩
  · filter_upwards [q1, r1, s1] with i h1 h2 h3
    simp only [flCholFull, hQ, hR, flCholParam, h1, h2, h3, bind, Except.bind]
    exact flCholLoop_obsFn hc
  · exact (near_ckFl (br := br) hw hpsd (fun t => by simp [Params.fn, hQ, TV.get])
      (fun t => by simp [Params.fn, hR, TV.get]) hRd q2 r2 s2 (obsFn os) t ht).flNear hw

end Verif
