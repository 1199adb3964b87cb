import Verif.Model.RoundedSqrtUnscented
import Verif.Proofs.RoundedUnscented
import Verif.Proofs.RoundedUpdate
import Verif.Proofs.SqrtUnscented

/-!
# The square root unscented filter in arithmetic with rounding errors

The signs of the rows of a computed triangular factor may change with the error: `qr` is free to
choose them.  The proofs split the family of computations into the finitely many parts on which the
signs are constant; there the factors converge.
-/

open Matrix Topology

namespace Verif

variable {n m k l N : ℕ} {c : ℕ → ℝ} {ι : Type} {F : Filter ι} {w : ι → ℝ}

/-! ### Parts of a family -/

theorem Ow.mono {F' : Filter ι} {f : ι → ℝ} {a : ℝ} (h : Ow F w f a) (hF : F' ≤ F) : Ow F' w f a :=
  Asymptotics.IsBigO.mono h hF

theorem OwV.mono {F' : Filter ι} {f : ι → Vec k} {a : Vec k} (h : OwV F w f a) (hF : F' ≤ F) :
    OwV F' w f a := fun p => (h p).mono hF

theorem OwM.mono {F' : Filter ι} {f : ι → Mat k l} {a : Mat k l} (h : OwM F w f a) (hF : F' ≤ F) :
    OwM F' w f a := fun p q => (h p q).mono hF

theorem SigNear.mono {F' : Filter ι} {g : ι → SigmaPoints N k} {v : SigmaPoints N k}
    (h : SigNear F w g v) (hF : F' ≤ F) : SigNear F' w g v :=
  ⟨fun j => (h.points j).mono hF, h.wm.mono hF, h.wc.mono hF⟩

/-- The part of the family where `s` has the value `d`. -/
def part {κ : Type} (F : Filter ι) (s : ι → κ) (d : κ) : Filter ι := F ⊓ Filter.principal {i | s i = d}

theorem part_le {κ : Type} (s : ι → κ) (d : κ) : part F s d ≤ F := inf_le_left

theorem part_pair {κ κ' : Type} (s : ι → κ) (s' : ι → κ') (d : κ × κ') :
    part F (fun i => (s i, s' i)) d ≤ part F s d.1 ∧
    part F (fun i => (s i, s' i)) d ≤ part F s' d.2 := by
  constructor <;> refine inf_le_inf_left _ (Filter.principal_mono.mpr fun i hi => ?_)
  · exact congrArg Prod.fst hi
  · exact congrArg Prod.snd hi

theorem ev_glue {κ : Type} [Finite κ] {s : ι → κ} {p : ι → Prop}
    (h : ∀ d, ∀ᶠ i in part F s d, p i) : ∀ᶠ i in F, p i := by
  have h1 : ∀ᶠ i in F, ∀ d, s i = d → p i :=
    Filter.eventually_all.mpr fun d => Filter.eventually_inf_principal.mp (h d)
  exact h1.mono fun i hi => hi _ rfl

theorem ow_glue {κ : Type} [Finite κ] {s : ι → κ} {f : ι → ℝ} {a : ℝ}
    (h : ∀ d, Ow (part F s d) w f a) : Ow F w f a := by
  have := Fintype.ofFinite κ
  choose C hC using fun d => Asymptotics.isBigO_iff.mp (h d)
  refine Asymptotics.isBigO_iff.mpr ⟨∑ d, |C d|, ev_glue (s := s) fun d => (hC d).mono fun i hi => ?_⟩
  refine hi.trans (mul_le_mul_of_nonneg_right ?_ (norm_nonneg _))
  exact (le_abs_self _).trans (Finset.single_le_sum (f := fun d => |C d|) (fun _ _ => abs_nonneg _)
    (Finset.mem_univ d))

/-! ### Computed factors -/

/-- Moments with computed factors of the covariance. -/
structure SqNear (F : Filter ι) (w : ι → ℝ) (g : ι → Moments k) (v : Moments k) : Prop where
  mean : OwV F w (fun i => (g i).mean) v.mean
  upper : ∀ᶠ i in F, UpperTri (g i).cov
  gram : OwM F w (fun i => (g i).covᵀ * (g i).cov) v.cov
  pos : v.cov.PosDef

theorem SqNear.mono {F' : Filter ι} {g : ι → Moments k} {v : Moments k} (h : SqNear F w g v)
    (hF : F' ≤ F) : SqNear F' w g v :=
  ⟨h.mean.mono hF, h.upper.filter_mono hF, h.gram.mono hF, h.pos⟩

theorem SqNear.congr_ev {g g' : ι → Moments k} {v : Moments k} (h : SqNear F w g v)
    (e : ∀ᶠ i in F, g i = g' i) : SqNear F w g' v :=
  ⟨h.mean.congr_ev (e.mono fun i hi => by rw [hi]),
   (h.upper.and e).mono fun i hi => hi.2 ▸ hi.1,
   h.gram.congr_ev (e.mono fun i hi => by rw [hi]), h.pos⟩

theorem SqNear.glue {κ : Type} [Finite κ] [Nonempty κ] {s : ι → κ} {f : ι → Res (Moments k)}
    {a : Res (Moments k)} (h : ∀ d, EvNear (part F s d) (SqNear (part F s d) w) f a) :
    EvNear F (SqNear F w) f a := by
  obtain ⟨v, -, hv, -⟩ := h (Classical.arbitrary κ)
  set G : ι → Moments k := fun i => match f i with
    | .ok x => x
    | .error _ => ⟨0, 0⟩ with hG
  have key : ∀ d, (∀ᶠ i in part F s d, f i = .ok (G i)) ∧ SqNear (part F s d) w G v := by
    intro d
    obtain ⟨v', g, hv', hg, hR⟩ := h d
    obtain rfl : v = v' := by rw [hv] at hv'; cases hv'; rfl
    have e : ∀ᶠ i in part F s d, g i = G i := hg.mono fun i hi => by simp only [hG, hi]
    exact ⟨(hg.and e).mono fun i hi => by rw [hi.1, hi.2], hR.congr_ev e⟩
  refine ⟨v, G, hv, ev_glue fun d => (key d).1, fun p => ow_glue fun d => (key d).2.mean p,
    ev_glue fun d => (key d).2.upper, fun p q => ow_glue fun d => (key d).2.gram p q,
    (key (Classical.arbitrary κ)).2.pos⟩

/-- Signs of the diagonal. -/
noncomputable def diagSigns (U : Mat k k) : Fin k → Bool := fun j => decide (0 < U j j)

theorem ev_posDef (hw : Filter.Tendsto w F (𝓝 0)) {M : ι → Mat k k} {S : Mat k k}
    (hM : OwM F w M S) (hS : S.PosDef) (hs : ∀ᶠ i in F, (M i)ᵀ = M i) :
    ∀ᶠ i in F, (M i).PosDef := by
  obtain ⟨δ, hδ, h⟩ := posDef_near hS
  have h0 := tends_sumAbs ((hM.sub (owM_const S)).tendsto hw)
  rw [sub_self, show sumAbs (0 : Mat k k) = 0 by simp [sumAbs]] at h0
  filter_upwards [hs, h0.eventually (gt_mem_nhds hδ)] with i h1 h2
  exact h _ h1 h2

/-- Where the signs are constant, computed factors converge. -/
theorem SqNear.root (hw : Filter.Tendsto w F (𝓝 0)) {g : ι → Moments k} {v : Moments k}
    (h : SqNear F w g v) (d : Fin k → Bool) :
    ∃ U, Root v ⟨v.mean, U⟩ ∧
      OwM (part F (fun i => diagSigns (g i).cov) d) w (fun i => (g i).cov) U := by
  obtain ⟨L, hL⟩ := exists_isCholesky _ h.pos
  set ε : Fin k → ℝ := fun j => if d j then 1 else -1 with hε
  have hε2 : ∀ j, ε j * ε j = 1 := fun j => by
    simp only [hε]; split <;> norm_num
  have hε0 : ∀ j, ε j ≠ 0 := fun j e => by have := hε2 j; rw [e] at this; norm_num at this
  refine ⟨Matrix.of fun p q => ε p * L q p, ⟨rfl, ⟨fun i j hij => ?_, fun i => ?_⟩, ?_⟩, ?_⟩
  · simp only [of_apply, hL.lower j i hij, mul_zero]
  · simp only [of_apply]
    exact mul_ne_zero (hε0 i) (hL.diag_pos i).ne'
  · rw [← hL.mul_transpose]
    ext i j
    simp only [Matrix.mul_apply, transpose_apply, of_apply]
    refine Finset.sum_congr rfl fun x _ => ?_
    linear_combination (L i x * L j x) * hε2 x
  · have hle := part_le (F := F) (fun i => diagSigns (g i).cov) d
    have hpd := ev_posDef hw h.gram h.pos (Filter.Eventually.of_forall fun i => by
      rw [transpose_mul, transpose_transpose])
    have hsig : ∀ᶠ i in part F (fun i => diagSigns (g i).cov) d, diagSigns (g i).cov = d :=
      Filter.mem_inf_of_right (Filter.mem_principal_self _)
    have hc : ∀ᶠ i in part F (fun i => diagSigns (g i).cov) d,
        IsCholesky ((g i).covᵀ * (g i).cov) (Matrix.of fun p q => ε q * (g i).cov q p) := by
      filter_upwards [hpd.filter_mono hle, h.upper.filter_mono hle, hsig] with i h1 h2 h3
      have hU := h2.factor_of_posDef h1
      refine ⟨fun p q hpq => ?_, fun p => ?_, ?_⟩
      · simp [hU.upper q p hpq]
      · simp only [of_apply, hε, ← h3, diagSigns, decide_eq_true_eq]
        split
        · rename_i h; simpa using h
        · rename_i h
          have := lt_of_le_of_ne (not_lt.mp h) (hU.diag p)
          linarith
      · ext a b
        simp only [Matrix.mul_apply, transpose_apply, of_apply]
        refine Finset.sum_congr rfl fun x _ => ?_
        linear_combination ((g i).cov x a * (g i).cov x b) * hε2 x
    have hlim := owM_isCholesky (hw.mono_left hle) (h.gram.mono hle) hc hL
    intro p q
    have h1 := (ow_const (F := part F (fun i => diagSigns (g i).cov) d) (w := w) (ε p)).mul
      (hw.mono_left hle) (hlim q p)
    simp only [of_apply] at h1 ⊢
    refine h1.congr_ev (Filter.Eventually.of_forall fun i => ?_)
    rw [← mul_assoc, hε2, one_mul]

/-! ### `qr` and `points2moments` -/

theorem Ow.abs {f : ι → ℝ} {a : ℝ} (h : Ow F w f a) : Ow F w (fun i => |f i|) |a| :=
  Asymptotics.IsBigO.trans (Asymptotics.IsBigO.of_bound 1 (Filter.Eventually.of_forall fun i => by
    rw [one_mul, Real.norm_eq_abs, Real.norm_eq_abs]
    exact abs_abs_sub_abs_le _ _)) h

variable {ar : ∀ i, ArithS c (w i)}

theorem flQrSquare_spec {u : ℝ} (ar : ArithS c u) {L : ℕ} (A : Mat N L) (h : L ≤ N) :
    ∃ R, flQrSquare ar A = .ok R ∧ UpperTri R ∧ Rᵀ * R = (ar.qr N L A)ᵀ * ar.qr N L A := by
  have h' : N ≥ L := h
  refine ⟨(ar.qr N L A).submatrix (Fin.castLE h) id, by simp only [flQrSquare, h', dif_pos], ?_, ?_⟩
  · intro i j hij
    exact ar.qr_upper N L A (Fin.castLE h i) j hij
  · obtain ⟨d, rfl⟩ := Nat.exists_eq_add_of_le h
    exact gram_top_of_upper (N := d) (ar.qr_upper (L + d) L A)

theorem near_flQrSquare (hw : Filter.Tendsto w F (𝓝 0)) {L : ℕ} (h : L ≤ N) {B : ι → Mat N L}
    {G : Mat L L} (hG : OwM F w (fun i => (B i)ᵀ * B i) G) :
    ∃ R : ι → Mat L L, (∀ i, flQrSquare (ar i) (B i) = .ok (R i)) ∧ (∀ i, UpperTri (R i)) ∧
      OwM F w (fun i => (R i)ᵀ * R i) G := by
  choose R h1 h2 h3 using fun i => flQrSquare_spec (ar i) (B i) h
  refine ⟨R, h1, h2, (owM_qr (br := fun i => (ar i).toArithC) hw h hG).congr_ev
    (Filter.Eventually.of_forall fun i => (h3 i).symm)⟩

theorem sign_mul_self_mul_abs (x : ℝ) : Real.sign x * Real.sign x * |x| = |x| := by
  rcases lt_trichotomy x 0 with h | h | h
  · rw [Real.sign_of_neg h]; ring
  · rw [h]; simp
  · rw [Real.sign_of_pos h]; ring

theorem qrPoints_gram_apply (s : SigmaPoints N k) (mu : Vec k) (p q : Fin k) :
    (qrPoints s mu * (qrPoints s mu)ᵀ) p q
      = ∑ j, |s.wc j| * ((s.points j p - mu p) * (s.points j q - mu q)) := by
  simp only [Matrix.mul_apply, transpose_apply, qrPoints, of_apply]
  refine Finset.sum_congr rfl fun j _ => ?_
  have h1 := Real.mul_self_sqrt (abs_nonneg (s.wc j))
  have h2 := sign_mul_self_mul_abs (s.wc j)
  linear_combination ((s.points j p - mu p) * (s.points j q - mu q))
    * (Real.sign (s.wc j) * Real.sign (s.wc j) * h1 + h2)

theorem abs_sign_le (x : ℝ) : |Real.sign x| ≤ 1 := by
  rcases Real.sign_apply_eq x with h | h | h <;> rw [h] <;> norm_num

theorem abs_sqrt_le {y : ℝ} (hy : 0 ≤ y) : |√y| ≤ |y + 1| := by
  rw [abs_of_nonneg (Real.sqrt_nonneg _), abs_of_nonneg (by linarith), Real.sqrt_le_left (by linarith)]
  nlinarith

theorem near_flQrPoints (hw : Filter.Tendsto w F (𝓝 0)) {g : ι → SigmaPoints N k}
    {v : SigmaPoints N k} (h : SigNear F w g v) {mu : ι → Vec k} {mu' : Vec k}
    (hmu : OwV F w mu mu') :
    OwM F w (fun i => flQrPoints (ar i) (g i) (mu i) * (flQrPoints (ar i) (g i) (mu i))ᵀ)
      (qrPoints v mu' * (qrPoints v mu')ᵀ) := by
  have hG : OwM F w (fun i => qrPoints (g i) (mu i) * (qrPoints (g i) (mu i))ᵀ)
      (qrPoints v mu' * (qrPoints v mu')ᵀ) := by
    intro p q
    simp only [qrPoints_gram_apply]
    exact Ow.sum fun j _ => (h.wc j).abs.mul hw
      (((h.points j p).sub (hmu p)).mul hw ((h.points j q).sub (hmu q)))
  have hE : OwM F w (fun i => flQrPoints (ar i) (g i) (mu i) - qrPoints (g i) (mu i)) 0 := by
    intro p j
    -- the factor of the column
    have hsb : Bdd F fun i => Real.sign ((g i).wc j) :=
      (bdd_const 1).of_le (Filter.Eventually.of_forall fun i => by
        rw [abs_one]; exact abs_sign_le _)
    have hqb : Bdd F fun i => √|(g i).wc j| := by
      refine Bdd.of_le (((h.wc j).bdd hw).abs.add (bdd_const 1))
        (Filter.Eventually.of_forall fun i => ?_)
      exact abs_sqrt_le (abs_nonneg _)
    have h1 : Ow F w (fun i => (ar i).sqrt |(g i).wc j| - √|(g i).wc j|) 0 :=
      ow_of_err' (K := 1) (g := fun _ => 0) (ow_const 0) hqb
        (Filter.Eventually.of_forall fun i => by
          rw [sub_zero, one_mul]; exact (ar i).sqrt_err _ (abs_nonneg _))
    have hsqb : Bdd F fun i => (ar i).sqrt |(g i).wc j| := by
      have := (h1.bdd hw).add hqb
      simpa using this
    have h2 : Ow F w (fun i => (ar i).mulr (Real.sign ((g i).wc j)) ((ar i).sqrt |(g i).wc j|)
        - Real.sign ((g i).wc j) * (ar i).sqrt |(g i).wc j|) 0 :=
      ow_of_err' (K := 1) (g := fun _ => 0) (ow_const 0) (hsb.mul hsqb).abs
        (Filter.Eventually.of_forall fun i => by
          rw [sub_zero, one_mul]; exact (ar i).mulr_err _ _)
    have h3 : Ow F w (fun i => (ar i).mulr (Real.sign ((g i).wc j)) ((ar i).sqrt |(g i).wc j|)
        - Real.sign ((g i).wc j) * √|(g i).wc j|) 0 := by
      have := h2.add (ow_zero_mul h1 hsb)
      rw [add_zero] at this
      refine this.congr_ev (Filter.Eventually.of_forall fun i => ?_)
      ring
    have hd := ow_fl_sub (br := fun i => (ar i).toArith) hw (h.points j p) (hmu p)
    have hd0 := (h.points j p).sub (hmu p)
    have h4 : Ow F w (fun i => (ar i).sub ((g i).points j p) (mu i p)
        - ((g i).points j p - mu i p)) 0 := by
      have := hd.sub hd0
      rwa [sub_self] at this
    have hcb : Bdd F fun i => (ar i).mulr (Real.sign ((g i).wc j)) ((ar i).sqrt |(g i).wc j|) := by
      have := (h3.bdd hw).add (hsb.mul hqb)
      simpa using this
    have h5 : Ow F w (fun i => flQrPoints (ar i) (g i) (mu i) p j
        - (ar i).mulr (Real.sign ((g i).wc j)) ((ar i).sqrt |(g i).wc j|)
          * (ar i).sub ((g i).points j p) (mu i p)) 0 :=
      ow_of_err' (K := 1) (g := fun _ => 0) (ow_const 0) (hcb.mul (hd.bdd hw)).abs
        (Filter.Eventually.of_forall fun i => by
          rw [sub_zero, one_mul]; exact (ar i).mulr_err _ _)
    have := (h5.add (ow_zero_mul h4 hcb)).add (ow_zero_mul h3 (hd0.bdd hw))
    rw [add_zero, add_zero] at this
    refine this.congr_ev (Filter.Eventually.of_forall fun i => ?_)
    simp only [Matrix.sub_apply, qrPoints, of_apply]
    ring
  have hb : BddM F fun i => (qrPoints (g i) (mu i))ᵀ :=
    (bddM_of_gram' (B := fun i => qrPoints (g i) (mu i)) (hG.bdd hw)).transpose
  have := owM_gram hw (B := fun i => (qrPoints (g i) (mu i))ᵀ)
    (E := fun i => (flQrPoints (ar i) (g i) (mu i) - qrPoints (g i) (mu i))ᵀ) hb
    (fun p q => hE q p) (by simpa only [transpose_transpose] using hG)
  refine this.congr_ev (Filter.Eventually.of_forall fun i => ?_)
  rw [← transpose_add, transpose_transpose, add_sub_cancel]

theorem near_flSqPoints2moments (hw : Filter.Tendsto w F (𝓝 0)) {g : ι → SigmaPoints N k}
    {v : SigmaPoints N k} (h : SigNear F w g v) (hf : FinePoints v) {S2 : ι → Mat k k}
    {S2' : Mat k k} (hS : OwM F w S2 S2') {S : Mat k k} (eS : S2' * S2'ᵀ = S)
    (hpos : (points2moments v (some S)).cov.PosDef) :
    ∃ X : ι → Moments k, (∀ i, flSqPoints2moments (ar i) (g i) (some (S2 i)) = .ok (X i)) ∧
      SqNear F w X (points2moments v (some S)) := by
  have hP : OwM F w (fun i => (Matrix.of (g i).points)ᵀ) (Matrix.of v.points)ᵀ :=
    fun p q => h.points q p
  have hmu := ow_fl_mulV (br := fun i => (ar i).toArith) hw hP h.wm
  have hq := near_flQrPoints (ar := ar) hw h hmu
  have hG : OwM F w (fun i => ((hstack (flQrPoints (ar i) (g i)
      ((ar i).mulV (Matrix.of (g i).points)ᵀ (g i).wm)) (S2 i))ᵀ)ᵀ * (hstack (flQrPoints (ar i) (g i)
      ((ar i).mulV (Matrix.of (g i).points)ᵀ (g i).wm)) (S2 i))ᵀ) (points2moments v (some S)).cov := by
    simp only [transpose_transpose, hstack_gram]
    have := hq.add (owM_mul hw hS (owM_transpose hS))
    rw [eS, qrPoints_gram hf] at this
    exact this
  obtain ⟨R, h1, h2, h3⟩ := near_flQrSquare (ar := ar) hw (by omega) hG
  refine ⟨fun i => ⟨(ar i).mulV (Matrix.of (g i).points)ᵀ (g i).wm, R i⟩, fun i => ?_,
    ⟨hmu, Filter.Eventually.of_forall h2, h3, hpos⟩⟩
  simp only [flSqPoints2moments, h1, bind, Except.bind, pure, Except.pure]

theorem near_flSqPoints2moments_none (hw : Filter.Tendsto w F (𝓝 0)) {g : ι → SigmaPoints N k}
    {v : SigmaPoints N k} (h : SigNear F w g v) (hf : FinePoints v) (hN : k ≤ N)
    (hpos : (points2moments v none).cov.PosDef) :
    ∃ X : ι → Moments k, (∀ i, flSqPoints2moments (ar i) (g i) none = .ok (X i)) ∧
      SqNear F w X (points2moments v none) := by
  have hP : OwM F w (fun i => (Matrix.of (g i).points)ᵀ) (Matrix.of v.points)ᵀ :=
    fun p q => h.points q p
  have hmu := ow_fl_mulV (br := fun i => (ar i).toArith) hw hP h.wm
  have hq := near_flQrPoints (ar := ar) hw h hmu
  have hG : OwM F w (fun i => ((flQrPoints (ar i) (g i)
      ((ar i).mulV (Matrix.of (g i).points)ᵀ (g i).wm))ᵀ)ᵀ * (flQrPoints (ar i) (g i)
      ((ar i).mulV (Matrix.of (g i).points)ᵀ (g i).wm))ᵀ) (points2moments v none).cov := by
    simp only [transpose_transpose]
    rwa [qrPoints_gram hf] at hq
  obtain ⟨R, h1, h2, h3⟩ := near_flQrSquare (ar := ar) hw hN hG
  refine ⟨fun i => ⟨(ar i).mulV (Matrix.of (g i).points)ᵀ (g i).wm, R i⟩, fun i => ?_,
    ⟨hmu, Filter.Eventually.of_forall h2, h3, hpos⟩⟩
  simp only [flSqPoints2moments, h1, bind, Except.bind, pure, Except.pure]

/-! ### `cholupdate` -/

/-- Factor and vector of `cholupdate`. -/
structure CUNear (F : Filter ι) (w : ι → ℝ) (g : ι → Mat n n × Vec n) (v : Mat n n × Vec n) :
    Prop where
  A : OwM F w (fun i => (g i).1) v.1
  x : OwV F w (fun i => (g i).2) v.2
  upper : ∀ᶠ i in F, UpperTri (g i).1

theorem ow_fl_sq (hw : Filter.Tendsto w F (𝓝 0)) {x : ι → ℝ} {a : ℝ} (hx : Ow F w x a) :
    Ow F w (fun i => (ar i).sq (x i)) (a ^ 2) := by
  have h : Ow F w (fun i => x i ^ 2) (a ^ 2) := by
    simpa only [sq] using hx.mul hw hx
  exact ow_of_err' (K := 1) h (h.bdd hw) (Filter.Eventually.of_forall fun i => by
    rw [one_mul]; exact (ar i).sq_err _)

theorem near_flCholupdateStep (hw : Filter.Tendsto w F (𝓝 0)) {σ : ℝ} {M : Mat n n}
    (hM : M.PosDef) {k : Fin n} {g : ι → Mat n n × Vec n} {v : Mat n n × Vec n}
    (h : CUNear F w g v) (hI : CUInv σ M k v) :
    EvNear F (CUNear F w) (fun i => flCholupdateStep (ar i) σ (g i) k) (cholupdateStep σ v k) := by
  obtain ⟨A, x⟩ := v
  have ha : A k k ≠ 0 := hI.diag k
  have hp : 0 < A k k ^ 2 + σ * x k ^ 2 := pivot_pos hI.upper hI.diag k (by rw [hI.gram]; exact hM)
  have hr0 : cholupdateR σ (A k k) (x k) = Real.sqrt (A k k ^ 2 + σ * x k ^ 2) := by
    rw [cholupdateR]; simp [not_lt.mpr hp.le]
  have hrp : 0 < cholupdateR σ (A k k) (x k) := by rw [hr0]; exact Real.sqrt_pos.mpr hp
  have hA : OwM F w (fun i => (g i).1) A := h.A
  have hx : OwV F w (fun i => (g i).2) x := h.x
  have hr2 : Ow F w (fun i => (ar i).add ((ar i).sq ((g i).1 k k))
      ((ar i).mulr σ ((ar i).sq ((g i).2 k)))) (A k k ^ 2 + σ * x k ^ 2) :=
    ow_fl_add (br := fun i => (ar i).toArith) hw (ow_fl_sq hw (hA k k))
      (ow_fl_mulr (er := fun i => (ar i).toArithE) hw (ow_const σ) (ow_fl_sq hw (hx k)))
  have hr : Ow F w (fun i => flCholupdateR (ar i) σ ((g i).1 k k) ((g i).2 k))
      (cholupdateR σ (A k k) (x k)) := by
    rw [hr0]
    refine (ow_fl_sqrt (ar := fun i => (ar i).toArithU) hw hr2 hp).congr_ev ?_
    filter_upwards [(hr2.tendsto hw).eventually (lt_mem_nhds hp)] with i hi
    simp only [flCholupdateR]
    rw [if_neg (not_lt.mpr hi.le)]
  rw [cholupdateStep_eq]
  generalize cholupdateR σ (A k k) (x k) = r at hr hrp
  have hno : ¬ ((k : ℕ) + 1 < n ∧ (A k k = 0 ∨ r = 0)) := by
    rintro ⟨-, h | h⟩
    · exact ha h
    · exact hrp.ne' h
  rw [if_neg hno]
  have hc := ow_fl_div (er := fun i => (ar i).toArithE) hw hr (hA k k) ha
  have hs := ow_fl_div (er := fun i => (ar i).toArithE) hw (hx k) (hA k k) ha
  have hrow : OwV F w (fun i => (fun j => if j = k then flCholupdateR (ar i) σ ((g i).1 k k) ((g i).2 k)
      else if k < j then (ar i).divr ((ar i).add ((g i).1 k j) ((ar i).mulr ((ar i).mulr σ
        ((ar i).divr ((g i).2 k) ((g i).1 k k))) ((g i).2 j)))
        ((ar i).divr (flCholupdateR (ar i) σ ((g i).1 k k) ((g i).2 k)) ((g i).1 k k))
      else (g i).1 k j : Vec n)) (cuRow σ A x k r) := by
    intro j
    simp only [cuRow]
    split_ifs
    · exact hr
    · exact ow_fl_div (er := fun i => (ar i).toArithE) hw
        (ow_fl_add (br := fun i => (ar i).toArith) hw (hA k j)
          (ow_fl_mulr (er := fun i => (ar i).toArithE) hw
            (ow_fl_mulr (er := fun i => (ar i).toArithE) hw (ow_const σ) hs) (hx j))) hc
        (div_ne_zero hrp.ne' ha)
    · exact hA k j
  have hev : ∀ᶠ i in F, ¬ ((k : ℕ) + 1 < n ∧ ((g i).1 k k = 0
      ∨ flCholupdateR (ar i) σ ((g i).1 k k) ((g i).2 k) = 0)) := by
    filter_upwards [((hA k k).tendsto hw).eventually_ne ha,
      (hr.tendsto hw).eventually_ne hrp.ne'] with i h1 h2
    rintro ⟨-, h | h⟩
    · exact h1 h
    · exact h2 h
  refine ⟨_, _, rfl, hev.mono fun i hi => by simp only [flCholupdateStep]; rw [if_neg hi], ?_, ?_, ?_⟩
  · intro p q
    by_cases hpk : p = k
    · subst hpk
      simp only [updateRow_self]
      exact hrow q
    · simp only [updateRow_ne hpk]
      exact hA p q
  · intro j
    by_cases hkj : k < j
    · simp only [cuVec, if_pos hkj]
      have hrow' := hrow j
      simp only [if_pos hkj] at hrow'
      exact ow_fl_sub (br := fun i => (ar i).toArith) hw
        (ow_fl_mulr (er := fun i => (ar i).toArithE) hw hc (hx j))
        (ow_fl_mulr (er := fun i => (ar i).toArithE) hw hs hrow')
    · simp only [cuVec, if_neg hkj]
      exact hx j
  · filter_upwards [h.upper] with i hi p q hpq
    by_cases hpk : p = k
    · subst hpk
      simp only [updateRow_self, hpq.ne, not_lt.mpr hpq.le, if_false]
      exact hi p q hpq
    · simp only [updateRow_ne hpk]
      exact hi p q hpq

theorem near_flCholupdate_foldlM (hw : Filter.Tendsto w F (𝓝 0)) {σ : ℝ} {M : Mat n n}
    (hM : M.PosDef) (d k : ℕ) (hk : k + d = n) {g : ι → Mat n n × Vec n} {v : Mat n n × Vec n}
    (h : CUNear F w g v) (hI : CUInv σ M k v) :
    EvNear F (CUNear F w)
      (fun i => ((List.finRange n).drop k).foldlM (flCholupdateStep (ar i) σ) (g i))
      (((List.finRange n).drop k).foldlM (cholupdateStep σ) v) := by
  induction d generalizing k g v with
  | zero =>
    have e : (List.finRange n).drop k = [] := List.drop_of_length_le (by simp; omega)
    simp only [e, List.foldlM_nil]
    exact EvNear.pure h
  | succ d ih =>
    have hkn : k < n := by omega
    have hlen : k < (List.finRange n).length := by simpa using hkn
    have e : (List.finRange n)[k] = ⟨k, hkn⟩ := by simp
    simp only [List.drop_eq_getElem_cons hlen, List.foldlM_cons, e]
    obtain ⟨st, h1, h2⟩ := cholupdateStep_inv hM (k := ⟨k, hkn⟩) hI
    refine (near_flCholupdateStep (ar := ar) hw hM (k := ⟨k, hkn⟩) h hI).bind fun g' v' hv' hg' => ?_
    obtain rfl : st = v' := by rw [h1] at hv'; cases hv'; rfl
    exact ih (k + 1) (by omega) hg' h2

/-- `cholupdate` with one vector. -/
theorem near_flCholupdate (hw : Filter.Tendsto w F (𝓝 0)) {A : ι → Mat n n} {A' : Mat n n}
    (hA : OwM F w A A') (hU : ∀ᶠ i in F, UpperTri (A i)) (hA' : UFactor A') {X : ι → Mat 1 n}
    {X' : Mat 1 n} (hX : OwM F w X X') {q : ℝ} (hq : q ≠ 0)
    (hM : (A'ᵀ * A' + q • (X'ᵀ * X')).PosDef) :
    EvNear F (fun g v => OwM F w g v ∧ ∀ᶠ i in F, UpperTri (g i))
      (fun i => flCholupdate (ar i) (A i) (X i) q) (cholupdate A' X' q) := by
  have hx : OwV F w (fun i => (fun j => (ar i).mulr ((ar i).sqrt |q|) (X i 0 j) : Vec n))
      ((Real.sqrt |q| • X') 0) := fun j =>
    ow_fl_mulr (er := fun i => (ar i).toArithE) hw
      (ow_fl_sqrt (ar := fun i => (ar i).toArithU) hw (ow_const |q|) (abs_pos.mpr hq)) (hX 0 j)
  have hq2 : Real.sign q * (Real.sqrt |q| * Real.sqrt |q|) = q := by
    rw [Real.mul_self_sqrt (abs_nonneg q)]
    rcases lt_or_gt_of_ne hq with h | h
    · rw [Real.sign_of_neg h, abs_of_neg h]; ring
    · rw [Real.sign_of_pos h, abs_of_pos h]; ring
  have hI : CUInv (Real.sign q) (A'ᵀ * A' + q • (X'ᵀ * X')) 0 (A', (Real.sqrt |q| • X') 0) := by
    refine ⟨hA'.upper, hA'.diag, fun i hi => absurd hi (by omega), ?_⟩
    rw [tailFrom_zero]
    congr 1
    ext a b
    simp only [Matrix.smul_apply, vecMulVec_apply, smul_eq_mul, Pi.smul_apply, Matrix.mul_apply,
      transpose_apply, Fin.sum_univ_one]
    linear_combination (X' 0 a * X' 0 b) * hq2
  have key := near_flCholupdate_foldlM (ar := ar) hw hM n 0 (by omega)
    (g := fun i => (A i, fun j => (ar i).mulr ((ar i).sqrt |q|) (X i 0 j))) ⟨hA, hx, hU⟩ hI
  have e1 : List.finRange 1 = [0] := rfl
  simp only [flCholupdate, cholupdate, e1, List.foldlM_cons, List.foldlM_nil, flCholupdateVec,
    cholupdateVec]
  simp only [List.drop_zero] at key
  refine EvNear.bind (key.bind fun g v _ h => EvNear.pure (R := fun g v => OwM F w g v ∧
    ∀ᶠ i in F, UpperTri (g i)) ⟨h.A, h.upper⟩) fun g v _ h => EvNear.pure h

/-! ### `lstsq` -/

open Classical in
/-- The arithmetic with another result of `pinv` for one matrix. -/
noncomputable def withPinv {u : ℝ} (ar : Arith c u) {k : ℕ} (M P : Mat k k)
    (h : IsRoundedPinv (c k) u M P) : Arith c u :=
  { ar with
    pinv := fun j X => if e : j = k then (if X = e ▸ M then e ▸ P else ar.pinv j X) else ar.pinv j X
    pinv_err := fun j X => by
      by_cases e : j = k
      · subst e
        by_cases hX : X = M
        · subst hX
          simpa using h
        · simpa [hX] using ar.pinv_err j X
      · simpa [e] using ar.pinv_err j X }

theorem withPinv_self {u : ℝ} (ar : Arith c u) {k : ℕ} (M P : Mat k k)
    (h : IsRoundedPinv (c k) u M P) : (withPinv ar M P h).pinv k M = P := by
  simp [withPinv]

theorem ow_roundedPinv (br : ∀ i, Arith c (w i)) (hw : Filter.Tendsto w F (𝓝 0)) {M P : ι → Mat k k}
    {S : Mat k k} (hM : OwM F w M S) (hS : IsUnit S.det)
    (hP : ∀ i, IsRoundedPinv (c k) (w i) (M i) (P i)) : OwM F w P (pinv S) := by
  have := ow_fl_pinv (br := fun i => withPinv (br i) (M i) (P i) (hP i)) hw hM hS
  simpa only [withPinv_self] using this

theorem ow_fl_lstsq (hw : Filter.Tendsto w F (𝓝 0)) {A : ι → Mat k k} {A' : Mat k k}
    (hA : OwM F w A A') (hd : IsUnit A'.det) {B : ι → Mat k l} {B' : Mat k l} (hB : OwM F w B B') :
    OwM F w (fun i => (ar i).lstsq k l (A i) (B i)) (lstsq A' B') := by
  choose P h1 h2 using fun i => (ar i).lstsq_err k l (A i) (B i)
  have hP := ow_roundedPinv (fun i => (ar i).toArith) hw hA hd h1
  exact fun p q => ow_of_err' (K := c k) (owM_mul hw hP hB p q)
    ((hP.bdd hw).sumAbs.mul (hB.bdd hw).sumAbs) (Filter.Eventually.of_forall fun i => h2 i p q)

/-! ### The correction step -/

theorem downdate_gram {pred pred2 : Moments n} (hp : Root pred pred2)
    {obs obs2 : Moments m} (ho : Root obs obs2)
    (hN : obs2.cov * obs2.covᵀ = obs2.covᵀ * obs2.cov) (cross : Mat n m) {o : Obs m}
    (hm : ¬ o.missing) :
    pred2.covᵀ * pred2.cov + (-1.0 : ℝ) • ((((lstsq obs2.covᵀ (lstsq obs2.cov crossᵀ))ᵀ * obs2.cov)ᵀ)ᵀ
      * ((lstsq obs2.covᵀ (lstsq obs2.cov crossᵀ))ᵀ * obs2.cov)ᵀ)
      = (unscentedCorrect cross pred obs o).cov := by
  have hu := ho.factor.isUnit_det
  have hut : IsUnit (obs2.covᵀ).det := by rw [det_transpose]; exact hu
  have hK : (lstsq obs2.covᵀ (lstsq obs2.cov crossᵀ))ᵀ = cross * pinv obs.cov := by
    have hug : IsUnit (obs2.covᵀ * obs2.cov).det := by rw [det_mul]; exact hut.mul hu
    rw [lstsq, lstsq, pinv_eq_inv hut, pinv_eq_inv hu, ← ho.gram, pinv_eq_inv hug, ← hN,
      Matrix.mul_inv_rev, transpose_mul, transpose_mul, transpose_transpose,
      transpose_nonsing_inv, transpose_nonsing_inv, transpose_transpose, Matrix.mul_assoc]
  simp only [unscentedCorrect, hm, not_false_eq_true, if_true]
  have hY : obs.cov.PosDef := ho.posDef
  have huY : IsUnit obs.cov.det := (Matrix.isUnit_iff_isUnit_det _).mp hY.isUnit
  rw [hK]
  set K := cross * pinv obs.cov with hKd
  have hKY : K * obs.cov = cross := by
    rw [hKd, pinv_eq_inv huY, Matrix.mul_assoc, nonsing_inv_mul _ huY, Matrix.mul_one]
  have hU : ((K * obs2.cov)ᵀ)ᵀ * (K * obs2.cov)ᵀ = K * crossᵀ := by
    rw [transpose_transpose, transpose_mul, Matrix.mul_assoc K, ← Matrix.mul_assoc obs2.cov, hN,
      ho.gram]
    have := congrArg Matrix.transpose hKY
    rw [transpose_mul, symm_of_posSemidef hY.posSemidef] at this
    rw [this]
  rw [hU, hp.gram]
  norm_num
  rw [← sub_eq_add_neg]

theorem near_flSqUnscentedCorrect (hw : Filter.Tendsto w F (𝓝 0)) {X : ι → Mat n 1} {X' : Mat n 1}
    (hX : OwM F w X X') {pr : ι → Moments n} {pr' : Moments n} (hpr : SqNear F w pr pr')
    {U : Mat n n} (hU : Root pr' ⟨pr'.mean, U⟩) (hprU : OwM F w (fun i => (pr i).cov) U)
    {ob : ι → Moments 1} {ob' : Moments 1} (hob : SqNear F w ob ob')
    {V : Mat 1 1} (hV : Root ob' ⟨ob'.mean, V⟩) (hobV : OwM F w (fun i => (ob i).cov) V) (o : Obs 1)
    (hpd : (unscentedCorrect X' pr' ob' o).cov.PosDef) :
    EvNear F (SqNear F w) (fun i => flSqUnscentedCorrect (ar i) (X i) (pr i) (ob i) o)
      (pure (unscentedCorrect X' pr' ob' o)) := by
  by_cases ho : o.missing
  · simp only [flSqUnscentedCorrect, unscentedCorrect, ho, not_true_eq_false, if_false]
    exact EvNear.pure hpr
  · obtain ⟨M2, h1, h2⟩ := sqUnscentedCorrect_spec hU hV (normal_one V) X' o hpd
    have hu : IsUnit V.det := hV.factor.isUnit_det
    have hut : IsUnit Vᵀ.det := by rw [det_transpose]; exact hu
    have hK : OwM F w (fun i => ((ar i).lstsq 1 n (ob i).covᵀ
        ((ar i).lstsq 1 n (ob i).cov (X i)ᵀ))ᵀ) (lstsq Vᵀ (lstsq V X'ᵀ))ᵀ :=
      owM_transpose (ow_fl_lstsq hw (owM_transpose hobV) hut
        (ow_fl_lstsq hw hobV hu (owM_transpose hX)))
    have hUU := ow_fl_mul (br := fun i => (ar i).toArith) hw hK hobV
    simp only [sqUnscentedCorrect, ho, not_false_eq_true, if_true] at h1
    obtain ⟨B, h3, h4⟩ := ok_bind_iff.mp h1
    cases h4
    -- the exact factor
    have hgr : Uᵀ * U + (-1.0 : ℝ) • ((((lstsq Vᵀ (lstsq V X'ᵀ))ᵀ * V)ᵀ)ᵀ
        * ((lstsq Vᵀ (lstsq V X'ᵀ))ᵀ * V)ᵀ) = (unscentedCorrect X' pr' ob' o).cov :=
      downdate_gram hU hV (normal_one V) X' ho
    obtain ⟨B', g, e, hg, hB, hBU⟩ := near_flCholupdate (ar := ar) hw hprU hpr.upper hU.factor
      (owM_transpose hUU) (q := -1.0) (by norm_num) (by rw [hgr]; exact hpd)
    rw [h3] at e
    cases e
    simp only [flSqUnscentedCorrect, ho, not_false_eq_true, if_true]
    refine ⟨_, fun i => ⟨(ar i).vadd (pr i).mean ((ar i).mulV (((ar i).lstsq 1 n (ob i).covᵀ
      ((ar i).lstsq 1 n (ob i).cov (X i)ᵀ))ᵀ) ((ar i).vsub o.val (ob i).mean)), g i⟩, rfl,
      hg.mono fun i hi => by simp only at hi ⊢; rw [hi]; rfl, ?_, hBU, ?_, hpd⟩
    · rw [← h2.mean]
      exact ow_fl_vadd (br := fun i => (ar i).toArith) hw hpr.mean
        (ow_fl_mulV (br := fun i => (ar i).toArith) hw hK
          (ow_fl_vsub (br := fun i => (ar i).toArith) hw (owV_const _) hob.mean))
    · rw [← h2.gram]
      exact owM_mul hw (owM_transpose hB) hB

/-- The correction step, near the one of the additive filter. -/
theorem near_flSqCorrect (hw : Filter.Tendsto w F (𝓝 0)) {u : UParams n 1} (hu : StepFine u)
    {g : ι → Vec n → Vec 1} {g' : Vec n → Vec 1} {κ : Vec n → ℝ} (hκ : Continuous κ)
    (hg : ∀ i, FnErr κ (w i) (g i) g') (lg : LocallyLipschitz g') {t : ℕ} (eg : u.g.at t = .ok g')
    {R2 : ι → Mat 1 1} {R2' : Mat 1 1} (hR2 : OwM F w R2 R2') (eR : R2' * R2'ᵀ = u.R)
    {pr : ι → Moments n} {pr' : Moments n} (hpr : SqNear F w pr pr')
    {U : Mat n n} (hU : Root pr' ⟨pr'.mean, U⟩) (hprU : OwM F w (fun i => (pr i).cov) U)
    {L : Mat n n} (hL : L * Lᵀ = pr'.cov) {pts : ι → SigmaPoints (n + n + 1) n}
    {pts' : SigmaPoints (n + n + 1) n} (hpts : SigNear F w pts pts')
    (he : PtsEq (sigmaPoints pr'.mean L none none none) pts')
    (hfine : FinePoints ((sigmaPoints pr'.mean L none none none).map g') → FinePoints (pts'.map g'))
    (o : Obs 1) :
    EvNear F (SqNear F w) (fun i => flSqCorrect (ar i) (g i) (pr i) (pts i) o (R2 i))
      (pure (ufCorrect g' pr' (sigmaPoints pr'.mean L none none none) o u.R)) := by
  obtain ⟨h1, h2, h3⟩ := hu.obs pr' L hpr.pos hL t g' eg
  have hq := hpts.map hw hκ hg lg
  obtain ⟨ob, e1, hob⟩ := near_flSqPoints2moments (ar := ar) hw hq (hfine h1) hR2 eR
    (by rw [← he.points2moments g']; exact h2)
  rw [← he.points2moments g'] at hob
  have hX := near_crossCov (ar := fun i => (ar i).toArithU) hw hpts hpr.mean hq hob.mean
  rw [← he.crossCov g'] at hX
  refine SqNear.glue (s := fun i => diagSigns (ob i).cov) fun d => ?_
  obtain ⟨V, hV, hobV⟩ := hob.root hw d
  have hle := part_le (F := F) (fun i => diagSigns (ob i).cov) d
  have := near_flSqUnscentedCorrect (ar := ar) (hw.mono_left hle) (hX.mono hle) (hpr.mono hle) hU
    (hprU.mono hle) (hob.mono hle) hV hobV o (h3 o)
  simp only [flSqCorrect, e1]
  exact this

theorem near_flCholUpper_near (hw : Filter.Tendsto w F (𝓝 0)) {B : ι → Mat n n} {A : Mat n n}
    (hB : OwM F w B A) (hA : A.PosDef) :
    EvNear F (fun g v => OwM F w g v ∧ (∀ᶠ i in F, UpperTri (g i)) ∧ UFactor v ∧ vᵀ * v = A)
      (fun i => flCholUpper (ar i) (B i)) (cholUpper A) := by
  have hs := symm_of_posSemidef hA.posSemidef
  obtain ⟨L', e, hL'⟩ := cholesky_of_posDef hA
  have hB' := owM_transpose hB
  rw [hs] at hB'
  obtain ⟨L, N, h1, h2, h3⟩ := ow_chol (br := fun i => (ar i).toArithL) hw hB' hA
  refine ⟨L'ᵀ, fun i => (L i)ᵀ, ?_, h1.mono fun i hi => ?_,
    owM_transpose (owM_isCholesky hw h3 h2 hL'), h2.mono fun i hi a b hab => hi.lower b a hab,
    ⟨fun i j hij => hL'.lower j i hij, fun i => (hL'.diag_pos i).ne'⟩, ?_⟩
  · rw [cholUpper, cholUpperT, hs, e]
    rfl
  · show (ar i).chol n (B i)ᵀ >>= _ = _
    rw [hi]
    rfl
  · rw [transpose_transpose]
    exact hL'.mul_transpose

theorem near_flCholUpper (hw : Filter.Tendsto w F (𝓝 0)) {A : Mat n n} (hA : A.PosDef) :
    EvNear F (fun g v => OwM F w g v ∧ UFactor v ∧ vᵀ * v = A) (fun i => flCholUpper (ar i) A)
      (cholUpper A) := by
  obtain ⟨v, g, h1, h2, h3, -, h4⟩ := near_flCholUpper_near (ar := ar) hw (owM_const A) hA
  exact ⟨v, g, h1, h2, h3, h4⟩

/-- The points of a computed factor whose signs are constant. -/
theorem near_flSqMoments2points (hw : Filter.Tendsto w F (𝓝 0)) {M : ι → Moments n} {M' : Moments n}
    (hm : OwV F w (fun i => (M i).mean) M'.mean) {U : Mat n n}
    (hU : OwM F w (fun i => (M i).cov) U) :
    SigNear F w (fun i => flSqMoments2points (ar i) (M i)) (sqMoments2points ⟨M'.mean, U⟩) :=
  near_sigmaPoints (ar := fun i => (ar i).toArithU) hw hm (owM_transpose hU)

theorem near_flSqStep (hw : Filter.Tendsto w F (𝓝 0)) {p : UParams n 1} (hu : StepFine p)
    (hS : p.S0.PosDef) {κf κg : Vec n → ℝ} {f : ι → Fns (Vec n → Vec n)}
    {g : ι → Fns (Vec n → Vec 1)} (hp : UFnsNear κf κg p w f g)
    {Q2 : ι → Mat n n} {Q2' : Mat n n} (hQ2 : OwM F w Q2 Q2') (eQ : Q2' * Q2'ᵀ = p.Q)
    {R2 : ι → Mat 1 1} {R2' : Mat 1 1} (hR2 : OwM F w R2 R2') (eR : R2' * R2'ᵀ = p.R)
    {p' : ι → UParams n 1} (ep : ∀ i, (p' i).f = f i ∧ (p' i).g = g i ∧ (p' i).mu0 = p.mu0
      ∧ (p' i).S0 = p.S0)
    (t : ℕ) (prev : ι → Option (Moments n)) (prev' : Option (Moments n)) (o : Obs 1) (s : Moments n)
    (hprev : OptNear (SqNear F w) prev prev') (hs : aukfStep p t prev' o = .ok s) :
    EvNear F (SqNear F w) (fun i => flSqStep (ar i) (p' i) (Q2 i) (R2 i) t (prev i) o)
      (aukfStep p t prev' o) := by
  cases prev' with
  | none =>
    have hprev : ∀ i, prev i = none := hprev
    obtain ⟨S2', S2, e1, hS2, hS2n, hS2f, hS2g⟩ := near_flCholUpper (ar := ar) hw hS
    have hroot : Root (⟨p.mu0, p.S0⟩ : Moments n) ⟨p.mu0, S2'⟩ := ⟨rfl, hS2f, hS2g⟩
    obtain ⟨L, h5, h6, h7⟩ := hroot.points
    have hfine := finePoints_sigma hroot.mean h7 (finePoints_self h5)
    rw [SigmaPoints.map_id] at hfine
    have e : points2moments (sqMoments2points (⟨p.mu0, S2'⟩ : Moments n)) none = ⟨p.mu0, p.S0⟩ := by
      have := h7.points2moments (fun x => x) none
      rw [SigmaPoints.map_id, SigmaPoints.map_id] at this
      rw [← this]
      have hs := isSigma_sigmaPoints p.mu0 L none none none default_spread
      rw [h5] at hs
      exact hs.points2moments
    have hpts := near_flSqMoments2points (ar := ar) hw (M := fun i => ⟨p.mu0, S2 i⟩)
      (M' := ⟨p.mu0, p.S0⟩) (owV_const _) hS2n
    obtain ⟨pr, hpe, hpr⟩ := near_flSqPoints2moments_none (ar := ar) hw hpts hfine (by omega)
      (by rw [e]; exact hS)
    rw [e] at hpr
    simp only [aukfStep, Option.getD_none, h6, bind, Except.bind] at hs ⊢
    obtain ⟨g', eg, -⟩ := ok_bind_iff.mp hs
    obtain ⟨gi, eg1, eg2⟩ := Fns.Within.at hp.g eg
    have hss := isSigma_sigmaPoints p.mu0 L none none none default_spread
    rw [h5] at hss
    simp only [eg, hss.points2moments]
    refine SqNear.glue (s := fun i => diagSigns (pr i).cov) fun d => ?_
    obtain ⟨U, hU, hUn⟩ := hpr.root hw d
    have hle := part_le (F := F) (fun i => diagSigns (pr i).cov) d
    obtain ⟨v, G, hv, hG, hR⟩ := near_flSqCorrect (ar := ar) (hw.mono_left hle) hu hp.cg eg2
      (hp.lg.at eg) eg (hR2.mono hle) eR (hpr.mono hle) hU hUn h5 (hpts.mono hle) h7
      (fun h => finePoints_sigma hroot.mean h7 h) o
    refine ⟨v, G, hv, ?_, hR⟩
    filter_upwards [hG, hS2.filter_mono hle] with i h1 h2
    simp only [hprev, flSqStep, (ep i).1, (ep i).2.1, (ep i).2.2.1, (ep i).2.2.2, h2, eg1, bind, Except.bind,
      hpe]
    exact h1
  | some M' =>
    obtain ⟨M, eM, hM⟩ := hprev
    refine SqNear.glue (s := fun i => diagSigns (M i).cov) fun d => ?_
    obtain ⟨U, hU, hUn⟩ := hM.root hw d
    have hle := part_le (F := F) (fun i => diagSigns (M i).cov) d
    obtain ⟨L, h5, h6, h7⟩ := hU.points
    have hw' := hw.mono_left hle
    have hpts := near_flSqMoments2points (ar := ar) hw' (M' := M') (hM.mean.mono hle) hUn
    simp only [aukfStep, Option.getD_some, h6, bind, Except.bind] at hs ⊢
    obtain ⟨f', ef, hs⟩ := ok_bind_iff.mp hs
    obtain ⟨pts', e3, hs⟩ := ok_bind_iff.mp hs
    obtain ⟨g', eg, -⟩ := ok_bind_iff.mp hs
    obtain ⟨fi, ef1, ef2⟩ := Fns.Within.at hp.f ef
    obtain ⟨gi, eg1, eg2⟩ := Fns.Within.at hp.g eg
    obtain ⟨p1, p2⟩ := hu.pred M' L hM.pos h5 _ f' ef
    obtain ⟨pr, hpe, hpr⟩ := near_flSqPoints2moments (ar := ar) hw'
      (hpts.map hw' hp.cf ef2 (hp.lf.at ef)) (finePoints_sigma hU.mean h7 p1) (hQ2.mono hle) eQ
      (by rw [← h7.points2moments f']; exact p2)
    rw [← h7.points2moments f'] at hpr
    simp only [ef, eg]
    refine SqNear.glue (s := fun i => diagSigns (pr i).cov) fun d' => ?_
    obtain ⟨U', hU', hUn'⟩ := hpr.root hw' d'
    have hle' := part_le (F := part F (fun i => diagSigns (M i).cov) d)
      (fun i => diagSigns (pr i).cov) d'
    have hw'' := hw'.mono_left hle'
    obtain ⟨L', h5', h6', h7'⟩ := hU'.points
    simp only [h6']
    have hpts' := near_flSqMoments2points (ar := ar) hw''
      (M' := points2moments ((sigmaPoints M'.mean L none none none).map f') (some p.Q))
      (hpr.mean.mono hle') hUn'
    obtain ⟨v, G, hv, hG, hR⟩ := near_flSqCorrect (ar := ar) hw'' hu hp.cg eg2
      (hp.lg.at eg) eg (hR2.mono (hle'.trans hle)) eR (hpr.mono hle') hU' hUn' h5' hpts' h7'
      (fun h => finePoints_sigma hU'.mean h7' h) o
    refine ⟨v, G, hv, ?_, hR⟩
    filter_upwards [hG] with i h1
    simp only [eM, flSqStep, (ep i).1, (ep i).2.1, ef1, eg1, bind, Except.bind, hpe]
    exact h1

theorem SqNear.unroot (hw : Filter.Tendsto w F (𝓝 0)) {g : ι → Moments n} {v : Moments n}
    (h : SqNear F w g v) : MomNear F w (fun i => flUnroot (ar i) (g i)) v := by
  have hb := bddM_of_gram (h.gram.bdd hw)
  exact ⟨h.mean, h.gram.of_near (near_fl_mul (br := fun i => (ar i).toArith) hb.transpose hb),
    symm_of_posSemidef h.pos.posSemidef⟩

theorem LNear.unroot (hw : Filter.Tendsto w F (𝓝 0)) {g : ι → List (Moments n)}
    {v : List (Moments n)} (h : LNear (SqNear F w) g v) :
    LNear (MomNear F w) (fun i => (g i).map (flUnroot (ar i))) v := by
  induction h with
  | nil => exact .nil
  | cons h _ ih => exact .cons (h.unroot hw) ih

/-- The rounded square root filter, near the additive filter with `Q2 Q2ᵀ` in place of `Q`. -/
theorem near_flSqFilter (hw : Filter.Tendsto w F (𝓝 0)) {u : UParams n 1} (hQ : u.Q.PosDef)
    (hR : u.R.PosDef) (hS : u.S0.PosDef) {Q2 : Mat n n} (e2 : cholUpper u.Q = .ok Q2)
    (hu : StepFine { u with Q := Q2 * Q2ᵀ }) {κf κg : Vec n → ℝ}
    {f : ι → Fns (Vec n → Vec n)} {g : ι → Fns (Vec n → Vec 1)} (hp : UFnsNear κf κg u w f g)
    {os : List (Obs 1)} {l : List (Moments n)}
    (hl : aukfFilter { u with Q := Q2 * Q2ᵀ } os = .ok l) :
    EvNear F (LNear (MomNear F w))
      (fun i => flSqFilter (ar i) { u with f := f i, g := g i } os)
      (aukfFilter { u with Q := Q2 * Q2ᵀ } os) := by
  obtain ⟨Q2', q2, eq, hq, hqn, -, -⟩ := near_flCholUpper (ar := ar) hw hQ
  obtain ⟨R2', r2, er, hr, hrn, -, hrg⟩ := near_flCholUpper (ar := ar) hw hR
  obtain rfl : Q2 = Q2' := by rw [e2] at eq; cases eq; rfl
  rw [← normal_one] at hrg
  have key := near_runLoop (F := F) (R := SqNear F w) (P := fun _ _ _ => True)
    (step := fun i => flSqStep (ar i) { u with f := f i, g := g i } (q2 i) (r2 i))
    (step' := aukfStep { u with Q := Q2 * Q2ᵀ })
    (fun t prev prev' o s h1 _ h2 => near_flSqStep (ar := ar) hw hu hS
      (κf := κf) (κg := κg) (f := f) (g := g) (p' := fun i => { u with f := f i, g := g i })
      ⟨hp.cf, hp.cg, hp.f, hp.g, hp.lf, hp.lg⟩ hqn rfl hrn hrg (fun i => ⟨rfl, rfl, rfl, rfl⟩)
      t prev prev' o s h1 h2) os 0 (prev := fun _ => none) (prev' := none) (fun _ => rfl) hl
      fun _ _ _ => trivial
  obtain ⟨v, G, hv, hG, hn⟩ := key
  refine ⟨v, fun i => (G i).map (flUnroot (ar i)), hv, ?_, hn.unroot hw⟩
  filter_upwards [hG, hq, hr] with i h1 h2 h3
  simp only [flSqFilter, flSqFull, h2, h3, h1, bind, Except.bind, pure, Except.pure]

/-- `filter_update` of the rounded square root filter, near that of the additive filter with
`Q2 Q2ᵀ` in place of `Q`. -/
theorem near_flSqUpdate (hw : Filter.Tendsto w F (𝓝 0)) {p : UParams n 1} {κf κg : Vec n → ℝ}
    {f : ι → Fns (Vec n → Vec n)} {g : ι → Fns (Vec n → Vec 1)} (hp : UFnsNear κf κg p w f g)
    {a : ι → UUpdateArgs n 1} {a' : UUpdateArgs n 1} (ha : ∀ i, (a i).Within κf κg (w i) a')
    (hQ : (a'.Q.getD p.Q).PosDef) (hR : (a'.R.getD p.R).PosDef) {Q2 : Mat n n}
    (e2 : cholUpper (a'.Q.getD p.Q) = .ok Q2)
    (hu : ∀ f g, defaultFunction a'.f p.f = .ok f → defaultFunction a'.g p.g = .ok g →
      StepFine { p.one a' f g with Q := Q2 * Q2ᵀ })
    (lf : ∀ f ∈ a'.f, LocallyLipschitz f) (lg : ∀ g ∈ a'.g, LocallyLipschitz g)
    {o : Option (Obs 1)} {M : ι → Moments n} {M' : Moments n} (hM : MomNear F w M M')
    (hpos : M'.cov.PosDef) {r : Moments n}
    (hr : aukfUpdate p M' o { a' with Q := some (Q2 * Q2ᵀ) } = .ok r) :
    EvNear F (MomNear F w)
      (fun i => flSqUpdate (ar i) { p with f := f i, g := g i } (M i) o (a i))
      (aukfUpdate p M' o { a' with Q := some (Q2 * Q2ᵀ) }) := by
  have hr0 := hr
  rw [aukfUpdate_one] at hr
  obtain ⟨f', hf', hr⟩ := ok_bind_iff.mp hr
  obtain ⟨g', hg', hr⟩ := ok_bind_iff.mp hr
  have kf := fun i => defaultFunction_near (ha i).f (hp.f i) hf'
  have kg := fun i => defaultFunction_near (ha i).g (hp.g i) hg'
  choose φ hφ dφ using kf
  choose γ hγ dγ using kg
  have qf := defaultFunction_all lf hp.lf hf'
  have qg := defaultFunction_all lg hp.lg hg'
  obtain ⟨Q2', q2, eq, hq, hqn, -, -⟩ := near_flCholUpper (ar := ar) hw hQ
  obtain ⟨R2', r2, er, hr2, hrn, -, hrg⟩ := near_flCholUpper (ar := ar) hw hR
  obtain ⟨P2', p2, epp, hpp, hpn, hpu, hpf, hpg⟩ :=
    near_flCholUpper_near (ar := ar) hw hM.cov hpos
  obtain rfl : Q2 = Q2' := by rw [e2] at eq; cases eq; rfl
  rw [← normal_one] at hrg
  have hsq : SqNear F w (fun i => (⟨(M i).mean, p2 i⟩ : Moments n)) M' := by
    refine ⟨hM.mean, hpu, ?_, hpos⟩
    have := owM_mul hw (owM_transpose hpn) hpn
    rwa [hpg] at this
  have hfine : StepFine { p.one { a' with Q := some (Q2 * Q2ᵀ) } f' g' with S0 := 1 } :=
    ⟨(hu f' g' hf' hg').pred, (hu f' g' hf' hg').obs⟩
  have hstep := near_flSqStep (ar := ar) hw
    (p := { p.one { a' with Q := some (Q2 * Q2ᵀ) } f' g' with S0 := 1 }) hfine PosDef.one
    (f := fun i => .flat [φ i]) (g := fun i => .flat [γ i]) (κf := κf) (κg := κg)
    ⟨hp.cf, hp.cg, fun i => .cons (dφ i) .nil, fun i => .cons (dγ i) .nil,
      by simpa [Fns.All, UParams.one] using qf, by simpa [Fns.All, UParams.one] using qg⟩
    hqn rfl hrn hrg (p' := fun i => ⟨.flat [φ i], .flat [γ i], p.Q, p.R, p.mu0, 1⟩)
    (fun i => ⟨rfl, rfl, rfl, rfl⟩) 1 (fun i => some ⟨(M i).mean, p2 i⟩) (some M') (updateObs o) r
    ⟨_, fun _ => rfl, hsq⟩ hr
  obtain ⟨v, G, hv, hG, hn⟩ := hstep
  obtain rfl : r = v := by rw [hr] at hv; cases hv; rfl
  refine ⟨r, fun i => flUnroot (ar i) (G i), hr0, ?_, hn.unroot hw⟩
  filter_upwards [hG, hq, hr2, hpp] with i h1 h2 h3 h4
  simp only [flSqStep, Fns.at, first, bind, Except.bind, Nat.sub_self] at h1
  simp only [flSqUpdate, hφ i, hγ i, (ha i).Q, (ha i).R, h2, h3, h4, bind, Except.bind, pure,
    Except.pure]
  generalize flSqPoints2moments (ar i) ((flSqMoments2points (ar i) ⟨(M i).mean, p2 i⟩).map (φ i))
    (some (q2 i)) = x at h1 ⊢
  cases x with
  | error e => cases h1
  | ok pred =>
    simp only at h1 ⊢
    cases o <;>
    · simp only [updateObs] at h1
      rw [h1]

end Verif
