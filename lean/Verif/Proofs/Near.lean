import Verif.Proofs.RoundedCholesky

/-!
# Bounded families that differ by little

`NearM F w f g`: the entries of `g` are bounded along `F`, and those of `f - g` are at most a
constant times `w`.  The families need not converge.
-/

open Matrix Topology

namespace Verif

variable {n m k l : ℕ} {c : ℕ → ℝ} {ι : Type*} {F : Filter ι} {w : ι → ℝ}

/-- `f` differs from the bounded family `g` by at most a constant times `w`. -/
structure NearM (F : Filter ι) (w : ι → ℝ) (f g : ι → Mat k l) : Prop where
  diff : OwM F w (fun i => f i - g i) 0
  bdd : BddM F g

/-- The same for vectors. -/
structure NearV (F : Filter ι) (w : ι → ℝ) (f g : ι → Vec k) : Prop where
  diff : OwV F w (fun i => f i - g i) 0
  bdd : BddV F g

theorem NearM.refl {f : ι → Mat k l} (h : BddM F f) : NearM F w f f :=
  ⟨by simpa only [sub_self] using owM_const (F := F) (w := w) (0 : Mat k l), h⟩

theorem NearV.refl {f : ι → Vec k} (h : BddV F f) : NearV F w f f :=
  ⟨by simpa only [sub_self] using owV_const (F := F) (w := w) (0 : Vec k), h⟩

theorem NearM.bdd_left (hw : Filter.Tendsto w F (𝓝 0)) {f g : ι → Mat k l} (h : NearM F w f g) :
    BddM F f := h.bdd.of_near hw h.diff

theorem NearV.bdd_left (hw : Filter.Tendsto w F (𝓝 0)) {f g : ι → Vec k} (h : NearV F w f g) :
    BddV F f := h.bdd.of_near hw h.diff

theorem NearM.trans {f g h : ι → Mat k l} (h1 : OwM F w (fun i => f i - g i) 0)
    (h2 : NearM F w g h) : NearM F w f h := by
  refine ⟨?_, h2.bdd⟩
  have := h1.add h2.diff
  rw [add_zero] at this
  exact this.congr_ev (Filter.Eventually.of_forall fun i => by abel)

theorem NearV.trans {f g h : ι → Vec k} (h1 : OwV F w (fun i => f i - g i) 0)
    (h2 : NearV F w g h) : NearV F w f h := by
  refine ⟨?_, h2.bdd⟩
  have := h1.add h2.diff
  rw [add_zero] at this
  exact this.congr_ev (Filter.Eventually.of_forall fun i => by abel)

theorem NearM.transpose {f g : ι → Mat k l} (h : NearM F w f g) :
    NearM F w (fun i => (f i)ᵀ) (fun i => (g i)ᵀ) :=
  ⟨fun p q => h.diff q p, h.bdd.transpose⟩

theorem NearM.add {f g f' g' : ι → Mat k l} (h : NearM F w f g) (h' : NearM F w f' g') :
    NearM F w (fun i => f i + f' i) (fun i => g i + g' i) := by
  refine ⟨?_, h.bdd.add h'.bdd⟩
  have := h.diff.add h'.diff
  rw [add_zero] at this
  exact this.congr_ev (Filter.Eventually.of_forall fun i => by abel)

theorem OwM.neg_zero {f : ι → Mat k l} (h : OwM F w f 0) : OwM F w (fun i => -f i) 0 := by
  have := (owM_const (F := F) (w := w) (0 : Mat k l)).sub h
  simpa using this

theorem BddM.neg {f : ι → Mat k l} (h : BddM F f) : BddM F (fun i => -f i) := fun p q =>
  (h p q).of_le (Filter.Eventually.of_forall fun i => by
    show |-(f i p q)| ≤ _
    rw [abs_neg])

theorem BddM.sub {f g : ι → Mat k l} (h : BddM F f) (h' : BddM F g) :
    BddM F (fun i => f i - g i) := by
  have := h.add h'.neg
  simpa only [← sub_eq_add_neg] using this

theorem BddV.neg {f : ι → Vec k} (h : BddV F f) : BddV F (fun i => -f i) := fun p =>
  (h p).of_le (Filter.Eventually.of_forall fun i => by
    show |-(f i p)| ≤ _
    rw [abs_neg])

theorem BddV.sub {f g : ι → Vec k} (h : BddV F f) (h' : BddV F g) :
    BddV F (fun i => f i - g i) := by
  have := h.add h'.neg
  simpa only [← sub_eq_add_neg] using this

theorem OwV.sub {f g : ι → Vec k} {a b : Vec k} (hf : OwV F w f a) (hg : OwV F w g b) :
    OwV F w (fun i => f i - g i) (a - b) := fun p => (hf p).sub (hg p)

theorem NearM.sub {f g f' g' : ι → Mat k l} (h : NearM F w f g) (h' : NearM F w f' g') :
    NearM F w (fun i => f i - f' i) (fun i => g i - g' i) := by
  refine ⟨?_, h.bdd.sub h'.bdd⟩
  have := h.diff.sub h'.diff
  rw [sub_zero] at this
  exact this.congr_ev (Filter.Eventually.of_forall fun i => by abel)

theorem NearV.add {f g f' g' : ι → Vec k} (h : NearV F w f g) (h' : NearV F w f' g') :
    NearV F w (fun i => f i + f' i) (fun i => g i + g' i) := by
  refine ⟨?_, h.bdd.add h'.bdd⟩
  have := h.diff.add h'.diff
  rw [add_zero] at this
  exact this.congr_ev (Filter.Eventually.of_forall fun i => by abel)

theorem NearV.sub {f g f' g' : ι → Vec k} (h : NearV F w f g) (h' : NearV F w f' g') :
    NearV F w (fun i => f i - f' i) (fun i => g i - g' i) := by
  refine ⟨?_, h.bdd.sub h'.bdd⟩
  have := h.diff.sub h'.diff
  rw [sub_zero] at this
  exact this.congr_ev (Filter.Eventually.of_forall fun i => by abel)

theorem NearM.mul (hw : Filter.Tendsto w F (𝓝 0)) {r : ℕ} {f g : ι → Mat k l}
    {f' g' : ι → Mat l r} (h : NearM F w f g) (h' : NearM F w f' g') :
    NearM F w (fun i => f i * f' i) (fun i => g i * g' i) := by
  refine ⟨?_, h.bdd.mul h'.bdd⟩
  have := (owM_zero_mul h.diff (h'.bdd_left hw)).add (owM_mul_zero h.bdd h'.diff)
  rw [add_zero] at this
  refine this.congr_ev (Filter.Eventually.of_forall fun i => ?_)
  rw [Matrix.sub_mul, Matrix.mul_sub]
  abel

theorem NearM.mulVec (hw : Filter.Tendsto w F (𝓝 0)) {f g : ι → Mat k l} {f' g' : ι → Vec l}
    (h : NearM F w f g) (h' : NearV F w f' g') :
    NearV F w (fun i => f i *ᵥ f' i) (fun i => g i *ᵥ g' i) := by
  refine ⟨?_, h.bdd.mulVec h'.bdd⟩
  have := (owV_zero_mulVec h.diff (h'.bdd_left hw)).add (owV_mulVec_zero h.bdd h'.diff)
  rw [add_zero] at this
  refine this.congr_ev (Filter.Eventually.of_forall fun i => ?_)
  rw [sub_mulVec, mulVec_sub]
  abel

theorem NearM.pinv (hw : Filter.Tendsto w F (𝓝 0)) {f g : ι → Mat k k} (h : NearM F w f g)
    (hdet : ∀ᶠ i in F, IsUnit (g i).det) (hP : BddM F fun i => pinv (g i)) :
    NearM F w (fun i => Verif.pinv (f i)) (fun i => Verif.pinv (g i)) ∧
      ∀ᶠ i in F, IsUnit (f i).det :=
  ⟨⟨(owM_pinv_near hw hdet hP h.diff).2, hP⟩, (owM_pinv_near hw hdet hP h.diff).1⟩

/-! ### Operations with rounding errors -/

variable {br : ∀ i, Arith c (w i)}

theorem near_fl_madd {f g : ι → Mat k l} (hf : BddM F f) (hg : BddM F g) :
    OwM F w (fun i => (br i).madd (f i) (g i) - (f i + g i)) 0 := fun p q =>
  ow_of_err' (K := 1) (g := fun _ => 0) (ow_const 0) ((hf p q).add (hg p q)).abs
    (Filter.Eventually.of_forall fun i => by rw [sub_zero, one_mul]; exact (br i).add_err _ _)

theorem near_fl_msub {f g : ι → Mat k l} (hf : BddM F f) (hg : BddM F g) :
    OwM F w (fun i => (br i).msub (f i) (g i) - (f i - g i)) 0 := fun p q =>
  ow_of_err' (K := 1) (g := fun _ => 0) (ow_const 0) (hf.sub hg p q).abs
    (Filter.Eventually.of_forall fun i => by rw [sub_zero, one_mul]; exact (br i).sub_err _ _)

theorem near_fl_vadd {f g : ι → Vec k} (hf : BddV F f) (hg : BddV F g) :
    OwV F w (fun i => (br i).vadd (f i) (g i) - (f i + g i)) 0 := fun p =>
  ow_of_err' (K := 1) (g := fun _ => 0) (ow_const 0) ((hf p).add (hg p)).abs
    (Filter.Eventually.of_forall fun i => by rw [sub_zero, one_mul]; exact (br i).add_err _ _)

theorem near_fl_vsub {f g : ι → Vec k} (hf : BddV F f) (hg : BddV F g) :
    OwV F w (fun i => (br i).vsub (f i) (g i) - (f i - g i)) 0 := fun p =>
  ow_of_err' (K := 1) (g := fun _ => 0) (ow_const 0) (hf.sub hg p).abs
    (Filter.Eventually.of_forall fun i => by rw [sub_zero, one_mul]; exact (br i).sub_err _ _)

theorem NearM.fl_mul (hw : Filter.Tendsto w F (𝓝 0)) {r : ℕ} {f g : ι → Mat k l}
    {f' g' : ι → Mat l r} (h : NearM F w f g) (h' : NearM F w f' g') :
    NearM F w (fun i => (br i).mul (f i) (f' i)) (fun i => g i * g' i) :=
  NearM.trans (near_fl_mul (h.bdd_left hw) (h'.bdd_left hw)) (h.mul hw h')

theorem NearM.fl_mulV (hw : Filter.Tendsto w F (𝓝 0)) {f g : ι → Mat k l} {f' g' : ι → Vec l}
    (h : NearM F w f g) (h' : NearV F w f' g') :
    NearV F w (fun i => (br i).mulV (f i) (f' i)) (fun i => g i *ᵥ g' i) :=
  NearV.trans (near_fl_mulV (h.bdd_left hw) (h'.bdd_left hw)) (h.mulVec hw h')

theorem NearM.fl_add (hw : Filter.Tendsto w F (𝓝 0)) {f g f' g' : ι → Mat k l}
    (h : NearM F w f g) (h' : NearM F w f' g') :
    NearM F w (fun i => (br i).madd (f i) (f' i)) (fun i => g i + g' i) :=
  NearM.trans (near_fl_madd (h.bdd_left hw) (h'.bdd_left hw)) (h.add h')

theorem NearM.fl_sub (hw : Filter.Tendsto w F (𝓝 0)) {f g f' g' : ι → Mat k l}
    (h : NearM F w f g) (h' : NearM F w f' g') :
    NearM F w (fun i => (br i).msub (f i) (f' i)) (fun i => g i - g' i) :=
  NearM.trans (near_fl_msub (h.bdd_left hw) (h'.bdd_left hw)) (h.sub h')

theorem NearV.fl_add (hw : Filter.Tendsto w F (𝓝 0)) {f g f' g' : ι → Vec k}
    (h : NearV F w f g) (h' : NearV F w f' g') :
    NearV F w (fun i => (br i).vadd (f i) (f' i)) (fun i => g i + g' i) :=
  NearV.trans (near_fl_vadd (h.bdd_left hw) (h'.bdd_left hw)) (h.add h')

theorem NearV.fl_sub (hw : Filter.Tendsto w F (𝓝 0)) {f g f' g' : ι → Vec k}
    (h : NearV F w f g) (h' : NearV F w f' g') :
    NearV F w (fun i => (br i).vsub (f i) (f' i)) (fun i => g i - g' i) :=
  NearV.trans (near_fl_vsub (h.bdd_left hw) (h'.bdd_left hw)) (h.sub h')

theorem NearM.fl_pinv (hw : Filter.Tendsto w F (𝓝 0)) {f g : ι → Mat k k} (h : NearM F w f g)
    (hdet : ∀ᶠ i in F, IsUnit (g i).det) (hP : BddM F fun i => Verif.pinv (g i)) :
    NearM F w (fun i => (br i).pinv k (f i)) (fun i => Verif.pinv (g i)) := by
  obtain ⟨h1, h2⟩ := h.pinv hw hdet hP
  exact NearM.trans (near_fl_pinv hw (h.bdd_left hw) h2 (h1.bdd_left hw)) h1

/-- The correction, computed and exact, for the same moments. -/
theorem near_flCorrect_exact (hw : Filter.Tendsto w F (𝓝 0)) {C : ι → Mat m n} {R : ι → Mat m m}
    {d : ι → Vec m} {x : ι → Vec n} {P : ι → Mat n n} {z : ι → Vec m}
    (hC : BddM F C) (hR : BddM F R) (hd : BddV F d) (hx : BddV F x) (hP : BddM F P)
    (hz : BddV F z) (hdet : ∀ᶠ i in F, IsUnit (C i * (P i * (C i)ᵀ) + R i).det)
    (hV : BddM F fun i => pinv (C i * (P i * (C i)ᵀ) + R i)) :
    NearV F w (fun i => (br i).vadd (x i) ((br i).mulV ((br i).mul (P i) ((br i).mul (C i)ᵀ
        ((br i).pinv m ((br i).madd ((br i).mul (C i) ((br i).mul (P i) (C i)ᵀ)) (R i)))))
        ((br i).vsub (z i) ((br i).vadd ((br i).mulV (C i) (x i)) (d i)))))
      (fun i => x i + (P i * ((C i)ᵀ * pinv (C i * (P i * (C i)ᵀ) + R i)))
        *ᵥ (z i - (C i *ᵥ x i + d i))) ∧
    NearM F w (fun i => (br i).msub (P i) ((br i).mul ((br i).mul (P i) ((br i).mul (C i)ᵀ
        ((br i).pinv m ((br i).madd ((br i).mul (C i) ((br i).mul (P i) (C i)ᵀ)) (R i)))))
        ((br i).mul (C i) (P i))))
      (fun i => P i - P i * ((C i)ᵀ * pinv (C i * (P i * (C i)ᵀ) + R i)) * (C i * P i)) := by
  have nC : NearM F w C C := .refl hC
  have nCt : NearM F w (fun i => (C i)ᵀ) (fun i => (C i)ᵀ) := .refl hC.transpose
  have nP : NearM F w P P := .refl hP
  have nG := nP.fl_mul (br := br) hw (nCt.fl_mul (br := br) hw
    (((nC.fl_mul (br := br) hw (nP.fl_mul (br := br) hw nCt)).fl_add (br := br) hw
      (.refl hR)).fl_pinv (br := br) hw hdet hV))
  exact ⟨(NearV.refl hx).fl_add hw (nG.fl_mulV hw ((NearV.refl hz).fl_sub hw
    ((nC.fl_mulV hw (.refl hx)).fl_add hw (.refl hd)))),
    nP.fl_sub hw (nG.fl_mul hw (nC.fl_mul hw nP))⟩

end Verif
