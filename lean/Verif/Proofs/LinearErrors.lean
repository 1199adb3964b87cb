import Verif.Spec.Process
import Verif.Proofs.Posterior
import Verif.Proofs.Smoothing

/-!
# Errors of filter and smoother are linear combinations of the disturbances
-/

open Matrix

namespace Verif

variable {n m k : ℕ}

/-- Coefficients of a linear combination of disturbances. -/
structure Coef (k n m : ℕ) where
  init : Mat k n
  trans : ℕ → Mat k n
  obs : ℕ → Mat k m

/-- The linear combination. -/
def Coef.ev (L : Coef k n m) (T : ℕ) (u : (i : Noise) → Vec (i.dim n m)) : Vec k :=
  L.init *ᵥ u .init + ∑ s ∈ Finset.range (T - 1), L.trans s *ᵥ u (.trans s)
    + ∑ s ∈ Finset.range T, L.obs s *ᵥ u (.obs s)

/-- What the combination makes of covariances. -/
def Coef.cov (L : Coef k n m) (T : ℕ) (S0 : Mat n n) (Q : ℕ → Mat n n) (R : ℕ → Mat m m) :
    Mat k k :=
  L.init * S0 * L.initᵀ + ∑ s ∈ Finset.range (T - 1), L.trans s * Q s * (L.trans s)ᵀ
    + ∑ s ∈ Finset.range T, L.obs s * R s * (L.obs s)ᵀ

/-- One outcome of the system: initial mean, states, observations, disturbances. -/
structure Outcome (n m : ℕ) where
  mu0 : Vec n
  x : ℕ → Vec n
  z : ℕ → Vec m
  u : (i : Noise) → Vec (i.dim n m)

/-- The outcome obeys the equations. -/
structure Outcome.Of (τ : Outcome n m) (P : PFun n m) (T : ℕ) : Prop where
  init : τ.x 0 = τ.mu0 + τ.u .init
  trans : ∀ t, t + 1 < T → τ.x (t + 1) = P.A t *ᵥ τ.x t + P.b t + τ.u (.trans t)
  obs : ∀ t, t < T → τ.z t = P.C t *ᵥ τ.x t + P.d t + τ.u (.obs t)

/-- A quantity is a constant (depending on the initial mean) plus a linear combination of the
disturbances. -/
def Aff (P : PFun n m) (T : ℕ) (F : Outcome n m → Vec k) (c : Vec n → Vec k) : Prop :=
  ∃ L : Coef k n m, ∀ τ : Outcome n m, τ.Of P T → F τ = c τ.mu0 + L.ev T τ.u

variable {P : PFun n m} {T : ℕ} {F G : Outcome n m → Vec k} {c c' : Vec n → Vec k}

theorem Aff.add (hF : Aff P T F c) (hG : Aff P T G c') :
    Aff P T (fun τ => F τ + G τ) (fun a => c a + c' a) := by
  obtain ⟨L, hL⟩ := hF
  obtain ⟨L', hL'⟩ := hG
  refine ⟨⟨L.init + L'.init, fun s => L.trans s + L'.trans s, fun s => L.obs s + L'.obs s⟩,
    fun τ hτ => ?_⟩
  simp only [hL τ hτ, hL' τ hτ, Coef.ev, add_mulVec, Finset.sum_add_distrib]
  abel

theorem Aff.mulVec {j : ℕ} (hF : Aff P T F c) (M : Mat j k) :
    Aff P T (fun τ => M *ᵥ F τ) (fun a => M *ᵥ c a) := by
  obtain ⟨L, hL⟩ := hF
  refine ⟨⟨M * L.init, fun s => M * L.trans s, fun s => M * L.obs s⟩, fun τ hτ => ?_⟩
  simp only [hL τ hτ, Coef.ev, mulVec_add, mulVec_mulVec, Matrix.mulVec_sum]

theorem Aff.const (v : Vec n → Vec k) : Aff P T (fun τ => v τ.mu0) v := by
  refine ⟨⟨0, fun _ => 0, fun _ => 0⟩, fun τ _ => ?_⟩
  simp [Coef.ev]

theorem Aff.congr (hF : Aff P T F c) (h : ∀ τ : Outcome n m, τ.Of P T → G τ = F τ)
    (hc : ∀ a, c' a = c a) : Aff P T G c' := by
  obtain ⟨L, hL⟩ := hF
  exact ⟨L, fun τ hτ => by rw [h τ hτ, hL τ hτ, hc]⟩

theorem Aff.neg (hF : Aff P T F c) : Aff P T (fun τ => - F τ) (fun a => - c a) := by
  refine (hF.mulVec (-1 : Mat k k)).congr (fun τ _ => ?_) fun a => ?_ <;> simp [neg_mulVec]

theorem Aff.sub (hF : Aff P T F c) (hG : Aff P T G c') :
    Aff P T (fun τ => F τ - G τ) (fun a => c a - c' a) :=
  (hF.add hG.neg).congr (fun _ _ => sub_eq_add_neg _ _) fun _ => sub_eq_add_neg _ _

theorem Aff.sum {ι : Type*} (s : Finset ι) {F : ι → Outcome n m → Vec k} {c : ι → Vec n → Vec k}
    (h : ∀ i ∈ s, Aff P T (F i) (c i)) :
    Aff P T (fun τ => ∑ i ∈ s, F i τ) (fun a => ∑ i ∈ s, c i a) := by
  classical
  induction s using Finset.induction_on with
  | empty => exact (Aff.const fun _ => 0).congr (fun _ _ => by simp) fun _ => by simp
  | insert i s hi ih =>
    refine ((h i (by simp)).add (ih fun j hj => h j (by simp [hj]))).congr (fun _ _ => ?_)
      fun _ => ?_ <;> rw [Finset.sum_insert hi]

theorem Aff.uInit : Aff P T (fun τ => τ.u .init) 0 := by
  refine ⟨⟨1, fun _ => 0, fun _ => 0⟩, fun τ _ => ?_⟩
  simp [Coef.ev]

theorem Aff.uTrans {t : ℕ} (ht : t + 1 < T) : Aff P T (fun τ => τ.u (.trans t)) 0 := by
  refine ⟨⟨0, fun s => if s = t then 1 else 0, fun _ => 0⟩, fun τ _ => ?_⟩
  simp only [Coef.ev, zero_mulVec, Finset.sum_const_zero, add_zero, zero_add, Pi.zero_apply]
  rw [Finset.sum_eq_single t]
  · simp
  · intro s _ hs; simp [hs]
  · intro h; exact absurd (Finset.mem_range.mpr (by omega)) h

theorem Aff.uObs {t : ℕ} (ht : t < T) : Aff P T (fun τ => τ.u (.obs t)) 0 := by
  refine ⟨⟨0, fun _ => 0, fun s => if s = t then 1 else 0⟩, fun τ _ => ?_⟩
  simp only [Coef.ev, zero_mulVec, Finset.sum_const_zero, zero_add, Pi.zero_apply]
  rw [Finset.sum_eq_single t]
  · simp
  · intro s _ hs; simp [hs]
  · intro h; exact absurd (Finset.mem_range.mpr ht) h

/-- States and observations. -/
theorem Aff.state {t : ℕ} (ht : t < T) : ∃ c, Aff P T (fun τ => τ.x t) c := by
  induction t with
  | zero => exact ⟨_, ((Aff.const (P := P) (T := T) fun a => a).add Aff.uInit).congr
      (fun τ hτ => hτ.init) fun _ => rfl⟩
  | succ t ih =>
    obtain ⟨c, hc⟩ := ih (by omega)
    exact ⟨_, (((hc.mulVec (P.A t)).add (Aff.const fun _ => P.b t)).add (Aff.uTrans ht)).congr
      (fun τ hτ => hτ.trans t ht) fun _ => rfl⟩

theorem Aff.data {t : ℕ} (ht : t < T) : ∃ c, Aff P T (fun τ => τ.z t) c := by
  obtain ⟨c, hc⟩ := Aff.state (P := P) ht
  exact ⟨_, (((hc.mulVec (P.C t)).add (Aff.const fun _ => P.d t)).add (Aff.uObs ht)).congr
    (fun τ hτ => hτ.obs t ht) fun _ => rfl⟩

/-! ### The filter -/

/-- The same parameters with another initial mean. -/
def PFun.withMu (P : PFun n m) (a : Vec n) : PFun n m := { P with mu0 := a }

/-- The data of an outcome under a mask. -/
def Outcome.rows (τ : Outcome n m) (mask : MaskPat m) (i : ℕ) : Obs m := ⟨τ.z i, mask i⟩

theorem PFun.withMu_cov (P : PFun n m) (a : Vec n) (z : ℕ → Obs m) (t : ℕ) :
    ((P.withMu a).kf z t).predCov = (P.kf z t).predCov ∧
    ((P.withMu a).kf z t).filtCov = (P.kf z t).filtCov := by
  have step : ∀ t, ((P.withMu a).kf z t).predCov = (P.kf z t).predCov →
      ((P.withMu a).kf z t).filtCov = (P.kf z t).filtCov := by
    intro t ht
    by_cases hm : (z t).missing
    · rw [((P.withMu a).kf_missing z hm).2.2, (P.kf_missing z hm).2.2, ht]
    · rw [((P.withMu a).kf_observed z hm).2.2, (P.kf_observed z hm).2.2, ht]
      rfl
  induction t with
  | zero => exact ⟨rfl, step 0 rfl⟩
  | succ t ih =>
    have : ((P.withMu a).kf z (t + 1)).predCov = (P.kf z (t + 1)).predCov := by
      rw [((P.withMu a).kf_pred_succ z t).2, (P.kf_pred_succ z t).2, ih.2]
      rfl
    exact ⟨this, step _ this⟩

theorem PFun.rows_cov (P : PFun n m) (mask : MaskPat m) (τ : Outcome n m) (t : ℕ) :
    ((P.withMu τ.mu0).kf (τ.rows mask) t).predCov = P.predC mask t ∧
    ((P.withMu τ.mu0).kf (τ.rows mask) t).filtCov = P.filtC mask t := by
  have h := P.kf_cov_congr (z := τ.rows mask) (z' := zNil mask) (t := t) fun _ _ => Iff.rfl
  rw [(P.withMu_cov _ _ t).1, (P.withMu_cov _ _ t).2]
  exact ⟨h.1, h.2.2⟩

theorem Aff.filt_of_pred {mask : MaskPat m} {t : ℕ} (ht : t < T)
    (h : Aff P T (fun τ => τ.x t - ((P.withMu τ.mu0).kf (τ.rows mask) t).predMean) 0) :
    Aff P T (fun τ => τ.x t - ((P.withMu τ.mu0).kf (τ.rows mask) t).filtMean) 0 := by
  by_cases hm : mask.rowMissing t
  · refine h.congr (fun τ _ => ?_) fun _ => rfl
    rw [((P.withMu τ.mu0).kf_missing (τ.rows mask) (t := t) hm).2.1]
  · let K := Verif.gain (P.predC mask t) (P.R t) (P.C t)
    refine (h.sub (((h.mulVec (P.C t)).add (Aff.uObs ht)).mulVec K)).congr (fun τ hτ => ?_)
      fun _ => by simp
    rw [((P.withMu τ.mu0).kf_observed (τ.rows mask) (t := t) hm).2.1, (P.rows_cov mask τ t).1]
    simp only [Outcome.rows, hτ.obs t ht]
    show τ.x t - (_ + K *ᵥ (P.C t *ᵥ τ.x t + P.d t + τ.u (.obs t) - (P.C t *ᵥ _ + P.d t))) = _
    rw [mulVec_sub (P.C t), sub_add_eq_sub_sub]
    congr 2
    abel

theorem Aff.pred {mask : MaskPat m} {t : ℕ} (ht : t < T) :
    Aff P T (fun τ => τ.x t - ((P.withMu τ.mu0).kf (τ.rows mask) t).predMean) 0 := by
  induction t with
  | zero =>
    refine Aff.uInit.congr (fun τ hτ => ?_) fun _ => rfl
    rw [((P.withMu τ.mu0).kf_zero_pred _).1, hτ.init]
    exact add_sub_cancel_left _ _
  | succ t ih =>
    refine (((Aff.filt_of_pred (by omega) (ih (by omega))).mulVec (P.A t)).add
      (Aff.uTrans ht)).congr (fun τ hτ => ?_) fun _ => by simp
    rw [((P.withMu τ.mu0).kf_pred_succ _ t).1, hτ.trans t ht, mulVec_sub]
    show P.A t *ᵥ τ.x t + P.b t + τ.u (.trans t) - (P.A t *ᵥ _ + P.b t) = _
    abel

theorem Aff.filt (mask : MaskPat m) {t : ℕ} (ht : t < T) :
    Aff P T (fun τ => τ.x t - ((P.withMu τ.mu0).kf (τ.rows mask) t).filtMean) 0 :=
  Aff.filt_of_pred ht (Aff.pred ht)

/-! ### The smoother -/

theorem Aff.smooth (mask : MaskPat m) {t : ℕ} (ht : t < T) :
    Aff P T (fun τ => τ.x t - ((P.withMu τ.mu0).ks (τ.rows mask) (T - 1) t).mean) 0 := by
  obtain ⟨j, hj⟩ : ∃ j, T = t + 1 + j := ⟨T - (t + 1), by omega⟩
  induction j generalizing t with
  | zero =>
    refine (Aff.filt mask ht).congr (fun τ _ => ?_) fun _ => rfl
    rw [show T - 1 = t by omega, (P.withMu τ.mu0).ks_last]
  | succ j ih =>
    have ih := ih (t := t + 1) (by omega) (by omega)
    let G := Verif.gain (P.filtC mask t) (P.Q t) (P.A t)
    have hf := Aff.filt (P := P) mask ht
    refine (hf.sub ((((hf.mulVec (P.A t)).add (Aff.uTrans (t := t) (by omega))).sub ih).mulVec G)).congr
      (fun τ hτ => ?_) fun _ => by simp
    rw [(P.withMu τ.mu0).ks_lt' (τ.rows mask) (show t < T - 1 by omega), (P.rows_cov mask τ t).2,
      hτ.trans t (by omega), mulVec_sub (P.A t), sub_add_eq_sub_sub]
    show _ - G *ᵥ (_ - (P.A t *ᵥ _ + P.b t)) = _
    congr 2
    abel

end Verif
