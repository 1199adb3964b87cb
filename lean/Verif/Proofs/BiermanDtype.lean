import Verif.Model.BiermanDtype
import Verif.Proofs.Bierman

/-! # Lemmas on `BiermanKalmanFilter` with arrays of integers -/

open Matrix

namespace Verif

variable {n m : ℕ}

/-- `L · g(L⁻¹ X)`, where `g` acts on the entries: the observation matrix that is used when the
entries of `L⁻¹ X` are stored by `g`. -/
noncomputable def storedMat (g : ℝ → ℝ) (L : Mat m m) (X : Mat m n) : Mat m n :=
  L * (L⁻¹ * X : Mat m n).map g

theorem bierLoop_withC (p : Params n m) (C' C : TV (Mat m n)) (d : TV (Vec m)) (S0 : UDU n)
    (os : List (Obs m)) (t : ℕ) (prev : Option (BStep n)) :
    bierLoop { p with C := C' } C d S0 t prev os = bierLoop p C d S0 t prev os := by
  induction os generalizing t prev with
  | nil => rfl
  | cons o os ih => simp only [bierLoop, ih]; rfl

/-- With the identity the model is the one of `Model/Bierman`. -/
theorem decorrelateStored_id (C : TV (Mat m n)) (d : TV (Vec m)) (R : TV (Mat m m))
    (os : List (Obs m)) : decorrelateStored id C d R os = decorrelate C d R os := by
  cases C with
  | const X => rfl
  | seq l =>
    have : (fun X : Mat m n => X.map (id : ℝ → ℝ)) = id := by ext X; rfl
    unfold decorrelateStored decorrelate
    cases cholParam R with
    | error e => rfl
    | ok R2 =>
      simp only [bind, Except.bind, pure, Except.pure, TV.map]
      rfl

theorem decorrelateStored_const (storeC : ℝ → ℝ) (X : Mat m n) (d : TV (Vec m)) (R : TV (Mat m m))
    (os : List (Obs m)) :
    decorrelateStored storeC (.const X) d R os = decorrelate (.const X) d R os := rfl

theorem bierFullStored_id (store : ℝ → ℝ) (p : Params n m) (os : List (Obs m)) :
    bierFullStored store id p os = bierFull store p os := by
  simp only [bierFullStored, bierFull, decorrelateStored_id]

theorem bierFullStored_const (store storeC : ℝ → ℝ) {p : Params n m} (hC : ∃ X, p.C = .const X)
    (os : List (Obs m)) : bierFullStored store storeC p os = bierFull store p os := by
  obtain ⟨X, hX⟩ := hC
  simp only [bierFullStored, bierFull, hX, decorrelateStored_const]

theorem bierStatsStored_congr {store storeC store' : ℝ → ℝ} {p : Params n m} {os : List (Obs m)}
    (h : bierFullStored store storeC p os = bierFull store' p os) :
    bierStatsStored store storeC p os = bierStats store' p os := by
  simp only [bierStatsStored, bierStats, h]

/-- The stored matrices are the decorrelated ones of other matrices. -/
theorem bierFullStored_seq (store storeC : ℝ → ℝ) {p : Params n m} {R L : Mat m m}
    (hR : p.R = .const R) (hL : IsCholesky R L) {l : List (Mat m n)} (hC : p.C = .seq l)
    (os : List (Obs m)) :
    bierFullStored store storeC p os
      = bierFull store { p with C := .seq (l.map (storedMat storeC L)) } os := by
  have hu : IsUnit L.det := isUnit_iff_ne_zero.mpr hL.det_ne_zero
  have hp : pinv L = L⁻¹ := pinv_eq_inv hu
  simp only [bierFullStored, bierFull, decorrelateStored, decorrelate, hR, hC, cholParam,
    cholesky_eq_ok hL, bind, Except.bind, pure, Except.pure, TV.map, List.map_map, bierLoop_withC]
  have e : (List.map (fun X => (pinv L * X).map storeC) l)
      = List.map ((fun X => pinv L * X) ∘ storedMat storeC L) l := by
    refine List.map_congr_left fun X _ => ?_
    simp only [Function.comp_apply, storedMat, hp, ← Matrix.mul_assoc, Matrix.nonsing_inv_mul L hu,
      Matrix.one_mul]
  rw [e]
  cases udu store p.S0 with
  | error e => rfl
  | ok S =>
    simp only [← hR]
    exact (bierLoop_withC ..).symm

/-! ### The initial covariance -/

/-- An inner step of `udu` on a column whose entry is zero and whose numbers are stored exactly
changes no entry of `M`. -/
theorem uduInner_zero {store : ℝ → ℝ} (j : ℕ) (alpha : ℝ) (s : UduState) (i : ℕ)
    (h0 : s.M i (j - 1) = 0) (hs : ∀ r c, store (s.M r c) = s.M r c) :
    uduInner store j alpha s i = ⟨s.M, s.U.set i (j - 1) 0, s.d⟩ := by
  have hU : s.U.set i (j - 1) (alpha * s.M i (j - 1)) = s.U.set i (j - 1) 0 := by rw [h0, mul_zero]
  unfold uduInner
  simp only [Nat.add_sub_cancel]
  rw [hU]
  congr 1
  funext r c
  split_ifs with h
  · rw [h0, zero_mul, sub_zero, hs, h.2]
  · rfl

theorem uduFold_zero {store : ℝ → ℝ} (j : ℕ) (alpha : ℝ) (l : List ℕ) (s : UduState)
    (h0 : ∀ i ∈ l, s.M i (j - 1) = 0) (hs : ∀ r c, store (s.M r c) = s.M r c) :
    l.foldl (uduInner store j alpha) s = l.foldl (uduInner id j alpha) s ∧
      (l.foldl (uduInner id j alpha) s).M = s.M := by
  induction l generalizing s with
  | nil => exact ⟨rfl, rfl⟩
  | cons i l ih =>
    have hi := h0 i (List.mem_cons_self ..)
    rw [List.foldl_cons, List.foldl_cons, uduInner_zero j alpha s i hi hs,
      uduInner_zero j alpha s i hi (fun _ _ => rfl)]
    exact ih _ (fun k hk => h0 k (List.mem_cons_of_mem _ hk)) hs

theorem uduLoop_diag {store : ℝ → ℝ} (c : ℕ) (s : UduState) (h0 : ∀ r q, r ≠ q → s.M r q = 0)
    (hs : ∀ r q, store (s.M r q) = s.M r q) : uduLoop store c s = uduLoop id c s := by
  induction c generalizing s with
  | zero => rfl
  | succ c ih =>
    have key : uduCol store (c + 2) s = uduCol id (c + 2) s ∧ (uduCol id (c + 2) s).M = s.M :=
      uduFold_zero (c + 2) _ _ _ (fun i hi => h0 i _ (by
        have := List.mem_range.mp hi
        omega)) hs
    rw [uduLoop, uduLoop, key.1]
    exact ih _ (by rw [key.2]; exact h0) (by rw [key.2]; exact hs)

/-- On a diagonal matrix whose entries (and zero) are stored exactly the element type makes no
difference to `udu`. -/
theorem udu_diagonal {store : ℝ → ℝ} (v : Vec n) (h0 : store 0 = 0)
    (hs : ∀ i, store (v i) = v i) : udu store (diagonal v) = udu id (diagonal v) := by
  unfold udu
  split_ifs with h1 h2
  · rfl
  · have : ∀ r q : ℕ, r ≠ q → arr2 (diagonal v) r q = 0 := by
      intro r q h
      unfold arr2
      split_ifs with hr
      · exact diagonal_apply_ne _ (by simpa [Fin.ext_iff] using h)
      · rfl
    simp only
    rw [uduLoop_diag]
    · intro r q h
      simp only [this r q h, ite_self]
    · intro r q
      simp only
      split_ifs with hle
      · unfold arr2
        split_ifs with hr
        · by_cases e : (⟨r, hr.1⟩ : Fin n) = ⟨q, hr.2⟩
          · rw [e, diagonal_apply_eq, hs]
          · rw [diagonal_apply_ne _ e, h0]
        · exact h0
      · exact h0
  · rfl

theorem bierFullStored_initial {store : ℝ → ℝ} (storeC : ℝ → ℝ) {p : Params n m}
    (h : udu store p.S0 = udu id p.S0) (os : List (Obs m)) :
    bierFullStored store storeC p os = bierFullStored id storeC p os := by
  simp only [bierFullStored, h]

end Verif
