import Verif.Props.MemoryCholesky
import Verif.Props.Bierman

/-!
# C87: arrays in memory, `BiermanKalmanFilter`

The covariances are kept as lists of pairs of arrays, from which `_reconstruct_covariances` makes the
arrays that are returned; the observation matrix, the offsets and the observations are multiplied by
a square root of the noise and stored in new arrays.  That no array of the caller changes is
`C87_unchanged`, which covers these methods too.
-/

open Matrix

namespace Verif

variable {n m : ℕ}

/-- `BiermanKalmanFilter.filter` on arrays. -/
theorem C87_bierman_filter {qr : QR} {store : ℝ → ℝ} {k : KFRef} {X : ARef} {h : Heap}
    (hk : k.Valid h) (hX : X.addr < h.next)
    {r : Res (List (Vec k.nDimState × Mat k.nDimState k.nDimState))}
    (hr : (k.value h).filterOf .bierman qr store (X.ma h) = some r) :
    ∃ res h', k.bierFilter store X h = (res, h') ∧ h.Keeps h' ∧
      (∀ l, r = .ok l → ∃ a b, res = .ok (a, b) ∧ h.next ≤ a.addr ∧ a.addr < h'.next ∧
        h.next ≤ b.addr ∧ b.addr < h'.next ∧ a.addr ≠ b.addr ∧ HoldsRows h' a b l) ∧
      (∀ e, r = .error e → res = .error e) := by
  refine ⟨(k.bierFilter store X h).1, (k.bierFilter store X h).2, rfl,
    C87_unchanged h (.bierFilter store k X) fun _ hf => hf, ?_⟩
  obtain ⟨hok, herr⟩ := bierFilter_result hk hX hr
  rcases hres : (k.bierFilter store X h).1 with e | q
  · have := herr e hres
    subst this
    exact ⟨fun l hl => (by cases hl), fun e he => (by cases he; rfl)⟩
  · obtain ⟨l, rfl, h1, h2, h3, h4, h5, h6⟩ := hok q hres
    refine ⟨?_, fun e he => (by cases he)⟩
    rintro _ ⟨⟩
    exact ⟨q.1, q.2, rfl, h1, h2, h3, h4, h5, h6⟩

/-- `BiermanKalmanFilter.smooth` on arrays. -/
theorem C87_bierman_smooth {qr : QR} {store : ℝ → ℝ} {k : KFRef} {X : ARef} {h : Heap}
    (hk : k.Valid h) (hX : X.addr < h.next)
    {r : Res (List (Vec k.nDimState × Mat k.nDimState k.nDimState))}
    (hr : (k.value h).smoothOf .bierman qr store (X.ma h) = some r) :
    ∃ res h', k.bierSmooth store X h = (res, h') ∧ h.Keeps h' ∧
      (∀ l, r = .ok l → ∃ a b, res = .ok (a, b) ∧ h.next ≤ a.addr ∧ a.addr < h'.next ∧
        h.next ≤ b.addr ∧ b.addr < h'.next ∧ a.addr ≠ b.addr ∧ HoldsRows h' a b l) ∧
      (∀ e, r = .error e → res = .error e) := by
  refine ⟨(k.bierSmooth store X h).1, (k.bierSmooth store X h).2, rfl,
    C87_unchanged h (.bierSmooth store k X) fun _ hf => hf, ?_⟩
  obtain ⟨hok, herr⟩ := bierSmooth_result hk hX hr
  rcases hres : (k.bierSmooth store X h).1 with e | q
  · have := herr e hres
    subst this
    exact ⟨fun l hl => (by cases hl), fun e he => (by cases he; rfl)⟩
  · obtain ⟨l, rfl, h1, h2, h3, h4, h5, h6⟩ := hok q hres
    refine ⟨?_, fun e he => (by cases he)⟩
    rintro _ ⟨⟩
    exact ⟨q.1, q.2, rfl, h1, h2, h3, h4, h5, h6⟩

/-- `BiermanKalmanFilter.loglikelihood` on arrays. -/
theorem C87_bierman_loglikelihood {qr : QR} {store : ℝ → ℝ} {k : KFRef} {X : ARef} {h : Heap}
    (hk : k.Valid h) (hX : X.addr < h.next) {r : Res ℝ}
    (hr : (k.value h).loglikOf .bierman qr store (X.ma h) = some r) :
    ∃ h', k.bierLoglikelihood store X h = (r, h') ∧ h.Keeps h' :=
  ⟨_, Prod.ext (bierLoglik_result hk hX hr) rfl,
    C87_unchanged h (.bierLoglikelihood store k X) fun _ hf => hf⟩

/-- `BiermanKalmanFilter.filter_update` on arrays: the covariance returned has shape `(1, n, n)` (C44)
and neither array is one of the caller's. -/
theorem C87_bierman_update {store : ℝ → ℝ} {k : KFRef} {mean cov : ARef} {o : Option ARef}
    {a : UpdateRefs} {h : Heap} (hk : k.Valid h) (hmean : mean.addr < h.next)
    (hcov : cov.addr < h.next) (_hcov2 : cov.shape.length = 2)
    (ho : ∀ r, o = some r → r.addr < h.next ∧ r.shape = [k.nDimObs]) (ha : a.Fits k.nDimState k.nDimObs h)
    {rp : Res (Params k.nDimState k.nDimObs)} (hp : (k.value h).params = some rp)
    {r : Res (Vec k.nDimState × (Fin 1 → Mat k.nDimState k.nDimState))}
    (hr : (rp >>= fun P => bierUpdate store P (mean.vec k.nDimState h)
      (cov.mat k.nDimState k.nDimState h) (o.map (ARef.obs k.nDimObs h))
      (a.value k.nDimState k.nDimObs h)) = r) :
    ∃ res h', k.bierFilterUpdate store mean cov o a h = (res, h') ∧ h.Keeps h' ∧
      (∀ v V, r = .ok (v, V) → ∃ a b, res = .ok (a, b) ∧ h.next ≤ a.addr ∧ a.addr < h'.next ∧
        h.next ≤ b.addr ∧ b.addr < h'.next ∧ a.addr ≠ b.addr ∧
        b.shape = [1, k.nDimState, k.nDimState] ∧
        (∀ i : Fin k.nDimState, (a.nd h').data [i] = v i) ∧
        (∀ (t : Fin 1) (i j : Fin k.nDimState), (b.nd h').data [t, i, j] = V t i j)) ∧
      (∀ e, r = .error e → res = .error e) := by
  refine ⟨(k.bierFilterUpdate store mean cov o a h).1, (k.bierFilterUpdate store mean cov o a h).2, rfl,
    C87_unchanged h (.bierFilterUpdate store k mean cov o a) fun _ hf => hf, ?_⟩
  obtain ⟨hok, herr⟩ := bierUpdate_result hk hmean hcov ho ha hp hr
  rcases hres : (k.bierFilterUpdate store mean cov o a h).1 with e | q
  · have := herr e hres
    subst this
    exact ⟨fun v V hv => (by cases hv), fun e he => (by cases he; rfl)⟩
  · obtain ⟨h0, rfl, h1, h2, h3, h4, h5⟩ := hok q hres
    refine ⟨?_, fun e he => (by cases he)⟩
    rintro v V hv
    have hv' := Except.ok.inj hv
    rw [Prod.mk.injEq] at hv'
    obtain ⟨rfl, rfl⟩ := hv'
    refine ⟨q.1, q.2, rfl, h1, h2, h3, h4, h5, h0, fun _ => rfl, fun t i j => ?_⟩
    have ht : (t : ℕ) = 0 := by omega
    rw [ht]
    rfl

/-- `BiermanKalmanFilter.em` on arrays. -/
theorem C87_bierman_em {k : KFRef} {X : ARef} {h : Heap} {nIter : ℕ} {arg : Option EmNames}
    {qr : QR} {store : ℝ → ℝ} (hk : k.Valid h) (hX : X.addr < h.next)
    {r : Res (Params k.nDimState k.nDimObs)}
    (hr : (k.value h).em .bierman qr store (X.ma h) nIter arg = some r) :
    ∃ res h', k.bierEm store X nIter arg h = (res, h') ∧ h.Keeps h' ∧
      (∀ P, r = .ok P → ∃ k' sel, res = .ok k' ∧ (k.value h).emSelectionSqrt arg = .ok sel ∧
        k'.Valid h' ∧ (k'.value h').resolvedSpec.typed k.nDimState k.nDimObs = some P ∧
        k'.SameSettings k ∧ ∀ v, KFRef.Kept k k' h v (0 < nIter ∧ sel v = true)) ∧
      (∀ e, r = .error e → res = .error e) := by
  refine ⟨(k.bierEm store X nIter arg h).1, (k.bierEm store X nIter arg h).2, rfl,
    C87_unchanged h (.bierEm store k X nIter arg) fun _ hf => hf, ?_⟩
  obtain ⟨-, hok, herr⟩ := bierEm_result hk hX hr
  rcases hres : (k.bierEm store X nIter arg h).1 with e | k'
  · have := herr e hres
    subst this
    exact ⟨fun l hl => (by cases hl), fun e he => (by cases he; rfl)⟩
  · obtain ⟨P, sel, rfl, h1⟩ := hok k' hres
    refine ⟨?_, fun e he => (by cases he)⟩
    rintro _ ⟨⟩
    exact ⟨k', sel, rfl, h1⟩

/-! ### The hypotheses can be met -/

/-- All calls return on the example of `Props/Memory.lean`, whatever the memory holds. -/
example (h : Heap) (qr : QR) : exRef.Valid exHeap ∧ exData.addr < exHeap.next ∧
    (∃ l, (exRef.value h).filterOf .bierman qr id (exData.ma h) = some (.ok l) ∧ l.length = 3) ∧
    (∃ l, (exRef.value h).smoothOf .bierman qr id (exData.ma h) = some (.ok l) ∧ l.length = 3) ∧
    (∃ r, (exRef.value h).loglikOf .bierman qr id (exData.ma h) = some r) ∧
    (∃ p, (exRef.value h).em .bierman qr id (exData.ma h) 1 (some .all) = some (.ok p)) := by
  obtain ⟨p, os, hp, hos, hc, hpd⟩ := exRef_prepare_posDef h
  have hne : os ≠ [] := by rintro rfl; cases hos
  rw [← hos] at hc
  have hpd' : p.NoiseDef := ⟨hpd.Q.imp fun _ h => ⟨h.1, h.2.posSemidef⟩, hpd.R, hpd.S0.posSemidef⟩
  refine ⟨?_, by decide, ⟨_, by
      rw [KF.filterOf, hp]
      exact congrArg some ((C30_filter_eq Nat.one_pos hpd' hne).trans (kfFilter_eq hc)), by rw [hos]; exact (List.length_map _).trans (List.length_range)⟩,
    ⟨_, by
      rw [KF.smoothOf, hp]
      exact congrArg some ((C30_smooth_eq Nat.one_pos hpd' hne).trans (kfSmooth_eq hne hc)), by rw [hos]; exact (List.length_map _).trans (List.length_range)⟩,
    ⟨_, by rw [KF.loglikOf, hp]; rfl⟩, ?_⟩
  · intro r hr
    simp [KFRef.arrays, exRef] at hr
    subst hr
    decide
  · obtain ⟨sel, hsel⟩ : ∃ sel, (exRef.value h).emSelectionSqrt (some .all) = .ok sel := ⟨_, rfl⟩
    obtain ⟨p', hp'⟩ := emLoop_runs (vars := sel) hne hc 1 p hc
    refine ⟨p', ?_⟩
    rw [KF.em, hp]
    refine congrArg some ?_
    change ((exRef.value h).emSelectionSqrt (some .all) >>= fun vars => bierEm id p os 1 vars) = _
    rw [hsel]
    refine (C30_em_eq Nat.one_pos p hne 1 sel fun j hj p'' hp'' => ?_).trans hp'
    obtain rfl : j = 0 := by omega
    cases hp''
    exact hpd'

/-- One `filter_update` with the covariance in block 3 of `exHeap`, which is 3. -/
example : ∃ (P : Params 1 1) (v : Vec 1) (V : Fin 1 → Mat 1 1),
    (exRef.value exHeap).params = some (.ok P) ∧
    bierUpdate id P (ARef.vec 1 exHeap ⟨2, [1], id⟩) (ARef.mat 1 1 exHeap ⟨3, [1, 1], id⟩)
      (Option.map (ARef.obs 1 exHeap) (some ⟨1, [1], id⟩))
      (UpdateRefs.value 1 1 exHeap ⟨none, none, none, none, none, none⟩) = .ok (v, V) := by
  obtain ⟨p, hp, ⟨Q, eQ, hQ⟩, ⟨R, eR, hR⟩, hA, hb, hC, hd⟩ : ∃ p : Params 1 1,
      (exRef.value exHeap).params = some (.ok p) ∧ (∃ Q, p.Q = .const Q ∧ Matrix.PosDef Q) ∧
      (∃ R, p.R = .const R ∧ Matrix.PosDef R) ∧ (∃ A, p.A = .const A) ∧ (∃ b, p.b = .const b) ∧
      (∃ C, p.C = .const C) ∧ ∃ d, p.d = .const d := by
    rw [KF.params, C26_parameters _ (by rintro s ⟨⟩)]
    refine ⟨_, rfl, ⟨_, rfl, ?_⟩, ⟨_, rfl, ?_⟩, ⟨_, rfl⟩, ⟨_, rfl⟩, ⟨_, rfl⟩, ⟨_, rfl⟩⟩ <;>
    exact cast (congrArg Matrix.PosDef eye_one.symm) (Matrix.PosDef.one (n := Fin 1) (R := ℝ))
  obtain ⟨A, hA⟩ := hA
  obtain ⟨b, hb⟩ := hb
  obtain ⟨C, hC⟩ := hC
  obtain ⟨d, hd⟩ := hd
  have hS : (ARef.mat 1 1 exHeap ⟨3, [1, 1], id⟩).PosDef := by
    have e : ARef.mat 1 1 exHeap ⟨3, [1, 1], id⟩ = (3 : ℝ) • (1 : Mat 1 1) := by
      ext i j
      fin_cases i; fin_cases j
      simp [ARef.mat, ARef.nd, exHeap]
    rw [e]
    exact Matrix.PosDef.one.smul (by norm_num)
  have hu := C30_filter_update_eq Nat.one_pos p (ARef.vec 1 exHeap ⟨2, [1], id⟩)
    (Option.map (ARef.obs 1 exHeap) (some ⟨1, [1], id⟩))
    (UpdateRefs.value 1 1 exHeap ⟨none, none, none, none, none, none⟩) hS.posSemidef
    (fun Q' h => by rw [eQ] at h; cases h; exact hQ.posSemidef) (fun R' h => by rw [eR] at h; cases h; exact hR)
  obtain ⟨w, hw⟩ : ∃ w, filterUpdate p (ARef.vec 1 exHeap ⟨2, [1], id⟩)
      (ARef.mat 1 1 exHeap ⟨3, [1, 1], id⟩) (Option.map (ARef.obs 1 exHeap) (some ⟨1, [1], id⟩))
      (UpdateRefs.value 1 1 exHeap ⟨none, none, none, none, none, none⟩) = .ok w := by
    simp only [filterUpdate, UpdateRefs.value, Option.map_none, argOrDefault, hA, hb, hC, hd, eQ, eR]
    exact ⟨_, rfl⟩
  rw [hw] at hu
  exact ⟨p, w.1, fun _ => w.2, hp, hu⟩

end Verif
