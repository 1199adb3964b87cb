import Verif.Props.LeaveOneOut
import Verif.Props.Cholesky
import Verif.Props.Bierman

/-!
# C115: leaving out one row, classes that work with square roots
-/

open Matrix

namespace Verif

variable {n m : ℕ}

theorem Params.NoiseDef.psd {p : Params n m} (h : p.NoiseDef) (T : ℕ) : p.PSD T := by
  obtain ⟨⟨Q, hQ, hQd⟩, ⟨R, hR, hRd⟩, hS⟩ := h
  refine ⟨fun t _ S e => ?_, fun t _ S e => ?_, hS⟩
  · rw [hQ] at e; cases e; exact hQd
  · rw [hR] at e; cases e; exact hRd.posSemidef

theorem Params.NoiseDef.noisySensors {p : Params n m} (h : p.NoiseDef) (T : ℕ) :
    p.NoisySensors T := by
  obtain ⟨-, ⟨R, hR, hRd⟩, -⟩ := h
  intro t _ S e
  rw [hR] at e; cases e; exact hRd

theorem Params.PosDef.toNoiseDef {p : Params n m} (h : p.PosDef) : p.NoiseDef := by
  obtain ⟨⟨Q, hQ, hQd⟩, hR, hS⟩ := h
  exact ⟨⟨Q, hQ, hQd.posSemidef⟩, hR, hS.posSemidef⟩

/-- **C115, `CholeskyKalmanFilter` and `BiermanKalmanFilter`.** The smoothed mean and covariance with
row `k` are those without it, corrected by the row with `KalmanFilter.filter_update`; and the row adds
to the log likelihood the log density of its value under the smoothed moments computed without it. -/
theorem C115_sqrt (qr : QR) (p : Params n m) (os os' : List (Obs m)) {k : ℕ} {o : Obs m}
    (hdef : p.DefinedFor os.length) (hk : os[k]? = some o) (ho : ∀ i, o.mask i = false)
    (h : MaskedAt k os os') {out out' : List (Vec n × Mat n n)}
    (hs : (p.PosDef ∧ cholSmooth qr p os = .ok out ∧ cholSmooth qr p os' = .ok out') ∨
      (0 < n ∧ p.NoiseDef ∧ bierSmooth id p os = .ok out ∧ bierSmooth id p os' = .ok out'))
    {r r' : Vec n × Mat n n} (hr : out[k]? = some r) (hr' : out'[k]? = some r') {C : Mat m n}
    {d : Vec m} {R : Mat m m} (hC : lastDims p.C k = .ok C) (hd : lastDims p.d k = .ok d)
    (hRk : p.R = .const R) :
    filterUpdate p r'.1 r'.2 (some o)
      { A := some 1, b := some 0, Q := some 0, C := some C, d := some d, R := some R } = .ok r ∧
    ∃ ℓ ℓ', ℓ = ℓ' + logN o.val (C *ᵥ r'.1 + d) (C * r'.2 * Cᵀ + R) ∧
      (p.PosDef → cholLoglik qr p os = .ok ℓ ∧ cholLoglik qr p os' = .ok ℓ') ∧
      (0 < n → p.NoiseDef → bierLoglik id p os = .ok ℓ ∧ bierLoglik id p os' = .ok ℓ') := by
  have hne : os ≠ [] := by rintro rfl; simp at hk
  have hne' : os' ≠ [] := by
    intro e
    have := h.len
    rw [e] at this
    exact hne (List.length_eq_zero_iff.mp this.symm)
  obtain ⟨hN, e, e'⟩ : p.NoiseDef ∧ kfSmooth p os = .ok out ∧ kfSmooth p os' = .ok out' := by
    rcases hs with ⟨hP, a, b⟩ | ⟨hn, hN, a, b⟩
    · exact ⟨hP.toNoiseDef, by rwa [C29_smooth_eq qr hP] at a, by rwa [C29_smooth_eq qr hP] at b⟩
    · exact ⟨hN, by rwa [C30_smooth_eq hn hN hne] at a, by rwa [C30_smooth_eq hn hN hne'] at b⟩
  have hRd : R.PosDef := by
    obtain ⟨-, ⟨R', h1, h2⟩, -⟩ := hN
    rw [hRk] at h1; cases h1; exact h2
  refine ⟨C115_leave_one_out p os os' (hN.psd _) (hN.noisySensors _) hk ho h e e' hr hr' hC hd
    (by rw [hRk]; rfl), ?_⟩
  obtain ⟨ℓ, ℓ', h1, h2, h3⟩ :=
    C115_loglikelihood p os os' hdef (hN.psd _) hRk hRd hk ho h e' hr' hC hd
  refine ⟨ℓ, ℓ', h3, fun hP => ?_, fun hn hN' => ?_⟩
  · rw [C29_loglikelihood_eq qr hP, C29_loglikelihood_eq qr hP]
    exact ⟨h1, h2⟩
  · rw [C30_loglikelihood_eq hn hN' hne, C30_loglikelihood_eq hn hN' hne']
    exact ⟨h1, h2⟩

/-- The hypotheses hold for the walk `exMetres` with noise, the first row observed and then masked. -/
example (qr : QR) (x : Vec 1) (os : List (Obs 1)) :
    (exMetres 1).DefinedFor (os.length + 1) ∧ (exMetres 1).PosDef ∧
    MaskedAt 0 (⟨x, fun _ => false⟩ :: os) (⟨x, fun _ => true⟩ :: os) ∧
    (∃ out, cholSmooth qr (exMetres 1) (⟨x, fun _ => false⟩ :: os) = .ok out) ∧
    (∃ out, cholSmooth qr (exMetres 1) (⟨x, fun _ => true⟩ :: os) = .ok out) ∧
    (∃ out, bierSmooth id (exMetres 1) (⟨x, fun _ => false⟩ :: os) = .ok out) ∧
    (∃ out, bierSmooth id (exMetres 1) (⟨x, fun _ => true⟩ :: os) = .ok out) := by
  have hd : ∀ T, (exMetres 1).DefinedFor T := fun T =>
    ⟨fun _ _ => ⟨_, rfl⟩, fun _ _ => ⟨_, rfl⟩, fun _ _ => ⟨_, rfl⟩, fun _ _ => ⟨_, rfl⟩,
      fun _ _ => ⟨_, rfl⟩, fun _ _ => ⟨_, rfl⟩⟩
  have hP : (exMetres 1).PosDef := by
    refine ⟨⟨_, rfl, ?_⟩, ⟨_, rfl, PosDef.one⟩, PosDef.one⟩
    have : (!![1] : Mat 1 1) = 1 := by
      ext i j
      rw [Subsingleton.elim i 0, Subsingleton.elim j 0]
      simp
    rw [this]
    exact PosDef.one
  have hk : ∀ o : Obs 1, ∃ out, kfSmooth (exMetres 1) (o :: os) = .ok out := fun o =>
    ⟨_, kfSmooth_eq (by simp) (definedFor_iff_covers.mp (hd _))⟩
  refine ⟨hd _, hP, ⟨rfl, ?_, ?_⟩, ?_, ?_, ?_, ?_⟩
  · intro t ht
    cases t with
    | zero => exact absurd rfl ht
    | succ t => rfl
  · rintro o ⟨⟩; exact ⟨0, rfl⟩
  · rw [C29_smooth_eq qr hP]; exact hk _
  · rw [C29_smooth_eq qr hP]; exact hk _
  · rw [C30_smooth_eq (by simp) hP.toNoiseDef (by simp)]; exact hk _
  · rw [C30_smooth_eq (by simp) hP.toNoiseDef (by simp)]; exact hk _

end Verif
