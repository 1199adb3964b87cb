import Verif.Props.Beside
import Verif.Props.FixedLag
import Verif.Props.LeaveOneOutSqrt

/-!
# C112, C113 and C114 for the classes that work with square roots
-/

open Matrix

namespace Verif

variable {n m m' L n₁ n₂ m₁ m₂ : ℕ}

/-- **C112, `CholeskyKalmanFilter` and `BiermanKalmanFilter`.** Two systems that do not interact: the
results of the separate runs side by side. -/
theorem C112_sqrt (qr qr₁ qr₂ : QR) (p : Params (n₁ + n₂) (m₁ + m₂)) (p₁ : Params n₁ m₁)
    (p₂ : Params n₂ m₂) (os : List (Obs (m₁ + m₂))) (os₁ : List (Obs m₁)) (os₂ : List (Obs m₂))
    (h : Beside p p₁ p₂ os.length) (hos : DataBeside os os₁ os₂)
    {out₁ : List (Vec n₁ × Mat n₁ n₁)} {out₂ : List (Vec n₂ × Mat n₂ n₂)} :
    (p.PosDef → p₁.PosDef → p₂.PosDef →
      (cholFilter qr₁ p₁ os₁ = .ok out₁ → cholFilter qr₂ p₂ os₂ = .ok out₂ →
        cholFilter qr p os = .ok (rowsBeside out₁ out₂)) ∧
      (cholSmooth qr₁ p₁ os₁ = .ok out₁ → cholSmooth qr₂ p₂ os₂ = .ok out₂ →
        cholSmooth qr p os = .ok (rowsBeside out₁ out₂))) ∧
    (0 < n₁ → 0 < n₂ → os ≠ [] → os₁ ≠ [] → os₂ ≠ [] → p.NoiseDef → p₁.NoiseDef → p₂.NoiseDef →
      (bierFilter id p₁ os₁ = .ok out₁ → bierFilter id p₂ os₂ = .ok out₂ →
        bierFilter id p os = .ok (rowsBeside out₁ out₂)) ∧
      (bierSmooth id p₁ os₁ = .ok out₁ → bierSmooth id p₂ os₂ = .ok out₂ →
        bierSmooth id p os = .ok (rowsBeside out₁ out₂))) := by
  constructor
  · intro hp hp₁ hp₂
    rw [C29_filter_eq qr hp, C29_filter_eq qr₁ hp₁, C29_filter_eq qr₂ hp₂, C29_smooth_eq qr hp,
      C29_smooth_eq qr₁ hp₁, C29_smooth_eq qr₂ hp₂]
    exact ⟨C112_filter p p₁ p₂ os os₁ os₂ h hos, C112_smooth p p₁ p₂ os os₁ os₂ h hos⟩
  · intro hn₁ hn₂ hne hne₁ hne₂ hp hp₁ hp₂
    have hn : 0 < n₁ + n₂ := by omega
    rw [C30_filter_eq hn hp hne, C30_filter_eq hn₁ hp₁ hne₁, C30_filter_eq hn₂ hp₂ hne₂,
      C30_smooth_eq hn hp hne, C30_smooth_eq hn₁ hp₁ hne₁, C30_smooth_eq hn₂ hp₂ hne₂]
    exact ⟨C112_filter p p₁ p₂ os os₁ os₂ h hos, C112_smooth p p₁ p₂ os os₁ os₂ h hos⟩

/-- The hypotheses hold for two walks side by side (`Beside` is part of `C112_masks_shared`). -/
example : exWalks.PosDef ∧ exWalkOne.PosDef := by
  have h1 : (blocks (1 : Mat 1 1) (1 : Mat 1 1)).PosDef := by rw [blocks_one]; exact PosDef.one
  exact ⟨⟨⟨_, rfl, h1⟩, ⟨_, rfl, h1⟩, h1⟩,
    ⟨⟨_, rfl, PosDef.one⟩, ⟨_, rfl, PosDef.one⟩, PosDef.one⟩⟩

/-- **C113, `BiermanKalmanFilter`.** Keeping past states gives a fixed-lag smoother: part `i` of what
`filter` returns at time `t` is what `smooth` of the original model returns for time `t - i` from the rows
up to `t`. -/
theorem C113_bierman (hn : 0 < n) (p : Params n m) (p' : Params ((L + 1) * n) m) (os : List (Obs m))
    (h : KeepsPast p p' os.length) (hp : p.NoiseDef) (hp' : p'.NoiseDef) {t : ℕ} (ht : t < os.length)
    (i : Fin (L + 1)) (hi : i ≤ t) {out : List (Vec ((L + 1) * n) × Mat ((L + 1) * n) ((L + 1) * n))}
    {outs : List (Vec n × Mat n n)} {r : Vec ((L + 1) * n) × Mat ((L + 1) * n) ((L + 1) * n)}
    {s : Vec n × Mat n n} (hd : p.DefinedFor os.length) (hf : bierFilter id p' os = .ok out)
    (hs : bierSmooth id p (os.take (t + 1)) = .ok outs) (hr : out[t]? = some r)
    (hsr : outs[t - (i : ℕ)]? = some s) :
    lagPart i r.1 = s.1 ∧ lagBlock i r.2 = s.2 := by
  have hne : os ≠ [] := by rintro rfl; simp at ht
  have hne' : os.take (t + 1) ≠ [] := by simpa using hne
  rw [C30_filter_eq (by positivity) hp' hne] at hf
  rw [C30_smooth_eq hn hp hne'] at hs
  exact C113_fixed_lag p p' os h (hp.psd _) ht i hi hd hf hs hr hsr

/-- **C113 (limit), `CholeskyKalmanFilter`.** The construction cannot be used there: a model that keeps
at least one past state has a singular transition covariance, and `filter` raises `LinAlgError` for all
data. -/
theorem C113_cholesky_refuses (qr : QR) (hn : 0 < n) (p : Params n m)
    (p' : Params ((L + 1 + 1) * n) m) {T : ℕ} (hT : 2 ≤ T) (h : KeepsPast p p' T)
    {Q : Mat n n} {Q' : Mat ((L + 1 + 1) * n) ((L + 1 + 1) * n)} {R : Mat m m} (hQ : p.Q = .const Q)
    (hQ' : p'.Q = .const Q') (hR : p'.R = .const R) (sQ : Qᵀ = Q) (sR : Rᵀ = R)
    (sS : p'.S0ᵀ = p'.S0) (os : List (Obs m)) :
    cholFilter qr p' os = .error .linAlgError := by
  obtain ⟨Q₁, e, hq⟩ := h.noise 0 (by omega) Q (by rw [hQ]; rfl)
  rw [hQ'] at e
  obtain rfl : Q' = Q₁ := Except.ok.inj e
  refine C29_not_posDef qr hQ' hR ?_ sR sS ?_ os
  · ext x y
    obtain ⟨⟨i, a⟩, rfl⟩ := finProdFinEquiv.surjective x
    obtain ⟨⟨j, b⟩, rfl⟩ := finProdFinEquiv.surjective y
    rw [transpose_apply, hq, hq]
    by_cases hi : i = 0 <;> by_cases hj : j = 0 <;> simp [hi, hj]
    exact congrFun (congrFun sQ a) b
  · rintro ⟨hpd, -, -⟩
    have := hpd.diag_pos (i := finProdFinEquiv ((1 : Fin (L + 1 + 1)), (⟨0, hn⟩ : Fin n)))
    rw [hq] at this
    simp at this

/-- The hypotheses of the two theorems hold for the walk that keeps its last two states (`KeepsPast` is
shown beside `C113_newest`). -/
example : exLagWalk.NoiseDef ∧ exLagThree.NoiseDef ∧ (exLagThree.S0)ᵀ = exLagThree.S0 := by
  have e1 : (!![1, 0, 0; 0, 0, 0; 0, 0, 0] : Mat 3 3) = diagonal ![1, 0, 0] := by
    ext i j; fin_cases i <;> fin_cases j <;> simp
  have e2 : (!![1, 0, 0; 0, 4, 0; 0, 0, 0] : Mat 3 3) = diagonal ![1, 4, 0] := by
    ext i j; fin_cases i <;> fin_cases j <;> simp
  have h1 : (!![1, 0, 0; 0, 0, 0; 0, 0, 0] : Mat 3 3).PosSemidef := by
    rw [e1]
    refine PosSemidef.diagonal fun i => ?_
    fin_cases i <;> simp
  have h2 : (!![1, 0, 0; 0, 4, 0; 0, 0, 0] : Mat 3 3).PosSemidef := by
    rw [e2]
    refine PosSemidef.diagonal fun i => ?_
    fin_cases i <;> simp
  refine ⟨⟨⟨_, rfl, PosSemidef.one⟩, ⟨_, rfl, PosDef.one⟩, PosSemidef.one⟩,
    ⟨⟨_, rfl, h1⟩, ⟨_, rfl, PosDef.one⟩, h2⟩, ?_⟩
  change (!![1, 0, 0; 0, 4, 0; 0, 0, 0] : Mat 3 3)ᵀ = !![1, 0, 0; 0, 4, 0; 0, 0, 0]
  rw [e2, diagonal_transpose]

/-- **C114, `CholeskyKalmanFilter` and `BiermanKalmanFilter`.** Two sets of sensors with data of equal
information give the same results. -/
theorem C114_sqrt (qr qr' : QR) (p : Params n m) (p' : Params n m') (os : List (Obs m))
    (os' : List (Obs m')) (h : SameInformation p p' os os') (hd : p.DefinedFor os.length)
    (hd' : p'.DefinedFor os.length) :
    (p.PosDef → p'.PosDef →
      cholFilter qr' p' os' = cholFilter qr p os ∧ cholSmooth qr' p' os' = cholSmooth qr p os) ∧
    (0 < n → os ≠ [] → p.NoiseDef → p'.NoiseDef →
      bierFilter id p' os' = bierFilter id p os ∧ bierSmooth id p' os' = bierSmooth id p os) := by
  constructor
  · intro hp hp'
    rw [C29_filter_eq qr hp, C29_filter_eq qr' hp', C29_smooth_eq qr hp, C29_smooth_eq qr' hp']
    exact C114_information p p' os os' h hd hd' (hp.toNoiseDef.psd _) (hp.toNoiseDef.noisySensors _)
      (hp'.toNoiseDef.noisySensors _)
  · intro hn hne hp hp'
    have hne' : os' ≠ [] := by
      intro e
      have := h.len
      rw [e] at this
      exact hne (List.length_eq_zero_iff.mp this.symm)
    rw [C30_filter_eq hn hp hne, C30_filter_eq hn hp' hne', C30_smooth_eq hn hp hne,
      C30_smooth_eq hn hp' hne']
    exact C114_information p p' os os' h hd hd' (hp.psd _) (hp.noisySensors _) (hp'.noisySensors _)

/-- The definiteness holds for the walk read in metres and in half metres (`SameInformation` is shown
beside `C114_comparison`). -/
example : (exMetres 1).PosDef ∧ (exHalfMetres 1).PosDef := by
  have h1 : (!![1] : Mat 1 1).PosDef := by
    have : (!![1] : Mat 1 1) = 1 := by
      ext i j
      rw [Subsingleton.elim i 0, Subsingleton.elim j 0]
      simp
    rw [this]
    exact PosDef.one
  exact ⟨⟨⟨_, rfl, h1⟩, ⟨_, rfl, PosDef.one⟩, PosDef.one⟩,
    ⟨⟨_, rfl, h1⟩, ⟨_, rfl, PosDef.one.smul (by norm_num)⟩, PosDef.one⟩⟩

end Verif
