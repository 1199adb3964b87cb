import Verif.Spec.Sensors
import Verif.Spec.Em

/-!
# Vocabulary: the information in a row of observations (C114)
-/

open Matrix

namespace Verif

variable {n m m' : ℕ}

/-- Precision that a row adds about the state: `C' R⁻¹ C`, nothing if the row is masked. -/
noncomputable def rowPrecision (C : Mat m n) (R : Mat m m) (o : Obs m) : Mat n n :=
  if ∃ i, o.mask i = true then 0 else Cᵀ * R⁻¹ * C

/-- What a row says about the state, weighted with the precision: `C' R⁻¹ (z - d)`, nothing if the
row is masked. -/
noncomputable def rowEvidence (C : Mat m n) (R : Mat m m) (d : Vec m) (o : Obs m) : Vec n :=
  if ∃ i, o.mask i = true then 0 else (Cᵀ * R⁻¹) *ᵥ (o.val - d)

/-- Log density of the noise that turns the observation offset into the row read, 0 if the row is
masked.  It does not depend on the process. -/
noncomputable def noiseLogDensity (R : Mat m m) (d : Vec m) (o : Obs m) : ℝ :=
  if ∃ i, o.mask i = true then 0 else logN o.val d R

/-- Sum of these over a run with the offsets `d`. -/
noncomputable def noiseLogDensities (R : Mat m m) (d : TV (Vec m)) (os : List (Obs m)) : ℝ :=
  ∑ t : Fin os.length, noiseLogDensity R (d.at t) os[t]

/-- Two models of the same process with different sensors, and data of equal information: at every
time both rows have the same precision and the same evidence.  The numbers of observed components may
differ. -/
structure SameInformation (p : Params n m) (p' : Params n m') (os : List (Obs m))
    (os' : List (Obs m')) : Prop where
  A : p'.A = p.A
  b : p'.b = p.b
  Q : p'.Q = p.Q
  mu0 : p'.mu0 = p.mu0
  S0 : p'.S0 = p.S0
  len : os'.length = os.length
  rows : ∀ t o o' C C' R R' d d', os[t]? = some o → os'[t]? = some o' →
    lastDims p.C t = .ok C → lastDims p'.C t = .ok C' → lastDims p.R t = .ok R →
    lastDims p'.R t = .ok R' → lastDims p.d t = .ok d → lastDims p'.d t = .ok d' →
    rowPrecision C R o = rowPrecision C' R' o' ∧ rowEvidence C R d o = rowEvidence C' R' d' o'

/-- All observation covariances are positive definite. -/
def Params.NoisySensors (p : Params n m) (T : ℕ) : Prop :=
  ∀ t, t < T → ∀ R, lastDims p.R t = .ok R → R.PosDef

end Verif
