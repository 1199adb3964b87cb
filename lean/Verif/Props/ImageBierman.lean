import Verif.Props.Image
import Verif.Props.LeaveOneOutSqrt

/-!
# C117: linear images of models, `BiermanKalmanFilter`
-/

open Matrix

namespace Verif

variable {n m k : ℕ}

/-- **C117, `BiermanKalmanFilter`.** The results for the image of a model are the images of the
results. -/
theorem C117_bierman (hn : 0 < n) (hk : 0 < k) (p : Params n m) (p' : Params k m)
    {os : List (Obs m)} (hne : os ≠ []) {E : ℕ → Mat k n} {e : ℕ → Vec k}
    (h : ImageOf p p' os.length E e) (hp : p.NoiseDef) (hp' : p'.NoiseDef)
    {out : List (Vec n × Mat n n)} :
    (bierFilter id p os = .ok out → bierFilter id p' os
      = .ok (out.mapIdx fun t r => (E t *ᵥ r.1 + e t, E t * r.2 * (E t)ᵀ))) ∧
    (bierSmooth id p os = .ok out → bierSmooth id p' os
      = .ok (out.mapIdx fun t r => (E t *ᵥ r.1 + e t, E t * r.2 * (E t)ᵀ))) := by
  rw [C30_filter_eq hn hp hne, C30_filter_eq hk hp' hne, C30_smooth_eq hn hp hne,
    C30_smooth_eq hk hp' hne]
  exact ⟨C117_filter p p' os h, C117_smooth p p' os h (hp.psd _)⟩

/-- The definiteness holds for the example beside `C117_offsets_as_state` (for the image with fewer
components). -/
example : exFollower.NoiseDef ∧ exNoisyStep.NoiseDef :=
  ⟨⟨⟨_, rfl, PosSemidef.one⟩, ⟨_, rfl, PosDef.one⟩, PosSemidef.one⟩,
    ⟨⟨_, rfl, PosSemidef.one⟩, ⟨_, rfl, PosDef.one⟩, PosSemidef.one⟩⟩

end Verif
