import Verif.Props.Backwards
import Verif.Props.LeaveOneOutSqrt

/-!
# C116: models backwards in time, classes that work with square roots
-/

open Matrix

namespace Verif

variable {n m : ℕ}

theorem Params.PosDef.toPD {p : Params n m} (h : p.PosDef) (T : ℕ) : p.PD T := by
  obtain ⟨⟨Q, hQ, hQd⟩, ⟨R, hR, hRd⟩, hS⟩ := h
  refine ⟨fun t _ S e => ?_, fun t _ S e => ?_, hS⟩
  · rw [hQ] at e; cases e; exact hQd
  · rw [hR] at e; cases e; exact hRd

/-- **C116, `CholeskyKalmanFilter` and `BiermanKalmanFilter`.** With constant positive definite
covariances of both models: the rows and the results in reverse order, and the same log likelihood;
the routines of the two runs may choose different signs. -/
theorem C116_sqrt (qr qr' : QR) (p p' : Params n m) (os : List (Obs m)) (hm : 0 < m)
    (hp : p.PosDef) (hp' : p'.PosDef) (hdef : p.DefinedFor os.length) {mean : ℕ → Vec n}
    {cov : ℕ → Mat n n} (h : Backwards p p' os.length mean cov) (hne : os ≠ []) :
    (∃ out, cholSmooth qr p os = .ok out ∧ cholSmooth qr' p' os.reverse = .ok out.reverse ∧
      (0 < n → bierSmooth id p os = .ok out ∧ bierSmooth id p' os.reverse = .ok out.reverse)) ∧
    cholLoglik qr' p' os.reverse = cholLoglik qr p os ∧
    (0 < n → bierLoglik id p' os.reverse = bierLoglik id p os) := by
  have hne' : os.reverse ≠ [] := by simpa using hne
  obtain ⟨out, hs⟩ : ∃ out, kfSmooth p os = .ok out :=
    ⟨_, kfSmooth_eq hne (definedFor_iff_covers.mp hdef)⟩
  have hb := C116_backwards p p' os hm (hp.toPD _) h hs
  have hl : kfLoglik p' os.reverse = kfLoglik p os := by
    obtain ⟨R, hR, -⟩ := hp.R
    obtain ⟨R', hR', -⟩ := hp'.R
    have hT : 0 + (os.length - 1) + 1 = os.length := by
      have := List.length_pos_iff.mpr hne
      omega
    have e := (h.sensors 0 (os.length - 1) hT).2.2
    rw [hR, hR'] at e
    have e' : R' = R := Except.ok.inj e
    rw [e'] at hR'
    exact C116_loglikelihood p p' os hm hdef (hp.toPD _) hR hR' h
  refine ⟨⟨out, ?_, ?_, fun hn => ⟨?_, ?_⟩⟩, ?_, fun hn => ?_⟩
  · rw [C29_smooth_eq qr hp]; exact hs
  · rw [C29_smooth_eq qr' hp']; exact hb
  · rw [C30_smooth_eq hn hp.toNoiseDef hne]; exact hs
  · rw [C30_smooth_eq hn hp'.toNoiseDef hne']; exact hb
  · rw [C29_loglikelihood_eq qr hp, C29_loglikelihood_eq qr' hp', hl]
  · rw [C30_loglikelihood_eq hn hp.toNoiseDef hne, C30_loglikelihood_eq hn hp'.toNoiseDef hne', hl]

/-- The hypotheses hold for `exWalkForwards` and `exWalkBackwards` (with `Backwards` shown beside
`C116_reversible`). -/
example : exWalkForwards.PosDef ∧ exWalkBackwards.PosDef ∧ exWalkForwards.DefinedFor 2 :=
  ⟨⟨⟨_, rfl, PosDef.one⟩, ⟨_, rfl, PosDef.one⟩, PosDef.one⟩,
    ⟨⟨_, rfl, PosDef.one.smul (by norm_num)⟩, ⟨_, rfl, PosDef.one⟩,
      PosDef.one.smul (by norm_num)⟩,
    ⟨fun _ _ => ⟨_, rfl⟩, fun _ _ => ⟨_, rfl⟩, fun _ _ => ⟨_, rfl⟩, fun _ _ => ⟨_, rfl⟩,
      fun _ _ => ⟨_, rfl⟩, fun _ _ => ⟨_, rfl⟩⟩⟩

end Verif
