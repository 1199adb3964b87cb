import Verif.Proofs.SmoothMonotone
import Verif.Props.Symmetry

/-!
# C51 for `smooth`: more noise or fewer observations never reduce the reported uncertainty
-/

open Matrix

namespace Verif

variable {n m : ℕ}

/-- **C51** for `smooth`. -/
theorem C51_smooth_monotone (p p' : Params n m) (os os' : List (Obs m))
    (hp : MoreNoise p p' os.length) (hpsd : p.PSD os.length)
    (hos : List.Forall₂ (fun o o' : Obs m => o.missing → o'.missing) os os')
    (r r' : List (Vec n × Mat n n)) (hr : kfSmooth p os = .ok r) (hr' : kfSmooth p' os' = .ok r') :
    List.Forall₂ (fun a a' : Vec n × Mat n n => (a'.2 - a.2).PosSemidef) r r' := by
  have hlen := hos.length_eq
  obtain ⟨hne, hc, rfl⟩ := kfSmooth_ok hr
  obtain ⟨hne', hc', rfl⟩ := kfSmooth_ok hr'
  rw [← hlen] at hc' ⊢
  rw [List.forall₂_map_left_iff, List.forall₂_map_right_iff, List.forall₂_same]
  intro t ht
  rw [List.mem_range] at ht
  have h := smoothC_mono (mask := fun i => (obsFn os i).mask) (mask' := fun i => (obsFn os' i).mask)
    hp hc hc' hpsd (hp.psd hc hpsd) (fun s hs => ?_) ht
  · have e : p.fn.smoothC (fun i => (obsFn os i).mask) os.length t
        = (p.fn.ks (obsFn os) (os.length - 1) t).cov :=
      (p.fn.ks_cov_congr (z := zNil _) (z' := obsFn os) (fun _ _ => Iff.rfl) (by omega)).1
    have e' : p'.fn.smoothC (fun i => (obsFn os' i).mask) os.length t
        = (p'.fn.ks (obsFn os') (os.length - 1) t).cov :=
      (p'.fn.ks_cov_congr (z := zNil _) (z' := obsFn os') (fun _ _ => Iff.rfl) (by omega)).1
    rw [e, e'] at h
    exact h
  · show (obsFn os s).missing → (obsFn os' s).missing
    rw [obsFn_eq hs, obsFn_eq (by omega)]
    exact (List.forall₂_iff_get.mp hos).2 s hs (by omega)

example : ∃ (p' : Params 2 1) (os os' : List (Obs 1)), os.length = 3 ∧
    MoreNoise exParams p' os.length ∧ exParams.PSD os.length ∧ p' ≠ exParams ∧
    List.Forall₂ (fun o o' : Obs 1 => o.missing → o'.missing) os os' ∧
    ∃ r r', kfSmooth exParams os = .ok r ∧ kfSmooth p' os' = .ok r' := by
  have hc : exParams.Covers 3 := definedFor_iff_covers.mp exParams_definedFor
  refine ⟨{ exParams with Q := .const (!![0, 0; 0, 1] + 1), S0 := 1 + 1 },
    [⟨![1], fun _ => false⟩, ⟨![9], fun _ => false⟩, ⟨![3], fun _ => false⟩],
    [⟨![1], fun _ => true⟩, ⟨![4], fun _ => false⟩, ⟨![5], fun _ => false⟩], rfl,
    ⟨rfl, rfl, rfl, rfl, fun t _ Q hQ => ?_, fun t _ R hR => ?_, rfl, ?_⟩, exParams_psd, ?_, ?_,
    _, _, kfSmooth_eq (by simp) hc, kfSmooth_eq (by simp) ?_⟩
  · cases hQ
    exact ⟨_, rfl, by rw [add_sub_cancel_left]; exact PosSemidef.one⟩
  · cases hR
    exact ⟨_, rfl, by rw [sub_self]; exact PosSemidef.zero⟩
  · show ((1 + 1 : Mat 2 2) - 1).PosSemidef
    rw [add_sub_cancel_left]; exact PosSemidef.one
  · intro h
    have := congrArg (fun q => q.S0 0 0) h
    simp [exParams] at this
  · refine .cons ?_ (.cons ?_ (.cons ?_ .nil)) <;> rintro ⟨i, hi⟩ <;> cases hi
  · exact ⟨hc.A, hc.b, trivial, hc.C, hc.d, hc.R⟩

end Verif
