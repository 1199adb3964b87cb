import Verif.Proofs.Causal
import Verif.Proofs.Process

/-!
# Rows of the results of `filter` and `smooth`
-/

open Matrix

namespace Verif

variable {n m : ℕ} {p : Params n m} {os : List (Obs m)}

theorem kfFilter_covers {out : List (Vec n × Mat n n)} (h : kfFilter p os = .ok out)
    (hne : os ≠ []) : p.Covers os.length := by
  rw [kfFilter] at h
  cases hf : filterFull p os with
  | error e => rw [hf] at h; cases h
  | ok l => exact (filterFull_ok_iff.mp ⟨l, hf⟩).resolve_left hne

/-- Row `t` of the result of `filter`. -/
theorem kfFilter_row {out : List (Vec n × Mat n n)} (h : kfFilter p os = .ok out) {t : ℕ}
    {r : Vec n × Mat n n} (hr : out[t]? = some r) :
    t < os.length ∧ p.Covers os.length ∧
      r = ((p.fn.kf (obsFn os) t).filtMean, (p.fn.kf (obsFn os) t).filtCov) := by
  have e := kfFilter_ok h
  obtain ⟨ht, -⟩ := List.getElem?_eq_some_iff.mp hr
  subst e
  simp only [List.length_map, List.length_range] at ht
  simp only [List.getElem?_map, List.getElem?_range ht, Option.map_some, Option.some.injEq] at hr
  exact ⟨ht, kfFilter_covers h (by rintro rfl; simp at ht), hr.symm⟩

/-- Row `t` of the result of `smooth`. -/
theorem kfSmooth_row {out : List (Vec n × Mat n n)} (h : kfSmooth p os = .ok out) {t : ℕ}
    {r : Vec n × Mat n n} (hr : out[t]? = some r) :
    t < os.length ∧ p.Covers os.length ∧
      r = ((p.fn.ks (obsFn os) (os.length - 1) t).mean, (p.fn.ks (obsFn os) (os.length - 1) t).cov) := by
  obtain ⟨-, hc, e⟩ := kfSmooth_ok h
  obtain ⟨ht, -⟩ := List.getElem?_eq_some_iff.mp hr
  subst e
  simp only [List.length_map, List.length_range] at ht
  simp only [List.getElem?_map, List.getElem?_range ht, Option.map_some, Option.some.injEq] at hr
  exact ⟨ht, hc, hr.symm⟩

theorem lastDims_get {α : Type} [Inhabited α] {a : TV α} {k t : ℕ} (h : a.Covers k) (ht : t < k)
    {x : α} (hx : lastDims a t = .ok x) : a.get t = x := by
  rw [lastDims_eq_ok (h.mono (by omega))] at hx
  exact Except.ok.inj hx

end Verif
