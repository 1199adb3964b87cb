import Verif.Proofs.Causal

/-!
# Normal form of the statistics that `em` uses
-/

open Matrix

namespace Verif

variable {n m : ℕ}

theorem smoothPairAux_map (f : ℕ → SStep n) (k t : ℕ) :
    smoothPairAux (f t) ((List.range k).map fun i => f (t + 1 + i))
      = (List.range k).map fun i => (f (t + 1 + i)).cov * (f (t + i)).gainᵀ := by
  induction k generalizing t with
  | zero => rfl
  | succ k ih =>
    rw [List.range_succ_eq_map, List.map_cons, List.map_map, List.map_cons, List.map_map,
      smoothPairAux]
    simp only [add_zero, List.cons.injEq, true_and]
    have e : ((fun i => f (t + 1 + i)) ∘ Nat.succ) = fun i => f (t + 1 + 1 + i) := by
      funext i; simp only [Function.comp]; congr 1; omega
    rw [e, ih (t + 1)]
    apply List.map_congr_left
    intro i _
    simp only [Function.comp]
    rw [show t + 1 + i.succ = t + 1 + 1 + i by omega, show t + i.succ = t + 1 + i by omega]

theorem smoothPair_map (f : ℕ → SStep n) (T : ℕ) :
    smoothPair ((List.range T).map f)
      = (List.range T).map fun t => if t = 0 then 0 else (f t).cov * (f (t - 1)).gainᵀ := by
  cases T with
  | zero => rfl
  | succ k =>
    rw [List.range_succ_eq_map, List.map_cons, List.map_map, List.map_cons, List.map_map,
      smoothPair]
    simp only [if_true, List.cons.injEq, true_and]
    have e : (f ∘ Nat.succ) = fun i => f (0 + 1 + i) := by
      funext i; simp only [Function.comp]; congr 1; omega
    rw [e, smoothPairAux_map f k 0]
    apply List.map_congr_left
    intro i _
    simp [add_comm]

/-- The statistics as a function of time. -/
noncomputable def PFun.stats (P : PFun n m) (z : ℕ → Obs m) (T t : ℕ) : EmStats n :=
  ⟨(P.ks z T t).mean, (P.ks z T t).cov,
    if t = 0 then 0 else (P.ks z T t).cov * (P.ks z T (t - 1)).gainᵀ⟩

theorem emStats_eq {p : Params n m} {os : List (Obs m)} (hne : os ≠ [])
    (hc : p.Covers os.length) :
    emStats p os
      = .ok ((List.range os.length).map (p.fn.stats (obsFn os) (os.length - 1))) := by
  obtain ⟨T, hT⟩ : ∃ T, os.length = T + 1 :=
    ⟨os.length - 1, by have := List.length_pos_iff.mpr hne; omega⟩
  have hA : p.A.Covers T := by have := hc.A; rwa [hT] at this
  rw [emStats, filterFull_obsFn hc]
  simp only [bind, Except.bind, hT, smoothFull_eq _ T hA, pure, Except.pure, smoothPair_map,
    Nat.add_sub_cancel]
  congr 1
  rw [List.zip_map', List.map_map]
  rfl

end Verif
