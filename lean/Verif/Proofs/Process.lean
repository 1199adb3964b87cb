import Verif.Proofs.Smoothing
import Mathlib.Probability.Independence.InfinitePi

/-!
# From the specification of the process to functions of time, and existence of the process
-/

open MeasureTheory ProbabilityTheory Matrix

namespace Verif

variable {n m : ℕ}

theorem lastDims_ok_get {α : Type} [Inhabited α] {p : TV α} {t : ℕ} {a : α}
    (h : lastDims p t = .ok a) : a = p.get t ∧ p.Covers (t + 1) := by
  by_cases hc : p.Covers (t + 1)
  · rw [lastDims_eq_ok hc] at h
    cases h
    exact ⟨rfl, hc⟩
  · rw [lastDims_eq_error hc] at h
    cases h

theorem covers_of_forall {α : Type} [Inhabited α] {p : TV α} {k : ℕ}
    (h : ∀ t, t < k → ∃ a, lastDims p t = .ok a) : p.Covers k := by
  cases k with
  | zero => exact TV.covers_zero _
  | succ k =>
    obtain ⟨a, ha⟩ := h k (by omega)
    exact (lastDims_ok_get ha).2

theorem definedFor_iff_covers {p : Params n m} {T : ℕ} : p.DefinedFor T ↔ p.Covers T := by
  constructor
  · intro h
    exact ⟨covers_of_forall fun t ht => h.A t (by omega),
      covers_of_forall fun t ht => h.b t (by omega), covers_of_forall fun t ht => h.Q t (by omega),
      covers_of_forall h.C, covers_of_forall h.d, covers_of_forall h.R⟩
  · intro h
    exact ⟨fun t ht => ⟨_, lastDims_eq_ok (h.A.mono (by omega))⟩,
      fun t ht => ⟨_, lastDims_eq_ok (h.b.mono (by omega))⟩,
      fun t ht => ⟨_, lastDims_eq_ok (h.Q.mono (by omega))⟩,
      fun t ht => ⟨_, lastDims_eq_ok (h.C.mono ht)⟩, fun t ht => ⟨_, lastDims_eq_ok (h.d.mono ht)⟩,
      fun t ht => ⟨_, lastDims_eq_ok (h.R.mono ht)⟩⟩

theorem Params.PSD.fn {p : Params n m} {T : ℕ} (h : p.PSD T) (hc : p.Covers T) : p.fn.PSD T :=
  ⟨fun t ht => h.Q t ht _ (lastDims_eq_ok (hc.Q.mono (by omega))),
   fun t ht => h.R t ht _ (lastDims_eq_ok (hc.R.mono ht)), h.S0⟩

theorem IsLinGauss.lg {Ω : Type*} [MeasurableSpace Ω] {μ : Measure Ω} {p : Params n m} {T : ℕ}
    {X : ℕ → Ω → Vec n} {Z : ℕ → Ω → Vec m} {noise : (i : Noise) → Ω → Vec (i.dim n m)}
    (h : IsLinGauss μ p T X Z noise) (hc : p.Covers T) : LG μ p.fn T X Z noise :=
  ⟨h.meas, h.indep, h.init_law,
   fun t ht => h.trans_law t ht _ (lastDims_eq_ok (hc.Q.mono (by omega))),
   fun t ht => h.obs_law t ht _ (lastDims_eq_ok (hc.R.mono ht)), h.init_eq,
   fun t ht => h.trans_eq t ht _ _ (lastDims_eq_ok (hc.A.mono (by omega)))
    (lastDims_eq_ok (hc.b.mono (by omega))),
   fun t ht => h.obs_eq t ht _ _ (lastDims_eq_ok (hc.C.mono ht)) (lastDims_eq_ok (hc.d.mono ht))⟩

/-- A run on a recorded outcome depends on the outcome through `seen`. -/
theorem Records.sim {mask : MaskPat m} {z : ℕ → Vec m} {os : List (Obs m)}
    (h : Records mask z os) {k : ℕ} (hk : k ≤ os.length) {i : ℕ} (hi : i < k) :
    (obsFn os i).Sim (zOf mask (seen mask (fun t (_ : Unit) => z t) k ()) i) := by
  obtain ⟨h1, h2⟩ := h i (by omega)
  rw [obsFn_eq (show i < os.length by omega)]
  have hmiss : os[i].missing ↔ mask.rowMissing i := by
    simp only [Obs.missing, MaskPat.rowMissing, h1]
  refine ⟨hmiss, fun hm => ?_⟩
  have hm' : ¬ mask.rowMissing i := fun h => hm (hmiss.mpr h)
  rw [h2 hm']
  simp [zOf, hi, seen, hm']

/-- A linear-Gaussian process exists for all parameters. -/
theorem exists_isLinGauss (p : Params n m) (T : ℕ) :
    ∃ (Ω : Type) (_ : MeasurableSpace Ω) (μ : Measure Ω) (_ : IsProbabilityMeasure μ)
      (X : ℕ → Ω → Vec n) (Z : ℕ → Ω → Vec m) (noise : (i : Noise) → Ω → Vec (i.dim n m)),
      IsLinGauss μ p T X Z noise := by
  let law : (i : Noise) → Measure (Vec (i.dim n m)) := fun i =>
    match i with
    | .init => gauss p.mu0 p.S0
    | .trans t => gauss 0 (p.Q.get t)
    | .obs t => gauss 0 (p.R.get t)
  haveI hprob : ∀ i, IsProbabilityMeasure (law i) := by
    rintro (_ | t | t) <;> simp only [law] <;> infer_instance
  let Ω := (i : Noise) → Vec (i.dim n m)
  let X : ℕ → Ω → Vec n := fun t ω =>
    Nat.rec (ω .init) (fun s x => p.A.get s *ᵥ x + p.b.get s + ω (.trans s)) t
  refine ⟨Ω, inferInstance, Measure.infinitePi law, inferInstance, X,
    fun t ω => p.C.get t *ᵥ X t ω + p.d.get t + ω (.obs t), fun i ω => ω i, ?_⟩
  refine ⟨fun i => measurable_pi_apply i,
    iIndepFun_infinitePi (X := fun (i : Noise) (x : Vec (i.dim n m)) => x) (fun i => measurable_id),
    Measure.infinitePi_map_eval law .init, ?_, ?_, fun _ => rfl, ?_, ?_⟩
  · intro t _ Q hQ
    rw [(lastDims_ok_get hQ).1]
    exact Measure.infinitePi_map_eval law (.trans t)
  · intro t _ R hR
    rw [(lastDims_ok_get hR).1]
    exact Measure.infinitePi_map_eval law (.obs t)
  · intro t _ A b hA hb ω
    rw [(lastDims_ok_get hA).1, (lastDims_ok_get hb).1]
  · intro t _ C d hC hd ω
    rw [(lastDims_ok_get hC).1, (lastDims_ok_get hd).1]

end Verif
