import Verif.Proofs.Loglik
import Verif.Props.Posterior

/-!
# C08–C19, C22, C27: structural properties of runs

About `kfFilter`, `kfSmooth`, `kfLoglik`, `kfEm`, `filterUpdate` (the methods of `KalmanFilter`).
-/

open Matrix MeasureTheory

namespace Verif

variable {n m : ℕ} {α : Type}

/-! ### C08 -/

/-- **C08.** With positive semidefinite parameters every covariance that `filter` or `smooth`
returns is positive semidefinite (in particular symmetric). -/
theorem C08_covariances_psd (p : Params n m) (os : List (Obs m)) (hpsd : p.PSD os.length) :
    (∀ out, kfFilter p os = .ok out → ∀ r ∈ out, r.2.PosSemidef ∧ r.2ᵀ = r.2) ∧
    (∀ out, kfSmooth p os = .ok out → ∀ r ∈ out, r.2.PosSemidef ∧ r.2ᵀ = r.2) := by
  have key : ∀ M : Mat n n, M.PosSemidef → M.PosSemidef ∧ Mᵀ = M := fun M h =>
    ⟨h, symm_of_posSemidef h⟩
  constructor
  · intro out h r hr
    have hout := kfFilter_ok h
    subst hout
    simp only [List.mem_map, List.mem_range] at hr
    obtain ⟨t, ht, rfl⟩ := hr
    rw [kfFilter] at h
    have hc : p.Covers os.length := by
      cases hf : filterFull p os with
      | error e => rw [hf] at h; cases h
      | ok l =>
        rcases filterFull_ok_iff.mp ⟨l, hf⟩ with rfl | hc
        · simp at ht
        · exact hc
    exact key _ ((hpsd.fn hc).filt ht _)
  · intro out h r hr
    obtain ⟨hne, hc, rfl⟩ := kfSmooth_ok h
    simp only [List.mem_map, List.mem_range] at hr
    obtain ⟨t, ht, rfl⟩ := hr
    have hP := hpsd.fn hc
    obtain ⟨T, hT⟩ : ∃ T, os.length = T + 1 :=
      ⟨os.length - 1, by have := List.length_pos_iff.mpr hne; omega⟩
    rw [hT] at hP ht ⊢
    exact key _ (hP.smooth (T := T) (t := t) (by omega) _)

example : ∃ os : List (Obs 1), os.length = 3 ∧ exParams.PSD os.length ∧
    ∃ out, kfSmooth exParams os = .ok out :=
  ⟨[⟨0, fun _ => false⟩, ⟨0, fun _ => true⟩, ⟨0, fun _ => false⟩], rfl, exParams_psd,
    _, kfSmooth_eq (by simp) (definedFor_iff_covers.mp exParams_definedFor)⟩

/-! ### C09 -/

/-- **C09.** At each time the filtered covariance is at most the predicted one and the smoothed
covariance at most the filtered one, in the positive-semidefinite order. -/
theorem C09_uncertainty_decreases (p : Params n m) (os : List (Obs m)) (hpsd : p.PSD os.length) :
    (∀ steps, filterFull p os = .ok steps →
      ∀ s ∈ steps, (s.predCov - s.filtCov).PosSemidef) ∧
    (∀ f s, kfFilter p os = .ok f → kfSmooth p os = .ok s →
      ∀ (t : ℕ) rf rs, f[t]? = some rf → s[t]? = some rs → (rf.2 - rs.2).PosSemidef) := by
  constructor
  · intro steps h s hs
    have hl := filterFull_ok h
    subst hl
    simp only [List.mem_map, List.mem_range] at hs
    obtain ⟨t, ht, rfl⟩ := hs
    have hc : p.Covers os.length := by
      rcases filterFull_ok_iff.mp ⟨_, h⟩ with rfl | hc
      · simp at ht
      · exact hc
    have hP := hpsd.fn hc
    by_cases hm : (obsFn os t).missing
    · rw [(p.fn.kf_missing _ hm).2.2, sub_self]
      exact PosSemidef.zero
    · have hp := hP.pred ht (obsFn os)
      rw [(p.fn.kf_observed _ hm).2.2, sub_sub_cancel,
        ← gain_mul_transpose _ hp (hP.R t ht)]
      exact posSemidef_conj' (innov_posSemidef _ hp (hP.R t ht)) _
  · intro f s hf hs t rf rs hrf hrs
    obtain ⟨hne, hc, rfl⟩ := kfSmooth_ok hs
    have hf' := kfFilter_ok hf
    subst hf'
    obtain ⟨T, hT⟩ : ∃ T, os.length = T + 1 :=
      ⟨os.length - 1, by have := List.length_pos_iff.mpr hne; omega⟩
    have hP := hpsd.fn hc
    rw [hT] at hP
    simp only [hT, List.getElem?_map, Option.map_eq_some_iff, Nat.add_sub_cancel,
      List.getElem?_range] at hrf hrs
    obtain ⟨t1, h1, rfl⟩ := hrf
    obtain ⟨t2, h2, rfl⟩ := hrs
    have e1 := List.getElem?_eq_some_iff.mp h1
    have e2 := List.getElem?_eq_some_iff.mp h2
    obtain ⟨l1, e1⟩ := e1
    obtain ⟨l2, e2⟩ := e2
    simp only [List.getElem_range, List.length_range] at e1 e2 l1 l2
    subst e1
    subst e2
    exact hP.smooth_le_filt (by omega) _

/-- The hypotheses are met by `exParams` and three observations, the second masked. -/
example : ∃ (os : List (Obs 1)) (f s : List (Vec 2 × Mat 2 2)), os.length = 3 ∧
    exParams.PSD os.length ∧ kfFilter exParams os = .ok f ∧ kfSmooth exParams os = .ok s ∧
    f.length = 3 ∧ s.length = 3 := by
  refine ⟨[⟨![1], fun _ => false⟩, ⟨![2], fun _ => true⟩, ⟨![4], fun _ => false⟩], _, _, rfl, exParams_psd,
    kfFilter_eq (definedFor_iff_covers.mp exParams_definedFor),
    kfSmooth_eq (by simp) (definedFor_iff_covers.mp exParams_definedFor), by simp, by simp⟩

/-! ### C10 -/

/-- **C10.** Two data sets of the same length with the same missing rows get the same covariances
from `filter` and from `smooth`, whatever the values. -/
theorem C10_covariances_ignore_values (p : Params n m) (os os' : List (Obs m))
    (h : List.Forall₂ (fun o o' : Obs m => (o.missing ↔ o'.missing)) os os') :
    (kfFilter p os).map (List.map Prod.snd) = (kfFilter p os').map (List.map Prod.snd) ∧
    (kfSmooth p os).map (List.map Prod.snd) = (kfSmooth p os').map (List.map Prod.snd) := by
  have hlen := h.length_eq
  have hmiss : ∀ i, ((obsFn os i).missing ↔ (obsFn os' i).missing) := by
    intro i
    by_cases hi : i < os.length
    · rw [obsFn_eq hi, obsFn_eq (by omega)]
      exact (List.forall₂_iff_get.mp h).2 i hi (by omega)
    · simp [obsFn, hi, show ¬ i < os'.length by omega]
  by_cases hne : os = []
  · subst hne
    have : os' = [] := List.length_eq_zero_iff.mp hlen.symm
    subst this
    exact ⟨rfl, rfl⟩
  by_cases hc : p.Covers os.length
  · have hne' : os' ≠ [] := by rintro rfl; exact hne (List.length_eq_zero_iff.mp hlen)
    rw [kfFilter_eq hc, kfFilter_eq (by rw [← hlen]; exact hc), kfSmooth_eq hne hc,
      kfSmooth_eq hne' (by rw [← hlen]; exact hc)]
    simp only [Except.map, List.map_map, ← hlen]
    constructor <;> congr 1 <;> apply List.map_congr_left <;> intro t ht <;>
      simp only [Function.comp, List.mem_range] at ht ⊢
    · exact (p.fn.kf_cov_congr fun i _ => hmiss i).2.2
    · exact (p.fn.ks_cov_congr (fun i _ => hmiss i) (by omega)).1
  · have hf : ∀ xs : List (Obs m), xs.length = os.length →
        filterFull p xs = .error .indexError := by
      intro xs hxs
      cases hx : filterFull p xs with
      | error e => rw [filterFull_error hx]
      | ok l =>
        rcases filterFull_ok_iff.mp ⟨l, hx⟩ with rfl | h'
        · exact absurd (List.length_eq_zero_iff.mp hxs.symm) hne
        · rw [hxs] at h'; exact absurd h' hc
    rw [kfFilter, kfFilter, kfSmooth, kfSmooth, hf os rfl, hf os' hlen.symm]
    exact ⟨rfl, rfl⟩

/-- Two data sets with different values and the same masked row. -/
example : List.Forall₂ (fun o o' : Obs 1 => (o.missing ↔ o'.missing))
    [⟨![1], fun _ => false⟩, ⟨![2], fun _ => true⟩, ⟨![4], fun _ => false⟩]
    [⟨![7], fun _ => false⟩, ⟨![8], fun _ => true⟩, ⟨![9], fun _ => false⟩] :=
  .cons (by simp [Obs.missing]) (.cons (by simp [Obs.missing]) (.cons (by simp [Obs.missing]) .nil))

/-! ### C11 -/

/-- **C11.** Filtering a prefix of the observations gives the prefix of the results. -/
theorem C11_filter_causal (p : Params n m) (os : List (Obs m)) (k : ℕ)
    (out : List (Vec n × Mat n n)) (h : kfFilter p os = .ok out) :
    kfFilter p (os.take k) = .ok (out.take k) := by
  rcases Nat.eq_zero_or_pos (os.take k).length with h0 | h0
  · have e := List.length_eq_zero_iff.mp h0
    have hout := kfFilter_ok h
    rw [e]
    rw [List.take_eq_nil_iff] at e
    rcases e with rfl | rfl
    · subst hout; rfl
    · subst hout; simp; rfl
  have hc : p.Covers os.length := by
    rw [kfFilter] at h
    cases hf : filterFull p os with
    | error e => rw [hf] at h; cases h
    | ok l =>
      rcases filterFull_ok_iff.mp ⟨l, hf⟩ with rfl | hc
      · simp at h0
      · exact hc
  have hlen : (os.take k).length ≤ os.length := by simp
  rw [kfFilter_eq (hc.mono hlen), kfFilter_ok h, ← List.map_take, List.length_take,
    List.take_range]
  congr 1
  apply List.map_congr_left
  intro t ht
  rw [List.mem_range] at ht
  rw [p.fn.kf_congr (z := obsFn (os.take k)) (z' := obsFn os) fun i hi => ?_]
  have : obsFn (os.take k) i = obsFn os i := by
    simp only [obsFn, List.getD_eq_getElem?_getD, List.getElem?_take]
    rw [if_pos (by omega)]
  rw [this]
  exact Obs.Sim.refl _

/-- The hypothesis of C11 is met by `exParams` and three observations; taking two of them leaves
two rows. -/
example : ∃ out, kfFilter exParams
    [⟨![1], fun _ => false⟩, ⟨![2], fun _ => true⟩, ⟨![4], fun _ => false⟩] = .ok out ∧
    (out.take 2).length = 2 :=
  ⟨_, kfFilter_eq (definedFor_iff_covers.mp exParams_definedFor), by simp⟩

/-! ### C13 -/

/-- **C13.** Filtering `xs ++ ys` is filtering `xs` and then filtering `ys` with the parameters of
the later time steps, starting from the prediction made from the last filtered moments. -/
theorem C13_filter_resume (p : Params n m) (xs ys : List (Obs m))
    (out : List (Vec n × Mat n n)) (hx : kfFilter p xs = .ok out)
    (mean : Vec n) (cov : Mat n n) (hlast : out.getLast? = some (mean, cov))
    (A Q : Mat n n) (b : Vec n) (hA : lastDims p.A (xs.length - 1) = .ok A)
    (hQ : lastDims p.Q (xs.length - 1) = .ok Q) (hb : lastDims p.b (xs.length - 1) = .ok b) :
    kfFilter p (xs ++ ys)
      = (kfFilter (p.resume xs.length (A *ᵥ mean + b) (A * cov * Aᵀ + Q)) ys).map (out ++ ·) := by
  rw [kfFilter] at hx
  cases hf : filterFull p xs with
  | error e => rw [hf] at hx; cases hx
  | ok l =>
    rw [hf] at hx
    simp only [bind, Except.bind, pure, Except.pure, Except.ok.injEq] at hx
    subst hx
    rw [List.getLast?_map, Option.map_eq_some_iff] at hlast
    obtain ⟨s, hs, hs'⟩ := hlast
    cases hs'
    rw [kfFilter, kfFilter, filterFull, filterLoop_append p 0 none xs ys l hf, hs]
    simp only [Option.some_or, Nat.zero_add]
    rw [filterLoop_restart p xs.length s ys hA hQ hb]
    cases filterFull (p.resume xs.length (A *ᵥ s.filtMean + b) (A * s.filtCov * Aᵀ + Q)) ys with
    | error e => rfl
    | ok l' => simp [Except.map, bind, Except.bind, pure, Except.pure]

/-- The hypotheses of C13 are met by `exParams` and two observations, to be continued by a third;
the parameters of the step in between are those of time 1. -/
example : ∃ out mean cov, kfFilter exParams [⟨![1], fun _ => false⟩, ⟨![2], fun _ => true⟩] = .ok out ∧
    out.getLast? = some (mean, cov) ∧ lastDims exParams.A 1 = .ok !![1, 2; 0, 1] ∧
    lastDims exParams.Q 1 = .ok !![0, 0; 0, 1] ∧ lastDims exParams.b 1 = .ok ![0, 1] ∧
    ∃ out', kfFilter exParams ([⟨![1], fun _ => false⟩, ⟨![2], fun _ => true⟩]
      ++ [⟨![4], fun _ => false⟩]) = .ok out' :=
  ⟨_, _, _, kfFilter_eq ((definedFor_iff_covers.mp exParams_definedFor).mono (by simp)), rfl, rfl, rfl,
    rfl, _, kfFilter_eq (definedFor_iff_covers.mp exParams_definedFor)⟩

/-! ### C14 -/

/-- **C14.** `smooth` returns one entry per observation and its last entry is the last entry of
`filter`. -/
theorem C14_last_smoothed_is_last_filtered (p : Params n m) (os : List (Obs m))
    (f s : List (Vec n × Mat n n)) (hf : kfFilter p os = .ok f) (hs : kfSmooth p os = .ok s) :
    s.length = os.length ∧ f.length = os.length ∧ s ≠ [] ∧ s.getLast? = f.getLast? := by
  obtain ⟨hne, hc, rfl⟩ := kfSmooth_ok hs
  have hf' := kfFilter_ok hf
  subst hf'
  obtain ⟨T, hT⟩ : ∃ T, os.length = T + 1 :=
    ⟨os.length - 1, by have := List.length_pos_iff.mpr hne; omega⟩
  refine ⟨by simp, by simp, by simp [hne], ?_⟩
  rw [List.getLast?_map, List.getLast?_map, hT, List.getLast?_range]
  simp [p.fn.ks_last]

example : ∃ f s, kfFilter exParams
      [⟨![1], fun _ => false⟩, ⟨![2], fun _ => true⟩, ⟨![4], fun _ => false⟩] = .ok f ∧
    kfSmooth exParams [⟨![1], fun _ => false⟩, ⟨![2], fun _ => true⟩, ⟨![4], fun _ => false⟩]
      = .ok s :=
  ⟨_, _, kfFilter_eq (definedFor_iff_covers.mp exParams_definedFor),
    kfSmooth_eq (by simp) (definedFor_iff_covers.mp exParams_definedFor)⟩

/-! ### C15 -/

/-- **C15.** Two masked arrays that agree on which rows have a masked component and on the values
of the other rows give the same results everywhere: values under the mask are irrelevant, and
masking a component is masking its row. -/
theorem C15_masked_values_irrelevant (p : Params n m) (os os' : List (Obs m))
    (h : SameData os os') :
    kfFilter p os = kfFilter p os' ∧ kfSmooth p os = kfSmooth p os' ∧
    kfLoglik p os = kfLoglik p os' ∧
    (∀ nIter vars, kfEm p os nIter vars = kfEm p os' nIter vars) ∧
    (∀ o o' : Obs m, o.Sim o' → ∀ mean cov a,
      filterUpdate p mean cov (some o) a = filterUpdate p mean cov (some o') a) := by
  refine ⟨?_, ?_, ?_, ?_, ?_⟩
  · rw [kfFilter, kfFilter, filterFull_sim p h]
  · rw [kfSmooth, kfSmooth, filterFull_sim p h]
  · simp only [kfLoglik, filterFull_sim p h, loglikLoop_sim p h]
  · intro k vars
    exact emLoop_sim p vars h k p
  · intro o o' ho mean cov a
    simp only [filterUpdate, filterCorrect_sim ho]

/-- Concretely: a row with one masked component, and the same row fully masked with other data. -/
example : SameData
    [⟨![1, 2], ![true, false]⟩, ⟨![3, 4], ![false, false]⟩]
    [⟨![7, 8], ![true, true]⟩, (⟨![3, 4], ![false, false]⟩ : Obs 2)] := by
  refine List.Forall₂.cons ⟨?_, fun h => ?_⟩ (List.Forall₂.cons (Obs.Sim.refl _) .nil)
  · exact ⟨fun _ => ⟨0, rfl⟩, fun _ => ⟨0, rfl⟩⟩
  · exact absurd ⟨0, rfl⟩ h

end Verif
