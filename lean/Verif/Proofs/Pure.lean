import Verif.Model.Standard

/-!
# Runs of the filter as functions of time

For parameters that cover the run, the loops of the model (which return `Res` and index lists)
equal recursions over time on resolved parameters.  These are proof devices; the properties are
stated about `filterFull`, `kfFilter`, `kfSmooth`, ….
-/

open Matrix

namespace Verif

variable {n m : ℕ} {α : Type}

/-- The parameter has an entry for each of the times `0, …, k - 1`. -/
def TV.Covers (p : TV α) (k : ℕ) : Prop :=
  match p with
  | .const _ => True
  | .seq l => k ≤ l.length

instance (p : TV α) (k : ℕ) : Decidable (p.Covers k) := by
  cases p <;> simp only [TV.Covers] <;> infer_instance

/-- Value at time `t` (a junk value past the end). -/
def TV.get [Inhabited α] (p : TV α) (t : ℕ) : α :=
  match p with
  | .const a => a
  | .seq l => l.getD t default

theorem lastDims_eq_ok [Inhabited α] {p : TV α} {t : ℕ} (h : p.Covers (t + 1)) :
    lastDims p t = .ok (p.get t) := by
  cases p with
  | const a => rfl
  | seq l =>
    simp only [TV.Covers] at h
    simp [lastDims, TV.get, List.getElem?_eq_getElem (show t < l.length by omega)]

theorem lastDims_eq_error {p : TV α} {t : ℕ} (h : ¬ p.Covers (t + 1)) :
    lastDims p t = .error .indexError := by
  cases p with
  | const a => exact absurd trivial h
  | seq l =>
    simp only [TV.Covers] at h
    simp [lastDims, List.getElem?_eq_none (show l.length ≤ t by omega)]

theorem TV.Covers.mono {p : TV α} {k k' : ℕ} (h : p.Covers k) (hk : k' ≤ k) : p.Covers k' := by
  cases p with
  | const a => trivial
  | seq l => exact le_trans hk h

theorem TV.covers_zero (p : TV α) : p.Covers 0 := by
  cases p with
  | const a => trivial
  | seq l => exact Nat.zero_le _

/-- Parameters as functions of time. -/
structure PFun (n m : ℕ) where
  A : ℕ → Mat n n
  b : ℕ → Vec n
  Q : ℕ → Mat n n
  C : ℕ → Mat m n
  d : ℕ → Vec m
  R : ℕ → Mat m m
  mu0 : Vec n
  S0 : Mat n n

instance instInhMat : Inhabited (Mat n m) := ⟨0⟩

/-- Resolve the parameters. -/
def Params.fn (p : Params n m) : PFun n m :=
  ⟨p.A.get, p.b.get, p.Q.get, p.C.get, p.d.get, p.R.get, p.mu0, p.S0⟩

/-- All parameters cover a run over `T` observations. -/
structure Params.Covers (p : Params n m) (T : ℕ) : Prop where
  A : p.A.Covers (T - 1)
  b : p.b.Covers (T - 1)
  Q : p.Q.Covers (T - 1)
  C : p.C.Covers T
  d : p.d.Covers T
  R : p.R.Covers T

theorem Params.Covers.mono {p : Params n m} {T T' : ℕ} (h : p.Covers T) (hT : T' ≤ T) :
    p.Covers T' :=
  ⟨h.A.mono (by omega), h.b.mono (by omega), h.Q.mono (by omega), h.C.mono hT, h.d.mono hT,
    h.R.mono hT⟩

/-- Correction of the predicted moments at time `t`. -/
noncomputable def PFun.correct (P : PFun n m) (t : ℕ) (mean : Vec n) (cov : Mat n n) (o : Obs m) :
    Step n m :=
  let c := filterCorrect (P.C t) (P.R t) (P.d t) mean cov o
  ⟨mean, cov, c.1, c.2.1, c.2.2⟩

/-- Step from time `t` to `t + 1`. -/
noncomputable def PFun.next (P : PFun n m) (t : ℕ) (s : Step n m) (o : Obs m) : Step n m :=
  let pr := filterPredict (P.A t) (P.Q t) (P.b t) s.filtMean s.filtCov
  P.correct (t + 1) pr.1 pr.2 o

/-- The filter as a function of time. -/
noncomputable def PFun.kf (P : PFun n m) (z : ℕ → Obs m) : ℕ → Step n m
  | 0 => P.correct 0 P.mu0 P.S0 (z 0)
  | t + 1 => P.next t (P.kf z t) (z (t + 1))

/-- The observations as a function of time (masked past the end). -/
def obsFn (obs : List (Obs m)) (t : ℕ) : Obs m := obs.getD t ⟨0, fun _ => true⟩

theorem obsFn_eq {obs : List (Obs m)} {t : ℕ} (h : t < obs.length) : obsFn obs t = obs[t] := by
  simp [obsFn, h]

theorem filterStep_none {p : Params n m} (o : Obs m)
    (hC : p.C.Covers 1) (hd : p.d.Covers 1) (hR : p.R.Covers 1) :
    filterStep p 0 none o = .ok (p.fn.correct 0 p.mu0 p.S0 o) := by
  simp only [filterStep, lastDims_eq_ok hC, lastDims_eq_ok hd, lastDims_eq_ok hR]
  rfl

theorem filterStep_some {p : Params n m} {t : ℕ} (s : Step n m) (o : Obs m)
    (h : p.Covers (t + 2)) :
    filterStep p (t + 1) (some s) o = .ok (p.fn.next t s o) := by
  have hA : p.A.Covers (t + 1) := h.A
  have hb : p.b.Covers (t + 1) := h.b
  have hQ : p.Q.Covers (t + 1) := h.Q
  have hC : p.C.Covers (t + 1 + 1) := h.C
  have hd : p.d.Covers (t + 1 + 1) := h.d
  have hR : p.R.Covers (t + 1 + 1) := h.R
  simp only [filterStep, Nat.add_sub_cancel, lastDims_eq_ok hA, lastDims_eq_ok hb,
    lastDims_eq_ok hQ, lastDims_eq_ok hC, lastDims_eq_ok hd, lastDims_eq_ok hR]
  rfl

theorem filterLoop_some {p : Params n m} (z : ℕ → Obs m) (os : List (Obs m)) (t : ℕ)
    (h : p.Covers (t + 1 + os.length)) (hz : ∀ i (hi : i < os.length), z (t + 1 + i) = os[i]) :
    filterLoop p (t + 1) (some (p.fn.kf z t)) os
      = .ok ((List.range os.length).map fun i => p.fn.kf z (t + 1 + i)) := by
  induction os generalizing t with
  | nil => rfl
  | cons o os ih =>
    have h0 : z (t + 1) = o := hz 0 (by simp)
    have e : p.fn.next t (p.fn.kf z t) o = p.fn.kf z (t + 1) := by rw [← h0]; rfl
    rw [filterLoop, filterStep_some _ _ (h.mono (by simp; omega)), e]
    have := ih (t + 1) (by rw [List.length_cons] at h; convert h using 1; omega) (fun i hi => by
      have := hz (i + 1) (by simpa using hi)
      rw [← add_assoc, add_right_comm] at this
      simpa using this)
    simp only [bind, Except.bind, this, pure, Except.pure, List.length_cons]
    congr 1
    rw [List.range_succ_eq_map, List.map_cons, List.map_map]
    simp only [add_zero, List.cons.injEq, true_and]
    apply List.map_congr_left
    intro i _
    simp only [Function.comp]
    congr 1
    omega

theorem filterFull_eq {p : Params n m} (z : ℕ → Obs m) (os : List (Obs m))
    (h : p.Covers os.length) (hz : ∀ i (hi : i < os.length), z i = os[i]) :
    filterFull p os = .ok ((List.range os.length).map (p.fn.kf z)) := by
  cases os with
  | nil => rfl
  | cons o os =>
    have h0 : z 0 = o := hz 0 (by simp)
    have h1 := h.mono (show 1 ≤ (o :: os).length by simp)
    have e : p.fn.correct 0 p.mu0 p.S0 o = p.fn.kf z 0 := by rw [← h0]; rfl
    rw [filterFull, filterLoop, filterStep_none o h1.C h1.d h1.R, e]
    have := filterLoop_some (p := p) z os 0
      (by rw [List.length_cons] at h; convert h using 1; omega) (fun i hi => by
      have := hz (i + 1) (by simpa using hi)
      rw [show 0 + 1 + i = i + 1 by omega, this]
      simp)
    simp only [bind, Except.bind, zero_add] at this ⊢
    rw [this]
    simp only [pure, Except.pure, List.length_cons]
    congr 1
    rw [List.range_succ_eq_map, List.map_cons, List.map_map]
    simp only [List.cons.injEq, true_and]
    apply List.map_congr_left
    intro i _
    simp only [Function.comp, add_comm 1 i]

theorem filterFull_obsFn {p : Params n m} {os : List (Obs m)} (h : p.Covers os.length) :
    filterFull p os = .ok ((List.range os.length).map (p.fn.kf (obsFn os))) :=
  filterFull_eq _ _ h fun _ hi => obsFn_eq hi

/-- A run succeeds only if the parameters cover it. -/
theorem filterStep_ok_covers {p : Params n m} {t : ℕ} {s : Option (Step n m)} {o : Obs m}
    {r : Step n m} (h : filterStep p t s o = .ok r) :
    p.C.Covers (t + 1) ∧ p.d.Covers (t + 1) ∧ p.R.Covers (t + 1) ∧
      (s.isSome → p.A.Covers (t - 1 + 1) ∧ p.b.Covers (t - 1 + 1) ∧ p.Q.Covers (t - 1 + 1)) := by
  by_cases hC : p.C.Covers (t + 1) <;> by_cases hd : p.d.Covers (t + 1) <;>
    by_cases hR : p.R.Covers (t + 1) <;> by_cases hA : p.A.Covers (t - 1 + 1) <;>
    by_cases hb : p.b.Covers (t - 1 + 1) <;> by_cases hQ : p.Q.Covers (t - 1 + 1) <;>
    rcases s with _ | s <;>
    first
    | exact ⟨hC, hd, hR, fun _ => ⟨hA, hb, hQ⟩⟩
    | (refine ⟨hC, hd, hR, ?_⟩; intro h; cases h; done)
    | (exfalso
       simp only [filterStep, lastDims_eq_ok, lastDims_eq_error, hC, hd, hR, hA, hb, hQ, bind,
        Except.bind, pure, Except.pure, not_false_eq_true, reduceCtorEq] at h)

/-- A failing step is an `IndexError`. -/
theorem filterStep_error {p : Params n m} {t : ℕ} {s : Option (Step n m)} {o : Obs m}
    {e : Err} (h : filterStep p t s o = .error e) : e = .indexError := by
  by_cases hC : p.C.Covers (t + 1) <;> by_cases hd : p.d.Covers (t + 1) <;>
    by_cases hR : p.R.Covers (t + 1) <;> by_cases hA : p.A.Covers (t - 1 + 1) <;>
    by_cases hb : p.b.Covers (t - 1 + 1) <;> by_cases hQ : p.Q.Covers (t - 1 + 1) <;>
    rcases s with _ | s <;>
    simp only [filterStep, lastDims_eq_ok, lastDims_eq_error, hC, hd, hR, hA, hb, hQ, bind,
        Except.bind, pure, Except.pure, not_false_eq_true, reduceCtorEq, Except.error.injEq] at h <;>
    exact h.symm

theorem filterLoop_error {p : Params n m} {os : List (Obs m)} {t : ℕ} {s : Option (Step n m)}
    {e : Err} (h : filterLoop p t s os = .error e) : e = .indexError := by
  induction os generalizing t s with
  | nil => cases h
  | cons o os ih =>
    rw [filterLoop] at h
    cases hs : filterStep p t s o with
    | error e' =>
      rw [hs] at h
      cases h
      exact filterStep_error hs
    | ok r =>
      rw [hs] at h
      simp only [bind, Except.bind] at h
      cases hl : filterLoop p (t + 1) (some r) os with
      | error e' => rw [hl] at h; cases h; exact ih hl
      | ok l => rw [hl] at h; cases h

theorem filterLoop_ok_covers {p : Params n m} {os : List (Obs m)} {t : ℕ}
    {s : Option (Step n m)} {l : List (Step n m)} (h : filterLoop p t s os = .ok l)
    (hs : s.isSome) (ht : 0 < t) (hos : os ≠ []) : p.Covers (t + os.length) := by
  induction os generalizing t s l with
  | nil => exact absurd rfl hos
  | cons o os ih =>
    rw [filterLoop] at h
    cases hst : filterStep p t s o with
    | error e' => rw [hst] at h; cases h
    | ok r =>
      rw [hst] at h
      simp only [bind, Except.bind] at h
      obtain ⟨hC, hd, hR, hrest⟩ := filterStep_ok_covers hst
      obtain ⟨hA, hb, hQ⟩ := hrest hs
      cases os with
      | nil =>
        exact ⟨hA.mono (by simp; omega), hb.mono (by simp; omega), hQ.mono (by simp; omega), hC,
          hd, hR⟩
      | cons o' os =>
        cases hl : filterLoop p (t + 1) (some r) (o' :: os) with
        | error e' => rw [hl] at h; cases h
        | ok l' =>
          have := ih hl rfl (by omega) (by simp)
          rw [List.length_cons]
          convert this using 1
          omega

/-- The filter succeeds exactly when the parameters cover the run. -/
theorem filterFull_ok_iff {p : Params n m} {os : List (Obs m)} :
    (∃ l, filterFull p os = .ok l) ↔ (os = [] ∨ p.Covers os.length) := by
  constructor
  · rintro ⟨l, h⟩
    cases os with
    | nil => exact Or.inl rfl
    | cons o os =>
      right
      rw [filterFull, filterLoop] at h
      cases hst : filterStep p 0 none o with
      | error e' => rw [hst] at h; cases h
      | ok r =>
        rw [hst] at h
        simp only [bind, Except.bind] at h
        obtain ⟨hC, hd, hR, -⟩ := filterStep_ok_covers hst
        cases os with
        | nil =>
          exact ⟨TV.covers_zero _, TV.covers_zero _, TV.covers_zero _, hC, hd, hR⟩
        | cons o' os =>
          cases hl : filterLoop p 1 (some r) (o' :: os) with
          | error e' => rw [hl] at h; cases h
          | ok l' =>
            have := filterLoop_ok_covers hl rfl (by omega) (by simp)
            rw [List.length_cons]
            convert this using 1
            omega
  · rintro (rfl | h)
    · exact ⟨[], rfl⟩
    · exact ⟨_, filterFull_obsFn h⟩

theorem filterFull_error {p : Params n m} {os : List (Obs m)} {e : Err}
    (h : filterFull p os = .error e) : e = .indexError := filterLoop_error h

/-- Normal form of a successful run. -/
theorem filterFull_ok {p : Params n m} {os : List (Obs m)} {l : List (Step n m)}
    (h : filterFull p os = .ok l) : l = (List.range os.length).map (p.fn.kf (obsFn os)) := by
  rcases filterFull_ok_iff.mp ⟨l, h⟩ with rfl | hc
  · cases h; rfl
  · rw [filterFull_obsFn hc] at h
    cases h; rfl

/-! ### Smoother -/

/-- The smoother, `j` steps before the last time `T`. -/
noncomputable def PFun.ksBack (P : PFun n m) (z : ℕ → Obs m) (T : ℕ) : ℕ → SStep n
  | 0 => ⟨(P.kf z T).filtMean, (P.kf z T).filtCov, 0⟩
  | j + 1 =>
    let t := T - (j + 1)
    smoothUpdate (P.A t) (P.kf z t).filtMean (P.kf z t).filtCov
      (P.kf z (t + 1)).predMean (P.kf z (t + 1)).predCov (P.ksBack z T j).mean (P.ksBack z T j).cov

/-- The smoother at time `t` for a run with last time `T`. -/
noncomputable def PFun.ks (P : PFun n m) (z : ℕ → Obs m) (T t : ℕ) : SStep n :=
  P.ksBack z T (T - t)

theorem PFun.ks_last (P : PFun n m) (z : ℕ → Obs m) (T : ℕ) :
    P.ks z T T = ⟨(P.kf z T).filtMean, (P.kf z T).filtCov, 0⟩ := by
  simp [PFun.ks, PFun.ksBack]

theorem PFun.ks_lt (P : PFun n m) (z : ℕ → Obs m) {T t : ℕ} (h : t < T) :
    P.ks z T t = smoothUpdate (P.A t) (P.kf z t).filtMean (P.kf z t).filtCov
      (P.kf z (t + 1)).predMean (P.kf z (t + 1)).predCov (P.ks z T (t + 1)).mean
      (P.ks z T (t + 1)).cov := by
  obtain ⟨j, rfl⟩ : ∃ j, T = t + 1 + j := ⟨T - (t + 1), by omega⟩
  have h1 : t + 1 + j - t = j + 1 := by omega
  have h2 : t + 1 + j - (t + 1) = j := by omega
  have h3 : t + 1 + j - (j + 1) = t := by omega
  simp only [PFun.ks, h1, h2, PFun.ksBack, h3]

theorem smoothLoop_eq {p : Params n m} (z : ℕ → Obs m) (k t T : ℕ) (hT : T = t + k)
    (hA : p.A.Covers T) :
    smoothLoop p.A t (p.fn.kf z t) ((List.range k).map fun i => p.fn.kf z (t + 1 + i))
      = .ok (p.fn.ks z T t, (List.range k).map fun i => p.fn.ks z T (t + 1 + i)) := by
  induction k generalizing t with
  | zero =>
    simp only [add_zero] at hT
    subst hT
    simp [smoothLoop, PFun.ks_last, pure, Except.pure]
  | succ k ih =>
    have := ih (t + 1) (by omega)
    rw [List.range_succ_eq_map, List.map_cons, List.map_map, smoothLoop]
    have e : ((List.range k).map ((fun i => p.fn.kf z (t + 1 + i)) ∘ Nat.succ))
        = (List.range k).map fun i => p.fn.kf z (t + 1 + 1 + i) := by
      apply List.map_congr_left
      intro i _
      simp only [Function.comp]
      congr 1
      omega
    rw [e]
    simp only [add_zero]
    rw [this, lastDims_eq_ok (hA.mono (by omega))]
    simp only [bind, Except.bind, pure, Except.pure]
    congr 2
    · rw [PFun.ks_lt (t := t) _ _ (by omega)]; rfl
    · rw [List.map_cons, List.map_map]
      simp only [add_zero, List.cons.injEq, true_and]
      apply List.map_congr_left
      intro i _
      simp only [Function.comp]
      congr 1
      omega

theorem smoothFull_eq {p : Params n m} (z : ℕ → Obs m) (T : ℕ) (hA : p.A.Covers T) :
    smoothFull p.A ((List.range (T + 1)).map (p.fn.kf z))
      = .ok ((List.range (T + 1)).map (p.fn.ks z T)) := by
  rw [List.range_succ_eq_map, List.map_cons, List.map_map, smoothFull]
  have := smoothLoop_eq (p := p) z T 0 T (by omega) hA
  have e : (List.range T).map (p.fn.kf z ∘ Nat.succ)
      = (List.range T).map fun i => p.fn.kf z (0 + 1 + i) := by
    apply List.map_congr_left
    intro i _
    simp only [Function.comp]
    congr 1
    omega
  rw [e, this]
  simp only [bind, Except.bind, pure, Except.pure, List.map_cons, List.map_map]
  congr 2
  apply List.map_congr_left
  intro i _
  simp only [Function.comp]
  congr 1
  omega

/-- Normal form of a filter run through the public function. -/
theorem kfFilter_ok {p : Params n m} {os : List (Obs m)} {out : List (Vec n × Mat n n)}
    (h : kfFilter p os = .ok out) :
    out = (List.range os.length).map
      (fun t => ((p.fn.kf (obsFn os) t).filtMean, (p.fn.kf (obsFn os) t).filtCov)) := by
  rw [kfFilter] at h
  cases hf : filterFull p os with
  | error e => rw [hf] at h; cases h
  | ok l =>
    rw [hf] at h
    simp only [bind, Except.bind, pure, Except.pure, Except.ok.injEq] at h
    rw [← h, filterFull_ok hf, List.map_map]
    rfl

/-- Normal form of a smoother run through the public function. -/
theorem kfSmooth_ok {p : Params n m} {os : List (Obs m)} {out : List (Vec n × Mat n n)}
    (h : kfSmooth p os = .ok out) :
    os ≠ [] ∧ p.Covers os.length ∧ out = (List.range os.length).map
      (fun t => ((p.fn.ks (obsFn os) (os.length - 1) t).mean,
        (p.fn.ks (obsFn os) (os.length - 1) t).cov)) := by
  rw [kfSmooth] at h
  cases hf : filterFull p os with
  | error e => rw [hf] at h; cases h
  | ok l =>
    rw [hf] at h
    have hl := filterFull_ok hf
    rcases filterFull_ok_iff.mp ⟨l, hf⟩ with rfl | hc
    · subst hl
      simp [bind, Except.bind, smoothFull] at h
    · have hne : os ≠ [] := by
        rintro rfl
        subst hl
        simp [bind, Except.bind, smoothFull] at h
      obtain ⟨T, hT⟩ : ∃ T, os.length = T + 1 :=
        ⟨os.length - 1, by have := List.length_pos_iff.mpr hne; omega⟩
      refine ⟨hne, hc, ?_⟩
      have hA : p.A.Covers T := by have := hc.A; rwa [hT] at this
      simp only [bind, Except.bind, hl, hT, smoothFull_eq _ T hA, pure, Except.pure,
        Except.ok.injEq] at h
      rw [← h, hT, List.map_map]
      rfl

theorem kfSmooth_eq {p : Params n m} {os : List (Obs m)} (hne : os ≠ [])
    (hc : p.Covers os.length) :
    kfSmooth p os = .ok ((List.range os.length).map
      (fun t => ((p.fn.ks (obsFn os) (os.length - 1) t).mean,
        (p.fn.ks (obsFn os) (os.length - 1) t).cov))) := by
  obtain ⟨T, hT⟩ : ∃ T, os.length = T + 1 :=
    ⟨os.length - 1, by have := List.length_pos_iff.mpr hne; omega⟩
  have hA : p.A.Covers T := by have := hc.A; rwa [hT] at this
  rw [kfSmooth, filterFull_obsFn hc]
  simp only [bind, Except.bind, hT, smoothFull_eq _ T hA, pure, Except.pure, List.map_map]
  rfl

theorem kfFilter_eq {p : Params n m} {os : List (Obs m)} (hc : p.Covers os.length) :
    kfFilter p os = .ok ((List.range os.length).map
      (fun t => ((p.fn.kf (obsFn os) t).filtMean, (p.fn.kf (obsFn os) t).filtCov))) := by
  rw [kfFilter, filterFull_obsFn hc]
  simp only [bind, Except.bind, pure, Except.pure, List.map_map]
  rfl

end Verif
