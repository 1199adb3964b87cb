import Verif.Proofs.EmForms
import Verif.Proofs.Process
import Verif.Spec.Runs

/-!
# The EM step and loop
-/

open Matrix

namespace Verif

variable {n m : ℕ}

/-- Re-estimated observation matrix. -/
noncomputable def newC (f : ℕ → EmStats n) (g : ℕ → Obs m) (d : ℕ → Vec m) (N : ℕ) : Mat m n :=
  (∑ t ∈ Finset.range N, (g t).w • vecMulVec ((g t).val - d t) (f t).mean) *
    pinv (∑ t ∈ Finset.range N, (g t).w • ((f t).cov + vecMulVec (f t).mean (f t).mean))

/-- Re-estimated observation covariance. -/
noncomputable def newR (f : ℕ → EmStats n) (g : ℕ → Obs m) (C : ℕ → Mat m n) (d : ℕ → Vec m)
    (N : ℕ) : Mat m m :=
  if obsCount g N > 0 then (1 / (obsCount g N : ℝ)) • obsScatter f g C d N
    else obsScatter f g C d N

/-- Re-estimated transition matrix from `T` transitions. -/
noncomputable def newA (f : ℕ → EmStats n) (b : ℕ → Vec n) (T : ℕ) : Mat n n :=
  (∑ t ∈ Finset.range T, ((f (t + 1)).pair + vecMulVec (f (t + 1)).mean (f t).mean
        - vecMulVec (b t) (f t).mean)) *
    pinv (∑ t ∈ Finset.range T, ((f t).cov + vecMulVec (f t).mean (f t).mean))

/-- Re-estimated transition covariance from `T` transitions. -/
noncomputable def newQ (f : ℕ → EmStats n) (A : ℕ → Mat n n) (b : ℕ → Vec n) (T : ℕ) : Mat n n :=
  if T > 0 then (1 / (T : ℝ)) • transScatter f A b T else transScatter f A b T

/-- Re-estimated transition offset from `T` transitions. -/
noncomputable def newb (f : ℕ → EmStats n) (A : ℕ → Mat n n) (T : ℕ) : Vec n :=
  if T > 0 then (1 / (T : ℝ)) • ∑ t ∈ Finset.range T, ((f (t + 1)).mean - A t *ᵥ (f t).mean)
    else 0

/-- Re-estimated observation offset. -/
noncomputable def newd (f : ℕ → EmStats n) (g : ℕ → Obs m) (C : ℕ → Mat m n) (N : ℕ) : Vec m :=
  if obsCount g N > 0 then (1 / (obsCount g N : ℝ)) •
      ∑ t ∈ Finset.range N, (g t).w • ((g t).val - C t *ᵥ (f t).mean)
    else ∑ t ∈ Finset.range N, (g t).w • ((g t).val - C t *ᵥ (f t).mean)

/-- The parameters after one M-step on `T + 1` rows. -/
structure EmEqs (given : Params n m) (vars : EmVar → Bool) (old : Params n m)
    (f : ℕ → EmStats n) (g : ℕ → Obs m) (T : ℕ) (p' : Params n m) : Prop where
  C : p'.C = if vars .observationMatrices then .const (newC f g old.d.get (T + 1)) else given.C
  R : p'.R = if vars .observationCovariance then .const (newR f g p'.C.get old.d.get (T + 1))
    else given.R
  A : p'.A = if vars .transitionMatrices then .const (newA f old.b.get T) else given.A
  Q : p'.Q = if vars .transitionCovariance then .const (newQ f p'.A.get old.b.get T) else given.Q
  mu0 : p'.mu0 = if vars .initialStateMean then (f 0).mean else given.mu0
  S0 : p'.S0 = if vars .initialStateCovariance then
      (f 0).cov + vecMulVec ((f 0).mean - p'.mu0) ((f 0).mean - p'.mu0) else given.S0
  b : p'.b = if vars .transitionOffsets then .const (newb f p'.A.get T) else given.b
  d : p'.d = if vars .observationOffsets then .const (newd f g p'.C.get (T + 1)) else given.d

theorem TV.covers_ite {α : Type} (c : Bool) (a : α) (p : TV α) (k : ℕ) (h : p.Covers k) :
    (if c then TV.const a else p).Covers k := by
  split
  · trivial
  · exact h

theorem emStep_eq {given old : Params n m} (vars : EmVar → Bool) (f : ℕ → EmStats n)
    (g : ℕ → Obs m) (T : ℕ) (hg : given.Covers (T + 1)) (ho : old.Covers (T + 1)) :
    ∃ p', emStep given vars old ((List.range (T + 1)).map f) ((List.range (T + 1)).map g) = .ok p'
      ∧ p'.Covers (T + 1) ∧ EmEqs given vars old f g T p' := by
  have hgA : given.A.Covers T := hg.A
  have hgb : given.b.Covers T := hg.b
  have hgQ : given.Q.Covers T := hg.Q
  have hob : old.b.Covers T := ho.b
  set C := if vars .observationMatrices then .const (newC f g old.d.get (T + 1)) else given.C
    with hC
  set R := if vars .observationCovariance then .const (newR f g C.get old.d.get (T + 1))
    else given.R with hR
  set A := if vars .transitionMatrices then .const (newA f old.b.get T) else given.A with hA
  set Q := if vars .transitionCovariance then .const (newQ f A.get old.b.get T) else given.Q with hQ
  set mu0 := if vars .initialStateMean then (f 0).mean else given.mu0 with hmu0
  set S0 := if vars .initialStateCovariance then
      (f 0).cov + vecMulVec ((f 0).mean - mu0) ((f 0).mean - mu0) else given.S0 with hS0
  set b := if vars .transitionOffsets then .const (newb f A.get T) else given.b with hb
  set d := if vars .observationOffsets then .const (newd f g C.get (T + 1)) else given.d with hd
  have cC : C.Covers (T + 1) := TV.covers_ite _ _ _ _ hg.C
  have cA : A.Covers T := TV.covers_ite _ _ _ _ hgA
  refine ⟨⟨A, b, Q, C, d, R, mu0, S0⟩, ?_, ⟨cA, TV.covers_ite _ _ _ _ hgb,
    TV.covers_ite _ _ _ _ hgQ, cC, TV.covers_ite _ _ _ _ hg.d, TV.covers_ite _ _ _ _ hg.R⟩,
    ⟨hC, hR, hA, hQ, hmu0, hS0, hb, hd⟩⟩
  have eC : emPick (vars .observationMatrices)
      (emConst (emObsMat old.d ((List.range (T + 1)).map f) ((List.range (T + 1)).map g))) given.C
      = .ok C := by
    rw [hC, emPick]; split
    · rw [emObsMat_eq f g (T + 1) ho.d]; rfl
    · rfl
  have eR : emPick (vars .observationCovariance)
        (emConst (emObsCov C old.d ((List.range (T + 1)).map f)
          ((List.range (T + 1)).map g))) given.R = .ok R := by
    rw [hR, emPick]; split
    · rw [emObsCov_eq f g (T + 1) cC ho.d]; rfl
    · rfl
  have eA : emPick (vars .transitionMatrices)
        (emConst (emTransMat old.b ((List.range (T + 1)).map f))) given.A = .ok A := by
    rw [hA, emPick]; split
    · rw [emTransMat_eq f T hob]; rfl
    · rfl
  have eQ : emPick (vars .transitionCovariance)
        (emConst (emTransCov A old.b ((List.range (T + 1)).map f))) given.Q = .ok Q := by
    rw [hQ, emPick]; split
    · rw [emTransCov_eq f T cA hob]; rfl
    · rfl
  have emu : emPick (vars .initialStateMean) (emInitMean ((List.range (T + 1)).map f))
      given.mu0 = .ok mu0 := by
    rw [hmu0, emPick]; split
    · exact (emInit_eq f 0 T).1
    · rfl
  have eS : emPick (vars .initialStateCovariance) (emInitCov mu0 ((List.range (T + 1)).map f))
      given.S0 = .ok S0 := by
    rw [hS0, emPick]; split
    · exact (emInit_eq f mu0 T).2
    · rfl
  have eb : emPick (vars .transitionOffsets)
        (emConst (emTransOff A ((List.range (T + 1)).map f))) given.b = .ok b := by
    rw [hb, emPick]; split
    · rw [emTransOff_eq f T cA]; rfl
    · rfl
  have ed : emPick (vars .observationOffsets)
        (emConst (emObsOff C ((List.range (T + 1)).map f) ((List.range (T + 1)).map g)))
      given.d = .ok d := by
    rw [hd, emPick]; split
    · rw [emObsOff_eq f g (T + 1) cC]; rfl
    · rfl
  simp only [emStep, eC, eR, eA, eQ, emu, eS, eb, ed, bind, Except.bind, pure, Except.pure]

theorem emStats_covers {p : Params n m} {os : List (Obs m)} {ss : List (EmStats n)}
    (h : emStats p os = .ok ss) : os ≠ [] ∧ p.Covers os.length := by
  rw [emStats] at h
  cases hf : filterFull p os with
  | error e => rw [hf] at h; cases h
  | ok l =>
    rcases filterFull_ok_iff.mp ⟨l, hf⟩ with rfl | hc
    · rw [hf] at h
      cases hf
      cases h
    · refine ⟨?_, hc⟩
      rintro rfl
      cases hf
      cases h

/-- One iteration: statistics and M-step. -/
theorem emIter_ok {given vars} {p : Params n m} {os : List (Obs m)}
    (hne : os ≠ []) (hc : p.Covers os.length) (hg : given.Covers os.length) :
    ∃ p', (do let ss ← emStats p os; emStep given vars p ss os) = .ok p' ∧ p'.Covers os.length ∧
      EmEqs given vars p (p.fn.stats (obsFn os) (os.length - 1)) (obsFn os) (os.length - 1) p' := by
  obtain ⟨T, hT⟩ : ∃ T, os.length = T + 1 :=
    ⟨os.length - 1, by have := List.length_pos_iff.mpr hne; omega⟩
  rw [emStats_eq hne hc]
  simp only [bind, Except.bind]
  have hos := list_eq_map_obsFn os
  rw [hT] at hos hc hg ⊢
  obtain ⟨p', h1, h2, h3⟩ := emStep_eq vars (p.fn.stats (obsFn os) T) (obsFn os) T hg hc
  rw [← hos] at h1
  exact ⟨p', h1, h2, h3⟩

theorem emLoop_succ (given : Params n m) (vars : EmVar → Bool) (os : List (Obs m)) (k : ℕ)
    (p : Params n m) :
    emLoop given vars os (k + 1) p
      = (do let ss ← emStats p os; emStep given vars p ss os) >>= emLoop given vars os k := by
  rw [emLoop]
  simp only [bind, Except.bind]
  cases emStats p os <;> rfl

/-- Induction along a successful run of the loop. -/
theorem emLoop_ok {given : Params n m} {vars : EmVar → Bool} {os : List (Obs m)} {k : ℕ}
    {p p' : Params n m} (h : emLoop given vars os k p = .ok p') (hg : given.Covers os.length)
    (motive : Params n m → Prop) (h0 : motive p)
    (hs : ∀ p p', motive p → os ≠ [] → p.Covers os.length → p'.Covers os.length →
      (do let ss ← emStats p os; emStep given vars p ss os) = .ok p' →
      EmEqs given vars p (p.fn.stats (obsFn os) (os.length - 1)) (obsFn os) (os.length - 1) p' →
      motive p') : motive p' := by
  induction k generalizing p with
  | zero => cases h; exact h0
  | succ k ih =>
    rw [emLoop_succ] at h
    cases hss : emStats p os with
    | error e => rw [hss] at h; cases h
    | ok ss =>
      obtain ⟨hne, hc⟩ := emStats_covers hss
      obtain ⟨p1, e1, c1, q1⟩ := emIter_ok (vars := vars) hne hc hg
      rw [e1] at h
      exact ih h (hs p p1 h0 hne hc c1 e1 q1)

theorem EmEqs.agree {given : Params n m} {vars : EmVar → Bool} {old p' : Params n m}
    {f : ℕ → EmStats n} {g : ℕ → Obs m} {T : ℕ} (h : EmEqs given vars old f g T p') :
    AgreeOff vars given p' :=
  ⟨fun e => by rw [h.A, e]; rfl, fun e => by rw [h.b, e]; rfl, fun e => by rw [h.Q, e]; rfl,
   fun e => by rw [h.C, e]; rfl, fun e => by rw [h.d, e]; rfl, fun e => by rw [h.R, e]; rfl,
   fun e => by rw [h.mu0, e]; rfl, fun e => by rw [h.S0, e]; rfl⟩

theorem AgreeOff.refl (vars : EmVar → Bool) (p : Params n m) : AgreeOff vars p p := by
  constructor <;> intros <;> rfl

/-- The M-step uses the unselected parameters of `given` only. -/
theorem emStep_congr {given given' : Params n m} {vars : EmVar → Bool} (h : AgreeOff vars given given')
    (old : Params n m) (ss : List (EmStats n)) (os : List (Obs m)) :
    emStep given' vars old ss os = emStep given vars old ss os := by
  have key : ∀ {α : Type} (c : Bool) (x : Res α) (a a' : α), (c = false → a' = a) →
      emPick c x a' = emPick c x a := by
    intro α c x a a' hh
    cases c with
    | true => rfl
    | false => rw [hh rfl]
  rw [emStep, emStep, key _ _ _ _ h.C]
  congr 1; funext C
  rw [key _ _ _ _ h.R]
  congr 1; funext R
  rw [key _ _ _ _ h.A]
  congr 1; funext A
  rw [key _ _ _ _ h.Q]
  congr 1; funext Q
  rw [key _ _ _ _ h.mu0]
  congr 1; funext mu
  rw [key _ _ _ _ h.S0]
  congr 1; funext S
  rw [key _ _ _ _ h.b]
  congr 1; funext b
  rw [key _ _ _ _ h.d]

theorem emLoop_congr {given given' : Params n m} {vars : EmVar → Bool} (h : AgreeOff vars given given')
    (os : List (Obs m)) (k : ℕ) (p : Params n m) :
    emLoop given' vars os k p = emLoop given vars os k p := by
  induction k generalizing p with
  | zero => rfl
  | succ k ih =>
    rw [emLoop, emLoop]
    congr 1; funext ss
    rw [emStep_congr h]
    congr 1; funext p'
    exact ih p'

theorem emLoop_add (given : Params n m) (vars : EmVar → Bool) (os : List (Obs m)) (a b : ℕ)
    (p : Params n m) :
    emLoop given vars os (a + b) p
      = emLoop given vars os a p >>= emLoop given vars os b := by
  induction a generalizing p with
  | zero => rw [Nat.zero_add]; rfl
  | succ a ih =>
    rw [show a + 1 + b = a + b + 1 by omega, emLoop_succ, emLoop_succ]
    generalize (do let ss ← emStats p os; emStep given vars p ss os : Res (Params n m)) = r
    cases r with
    | error e => rfl
    | ok p1 => exact ih p1

theorem kfEm_agree {p p' : Params n m} {os : List (Obs m)} {k : ℕ} {vars : EmVar → Bool}
    (h : kfEm p os k vars = .ok p') : AgreeOff vars p p' := by
  cases k with
  | zero => cases h; exact .refl _ _
  | succ k =>
    have h' := h
    rw [kfEm, emLoop] at h'
    cases hss : emStats p os with
    | error e => rw [hss] at h'; cases h'
    | ok ss =>
      exact emLoop_ok h (emStats_covers hss).2 (AgreeOff vars p) (.refl _ _)
        fun _ _ _ _ _ _ _ hq => hq.agree

/-! ### Positive semidefinite scatter -/

theorem vecMulVec_posSemidef (v : Vec n) : (vecMulVec v v).PosSemidef := by
  have := Matrix.posSemidef_vecMulVec_self_star v
  simpa using this

theorem sum_posSemidef {ι : Type} (s : Finset ι) {M : ι → Mat n n}
    (h : ∀ i ∈ s, (M i).PosSemidef) : (∑ i ∈ s, M i).PosSemidef :=
  Matrix.posSemidef_sum s h

theorem smul_posSemidef {c : ℝ} (hc : 0 ≤ c) {M : Mat n n} (h : M.PosSemidef) :
    (c • M).PosSemidef := h.smul hc

theorem obsScatter_posSemidef {f : ℕ → EmStats n} {N : ℕ} (hf : ∀ t < N, (f t).cov.PosSemidef)
    (g : ℕ → Obs m) (C : ℕ → Mat m n) (d : ℕ → Vec m) : (obsScatter f g C d N).PosSemidef := by
  refine sum_posSemidef _ fun t ht => smul_posSemidef (g t).w_nonneg ?_
  refine (vecMulVec_posSemidef _).add ?_
  rw [← Matrix.mul_assoc]
  exact posSemidef_conj' (hf t (Finset.mem_range.mp ht)) _

/-- The pair statistics are those of a joint law: `var(x' - A x) ≥ 0`. -/
theorem stats_pair_posSemidef {P : PFun n m} {T t : ℕ} (h : P.PSD (T + 1)) (ht : t < T)
    (z : ℕ → Obs m) (A : Mat n n) :
    (A * (P.stats z T t).cov * Aᵀ + (P.stats z T (t + 1)).cov
      - (P.stats z T (t + 1)).pair * Aᵀ - ((P.stats z T (t + 1)).pair * Aᵀ)ᵀ).PosSemidef := by
  have hs := h.smooth (t := t + 1) (by omega) z
  have e := h.ks_cov_eq ht z
  have hu : ((P.kf z t).filtCov - (P.ks z T t).gain * P.A t * (P.kf z t).filtCov).PosSemidef := by
    rw [P.ks_lt' z (by omega)]
    exact updated_posSemidef _ (h.filt (by omega) z) (h.Q t (by omega))
  simp only [PFun.stats, Nat.add_sub_cancel, Nat.succ_ne_zero, if_false, Nat.add_one_ne_zero]
  have hsym := symm_of_posSemidef hs
  rw [e]
  generalize (P.ks z T t).gain = J at *
  generalize (P.kf z t).filtCov - J * P.A t * (P.kf z t).filtCov = U at *
  generalize (P.ks z T (t + 1)).cov = S at *
  have := (posSemidef_conj' hs (1 - A * J)).add (posSemidef_conj' hu A)
  convert this using 1
  simp only [transpose_mul, transpose_sub, transpose_one, transpose_transpose, hsym,
    Matrix.mul_sub, Matrix.sub_mul, Matrix.mul_add, Matrix.add_mul, Matrix.mul_assoc,
    Matrix.one_mul, Matrix.mul_one]
  abel

theorem transScatter_posSemidef {P : PFun n m} {T : ℕ} (h : P.PSD (T + 1)) (z : ℕ → Obs m)
    (A : ℕ → Mat n n) (b : ℕ → Vec n) : (transScatter (P.stats z T) A b T).PosSemidef := by
  refine sum_posSemidef _ fun t ht => ?_
  have h1 := stats_pair_posSemidef h (Finset.mem_range.mp ht) z (A t)
  have := (vecMulVec_posSemidef ((P.stats z T (t + 1)).mean - A t *ᵥ (P.stats z T t).mean
    - b t)).add h1
  convert this using 1
  rw [Matrix.mul_assoc (A t)]
  abel

end Verif
