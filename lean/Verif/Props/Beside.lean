import Verif.Proofs.Beside
import Verif.Proofs.Gaps

/-!
# C112: two systems that do not interact
-/

open Matrix

namespace Verif

variable {n₁ n₂ n₂' m₁ m₂ m₂' : ℕ}

/-! ### From parameters to functions of time -/

theorem Beside.fn {p : Params (n₁ + n₂) (m₁ + m₂)} {p₁ : Params n₁ m₁} {p₂ : Params n₂ m₂} {T : ℕ}
    (h : Beside p p₁ p₂ T) (h₁ : p₁.Covers T) (h₂ : p₂.Covers T) :
    p.Covers T ∧ p.fn.Beside p₁.fn p₂.fn T := by
  obtain ⟨cA, eA⟩ := tv_of_lastDims (a := p.A) (K := T - 1) fun t ht =>
    h.A t (by omega) _ _ (lastDims_eq_ok (h₁.A.mono (by omega))) (lastDims_eq_ok (h₂.A.mono (by omega)))
  obtain ⟨cb, eb⟩ := tv_of_lastDims (a := p.b) (K := T - 1) fun t ht =>
    h.b t (by omega) _ _ (lastDims_eq_ok (h₁.b.mono (by omega))) (lastDims_eq_ok (h₂.b.mono (by omega)))
  obtain ⟨cQ, eQ⟩ := tv_of_lastDims (a := p.Q) (K := T - 1) fun t ht =>
    h.Q t (by omega) _ _ (lastDims_eq_ok (h₁.Q.mono (by omega))) (lastDims_eq_ok (h₂.Q.mono (by omega)))
  obtain ⟨cC, eC⟩ := tv_of_lastDims (a := p.C) (K := T) fun t ht =>
    h.C t ht _ _ (lastDims_eq_ok (h₁.C.mono (by omega))) (lastDims_eq_ok (h₂.C.mono (by omega)))
  obtain ⟨cd, ed⟩ := tv_of_lastDims (a := p.d) (K := T) fun t ht =>
    h.d t ht _ _ (lastDims_eq_ok (h₁.d.mono (by omega))) (lastDims_eq_ok (h₂.d.mono (by omega)))
  obtain ⟨cR, eR⟩ := tv_of_lastDims (a := p.R) (K := T) fun t ht =>
    h.R t ht _ _ (lastDims_eq_ok (h₁.R.mono (by omega))) (lastDims_eq_ok (h₂.R.mono (by omega)))
  exact ⟨⟨cA, cb, cQ, cC, cd, cR⟩, fun t ht => eA t (by omega), fun t ht => eb t (by omega),
    fun t ht => eQ t (by omega), eC, ed, eR, h.mu0, h.S0⟩

theorem DataBeside.fn {os : List (Obs (m₁ + m₂))} {os₁ : List (Obs m₁)} {os₂ : List (Obs m₂)}
    (h : DataBeside os os₁ os₂) : RowBeside (obsFn os) (obsFn os₁) (obsFn os₂) os.length := by
  obtain ⟨e₁, e₂, h⟩ := h
  intro t ht
  rw [obsFn_eq ht, obsFn_eq (e₁ ▸ ht), obsFn_eq (e₂ ▸ ht)]
  exact h t ht (e₁ ▸ ht) (e₂ ▸ ht)

/-! ### C112 -/

/-- **C112, filter.** If the model consists of two systems that do not interact, `filter` returns the
two separate results side by side: stacked means and block diagonal covariances. -/
theorem C112_filter (p : Params (n₁ + n₂) (m₁ + m₂)) (p₁ : Params n₁ m₁) (p₂ : Params n₂ m₂)
    (os : List (Obs (m₁ + m₂))) (os₁ : List (Obs m₁)) (os₂ : List (Obs m₂))
    (h : Beside p p₁ p₂ os.length) (hos : DataBeside os os₁ os₂)
    {out₁ : List (Vec n₁ × Mat n₁ n₁)} {out₂ : List (Vec n₂ × Mat n₂ n₂)}
    (h₁ : kfFilter p₁ os₁ = .ok out₁) (h₂ : kfFilter p₂ os₂ = .ok out₂) :
    kfFilter p os = .ok (rowsBeside out₁ out₂) := by
  have hz := hos.fn
  obtain ⟨e₁, e₂, -⟩ := hos
  by_cases hne : os = []
  · subst hne
    obtain rfl : os₁ = [] := List.length_eq_zero_iff.mp e₁.symm
    obtain rfl : os₂ = [] := List.length_eq_zero_iff.mp e₂.symm
    cases h₁
    cases h₂
    rfl
  · have hpos := List.length_pos_iff.mpr hne
    have c₁ := kfFilter_covers h₁ (List.length_pos_iff.mp (e₁ ▸ hpos))
    have c₂ := kfFilter_covers h₂ (List.length_pos_iff.mp (e₂ ▸ hpos))
    rw [← e₁] at c₁
    rw [← e₂] at c₂
    obtain ⟨hc, hP⟩ := h.fn c₁ c₂
    rw [kfFilter_eq hc, kfFilter_ok h₁, kfFilter_ok h₂, ← e₁, ← e₂, rowsBeside, List.zipWith_map,
      List.zipWith_self]
    congr 1
    refine List.map_congr_left fun t ht => ?_
    obtain ⟨a, b⟩ := hP.filt hz (List.mem_range.mp ht)
    rw [a, b]

/-- **C112, smooth.** The same for `smooth`. -/
theorem C112_smooth (p : Params (n₁ + n₂) (m₁ + m₂)) (p₁ : Params n₁ m₁) (p₂ : Params n₂ m₂)
    (os : List (Obs (m₁ + m₂))) (os₁ : List (Obs m₁)) (os₂ : List (Obs m₂))
    (h : Beside p p₁ p₂ os.length) (hos : DataBeside os os₁ os₂)
    {out₁ : List (Vec n₁ × Mat n₁ n₁)} {out₂ : List (Vec n₂ × Mat n₂ n₂)}
    (h₁ : kfSmooth p₁ os₁ = .ok out₁) (h₂ : kfSmooth p₂ os₂ = .ok out₂) :
    kfSmooth p os = .ok (rowsBeside out₁ out₂) := by
  have hz := hos.fn
  obtain ⟨e₁, e₂, -⟩ := hos
  obtain ⟨n₁', c₁, f₁⟩ := kfSmooth_ok h₁
  obtain ⟨n₂', c₂, f₂⟩ := kfSmooth_ok h₂
  have hne : os ≠ [] := by
    rintro rfl
    exact n₁' (List.length_eq_zero_iff.mp e₁.symm)
  rw [← e₁] at c₁ f₁
  rw [← e₂] at c₂ f₂
  obtain ⟨hc, hP⟩ := h.fn c₁ c₂
  rw [kfSmooth_eq hne hc, f₁, f₂, rowsBeside, List.zipWith_map, List.zipWith_self]
  congr 1
  refine List.map_congr_left fun t ht => ?_
  have ht' := List.mem_range.mp ht
  obtain ⟨a, b⟩ := hP.smooth hz (os.length - 1 - t) ht' (by omega)
  rw [a, b]

/-- **C112, loglikelihood.** For positive definite observation covariances the log likelihoods of the
two systems add up. -/
theorem C112_loglikelihood (p : Params (n₁ + n₂) (m₁ + m₂)) (p₁ : Params n₁ m₁) (p₂ : Params n₂ m₂)
    (os : List (Obs (m₁ + m₂))) (os₁ : List (Obs m₁)) (os₂ : List (Obs m₂))
    (h : Beside p p₁ p₂ os.length) (hos : DataBeside os os₁ os₂)
    (hd₁ : p₁.DefinedFor os.length) (hd₂ : p₂.DefinedFor os.length)
    (hp₁ : p₁.PSD os.length) (hp₂ : p₂.PSD os.length) {R₁ : Mat m₁ m₁} {R₂ : Mat m₂ m₂}
    (hR₁ : p₁.R = .const R₁) (hR₂ : p₂.R = .const R₂) (hR : p.R = .const (blocks R₁ R₂))
    (hR₁' : R₁.PosDef) (hR₂' : R₂.PosDef) :
    ∃ L₁ L₂, kfLoglik p₁ os₁ = .ok L₁ ∧ kfLoglik p₂ os₂ = .ok L₂ ∧
      kfLoglik p os = .ok (L₁ + L₂) := by
  have hz := hos.fn
  obtain ⟨e₁, e₂, -⟩ := hos
  have c₁ := definedFor_iff_covers.mp hd₁
  have c₂ := definedFor_iff_covers.mp hd₂
  obtain ⟨hc, hP⟩ := h.fn c₁ c₂
  have q₁ : ∀ t, t < os.length → (p₁.fn.C t * (p₁.fn.kf (obsFn os₁) t).predCov * (p₁.fn.C t)ᵀ
      + p₁.fn.R t).PosDef := fun t ht =>
    posDef_conj_add ((hp₁.fn c₁).pred ht _) (by simp only [Params.fn, hR₁]; exact hR₁') _
  have q₂ : ∀ t, t < os.length → (p₂.fn.C t * (p₂.fn.kf (obsFn os₂) t).predCov * (p₂.fn.C t)ᵀ
      + p₂.fn.R t).PosDef := fun t ht =>
    posDef_conj_add ((hp₂.fn c₂).pred ht _) (by simp only [Params.fn, hR₂]; exact hR₂') _
  have eS : ∀ t, t < os.length →
      p.fn.C t * (p.fn.kf (obsFn os) t).predCov * (p.fn.C t)ᵀ + p.fn.R t
        = blocks (p₁.fn.C t * (p₁.fn.kf (obsFn os₁) t).predCov * (p₁.fn.C t)ᵀ + p₁.fn.R t)
            (p₂.fn.C t * (p₂.fn.kf (obsFn os₂) t).predCov * (p₂.fn.C t)ᵀ + p₂.fn.R t) := by
    intro t ht
    rw [(hP.pred hz ht).2, hP.C t ht, hP.R t ht]
    simp only [blocks_mul, blocks_add, blocks_transpose]
  have key : ∀ {k : ℕ} {S : Mat k k}, S.PosDef → ∀ x c, logMvn x c S = .ok (logN x c S) := by
    intro k S hS x c
    obtain ⟨ℓ, h1, -, h2, -⟩ := logMvn_posDef hS
    rw [h1, h2, logN]
    congr 1
    ring
  refine ⟨_, _, kfLoglik_pure (e₁ ▸ c₁) hR₁ fun t ht _ x c => key (q₁ t (e₁ ▸ ht)) x c,
    kfLoglik_pure (e₂ ▸ c₂) hR₂ fun t ht _ x c => key (q₂ t (e₂ ▸ ht)) x c, ?_⟩
  rw [kfLoglik_pure hc hR fun t ht _ x c => key (by
    rw [eS t ht, blocks_eq_stackCov]; exact stackCov_posDef (q₁ t ht) (q₂ t ht)) x c]
  congr 1
  rw [← e₁, ← e₂, ← Finset.sum_add_distrib]
  refine Finset.sum_congr rfl fun t ht => ?_
  have ht' := Finset.mem_range.mp ht
  obtain ⟨a₁, a₂, a₃⟩ := hz t ht'
  rw [PFun.lterm, PFun.lterm, PFun.lterm]
  by_cases hm : (obsFn os t).missing
  · rw [if_pos hm, if_pos (a₁.mp hm), if_pos (a₂.mp hm), add_zero]
  · rw [if_neg hm, if_neg (fun x => hm (a₁.mpr x)), if_neg (fun x => hm (a₂.mpr x)), eS t ht', a₃ hm,
      (hP.pred hz ht').1, hP.C t ht', hP.d t ht', blocks_mulVec, stackVec_add,
      logN_blocks (q₁ t ht') (q₂ t ht')]

theorem firstPart_rows {out₁ : List (Vec n₁ × Mat n₁ n₁)} {out₂ : List (Vec n₂ × Mat n₂ n₂)} {t : ℕ}
    {r : Vec (n₁ + n₂) × Mat (n₁ + n₂) (n₁ + n₂)} (hr : (rowsBeside out₁ out₂)[t]? = some r) :
    out₁[t]? = some (firstPart r.1, firstBlock r.2) := by
  rw [rowsBeside, List.getElem?_zipWith_eq_some] at hr
  obtain ⟨r₁, r₂, h₁, -, rfl⟩ := hr
  rw [h₁]
  congr 1
  refine Prod.ext ?_ ?_
  · ext i
    simp [firstPart, stackVec]
  · ext i j
    simp [firstBlock, blocks]

/-- **C112, no influence.** What `filter` and `smooth` report about a system does not depend on what
runs beside it: two models that share the first system, with other second systems of any size and
other data for them, give the same first components and the same upper left block. -/
theorem C112_no_influence (p : Params (n₁ + n₂) (m₁ + m₂)) (p' : Params (n₁ + n₂') (m₁ + m₂'))
    (p₁ : Params n₁ m₁) (p₂ : Params n₂ m₂) (p₂' : Params n₂' m₂')
    (os : List (Obs (m₁ + m₂))) (os' : List (Obs (m₁ + m₂'))) (os₁ : List (Obs m₁))
    (os₂ : List (Obs m₂)) (os₂' : List (Obs m₂'))
    (h : Beside p p₁ p₂ os.length) (hos : DataBeside os os₁ os₂)
    (h' : Beside p' p₁ p₂' os'.length) (hos' : DataBeside os' os₁ os₂')
    (hd₁ : p₁.DefinedFor os₁.length) (hd₂ : p₂.DefinedFor os₁.length)
    (hd₂' : p₂'.DefinedFor os₁.length) :
    (∀ (out : List (Vec (n₁ + n₂) × Mat (n₁ + n₂) (n₁ + n₂)))
      (out' : List (Vec (n₁ + n₂') × Mat (n₁ + n₂') (n₁ + n₂')))
      (t : ℕ) (r : Vec (n₁ + n₂) × Mat (n₁ + n₂) (n₁ + n₂))
      (r' : Vec (n₁ + n₂') × Mat (n₁ + n₂') (n₁ + n₂')), kfFilter p os = .ok out → kfFilter p' os' = .ok out' → out[t]? = some r →
      out'[t]? = some r' → firstPart r.1 = firstPart r'.1 ∧ firstBlock r.2 = firstBlock r'.2) ∧
    (∀ (out : List (Vec (n₁ + n₂) × Mat (n₁ + n₂) (n₁ + n₂)))
      (out' : List (Vec (n₁ + n₂') × Mat (n₁ + n₂') (n₁ + n₂')))
      (t : ℕ) (r : Vec (n₁ + n₂) × Mat (n₁ + n₂) (n₁ + n₂))
      (r' : Vec (n₁ + n₂') × Mat (n₁ + n₂') (n₁ + n₂')), kfSmooth p os = .ok out → kfSmooth p' os' = .ok out' → out[t]? = some r →
      out'[t]? = some r' → firstPart r.1 = firstPart r'.1 ∧ firstBlock r.2 = firstBlock r'.2) := by
  have l₂ : os₂.length = os₁.length := hos.2.1.symm.trans hos.1
  have l₂' : os₂'.length = os₁.length := hos'.2.1.symm.trans hos'.1
  have c₁ := definedFor_iff_covers.mp hd₁
  have c₂ := definedFor_iff_covers.mp hd₂
  have c₂' := definedFor_iff_covers.mp hd₂'
  rw [← l₂] at c₂
  rw [← l₂'] at c₂'
  constructor
  · intro out out' t r r' ho ho' hr hr'
    have e := C112_filter p p₁ p₂ os os₁ os₂ h hos (kfFilter_eq c₁) (kfFilter_eq c₂)
    have e' := C112_filter p' p₁ p₂' os' os₁ os₂' h' hos' (kfFilter_eq c₁) (kfFilter_eq c₂')
    rw [ho] at e
    rw [ho'] at e'
    cases e
    cases e'
    have a := (firstPart_rows hr).symm.trans (firstPart_rows hr')
    simp only [Option.some.injEq, Prod.mk.injEq] at a
    exact a
  · intro out out' t r r' ho ho' hr hr'
    have hne : os ≠ [] := (kfSmooth_ok ho).1
    have hpos := List.length_pos_iff.mpr hne
    have n₁ : os₁ ≠ [] := List.length_pos_iff.mp (hos.1 ▸ hpos)
    have n₂ : os₂ ≠ [] := List.length_pos_iff.mp (by rw [l₂]; exact hos.1 ▸ hpos)
    have n₂' : os₂' ≠ [] := List.length_pos_iff.mp (by rw [l₂']; exact hos.1 ▸ hpos)
    have e := C112_smooth p p₁ p₂ os os₁ os₂ h hos (kfSmooth_eq n₁ c₁) (kfSmooth_eq n₂ c₂)
    have e' := C112_smooth p' p₁ p₂' os' os₁ os₂' h' hos' (kfSmooth_eq n₁ c₁) (kfSmooth_eq n₂' c₂')
    rw [ho] at e
    rw [ho'] at e'
    cases e
    cases e'
    have a := (firstPart_rows hr).symm.trans (firstPart_rows hr')
    simp only [Option.some.injEq, Prod.mk.injEq] at a
    exact a

/-! ### Examples -/

/-- A random walk with unit noises, observed directly. -/
noncomputable def exWalkOne : Params 1 1 where
  A := .const 1
  b := .const 0
  Q := .const 1
  C := .const 1
  d := .const 0
  R := .const 1
  mu0 := 0
  S0 := 1

/-- A point with position and velocity, whose position is observed; the noise changes with time. -/
noncomputable def exMover : Params 2 1 where
  A := .const !![1, 1; 0, 1]
  b := .seq [![0, 1], ![0, -1]]
  Q := .seq [1, 0]
  C := .const !![1, 0]
  d := .const ![2]
  R := .const 1
  mu0 := ![1, 0]
  S0 := 1

/-- The two side by side. -/
noncomputable def exBoth : Params (1 + 2) (1 + 1) where
  A := .const (blocks 1 !![1, 1; 0, 1])
  b := .seq [stackVec 0 ![0, 1], stackVec 0 ![0, -1]]
  Q := .seq [blocks 1 1, blocks 1 0]
  C := .const (blocks 1 !![1, 0])
  d := .const (stackVec 0 ![2])
  R := .const (blocks 1 1)
  mu0 := stackVec 0 ![1, 0]
  S0 := blocks 1 1

/-- The hypotheses hold for the walk and the mover over three rows, the second one masked. -/
example : Beside exBoth exWalkOne exMover 3 ∧ exWalkOne.DefinedFor 3 ∧ exMover.DefinedFor 3 ∧
    exWalkOne.PSD 3 ∧ exMover.PSD 3 ∧ (1 : Mat 1 1).PosDef ∧
    DataBeside
      [⟨stackVec ![1] ![4], fun _ => false⟩, ⟨0, stackVec ![true] ![false]⟩,
        ⟨stackVec ![2] ![5], fun _ => false⟩]
      [⟨![1], fun _ => false⟩, ⟨0, fun _ => true⟩, ⟨![2], fun _ => false⟩]
      [⟨![4], fun _ => false⟩, ⟨0, fun _ => true⟩, ⟨![5], fun _ => false⟩] := by
  refine ⟨⟨?_, ?_, ?_, ?_, ?_, ?_, rfl, rfl⟩, ⟨?_, ?_, ?_, ?_, ?_, ?_⟩, ⟨?_, ?_, ?_, ?_, ?_, ?_⟩,
    ⟨?_, ?_, PosSemidef.one⟩, ⟨?_, ?_, PosSemidef.one⟩, PosDef.one, rfl, rfl, ?_⟩
  · rintro t - _ _ ⟨⟩ ⟨⟩; rfl
  · intro t ht _ _ h₁ h₂
    obtain rfl | rfl : t = 0 ∨ t = 1 := by omega
    all_goals cases h₁; cases h₂; rfl
  · intro t ht _ _ h₁ h₂
    obtain rfl | rfl : t = 0 ∨ t = 1 := by omega
    all_goals cases h₁; cases h₂; rfl
  · rintro t - _ _ ⟨⟩ ⟨⟩; rfl
  · rintro t - _ _ ⟨⟩ ⟨⟩; rfl
  · rintro t - _ _ ⟨⟩ ⟨⟩; rfl
  all_goals try (intro t ht; exact ⟨_, rfl⟩)
  all_goals try (
    intro t ht
    obtain rfl | rfl : t = 0 ∨ t = 1 := by omega
    all_goals exact ⟨_, rfl⟩)
  · rintro t - _ ⟨⟩; exact PosSemidef.one
  · rintro t - _ ⟨⟩; exact PosSemidef.one
  · intro t ht _ h₁
    obtain rfl | rfl : t = 0 ∨ t = 1 := by omega
    · cases h₁; exact PosSemidef.one
    · cases h₁; exact PosSemidef.zero
  · rintro t - _ ⟨⟩; exact PosSemidef.one
  · intro t h h₁ h₂
    simp only [List.length_cons, List.length_nil] at h
    obtain rfl | rfl | rfl : t = 0 ∨ t = 1 ∨ t = 2 := by omega
    · have a : ∀ k (v : Vec k), ¬ (⟨v, fun _ => false⟩ : Obs k).missing := fun k v ⟨i, hi⟩ => by
        cases hi
      exact ⟨iff_of_false (a _ _) (a _ _), iff_of_false (a _ _) (a _ _), fun _ => rfl⟩
    · have b : (⟨0, stackVec ![true] ![false]⟩ : Obs (1 + 1)).missing := ⟨0, rfl⟩
      have c : (⟨0, fun _ => true⟩ : Obs 1).missing := ⟨0, rfl⟩
      exact ⟨iff_of_true b c, iff_of_true b c, fun h => absurd b h⟩
    · have a : ∀ k (v : Vec k), ¬ (⟨v, fun _ => false⟩ : Obs k).missing := fun k v ⟨i, hi⟩ => by
        cases hi
      exact ⟨iff_of_false (a _ _) (a _ _), iff_of_false (a _ _) (a _ _), fun _ => rfl⟩

/-- Two walks side by side. -/
noncomputable def exWalks : Params (1 + 1) (1 + 1) where
  A := .const (blocks 1 1)
  b := .const (stackVec 0 0)
  Q := .const (blocks 1 1)
  C := .const (blocks 1 1)
  d := .const (stackVec 0 0)
  R := .const (blocks 1 1)
  mu0 := stackVec 0 0
  S0 := blocks 1 1

/-- **C112, shared masks.** The condition on the masks is needed: a masked reading of one system
makes `filter` skip the reading of the other one as well, so the results are not those of the
separate runs. -/
theorem C112_masks_shared :
    Beside exWalks exWalkOne exWalkOne 1 ∧
    ∃ (o₁ o₂ : Obs 1) (out₁ out₂ : List (Vec 1 × Mat 1 1)),
      kfFilter exWalkOne [o₁] = .ok out₁ ∧ kfFilter exWalkOne [o₂] = .ok out₂ ∧
      kfFilter exWalks [stackObs o₁ o₂] ≠ .ok (rowsBeside out₁ out₂) := by
  constructor
  · refine ⟨?_, ?_, ?_, ?_, ?_, ?_, rfl, rfl⟩ <;> (rintro t - _ _ ⟨⟩ ⟨⟩; rfl)
  · have hm : (⟨0, fun _ => true⟩ : Obs 1).missing := ⟨0, rfl⟩
    have ho : ¬ (⟨0, fun _ => false⟩ : Obs 1).missing := fun ⟨i, hi⟩ => by cases hi
    have hb : (stackObs (⟨0, fun _ => true⟩ : Obs 1) (⟨0, fun _ => false⟩ : Obs 1)).missing :=
      ⟨0, rfl⟩
    refine ⟨⟨0, fun _ => true⟩, ⟨0, fun _ => false⟩, _, _, rfl, rfl, fun e => ?_⟩
    have o1 : ∀ i j : Fin 1, (1 : Mat 1 1) i j = 1 := fun i j => by
      rw [Subsingleton.elim j i, Matrix.one_apply_eq]
    have hp : pinv (1 + 1 : Mat 1 1) = !![1 / 2] := by
      refine pinv_eq_of_mul_eq_one ?_
      ext i j
      fin_cases i; fin_cases j
      simp only [Matrix.mul_apply, Fin.sum_univ_one, Matrix.add_apply, o1]
      norm_num
    have h1 : (filterCorrect 1 1 0 0 1 (⟨0, fun _ => false⟩ : Obs 1)).2.2 = (!![1 / 2] : Mat 1 1) := by
      simp only [filterCorrect, ho, not_false_eq_true, if_true, transpose_one, Matrix.one_mul, hp,
        Matrix.mul_one]
      ext i j
      fin_cases i; fin_cases j
      simp only [Matrix.sub_apply, o1]
      norm_num
    have h2 : (filterCorrect (blocks 1 1) (blocks 1 1) (stackVec 0 0) (stackVec 0 0) (blocks 1 1)
        (stackObs (⟨0, fun _ => true⟩ : Obs 1) (⟨0, fun _ => false⟩ : Obs 1))).2.2
        = blocks (1 : Mat 1 1) (1 : Mat 1 1) := by
      simp only [filterCorrect, hb, not_true_eq_false, if_false]
    have e2 : (filterCorrect (blocks 1 1) (blocks 1 1) (stackVec 0 0) (stackVec 0 0) (blocks 1 1)
        (stackObs (⟨0, fun _ => true⟩ : Obs 1) (⟨0, fun _ => false⟩ : Obs 1))).2.2
        = blocks (filterCorrect 1 1 0 0 1 (⟨0, fun _ => true⟩ : Obs 1)).2.2
          (filterCorrect 1 1 0 0 1 (⟨0, fun _ => false⟩ : Obs 1)).2.2 :=
      (Prod.mk.inj (List.cons.inj (Except.ok.inj e)).1).2
    rw [h1, h2] at e2
    have e3 := congrFun (congrFun e2 (Fin.natAdd 1 0)) (Fin.natAdd 1 0)
    simp only [blocks, Matrix.of_apply, Fin.append_right] at e3
    norm_num at e3

end Verif
