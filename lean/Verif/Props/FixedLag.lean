import Verif.Proofs.FixedLag
import Verif.Props.Symmetry

/-!
# C113: fixed-lag smoothing
-/

open Matrix

namespace Verif

variable {n m L : ℕ}

/-! ### Selection matrices -/

/-- The matrix that selects part `i`. -/
noncomputable def lagSel (n L i : ℕ) : Mat n ((L + 1) * n) :=
  if h : i < L + 1 then Matrix.of fun a x => if x = finProdFinEquiv (⟨i, h⟩, a) then 1 else 0 else 0

theorem lagSel_eq (i : Fin (L + 1)) : lagSel n L i
    = Matrix.of fun a x => if x = finProdFinEquiv (i, a) then 1 else 0 := by
  rw [lagSel, dif_pos i.isLt]

theorem lagSel_mulVec (i : Fin (L + 1)) (x : Vec ((L + 1) * n)) : lagSel n L i *ᵥ x = lagPart i x := by
  ext a
  simp [lagSel_eq, lagPart, mulVec, dotProduct]

theorem lagSel_mul (i : Fin (L + 1)) {k : ℕ} (M : Mat ((L + 1) * n) k) (a : Fin n) (x : Fin k) :
    (lagSel n L i * M) a x = M (finProdFinEquiv (i, a)) x := by
  simp [lagSel_eq, Matrix.mul_apply]

theorem mul_lagSel (i : Fin (L + 1)) {k : ℕ} (M : Mat k ((L + 1) * n)) (x : Fin k) (a : Fin n) :
    (M * (lagSel n L i)ᵀ) x a = M x (finProdFinEquiv (i, a)) := by
  simp [lagSel_eq, Matrix.mul_apply]

theorem lagSel_block (i : Fin (L + 1)) (M : Mat ((L + 1) * n) ((L + 1) * n)) :
    lagSel n L i * M * (lagSel n L i)ᵀ = lagBlock i M := by
  ext a b
  rw [mul_lagSel, lagSel_mul]
  rfl

theorem KeepsPast.fn {p : Params n m} {p' : Params ((L + 1) * n) m} {T : ℕ} (h : KeepsPast p p' T)
    (hc : p.Covers T) : p'.Covers T ∧ p.fn.Keeps p'.fn (lagSel n L) L T := by
  have hd := definedFor_iff_covers.mpr hc
  have hcov : p'.Covers T := by
    rw [← definedFor_iff_covers]
    refine ⟨fun t ht => ?_, fun t ht => ?_, fun t ht => ?_, fun t ht => ?_, fun t ht => ?_, ?_⟩
    · obtain ⟨A, hA⟩ := hd.A t ht
      obtain ⟨b, hb⟩ := hd.b t ht
      obtain ⟨A', b', h1, h2, -⟩ := h.trans t ht A b hA hb
      exact ⟨_, h1⟩
    · obtain ⟨A, hA⟩ := hd.A t ht
      obtain ⟨b, hb⟩ := hd.b t ht
      obtain ⟨A', b', h1, h2, -⟩ := h.trans t ht A b hA hb
      exact ⟨_, h2⟩
    · obtain ⟨Q, hQ⟩ := hd.Q t ht
      obtain ⟨Q', h1, -⟩ := h.noise t ht Q hQ
      exact ⟨_, h1⟩
    · obtain ⟨C, hC⟩ := hd.C t ht
      obtain ⟨d, hd'⟩ := hd.d t ht
      obtain ⟨C', d', h1, h2, -⟩ := h.emit t ht C d hC hd'
      exact ⟨_, h1⟩
    · obtain ⟨C, hC⟩ := hd.C t ht
      obtain ⟨d, hd'⟩ := hd.d t ht
      obtain ⟨C', d', h1, h2, -⟩ := h.emit t ht C d hC hd'
      exact ⟨_, h2⟩
    · rw [h.obsNoise]; exact hd.R
  refine ⟨hcov, ?_⟩
  have kT : ∀ t, t + 1 < T → ∀ x, lagPart 0 (p'.fn.A t *ᵥ x + p'.fn.b t)
        = p.fn.A t *ᵥ lagPart 0 x + p.fn.b t ∧
      ∀ i : Fin L, lagPart i.succ (p'.fn.A t *ᵥ x + p'.fn.b t) = lagPart i.castSucc x := by
    intro t ht
    obtain ⟨A', b', h1, h2, h3⟩ := h.trans t ht _ _ (lastDims_eq_ok (hc.A.mono (by omega)))
      (lastDims_eq_ok (hc.b.mono (by omega)))
    have e1 := (lastDims_ok_get h1).1
    have e2 := (lastDims_ok_get h2).1
    subst e1 e2
    exact h3
  have k0 : ∀ t, t + 1 < T → lagSel n L 0 * p'.fn.A t = p.fn.A t * lagSel n L 0 ∧
      lagSel n L 0 *ᵥ p'.fn.b t = p.fn.b t := by
    intro t ht
    refine affine_ext fun x => ?_
    have := (kT t ht x).1
    rw [← lagSel_mulVec, ← lagSel_mulVec, mulVec_add, mulVec_mulVec, mulVec_mulVec] at this
    exact this
  have ks : ∀ t, t + 1 < T → ∀ i, i < L → lagSel n L (i + 1) * p'.fn.A t = lagSel n L i ∧
      lagSel n L (i + 1) *ᵥ p'.fn.b t = 0 := by
    intro t ht i hi
    refine affine_ext fun x => ?_
    have := (kT t ht x).2 ⟨i, hi⟩
    rw [← lagSel_mulVec, ← lagSel_mulVec, mulVec_add, mulVec_mulVec] at this
    rw [add_zero]
    exact this
  have kQ : ∀ t, t + 1 < T → ∀ i j a b, p'.fn.Q t (finProdFinEquiv (i, a)) (finProdFinEquiv (j, b))
      = if i = 0 ∧ j = 0 then p.fn.Q t a b else 0 := by
    intro t ht
    obtain ⟨Q', h1, h2⟩ := h.noise t ht _ (lastDims_eq_ok (hc.Q.mono (by omega)))
    have e1 := (lastDims_ok_get h1).1
    subst e1
    exact h2
  have kC : ∀ t, t < T → p'.fn.C t = p.fn.C t * lagSel n L 0 ∧ p'.fn.d t = p.fn.d t := by
    intro t ht
    obtain ⟨C', d', h1, h2, h3⟩ := h.emit t ht _ _ (lastDims_eq_ok (hc.C.mono (by omega)))
      (lastDims_eq_ok (hc.d.mono (by omega)))
    have e1 := (lastDims_ok_get h1).1
    have e2 := (lastDims_ok_get h2).1
    subst e1 e2
    refine affine_ext fun x => ?_
    have := h3 x
    rw [← lagSel_mulVec, mulVec_mulVec] at this
    exact this
  refine ⟨fun t ht => (k0 t ht).1, fun t ht i hi => (ks t ht i hi).1, fun t ht => (k0 t ht).2,
    fun t ht i hi => (ks t ht i hi).2, fun t ht => ?_, fun t ht i hi => ?_, fun t ht i hi => ?_,
    fun t ht => (kC t ht).1, fun t ht => (kC t ht).2, fun t _ => ?_, ?_, ?_⟩
  · rw [show lagSel n L 0 = lagSel n L ((0 : Fin (L + 1)) : ℕ) from rfl, lagSel_block]
    ext a b
    rw [lagBlock, Matrix.of_apply, kQ t ht, if_pos ⟨rfl, rfl⟩]
  · ext a x
    obtain ⟨⟨j, b⟩, rfl⟩ := finProdFinEquiv.surjective x
    rw [show i + 1 = (((⟨i, hi⟩ : Fin L).succ : Fin (L + 1)) : ℕ) from rfl, lagSel_mul, kQ t ht,
      if_neg (fun h => Fin.succ_ne_zero _ h.1)]
    rfl
  · ext x a
    obtain ⟨⟨j, b⟩, rfl⟩ := finProdFinEquiv.surjective x
    rw [show i + 1 = (((⟨i, hi⟩ : Fin L).succ : Fin (L + 1)) : ℕ) from rfl, mul_lagSel, kQ t ht,
      if_neg (fun h => Fin.succ_ne_zero _ h.2)]
    rfl
  · simp only [Params.fn, h.obsNoise]
  · exact (lagSel_mulVec 0 _).trans h.init.1
  · exact (lagSel_block 0 _).trans h.init.2

/-! ### C113 -/

/-- **C113, fixed-lag smoothing.** If the state vector keeps the last `L` states, then part `i` of
what `filter` returns at time `t` is what `smooth` of the original model returns for time `t - i` from
the rows up to `t`. -/
theorem C113_fixed_lag (p : Params n m) (p' : Params ((L + 1) * n) m) (os : List (Obs m))
    (h : KeepsPast p p' os.length) (hpsd : p.PSD os.length) {t : ℕ} (ht : t < os.length)
    (i : Fin (L + 1)) (hi : i ≤ t) {out : List (Vec ((L + 1) * n) × Mat ((L + 1) * n) ((L + 1) * n))}
    {outs : List (Vec n × Mat n n)} {r : Vec ((L + 1) * n) × Mat ((L + 1) * n) ((L + 1) * n)}
    {s : Vec n × Mat n n} (hd : p.DefinedFor os.length) (hf : kfFilter p' os = .ok out)
    (hs : kfSmooth p (os.take (t + 1)) = .ok outs) (hr : out[t]? = some r)
    (hsr : outs[t - (i : ℕ)]? = some s) :
    lagPart i r.1 = s.1 ∧ lagBlock i r.2 = s.2 := by
  have hc := definedFor_iff_covers.mp hd
  obtain ⟨-, hk⟩ := h.fn hc
  obtain ⟨-, -, rfl⟩ := kfFilter_row hf hr
  obtain ⟨-, -, rfl⟩ := kfSmooth_row hs hsr
  have hl : (os.take (t + 1)).length - 1 = t := by simp; omega
  have hz : ∀ j ≤ t, (obsFn (os.take (t + 1)) j).Sim (obsFn os j) := by
    intro j hj
    have : obsFn (os.take (t + 1)) j = obsFn os j := by
      simp [obsFn, show j < t + 1 by omega]
    rw [this]
    exact Obs.Sim.refl _
  obtain ⟨a, b, -, -⟩ := hk.lag (z := obsFn os) (hpsd.fn hc) t (t - i) i (by omega) ht (by omega)
  rw [lagSel_mulVec] at a
  rw [lagSel_block] at b
  simp only [hl, p.fn.ks_congr hz (show t - (i : ℕ) ≤ t by omega)]
  exact ⟨a, b⟩

/-- **C113, newest part.** Keeping past states does not change what `filter` reports about the newest
one (part 0), nor the log likelihood. -/
theorem C113_newest (p : Params n m) (p' : Params ((L + 1) * n) m) (os : List (Obs m))
    (h : KeepsPast p p' os.length) (hd : p.DefinedFor os.length) :
    (kfFilter p' os).map (List.map fun r => (lagPart 0 r.1, lagBlock 0 r.2)) = kfFilter p os ∧
    kfLoglik p' os = kfLoglik p os := by
  have hc := definedFor_iff_covers.mp hd
  obtain ⟨hc', hk⟩ := h.fn hc
  have hn := fun t (ht : t < os.length) => hk.newest (z := obsFn os) ht
  constructor
  · rw [kfFilter_eq hc, kfFilter_eq hc']
    simp only [Except.map, List.map_map]
    congr 1
    refine List.map_congr_left fun t ht => ?_
    obtain ⟨i1, i2⟩ := hn t (List.mem_range.mp ht)
    obtain ⟨c1, c2, -, -⟩ := hk.corr (i := 0) (H := 1) (z := obsFn os) (List.mem_range.mp ht) i1 i2
      (by rw [i2, Matrix.one_mul]) (by rw [i2, transpose_one, Matrix.mul_one])
    rw [one_mulVec, i1, add_sub_cancel] at c1
    rw [Matrix.one_mul, transpose_one, Matrix.mul_one, i2, add_sub_cancel] at c2
    have d1 := lagSel_mulVec (0 : Fin (L + 1)) (p'.fn.kf (obsFn os) t).filtMean
    have d2 := lagSel_block (0 : Fin (L + 1)) (p'.fn.kf (obsFn os) t).filtCov
    simp only [Function.comp]
    exact Prod.ext (d1.symm.trans c1) (d2.symm.trans c2)
  · have key := loglikLoop_congr (p := p) (p' := p') os os 0
      ((List.range os.length).map (p.fn.kf (obsFn os)))
      ((List.range os.length).map (p'.fn.kf (obsFn os))) (fun _ => 0) (by simp) (by simp) rfl ?_
    · rw [kfLoglik, kfLoglik, filterFull_obsFn hc, filterFull_obsFn hc']
      simp only [bind, Except.bind, key]
      cases loglikLoop p 0 ((List.range os.length).map (p.fn.kf (obsFn os))) os with
      | error e => rfl
      | ok l =>
        have : ∀ l : List ℝ, List.zipWith (· + ·) l ((List.range l.length).map fun _ => (0:ℝ)) = l := by
          intro l
          apply List.ext_getElem <;> simp
        simp only [Except.map, this]
    · intro i h1 h2 h3 h4
      have hid : ∀ r : Res ℝ, r.map (· + 0) = r := by
        intro r; cases r <;> simp [Except.map]
      rw [hid]
      simp only [List.getElem_map, List.getElem_range, zero_add, loglikStep]
      by_cases hmi : os[i].missing
      · simp [hmi]
      · simp only [hmi, not_false_eq_true, if_true]
        rw [lastDims_eq_ok (hc.C.mono (by omega)), lastDims_eq_ok (hc.d.mono (by omega)),
          lastDims_eq_ok (hc'.C.mono (by omega)), lastDims_eq_ok (hc'.d.mono (by omega)), h.obsNoise]
        obtain ⟨i1, i2⟩ := hn i h3
        have eC : p'.C.get i = p.C.get i * lagSel n L 0 := hk.C i h3
        have ed : p'.d.get i = p.d.get i := hk.d i h3
        have e1 : p'.C.get i *ᵥ (p'.fn.kf (obsFn os) i).predMean
            = p.C.get i *ᵥ (p.fn.kf (obsFn os) i).predMean := by
          rw [eC, ← mulVec_mulVec, i1]
        have e2 : p'.C.get i * ((p'.fn.kf (obsFn os) i).predCov * (p'.C.get i)ᵀ)
            = p.C.get i * ((p.fn.kf (obsFn os) i).predCov * (p.C.get i)ᵀ) := by
          rw [eC, transpose_mul, ← i2]
          simp only [Matrix.mul_assoc]
        simp only [bind, Except.bind, e1, e2, ed]

/-! ### Example -/

/-- A random walk observed with noise. -/
noncomputable def exLagWalk : Params 1 1 where
  A := .const 1
  b := .const ![3]
  Q := .const 1
  C := .const !![2]
  d := .const 0
  R := .const 1
  mu0 := ![5]
  S0 := 1

/-- The walk with the last two states kept.  What is assumed about the states before time 0 does not
matter. -/
noncomputable def exLagThree : Params ((2 + 1) * 1) 1 where
  A := .const !![1, 0, 0; 1, 0, 0; 0, 1, 0]
  b := .const ![3, 0, 0]
  Q := .const !![1, 0, 0; 0, 0, 0; 0, 0, 0]
  C := .const !![2, 0, 0]
  d := .const 0
  R := .const 1
  mu0 := ![5, 7, 0]
  S0 := !![1, 0, 0; 0, 4, 0; 0, 0, 0]

/-- The hypotheses of C113 hold for the example, for runs of any length. -/
example (T : ℕ) : KeepsPast (L := 2) exLagWalk exLagThree T ∧ exLagWalk.DefinedFor T ∧
    exLagWalk.PSD T := by
  have f0 : (finProdFinEquiv ((0, 0) : Fin (2 + 1) × Fin 1)) = (0 : Fin 3) := by decide
  have f1 : (finProdFinEquiv ((1, 0) : Fin (2 + 1) × Fin 1)) = (1 : Fin 3) := by decide
  have f2 : (finProdFinEquiv ((2, 0) : Fin (2 + 1) × Fin 1)) = (2 : Fin 3) := by decide
  refine ⟨⟨?_, ?_, ?_, rfl, ?_, ?_⟩, ⟨?_, ?_, ?_, ?_, ?_, ?_⟩, ⟨?_, ?_, PosSemidef.one⟩⟩
  · rintro t - _ _ ⟨⟩ ⟨⟩
    refine ⟨_, _, rfl, rfl, fun x => ⟨?_, fun i => ?_⟩⟩
    · ext a
      obtain rfl : a = 0 := Subsingleton.elim _ _
      rw [lagPart, f0]
      change ((!![1, 0, 0; 1, 0, 0; 0, 1, 0] : Mat 3 3) *ᵥ x) 0 + 3
        = ((1 : Mat 1 1) *ᵥ lagPart 0 x) 0 + 3
      rw [one_mulVec, lagPart, f0, mulVec, dotProduct, Fin.sum_univ_three]
      simp
    · ext a
      obtain rfl : a = 0 := Subsingleton.elim _ _
      fin_cases i
      · change ((!![1, 0, 0; 1, 0, 0; 0, 1, 0] : Mat 3 3) *ᵥ x)
              (finProdFinEquiv ((1, 0) : Fin (2 + 1) × Fin 1))
            + (![3, 0, 0] : Fin ((2 + 1) * 1) → ℝ) (finProdFinEquiv ((1, 0) : Fin (2 + 1) × Fin 1))
            = x (finProdFinEquiv (0, 0))
        rw [f0, f1, mulVec, dotProduct, Fin.sum_univ_three]
        simp
      · change ((!![1, 0, 0; 1, 0, 0; 0, 1, 0] : Mat 3 3) *ᵥ x)
              (finProdFinEquiv ((2, 0) : Fin (2 + 1) × Fin 1))
            + (![3, 0, 0] : Fin ((2 + 1) * 1) → ℝ) (finProdFinEquiv ((2, 0) : Fin (2 + 1) × Fin 1))
            = x (finProdFinEquiv (1, 0))
        rw [f2, f1, mulVec, dotProduct, Fin.sum_univ_three]
        simp
  · rintro t - _ ⟨⟩
    refine ⟨_, rfl, ?_⟩
    intro i j a b
    obtain rfl : a = 0 := Subsingleton.elim _ _
    obtain rfl : b = 0 := Subsingleton.elim _ _
    fin_cases i <;> fin_cases j
    · exact (congrArg₂ (!![1, 0, 0; 0, 0, 0; 0, 0, 0] : Mat 3 3) f0 f0).trans (by simp)
    · exact (congrArg₂ (!![1, 0, 0; 0, 0, 0; 0, 0, 0] : Mat 3 3) f0 f1).trans (by simp)
    · exact (congrArg₂ (!![1, 0, 0; 0, 0, 0; 0, 0, 0] : Mat 3 3) f0 f2).trans (by simp)
    · exact (congrArg₂ (!![1, 0, 0; 0, 0, 0; 0, 0, 0] : Mat 3 3) f1 f0).trans (by simp)
    · exact (congrArg₂ (!![1, 0, 0; 0, 0, 0; 0, 0, 0] : Mat 3 3) f1 f1).trans (by simp)
    · exact (congrArg₂ (!![1, 0, 0; 0, 0, 0; 0, 0, 0] : Mat 3 3) f1 f2).trans (by simp)
    · exact (congrArg₂ (!![1, 0, 0; 0, 0, 0; 0, 0, 0] : Mat 3 3) f2 f0).trans (by simp)
    · exact (congrArg₂ (!![1, 0, 0; 0, 0, 0; 0, 0, 0] : Mat 3 3) f2 f1).trans (by simp)
    · exact (congrArg₂ (!![1, 0, 0; 0, 0, 0; 0, 0, 0] : Mat 3 3) f2 f2).trans (by simp)
  · rintro t - _ _ ⟨⟩ ⟨⟩
    refine ⟨_, _, rfl, rfl, fun x => ?_⟩
    ext a
    obtain rfl : a = 0 := Subsingleton.elim _ _
    change ((!![2, 0, 0] : Mat 1 3) *ᵥ x) 0 + 0 = ((!![2] : Mat 1 1) *ᵥ lagPart 0 x) 0 + 0
    rw [mulVec, mulVec, dotProduct, dotProduct, Fin.sum_univ_three, Fin.sum_univ_one, lagPart, f0]
    simp
  · ext a
    obtain rfl : a = 0 := Subsingleton.elim _ _
    exact (congrArg (![5, 7, 0] : Vec 3) f0).trans (by simp [exLagWalk])
  · ext a b
    obtain rfl : a = 0 := Subsingleton.elim _ _
    obtain rfl : b = 0 := Subsingleton.elim _ _
    exact (congrArg₂ (!![1, 0, 0; 0, 4, 0; 0, 0, 0] : Mat 3 3) f0 f0).trans (by simp [exLagWalk])
  all_goals try (intro t ht; exact ⟨_, rfl⟩)
  · rintro t - _ ⟨⟩; exact PosSemidef.one
  · rintro t - _ ⟨⟩; exact PosSemidef.one

end Verif
