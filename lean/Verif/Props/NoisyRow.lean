import Verif.Proofs.NoisyRow
import Verif.Props.EmMonotone

/-!
# C73: a masked row is the limit of an ever noisier one
-/

open Matrix Topology

namespace Verif

variable {n m : ℕ} {p : Params n m} {p' : ℝ → Params n m} {os : List (Obs m)} {k : ℕ}

theorem NoisyRow.covers {q : Params n m} {s : ℝ} {T : ℕ} (h : NoisyRow p q k s T)
    (hc : p.Covers T) : q.Covers T := by
  have hdef := definedFor_iff_covers.mpr hc
  refine definedFor_iff_covers.mp ⟨by rw [h.A]; exact hdef.A, by rw [h.b]; exact hdef.b,
    by rw [h.Q]; exact hdef.Q, by rw [h.C]; exact hdef.C, by rw [h.d]; exact hdef.d,
    fun t ht => ?_⟩
  obtain ⟨R, hR⟩ := hdef.R t ht
  by_cases htk : t = k
  · subst htk
    exact ⟨_, h.noisy ht R hR⟩
  · exact ⟨R, (h.R t ht htk).trans hR⟩

theorem noisy_fn (h : ∀ s, NoisyRow p (p' s) k s os.length) (hc : p.Covers os.length) :
    p.fn.Noisy (fun s => (p' s).fn) k os.length where
  A s t := by simp only [Params.fn, (h s).A]
  b s t := by simp only [Params.fn, (h s).b]
  Q s t := by simp only [Params.fn, (h s).Q]
  C s t := by simp only [Params.fn, (h s).C]
  d s t := by simp only [Params.fn, (h s).d]
  mu0 s := (h s).mu0
  S0 s := (h s).S0
  R s t ht htk := by
    refine lastDims_get ((h s).covers hc).R ht ?_
    rw [(h s).R t ht htk]
    exact lastDims_eq_ok (hc.R.mono ht)
  noisy s hk := lastDims_get ((h s).covers hc).R hk
    ((h s).noisy hk _ (lastDims_eq_ok (hc.R.mono hk)))

theorem set_masked {o' : Obs m} (hk : k < os.length) (hm : o'.missing) :
    (obsFn (os.set k o') k).missing ∧ ∀ t, t ≠ k → obsFn (os.set k o') t = obsFn os t := by
  constructor
  · rw [obsFn_eq (by simpa using hk), List.getElem_set_self]
    exact hm
  · intro t ht
    simp only [obsFn, List.getD_eq_getElem?_getD, List.getElem?_set_ne (Ne.symm ht)]

/-- **C73 (filter).** Let the covariances be positive semidefinite, those of the observed rows
positive definite.  If the observation covariance of row `k` is multiplied by `s → ∞`, then all rows
of `filter` converge to the rows of the run in which row `k` is masked. -/
theorem C73_filter_infinite_noise {o' : Obs m} (hm : o'.missing) (hk : k < os.length)
    (h : ∀ s, NoisyRow p (p' s) k s os.length) (hp : p.PSD os.length)
    (hR : ∀ t o, os[t]? = some o → ¬ o.missing → ∀ R, lastDims p.R t = .ok R → R.PosDef)
    (out₀ : List (Vec n × Mat n n)) (h₀ : kfFilter p (os.set k o') = .ok out₀) :
    ∃ out : ℝ → List (Vec n × Mat n n), (∀ s, kfFilter (p' s) os = .ok (out s)) ∧
      ∀ (t : ℕ) r₀, out₀[t]? = some r₀ → ∃ r : ℝ → Vec n × Mat n n, (∀ s, (out s)[t]? = some (r s)) ∧
        Filter.Tendsto r Filter.atTop (𝓝 r₀) := by
  have hl : (os.set k o').length = os.length := List.length_set
  have hc : p.Covers os.length := by
    have := kfFilter_covers h₀ (by intro e; rw [e] at hl; simp at hl; omega)
    rwa [hl] at this
  refine ⟨_, fun s => kfFilter_eq ((h s).covers hc), fun t r₀ hr => ?_⟩
  obtain ⟨ht, -, rfl⟩ := kfFilter_row h₀ hr
  rw [hl] at ht
  refine ⟨fun s => (((p' s).fn.kf (obsFn os) t).filtMean, ((p' s).fn.kf (obsFn os) t).filtCov),
    fun s => by simp [List.getElem?_range ht], ?_⟩
  obtain ⟨m1, m2⟩ := set_masked hk hm
  have i := (noisy_fn h hc).kf (hp.fn hc) (fun t ht hmt => by
    rw [obsFn_eq ht] at hmt
    exact hR t _ (List.getElem?_eq_getElem ht) hmt _ (lastDims_eq_ok (hc.R.mono ht))) m1 m2 ht
  exact i.filtMean.prodMk_nhds i.filtCov

/-- **C73 (smoother).** The same for `smooth`, with positive definite covariances. -/
theorem C73_smooth_infinite_noise {o' : Obs m} (hm : o'.missing) (hk : k < os.length)
    (h : ∀ s, NoisyRow p (p' s) k s os.length) (hp : p.PD os.length)
    (out₀ : List (Vec n × Mat n n)) (h₀ : kfSmooth p (os.set k o') = .ok out₀) :
    ∃ out : ℝ → List (Vec n × Mat n n), (∀ s, kfSmooth (p' s) os = .ok (out s)) ∧
      ∀ (t : ℕ) r₀, out₀[t]? = some r₀ → ∃ r : ℝ → Vec n × Mat n n, (∀ s, (out s)[t]? = some (r s)) ∧
        Filter.Tendsto r Filter.atTop (𝓝 r₀) := by
  have hl : (os.set k o').length = os.length := List.length_set
  obtain ⟨hne, hc, -⟩ := kfSmooth_ok h₀
  rw [hl] at hc
  have hne' : os ≠ [] := by rintro rfl; simp at hk
  refine ⟨_, fun s => kfSmooth_eq hne' ((h s).covers hc), fun t r₀ hr => ?_⟩
  obtain ⟨ht, -, rfl⟩ := kfSmooth_row h₀ hr
  rw [hl] at ht
  refine ⟨fun s => (((p' s).fn.ks (obsFn os) (os.length - 1) t).mean,
    ((p' s).fn.ks (obsFn os) (os.length - 1) t).cov), fun s => by simp [List.getElem?_range ht], ?_⟩
  obtain ⟨m1, m2⟩ := set_masked hk hm
  obtain ⟨T, hT⟩ : ∃ T, os.length = T + 1 := ⟨os.length - 1, by omega⟩
  have hn := noisy_fn h hc
  have hP := hp.fn hc
  rw [hT] at hn hP
  obtain ⟨i1, i2⟩ := hn.ks hP m1 m2 (t := t) (by omega)
  rw [hl, show os.length - 1 = T by omega]
  exact i1.prodMk_nhds i2

/-- A family of models with a noisier second row. -/
example : ∀ s : ℝ, NoisyRow (n := 1) (m := 1)
    ⟨.const 1, .const 0, .const 1, .const 1, .const 0, .const 1, 0, 1⟩
    ⟨.const 1, .const 0, .const 1, .const 1, .const 0, .seq [1, s • 1, 1], 0, 1⟩ 1 s 3 := by
  intro s
  refine ⟨rfl, rfl, rfl, rfl, rfl, rfl, rfl, fun t ht hk => ?_, fun _ R hR => by cases hR; rfl⟩
  have : t = 0 ∨ t = 2 := by omega
  rcases this with rfl | rfl <;> rfl

end Verif
