import Verif.Props.SqrtUnscented
import Verif.Props.Sensors
import Verif.Props.RoundedCholesky

/-!
# C40: the condition of `C40_smooth_two_partial` is met

Two components that do random walks, and a sensor of the first one that is better than one step of
the walk: if no row is missing, the square-root smoother returns the smoothed estimates.
-/

open Matrix

namespace Verif

theorem gains_of_sensor {m : ℕ} (hm : 0 < m) {u : UParams 2 m} {r : ℝ} (hr : r < u.Q 0 0) (t : ℕ)
    (filt smooth : List (Moments 2)) (hs : ∀ x ∈ smooth, x.cov 0 0 ≤ r) : Gains u t filt smooth := by
  intro i M x pred h1 h2 h3
  have h4 : x.cov 0 0 ≤ r := hs x (List.mem_of_getElem? h2)
  have h3' := h3
  simp only [aukfStep, Option.getD_some, bind, Except.bind, Nat.add_sub_cancel] at h3'
  cases hp : moments2points M with
  | error e => rw [hp] at h3'; cases h3'
  | ok pts =>
    rw [hp] at h3'
    simp only at h3'
    cases hf : u.f.at (t + i) with
    | error e => rw [hf] at h3'; cases h3'
    | ok f =>
      rw [aukfStep_hidden h3 hm hp hf]
      have hw : GoodWeights pts := by
        simp only [moments2points, bind, Except.bind] at hp
        split at hp
        · cases hp
        · cases hp
          exact goodWeights_sigmaPoints (by norm_num) _ _
      have e1 : (points2moments (pts.map f) (some u.Q)).cov
          = diffs (fun i => f (pts.points i)) (points2moments (pts.map f) (some u.Q)).mean
            * diagonal pts.wm
            * (diffs (fun i => f (pts.points i)) (points2moments (pts.map f) (some u.Q)).mean)ᵀ
            + u.Q := by
        rw [← hw.eq]; rfl
      rw [e1, Matrix.add_apply]
      have := (weighted_posSemidef (diffs (fun i => f (pts.points i))
        (points2moments (pts.map f) (some u.Q)).mean) hw.nonneg).diag_nonneg (i := 0)
      linarith

/-- **C40 (partial).** Affine functions, two components with independent noise, and a sensor of the
first component whose variance is less than that of one step of the first component: if no row is
missing, the square-root smoother is the Kalman smoother. -/
theorem C40_smooth_sensor_partial (qr : QR) {u : UParams 2 1} {p : Params 2 1} (h : u.AffineAs p)
    (hp : p.PosDef) {q : Vec 2} (hq : u.Q = diagonal q)
    (hC : ∀ t C, lastDims p.C t = .ok C → C = !![1, 0]) (hR : u.R 0 0 < u.Q 0 0)
    {os : List (Obs 1)} (hos : ∀ o ∈ os, ¬ o.missing) {out : List (Vec 2 × Mat 2 2)} (ho : kfSmooth p os = .ok out) :
    sqSmooth qr u os = .ok (out.map toMoments) := by
  have hs := C36_smooth_eq_kalman h hp ho
  obtain ⟨Q, hQe, hQ⟩ := hp.Q
  obtain ⟨R, hRe, hRp⟩ := hp.R
  have hQ' : u.Q.PosDef := by
    have := h.Q.symm.trans hQe
    cases this
    exact hQ
  have hR' : u.R.PosDef := by
    have := h.R.symm.trans hRe
    cases this
    exact hRp
  have hS : u.S0.PosDef := h.S0 ▸ hp.S0
  refine (C40_smooth_two_partial qr hq hQ' hR' hS hs).1 ?_
  obtain ⟨hne, hc, -⟩ := kfSmooth_ok ho
  have hall : ∀ x ∈ out.map toMoments, x.cov 0 0 ≤ u.R 0 0 := by
    intro x hx
    obtain ⟨r, hr, rfl⟩ := List.mem_map.mp hx
    obtain ⟨t, ht⟩ := List.getElem?_of_mem hr
    have hlt : t < os.length := by
      have h1 := (List.getElem?_eq_some_iff.mp ht).1
      obtain ⟨-, -, e⟩ := kfSmooth_ok ho
      rw [e] at h1
      simpa using h1
    have hC' := lastDims_eq_ok (hc.C.mono (show t + 1 ≤ os.length from hlt))
    have := (C67_never_worse_than_sensor p os (hp.psd _) (List.getElem?_eq_getElem hlt)
      (hos _ (List.getElem_mem hlt)) hC' (R := u.R) (by rw [h.R]; rfl) (a := ![1, 0]) (w := ![1])
      (fun x => by
        rw [hC t _ hC']
        simp [dotProduct, mulVec, Fin.sum_univ_two])).2 out r ho ht
    simpa [toMoments, dotProduct, mulVec, Fin.sum_univ_two] using this
  match os, hne with
  | o :: os, _ =>
    rw [aukfSmooth] at hs
    cases hf : aukfFilter u (o :: os) with
    | error e => rw [hf] at hs; cases hs
    | ok lf =>
      rw [hf] at hs
      simp only [bind, Except.bind] at hs
      have hlen := runLoop_length hf
      match lf, hlen with
      | M :: l', hlen =>
        rw [backFull] at hs
        cases hb : backLoop (aukfSmoothStep u) 0 M l' with
        | error e => rw [hb] at hs; cases hs
        | ok r =>
          rw [hb] at hs
          simp only [bind, Except.bind, pure, Except.pure, Except.ok.injEq] at hs
          rw [← hs] at hall ⊢
          rw [← gains_iff_improvesFirst hf r.1
            ((backLoop_length _ _ _ hb).trans (by simpa using hlen))]
          exact gains_of_sensor (by norm_num) hR 0 _ _ fun x hx => hall x (List.mem_cons_of_mem _ hx)

/-- Such a system. -/
example (qr : QR) (os : List (Obs 1)) (hne : os ≠ []) (hos : ∀ o ∈ os, ¬ o.missing) :
    ∃ l, sqSmooth qr (⟨.flat [fun x => x], .flat [fun x _ => x 0], diagonal fun _ => 2, 1, 0, 1⟩ :
      UParams 2 1) os = .ok l := by
  have hp : (⟨.const 1, .const 0, .const (diagonal fun _ => 2), .const !![1, 0], .const 0, .const 1,
      0, 1⟩ : Params 2 1).PosDef :=
    ⟨⟨_, rfl, PosDef.diagonal fun _ => by norm_num⟩, ⟨_, rfl, PosDef.one⟩, PosDef.one⟩
  obtain ⟨out, ho⟩ : ∃ out, kfSmooth (⟨.const 1, .const 0, .const (diagonal fun _ => 2),
      .const !![1, 0], .const 0, .const 1, 0, 1⟩ : Params 2 1) os = .ok out :=
    ⟨_, kfSmooth_eq hne ⟨trivial, trivial, trivial, trivial, trivial, trivial⟩⟩
  refine ⟨_, C40_smooth_sensor_partial qr (q := fun _ => 2) ⟨?_, ?_, rfl, rfl, rfl, rfl⟩ hp rfl ?_ ?_
    hos ho⟩
  · intro t A b hA hb
    cases hA
    cases hb
    exact ⟨_, rfl, fun x => by simp⟩
  · intro t C d hC hd
    cases hC
    cases hd
    refine ⟨_, rfl, fun x => ?_⟩
    funext i
    simp [mulVec, dotProduct, Fin.sum_univ_two]
  · intro t C hC
    cases hC
    rfl
  · simp

end Verif
