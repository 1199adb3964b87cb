import Verif.Model.RoundedCholeskyEm
import Verif.Proofs.RoundedCholesky
import Verif.Proofs.RoundedBierman

/-!
# `CholeskyKalmanFilter` with parameters that have errors
-/

open Matrix Topology

namespace Verif

variable {n m k : ℕ} {c : ℕ → ℝ} {ι : Type} {F : Filter ι} {w : ι → ℝ}

section Filter

variable {br : ∀ i, ArithC c (w i)}

theorem nearP_ckFl (hw : Filter.Tendsto w F (𝓝 0)) {f : ι → Params n m} {p : Params n m}
    (hp : PNear F w f p) {T : ℕ} (hP : p.fn.PSD T)
    {Q : Mat n n} {R : Mat m m} (hQ : ∀ t, p.fn.Q t = Q) (hR : ∀ t, p.fn.R t = R) (hRp : R.PosDef)
    {Q2 S2 : ι → Mat n n} {R2 : ι → Mat m m} (hQ2 : OwM F w (fun i => Q2 i * (Q2 i)ᵀ) Q)
    (hR2 : OwM F w (fun i => R2 i * (R2 i)ᵀ) R) (hS2 : OwM F w (fun i => S2 i * (S2 i)ᵀ) p.S0)
    (z : ℕ → Obs m) (t : ℕ) (ht : t < T) :
    CNear F w (fun i => (f i).fn.ckFl (br i) (Q2 i) (R2 i) (S2 i) z t) (p.fn.kf z t) := by
  have hC := fun s => hp.C.get owM_const s
  have hd := fun s => hp.d.get owV_const s
  induction t with
  | zero =>
    have hps := hP.pred ht z
    have := near_flCholCorrect (br := br) hw (hC 0) (hd 0) hp.mu0 hS2 hps hR2 hRp (z 0)
    rw [← hR 0] at this
    exact ⟨hp.mu0, hS2, this.1, this.2⟩
  | succ t ih =>
    have h := ih (by omega)
    have hps := hP.pred ht z
    have hA : OwM F w (fun i => (f i).fn.A t) (p.fn.A t) := hp.A.get owM_const t
    have hb : OwV F w (fun i => (f i).fn.b t) (p.fn.b t) := hp.b.get owV_const t
    have hm := ow_fl_vadd (br := fun i => (br i).toArith) hw
      (ow_fl_mulV (br := fun i => (br i).toArith) hw hA h.filtMean) hb
    have hc := near_flCholPredict (br := br) hw hA (fun i => (f i).fn.b t)
      (mean := fun i => ((f i).fn.ckFl (br i) (Q2 i) (R2 i) (S2 i) z t).filtMean) h.filtCov hQ2
    rw [← hQ t] at hc
    have := near_flCholCorrect (br := br) hw (hC (t + 1)) (hd (t + 1)) hm hc hps hR2 hRp
      (z (t + 1))
    rw [← hR (t + 1)] at this
    exact ⟨hm, hc, this.1, this.2⟩

/-- The initial factors. -/
theorem owP_cholParam (hw : Filter.Tendsto w F (𝓝 0)) {M : ι → Mat k k} {S : Mat k k}
    (hM : OwM F w M S) (hS : S.PosDef) :
    ∃ L : ι → Mat k k, (∀ᶠ i in F, (br i).chol k (M i) = .ok (L i)) ∧
      OwM F w (fun i => L i * (L i)ᵀ) S := by
  obtain ⟨L, N, h1, h2, h3⟩ := ow_chol (br := fun i => (br i).toArithL) hw hM hS
  exact ⟨L, h1, h3.congr_ev (h2.mono fun i hi => hi.mul_transpose.symm)⟩

/-- All rows of the square root filter. -/
theorem nearP_flCholFull (hw : Filter.Tendsto w F (𝓝 0)) {f : ι → Params n m} {p : Params n m}
    (hpn : PNear F w f p) {os : List (Obs m)}
    (hc : p.Covers os.length) (hp : p.PosDef) (hpsd : p.fn.PSD os.length) :
    ∃ st : ι → ℕ → CStep n,
      (∀ᶠ i in F, flCholFull (br i) (f i) os = .ok ((List.range os.length).map (st i))) ∧
      ∀ t, t < os.length →
        FlNear F w (fun i => (st i t).flStep (br i) m) (p.fn.kf (obsFn os) t) := by
  obtain ⟨⟨Q, hQ, hQd⟩, ⟨R, hR, hRd⟩, hS⟩ := hp
  have hQn := hpn.Q
  have hRn := hpn.R
  rw [hQ] at hQn
  rw [hR] at hRn
  obtain ⟨Q1, hQi, hQ1⟩ := hQn
  obtain ⟨R1, hRi, hR1⟩ := hRn
  obtain ⟨Q2, q1, q2⟩ := owP_cholParam (br := br) hw hQ1 hQd
  obtain ⟨R2, r1, r2⟩ := owP_cholParam (br := br) hw hR1 hRd
  obtain ⟨S2, s1, s2⟩ := owP_cholParam (br := br) hw hpn.S0 hS
  refine ⟨fun i => (f i).fn.ckFl (br i) (Q2 i) (R2 i) (S2 i) (obsFn os), ?_, fun t ht => ?_⟩
  · filter_upwards [q1, r1, s1] with i h1 h2 h3
    simp only [flCholFull, hQi, hRi, flCholParam, h1, h2, h3, bind, Except.bind]
    exact flCholLoop_obsFn (hpn.covers hc i)
  · exact (nearP_ckFl (br := br) hw hpn hpsd (fun t => by simp [Params.fn, hQ, TV.get])
      (fun t => by simp [Params.fn, hR, TV.get]) hRd q2 r2 s2 (obsFn os) t ht).flNear hw

end Filter

variable {ar : ∀ i, ArithCE c (w i)}

theorem near_flCholStats (hw : Filter.Tendsto w F (𝓝 0)) {f : ι → Params n m}
    {p : Params n m} (hp : PNear F w f p) (hpd : p.PosDef) {os : List (Obs m)} (hne : os ≠ [])
    (hc : p.Covers os.length) (hP : p.fn.PD os.length) (hpsd : p.fn.PSD os.length) :
    EvNear F (LNear (SNear F w)) (fun i => flCholStats (ar i) (f i) os) (emStats p os) := by
  obtain ⟨st0, hg, hk⟩ := nearP_flCholFull (br := fun i => (ar i).toArithC) hw hp hc hpd hpsd
  let st : ι → ℕ → Step n m := fun i t => (st0 i t).flStep (ar i).toArithC m
  obtain ⟨T, hT⟩ : ∃ T, os.length = T + 1 :=
    ⟨os.length - 1, by have := List.length_pos_iff.mpr hne; omega⟩
  rw [emStats_eq hne hc]
  rw [hT] at hk hg ⊢
  simp only [Nat.add_sub_cancel]
  have hs := fun t (ht : t ≤ T) => nearP_stSmoothFl (br := fun i => (ar i).toArith) hw hp
    (obsFn os) (T := T) (st := st) (T - t) (fun t ht => hk t (by omega))
    (fun t ht => (hP.filt (obsFn os) (show t + 1 < os.length by omega)).1.det_pos.ne'.isUnit)
    (by omega)
  let st' : ι → ℕ → EmStats n := fun i t =>
    ⟨(stSmoothFl (ar i).toArith (f i).fn.A (st i) T t).mean,
     (stSmoothFl (ar i).toArith (f i).fn.A (st i) T t).cov,
     if t = 0 then 0 else (ar i).mul (stSmoothFl (ar i).toArith (f i).fn.A (st i) T t).cov
      (stSmoothFl (ar i).toArith (f i).fn.A (st i) T (t - 1)).gainᵀ⟩
  refine ⟨_, fun i => (List.range (T + 1)).map (st' i), rfl, ?_, LNear.map _ fun t ht => ?_⟩
  · filter_upwards [hg] with i hi
    have hA : (f i).A.Covers T := by
      have := (hp.covers hc i).A
      rwa [hT] at this
    have e : ((List.range (T + 1)).map (st0 i)).map (CStep.flStep (ar i).toArithC m)
        = (List.range (T + 1)).map (st i) := by
      rw [List.map_map]
      rfl
    simp only [flCholStats, hi, Bind.bind, Except.bind, e, flSmoothFull_eq _ T hA, Pure.pure,
      Except.pure, flSmoothPair_map, List.zip_map', List.map_map]
    rfl
  · have ht : t < T + 1 := List.mem_range.mp ht
    refine ⟨(hs t (by omega)).1, (hs t (by omega)).2.1, ?_⟩
    simp only [PFun.stats, st']
    split_ifs with h
    · exact owM_const _
    · exact ow_fl_mul (br := fun i => (ar i).toArith) hw (hs t (by omega)).2.1
        (owM_transpose (hs (t - 1) (by omega)).2.2)

end Verif
