import Verif.Model.RoundedEm
import Verif.Proofs.RoundedLoglik
import Verif.Proofs.EmSymmetry

/-!
# `em` in arithmetic with rounding errors

Results are related to the exact ones by relations: the same exception, or values that differ by a
constant times the error of the arithmetic.
-/

open Matrix Topology

namespace Verif

variable {n m k l : ℕ} {c : ℕ → ℝ} {ι : Type} {F : Filter ι} {w : ι → ℝ}
variable {α β : Type}

/-- The same exception, or values related by `R`. -/
def RNear (R : (ι → α) → α → Prop) (f : ι → Res α) (a : Res α) : Prop :=
  match a with
  | .ok v => ∃ g, (∀ i, f i = .ok (g i)) ∧ R g v
  | .error e => ∀ i, f i = .error e

theorem RNear.pure {R : (ι → α) → α → Prop} {g : ι → α} {v : α} (h : R g v) :
    RNear R (fun i => (Pure.pure (g i) : Res α)) (Pure.pure v) := ⟨g, fun _ => rfl, h⟩

theorem RNear.bind {R : (ι → α) → α → Prop} {S : (ι → β) → β → Prop} {f : ι → Res α} {a : Res α}
    (h : RNear R f a) {p : ι → α → Res β} {q : α → Res β}
    (hk : ∀ g v, a = .ok v → R g v → RNear S (fun i => p i (g i)) (q v)) :
    RNear S (fun i => f i >>= p i) (a >>= q) := by
  cases a with
  | error e =>
    intro i
    have : f i = .error e := h i
    show f i >>= p i = _
    rw [this]
    rfl
  | ok v =>
    obtain ⟨g, hg, hR⟩ := h
    have e : (fun i => f i >>= p i) = fun i => p i (g i) := by
      funext i
      rw [hg i]
      rfl
    rw [e]
    exact hk g v rfl hR

/-- Lists of the same length with related entries. -/
inductive LNear (R : (ι → α) → α → Prop) : (ι → List α) → List α → Prop
  | nil : LNear R (fun _ => []) []
  | cons {f : ι → α} {a : α} {g : ι → List α} {l : List α} (h : R f a) (ht : LNear R g l) :
    LNear R (fun i => f i :: g i) (a :: l)

theorem LNear.map {κ : Type} {R : (ι → α) → α → Prop} {f : ι → κ → α} {a : κ → α} (s : List κ)
    (h : ∀ j ∈ s, R (fun i => f i j) (a j)) : LNear R (fun i => s.map (f i)) (s.map a) := by
  induction s with
  | nil => exact .nil
  | cons j s ih =>
    exact .cons (h j (by simp)) (ih fun q hq => h q (by simp [hq]))

/-- A parameter: one value up to errors, or the same values for all times. -/
def TVNear (R : (ι → α) → α → Prop) (f : ι → TV α) (a : TV α) : Prop :=
  match a with
  | .const v => ∃ g, (∀ i, f i = .const (g i)) ∧ R g v
  | .seq l => ∀ i, f i = .seq l

theorem TVNear.refl {R : (ι → α) → α → Prop} (hR : ∀ v, R (fun _ => v) v) (a : TV α) :
    TVNear R (fun _ => a) a := by
  cases a with
  | const v => exact ⟨fun _ => v, fun _ => rfl, hR v⟩
  | seq l => exact fun _ => rfl

theorem TVNear.lastDims {R : (ι → α) → α → Prop} (hR : ∀ v, R (fun _ => v) v) {f : ι → TV α}
    {a : TV α} (h : TVNear R f a) (t : ℕ) :
    RNear R (fun i => lastDims (f i) t) (Verif.lastDims a t) := by
  cases a with
  | const v =>
    obtain ⟨g, hg, hgR⟩ := h
    exact ⟨g, fun i => by show Verif.lastDims (f i) t = _; rw [hg i]; rfl, hgR⟩
  | seq l =>
    have e : (fun i => Verif.lastDims (f i) t) = fun _ => Verif.lastDims (.seq l) t := by
      funext i
      rw [show f i = .seq l from h i]
    rw [e]
    cases hl : Verif.lastDims (.seq l) t with
    | error e => exact fun _ => rfl
    | ok v => exact ⟨fun _ => v, fun _ => rfl, hR v⟩

theorem TVNear.get [Inhabited α] {R : (ι → α) → α → Prop} (hR : ∀ v, R (fun _ => v) v)
    {f : ι → TV α} {a : TV α} (h : TVNear R f a) (t : ℕ) : R (fun i => (f i).get t) (a.get t) := by
  cases a with
  | const v =>
    obtain ⟨g, hg, hgR⟩ := h
    have e : (fun i => (f i).get t) = g := by funext i; rw [hg i]; rfl
    rw [e]
    exact hgR
  | seq l =>
    have e : (fun i => (f i).get t) = fun _ => (TV.seq l).get t := by
      funext i
      rw [show f i = .seq l from h i]
    rw [e]
    exact hR _

theorem TVNear.covers {R : (ι → α) → α → Prop} {f : ι → TV α} {a : TV α} (h : TVNear R f a)
    {T : ℕ} (hc : a.Covers T) (i : ι) : (f i).Covers T := by
  cases a with
  | const v => obtain ⟨g, hg, -⟩ := h; rw [hg i]; trivial
  | seq l => rw [show f i = .seq l from h i]; exact hc

/-- All eight parameters up to errors. -/
structure PNear (F : Filter ι) (w : ι → ℝ) (f : ι → Params n m) (p : Params n m) : Prop where
  A : TVNear (OwM F w) (fun i => (f i).A) p.A
  b : TVNear (OwV F w) (fun i => (f i).b) p.b
  Q : TVNear (OwM F w) (fun i => (f i).Q) p.Q
  C : TVNear (OwM F w) (fun i => (f i).C) p.C
  d : TVNear (OwV F w) (fun i => (f i).d) p.d
  R : TVNear (OwM F w) (fun i => (f i).R) p.R
  mu0 : OwV F w (fun i => (f i).mu0) p.mu0
  S0 : OwM F w (fun i => (f i).S0) p.S0

theorem PNear.refl (p : Params n m) : PNear F w (fun _ => p) p :=
  ⟨TVNear.refl owM_const _, TVNear.refl owV_const _, TVNear.refl owM_const _,
   TVNear.refl owM_const _, TVNear.refl owV_const _, TVNear.refl owM_const _, owV_const _,
   owM_const _⟩

theorem PNear.covers {f : ι → Params n m} {p : Params n m} (h : PNear F w f p) {T : ℕ}
    (hc : p.Covers T) (i : ι) : (f i).Covers T :=
  ⟨h.A.covers hc.A i, h.b.covers hc.b i, h.Q.covers hc.Q i, h.C.covers hc.C i, h.d.covers hc.d i,
   h.R.covers hc.R i⟩

/-- Smoothed statistics up to errors. -/
structure SNear (F : Filter ι) (w : ι → ℝ) (f : ι → EmStats n) (a : EmStats n) : Prop where
  mean : OwV F w (fun i => (f i).mean) a.mean
  cov : OwM F w (fun i => (f i).cov) a.cov
  pair : OwM F w (fun i => (f i).pair) a.pair

/-! ### Statistics -/

section

variable {br : ∀ i, Arith c (w i)}

theorem nearP_flCorrect (hw : Filter.Tendsto w F (𝓝 0)) {P : ι → PFun n m} {P' : PFun n m} (t : ℕ)
    (hC : OwM F w (fun i => (P i).C t) (P'.C t)) (hd : OwV F w (fun i => (P i).d t) (P'.d t))
    (hR : OwM F w (fun i => (P i).R t) (P'.R t)) {mu : ι → Vec n}
    {mu' : Vec n} {V : ι → Mat n n} {V' : Mat n n} (hmu : OwV F w mu mu')
    (hV : OwM F w V V') (o : Obs m)
    (hS : ¬ o.missing → IsUnit (P'.C t * (V' * (P'.C t)ᵀ) + P'.R t).det) :
    FlNear F w (fun i => (P i).correctFl (br i) t (mu i) (V i) o) (P'.correct t mu' V' o) := by
  by_cases h : o.missing
  · simp only [PFun.correctFl, PFun.correct, flCorrect, filterCorrect, h, not_true_eq_false,
      if_false]
    exact ⟨hmu, hV, hmu, hV⟩
  · simp only [PFun.correctFl, PFun.correct, flCorrect, filterCorrect, h, not_false_eq_true,
      if_true]
    have hG := ow_fl_mul (br := br) hw hV (ow_fl_mul (br := br) hw (owM_transpose hC)
      (ow_fl_pinv (br := br) hw (ow_fl_madd (br := br) hw
        (ow_fl_mul (br := br) hw hC (ow_fl_mul (br := br) hw hV (owM_transpose hC))) hR) (hS h)))
    exact ⟨hmu, hV, ow_fl_vadd hw hmu (ow_fl_mulV hw hG (ow_fl_vsub hw
      (owV_const _) (ow_fl_vadd hw (ow_fl_mulV hw hC hmu) hd))),
      ow_fl_msub hw hV (ow_fl_mul hw hG (ow_fl_mul hw hC hV))⟩

theorem nearP_kfFl (hw : Filter.Tendsto w F (𝓝 0)) {f : ι → Params n m} {p : Params n m}
    (hp : PNear F w f p) (z : ℕ → Obs m) (t : ℕ)
    (hS : ∀ s ≤ t, ¬ (z s).missing →
      IsUnit (p.fn.C s * ((p.fn.kf z s).predCov * (p.fn.C s)ᵀ) + p.fn.R s).det) :
    FlNear F w (fun i => (f i).fn.kfFl (br i) z t) (p.fn.kf z t) := by
  have hC := fun s => hp.C.get owM_const s
  have hd := fun s => hp.d.get owV_const s
  have hR := fun s => hp.R.get owM_const s
  induction t with
  | zero =>
    exact nearP_flCorrect hw 0 (hC 0) (hd 0) (hR 0) hp.mu0 hp.S0 _ (hS 0 le_rfl)
  | succ t ih =>
    have h := ih fun s hs => hS s (by omega)
    have hA : OwM F w (fun i => (f i).fn.A t) (p.fn.A t) := hp.A.get owM_const t
    have hb : OwV F w (fun i => (f i).fn.b t) (p.fn.b t) := hp.b.get owV_const t
    have hQ : OwM F w (fun i => (f i).fn.Q t) (p.fn.Q t) := hp.Q.get owM_const t
    exact nearP_flCorrect hw (t + 1) (hC (t + 1)) (hd (t + 1)) (hR (t + 1))
      (ow_fl_vadd hw (ow_fl_mulV hw hA h.filtMean) hb)
      (ow_fl_madd hw (ow_fl_mul hw hA (ow_fl_mul hw h.filtCov (owM_transpose hA))) hQ)
      _ (hS (t + 1) le_rfl)

theorem nearP_stSmoothFl (hw : Filter.Tendsto w F (𝓝 0)) {f : ι → Params n m} {p : Params n m}
    (hp : PNear F w f p) (z : ℕ → Obs m) {st : ι → ℕ → Step n m} (T j : ℕ)
    (hk : ∀ t ≤ T, FlNear F w (fun i => st i t) (p.fn.kf z t))
    (hV : ∀ t, t < T → IsUnit (p.fn.kf z (t + 1)).predCov.det) (hj : j ≤ T) :
    OwV F w (fun i => (stBackFl (br i) (f i).fn.A (st i) T j).mean) (p.fn.ksBack z T j).mean ∧
    OwM F w (fun i => (stBackFl (br i) (f i).fn.A (st i) T j).cov) (p.fn.ksBack z T j).cov ∧
    OwM F w (fun i => (stBackFl (br i) (f i).fn.A (st i) T j).gain) (p.fn.ksBack z T j).gain := by
  induction j with
  | zero => exact ⟨(hk T le_rfl).filtMean, (hk T le_rfl).filtCov, owM_const _⟩
  | succ j ih =>
    obtain ⟨h1, h2, -⟩ := ih (by omega)
    have ht := hk (T - (j + 1)) (by omega)
    have ht1 := hk (T - (j + 1) + 1) (by omega)
    have hA : OwM F w (fun i => ((f i).fn.A (T - (j + 1)))ᵀ) (p.fn.A (T - (j + 1)))ᵀ :=
      owM_transpose (hp.A.get owM_const _)
    have hG := ow_fl_mul (br := br) hw ht.filtCov (ow_fl_mul (br := br) hw hA
      (ow_fl_pinv (br := br) hw ht1.predCov (hV _ (by omega))))
    exact ⟨ow_fl_vadd hw ht.filtMean (ow_fl_mulV hw hG (ow_fl_vsub hw h1 ht1.predMean)),
      ow_fl_madd hw ht.filtCov (ow_fl_mul hw hG (ow_fl_mul hw
        (ow_fl_msub hw h2 ht1.predCov) (owM_transpose hG))), hG⟩

theorem flSmoothPairAux_map {u : ℝ} (ar : Arith c u) (f : ℕ → SStep n) (k t : ℕ) :
    flSmoothPairAux ar (f t) ((List.range k).map fun i => f (t + 1 + i))
      = (List.range k).map fun i => ar.mul (f (t + 1 + i)).cov (f (t + i)).gainᵀ := by
  induction k generalizing t with
  | zero => rfl
  | succ k ih =>
    rw [List.range_succ_eq_map, List.map_cons, List.map_map, List.map_cons, List.map_map,
      flSmoothPairAux]
    simp only [add_zero, List.cons.injEq, true_and]
    have e : ((fun i => f (t + 1 + i)) ∘ Nat.succ) = fun i => f (t + 1 + 1 + i) := by
      funext i; simp only [Function.comp]; congr 1; omega
    rw [e, ih (t + 1)]
    apply List.map_congr_left
    intro i _
    simp only [Function.comp]
    rw [show t + 1 + i.succ = t + 1 + 1 + i by omega, show t + i.succ = t + 1 + i by omega]

theorem flSmoothPair_map {u : ℝ} (ar : Arith c u) (f : ℕ → SStep n) (T : ℕ) :
    flSmoothPair ar ((List.range T).map f)
      = (List.range T).map fun t => if t = 0 then 0 else ar.mul (f t).cov (f (t - 1)).gainᵀ := by
  cases T with
  | zero => rfl
  | succ k =>
    rw [List.range_succ_eq_map, List.map_cons, List.map_map, List.map_cons, List.map_map,
      flSmoothPair]
    simp only [if_true, List.cons.injEq, true_and]
    have e : (f ∘ Nat.succ) = fun i => f (0 + 1 + i) := by
      funext i; simp only [Function.comp]; congr 1; omega
    rw [e, flSmoothPairAux_map ar f k 0]
    apply List.map_congr_left
    intro i _
    simp [add_comm]

/-- The statistics as a function of time. -/
noncomputable def PFun.statsFl {u : ℝ} (ar : Arith c u) (P : PFun n m) (z : ℕ → Obs m) (T t : ℕ) :
    EmStats n :=
  ⟨(stSmoothFl ar P.A (P.kfFl ar z) T t).mean, (stSmoothFl ar P.A (P.kfFl ar z) T t).cov,
    if t = 0 then 0 else ar.mul (stSmoothFl ar P.A (P.kfFl ar z) T t).cov
      (stSmoothFl ar P.A (P.kfFl ar z) T (t - 1)).gainᵀ⟩

theorem flEmStats_eq {u : ℝ} (ar : Arith c u) {p : Params n m} {os : List (Obs m)} (hne : os ≠ [])
    (hc : p.Covers os.length) :
    flEmStats ar p os
      = .ok ((List.range os.length).map (p.fn.statsFl ar (obsFn os) (os.length - 1))) := by
  obtain ⟨T, hT⟩ : ∃ T, os.length = T + 1 :=
    ⟨os.length - 1, by have := List.length_pos_iff.mpr hne; omega⟩
  have hA : p.A.Covers T := by have := hc.A; rwa [hT] at this
  rw [flEmStats, flFull_obsFn hc]
  simp only [Bind.bind, Except.bind, hT, flSmoothFull_eq _ T hA, Pure.pure, Except.pure,
    flSmoothPair_map, Nat.add_sub_cancel]
  congr 1
  rw [List.zip_map', List.map_map]
  rfl

theorem near_statsFl (hw : Filter.Tendsto w F (𝓝 0)) {f : ι → Params n m} {p : Params n m}
    (hp : PNear F w f p) (z : ℕ → Obs m) {T : ℕ} (hP : p.fn.PD (T + 1)) {t : ℕ} (ht : t ≤ T) :
    SNear F w (fun i => (f i).fn.statsFl (br i) z T t) (p.fn.stats z T t) := by
  have hk : ∀ t ≤ T, FlNear F w (fun i => (f i).fn.kfFl (br i) z t) (p.fn.kf z t) := by
    intro t ht
    refine nearP_kfFl hw hp z t fun s hs ho => ?_
    have hs' : s < T + 1 := by omega
    have h1 : (p.fn.C s * ((p.fn.kf z s).predCov * (p.fn.C s)ᵀ)).PosSemidef := by
      rw [← Matrix.mul_assoc]
      exact posSemidef_conj' (hP.filt z hs').1.posSemidef _
    exact (Matrix.PosDef.posSemidef_add h1 (hP.R s hs')).det_pos.ne'.isUnit
  have hs := fun t (ht : t ≤ T) => nearP_stSmoothFl (br := br) hw hp z (T := T) (T - t) hk
    (fun t ht => (hP.filt z (show t + 1 < T + 1 by omega)).1.det_pos.ne'.isUnit) (by omega)
  refine ⟨(hs t ht).1, (hs t ht).2.1, ?_⟩
  simp only [PFun.statsFl, PFun.stats]
  split_ifs with h
  · exact owM_const _
  · exact ow_fl_mul hw (hs t ht).2.1 (owM_transpose (hs (t - 1) (by omega)).2.2)

theorem near_flEmStats (hw : Filter.Tendsto w F (𝓝 0)) {f : ι → Params n m} {p : Params n m}
    (hp : PNear F w f p) {os : List (Obs m)} (hne : os ≠ []) (hc : p.Covers os.length)
    (hP : p.fn.PD os.length) :
    RNear (LNear (SNear F w)) (fun i => flEmStats (br i) (f i) os) (emStats p os) := by
  have hlen : os.length - 1 + 1 = os.length :=
    Nat.sub_add_cancel (List.length_pos_iff.mpr hne)
  rw [emStats_eq hne hc]
  refine ⟨_, fun i => flEmStats_eq (br i) hne (hp.covers hc i), ?_⟩
  refine LNear.map _ fun t ht => near_statsFl hw hp _ (by rwa [hlen]) ?_
  have := List.mem_range.mp ht
  omega

end

/-! ### The new parameters -/

section

variable {er : ∀ i, ArithE c (w i)}

theorem ow_fl_mulr (hw : Filter.Tendsto w F (𝓝 0)) {x y : ι → ℝ} {a b : ℝ}
    (hx : Ow F w x a) (hy : Ow F w y b) : Ow F w (fun i => (er i).mulr (x i) (y i)) (a * b) :=
  ow_of_err (K := 1) (hx.mul hw hy) ((hx.mul hw hy).tendsto hw).abs fun i => by
    rw [one_mul]; exact (er i).mulr_err _ _

/-- A quotient of exact numbers. -/
theorem ow_fl_divr (a : ℝ) {b : ℝ} (hb : b ≠ 0) :
    Ow F w (fun i => (er i).divr a b) (a / b) :=
  ow_of_err (K := 1) (ow_const (a / b)) (b := |a / b|) tendsto_const_nhds fun i => by
    rw [one_mul]; exact (er i).divr_err _ _ hb

theorem ow_fl_outer (hw : Filter.Tendsto w F (𝓝 0)) {x : ι → Vec k} {y : ι → Vec l} {a : Vec k}
    {b : Vec l} (hx : OwV F w x a) (hy : OwV F w y b) :
    OwM F w (fun i => (er i).outer (x i) (y i)) (vecMulVec a b) :=
  fun p q => ow_fl_mulr hw (hx p) (hy q)

theorem ow_fl_mscale (hw : Filter.Tendsto w F (𝓝 0)) {x : ι → ℝ} {y : ι → Mat k l} {a : ℝ}
    {b : Mat k l} (hx : Ow F w x a) (hy : OwM F w y b) :
    OwM F w (fun i => (er i).mscale (x i) (y i)) (a • b) :=
  fun p q => ow_fl_mulr hw hx (hy p q)

theorem ow_fl_vscale (hw : Filter.Tendsto w F (𝓝 0)) {x : ι → ℝ} {y : ι → Vec k} {a : ℝ}
    {b : Vec k} (hx : Ow F w x a) (hy : OwV F w y b) :
    OwV F w (fun i => (er i).vscale (x i) (y i)) (a • b) :=
  fun p => ow_fl_mulr hw hx (hy p)

/-- Two sums. -/
def Pair2 (F : Filter ι) (w : ι → ℝ) {a b c d : ℕ} (g : ι → Mat a b × Mat c d)
    (v : Mat a b × Mat c d) : Prop :=
  OwM F w (fun i => (g i).1) v.1 ∧ OwM F w (fun i => (g i).2) v.2

theorem near_flObsMatLoop (hw : Filter.Tendsto w F (𝓝 0)) {d : ι → TV (Vec m)} {d' : TV (Vec m)}
    (hd : TVNear (OwV F w) d d') {ss : ι → List (EmStats n)} {ss' : List (EmStats n)}
    (h : LNear (SNear F w) ss ss') (t : ℕ) (os : List (Obs m)) {r1 : ι → Mat m n} {r1' : Mat m n}
    (h1 : OwM F w r1 r1') {r2 : ι → Mat n n} {r2' : Mat n n} (h2 : OwM F w r2 r2') :
    RNear (Pair2 F w) (fun i => flObsMatLoop (er i) (d i) t (ss i) os (r1 i) (r2 i))
      (emObsMatLoop d' t ss' os r1' r2') := by
  induction h generalizing t os r1 r1' r2 r2' with
  | nil =>
    simp only [flObsMatLoop, emObsMatLoop]
    exact .pure ⟨h1, h2⟩
  | @cons s s' ss ss' hs _ ih =>
    cases os with
    | nil =>
      simp only [flObsMatLoop, emObsMatLoop]
      exact .pure ⟨h1, h2⟩
    | cons o os =>
      by_cases ho : o.missing
      · simp only [flObsMatLoop, emObsMatLoop, ho, not_true_eq_false, if_false]
        exact ih (t + 1) os h1 h2
      · simp only [flObsMatLoop, emObsMatLoop, ho, not_false_eq_true, if_true]
        refine (hd.lastDims owV_const t).bind fun g v _ hg => ?_
        exact ih (t + 1) os
          (ow_fl_madd hw h1 (ow_fl_outer hw (ow_fl_vsub hw (owV_const _) hg) hs.mean))
          (ow_fl_madd hw h2 (ow_fl_madd hw hs.cov (ow_fl_outer hw hs.mean hs.mean)))

theorem near_flObsMat (hw : Filter.Tendsto w F (𝓝 0)) {d : ι → TV (Vec m)} {d' : TV (Vec m)}
    (hd : TVNear (OwV F w) d d') {ss : ι → List (EmStats n)} {ss' : List (EmStats n)}
    (h : LNear (SNear F w) ss ss') (os : List (Obs m))
    (hreg : ∀ r, emObsMatLoop d' 0 ss' os 0 0 = .ok r → IsUnit r.2.det) :
    RNear (OwM F w) (fun i => flObsMat (er i) (d i) (ss i) os) (emObsMat d' ss' os) := by
  refine (near_flObsMatLoop hw hd h 0 os (owM_const _) (owM_const _)).bind fun g v hv hg => ?_
  exact .pure (ow_fl_mul hw hg.1 (ow_fl_pinv hw hg.2 (hreg v hv)))

/-- A sum and a number of rows. -/
def SumCount (R : (ι → α) → α → Prop) (g : ι → α × ℕ) (v : α × ℕ) : Prop :=
  R (fun i => (g i).1) v.1 ∧ ∀ i, (g i).2 = v.2

theorem near_flObsCovLoop (hw : Filter.Tendsto w F (𝓝 0)) {C : ι → TV (Mat m n)} {C' : TV (Mat m n)}
    (hC : TVNear (OwM F w) C C') {d : ι → TV (Vec m)} {d' : TV (Vec m)}
    (hd : TVNear (OwV F w) d d') {ss : ι → List (EmStats n)} {ss' : List (EmStats n)}
    (h : LNear (SNear F w) ss ss') (t : ℕ) (os : List (Obs m)) {r : ι → Mat m m} {r' : Mat m m}
    (hr : OwM F w r r') (N : ℕ) :
    RNear (SumCount (OwM F w)) (fun i => flObsCovLoop (er i) (C i) (d i) t (ss i) os (r i) N)
      (emObsCovLoop C' d' t ss' os r' N) := by
  induction h generalizing t os r r' N with
  | nil =>
    simp only [flObsCovLoop, emObsCovLoop]
    exact .pure ⟨hr, fun _ => rfl⟩
  | @cons s s' ss ss' hs _ ih =>
    cases os with
    | nil =>
      simp only [flObsCovLoop, emObsCovLoop]
      exact .pure ⟨hr, fun _ => rfl⟩
    | cons o os =>
      by_cases ho : o.missing
      · simp only [flObsCovLoop, emObsCovLoop, ho, not_true_eq_false, if_false]
        exact ih (t + 1) os hr N
      · simp only [flObsCovLoop, emObsCovLoop, ho, not_false_eq_true, if_true]
        refine (hC.lastDims owM_const t).bind fun g v _ hg => ?_
        refine (hd.lastDims owV_const t).bind fun g' v' _ hg' => ?_
        have herr := ow_fl_vsub (br := fun i => (er i).toArith) hw
          (ow_fl_vsub (br := fun i => (er i).toArith) hw (owV_const o.val)
          (ow_fl_mulV (br := fun i => (er i).toArith) hw hg hs.mean)) hg'
        exact ih (t + 1) os (ow_fl_madd hw hr (ow_fl_madd hw (ow_fl_outer hw herr herr)
          (ow_fl_mul hw hg (ow_fl_mul hw hs.cov (owM_transpose hg))))) (N + 1)

theorem near_flObsCov (hw : Filter.Tendsto w F (𝓝 0)) {C : ι → TV (Mat m n)} {C' : TV (Mat m n)}
    (hC : TVNear (OwM F w) C C') {d : ι → TV (Vec m)} {d' : TV (Vec m)}
    (hd : TVNear (OwV F w) d d') {ss : ι → List (EmStats n)} {ss' : List (EmStats n)}
    (h : LNear (SNear F w) ss ss') (os : List (Obs m)) :
    RNear (OwM F w) (fun i => flObsCov (er i) (C i) (d i) (ss i) os) (emObsCov C' d' ss' os) := by
  refine (near_flObsCovLoop hw hC hd h 0 os (owM_const _) 0).bind fun g v _ hg => ?_
  simp only [hg.2]
  by_cases hv : v.2 > 0
  · simp only [hv, if_true]
    exact .pure (ow_fl_mscale hw (ow_fl_divr _ (by exact_mod_cast hv.ne')) hg.1)
  · simp only [hv, if_false]
    exact .pure hg.1

theorem near_flTransMatLoop (hw : Filter.Tendsto w F (𝓝 0)) {b : ι → TV (Vec n)} {b' : TV (Vec n)}
    (hb : TVNear (OwV F w) b b') {ss : ι → List (EmStats n)} {ss' : List (EmStats n)}
    (h : LNear (SNear F w) ss ss') (t : ℕ) {s : ι → EmStats n} {s' : EmStats n}
    (hs : SNear F w s s') {r1 : ι → Mat n n} {r1' : Mat n n}
    (h1 : OwM F w r1 r1') {r2 : ι → Mat n n} {r2' : Mat n n} (h2 : OwM F w r2 r2') :
    RNear (Pair2 F w) (fun i => flTransMatLoop (er i) (b i) t (s i) (ss i) (r1 i) (r2 i))
      (emTransMatLoop b' t s' ss' r1' r2') := by
  induction h generalizing t s s' r1 r1' r2 r2' with
  | nil =>
    simp only [flTransMatLoop, emTransMatLoop]
    exact .pure ⟨h1, h2⟩
  | @cons q q' ss ss' hq _ ih =>
    simp only [flTransMatLoop, emTransMatLoop]
    refine (hb.lastDims owV_const (t - 1)).bind fun g v _ hg => ?_
    exact ih (t + 1) hq
      (ow_fl_madd hw h1 (ow_fl_msub hw (ow_fl_madd hw hq.pair (ow_fl_outer hw hq.mean hs.mean))
        (ow_fl_outer hw hg hs.mean)))
      (ow_fl_madd hw h2 (ow_fl_madd hw hs.cov (ow_fl_outer hw hs.mean hs.mean)))

theorem near_flTransMat (hw : Filter.Tendsto w F (𝓝 0)) {b : ι → TV (Vec n)} {b' : TV (Vec n)}
    (hb : TVNear (OwV F w) b b') {ss : ι → List (EmStats n)} {ss' : List (EmStats n)}
    (h : LNear (SNear F w) ss ss')
    (hreg : ∃ s q, ss' = s :: q ∧ ∀ r, emTransMatLoop b' 1 s q 0 0 = .ok r → IsUnit r.2.det) :
    RNear (OwM F w) (fun i => flTransMat (er i) (b i) (ss i)) (emTransMat b' ss') := by
  obtain ⟨s, q, e, hreg⟩ := hreg
  cases h with
  | nil => cases e
  | cons hs ht =>
    cases e
    refine (near_flTransMatLoop hw hb ht 1 hs (owM_const _) (owM_const _)).bind fun g v hv hg => ?_
    exact .pure (ow_fl_mul hw hg.1 (ow_fl_pinv hw hg.2 (hreg v hv)))

theorem near_flTransCovLoop (hw : Filter.Tendsto w F (𝓝 0)) {A : ι → TV (Mat n n)}
    {A' : TV (Mat n n)} (hA : TVNear (OwM F w) A A') {b : ι → TV (Vec n)} {b' : TV (Vec n)}
    (hb : TVNear (OwV F w) b b') {ss : ι → List (EmStats n)} {ss' : List (EmStats n)}
    (h : LNear (SNear F w) ss ss') (t : ℕ) {s : ι → EmStats n} {s' : EmStats n}
    (hs : SNear F w s s') {r : ι → Mat n n} {r' : Mat n n} (hr : OwM F w r r') :
    RNear (OwM F w) (fun i => flTransCovLoop (er i) (A i) (b i) t (s i) (ss i) (r i))
      (emTransCovLoop A' b' t s' ss' r') := by
  induction h generalizing t s s' r r' with
  | nil =>
    simp only [flTransCovLoop, emTransCovLoop]
    exact .pure hr
  | @cons q q' ss ss' hq _ ih =>
    simp only [flTransCovLoop, emTransCovLoop]
    refine (hA.lastDims owM_const t).bind fun g v _ hg => ?_
    refine (hb.lastDims owV_const t).bind fun g' v' _ hg' => ?_
    have herr := ow_fl_vsub (br := fun i => (er i).toArith) hw
      (ow_fl_vsub (br := fun i => (er i).toArith) hw hq.mean
      (ow_fl_mulV (br := fun i => (er i).toArith) hw hg hs.mean)) hg'
    have hvA := ow_fl_mul (br := fun i => (er i).toArith) hw hq.pair (owM_transpose hg)
    exact ih (t + 1) hq (ow_fl_madd hw hr (ow_fl_msub hw (ow_fl_msub hw (ow_fl_madd hw
      (ow_fl_madd hw (ow_fl_outer hw herr herr)
        (ow_fl_mul hw hg (ow_fl_mul hw hs.cov (owM_transpose hg)))) hq.cov) hvA)
      (owM_transpose hvA)))

theorem LNear.length {R : (ι → α) → α → Prop} {f : ι → List α} {a : List α} (h : LNear R f a)
    (i : ι) : (f i).length = a.length := by
  induction h with
  | nil => rfl
  | cons _ _ ih => simp [ih]

theorem near_flTransCov (hw : Filter.Tendsto w F (𝓝 0)) {A : ι → TV (Mat n n)}
    {A' : TV (Mat n n)} (hA : TVNear (OwM F w) A A') {b : ι → TV (Vec n)} {b' : TV (Vec n)}
    (hb : TVNear (OwV F w) b b') {ss : ι → List (EmStats n)} {ss' : List (EmStats n)}
    (h : LNear (SNear F w) ss ss') :
    RNear (OwM F w) (fun i => flTransCov (er i) (A i) (b i) (ss i)) (emTransCov A' b' ss') := by
  cases h with
  | nil => exact .pure (owM_const _)
  | @cons s s' ss ss' hs ht =>
    refine (near_flTransCovLoop hw hA hb ht 0 hs (owM_const _)).bind fun g v _ hg => ?_
    simp only [List.length_cons, ht.length]
    by_cases hv : ss'.length + 1 > 1
    · simp only [hv, if_true]
      refine .pure (ow_fl_mscale hw (ow_fl_divr _ ?_) hg)
      push_cast
      have : (0 : ℝ) < ss'.length := by exact_mod_cast (show 0 < ss'.length by omega)
      linarith
    · simp only [hv, if_false]
      exact .pure hg

theorem near_emInitMean {ss : ι → List (EmStats n)} {ss' : List (EmStats n)}
    (h : LNear (SNear F w) ss ss') :
    RNear (OwV F w) (fun i => emInitMean (ss i)) (emInitMean ss') := by
  cases h with
  | nil => exact fun _ => rfl
  | cons hs _ => exact .pure hs.mean

theorem near_flInitCov (hw : Filter.Tendsto w F (𝓝 0)) {mu : ι → Vec n} {mu' : Vec n}
    (hmu : OwV F w mu mu') {ss : ι → List (EmStats n)} {ss' : List (EmStats n)}
    (h : LNear (SNear F w) ss ss') :
    RNear (OwM F w) (fun i => flInitCov (er i) (mu i) (ss i)) (emInitCov mu' ss') := by
  cases h with
  | nil => exact fun _ => rfl
  | cons hs _ =>
    exact .pure (ow_fl_madd hw (ow_fl_msub hw (ow_fl_msub hw (ow_fl_madd hw hs.cov
      (ow_fl_outer hw hs.mean hs.mean)) (ow_fl_outer hw hmu hs.mean))
      (ow_fl_outer hw hs.mean hmu)) (ow_fl_outer hw hmu hmu))

theorem near_flTransOffLoop (hw : Filter.Tendsto w F (𝓝 0)) {A : ι → TV (Mat n n)}
    {A' : TV (Mat n n)} (hA : TVNear (OwM F w) A A') {ss : ι → List (EmStats n)}
    {ss' : List (EmStats n)} (h : LNear (SNear F w) ss ss') (t : ℕ) {s : ι → EmStats n}
    {s' : EmStats n} (hs : SNear F w s s') {r : ι → Vec n} {r' : Vec n} (hr : OwV F w r r') :
    RNear (OwV F w) (fun i => flTransOffLoop (er i) (A i) t (s i) (ss i) (r i))
      (emTransOffLoop A' t s' ss' r') := by
  induction h generalizing t s s' r r' with
  | nil =>
    simp only [flTransOffLoop, emTransOffLoop]
    exact .pure hr
  | @cons q q' ss ss' hq _ ih =>
    simp only [flTransOffLoop, emTransOffLoop]
    refine (hA.lastDims owM_const (t - 1)).bind fun g v _ hg => ?_
    exact ih (t + 1) hq (ow_fl_vadd hw hr (ow_fl_vsub hw hq.mean (ow_fl_mulV hw hg hs.mean)))

theorem near_flTransOff (hw : Filter.Tendsto w F (𝓝 0)) {A : ι → TV (Mat n n)}
    {A' : TV (Mat n n)} (hA : TVNear (OwM F w) A A') {ss : ι → List (EmStats n)}
    {ss' : List (EmStats n)} (h : LNear (SNear F w) ss ss') :
    RNear (OwV F w) (fun i => flTransOff (er i) (A i) (ss i)) (emTransOff A' ss') := by
  cases h with
  | nil => exact .pure (owV_const _)
  | @cons s s' ss ss' hs ht =>
    refine (near_flTransOffLoop hw hA ht 1 hs (owV_const _)).bind fun g v _ hg => ?_
    simp only [List.length_cons, ht.length]
    by_cases hv : ss'.length + 1 > 1
    · simp only [hv, if_true]
      refine .pure (ow_fl_vscale hw (ow_fl_divr _ ?_) hg)
      push_cast
      have : (0 : ℝ) < ss'.length := by exact_mod_cast (show 0 < ss'.length by omega)
      linarith
    · simp only [hv, if_false]
      exact .pure (owV_const _)

theorem near_flObsOffLoop (hw : Filter.Tendsto w F (𝓝 0)) {C : ι → TV (Mat m n)} {C' : TV (Mat m n)}
    (hC : TVNear (OwM F w) C C') {ss : ι → List (EmStats n)} {ss' : List (EmStats n)}
    (h : LNear (SNear F w) ss ss') (t : ℕ) (os : List (Obs m)) {r : ι → Vec m} {r' : Vec m}
    (hr : OwV F w r r') (N : ℕ) :
    RNear (SumCount (OwV F w)) (fun i => flObsOffLoop (er i) (C i) t (ss i) os (r i) N)
      (emObsOffLoop C' t ss' os r' N) := by
  induction h generalizing t os r r' N with
  | nil =>
    simp only [flObsOffLoop, emObsOffLoop]
    exact .pure ⟨hr, fun _ => rfl⟩
  | @cons s s' ss ss' hs _ ih =>
    cases os with
    | nil =>
      simp only [flObsOffLoop, emObsOffLoop]
      exact .pure ⟨hr, fun _ => rfl⟩
    | cons o os =>
      by_cases ho : o.missing
      · simp only [flObsOffLoop, emObsOffLoop, ho, not_true_eq_false, if_false]
        exact ih (t + 1) os hr N
      · simp only [flObsOffLoop, emObsOffLoop, ho, not_false_eq_true, if_true]
        refine (hC.lastDims owM_const t).bind fun g v _ hg => ?_
        exact ih (t + 1) os (ow_fl_vadd hw hr (ow_fl_vsub hw (owV_const _)
          (ow_fl_mulV hw hg hs.mean))) (N + 1)

theorem near_flObsOff (hw : Filter.Tendsto w F (𝓝 0)) {C : ι → TV (Mat m n)} {C' : TV (Mat m n)}
    (hC : TVNear (OwM F w) C C') {ss : ι → List (EmStats n)} {ss' : List (EmStats n)}
    (h : LNear (SNear F w) ss ss') (os : List (Obs m)) :
    RNear (OwV F w) (fun i => flObsOff (er i) (C i) (ss i) os) (emObsOff C' ss' os) := by
  refine (near_flObsOffLoop hw hC h 0 os (owV_const _) 0).bind fun g v _ hg => ?_
  simp only [hg.2]
  by_cases hv : v.2 > 0
  · simp only [hv, if_true]
    exact .pure (ow_fl_vscale hw (ow_fl_divr _ (by exact_mod_cast hv.ne')) hg.1)
  · simp only [hv, if_false]
    exact .pure hg.1

theorem near_emPick {R : (ι → α) → α → Prop} (v : Bool) {f : ι → Res α} {a : Res α} {g : α}
    (h : v = true → RNear R f a) (hg : R (fun _ => g) g) :
    RNear R (fun i => emPick v (f i) g) (emPick v a g) := by
  cases v with
  | true => exact h rfl
  | false => exact .pure hg

theorem near_emConst {R : (ι → α) → α → Prop} {f : ι → Res α} {a : Res α} (h : RNear R f a) :
    RNear (TVNear R) (fun i => emConst (f i)) (emConst a) := by
  cases a with
  | error e =>
    intro i
    show emConst (f i) = _
    rw [show f i = .error e from h i]
    rfl
  | ok v =>
    obtain ⟨g, hg, hR⟩ := h
    exact ⟨fun i => .const (g i), fun i => by show emConst (f i) = _; rw [hg i]; rfl, g, fun _ => rfl, hR⟩

theorem near_flEmStep (hw : Filter.Tendsto w F (𝓝 0)) (given : Params n m) (vars : EmVar → Bool)
    {f : ι → Params n m} {p : Params n m} (hp : PNear F w f p) {ss : ι → List (EmStats n)}
    {ss' : List (EmStats n)} (h : LNear (SNear F w) ss ss') (os : List (Obs m))
    (hC : vars .observationMatrices = true →
      ∀ r, emObsMatLoop p.d 0 ss' os 0 0 = .ok r → IsUnit r.2.det)
    (hA : vars .transitionMatrices = true →
      ∃ s q, ss' = s :: q ∧ ∀ r, emTransMatLoop p.b 1 s q 0 0 = .ok r → IsUnit r.2.det) :
    RNear (PNear F w) (fun i => flEmStep (er i) given vars (f i) (ss i) os)
      (emStep given vars p ss' os) := by
  refine (near_emPick _ (fun e => near_emConst (near_flObsMat hw hp.d h os (hC e)))
    (TVNear.refl owM_const given.C)).bind fun C C' _ gC => ?_
  refine (near_emPick _ (fun _ => near_emConst (near_flObsCov hw gC hp.d h os))
    (TVNear.refl owM_const given.R)).bind fun R R' _ gR => ?_
  refine (near_emPick _ (fun e => near_emConst (near_flTransMat hw hp.b h (hA e)))
    (TVNear.refl owM_const given.A)).bind fun A A' _ gA => ?_
  refine (near_emPick _ (fun _ => near_emConst (near_flTransCov hw gA hp.b h))
    (TVNear.refl owM_const given.Q)).bind fun Q Q' _ gQ => ?_
  refine (near_emPick _ (fun _ => near_emInitMean h)
    (owV_const given.mu0)).bind fun mu mu' _ gmu => ?_
  refine (near_emPick _ (fun _ => near_flInitCov hw gmu h)
    (owM_const given.S0)).bind fun S S' _ gS => ?_
  refine (near_emPick _ (fun _ => near_emConst (near_flTransOff hw gA h))
    (TVNear.refl owV_const given.b)).bind fun b b' _ gb => ?_
  refine (near_emPick _ (fun _ => near_emConst (near_flObsOff hw gC h os))
    (TVNear.refl owV_const given.d)).bind fun d d' _ gd => ?_
  exact .pure ⟨gA, gb, gQ, gC, gd, gR, gmu, gS⟩

/-- The sums whose inverses `em` takes are regular. -/
theorem em_sums_regular {p : Params n m} {os : List (Obs m)} (hne : os ≠ [])
    (hc : p.Covers os.length) (hP : p.fn.PD os.length) {ss : List (EmStats n)}
    (hss : emStats p os = .ok ss) :
    ((∃ o ∈ os, ¬ o.missing) → ∀ r, emObsMatLoop p.d 0 ss os 0 0 = .ok r → IsUnit r.2.det) ∧
    (2 ≤ os.length →
      ∃ s q, ss = s :: q ∧ ∀ r, emTransMatLoop p.b 1 s q 0 0 = .ok r → IsUnit r.2.det) := by
  obtain ⟨T, hT⟩ : ∃ T, os.length = T + 1 :=
    ⟨os.length - 1, by have := List.length_pos_iff.mpr hne; omega⟩
  rw [emStats_eq hne hc, hT, Nat.add_sub_cancel] at hss
  cases hss
  rw [hT] at hP hc
  set f := p.fn.stats (obsFn os) T with hf
  have hpos : ∀ t < T + 1, (f t).cov.PosDef := fun t ht => hP.smooth (obsFn os) (by omega)
  have hos := list_eq_map_obsFn os
  rw [hT] at hos
  constructor
  · rintro ⟨o, ho, hmiss⟩ r hr
    have e := emObsMatLoop_eq f (obsFn os) (d := p.d) (T + 1) 0 (by simpa using hc.d) 0 0
    simp only [zero_add] at e
    rw [← hos] at e
    rw [e] at hr
    cases hr
    obtain ⟨t, ht, rfl⟩ := List.mem_iff_getElem.mp ho
    have hterm : ∀ s < T + 1, ((f s).cov + vecMulVec (f s).mean (f s).mean).PosDef := fun s hs =>
      (hpos s hs).add_posSemidef (vecMulVec_posSemidef _)
    have htT : t < T + 1 := by omega
    have hsum : (∑ s ∈ Finset.range (T + 1), (obsFn os s).w •
        ((f s).cov + vecMulVec (f s).mean (f s).mean)).PosDef := by
      rw [← Finset.add_sum_erase _ _ (Finset.mem_range.mpr htT), Obs.w_observed (by
        rwa [obsFn_eq ht]), one_smul]
      refine (hterm t htT).add_posSemidef (posSemidef_sum _ fun s hs => ?_)
      exact smul_posSemidef (obsFn os s).w_nonneg
        (hterm s (Finset.mem_range.mp (Finset.mem_of_mem_erase hs))).posSemidef
    have : (0 + ∑ s ∈ Finset.range (T + 1), (obsFn os s).w •
        ((f s).cov + vecMulVec (f s).mean (f s).mean)).PosDef := by rwa [zero_add]
    simpa only [zero_add] using this.det_pos.ne'.isUnit
  · intro h2
    have e0 := map_range_succ f T 0
    simp only [zero_add] at e0
    refine ⟨_, _, e0, fun r hr => ?_⟩
    have e := emTransMatLoop_eq f (b := p.b) T 0 (by simpa using hc.b) 0 0
    simp only [zero_add] at e
    rw [e] at hr
    cases hr
    exact (sum_posDef (M := fun t => (f t).cov + vecMulVec (f t).mean (f t).mean) (by omega)
      fun t ht => (hpos t (by omega)).add_posSemidef (vecMulVec_posSemidef _)).det_pos.ne'.isUnit

end

/-! ### `loglikelihood` -/

/-- `loglikelihood` with parameters near `p`, as computed from given rows of the filter. -/
theorem nearP_loglikLoop {br : ∀ i, ArithL c (w i)} (hw : Filter.Tendsto w F (𝓝 0))
    {f : ι → Params n m} {p : Params n m} (hp : PNear F w f p) {os : List (Obs m)}
    (hc : p.Covers os.length) {R : Mat m m} (hR : p.R = .const R)
    {st : ι → ℕ → Step n m}
    (hk : ∀ t, t < os.length → FlNear F w (fun i => st i t) (p.fn.kf (obsFn os) t))
    (hS : ∀ t, t < os.length → ¬ (obsFn os t).missing →
      (p.fn.C t * (p.fn.kf (obsFn os) t).predCov * (p.fn.C t)ᵀ + p.fn.R t).PosDef) :
    ∃ (v : ι → ℝ) (L : ℝ), kfLoglik p os = .ok L ∧
      (∀ᶠ i in F, ∃ ls, flLoglikLoop (br i) (f i) 0 ((List.range os.length).map (st i)) os = .ok ls ∧
        ((br i).sum ls.length fun j => ls[j]) = v i) ∧ Ow F w v L := by
  classical
  -- exact terms
  let S : ℕ → Mat m m := fun t =>
    p.fn.C t * (p.fn.kf (obsFn os) t).predCov * (p.fn.C t)ᵀ + p.fn.R t
  let ℓ : ℕ → Vec m → Vec m → ℝ := fun t x y => -(1 / 2) * ((x - y) ⬝ᵥ ((S t)⁻¹ *ᵥ (x - y))
    + m * Real.log (2 * Real.pi) + Real.log (S t).det)
  have hexact : kfLoglik p os
      = .ok (∑ t ∈ Finset.range os.length, p.fn.lterm ℓ (obsFn os) t) := by
    refine kfLoglik_pure hc hR fun t ht ho x y => ?_
    obtain ⟨ℓ', h1, -, h2, -⟩ := logMvn_posDef (hS t ht ho)
    rw [h1 x y, h2 x y]
  -- computed terms
  have hterm : ∀ t, ∃ v : ι → ℝ, t < os.length → (∀ᶠ i in F, flLoglikStep (br i) (f i) t
      (st i t) (obsFn os t) = .ok (v i)) ∧
      Ow F w v (p.fn.lterm ℓ (obsFn os) t) := by
    intro t
    by_cases ht : t < os.length
    · by_cases ho : (obsFn os t).missing
      · refine ⟨fun _ => 0, fun _ => ⟨Filter.Eventually.of_forall fun i => ?_, ?_⟩⟩
        · simp [flLoglikStep, ho, Pure.pure, Except.pure]
        · simp only [PFun.lterm, ho, if_true]
          exact ow_const 0
      · have hC : OwM F w (fun i => (f i).fn.C t) (p.fn.C t) := hp.C.get owM_const t
        have hCt := owM_transpose hC
        have hcov := ow_fl_madd (br := fun i => (br i).toArith) hw
          (ow_fl_mul (br := fun i => (br i).toArith) hw hC
            (ow_fl_mul (br := fun i => (br i).toArith) hw (hk t ht).predCov hCt))
          (show OwM F w (fun i => (f i).fn.R t) (p.fn.R t) from hp.R.get owM_const t)
        rw [← Matrix.mul_assoc] at hcov
        have hmean := ow_fl_vadd (br := fun i => (br i).toArith) hw
          (ow_fl_mulV (br := fun i => (br i).toArith) hw hC (hk t ht).predMean)
          (show OwV F w (fun i => (f i).fn.d t) (p.fn.d t) from hp.d.get owV_const t)
        obtain ⟨v, h1, h2⟩ := ow_logMvn (br := br) hw hcov (hS t ht ho) (obsFn os t).val hmean
        refine ⟨v, fun _ => ⟨h1.mono fun i hi => ?_, ?_⟩⟩
        · simp only [flLoglikStep, ho, not_false_eq_true, if_true]
          have hci := hp.covers hc i
          obtain ⟨Ri, hRi⟩ : ∃ Ri, (f i).R = .const Ri := by
            have := hp.R
            rw [hR] at this
            obtain ⟨g, hg, -⟩ := this
            exact ⟨g i, hg i⟩
          rw [lastDims_eq_ok (hci.C.mono (by omega)), lastDims_eq_ok (hci.d.mono (by omega)), hRi]
          simp only [Bind.bind, Except.bind, Pure.pure, Except.pure]
          have hRt : (f i).fn.R t = Ri := by simp [Params.fn, hRi, TV.get]
          rw [hRt] at hi
          exact hi
        · simp only [PFun.lterm, ho, if_false]
          exact h2
    · exact ⟨fun _ => 0, fun h => absurd h ht⟩
  choose v hv using hterm
  refine ⟨fun i => (br i).sum os.length fun t => v t i, _, hexact, ?_, ?_⟩
  · have hall : ∀ᶠ i in F, ∀ t ∈ Finset.range os.length, flLoglikStep (br i) (f i) t
        (st i t) (obsFn os t) = .ok (v t i) :=
      (Filter.eventually_all_finset _).mpr fun t ht => (hv t (Finset.mem_range.mp ht)).1
    filter_upwards [hall] with i hi
    have hl := flLoglikLoop_pure (ar := br i) (p := f i) (fun t => v t i) os
      ((List.range os.length).map (st i)) 0 (by simp)
      (fun t h1 h2 => by
        simp only [List.getElem_map, List.getElem_range, zero_add]
        rw [← obsFn_eq h2]
        exact hi t (Finset.mem_range.mpr h2))
    exact ⟨_, hl, sum_list_eq (br i) (v := fun t => v t i) (by simp)⟩
  · have h1 : Ow F w (fun i => ∑ t : Fin os.length, v t i)
        (∑ t ∈ Finset.range os.length, p.fn.lterm ℓ (obsFn os) t) := by
      rw [← Fin.sum_univ_eq_sum_range (fun t => p.fn.lterm ℓ (obsFn os) t)]
      exact Ow.sum fun t _ => (hv t t.2).2
    exact ow_of_err' h1
      (Bdd.sum (s := Finset.univ) fun t _ => (((hv (t : Fin os.length) t.2).2).bdd hw).abs)
      (Filter.Eventually.of_forall fun i => (br i).sum_err _ _)

/-- `loglikelihood` with parameters near `p`. -/
theorem nearP_loglik {br : ∀ i, ArithL c (w i)} (hw : Filter.Tendsto w F (𝓝 0))
    {f : ι → Params n m} {p : Params n m} (hp : PNear F w f p) {os : List (Obs m)}
    (hc : p.Covers os.length) (hR : p.R.IsConst) (hP : p.fn.PD os.length) :
    ∃ (v : ι → ℝ) (L : ℝ), kfLoglik p os = .ok L ∧
      (∀ᶠ i in F, flLoglik (br i) (f i) os = .ok (v i)) ∧ Ow F w v L := by
  obtain ⟨R, hR⟩ := hR
  have h1 : ∀ t, t < os.length → ((p.fn.C t * (p.fn.kf (obsFn os) t).predCov * (p.fn.C t)ᵀ)
      + p.fn.R t).PosDef := fun t ht =>
    Matrix.PosDef.posSemidef_add (posSemidef_conj' (hP.filt _ ht).1.posSemidef _) (hP.R t ht)
  obtain ⟨v, L, hL, hok, hv⟩ := nearP_loglikLoop (br := br) hw hp hc hR
    (st := fun i t => (f i).fn.kfFl (br i).toArith (obsFn os) t)
    (fun t ht => nearP_kfFl hw hp _ t fun s hs _ => by
      have := (h1 s (by omega)).det_pos.ne'.isUnit
      rwa [Matrix.mul_assoc] at this) (fun t ht _ => h1 t ht)
  refine ⟨v, L, hL, hok.mono fun i hi => ?_, hv⟩
  obtain ⟨ls, h1, h2⟩ := hi
  rw [flLoglik, flFull_obsFn (hp.covers hc i)]
  simp only [Bind.bind, Except.bind]
  rw [h1]
  simp only [Pure.pure, Except.pure]
  rw [h2]

end Verif
