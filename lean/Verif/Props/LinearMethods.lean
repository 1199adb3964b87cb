import Verif.Proofs.LinearMethods
import Verif.Props.Posterior
import Verif.Props.Likelihood
import Verif.Props.Cholesky
import Verif.Props.Bierman
import Verif.Props.Em

/-!
# C58: calls of the linear classes, from the user's arrays to the results
-/

open Matrix MeasureTheory ProbabilityTheory

namespace Verif

variable {n m : ℕ}

/-- **C58.** If the arguments stand for the parameters `p` and the data for the observations `os`,
the constructor succeeds and the methods run the algorithm of their class with exactly these
parameters on exactly these observations. -/
theorem C58_methods {a : KFArgs} {p : Params n m} (h : a.Means p) {X : MArray} {os : List (Obs m)}
    (hX : DataArg X os) (qr : QR) (store : ℝ → ℝ) :
    KF.init a = .ok (a.object n m) ∧
    ((a.object n m).filterOf .standard qr store X = some (kfFilter p os) ∧
      (a.object n m).filterOf .cholesky qr store X = some (cholFilter qr p os) ∧
      (a.object n m).filterOf .bierman qr store X = some (bierFilter store p os)) ∧
    ((a.object n m).smoothOf .standard qr store X = some (kfSmooth p os) ∧
      (a.object n m).smoothOf .cholesky qr store X = some (cholSmooth qr p os) ∧
      (a.object n m).smoothOf .bierman qr store X = some (bierSmooth store p os)) ∧
    ((a.object n m).loglikOf .standard qr store X = some (kfLoglik p os) ∧
      (a.object n m).loglikOf .cholesky qr store X = some (cholLoglik qr p os) ∧
      (a.object n m).loglikOf .bierman qr store X = some (bierLoglik store p os)) ∧
    ∀ mean cov o u, (a.object n m).filterUpdate mean cov o u
      = some (filterUpdate p mean cov o u) := by
  refine ⟨h.init, ⟨?_, ?_, ?_⟩, ⟨?_, ?_, ?_⟩, ⟨?_, ?_, ?_⟩, fun mean cov o u => ?_⟩
  case _ => simp only [KF.filterOf]; rw [h.prepare hX]; rfl
  case _ => simp only [KF.filterOf]; rw [h.prepare hX]; rfl
  case _ => simp only [KF.filterOf]; rw [h.prepare hX]; rfl
  case _ => simp only [KF.smoothOf]; rw [h.prepare hX]; rfl
  case _ => simp only [KF.smoothOf]; rw [h.prepare hX]; rfl
  case _ => simp only [KF.smoothOf]; rw [h.prepare hX]; rfl
  case _ => simp only [KF.loglikOf]; rw [h.prepare hX]; rfl
  case _ => simp only [KF.loglikOf]; rw [h.prepare hX]; rfl
  case _ => simp only [KF.loglikOf]; rw [h.prepare hX]; rfl
  case _ => simp only [KF.filterUpdate]; rw [h.params]; rfl

/-- **C58.** The class does not matter: where a square-root class accepts the parameters, its
`filter`, `smooth` and `loglikelihood` return what those of the plain class return, and raise what
they raise; for `BiermanKalmanFilter` if there is a row at all (see `C30_no_rows`). -/
theorem C58_classes_agree {a : KFArgs} {p : Params n m} (h : a.Means p) {X : MArray}
    {os : List (Obs m)} (hX : DataArg X os) (qr : QR) (cls : KFClass) (hc : cls.Accepts p)
    (hne : cls = .bierman → os ≠ []) :
    (a.object n m).filterOf cls qr id X = some (kfFilter p os) ∧
    (a.object n m).smoothOf cls qr id X = some (kfSmooth p os) ∧
    (a.object n m).loglikOf cls qr id X = some (kfLoglik p os) := by
  obtain ⟨-, ⟨f1, f2, f3⟩, ⟨s1, s2, s3⟩, ⟨l1, l2, l3⟩, -⟩ := C58_methods h hX qr id
  cases cls with
  | standard => exact ⟨f1, s1, l1⟩
  | cholesky =>
    rw [f2, s2, l2, C29_filter_eq qr hc, C29_smooth_eq qr hc, C29_loglikelihood_eq qr hc]
    exact ⟨rfl, rfl, rfl⟩
  | bierman =>
    have hne := hne rfl
    rw [f3, s3, l3, C30_filter_eq hc.1 hc.2 hne, C30_smooth_eq hc.1 hc.2 hne,
      C30_loglikelihood_eq hc.1 hc.2 hne]
    exact ⟨rfl, rfl, rfl⟩

/-- **C58, C01, C02.** From the user's arrays to the posterior: construct any of the three classes
from arguments that stand for `p`, and hand the recorded data of a linear-Gaussian process with the
parameters `p` to `filter` and `smooth`.  Almost surely row `t` of the result is the mean and
covariance of the conditional distribution of the state at `t`, given the unmasked rows `0 … t`
(`filter`) or all unmasked rows (`smooth`). -/
theorem C58_posterior {Ω : Type} [MeasurableSpace Ω] {μ : Measure Ω} [IsProbabilityMeasure μ]
    {p : Params n m} {T : ℕ} {X : ℕ → Ω → Vec n} {Z : ℕ → Ω → Vec m}
    {noise : (i : Noise) → Ω → Vec (i.dim n m)} (hproc : IsLinGauss μ p T X Z noise)
    (hdef : p.DefinedFor T) (hpsd : p.PSD T) (mask : MaskPat m) (hT : 0 < T) {a : KFArgs}
    (h : a.Means p) (qr : QR) (cls : KFClass) (hc : cls.Accepts p) :
    KF.init a = .ok (a.object n m) ∧
    ∀ᵐ ω ∂μ, ∀ (data : MArray) (os : List (Obs m)), DataArg data os → os.length = T →
      Records mask (fun t => Z t ω) os →
      (∃ out, (a.object n m).filterOf cls qr id data = some (.ok out) ∧ out.length = T ∧
        ∀ t, t < T → ∃ mean cov, out[t]? = some (mean, cov) ∧
          condDistrib (X t) (seen mask Z (t + 1)) μ (seen mask Z (t + 1) ω) = gauss mean cov) ∧
      ∃ out, (a.object n m).smoothOf cls qr id data = some (.ok out) ∧ out.length = T ∧
        ∀ t, t < T → ∃ mean cov, out[t]? = some (mean, cov) ∧
          condDistrib (X t) (seen mask Z T) μ (seen mask Z T ω) = gauss mean cov := by
  refine ⟨h.init, ?_⟩
  filter_upwards [C01_filter_exact_posterior hproc hdef hpsd mask,
    C02_smooth_exact_posterior hproc hdef hpsd mask hT] with ω h1 h2 data os hdata hos hrec
  obtain ⟨out, f1, f2, f3⟩ := h1 os hos hrec
  obtain ⟨out', g1, g2, g3⟩ := h2 os hos hrec
  obtain ⟨e1, e2, -⟩ := C58_classes_agree h hdata qr cls hc fun _ => by
    rintro rfl
    simp at hos
    omega
  exact ⟨⟨out, e1.trans (congrArg some f1), f2, f3⟩, out', e2.trans (congrArg some g1), g2, g3⟩

/-! ### `em` -/

theorem em_to_object {a : KFArgs} {p : Params n m} (h : a.Means p) (cls : KFClass) (qr : QR)
    (store : ℝ → ℝ) (X : MArray) (nIter : ℕ) (arg : Option EmNames) {p' : Params n m}
    (he : (a.object n m).em cls qr store X nIter arg = some (.ok p')) :
    ∃ a' : KFArgs, a'.Means p' ∧ a'.emVars = a.emVars ∧ a'.randomState = a.randomState ∧
      (a.object n m).emObject cls qr store X nIter arg = some (.ok (a'.object n m)) := by
  refine ⟨a.withParams p', h.withParams p', rfl, rfl, ?_⟩
  simp only [KF.emObject, he]
  rfl

/-- **C58.** `em` of the plain class: the variables are those named in the call, else in the
constructor, else the documented ones; the object returned is one made from arguments that stand
for the parameters the algorithm arrives at, so that every later call uses these. -/
theorem C58_em {a : KFArgs} {p : Params n m} (h : a.Means p) {X : MArray} {os : List (Obs m)}
    (hX : DataArg X os) (nIter : ℕ) (arg : Option EmNames) {e : EmNames}
    (he : arg = some e ∨ arg = none ∧ (a.emVars = some e ∨ a.emVars = none ∧ e = documentedEmVars))
    {vars : EmVar → Bool} (hv : Selects e vars) (qr : QR) (store : ℝ → ℝ) :
    (∀ p', kfEm p os nIter vars = .ok p' →
      ∃ a' : KFArgs, a'.Means p' ∧ a'.emVars = a.emVars ∧ a'.randomState = a.randomState ∧
        (a.object n m).emObject .standard qr store X nIter arg = some (.ok (a'.object n m))) ∧
    ∀ err, kfEm p os nIter vars = .error err →
      (a.object n m).emObject .standard qr store X nIter arg = some (.error err) := by
  have hs : (a.object n m).emSelection arg = .ok vars := by
    have : arg.getD (a.object n m).emVars' = e := by
      rcases he with rfl | ⟨rfl, h | ⟨h, rfl⟩⟩
      · rfl
      · simp [KFArgs.object, h]
      · simp [KFArgs.object, h, documentedEmVars, defaultEmNames]
    rw [KF.emSelection, this, emSelection_eq hv]
  have key : (a.object n m).em .standard qr store X nIter arg = some (kfEm p os nIter vars) := by
    simp only [KF.em]
    rw [h.prepare hX]
    simp only [Option.map_some, bind, Except.bind, hs]
    rfl
  refine ⟨fun p' hp' => em_to_object h _ qr store X nIter arg (key.trans (congrArg some hp')), ?_⟩
  intro err herr
  simp only [KF.emObject, key, herr]
  rfl

/-- **C58.** `em` of the square-root classes, for variables named in the call or in the
constructor, as long as all parameters on the way are accepted by the class: the same object as
that of the plain class. -/
theorem C58_em_sqrt {a : KFArgs} {p : Params n m} (h : a.Means p) {X : MArray} {os : List (Obs m)}
    (hX : DataArg X os) (nIter : ℕ) (arg : Option EmNames) {e : EmNames}
    (he : arg = some e ∨ arg = none ∧ a.emVars = some e) {vars : EmVar → Bool}
    (hv : Selects e vars) (qr : QR) (cls : KFClass)
    (hc : ∀ j < nIter, ∀ q, kfEm p os j vars = .ok q → cls.Accepts q) (hn : 0 < n)
    (hne : cls = .bierman → os ≠ []) :
    (a.object n m).emObject cls qr id X nIter arg
      = (a.object n m).emObject .standard qr id X nIter arg := by
  have hs : (a.object n m).emSelection arg = .ok vars := by
    have : arg.getD (a.object n m).emVars' = e := by
      rcases he with rfl | ⟨rfl, h⟩
      · rfl
      · simp [KFArgs.object, h]
    rw [KF.emSelection, this, emSelection_eq hv]
  have hs' : (a.object n m).emSelectionSqrt arg = .ok vars := by
    have : (arg.orElse fun _ => (a.object n m).emVars) = some e := by
      rcases he with rfl | ⟨rfl, h⟩
      · rfl
      · simp [KFArgs.object, h]
    rw [KF.emSelectionSqrt, this, emSelection_eq hv]
  have key : (a.object n m).em cls qr id X nIter arg
      = (a.object n m).em .standard qr id X nIter arg := by
    simp only [KF.em]
    rw [h.prepare hX]
    cases cls with
    | standard => rfl
    | cholesky =>
      simp only [Option.map_some, bind, Except.bind, hs, hs']
      exact congrArg some (C29_em_eq qr p os nIter vars hc)
    | bierman =>
      simp only [Option.map_some, bind, Except.bind, hs, hs']
      exact congrArg some (C30_em_eq hn p (hne rfl) nIter vars fun j hj q hq => (hc j hj q hq).2)
  simp only [KF.emObject, key]

/-- **C58.** Two calls of `em` with `i` and `j` iterations on the same data leave the object with
the parameters of one call with `i + j` iterations: `kf.em(X, n_iter=i).em(X, n_iter=j)`. -/
theorem C58_em_twice {a : KFArgs} {p : Params n m} (h : a.Means p) {X : MArray} {os : List (Obs m)}
    (hX : DataArg X os) (i j : ℕ) (arg : Option EmNames) (qr : QR) (store : ℝ → ℝ) {q : Params n m}
    {vars : EmVar → Bool} {e : EmNames}
    (he : arg = some e ∨ arg = none ∧ (a.emVars = some e ∨ a.emVars = none ∧ e = documentedEmVars))
    (hv : Selects e vars) (hq : kfEm p os (i + j) vars = .ok q) :
    ∃ a' a'' b : KFArgs,
      (a.object n m).emObject .standard qr store X i arg = some (.ok (a'.object n m)) ∧
      (a'.object n m).emObject .standard qr store X j arg = some (.ok (a''.object n m)) ∧
      (a.object n m).emObject .standard qr store X (i + j) arg = some (.ok (b.object n m)) ∧
      a''.Means q ∧ b.Means q := by
  obtain ⟨b, hb, -, -, eb⟩ := (C58_em h hX (i + j) arg he hv qr store).1 q hq
  rw [C23_em_add] at hq
  cases hp' : kfEm p os i vars with
  | error err => rw [hp'] at hq; cases hq
  | ok p' =>
    rw [hp'] at hq
    obtain ⟨a', ha', em', -, ea'⟩ := (C58_em h hX i arg he hv qr store).1 p' hp'
    obtain ⟨a'', ha'', -, -, ea''⟩ := (C58_em ha' hX j arg (em' ▸ he) hv qr store).1 q hq
    exact ⟨a', a'', b, ea', ea'', eb, ha'', hb⟩

/-! ### An example -/

/-- Arguments as a user writes them: a list of transition matrices, one row as observation matrix,
a number as observation covariance, the rest left out. -/
noncomputable def exKFArgs : KFArgs :=
  { A := some ⟨[1, 2, 2], fun i => if i.drop 1 = [1, 0] then 0 else 1⟩
    C := some ⟨[2], fun i => if i = [0] then 1 else 0⟩
    R := some ⟨[], fun _ => 3⟩ }

/-- The parameters they stand for. -/
noncomputable def exKFMeaning : Params 2 1 :=
  ⟨.seq [!![1, 1; 0, 1]], .const 0, .const 1, .const !![1, 0], .const 0, .const !![3], 0, 1⟩

/-- The hypotheses are satisfiable, with data given as a list of numbers of which the last is
missing; all three classes accept these parameters. -/
example : exKFArgs.Means exKFMeaning ∧
    DataArg ⟨[2], fun i => i.headD 0 + 5, fun i => i.headD 0 == 1⟩
      [(⟨fun _ => 5, fun _ => false⟩ : Obs 1), ⟨fun _ => 6, fun _ => true⟩] ∧
    (∀ cls : KFClass, cls.Accepts exKFMeaning) ∧ exKFMeaning.DefinedFor 2 ∧
    ∃ vars, Selects documentedEmVars vars := by
  have e1 : eyeMat 2 2 = (1 : Mat 2 2) := by
    ext i j; simp [eyeMat, Matrix.one_apply, Fin.ext_iff]
  have hR : (!![3] : Mat 1 1).PosDef := by
    have : (!![3] : Mat 1 1) = (3 : ℝ) • (1 : Mat 1 1) := by
      ext i j
      simp [Subsingleton.elim i 0, Subsingleton.elim j 0]
    rw [this]
    exact Matrix.PosDef.one.smul (by norm_num)
  refine ⟨⟨by simp [exKFArgs], by simp [exKFArgs], by simp [exKFArgs], by simp [exKFArgs],
    .sequence _ _ rfl ?_, .omitted, ?_, .row rfl _ _ rfl ?_, .omitted, .number rfl rfl _ _ rfl ?_,
    .omitted, ?_, trivial⟩, .numbers rfl (by simp) rfl ?_, ?_, ?_, _, (emSelection_selects _).choose_spec.2⟩
  · intro t ht i j
    obtain rfl : t = 0 := by simpa using ht
    fin_cases i <;> fin_cases j <;> simp
  · rw [e1]; exact .omitted
  · intro i j
    fin_cases i; fin_cases j <;> simp
  · intro i j
    fin_cases i; fin_cases j; simp
  · rw [e1]; exact .omitted
  · intro t ht j
    have : t = 0 ∨ t = 1 := by simp at ht; omega
    rcases this with rfl | rfl
    · norm_num
    · norm_num
  · intro cls
    cases cls with
    | standard => trivial
    | cholesky => exact ⟨⟨1, rfl, PosDef.one⟩, ⟨_, rfl, hR⟩, PosDef.one⟩
    | bierman => exact ⟨by norm_num, ⟨1, rfl, PosSemidef.one⟩, ⟨_, rfl, hR⟩, PosSemidef.one⟩
  · rw [definedFor_iff_covers]
    constructor <;> simp [exKFMeaning, TV.Covers]

end Verif
