import Verif.Props.Bunch
import Verif.Props.LinearMethods

/-!
# C50: filtering the observations that `load_robot` returns
-/

open Matrix

namespace Verif

variable {n m : ℕ}

theorem hasRows_of_rows {Z : MArray} {os : List (Obs m)} (hs : Z.shape = [os.length, m])
    (hr : Z.rows m = os) (h1 : os.length ≠ 1 ∨ m ≤ 1) : HasRows Z os := by
  refine ⟨hs, h1, fun t ht j => ?_⟩
  have e : os[t]? = some ⟨fun j => Z.data [t, j], fun j => Z.mask [t, j]⟩ := by
    rw [← hr, MArray.rows, hs]
    simp [ht]
  rw [List.getElem?_eq_getElem ht, Option.some.injEq] at e
  rw [e]
  exact ⟨rfl, rfl⟩

/-- **C50.** From the file to the filter: the attribute `observations` of the loaded data set, given to
`filter` of any of the three linear classes that accepts the parameters, is filtered as one missing
observation followed by the `T` recorded ones.  If `filter` returns, it returns `T + 1` rows, the first
of them the initial mean and covariance. -/
theorem C50_load_robot {data : String → Option MatValue} {f : RobotFile} (hf : f.In data)
    (descr : String) (attrs : String → Option DataValue) (s : Tables DataValue) {T : ℕ}
    (hy : f.y.shape = [m, T]) (hT : 1 ≤ T) (hm : 0 < m)
    {sh sh' : List ℕ} (hV : f.Vfilt ≠ [] ∧ ∀ a ∈ f.Vfilt, a.shape = sh)
    (hV' : f.Vsmooth ≠ [] ∧ ∀ a ∈ f.Vsmooth, a.shape = sh')
    {a : KFArgs} {p : Params n m} (h : a.Means p) (qr : QR) (cls : KFClass) (hc : cls.Accepts p) :
    ∃ o s' Z, loadRobot data descr s = (.ok o, s') ∧
      getAttr attrs o "observations" s' = .ok (.masked Z) ∧
      KF.init a = .ok (a.object n m) ∧
      (∀ os : List (Obs m), os = ⟨0, fun _ => true⟩ ::
          (List.range T).map (fun t => ⟨fun j => f.y.data [j, t], fun _ => false⟩) →
        (a.object n m).filterOf cls qr id Z = some (kfFilter p os) ∧
        (a.object n m).smoothOf cls qr id Z = some (kfSmooth p os) ∧
        (a.object n m).loglikOf cls qr id Z = some (kfLoglik p os)) ∧
      ∀ out : List (Vec n × Mat n n), (a.object n m).filterOf cls qr id Z = some (.ok out) →
        out.length = T + 1 ∧ out.head? = some (p.mu0, p.S0) := by
  obtain ⟨o, s', Z, _, _, _, _, _, _, _, _, _, _, _, hl, hget, hsh, hrows, -⟩ :=
    C110_load hf descr attrs s hy hV hV'
  have hpad : padAndMask (f.y.columns m T) = ⟨0, fun _ => true⟩ ::
      (List.range T).map (fun t => (⟨fun j => f.y.data [j, t], fun _ => false⟩ : Obs m)) := by
    rw [C50_padded, NDArray.columns, List.map_map]
    rfl
  have hlen : (padAndMask (f.y.columns m T)).length = T + 1 := by rw [hpad]; simp
  have hX : DataArg Z (padAndMask (f.y.columns m T)) :=
    .rows (hasRows_of_rows (by rw [hsh, hlen]) hrows (.inl (by omega)))
  obtain ⟨e1, e2, e3⟩ := C58_classes_agree h hX qr cls hc (fun _ => by rw [hpad]; simp)
  refine ⟨o, s', Z, hl, (hget _ _ (by simp)).2, (C58_methods h hX qr id).1, ?_, fun out ho => ?_⟩
  · rintro os rfl
    rw [← hpad]
    exact ⟨e1, e2, e3⟩
  · replace ho := Option.some.inj (e1.symm.trans ho)
    refine ⟨?_, C50_first_row hm ho⟩
    rw [kfFilter_ok ho, List.length_map, List.length_range, hlen]

/-- The hypotheses are satisfiable: a file with two observations of one number, and a state of two
numbers of which the first is observed; all three classes accept the parameters.  Here `filter`
returns. -/
example : ∃ (a : KFArgs) (p : Params 2 1), a.Means p ∧ (∀ cls : KFClass, cls.Accepts p) ∧
    p.DefinedFor 3 ∧ exRobot.In exRobotData ∧ exRobot.y.shape = [1, 2] ∧
    (exRobot.Vfilt ≠ [] ∧ ∀ a ∈ exRobot.Vfilt, a.shape = [1, 2]) ∧
    (exRobot.Vsmooth ≠ [] ∧ ∀ a ∈ exRobot.Vsmooth, a.shape = [1, 2]) := by
  have e1 : eyeMat 2 2 = (1 : Mat 2 2) := by
    ext i j; simp [eyeMat, Matrix.one_apply, Fin.ext_iff]
  have hR : (!![3] : Mat 1 1).PosDef := by
    have : (!![3] : Mat 1 1) = (3 : ℝ) • (1 : Mat 1 1) := by
      ext i j
      simp [Subsingleton.elim i 0, Subsingleton.elim j 0]
    rw [this]
    exact Matrix.PosDef.one.smul (by norm_num)
  refine ⟨{ C := some ⟨[2], fun i => if i = [0] then 1 else 0⟩, R := some ⟨[], fun _ => 3⟩ },
    ⟨.const 1, .const 0, .const 1, .const !![1, 0], .const 0, .const !![3], 0, 1⟩,
    ⟨by simp, by simp, by simp, by simp, ?_, .omitted, ?_, .row rfl _ _ rfl ?_, .omitted,
      .number rfl rfl _ _ rfl ?_, .omitted, ?_, trivial⟩, ?_, ?_, ?_, rfl,
    ⟨by simp [exRobot], by simp [exRobot]⟩, by simp [exRobot], by simp [exRobot]⟩
  · rw [e1]; exact .omitted
  · rw [e1]; exact .omitted
  · intro i j
    fin_cases i; fin_cases j <;> simp
  · intro i j
    fin_cases i; fin_cases j; simp
  · rw [e1]; exact .omitted
  · intro cls
    cases cls with
    | standard => trivial
    | cholesky => exact ⟨⟨1, rfl, PosDef.one⟩, ⟨_, rfl, hR⟩, PosDef.one⟩
    | bierman => exact ⟨by norm_num, ⟨1, rfl, PosSemidef.one⟩, ⟨_, rfl, hR⟩, PosSemidef.one⟩
  · rw [definedFor_iff_covers]
    constructor <;> simp [TV.Covers]
  · constructor <;> simp [exRobotData] <;> rfl

end Verif
