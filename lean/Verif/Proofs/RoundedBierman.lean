import Verif.Proofs.RoundedUdu
import Verif.Proofs.Bierman

/-!
# `BiermanKalmanFilter` in arithmetic with rounding errors
-/

open Matrix Topology

namespace Verif

variable {n m k l : ℕ} {c : ℕ → ℝ} {ι : Type} {F : Filter ι} {w : ι → ℝ}
variable {α β : Type}

/-! ### Lists and parameters of which all values have errors -/

theorem LNear.map' {R : (ι → α) → α → Prop} {S : (ι → β) → β → Prop} {f : ι → List α} {a : List α}
    (h : LNear R f a) {φ : ι → α → β} {φ' : α → β}
    (hφ : ∀ g v, R g v → S (fun i => φ i (g i)) (φ' v)) :
    LNear S (fun i => (f i).map (φ i)) (a.map φ') := by
  induction h with
  | nil => exact .nil
  | cons h _ ih => exact .cons (hφ _ _ h) ih

theorem LNear.refl {R : (ι → α) → α → Prop} (hR : ∀ v, R (fun _ => v) v) (a : List α) :
    LNear R (fun _ => a) a := by
  induction a with
  | nil => exact .nil
  | cons v a ih => exact .cons (hR v) ih

theorem LNear.getElem? {R : (ι → α) → α → Prop} {f : ι → List α} {a : List α}
    (h : LNear R f a) {t : ℕ} (ht : t < a.length) :
    ∃ v g, a[t]? = some v ∧ (∀ i, (f i)[t]? = some (g i)) ∧ R g v := by
  induction h generalizing t with
  | nil => simp at ht
  | @cons f a g l h _ ih =>
    cases t with
    | zero => exact ⟨a, f, rfl, fun _ => rfl, h⟩
    | succ t => exact ih (by simpa using ht)

/-- Rows as functions of the time. -/
theorem LNear.rows [Inhabited α] {R : (ι → α) → α → Prop} {f : ι → List α} {T : ℕ} {a : ℕ → α}
    (h : LNear R f ((List.range T).map a)) :
    ∃ st : ι → ℕ → α, (∀ i, f i = (List.range T).map (st i)) ∧
      ∀ t < T, R (fun i => st i t) (a t) := by
  have hlen : ∀ {f : ι → List α} {b : List α}, LNear R f b → ∀ i, (f i).length = b.length := by
    intro f b h
    induction h with
    | nil => exact fun _ => rfl
    | cons _ _ ih => exact fun i => by simp [ih i]
  refine ⟨fun i t => ((f i)[t]?).getD default, fun i => ?_, fun t ht => ?_⟩
  · apply List.ext_getElem?
    intro t
    have hl : (f i).length = T := by simpa using hlen h i
    by_cases ht : t < T
    · simp [ht, hl]
    · simp [ht, hl]
  · obtain ⟨v, g, h1, h2, h3⟩ := h.getElem? (t := t) (by simpa using ht)
    have e : v = a t := by simpa [ht] using h1.symm
    subst e
    simpa [h2] using h3

/-- A parameter, all values up to errors. -/
def TVNearL (R : (ι → α) → α → Prop) (f : ι → TV α) (a : TV α) : Prop :=
  match a with
  | .const v => ∃ g, (∀ i, f i = .const (g i)) ∧ R g v
  | .seq l => ∃ g, (∀ i, f i = .seq (g i)) ∧ LNear R g l

theorem TVNear.map {R : (ι → α) → α → Prop} {S : (ι → β) → β → Prop} (hR : ∀ v, R (fun _ => v) v)
    {f : ι → TV α} {a : TV α} (h : TVNear R f a) {φ : ι → α → β} {φ' : α → β}
    (hφ : ∀ g v, R g v → S (fun i => φ i (g i)) (φ' v)) :
    TVNearL S (fun i => (f i).map (φ i)) (a.map φ') := by
  cases a with
  | const v =>
    obtain ⟨g, hg, hR⟩ := h
    exact ⟨fun i => φ i (g i), fun i => by simp only [hg i]; rfl, hφ _ _ hR⟩
  | seq l =>
    refine ⟨fun i => l.map (φ i), fun i => ?_, (LNear.refl hR l).map' hφ⟩
    simp only [show f i = .seq l from h i]
    rfl

theorem TVNearL.lastDims {R : (ι → α) → α → Prop} {f : ι → TV α} {a : TV α} (h : TVNearL R f a)
    {t : ℕ} (hc : a.Covers (t + 1)) :
    EvNear F R (fun i => lastDims (f i) t) (Verif.lastDims a t) := by
  cases a with
  | const v =>
    obtain ⟨g, hg, hR⟩ := h
    exact ⟨v, g, rfl, Filter.Eventually.of_forall fun i => by simp only [hg i]; rfl, hR⟩
  | seq l =>
    obtain ⟨g, hg, hR⟩ := h
    obtain ⟨v, g', h1, h2, h3⟩ := hR.getElem? (t := t) hc
    refine ⟨v, g', ?_, Filter.Eventually.of_forall fun i => ?_, h3⟩
    · simp only [Verif.lastDims, h1]
    · simp only [hg i, Verif.lastDims, h2]

theorem TVNear.evLastDims [Inhabited α] {R : (ι → α) → α → Prop} (hR : ∀ v, R (fun _ => v) v)
    {f : ι → TV α} {a : TV α} (h : TVNear R f a) {t : ℕ} (hc : a.Covers (t + 1)) :
    EvNear F R (fun i => Verif.lastDims (f i) t) (Verif.lastDims a t) :=
  (h.lastDims hR t).ev (lastDims_eq_ok hc)

theorem TV.Covers.map {a : TV α} {T : ℕ} (h : a.Covers T) (φ : α → β) : (a.map φ).Covers T := by
  cases a with
  | const v => trivial
  | seq l => simpa [TV.map, TV.Covers] using h

/-! ### Steps -/

variable {ar : ∀ i, ArithEL c (w i)}

theorem near_flBierReconstruct (hw : Filter.Tendsto w F (𝓝 0)) {a : ι → UDU n} {a' : UDU n}
    (ha : UDNear F w a a') : OwM F w (fun i => (a i).flReconstruct (ar i)) a'.reconstruct := by
  have hdiag : OwM F w (fun i => diagonal (a i).D) (diagonal a'.D) := fun p q => by
    simp only [diagonal_apply]
    split_ifs
    · exact ha.D p
    · exact ow_const _
  exact ow_fl_mul (br := fun i => (ar i).toArith) hw
    (ow_fl_mul (br := fun i => (ar i).toArith) hw ha.U hdiag) (owM_transpose ha.U)

/-- Mean and factors. -/
def MUNear (F : Filter ι) (w : ι → ℝ) (g : ι → Vec n × UDU n) (v : Vec n × UDU n) : Prop :=
  OwV F w (fun i => (g i).1) v.1 ∧ UDNear F w (fun i => (g i).2) v.2

theorem near_flBierFold (hw : Filter.Tendsto w F (𝓝 0)) (hn : 0 < n) {C : ι → Mat m n}
    {C' : Mat m n} (hC : OwM F w C C') {d z : ι → Vec m} {d' z' : Vec m} (hd : OwV F w d d')
    (hz : OwV F w z z') (ls : List (Fin m)) {s : ι → Vec n × UDU n} {s' : Vec n × UDU n}
    (h : MUNear F w s s') (hv : s'.2.Valid) :
    MUNear F w (fun i => ls.foldl (flBierCorrectOne (ar i) (C i) 1 (d i) (z i)) (s i))
      (ls.foldl (bierCorrectOne C' 1 d' z') s') := by
  induction ls generalizing s s' with
  | nil => exact h
  | cons q ls ih =>
    have e : ((1 : Mat m m) q q) = 1 := by simp
    have hs := near_flCorrectSingle (ar := ar) hw h.2 hv (fun j => hC q j) one_pos
    refine ih (s := fun i => flBierCorrectOne (ar i) (C i) 1 (d i) (z i) (s i) q)
      (s' := bierCorrectOne C' 1 d' z' s' q) ⟨?_, ?_⟩ ?_
    · refine fun p => ?_
      simp only [flBierCorrectOne, bierCorrectOne, e, Pi.add_apply, Pi.smul_apply, smul_eq_mul]
      rw [mul_comm]
      exact ow_fl_add (br := fun i => (ar i).toArith) hw (h.1 p)
        (ow_fl_mulr (er := fun i => (ar i).toArithE) hw (hs.2 p)
          (ow_fl_sub (br := fun i => (ar i).toArith) hw (hz q)
            (ow_fl_add (br := fun i => (ar i).toArith) hw
              (ow_fl_dot (br := fun i => (ar i).toArith) hw (fun j => hC q j) h.1) (hd q))))
    · simp only [flBierCorrectOne, bierCorrectOne, e]
      exact hs.1
    · simp only [bierCorrectOne, e]
      exact (correctSingle_eq hn hv _ one_pos).1

/-- The same mask, values up to errors. -/
def ObsNear (F : Filter ι) (w : ι → ℝ) (f : ι → Obs m) (a : Obs m) : Prop :=
  (∀ i, (f i).mask = a.mask) ∧ OwV F w (fun i => (f i).val) a.val

theorem near_flBierCorrect (hw : Filter.Tendsto w F (𝓝 0)) (hn : 0 < n) {C : ι → Mat m n}
    {C' : Mat m n} (hC : OwM F w C C') {d : ι → Vec m} {d' : Vec m} (hd : OwV F w d d')
    {o : ι → Obs m} {o' : Obs m} (ho : ObsNear F w o o') {mu : ι → Vec n} {mu' : Vec n}
    (hmu : OwV F w mu mu') {a : ι → UDU n} {a' : UDU n} (ha : UDNear F w a a') (hv : a'.Valid) :
    MUNear F w (fun i => flBierCorrect (ar i) (C i) 1 (d i) (mu i) (a i) (o i))
      (bierCorrect C' 1 d' mu' a' o') := by
  have hm : ∀ i, (o i).missing ↔ o'.missing := fun i => by
    simp only [Obs.missing, ho.1 i]
  by_cases h : o'.missing
  · simp only [flBierCorrect, bierCorrect, hm, h, not_true_eq_false, if_false]
    exact ⟨hmu, ha⟩
  · simp only [flBierCorrect, bierCorrect, hm, h, not_false_eq_true, if_true]
    exact near_flBierFold hw hn hC hd ho.2 _ ⟨hmu, ha⟩ hv

/-- A row of the arrays of `_filter`. -/
structure BNear (F : Filter ι) (w : ι → ℝ) (f : ι → BStep n) (a : BStep n) : Prop where
  predMean : OwV F w (fun i => (f i).predMean) a.predMean
  predCov : UDNear F w (fun i => (f i).predCov) a.predCov
  filtMean : OwV F w (fun i => (f i).filtMean) a.filtMean
  filtCov : UDNear F w (fun i => (f i).filtCov) a.filtCov
  valid : a.Valid

theorem near_flBierPredict (hw : Filter.Tendsto w F (𝓝 0)) (hn : 0 < n) {A Q : ι → Mat n n}
    {A' Q' : Mat n n} (hA : OwM F w A A') (hQ : OwM F w Q Q') (hQp : Q'.PosDef) {b : ι → Vec n}
    {b' : Vec n} (hb : OwV F w b b') {mu : ι → Vec n} {mu' : Vec n} (hmu : OwV F w mu mu')
    {a : ι → UDU n} {a' : UDU n} (ha : UDNear F w a a') (hv : a'.Valid) :
    EvNear F (fun g v => MUNear F w g v ∧ v.2.Valid)
      (fun i => flBierPredict (ar i) (A i) (Q i) (b i) (mu i) (a i))
      (bierPredict A' Q' b' mu' a') := by
  have hM : OwM F w (fun i => (ar i).madd ((ar i).mul ((ar i).mul (A i)
      ((a i).flReconstruct (ar i))) (A i)ᵀ) (Q i)) (A' * a'.reconstruct * A'ᵀ + Q') :=
    ow_fl_madd (br := fun i => (ar i).toArith) hw (ow_fl_mul (br := fun i => (ar i).toArith) hw
      (ow_fl_mul (br := fun i => (ar i).toArith) hw hA (near_flBierReconstruct hw ha))
      (owM_transpose hA)) hQ
  have hp : (A' * a'.reconstruct * A'ᵀ + Q').PosDef :=
    hQp.posSemidef_add (posSemidef_conj' hv.posSemidef A')
  refine (near_flUdu (ar := ar) hw hn hM hp).bind fun g v _ hg => ?_
  exact .pure ⟨⟨ow_fl_vadd (br := fun i => (ar i).toArith) hw
    (ow_fl_mulV (br := fun i => (ar i).toArith) hw hA hmu) hb, hg.1⟩, hg.2.1⟩

/-- The row before. -/
def PrevNear (F : Filter ι) (w : ι → ℝ) (f : ι → Option (BStep n)) (a : Option (BStep n)) : Prop :=
  match a with
  | none => ∀ i, f i = none
  | some s => ∃ g, (∀ i, f i = some (g i)) ∧ BNear F w g s

theorem near_flBierStep (hw : Filter.Tendsto w F (𝓝 0)) (hn : 0 < n) {f : ι → Params n m}
    {p : Params n m} (hp : PNear F w f p) (hpd : p.PosDef) {C : ι → TV (Mat m n)}
    {C' : TV (Mat m n)} (hC : TVNearL (OwM F w) C C') {d : ι → TV (Vec m)} {d' : TV (Vec m)}
    (hd : TVNearL (OwV F w) d d') {S : ι → UDU n} {S' : UDU n} (hS : UDNear F w S S')
    (hv : S'.Valid) {prev : ι → Option (BStep n)} {prev' : Option (BStep n)}
    (hprev : PrevNear F w prev prev') {t : ℕ} (hA : prev' ≠ none → p.A.Covers (t - 1 + 1))
    (hb : prev' ≠ none → p.b.Covers (t - 1 + 1)) (hCc : C'.Covers (t + 1))
    (hdc : d'.Covers (t + 1)) {o : ι → Obs m} {o' : Obs m} (ho : ObsNear F w o o') :
    EvNear F (BNear F w) (fun i => flBierStep (ar i) (f i) (C i) (d i) (S i) t (prev i) (o i))
      (bierStep p C' d' S' t prev' o') := by
  have tail : ∀ (g : ι → Vec n × UDU n) (v : Vec n × UDU n), MUNear F w g v → v.2.Valid →
      EvNear F (BNear F w)
      (fun i => (do
        let C ← lastDims (C i) t
        let d ← lastDims (d i) t
        let c := flBierCorrect (ar i) C 1 d (g i).1 (g i).2 (o i)
        Pure.pure ⟨(g i).1, (g i).2, c.1, c.2⟩ : Res (BStep n)))
      (do
        let C ← lastDims C' t
        let d ← lastDims d' t
        let c := bierCorrect C 1 d v.1 v.2 o'
        Pure.pure ⟨v.1, v.2, c.1, c.2⟩) := by
    intro g v hg hgv
    refine (hC.lastDims hCc).bind fun C C' _ gC => ?_
    refine (hd.lastDims hdc).bind fun d d' _ gd => ?_
    have h := near_flBierCorrect (ar := ar) hw hn gC gd ho hg.1 hg.2 hgv
    exact .pure ⟨hg.1, hg.2, h.1, h.2, hgv, (bierCorrect_eq hn C' d' v.1 hgv o').1⟩
  cases prev' with
  | none =>
    have hprev : ∀ i, prev i = none := hprev
    simp only [flBierStep, bierStep, hprev]
    refine (EvNear.pure (R := fun g v => MUNear F w g v ∧ v.2.Valid) (g := fun i => ((f i).mu0, S i))
      (v := (p.mu0, S')) ⟨⟨hp.mu0, hS⟩, hv⟩).bind fun g v _ hg => tail g v hg.1 hg.2
  | some s' =>
    obtain ⟨s, hs, hsn⟩ := hprev
    simp only [flBierStep, bierStep, hs]
    refine (hp.A.evLastDims owM_const (hA (by simp))).bind fun A A' _ gA => ?_
    refine (hp.b.evLastDims owV_const (hb (by simp))).bind fun b b' _ gb => ?_
    obtain ⟨Q', hQ', hQp⟩ := hpd.Q
    have hQ := hp.Q
    rw [hQ'] at hQ ⊢
    obtain ⟨Q, hQi, hQn⟩ := hQ
    simp only [hQi]
    refine (EvNear.pure (R := OwM F w) hQn).bind fun Q0 Q0' e gQ => ?_
    cases e
    refine (near_flBierPredict hw hn gA gQ hQp gb hsn.filtMean hsn.filtCov hsn.valid.2).bind
      fun g v _ hg => tail g v hg.1 hg.2

theorem near_flBierLoop (hw : Filter.Tendsto w F (𝓝 0)) (hn : 0 < n) {f : ι → Params n m}
    {p : Params n m} (hp : PNear F w f p) (hpd : p.PosDef) {C : ι → TV (Mat m n)}
    {C' : TV (Mat m n)} (hC : TVNearL (OwM F w) C C') {d : ι → TV (Vec m)} {d' : TV (Vec m)}
    (hd : TVNearL (OwV F w) d d') {S : ι → UDU n} {S' : UDU n} (hS : UDNear F w S S')
    (hv : S'.Valid) {os : ι → List (Obs m)} {os' : List (Obs m)} (hos : LNear (ObsNear F w) os os')
    {prev : ι → Option (BStep n)} {prev' : Option (BStep n)} (hprev : PrevNear F w prev prev')
    (t : ℕ) (h0 : prev' = none ∨ 0 < t)
    (hA : p.A.Covers (t + os'.length - 1)) (hb : p.b.Covers (t + os'.length - 1))
    (hCc : C'.Covers (t + os'.length)) (hdc : d'.Covers (t + os'.length)) :
    EvNear F (LNear (BNear F w))
      (fun i => flBierLoop (ar i) (f i) (C i) (d i) (S i) t (prev i) (os i))
      (bierLoop p C' d' S' t prev' os') := by
  induction hos generalizing t prev prev' with
  | nil => exact .pure .nil
  | @cons o o' os os' ho _ ih =>
    simp only [List.length_cons] at hA hb hCc hdc
    refine (near_flBierStep hw hn hp hpd hC hd hS hv hprev
      (fun h => hA.mono (by rcases h0 with h0 | h0
                            · exact absurd h0 h
                            · omega))
      (fun h => hb.mono (by rcases h0 with h0 | h0
                            · exact absurd h0 h
                            · omega)) (hCc.mono (by omega)) (hdc.mono (by omega)) ho).bind
      fun s s' _ hs => ?_
    refine (ih (prev := fun i => some (s i)) (prev' := some s') ⟨s, fun _ => rfl, hs⟩ (t + 1)
      (.inr (by omega)) (hA.mono (by omega)) (hb.mono (by omega)) (hCc.mono (by omega))
      (hdc.mono (by omega))).bind fun r r' _ hr => ?_
    exact .pure (.cons hs hr)

theorem near_flDecorrelate (hw : Filter.Tendsto w F (𝓝 0)) {f : ι → Params n m} {p : Params n m}
    (hp : PNear F w f p) (hpd : p.PosDef) (os : List (Obs m)) :
    EvNear F (fun g v => TVNearL (OwM F w) (fun i => (g i).1) v.1 ∧
        TVNearL (OwV F w) (fun i => (g i).2.1) v.2.1 ∧
        LNear (ObsNear F w) (fun i => (g i).2.2) v.2.2)
      (fun i => flDecorrelate (ar i) (f i).C (f i).d (f i).R os) (decorrelate p.C p.d p.R os) := by
  obtain ⟨R', hR', hRp⟩ := hpd.R
  have hR := hp.R
  rw [hR'] at hR ⊢
  obtain ⟨R, hRi, hRn⟩ := hR
  simp only [flDecorrelate, decorrelate, hRi, cholParam]
  refine (near_chol (ar := ar) hw hRn hRp).bind fun L L' _ hL => ?_
  have hI := ow_fl_pinv (br := fun i => (ar i).toArith) hw hL.1 hL.2.det_ne_zero.isUnit
  refine .pure ⟨hp.C.map owM_const fun g v hg => ?_, hp.d.map owV_const fun g v hg => ?_,
    (LNear.refl (R := fun f a => ∀ i, f i = a) (fun _ _ => rfl) os).map' fun g v hg => ?_⟩
  · exact ow_fl_mul (br := fun i => (ar i).toArith) hw hI hg
  · exact ow_fl_mulV (br := fun i => (ar i).toArith) hw hI hg
  · simp only [hg]
    exact ⟨fun _ => rfl, ow_fl_mulV (br := fun i => (ar i).toArith) hw hI (owV_const _)⟩

theorem near_flBierFull (hw : Filter.Tendsto w F (𝓝 0)) (hn : 0 < n) {f : ι → Params n m}
    {p : Params n m} (hp : PNear F w f p) (hpd : p.PosDef) {os : List (Obs m)}
    (hc : p.Covers os.length) :
    EvNear F (LNear (BNear F w)) (fun i => flBierFull (ar i) (f i) os) (bierFull id p os) := by
  refine (near_flUdu hw hn hp.S0 hpd.S0).bind fun S S' _ hS => ?_
  refine (near_flDecorrelate hw hp hpd os).bind fun g v hv hg => ?_
  have hv' : v.1.Covers os.length ∧ v.2.1.Covers os.length ∧ v.2.2.length = os.length := by
    obtain ⟨R', hR', hRp⟩ := hpd.R
    obtain ⟨L, hL, -⟩ := cholesky_of_posDef hRp
    rw [hR'] at hv
    simp only [decorrelate, cholParam, hL, Bind.bind, Except.bind, Pure.pure, Except.pure] at hv
    cases hv
    exact ⟨hc.C.map _, hc.d.map _, by simp⟩
  refine near_flBierLoop hw hn hp hpd hg.1 hg.2.1 hS.1 hS.2.1 hg.2.2
    (prev := fun _ => none) (prev' := none) (fun _ => rfl) 0 (.inl rfl) ?_ ?_ ?_ ?_
  · rw [hv'.2.2, zero_add]; exact hc.A
  · rw [hv'.2.2, zero_add]; exact hc.b
  · rw [hv'.2.2, zero_add]; exact hv'.1
  · rw [hv'.2.2, zero_add]; exact hv'.2.1

instance : Inhabited (Step n m) := ⟨⟨0, 0, 0, 0, 0⟩⟩

/-- The rows with reconstructed covariances, as functions of the time. -/
theorem flBierRows_of {ar : ArithEL c u} {l : List (BStep n)} {T : ℕ} (hT : 0 < T)
    {st : ℕ → Step n m} (h : l.map (BStep.flStep ar m) = (List.range T).map st) :
    flBierRows ar m l = .ok ((List.range T).map st) := by
  cases l with
  | nil =>
    have := congrArg List.length h
    simp at this
    omega
  | cons s l => rw [flBierRows, h]

theorem near_flBierRows (hw : Filter.Tendsto w F (𝓝 0)) (hn : 0 < n) {f : ι → Params n m}
    {p : Params n m} (hp : PNear F w f p) (hpd : p.PosDef) {os : List (Obs m)}
    (hc : p.Covers os.length) :
    ∃ (g : ι → List (BStep n)) (st : ι → ℕ → Step n m),
      (∀ᶠ i in F, flBierFull (ar i) (f i) os = .ok (g i)) ∧
      (∀ i, (g i).map (BStep.flStep (ar i) m) = (List.range os.length).map (st i)) ∧
      ∀ t < os.length, FlNear F w (fun i => st i t) (p.fn.kf (obsFn os) t) := by
  obtain ⟨v, g, hv, hg, hn'⟩ := near_flBierFull (ar := ar) hw hn hp hpd hc
  have hno : p.NoiseDef := ⟨hpd.Q.imp fun _ h => ⟨h.1, h.2.posSemidef⟩, hpd.R, hpd.S0.posSemidef⟩
  have e := bierFull_eq hn hno os
  rw [hv, filterFull_obsFn hc] at e
  simp only [Except.map, Except.ok.injEq, List.map_map] at e
  have h1 : LNear (FlNear F w) (fun i => (g i).map (BStep.flStep (ar i) m))
      (v.map (BStep.step m)) := hn'.map' fun s s' hs =>
    ⟨hs.predMean, near_flBierReconstruct hw hs.predCov, hs.filtMean,
      near_flBierReconstruct hw hs.filtCov⟩
  rw [e] at h1
  obtain ⟨st, h2, h3⟩ := h1.rows
  exact ⟨g, st, hg, h2, fun t ht =>
    ⟨(h3 t ht).predMean, (h3 t ht).predCov, (h3 t ht).filtMean, (h3 t ht).filtCov⟩⟩

/-! ### Statistics -/

theorem near_flBierStats (hw : Filter.Tendsto w F (𝓝 0)) (hn : 0 < n) {f : ι → Params n m}
    {p : Params n m} (hp : PNear F w f p) (hpd : p.PosDef) {os : List (Obs m)} (hne : os ≠ [])
    (hc : p.Covers os.length) (hP : p.fn.PD os.length) :
    EvNear F (LNear (SNear F w)) (fun i => flBierStats (ar i) (f i) os) (emStats p os) := by
  obtain ⟨g, st, hg, hst, hk⟩ := near_flBierRows (ar := ar) hw hn hp hpd hc
  obtain ⟨T, hT⟩ : ∃ T, os.length = T + 1 :=
    ⟨os.length - 1, by have := List.length_pos_iff.mpr hne; omega⟩
  rw [emStats_eq hne hc]
  rw [hT] at hk hst ⊢
  simp only [Nat.add_sub_cancel]
  have hs := fun t (ht : t ≤ T) => nearP_stSmoothFl (br := fun i => (ar i).toArith) hw hp
    (obsFn os) (T := T) (st := st) (T - t) (fun t ht => hk t (by omega))
    (fun t ht => (hP.filt (obsFn os) (show t + 1 < os.length by omega)).1.det_pos.ne'.isUnit)
    (by omega)
  let st' : ι → ℕ → EmStats n := fun i t =>
    ⟨(stSmoothFl (ar i).toArith (f i).fn.A (st i) T t).mean,
     (stSmoothFl (ar i).toArith (f i).fn.A (st i) T t).cov,
     if t = 0 then 0 else (ar i).mul (stSmoothFl (ar i).toArith (f i).fn.A (st i) T t).cov
      (stSmoothFl (ar i).toArith (f i).fn.A (st i) T (t - 1)).gainᵀ⟩
  refine ⟨_, fun i => (List.range (T + 1)).map (st' i), rfl, ?_, LNear.map _ fun t ht => ?_⟩
  · filter_upwards [hg] with i hi
    have hA : (f i).A.Covers T := by
      have := (hp.covers hc i).A
      rwa [hT] at this
    simp only [flBierStats, hi, Bind.bind, Except.bind, flBierRows_of (Nat.succ_pos T) (hst i), flSmoothFull_eq _ T hA, Pure.pure,
      Except.pure, flSmoothPair_map, List.zip_map', List.map_map]
    rfl
  · have ht : t < T + 1 := List.mem_range.mp ht
    refine ⟨(hs t (by omega)).1, (hs t (by omega)).2.1, ?_⟩
    simp only [PFun.stats, st']
    split_ifs with h
    · exact owM_const _
    · exact ow_fl_mul (br := fun i => (ar i).toArith) hw (hs t (by omega)).2.1
        (owM_transpose (hs (t - 1) (by omega)).2.2)

end Verif
