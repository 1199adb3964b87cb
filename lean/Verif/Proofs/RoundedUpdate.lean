import Verif.Spec.RoundedUpdate
import Verif.Proofs.RoundedUnscented
import Verif.Proofs.RoundedCholesky
import Verif.Proofs.EmAscent
import Verif.Proofs.Bierman

/-!
# Programs of `filter_update` calls in arithmetic with rounding errors
-/

open Matrix Topology

namespace Verif

variable {n m k : ℕ} {c : ℕ → ℝ} {ι : Type} {F : Filter ι} {w : ι → ℝ}

/-! ### Calls -/

theorem calls_cons_ok {σ ο : Type} {up : ℕ → σ → ο → Res σ} {t : ℕ} {r : σ} {o : ο} {os : List ο}
    {l : List σ} (h : UMachine.calls up t r (o :: os) = .ok l) :
    ∃ r' l', up t r o = .ok r' ∧ UMachine.calls up (t + 1) r' os = .ok l' ∧ l = r' :: l' := by
  rw [UMachine.calls] at h
  cases h1 : up t r o with
  | error e => rw [h1] at h; cases h
  | ok r' =>
    rw [h1] at h
    simp only at h
    cases h2 : UMachine.calls up (t + 1) r' os with
    | error e => rw [h2] at h; cases h
    | ok l' =>
      rw [h2] at h
      cases h
      exact ⟨r', l', rfl, h2, rfl⟩

theorem calls_cons_of {σ ο : Type} {up : ℕ → σ → ο → Res σ} {t : ℕ} {r r' : σ} {o : ο}
    {os : List ο} {l : List σ} (h1 : up t r o = .ok r')
    (h2 : UMachine.calls up (t + 1) r' os = .ok l) :
    UMachine.calls up t r (o :: os) = .ok (r' :: l) := by
  rw [UMachine.calls, h1]
  simp only [h2]

theorem near_calls {σ ο : Type} {R : (ι → σ) → σ → Prop} {up : ι → ℕ → σ → ο → Res σ}
    {up' : ℕ → σ → ο → Res σ} {P : ℕ → σ → ο → Prop}
    (h : ∀ t g v o r, R g v → P t v o → up' t v o = .ok r →
      EvNear F R (fun i => up i t (g i) o) (up' t v o))
    (os : List ο) (t : ℕ) {g : ι → σ} {v : σ} (hr : R g v) {l : List σ}
    (hl : UMachine.calls up' t v os = .ok l)
    (hP : ∀ j o x, os[j]? = some o → (v :: l)[j]? = some x → P (t + j) x o) :
    EvNear F (LNear R) (fun i => UMachine.calls (up i) t (g i) os) (.ok l) := by
  induction os generalizing t g v l with
  | nil =>
    cases hl
    exact EvNear.pure .nil
  | cons o os ih =>
    obtain ⟨r', l', h1, h2, rfl⟩ := calls_cons_ok hl
    obtain ⟨v', g', e1, e2, hR⟩ := h t g v o r' hr (hP 0 o v rfl rfl) h1
    obtain rfl : r' = v' := by rw [h1] at e1; cases e1; rfl
    obtain ⟨l₂, gs, e3, e4, hL⟩ := ih (t + 1) hR h2 fun j o' x ho hx => by
      have := hP (j + 1) o' x ho hx
      rwa [show t + 1 + j = t + (j + 1) by omega]
    cases e3
    exact ⟨_, fun i => g' i :: gs i, rfl,
      (e2.and e4).mono fun i hi => calls_cons_of hi.1 hi.2, .cons hR hL⟩

/-! ### The linear classes -/

/-- Mean and covariance near exact ones. -/
def PairNear (F : Filter ι) (w : ι → ℝ) (g : ι → Vec n × Mat n n) (v : Vec n × Mat n n) : Prop :=
  OwV F w (fun i => (g i).1) v.1 ∧ OwM F w (fun i => (g i).2) v.2

/-- One step as a function of time. -/
def onePFun (A Q : Mat n n) (b : Vec n) (C : Mat m n) (R : Mat m m) (d : Vec m) (mean : Vec n)
    (cov : Mat n n) : PFun n m :=
  ⟨fun _ => A, fun _ => b, fun _ => Q, fun _ => C, fun _ => d, fun _ => R, mean, cov⟩

theorem filterCorrect_posDef {C : Mat m n} {R : Mat m m} (d : Vec m) (mean : Vec n) {cov : Mat n n}
    (o : Obs m) (hP : cov.PosDef) (hR : R.PosDef) :
    (filterCorrect C R d mean cov o).2.2.PosDef := by
  have h : (onePFun 0 1 0 C R d mean cov).PD 1 :=
    ⟨fun _ h => by omega, fun _ _ => hR, hP⟩
  exact (h.filt (fun _ => o) (t := 0) one_pos).2

theorem filterCorrect_posSemidef {C : Mat m n} {R : Mat m m} (d : Vec m) (mean : Vec n)
    {cov : Mat n n} (o : Obs m) (hP : cov.PosSemidef) (hR : ¬ o.missing → R.PosSemidef) :
    (filterCorrect C R d mean cov o).2.2.PosSemidef := by
  by_cases ho : o.missing
  · simpa only [filterCorrect, ho, not_true_eq_false, if_false] using hP
  · have h : (onePFun 0 1 0 C R d mean cov).PSD 1 :=
      ⟨fun _ h => by omega, fun _ _ => hR ho, hP⟩
    exact h.filt (t := 0) one_pos (fun _ => o)

theorem observed_of_not_missing {o : Option (Obs m)} (h : ¬ (updateObs o).missing) :
    Observed o ∨ m = 0 := by
  cases o with
  | some o => exact .inl ⟨o, rfl, h⟩
  | none =>
    refine .inr ?_
    by_contra hm
    exact h ⟨⟨0, Nat.pos_of_ne_zero hm⟩, rfl⟩

theorem posDef_of_dim_zero (hm : m = 0) (R : Mat m m) : R.PosDef := by
  subst hm
  rw [Subsingleton.elim R 1]
  exact PosDef.one

theorem predict_posSemidef {A Q cov : Mat n n} (hc : cov.PosSemidef) (hQ : Q.PosSemidef) :
    (A * (cov * Aᵀ) + Q).PosSemidef := by
  rw [← Matrix.mul_assoc]
  exact (posSemidef_conj' hc A).add hQ

/-- The exact call, with the arguments that it uses. -/
theorem filterUpdate_ok {p : Params n m} {mean : Vec n} {cov : Mat n n} {o : Option (Obs m)}
    {a : UpdateArgs n m} {r : Vec n × Mat n n} (h : filterUpdate p mean cov o a = .ok r) :
    ∃ b d A C Q R, argOrDefault a.b p.b = .ok b ∧ argOrDefault a.d p.d = .ok d ∧
      argOrDefault a.A p.A = .ok A ∧ argOrDefault a.C p.C = .ok C ∧ argOrDefault a.Q p.Q = .ok Q ∧
      argOrDefault a.R p.R = .ok R ∧ r = (filterCorrect C R d (A *ᵥ mean + b)
        (A * (cov * Aᵀ) + Q) (updateObs o)).2 := by
  simp only [filterUpdate] at h
  obtain ⟨b, hb, h⟩ := ok_bind_iff.mp h
  obtain ⟨d, hd, h⟩ := ok_bind_iff.mp h
  obtain ⟨A, hA, h⟩ := ok_bind_iff.mp h
  obtain ⟨C, hC, h⟩ := ok_bind_iff.mp h
  obtain ⟨Q, hQ, h⟩ := ok_bind_iff.mp h
  obtain ⟨R, hR, h⟩ := ok_bind_iff.mp h
  refine ⟨b, d, A, C, Q, R, hb, hd, hA, hC, hQ, hR, ?_⟩
  cases h
  cases o <;> rfl

section KF

variable {br : ∀ i, Arith c (w i)}

theorem near_flUpdate (hw : Filter.Tendsto w F (𝓝 0)) {p : Params n m} {a : UpdateArgs n m}
    {o : Option (Obs m)} (hQ : ∀ Q, argOrDefault a.Q p.Q = .ok Q → Q.PosSemidef)
    (hR : Observed o → ∀ R, argOrDefault a.R p.R = .ok R → R.PosDef)
    {g : ι → Vec n × Mat n n} {v : Vec n × Mat n n} (hg : PairNear F w g v)
    (hv : v.2.PosSemidef) {r : Vec n × Mat n n} (hr : filterUpdate p v.1 v.2 o a = .ok r) :
    EvNear F (fun g v => PairNear F w g v ∧ v.2.PosSemidef)
      (fun i => flUpdate (br i) p (g i).1 (g i).2 o a) (filterUpdate p v.1 v.2 o a) := by
  obtain ⟨b, d, A, C, Q, R, eb, ed, eA, eC, eQ, eR, rfl⟩ := filterUpdate_ok hr
  rw [hr]
  have hA : OwM F w (fun _ : ι => A) A := owM_const _
  have hAt : OwM F w (fun _ : ι => Aᵀ) Aᵀ := owM_const _
  have hR' : ¬ (updateObs o).missing → R.PosDef := fun ho =>
    (observed_of_not_missing ho).elim (fun h => hR h R eR) fun h => posDef_of_dim_zero h R
  have hps := predict_posSemidef (A := A) hv (hQ Q eQ)
  have hn := near_flCorrect (br := br) hw (onePFun A Q b C R d 0 0) 0
    (ow_fl_vadd (br := br) hw (ow_fl_mulV (br := br) hw hA hg.1) (owV_const b))
    (ow_fl_madd (br := br) hw (ow_fl_mul (br := br) hw hA (ow_fl_mul (br := br) hw hg.2 hAt))
      (owM_const Q)) (updateObs o) fun ho => by
        have := (hR' ho).posSemidef_add (posSemidef_conj' hps C)
        rw [Matrix.mul_assoc] at this
        exact this.det_pos.ne'.isUnit
  refine ⟨_, fun i => (flCorrect (br i) C R d (flPredict (br i) A Q b (g i).1 (g i).2).1
    (flPredict (br i) A Q b (g i).1 (g i).2).2 (updateObs o)).2, rfl,
    Filter.Eventually.of_forall fun i => ?_, ⟨hn.filtMean, hn.filtCov⟩,
    filterCorrect_posSemidef _ _ _ hps fun ho => (hR' ho).posSemidef⟩
  simp only [flUpdate, eb, ed, eA, eC, eQ, eR, bind, Except.bind, pure, Except.pure]

end KF

section Chol

variable {br : ∀ i, ArithC c (w i)}

theorem owM_flReconstruct (hw : Filter.Tendsto w F (𝓝 0)) {M : ι → Mat n n} {P : Mat n n}
    (hM : OwM F w (fun i => M i * (M i)ᵀ) P) : OwM F w (fun i => flReconstruct (br i) (M i)) P := by
  have hb : BddM F M := bddM_of_gram' (hM.bdd hw)
  exact hM.of_near (near_fl_mul (br := fun i => (br i).toArith) hb hb.transpose)

theorem near_cholFactor (hw : Filter.Tendsto w F (𝓝 0)) {M : ι → Mat k k} {S : Mat k k}
    (hM : OwM F w M S) (hS : S.PosDef) :
    ∃ L : ι → Mat k k, (∀ᶠ i in F, (br i).chol k (M i) = .ok (L i)) ∧
      OwM F w (fun i => L i * (L i)ᵀ) S := by
  obtain ⟨L, N, h1, h2, h3⟩ := ow_chol (br := fun i => (br i).toArithL) hw hM hS
  exact ⟨L, h1, h3.congr_ev (h2.mono fun i hi => hi.mul_transpose.symm)⟩

theorem near_flCholUpdate (hw : Filter.Tendsto w F (𝓝 0)) {p : Params n m} {a : UpdateArgs n m}
    {o : Option (Obs m)} (ha : a.PosDef p)
    {g : ι → Vec n × Mat n n} {v : Vec n × Mat n n} (hg : PairNear F w g v)
    (hv : v.2.PosDef) {r : Vec n × Mat n n} (hr : filterUpdate p v.1 v.2 o a = .ok r) :
    EvNear F (fun g v => PairNear F w g v ∧ v.2.PosDef)
      (fun i => (flCholUpdate (br i) p (g i).1 (g i).2 o a).map fun q => (q.1, q.2 0))
      (filterUpdate p v.1 v.2 o a) := by
  obtain ⟨b, d, A, C, Q, R, eb, ed, eA, eC, eQ, eR, rfl⟩ := filterUpdate_ok hr
  rw [hr]
  have hQ := ha.Q Q eQ
  have hR := ha.R R eR
  have hA : OwM F w (fun _ : ι => A) A := owM_const _
  obtain ⟨Q2, c1, hQ2⟩ := near_cholFactor (br := br) hw (owM_const Q) hQ
  obtain ⟨R2, c2, hR2⟩ := near_cholFactor (br := br) hw (owM_const R) hR
  obtain ⟨S2, c3, hS2⟩ := near_cholFactor (br := br) hw hg.2 hv
  have hpd : (A * (v.2 * Aᵀ) + Q).PosDef := by
    rw [← Matrix.mul_assoc]
    exact hQ.posSemidef_add (posSemidef_conj' hv.posSemidef A)
  have hpred := near_flCholPredict (br := br) hw hA (fun _ => b) (mean := fun i => (g i).1) hS2 hQ2
  have hmu : OwV F w (fun i => (flCholPredict (br i) A (Q2 i) b (g i).1 (S2 i)).1)
      (A *ᵥ v.1 + b) :=
    ow_fl_vadd (br := fun i => (br i).toArith) hw
      (ow_fl_mulV (br := fun i => (br i).toArith) hw hA hg.1) (owV_const b)
  have hcor := near_flCholCorrect (br := br) hw (owM_const C) (owV_const d) hmu hpred
    hpd.posSemidef hR2 hR (updateObs o)
  refine ⟨_, fun i => ((flCholCorrect (br i) C (R2 i) d
      (flCholPredict (br i) A (Q2 i) b (g i).1 (S2 i)).1
      (flCholPredict (br i) A (Q2 i) b (g i).1 (S2 i)).2 (updateObs o)).1,
    flReconstruct (br i) (flCholCorrect (br i) C (R2 i) d
      (flCholPredict (br i) A (Q2 i) b (g i).1 (S2 i)).1
      (flCholPredict (br i) A (Q2 i) b (g i).1 (S2 i)).2 (updateObs o)).2), rfl, ?_,
    ⟨hcor.1, owM_flReconstruct (br := br) hw hcor.2⟩, filterCorrect_posDef _ _ _ hpd hR⟩
  filter_upwards [c1, c2, c3] with i h1 h2 h3
  simp only [flCholUpdate, eb, ed, eA, eC, eQ, eR, h1, h2, h3, bind, Except.bind, pure,
    Except.pure, Except.map]

end Chol

section Bier

variable {ar : ∀ i, ArithEL c (w i)}

theorem near_flBierUpdate (hw : Filter.Tendsto w F (𝓝 0)) (hn : 0 < n) {p : Params n m}
    {a : UpdateArgs n m} {o : Option (Obs m)} (ha : a.PosDef p)
    {g : ι → Vec n × Mat n n} {v : Vec n × Mat n n} (hg : PairNear F w g v)
    (hv : v.2.PosDef) {r : Vec n × Mat n n} (hr : filterUpdate p v.1 v.2 o a = .ok r) :
    EvNear F (fun g v => PairNear F w g v ∧ v.2.PosDef)
      (fun i => (flBierUpdate (ar i) p (g i).1 (g i).2 o a).map fun q => (q.1, q.2 0))
      (filterUpdate p v.1 v.2 o a) := by
  obtain ⟨b, d, A, C, Q, R, eb, ed, eA, eC, eQ, eR, rfl⟩ := filterUpdate_ok hr
  rw [hr]
  have hQ := ha.Q Q eQ
  have hR := ha.R R eR
  obtain ⟨S', S, f1, g1, hS, vS, rS⟩ := near_flUdu (ar := ar) hw hn hg.2 hv
  obtain ⟨L', L, f2, g2, hL, iL⟩ := near_chol (ar := ar) hw (owM_const R) hR
  have hI := ow_fl_pinv (br := fun i => (ar i).toArith) hw hL iL.det_ne_zero.isUnit
  obtain ⟨x', x, f3, g3, ⟨hx1, hx2⟩, vx⟩ := near_flBierPredict (ar := ar) hw hn (owM_const A)
    (owM_const Q) hQ (owV_const b) hg.1 hS vS
  obtain ⟨y, e1, e2, e3, e4⟩ := bierPredict_eq hn A hQ.posSemidef b v.1 vS
  obtain rfl : x' = y := by rw [f3] at e1; cases e1; rfl
  have hcor := near_flBierCorrect (ar := ar) hw hn
    (ow_fl_mul (br := fun i => (ar i).toArith) hw hI (owM_const C))
    (ow_fl_mulV (br := fun i => (ar i).toArith) hw hI (owV_const d))
    (o := fun i => ⟨(ar i).mulV ((ar i).pinv m (L i)) (updateObs o).val, (updateObs o).mask⟩)
    (o' := ⟨pinv L' *ᵥ (updateObs o).val, (updateObs o).mask⟩)
    ⟨fun _ => rfl, ow_fl_mulV (br := fun i => (ar i).toArith) hw hI (owV_const _)⟩ hx1 hx2 vx
  obtain ⟨-, h1, h2⟩ := bierCorrect_decorrelated hn C hR iL.mul_transpose d x'.1 e2 (updateObs o)
  have hpd : (A * (v.2 * Aᵀ) + Q).PosDef := by
    rw [← Matrix.mul_assoc]
    exact hQ.posSemidef_add (posSemidef_conj' hv.posSemidef A)
  have ep : x'.2.reconstruct = A * (v.2 * Aᵀ) + Q := by
    rw [e4, rS]
  rw [ep] at h1 h2
  have hrec := near_flBierReconstruct (ar := ar) hw hcor.2
  have hm := hcor.1
  rw [h1, e3] at hm
  rw [h2, e3] at hrec
  refine ⟨_, fun i => ((flBierCorrect (ar i) ((ar i).mul ((ar i).pinv m (L i)) C) 1
      ((ar i).mulV ((ar i).pinv m (L i)) d) (x i).1 (x i).2
      ⟨(ar i).mulV ((ar i).pinv m (L i)) (updateObs o).val, (updateObs o).mask⟩).1,
    (flBierCorrect (ar i) ((ar i).mul ((ar i).pinv m (L i)) C) 1
      ((ar i).mulV ((ar i).pinv m (L i)) d) (x i).1 (x i).2
      ⟨(ar i).mulV ((ar i).pinv m (L i)) (updateObs o).val,
        (updateObs o).mask⟩).2.flReconstruct (ar i)), rfl, ?_, ⟨hm, hrec⟩,
    filterCorrect_posDef _ _ _ hpd hR⟩
  filter_upwards [g1, g2, g3] with i h1 h2 h3
  simp only [flBierUpdate, eb, ed, eA, eC, eQ, eR, h1, h2, h3, bind, Except.bind, pure,
    Except.pure, Except.map]

end Bier

/-! ### The unscented classes -/

/-- The parameters of a single call. -/
def UParams.one (p : UParams n m) (a : UUpdateArgs n m) (f : Vec n → Vec n) (g : Vec n → Vec m) :
    UParams n m :=
  { p with f := .flat [f], g := .flat [g], Q := a.Q.getD p.Q, R := a.R.getD p.R }

/-- The parameters of a single call. -/
def GParams.one (p : GParams n m) (a : GUpdateArgs n m) (f : Vec n → Vec n → Vec n)
    (g : Vec n → Vec m → Vec m) : GParams n m :=
  { p with f := .flat [f], g := .flat [g], Q := a.Q.getD p.Q, R := a.R.getD p.R }

theorem aukfUpdate_one (p : UParams n m) (a : UUpdateArgs n m) (M : Moments n)
    (o : Option (Obs m)) : aukfUpdate p M o a = (do
      let f ← defaultFunction a.f p.f
      let g ← defaultFunction a.g p.g
      aukfStep { p.one a f g with S0 := 1 } 1 (some M) (updateObs o)) := by
  cases o <;> rfl

theorem flAukfUpdate_one {u : ℝ} (ar : ArithU c u) (p : UParams n m) (a : UUpdateArgs n m)
    (M : Moments n) (o : Option (Obs m)) : flAukfUpdate ar p M o a = (do
      let f ← defaultFunction a.f p.f
      let g ← defaultFunction a.g p.g
      flAukfStep ar { p.one a f g with S0 := 1 } 1 (some M) (updateObs o)) := rfl

theorem ukfUpdate_one (p : GParams n m) (a : GUpdateArgs n m) (M : Moments n)
    (o : Option (Obs m)) : ukfUpdate p M o a = (do
      let f ← defaultFunction a.f p.f
      let g ← defaultFunction a.g p.g
      ukfStep { p.one a f g with S0 := 1 } 1 (some M) (updateObs o)) := by
  cases o <;> rfl

theorem flUkfUpdate_one {u : ℝ} (ar : ArithU c u) (p : GParams n m) (a : GUpdateArgs n m)
    (M : Moments n) (o : Option (Obs m)) : flUkfUpdate ar p M o a = (do
      let f ← defaultFunction a.f p.f
      let g ← defaultFunction a.g p.g
      flUkfStep ar { p.one a f g with S0 := 1 } 1 (some M) (updateObs o)) := rfl

/-- A computed function is found whenever the exact one is. -/
theorem defaultFunction_near {α β : Type} {d : α → β → Prop} {a : Option α}
    {b : Option β} {f : Fns α} {g : Fns β} (ha : OptWithin d a b) (hf : f.Within d g) {y : β}
    (hy : defaultFunction b g = .ok y) : ∃ x, defaultFunction a f = .ok x ∧ d x y := by
  cases b with
  | some b =>
    cases a with
    | none => exact ha.elim
    | some a =>
      obtain rfl : b = y := by cases g <;> cases hy <;> rfl
      exact ⟨a, by cases f <;> rfl, ha⟩
  | none =>
    cases a with
    | some a => exact ha.elim
    | none =>
      cases g with
      | nested l =>
        simp only [defaultFunction] at hy
        split_ifs at hy
      | flat l =>
        cases f with
        | nested l => exact hf.elim
        | flat l' =>
          have hf : List.Forall₂ d l' l := hf
          cases hf with
          | nil => cases hy
          | cons h ht =>
            cases ht with
            | nil => cases hy; exact ⟨_, rfl, h⟩
            | cons h' ht' => cases hy

theorem defaultFunction_all {β : Type} {q : β → Prop} {b : Option β} {g : Fns β}
    (hb : ∀ x ∈ b, q x) (hg : g.All q) {y : β} (hy : defaultFunction b g = .ok y) : q y := by
  cases b with
  | some b =>
    obtain rfl : b = y := by cases g <;> cases hy <;> rfl
    exact hb b rfl
  | none =>
    cases g with
    | nested l =>
      simp only [defaultFunction] at hy
      split_ifs at hy
    | flat l =>
      match l, hy with
      | [x], hy => cases hy; exact hg _ (by simp)
      | [], hy => cases hy
      | _ :: _ :: _, hy => cases hy

section U

variable {ar : ∀ i, ArithU c (w i)}

theorem near_flAukfUpdate (hw : Filter.Tendsto w F (𝓝 0)) {p : UParams n m} {κf κg : Vec n → ℝ}
    {f : ι → Fns (Vec n → Vec n)} {g : ι → Fns (Vec n → Vec m)} (hp : UFnsNear κf κg p w f g)
    {a : ι → UUpdateArgs n m} {a' : UUpdateArgs n m} (ha : ∀ i, (a i).Within κf κg (w i) a')
    (hQ : (a'.Q.getD p.Q)ᵀ = a'.Q.getD p.Q) (hR : (a'.R.getD p.R)ᵀ = a'.R.getD p.R)
    (lf : ∀ f ∈ a'.f, LocallyLipschitz f) (lg : ∀ g ∈ a'.g, LocallyLipschitz g)
    {o : Option (Obs m)} {M : ι → Moments n} {M' : Moments n} (hM : MomNear F w M M')
    (hreg : Observed o → ∀ x, p.updateObsMoments a' M' = .ok x → IsUnit x.cov.det)
    {r : Moments n} (hr : aukfUpdate p M' o a' = .ok r) :
    EvNear F (MomNear F w)
      (fun i => flAukfUpdate (ar i) { p with f := f i, g := g i } (M i) o (a i))
      (aukfUpdate p M' o a') := by
  have hr0 := hr
  rw [aukfUpdate_one] at hr
  obtain ⟨f', hf', hr⟩ := ok_bind_iff.mp hr
  obtain ⟨g', hg', hr⟩ := ok_bind_iff.mp hr
  have kf := fun i => defaultFunction_near (ha i).f (hp.f i) hf'
  have kg := fun i => defaultFunction_near (ha i).g (hp.g i) hg'
  choose φ hφ dφ using kf
  choose γ hγ dγ using kg
  have qf := defaultFunction_all lf hp.lf hf'
  have qg := defaultFunction_all lg hp.lg hg'
  have hstep := near_aukfStep (ar := ar) hw (p := { p.one a' f' g' with S0 := 1 })
    (f := fun i => .flat [φ i]) (g := fun i => .flat [γ i])
    ⟨hp.cf, hp.cg, fun i => .cons (dφ i) .nil, fun i => .cons (dγ i) .nil,
      by simpa [Fns.All, UParams.one] using qf, by simpa [Fns.All, UParams.one] using qg⟩
    hQ hR transpose_one 1 (fun i => some (M i)) (some M') (updateObs o) r ⟨M, fun _ => rfl, hM⟩
    (fun ho x hx => by
      rcases observed_of_not_missing ho with h | h
      · refine hreg h x ?_
        rw [UParams.updateObsMoments, hf', hg']
        exact hx
      · subst h
        simp) hr
  have e1 : aukfUpdate p M' o a' = aukfStep { p.one a' f' g' with S0 := 1 } 1 (some M')
      (updateObs o) := by rw [hr, hr0]
  rw [e1]
  convert hstep using 2 with i
  rw [flAukfUpdate_one]
  simp only [hφ i, hγ i, bind, Except.bind, UParams.one, (ha i).Q, (ha i).R]

theorem near_flUkfUpdate (hw : Filter.Tendsto w F (𝓝 0)) {p : GParams n m}
    {κf : Vec n × Vec n → ℝ} {κg : Vec n × Vec m → ℝ}
    {f : ι → Fns (Vec n → Vec n → Vec n)} {g : ι → Fns (Vec n → Vec m → Vec m)}
    (hp : GFnsNear κf κg p w f g)
    {a : ι → GUpdateArgs n m} {a' : GUpdateArgs n m} (ha : ∀ i, (a i).Within κf κg (w i) a')
    (hQ : (a'.Q.getD p.Q)ᵀ = a'.Q.getD p.Q) (hR : (a'.R.getD p.R)ᵀ = a'.R.getD p.R)
    (lf : ∀ f ∈ a'.f, LocallyLipschitz fun x : Vec n × Vec n => f x.1 x.2)
    (lg : ∀ g ∈ a'.g, LocallyLipschitz fun x : Vec n × Vec m => g x.1 x.2)
    {o : Option (Obs m)} {M : ι → Moments n} {M' : Moments n} (hM : MomNear F w M M')
    (hreg : Observed o → ∀ x, p.updateObsMoments a' M' = .ok x → IsUnit x.cov.det)
    {r : Moments n} (hr : ukfUpdate p M' o a' = .ok r) :
    EvNear F (MomNear F w)
      (fun i => flUkfUpdate (ar i) { p with f := f i, g := g i } (M i) o (a i))
      (ukfUpdate p M' o a') := by
  have hr0 := hr
  rw [ukfUpdate_one] at hr
  obtain ⟨f', hf', hr⟩ := ok_bind_iff.mp hr
  obtain ⟨g', hg', hr⟩ := ok_bind_iff.mp hr
  have kf := fun i => defaultFunction_near (ha i).f (hp.f i) hf'
  have kg := fun i => defaultFunction_near (ha i).g (hp.g i) hg'
  choose φ hφ dφ using kf
  choose γ hγ dγ using kg
  have qf := defaultFunction_all lf hp.lf hf'
  have qg := defaultFunction_all lg hp.lg hg'
  have hstep := near_ukfStep (ar := ar) hw (p := { p.one a' f' g' with S0 := 1 })
    (f := fun i => .flat [φ i]) (g := fun i => .flat [γ i])
    ⟨hp.cf, hp.cg, fun i => .cons (dφ i) .nil, fun i => .cons (dγ i) .nil,
      by simpa [Fns.All, GParams.one] using qf, by simpa [Fns.All, GParams.one] using qg⟩
    hQ hR transpose_one 1 (fun i => some (M i)) (some M') (updateObs o) r ⟨M, fun _ => rfl, hM⟩
    (fun ho x hx => by
      rcases observed_of_not_missing ho with h | h
      · refine hreg h x ?_
        rw [GParams.updateObsMoments, hf', hg']
        exact hx
      · subst h
        simp) hr
  have e1 : ukfUpdate p M' o a' = ukfStep { p.one a' f' g' with S0 := 1 } 1 (some M')
      (updateObs o) := by rw [hr, hr0]
  rw [e1]
  convert hstep using 2 with i
  rw [flUkfUpdate_one]
  simp only [hφ i, hγ i, bind, Except.bind, GParams.one, (ha i).Q, (ha i).R]

end U

end Verif
