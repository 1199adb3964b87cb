import Verif.Proofs.MachineSqrt
import Verif.Proofs.MachineUnscentedExact
import Verif.Model.SqrtUnscented

/-!
# Exact arithmetic as a machine, for the square root filters
-/

open Matrix

namespace Verif

variable {n m k l N : ℕ}

open Classical in
/-- Exact arithmetic, with any QR routine. -/
noncomputable abbrev exactSMachine (qr : QR) : SMachine where
  toUMachine := exactUMachine
  cholL k S := cholesky (S : Mat k k)
  qr k l X := .ok (qr.r k l (X : Mat k l))
  lstsq a b c X Y := .ok (Verif.lstsq (X : Mat a b) (Y : Mat a c))
  dotVM k l x X := x ᵥ* (X : Mat k l)
  dot k x y := x ⬝ᵥ y
  allClose k X := decide (AllCloseT (X : Mat k k))
  positive x := decide (x > 0)
  negative x := decide (x < 0)
  square x := x ^ 2
  abs x := |x|
  sign x := Real.sign x
  minusOne := -1.0

namespace ExactS

variable (qr : QR)

/-- A vector as a vector of the machine. -/
def vx (x : Vec k) : (exactSMachine qr).V k := x

/-- A matrix as a matrix of the machine. -/
def mx (X : Mat k l) : (exactSMachine qr).A k l := X

/-- The parameters as parameters of the machine. -/
def par (p : Params n m) : (exactSMachine qr).Par n m := Exact.par p

/-- An observation as an observation of the machine. -/
def row (o : Obs m) : (exactSMachine qr).Row m := Exact.row o

/-- A row of `_filter`. -/
def st (s : Step n m) : (exactSMachine qr).St n m := Exact.st s

/-- The arguments of `filter_update`. -/
def args (a : UpdateArgs n m) : (exactSMachine qr).toMachine.Args n m := Exact.args a

theorem hstack_eq {a b c : ℕ} (X : Mat a b) (Y : Mat a c) :
    SMachine.hstack (mx qr X) (mx qr Y) = mx qr (hstack X Y) := by
  funext i j
  refine Fin.addCases (fun j => ?_) (fun j => ?_) j <;>
    simp [SMachine.hstack, hstack, mx]

/-! ### `CholeskyKalmanFilter` -/

/-- A row of the square root filter. -/
def cst (s : CStep n) : (exactSMachine qr).CSt n :=
  ⟨vx qr s.predMean, mx qr s.predCov2, vx qr s.filtMean, mx qr s.filtCov2⟩

theorem cholParam_eq (X : TV (Mat k k)) :
    SMachine.cholParam (M := exactSMachine qr) X = (cholParam X).map (mx qr) := by
  cases X with
  | const X =>
    show cholesky X = (cholesky X).map (mx qr)
    cases cholesky X <;> rfl
  | seq l => rfl

theorem cholPredict_eq (A Q2 : Mat n n) (b mean : Vec n) (cov2 : Mat n n) :
    SMachine.cholPredict (mx qr A) (mx qr Q2) (vx qr b) (vx qr mean) (mx qr cov2)
      = .ok (vx qr (cholPredict qr A Q2 b mean cov2).1, mx qr (cholPredict qr A Q2 b mean cov2).2) := by
  have h := hstack_eq qr (A * cov2) Q2
  unfold SMachine.cholPredict
  rw [show (exactSMachine qr).dotM n n n (mx qr A) (mx qr cov2) = mx qr (A * cov2) from rfl, h]
  rfl

theorem cholCorrectM_eq (C : Mat m n) (R2 : Mat m m) (cov2 : Mat n n) :
    SMachine.cholCorrectM (mx qr C) (mx qr R2) (mx qr cov2) = mx qr (cholCorrectM C R2 cov2) := by
  funext i j
  have h0 : ∀ i j, Machine.dotM (exactSMachine qr).toMachine m n n (mx qr C) (mx qr cov2) i j
    = (C * cov2) i j := fun _ _ => rfl
  refine Fin.addCases (fun i => ?_) (fun i => ?_) i <;>
    refine Fin.addCases (fun j => ?_) (fun j => ?_) j <;>
    simp [SMachine.cholCorrectM, cholCorrectM, mx, Machine.tr, -transpose_mul]

theorem cholCorrect_eq (C : Mat m n) (R2 : Mat m m) (d : Vec m) (mean : Vec n) (cov2 : Mat n n)
    (o : Obs m) :
    SMachine.cholCorrect (mx qr C) (mx qr R2) (vx qr d) (vx qr mean) (mx qr cov2) (row qr o)
      = .ok (vx qr (cholCorrect qr C R2 d mean cov2 o).1,
        mx qr (cholCorrect qr C R2 d mean cov2 o).2) := by
  by_cases h : o.missing
  · have h' : (row qr o).missing := h
    simp only [SMachine.cholCorrect, cholCorrect, h, h', not_true_eq_false, if_false]
    rfl
  · have h' : ¬ (row qr o).missing := h
    simp only [SMachine.cholCorrect, cholCorrect, h, h', not_false_eq_true, if_true,
      cholCorrectM_eq]
    rfl

theorem cholStep_eq (p : Params n m) (Q2 : Mat n n) (R2 : Mat m m) (S2 : Mat n n) (t : ℕ)
    (prev : Option (CStep n)) (o : Obs m) :
    SMachine.cholStep (par qr p) (mx qr Q2) (mx qr R2) (mx qr S2) t (prev.map (cst qr)) (row qr o)
      = (cholStep qr p Q2 R2 S2 t prev o).map (cst qr) := by
  have key : ∀ x : Vec n × Mat n n,
      (do
        let C ← lastDims p.C t
        let d ← lastDims p.d t
        let c ← SMachine.cholCorrect (mx qr C) (mx qr R2) (vx qr d) (vx qr x.1) (mx qr x.2) (row qr o)
        (pure ⟨vx qr x.1, mx qr x.2, c.1, c.2⟩ : Res ((exactSMachine qr).CSt n)))
      = (do
        let C ← lastDims p.C t
        let d ← lastDims p.d t
        let c := cholCorrect qr C R2 d x.1 x.2 o
        (pure ⟨x.1, x.2, c.1, c.2⟩ : Res (CStep n))).map (cst qr) := by
    intro x
    refine bind_map fun C => bind_map fun d => ?_
    rw [cholCorrect_eq]
    rfl
  cases prev with
  | none => exact key (p.mu0, S2)
  | some s =>
    simp only [SMachine.cholStep, cholStep, Option.map_some]
    refine bind_map (x := lastDims p.A (t - 1)) fun A => bind_map (x := lastDims p.b (t - 1)) fun b => ?_
    have h := cholPredict_eq qr A Q2 b s.filtMean s.filtCov2
    have := key (cholPredict qr A Q2 b s.filtMean s.filtCov2)
    simp only [Bind.bind, Except.bind, Pure.pure, Except.pure] at this ⊢
    rw [show SMachine.cholPredict A (mx qr Q2) b (cst qr s).filtMean (cst qr s).filtCov2
      = SMachine.cholPredict (mx qr A) (mx qr Q2) (vx qr b) (vx qr s.filtMean) (mx qr s.filtCov2)
      from rfl, h]
    exact this

theorem cholFull_eq (p : Params n m) (os : List (Obs m)) :
    SMachine.cholFull (par qr p) (os.map (row qr)) = (cholFull qr p os).map (List.map (cst qr)) := by
  have loop : ∀ (Q2 : Mat n n) (R2 : Mat m m) (S2 : Mat n n) (os : List (Obs m)) (t : ℕ)
      (prev : Option (CStep n)),
      UMachine.run (SMachine.cholStep (par qr p) (mx qr Q2) (mx qr R2) (mx qr S2)) t
        (prev.map (cst qr)) (os.map (row qr))
      = (cholLoop qr p Q2 R2 S2 t prev os).map (List.map (cst qr)) := by
    intro Q2 R2 S2 os
    induction os with
    | nil => intros; rfl
    | cons o os ih =>
      intro t prev
      rw [List.map_cons, UMachine.run, cholLoop, cholStep_eq]
      cases cholStep qr p Q2 R2 S2 t prev o with
      | error e => rfl
      | ok s =>
        have := ih (t + 1) (some s)
        rw [Option.map_some] at this
        simp only [Except.map, Bind.bind, Except.bind, this]
        cases cholLoop qr p Q2 R2 S2 (t + 1) (some s) os <;> rfl
  rw [SMachine.cholFull, cholFull]
  rw [show (par qr p).Q = p.Q from rfl, show (par qr p).R = p.R from rfl, cholParam_eq, cholParam_eq]
  cases cholParam p.Q with
  | error e => rfl
  | ok Q2 =>
    cases cholParam p.R with
    | error e => rfl
    | ok R2 =>
      show (cholesky p.S0 >>= fun S2 => _) = (cholesky p.S0 >>= fun S2 => _).map _
      exact bind_map fun S2 => loop Q2 R2 S2 os 0 none

theorem cholRows_eq (p : Params n m) (os : List (Obs m)) :
    SMachine.cholRows (par qr p) (os.map (row qr))
      = (cholFull qr p os).map (List.map fun s => st qr (CStep.step m s)) := by
  rw [SMachine.cholRows, cholFull_eq]
  cases cholFull qr p os with
  | error e => rfl
  | ok l =>
    simp only [Except.map, Bind.bind, Except.bind, Pure.pure, Except.pure, List.map_map]
    rfl

theorem cholFilter_eq (p : Params n m) (os : List (Obs m)) :
    SMachine.cholFilter (par qr p) (os.map (row qr)) = cholFilter qr p os := by
  rw [SMachine.cholFilter, cholRows_eq, cholFilter]
  cases cholFull qr p os with
  | error e => rfl
  | ok l =>
    simp only [Except.map, Bind.bind, Except.bind, Pure.pure, Except.pure, List.map_map]
    rfl

theorem cholSmooth_eq (p : Params n m) (os : List (Obs m)) :
    SMachine.cholSmooth (par qr p) (os.map (row qr)) = cholSmooth qr p os := by
  rw [SMachine.cholSmooth, cholRows_eq, cholSmooth]
  cases cholFull qr p os with
  | error e => rfl
  | ok l =>
    simp only [Except.map, Bind.bind, Except.bind]
    have := Exact.smoothFull_eq (m := m) p.A (l.map (CStep.step m))
    rw [List.map_map] at this
    erw [this]
    cases smoothFull p.A (l.map (CStep.step m)) with
    | error e => rfl
    | ok sm =>
      simp only [Except.map, Pure.pure, Except.pure, List.map_map]
      rfl

theorem cholLoglik_eq (p : Params n m) (os : List (Obs m)) :
    SMachine.cholLoglik (par qr p) (os.map (row qr)) = cholLoglik qr p os := by
  rw [SMachine.cholLoglik, cholRows_eq, cholLoglik]
  cases cholFull qr p os with
  | error e => rfl
  | ok l =>
    simp only [Except.map, Bind.bind, Except.bind]
    have := Exact.loglikLoop_eq p (l.map (CStep.step m)) os 0
    rw [List.map_map] at this
    erw [this]

theorem observed_eq (o : Option (Obs m)) :
    UMachine.observed (M := (exactSMachine qr).toUMachine) (o.map (row qr))
      = row qr (match o with | none => ⟨0, fun _ => true⟩ | some o => o) := by
  cases o <;> rfl

theorem cholUpdate_eq (p : Params n m) (mean : Vec n) (cov : Mat n n) (o : Option (Obs m))
    (a : UpdateArgs n m) :
    SMachine.cholUpdate (par qr p) (vx qr mean) (mx qr cov) (o.map (row qr)) (args qr a)
      = (cholUpdate qr p mean cov o a).map fun r => (r.1, r.2 0) := by
  unfold SMachine.cholUpdate cholUpdate
  refine bind_map (x := argOrDefault a.b p.b) fun b => bind_map (x := argOrDefault a.d p.d) fun d =>
    bind_map (x := argOrDefault a.A p.A) fun A => bind_map (x := argOrDefault a.C p.C) fun C =>
    bind_map (x := argOrDefault a.Q p.Q) fun Q => bind_map (x := argOrDefault a.R p.R) fun R => ?_
  simp only [observed_eq]
  refine bind_map (x := cholesky Q) fun Q2 => bind_map (x := cholesky R) fun R2 =>
    bind_map (x := cholesky cov) fun S2 => ?_
  erw [cholPredict_eq qr A Q2 b mean S2]
  simp only [Bind.bind, Except.bind]
  erw [cholCorrect_eq]
  rfl

theorem statsOf_eq (p : Params n m) (l : List (Step n m)) :
    SMachine.statsOf (par qr p) (l.map (st qr))
      = (do
        let sm ← smoothFull p.A l
        (pure ((sm.zip (smoothPair sm)).map fun q : SStep n × Mat n n => ⟨q.1.mean, q.1.cov, q.2⟩) :
          Res (List (EmStats n)))).map (List.map Exact.stats) := by
  rw [SMachine.statsOf]
  erw [Exact.smoothFull_eq p.A l]
  cases smoothFull p.A l with
  | error e => rfl
  | ok sm =>
    simp only [Except.map, Bind.bind, Except.bind, Pure.pure, Except.pure, List.map_map]
    erw [Exact.pair_eq sm]
    refine congrArg Except.ok ?_
    rw [← List.map_map]
    generalize smoothPair sm = ps
    induction sm generalizing ps with
    | nil => rfl
    | cons a sm ih =>
      cases ps with
      | nil => rfl
      | cons q ps => exact congrArg (Exact.stats ⟨a.mean, a.cov, q⟩ :: ·) (ih ps)

theorem cholEm_eq (p : Params n m) (os : List (Obs m)) (k : ℕ) (vars : EmVar → Bool) :
    SMachine.cholEm (par qr p) (os.map (row qr)) k vars = (cholEm qr p os k vars).map (par qr) := by
  have loop : ∀ (k : ℕ) (q : Params n m),
      SMachine.cholEmLoop (par qr p) vars (os.map (row qr)) k (par qr q)
        = (cholEmLoop qr p vars os k q).map (par qr) := by
    intro k
    induction k with
    | zero => intro q; rfl
    | succ k ih =>
      intro q
      rw [SMachine.cholEmLoop, cholEmLoop, cholRows_eq, cholStats]
      cases cholFull qr q os with
      | error e => rfl
      | ok l =>
        simp only [Except.map, Bind.bind, Except.bind]
        have h := statsOf_eq qr q (l.map (CStep.step m))
        rw [List.map_map] at h
        erw [h]
        cases smoothFull q.A (l.map (CStep.step m)) with
        | error e => rfl
        | ok sm =>
          simp only [Except.map, Bind.bind, Except.bind, Pure.pure, Except.pure]
          generalize hss : ((sm.zip (smoothPair sm)).map fun q : SStep n × Mat n n =>
            (⟨q.1.mean, q.1.cov, q.2⟩ : EmStats n)) = ss
          erw [Exact.emStep_eq p q vars ss os]
          cases emStep p vars q ss os with
          | error e => rfl
          | ok q' => exact ih q'
  exact loop k p

/-! ### `BiermanKalmanFilter` -/

/-- Factors as factors of the machine. -/
def ud (c : UDU n) : (exactSMachine qr).UD n := ⟨mx qr c.U, vx qr c.D⟩

/-- A row of the filter. -/
def bst (s : BStep n) : (exactSMachine qr).BSt n :=
  ⟨vx qr s.predMean, ud qr s.predCov, vx qr s.filtMean, ud qr s.filtCov⟩

/-- The arrays of `udu`. -/
def us (s : UduState) : (exactSMachine qr).UduSt := ⟨s.M, s.U, s.d⟩

/-- The arrays of `_filter_correct_single`. -/
def ss (s : SingleState) : (exactSMachine qr).SingleSt := ⟨s.gamma, s.U, s.D, s.k⟩

theorem foldl_eq {α β γ : Type} {f : α → γ → α} {g : β → γ → β} {φ : α → β}
    (h : ∀ a c, g (φ a) c = φ (f a c)) (l : List γ) (a : α) : l.foldl g (φ a) = φ (l.foldl f a) := by
  induction l generalizing a with
  | nil => rfl
  | cons c l ih => rw [List.foldl_cons, List.foldl_cons, h, ih]

theorem reconstruct_eq (c : UDU n) : (ud qr c).reconstruct = mx qr c.reconstruct := rfl

theorem uduCol_eq (store : ℝ → ℝ) (j : ℕ) (s : UduState) :
    SMachine.uduCol (M := exactSMachine qr) store j (us qr s) = us qr (uduCol store j s) := by
  unfold SMachine.uduCol uduCol
  have h : (if (exactSMachine qr).positive (SMachine.set1 (us qr s).d (j - 1)
        ((us qr s).X (j - 1) (j - 1)) (j - 1)) = true
      then (exactSMachine qr).div (exactSMachine qr).one (SMachine.set1 (us qr s).d (j - 1)
        ((us qr s).X (j - 1) (j - 1)) (j - 1)) else (exactSMachine qr).zero)
      = (if s.d.set (j - 1) (s.M (j - 1) (j - 1)) (j - 1) > 0
        then 1.0 / s.d.set (j - 1) (s.M (j - 1) (j - 1)) (j - 1) else 0.0 : ℝ) := by
    have e : SMachine.set1 (us qr s).d (j - 1) ((us qr s).X (j - 1) (j - 1)) (j - 1)
      = s.d.set (j - 1) (s.M (j - 1) (j - 1)) (j - 1) := rfl
    rw [e]
    by_cases hp : s.d.set (j - 1) (s.M (j - 1) (j - 1)) (j - 1) > 0
    · rw [if_pos hp, if_pos (decide_eq_true hp)]
    · rw [if_neg hp, if_neg (by simpa using hp)]
      norm_num
  simp only [h]
  exact foldl_eq (φ := us qr) (f := uduInner store j _)
    (g := SMachine.uduInner (M := exactSMachine qr) store j _) (fun _ _ => rfl) _
    ⟨s.M, s.U, s.d.set (j - 1) (s.M (j - 1) (j - 1))⟩

theorem uduLoop_eq (store : ℝ → ℝ) (c : ℕ) (s : UduState) :
    SMachine.uduLoop (M := exactSMachine qr) store c (us qr s) = us qr (uduLoop store c s) := by
  induction c generalizing s with
  | zero => rfl
  | succ c ih => rw [SMachine.uduLoop, uduLoop, uduCol_eq, ih]

open Classical in
theorem udu_eq (store : ℝ → ℝ) (X : Mat n n) :
    SMachine.udu store (mx qr X) = (udu store X).map (ud qr) := by
  unfold SMachine.udu udu
  by_cases hc : AllCloseT X
  · rw [if_pos hc, if_pos (show (exactSMachine qr).allClose n (mx qr X) = true from decide_eq_true hc)]
    split_ifs with hn
    · rfl
    · have h := uduLoop_eq qr store (n - 1)
        ⟨fun i j => if i ≤ j then arr2 X i j else 0, fun i j => if i = j then 1 else 0, fun _ => 0⟩
      have h1 : (exactSMachine qr).one = (1 : ℝ) := by show (1.0 : ℝ) = 1; norm_num
      have e : (⟨fun i j => if i ≤ j then SMachine.arr2 (mx qr X) i j else (exactSMachine qr).zero,
          fun i j => if i = j then (exactSMachine qr).one else (exactSMachine qr).zero,
          fun _ => (exactSMachine qr).zero⟩ : (exactSMachine qr).UduSt)
        = us qr ⟨fun i j => if i ≤ j then arr2 X i j else 0, fun i j => if i = j then 1 else 0,
          fun _ => 0⟩ := by
        rw [h1]; rfl
      simp only
      rw [e, h]
      rfl
  · rw [if_neg hc, if_neg (show ¬ (exactSMachine qr).allClose n (mx qr X) = true from fun h => hc (of_decide_eq_true h))]
    rfl

theorem dotRows_eq (inv : Mat m m) (rows : List (Vec m)) :
    SMachine.dotRows (M := exactSMachine qr) (mx qr inv) rows = rows.map fun v => inv *ᵥ v := by
  refine List.ext_getElem (by simp [SMachine.dotRows]) fun i h1 h2 => ?_
  simp only [SMachine.dotRows, List.getElem_ofFn, List.getElem_map]
  rfl

theorem dotOffsets_eq (inv : Mat m m) (d : TV (Vec m)) :
    SMachine.dotOffsets (M := exactSMachine qr) (mx qr inv) d = d.map fun v => inv *ᵥ v := by
  cases d with
  | const d => rfl
  | seq ds => exact congrArg TV.seq (dotRows_eq qr inv ds)

theorem dotRowsMasked_eq (inv : Mat m m) (os : List (Obs m)) :
    SMachine.dotRowsMasked (mx qr inv) (os.map (row qr))
      = (os.map fun o => (⟨inv *ᵥ o.val, o.mask⟩ : Obs m)).map (row qr) := by
  have e : (os.map (row qr)).map (·.val) = os.map fun o => o.val := by
    rw [List.map_map]; rfl
  rw [SMachine.dotRowsMasked, e]
  erw [dotRows_eq]
  induction os with
  | nil => rfl
  | cons o os ih => exact congrArg (row qr ⟨inv *ᵥ o.val, o.mask⟩ :: ·) (ih (by rw [List.map_map]; rfl))

theorem bierPredict_eq (A Q : Mat n n) (b mean : Vec n) (cov : UDU n) :
    SMachine.bierPredict (mx qr A) (mx qr Q) (vx qr b) (vx qr mean) (ud qr cov)
      = (bierPredict A Q b mean cov).map fun r => (vx qr r.1, ud qr r.2) := by
  unfold SMachine.bierPredict bierPredict
  have h := udu_eq qr id (A * cov.reconstruct * Aᵀ + Q)
  simp only
  rw [show (exactSMachine qr).madd ((exactSMachine qr).dotM n n n ((exactSMachine qr).dotM n n n
    (mx qr A) (ud qr cov).reconstruct) ((exactSMachine qr).tr (mx qr A))) (mx qr Q)
    = mx qr (A * cov.reconstruct * Aᵀ + Q) from rfl]
  erw [h]
  cases udu id (A * cov.reconstruct * Aᵀ + Q) <;> rfl

/-- The arrays at the beginning of the loop of `_filter_correct_single`. -/
noncomputable def single0 (c : UDU n) (h : Vec n) (R one : ℝ) : SingleState :=
  ⟨Arr1.set (fun _ => 0) 0 (R + arr1 (diagonal c.D *ᵥ (h ᵥ* c.U)) 0 * arr1 (h ᵥ* c.U) 0),
   Arr2.set (fun _ _ => 0) 0 0 one,
   Arr1.set (fun _ => 0) 0 (arr1 c.D 0 * R / Arr1.set (fun _ => 0) 0
      (R + arr1 (diagonal c.D *ᵥ (h ᵥ* c.U)) 0 * arr1 (h ᵥ* c.U) 0) 0),
   Arr1.set (fun _ => 0) 0 (arr1 (diagonal c.D *ᵥ (h ᵥ* c.U)) 0)⟩

/-- The loop of `_filter_correct_single`. -/
noncomputable def singleLoop (c : UDU n) (h : Vec n) (R one : ℝ) : SingleState :=
  (List.range (n - 1)).foldl (singleBody (arr2 c.U) (arr1 c.D) (arr1 (h ᵥ* c.U))
    (arr1 (diagonal c.D *ᵥ (h ᵥ* c.U)))) (single0 c h R one)

theorem correctSingle_eq (c : UDU n) (h : Vec n) (R : ℝ) :
    SMachine.correctSingle (ud qr c) (vx qr h) R
      = (ud qr (correctSingle c h R).1, vx qr (correctSingle c h R).2) := by
  have e0 : correctSingle c h R = (⟨mat2 n (singleLoop c h R 1).U, vec1 n (singleLoop c h R 1).D⟩,
    (1 / (h ᵥ* c.U ⬝ᵥ diagonal c.D *ᵥ (h ᵥ* c.U) + R)) • vec1 n (singleLoop c h R 1).k) := rfl
  have key : (List.range (n - 1)).foldl (SMachine.singleBody (M := exactSMachine qr)
      (SMachine.arr2 (ud qr c).U) (SMachine.arr1 (ud qr c).D)
      (SMachine.arr1 ((exactSMachine qr).dotVM n n (vx qr h) (ud qr c).U))
      (SMachine.arr1 ((exactSMachine qr).dotV n n (SMachine.diag (ud qr c).D)
        ((exactSMachine qr).dotVM n n (vx qr h) (ud qr c).U)))) (ss qr (single0 c h R 1.0))
      = ss qr (singleLoop c h R 1.0) :=
    foldl_eq (φ := ss qr) (fun _ _ => rfl) _ _
  have e1 : SMachine.correctSingle (ud qr c) (vx qr h) R
      = ((⟨fun i j => (ss qr (singleLoop c h R 1.0)).U i j,
          fun i => (ss qr (singleLoop c h R 1.0)).D i⟩ : (exactSMachine qr).UD n),
        fun i : Fin n => (exactSMachine qr).div ((ss qr (singleLoop c h R 1.0)).k i)
          (h ᵥ* c.U ⬝ᵥ diagonal c.D *ᵥ (h ᵥ* c.U) + R)) := by
    rw [← key]
    rfl
  have h1 : (1.0 : ℝ) = 1 := by norm_num
  rw [e1, e0, h1]
  refine Prod.ext rfl ?_
  funext i
  show (_ : ℝ) / _ = (1 / _) * _
  rw [one_div, div_eq_inv_mul]
  rfl

/-- Mean and factors. -/
def vu (r : Vec n × UDU n) : (exactSMachine qr).V n × (exactSMachine qr).UD n :=
  (vx qr r.1, ud qr r.2)

theorem eye_eq : SMachine.eye (M := exactSMachine qr) = mx qr (1 : Mat k k) := by
  funext i j
  show (if i = j then (1.0 : ℝ) else 0) = (1 : Mat k k) i j
  rw [Matrix.one_apply]
  norm_num

theorem bierCorrect_eq (C : Mat m n) (d : Vec m) (mean : Vec n) (cov : UDU n) (o : Obs m) :
    SMachine.bierCorrect (mx qr C) SMachine.eye (vx qr d) (vx qr mean) (ud qr cov) (row qr o)
      = vu qr (bierCorrect C 1 d mean cov o) := by
  by_cases h : o.missing
  · have h' : (row qr o).missing := h
    simp only [SMachine.bierCorrect, bierCorrect, h, h', not_true_eq_false, if_false]
    rfl
  · have h' : ¬ (row qr o).missing := h
    simp only [SMachine.bierCorrect, bierCorrect, h, h', not_false_eq_true, if_true, eye_eq]
    refine foldl_eq (φ := vu qr) (fun s i => ?_) (List.finRange m) (mean, cov)
    unfold SMachine.bierCorrectOne bierCorrectOne
    have e := correctSingle_eq qr s.2 (C i) ((1 : Mat m m) i i)
    simp only
    erw [e]
    refine Prod.ext ?_ rfl
    funext q
    show s.1 q + (_ : ℝ) * _ = s.1 q + _ * _
    rw [mul_comm]
    rfl

theorem bierStep_eq (p : Params n m) (C : TV (Mat m n)) (d : TV (Vec m)) (S0 : UDU n) (t : ℕ)
    (prev : Option (BStep n)) (o : Obs m) :
    SMachine.bierStep (par qr p) C d (ud qr S0) t (prev.map (bst qr)) (row qr o)
      = (bierStep p C d S0 t prev o).map (bst qr) := by
  have key : ∀ x : Vec n × UDU n,
      (do
        let C ← lastDims C t
        let d ← lastDims d t
        let c := SMachine.bierCorrect (mx qr C) SMachine.eye (vx qr d) (vx qr x.1) (ud qr x.2) (row qr o)
        (pure ⟨vx qr x.1, ud qr x.2, c.1, c.2⟩ : Res ((exactSMachine qr).BSt n)))
      = (do
        let C ← lastDims C t
        let d ← lastDims d t
        let c := bierCorrect C 1 d x.1 x.2 o
        (pure ⟨x.1, x.2, c.1, c.2⟩ : Res (BStep n))).map (bst qr) := by
    intro x
    refine bind_map fun C => bind_map fun d => ?_
    simp only [bierCorrect_eq]
    rfl
  cases prev with
  | none => exact key (p.mu0, S0)
  | some s =>
    simp only [SMachine.bierStep, bierStep, Option.map_some]
    refine bind_map (x := lastDims p.A (t - 1)) fun A => bind_map (x := lastDims p.b (t - 1)) fun b => ?_
    rw [show (par qr p).Q = p.Q from rfl]
    cases p.Q with
    | seq l => rfl
    | const Q =>
      simp only [Bind.bind, Except.bind, Pure.pure, Except.pure] at key ⊢
      rw [show SMachine.bierPredict A Q b (bst qr s).filtMean (bst qr s).filtCov
        = SMachine.bierPredict (mx qr A) (mx qr Q) (vx qr b) (vx qr s.filtMean) (ud qr s.filtCov)
        from rfl, bierPredict_eq]
      cases bierPredict A Q b s.filtMean s.filtCov with
      | error e => rfl
      | ok x => exact key x

theorem bierFull_eq (store : ℝ → ℝ) (p : Params n m) (os : List (Obs m)) :
    SMachine.bierFull (M := exactSMachine qr) store (par qr p) (os.map (row qr))
      = (bierFull store p os).map (List.map (bst qr)) := by
  have loop : ∀ (C : TV (Mat m n)) (d : TV (Vec m)) (S0 : UDU n) (os : List (Obs m)) (t : ℕ)
      (prev : Option (BStep n)),
      UMachine.run (SMachine.bierStep (par qr p) C d (ud qr S0)) t (prev.map (bst qr))
        (os.map (row qr))
      = (bierLoop p C d S0 t prev os).map (List.map (bst qr)) := by
    intro C d S0 os
    induction os with
    | nil => intros; rfl
    | cons o os ih =>
      intro t prev
      rw [List.map_cons, UMachine.run, bierLoop, bierStep_eq]
      cases bierStep p C d S0 t prev o with
      | error e => rfl
      | ok s =>
        have := ih (t + 1) (some s)
        rw [Option.map_some] at this
        simp only [Except.map, Bind.bind, Except.bind, this]
        cases bierLoop p C d S0 (t + 1) (some s) os <;> rfl
  rw [SMachine.bierFull, bierFull]
  rw [show (par qr p).S0 = mx qr p.S0 from rfl, udu_eq]
  cases udu store p.S0 with
  | error e => rfl
  | ok S0 =>
    simp only [Except.map, Bind.bind, Except.bind, SMachine.decorrelate, decorrelate]
    rw [show (par qr p).R = p.R from rfl, cholParam_eq]
    cases cholParam p.R with
    | error e => rfl
    | ok R2 =>
      simp only [Except.map, Pure.pure, Except.pure]
      have e1 := dotOffsets_eq qr (pinv R2) p.d
      have e2 := dotRowsMasked_eq qr (pinv R2) os
      have := loop (p.C.map fun X => pinv R2 * X) (p.d.map fun v => pinv R2 *ᵥ v) S0
        (os.map fun o => ⟨pinv R2 *ᵥ o.val, o.mask⟩) 0 none
      rw [← e2] at this
      refine Eq.trans ?_ (this.trans ?_)
      · rw [← e1]
        rfl
      · cases bierLoop p _ _ S0 0 none _ <;> rfl

theorem bierRows_eq (store : ℝ → ℝ) (p : Params n m) (os : List (Obs m)) :
    SMachine.bierRows (M := exactSMachine qr) store (par qr p) (os.map (row qr))
      = (bierFull store p os >>= bierRows m).map (List.map (st qr)) := by
  rw [SMachine.bierRows, bierFull_eq]
  cases bierFull store p os with
  | error e => rfl
  | ok l =>
    cases l with
    | nil => rfl
    | cons s l =>
      show Except.ok ((List.map (bst qr) (s :: l)).map (SMachine.BSt.st m))
        = Except.ok (((s :: l).map (BStep.step m)).map (st qr))
      rw [List.map_map, List.map_map]
      rfl

theorem bierFilter_eq (store : ℝ → ℝ) (p : Params n m) (os : List (Obs m)) :
    SMachine.bierFilter (M := exactSMachine qr) store (par qr p) (os.map (row qr))
      = bierFilter store p os := by
  rw [SMachine.bierFilter, bierRows_eq, bierFilter]
  cases bierFull store p os with
  | error e => rfl
  | ok l =>
    simp only [Bind.bind, Except.bind]
    cases bierRows m l with
    | error e => rfl
    | ok rows =>
      simp only [Except.map, Pure.pure, Except.pure, List.map_map]
      rfl

theorem bierSmooth_eq (store : ℝ → ℝ) (p : Params n m) (os : List (Obs m)) :
    SMachine.bierSmooth (M := exactSMachine qr) store (par qr p) (os.map (row qr))
      = bierSmooth store p os := by
  rw [SMachine.bierSmooth, bierRows_eq, bierSmooth]
  cases bierFull store p os with
  | error e => rfl
  | ok l =>
    simp only [Bind.bind, Except.bind]
    cases bierRows m l with
    | error e => rfl
    | ok rows =>
      simp only [Except.map]
      erw [Exact.smoothFull_eq (m := m) p.A rows]
      cases smoothFull p.A rows with
      | error e => rfl
      | ok sm =>
        simp only [Except.map, Pure.pure, Except.pure, List.map_map]
        rfl

theorem bierLoglik_eq (store : ℝ → ℝ) (p : Params n m) (os : List (Obs m)) :
    SMachine.bierLoglik (M := exactSMachine qr) store (par qr p) (os.map (row qr))
      = bierLoglik store p os := by
  rw [SMachine.bierLoglik, bierRows_eq, bierLoglik]
  cases bierFull store p os with
  | error e => rfl
  | ok l =>
    simp only [Bind.bind, Except.bind]
    cases bierRows m l with
    | error e => rfl
    | ok rows =>
      simp only [Except.map]
      erw [Exact.loglikLoop_eq p rows os 0]

theorem bierUpdate_eq (store : ℝ → ℝ) (p : Params n m) (mean : Vec n) (cov : Mat n n)
    (o : Option (Obs m)) (a : UpdateArgs n m) :
    SMachine.bierUpdate (M := exactSMachine qr) store (par qr p) (vx qr mean) (mx qr cov)
        (o.map (row qr)) (args qr a)
      = (bierUpdate store p mean cov o a).map fun r => (r.1, r.2 0) := by
  unfold SMachine.bierUpdate bierUpdate
  refine bind_map (x := argOrDefault a.b p.b) fun b => bind_map (x := argOrDefault a.d p.d) fun d =>
    bind_map (x := argOrDefault a.A p.A) fun A => bind_map (x := argOrDefault a.C p.C) fun C =>
    bind_map (x := argOrDefault a.Q p.Q) fun Q => bind_map (x := argOrDefault a.R p.R) fun R => ?_
  simp only [observed_eq, udu_eq]
  cases udu store cov with
  | error e => rfl
  | ok S =>
    refine bind_map (x := cholesky R) fun R2 => ?_
    simp only [Bind.bind, Except.bind]
    erw [bierPredict_eq qr A Q b mean S]
    cases bierPredict A Q b mean S with
    | error e => rfl
    | ok x =>
      simp only [Except.map, Pure.pure, Except.pure]
      have h := bierCorrect_eq qr (pinv R2 * C) (pinv R2 *ᵥ d) x.1 x.2
        ⟨pinv R2 *ᵥ (match o with | none => ⟨0, fun _ => true⟩ | some o => o : Obs m).val,
          (match o with | none => ⟨0, fun _ => true⟩ | some o => o : Obs m).mask⟩
      exact congrArg (fun r : (exactSMachine qr).V n × (exactSMachine qr).UD n =>
        (Except.ok (r.1, r.2.reconstruct) : Res ((exactSMachine qr).V n × (exactSMachine qr).A n n))) h

theorem bierEm_eq (store : ℝ → ℝ) (p : Params n m) (os : List (Obs m)) (k : ℕ)
    (vars : EmVar → Bool) :
    SMachine.bierEm (M := exactSMachine qr) store (par qr p) (os.map (row qr)) k vars
      = (bierEm store p os k vars).map (par qr) := by
  have loop : ∀ (k : ℕ) (store : ℝ → ℝ) (q : Params n m),
      SMachine.bierEmLoop (M := exactSMachine qr) store (par qr p) vars (os.map (row qr)) k (par qr q)
        = (bierEmLoop store p vars os k q).map (par qr) := by
    intro k
    induction k with
    | zero => intro _ q; rfl
    | succ k ih =>
      intro store q
      rw [SMachine.bierEmLoop, bierEmLoop, bierRows_eq, bierStats]
      cases bierFull store q os with
      | error e => rfl
      | ok l =>
        simp only [Bind.bind, Except.bind]
        cases bierRows m l with
        | error e => rfl
        | ok rows =>
          simp only [Except.map]
          have h := statsOf_eq qr q rows
          erw [h]
          cases smoothFull q.A rows with
          | error e => rfl
          | ok sm =>
            simp only [Except.map, Bind.bind, Except.bind, Pure.pure, Except.pure]
            generalize hss : ((sm.zip (smoothPair sm)).map fun q : SStep n × Mat n n =>
              (⟨q.1.mean, q.1.cov, q.2⟩ : EmStats n)) = ss
            erw [Exact.emStep_eq p q vars ss os]
            cases emStep p vars q ss os with
            | error e => rfl
            | ok q' =>
              have := ih (if vars .initialStateCovariance then id else store) q'
              exact this
  exact loop k store p

/-! ### The square root `AdditiveUnscentedKalmanFilter`

The model over the reals raises `nonFinite` where the code would go on with `nan`; where it returns,
the machine returns the same. -/

/-- Moments as moments of the machine. -/
def mom (x : Moments k) : (exactSMachine qr).Mom k := ExactU.mom x

/-- Sigma points as sigma points of the machine. -/
def pts (s : SigmaPoints N k) : (exactSMachine qr).Pts N k := ExactU.pts s

/-- Parameters as parameters of the machine. -/
def upar (p : UParams n m) : (exactSMachine qr).UPar n m := ExactU.upar p

/-- Arguments of `filter_update` as arguments on the machine. -/
def uargs (a : UUpdateArgs n m) : (exactSMachine qr).UArgs n m := ExactU.uargs a

/-- A function as one that may raise, but never does. -/
def fx (f : Vec k → Vec l) : (exactSMachine qr).V k → Res ((exactSMachine qr).V l) := ExactU.fx f

theorem cholUpper_eq (S : Mat k k) : (exactSMachine qr).chol k (mx qr S) = (cholUpper S).map (mx qr) := by
  show (cholUpperT S).map _ = _
  rw [cholUpper]
  cases cholUpperT S <;> rfl

/-- Matrix and vector in `cholupdate`. -/
def mv (r : Mat n n × Vec n) : (exactSMachine qr).A n n × (exactSMachine qr).V n :=
  (mx qr r.1, vx qr r.2)

theorem cholupdateStep_ok {sign : ℝ} {x y : Mat n n × Vec n} {k : Fin n}
    (h : cholupdateStep sign x k = .ok y) :
    SMachine.cholupdateStep (M := exactSMachine qr) sign (mv qr x) k = mv qr y := by
  unfold cholupdateStep at h
  by_cases hz : (k : ℕ) + 1 < n ∧ (x.1 k k = 0 ∨ cholupdateR sign (x.1 k k) (x.2 k) = 0)
  · rw [if_pos hz] at h
    cases h
  rw [if_neg hz] at h
  cases h
  have hr : (if (exactSMachine qr).negative ((exactSMachine qr).add
        ((exactSMachine qr).square (x.1 k k)) ((exactSMachine qr).mul sign
          ((exactSMachine qr).square (x.2 k)))) = true then (exactSMachine qr).zero
      else (exactSMachine qr).sqrt ((exactSMachine qr).add
        ((exactSMachine qr).square (x.1 k k)) ((exactSMachine qr).mul sign
          ((exactSMachine qr).square (x.2 k))))) = cholupdateR sign (x.1 k k) (x.2 k) := by
    unfold cholupdateR
    by_cases hn : x.1 k k ^ 2 + sign * x.2 k ^ 2 < 0
    · rw [if_pos (show (exactSMachine qr).negative _ = true from decide_eq_true hn)]
      simp only [hn, if_true]
      show (0 : ℝ) = 0.0
      norm_num
    · rw [if_neg (show ¬ (exactSMachine qr).negative _ = true from
        fun h => hn (of_decide_eq_true h))]
      simp only [hn, if_false]
  unfold SMachine.cholupdateStep
  have e1 : (mv qr x).1 k k = x.1 k k := rfl
  have e2 : (mv qr x).2 k = x.2 k := rfl
  simp only [e1, e2, hr]
  refine Prod.ext ?_ rfl
  funext i
  by_cases hi : i = k
  · subst hi
    simp only [if_true, mv, mx, vx, updateRow_self]
  · simp only [hi, if_false, mv, mx, updateRow_ne hi]

theorem foldlM_ok {α β γ : Type} {f : α → γ → Res α} {g : β → γ → β} {φ : α → β}
    (h : ∀ a c b, f a c = .ok b → g (φ a) c = φ b) (l : List γ) (a b : α)
    (hl : l.foldlM f a = .ok b) : l.foldl g (φ a) = φ b := by
  induction l generalizing a with
  | nil => cases hl; rfl
  | cons c l ih =>
    rw [List.foldlM_cons] at hl
    obtain ⟨a', ha, hl⟩ := ok_bind_iff.mp hl
    rw [List.foldl_cons, h a c a' ha]
    exact ih a' hl

theorem cholupdate_ok {v : ℕ} {A2 B : Mat n n} {X : Mat v n} {weight : ℝ}
    (h : cholupdate A2 X weight = .ok B) :
    SMachine.cholupdate (M := exactSMachine qr) (mx qr A2) (mx qr X) weight = mx qr B := by
  unfold cholupdate at h
  unfold SMachine.cholupdate
  refine foldlM_ok (φ := mx qr) (fun A i B hB => ?_) _ _ _ h
  unfold cholupdateVec at hB
  obtain ⟨st, hst, hB⟩ := ok_bind_iff.mp hB
  cases hB
  exact congrArg Prod.fst (foldlM_ok (φ := mv qr) (fun _ _ _ => cholupdateStep_ok qr) _
    (A, (Real.sqrt |weight| • X) i) _ hst)

theorem qrSquare_eq {L : ℕ} (X : Mat N L) :
    SMachine.qrSquare (mx qr X) = (qrSquare qr X).map (mx qr) := by
  unfold SMachine.qrSquare qrSquare
  split_ifs <;> rfl

theorem sqPoints2moments_eq (s : SigmaPoints N k) (noise : Option (Mat k k)) :
    SMachine.sqPoints2moments (pts qr s) (noise.map (mx qr))
      = (sqPoints2moments qr s noise).map (mom qr) := by
  unfold SMachine.sqPoints2moments sqPoints2moments
  cases noise with
  | none =>
    have h := qrSquare_eq qr (qrPoints s ((Matrix.of s.points)ᵀ *ᵥ s.wm))ᵀ
    simp only [Option.map_none]
    erw [h]
    cases qrSquare qr (qrPoints s ((Matrix.of s.points)ᵀ *ᵥ s.wm))ᵀ <;> rfl
  | some S =>
    have h := qrSquare_eq qr (hstack (qrPoints s ((Matrix.of s.points)ᵀ *ᵥ s.wm)) S)ᵀ
    have h' := hstack_eq qr (qrPoints s ((Matrix.of s.points)ᵀ *ᵥ s.wm)) S
    simp only [Option.map_some]
    erw [h']
    erw [h]
    cases qrSquare qr (hstack (qrPoints s ((Matrix.of s.points)ᵀ *ᵥ s.wm)) S)ᵀ <;> rfl

theorem sqMoments2points_eq (x : Moments n) :
    SMachine.sqMoments2points (mom qr x) = pts qr (sqMoments2points x) := by
  have h1 : (1.0 : ℝ) = 1 := by norm_num
  have h0 : (0.0 : ℝ) = 0 := by norm_num
  simp only [SMachine.sqMoments2points, sqMoments2points, pts, ExactU.pts, sigmaPoints, sigmaRows,
    Option.getD_none, h1, h0, Machine.tr, transpose_apply, mom, ExactU.mom, ExactU.mx, ExactU.vx]

theorem through_eq (s : SigmaPoints N k) (f : Vec k → Vec l) :
    (pts qr s).through (fx qr f) = .ok (pts qr (s.map f)) := ExactU.through_eq s f

theorem sqUnscentedCorrect_ok {cross : Mat n m} {pred : Moments n} {obs : Moments m} {o : Obs m}
    {y : Moments n} (h : sqUnscentedCorrect cross pred obs o = .ok y) :
    SMachine.sqUnscentedCorrect (mx qr cross) (mom qr pred) (mom qr obs) (row qr o)
      = .ok (mom qr y) := by
  unfold sqUnscentedCorrect at h
  unfold SMachine.sqUnscentedCorrect
  by_cases hm : o.missing
  · have hm' : (row qr o).missing := hm
    rw [if_neg (not_not.mpr hm)] at h
    rw [if_neg (not_not.mpr hm')]
    cases h
    rfl
  · have hm' : ¬ (row qr o).missing := hm
    rw [if_pos hm] at h
    rw [if_pos hm']
    obtain ⟨B, hB, h⟩ := ok_bind_iff.mp h
    cases h
    have := cholupdate_ok qr hB
    exact congrArg (fun B => (Except.ok ⟨_, B⟩ : Res ((exactSMachine qr).Mom n))) this

theorem sqCorrect_ok {g : Vec n → Vec m} {pred : Moments n} {s : SigmaPoints N n} {o : Obs m}
    {R2 : Mat m m} {y : Moments n} (h : sqCorrect qr g pred s o R2 = .ok y) :
    SMachine.sqCorrect (fx qr g) (mom qr pred) (pts qr s) (row qr o) (mx qr R2)
      = .ok (mom qr y) := by
  unfold sqCorrect at h
  obtain ⟨obs, hobs, h⟩ := ok_bind_iff.mp h
  unfold SMachine.sqCorrect
  have e := sqPoints2moments_eq qr (s.map g) (some R2)
  rw [hobs] at e
  rw [through_eq]
  simp only [Bind.bind, Except.bind]
  erw [e]
  exact sqUnscentedCorrect_ok qr h

theorem sqStep_ok {p : UParams n m} {Q2 : Mat n n} {R2 : Mat m m} {t : ℕ}
    {prev : Option (Moments n)} {o : Obs m} {y : Moments n}
    (h : sqStep qr p Q2 R2 t prev o = .ok y) :
    SMachine.sqStep (upar qr p) (mx qr Q2) (mx qr R2) t (prev.map (mom qr)) (row qr o)
      = .ok (mom qr y) := by
  cases prev with
  | none =>
    unfold sqStep at h
    obtain ⟨S2, hS, h⟩ := ok_bind_iff.mp h
    obtain ⟨pred, hpred, h⟩ := ok_bind_iff.mp h
    obtain ⟨g, hg, h⟩ := ok_bind_iff.mp h
    have e1 := cholUpper_eq qr p.S0
    rw [hS] at e1
    have e2 := sqPoints2moments_eq qr (sqMoments2points ⟨p.mu0, S2⟩) none
    rw [hpred] at e2
    have e3 : (upar qr p).g.at t = .ok (fx qr g) := by
      refine (UMachine.okFns_at ExactU.fx p.g t).trans ?_
      rw [hg]
      rfl
    show ((exactSMachine qr).chol n (upar qr p).S0 >>= fun S2 => _) = _
    rw [show (exactSMachine qr).chol n (upar qr p).S0 = .ok (mx qr S2) from e1]
    simp only [Bind.bind, Except.bind]
    rw [show (⟨(upar qr p).mu0, mx qr S2⟩ : (exactSMachine qr).Mom n) = mom qr ⟨p.mu0, S2⟩ from rfl,
      sqMoments2points_eq]
    rw [show SMachine.sqPoints2moments (pts qr (sqMoments2points ⟨p.mu0, S2⟩)) none
      = .ok (mom qr pred) from e2]
    simp only [e3]
    exact sqCorrect_ok qr h
  | some x =>
    unfold sqStep at h
    obtain ⟨f, hf, h⟩ := ok_bind_iff.mp h
    obtain ⟨pred, hpred, h⟩ := ok_bind_iff.mp h
    obtain ⟨g, hg, h⟩ := ok_bind_iff.mp h
    have e2 := sqPoints2moments_eq qr ((sqMoments2points x).map f) (some Q2)
    rw [hpred] at e2
    have e0 : (upar qr p).f.at (t - 1) = .ok (fx qr f) := by
      refine (UMachine.okFns_at ExactU.fx p.f (t - 1)).trans ?_
      rw [hf]
      rfl
    have e3 : (upar qr p).g.at t = .ok (fx qr g) := by
      refine (UMachine.okFns_at ExactU.fx p.g t).trans ?_
      rw [hg]
      rfl
    unfold SMachine.sqStep
    simp only [Option.map_some, sqMoments2points_eq, e0, Bind.bind, Except.bind, through_eq]
    rw [show SMachine.sqPoints2moments (pts qr ((sqMoments2points x).map f)) (some (mx qr Q2))
      = .ok (mom qr pred) from e2]
    simp only [e3, sqMoments2points_eq]
    exact sqCorrect_ok qr h

theorem run_ok {σ τ ο : Type} {step : ℕ → Option σ → Obs m → Res σ}
    {step' : ℕ → Option τ → ο → Res τ} {φ : σ → τ} {ψ : Obs m → ο}
    (h : ∀ t prev o s, step t prev o = .ok s → step' t (prev.map φ) (ψ o) = .ok (φ s))
    (os : List (Obs m)) (t : ℕ) (prev : Option σ) (l : List σ) (hl : runLoop step t prev os = .ok l) :
    UMachine.run step' t (prev.map φ) (os.map ψ) = .ok (l.map φ) := by
  induction os generalizing t prev l with
  | nil => cases hl; rfl
  | cons o os ih =>
    rw [runLoop] at hl
    obtain ⟨s, hs, hl⟩ := ok_bind_iff.mp hl
    obtain ⟨r, hr, hl⟩ := ok_bind_iff.mp hl
    cases hl
    rw [List.map_cons, UMachine.run, h t prev o s hs]
    have := ih (t + 1) (some s) r hr
    rw [Option.map_some] at this
    simp only [Bind.bind, Except.bind, this]
    rfl

theorem backFull_ok {σ τ : Type} {step : ℕ → σ → σ → Res σ} {step' : ℕ → τ → τ → Res τ} {φ : σ → τ}
    (h : ∀ t x y z, step t x y = .ok z → step' t (φ x) (φ y) = .ok (φ z)) (l l' : List σ)
    (hl : backFull step l = .ok l') : backFull step' (l.map φ) = .ok (l'.map φ) := by
  have key : ∀ (rest : List σ) (t : ℕ) (s : σ) r, backLoop step t s rest = .ok r →
      backLoop step' t (φ s) (rest.map φ) = .ok (φ r.1, r.2.map φ) := by
    intro rest
    induction rest with
    | nil => intro t s r hr; cases hr; rfl
    | cons a rest ih =>
      intro t s r hr
      rw [backLoop] at hr
      obtain ⟨q, hq, hr⟩ := ok_bind_iff.mp hr
      obtain ⟨z, hz, hr⟩ := ok_bind_iff.mp hr
      cases hr
      rw [List.map_cons, backLoop, ih _ _ _ hq]
      simp only [Bind.bind, Except.bind, h _ _ _ _ hz]
      rfl
  cases l with
  | nil => cases hl
  | cons s rest =>
    rw [backFull] at hl
    obtain ⟨r, hr, hl⟩ := ok_bind_iff.mp hl
    cases hl
    rw [List.map_cons, backFull, key _ _ _ _ hr]
    rfl

theorem sqFull_ok {p : UParams n m} {os : List (Obs m)} {l : List (Moments n)}
    (h : sqFull qr p os = .ok l) :
    SMachine.sqFull (upar qr p) (os.map (row qr)) = .ok (l.map (mom qr)) := by
  unfold sqFull at h
  obtain ⟨Q2, hQ, h⟩ := ok_bind_iff.mp h
  obtain ⟨R2, hR, h⟩ := ok_bind_iff.mp h
  have eQ := cholUpper_eq qr p.Q
  have eR := cholUpper_eq qr p.R
  rw [hQ] at eQ
  rw [hR] at eR
  unfold SMachine.sqFull
  rw [show (exactSMachine qr).chol n (upar qr p).Q = .ok (mx qr Q2) from eQ,
    show (exactSMachine qr).chol m (upar qr p).R = .ok (mx qr R2) from eR]
  exact run_ok (φ := mom qr) (ψ := row qr) (fun t prev o s hs => sqStep_ok qr hs) os 0 none l h

theorem sqFilter_ok {p : UParams n m} {os : List (Obs m)} {out : List (Moments n)}
    (h : sqFilter qr p os = .ok out) :
    SMachine.sqFilter (upar qr p) (os.map (row qr)) = .ok (out.map (mom qr)) := by
  obtain ⟨l, hl, h⟩ := ok_bind_iff.mp h
  cases h
  rw [SMachine.sqFilter, sqFull_ok qr hl]
  simp only [Bind.bind, Except.bind, Pure.pure, Except.pure, List.map_map]
  rfl

theorem sqSmoothStep_ok {p : UParams n m} {Q2 : Mat n n} {t : ℕ} {s next y : Moments n}
    (h : sqSmoothStep qr p Q2 t s next = .ok y) :
    SMachine.sqSmoothStep (upar qr p) (mx qr Q2) t (mom qr s) (mom qr next) = .ok (mom qr y) := by
  unfold sqSmoothStep at h
  obtain ⟨f, hf, h⟩ := ok_bind_iff.mp h
  obtain ⟨pred, hpred, h⟩ := ok_bind_iff.mp h
  obtain ⟨U, hU, h⟩ := ok_bind_iff.mp h
  obtain ⟨B, hB, h⟩ := ok_bind_iff.mp h
  cases h
  have e2 := sqPoints2moments_eq qr ((sqMoments2points s).map f) (some Q2)
  rw [hpred] at e2
  have e0 : (upar qr p).f.at t = .ok (fx qr f) := by
    refine (UMachine.okFns_at ExactU.fx p.f t).trans ?_
    rw [hf]
    rfl
  have eU := cholupdate_ok qr hU
  have eB := cholupdate_ok qr hB
  unfold SMachine.sqSmoothStep
  simp only [sqMoments2points_eq, e0, Bind.bind, Except.bind, through_eq]
  rw [show SMachine.sqPoints2moments (pts qr ((sqMoments2points s).map f)) (some (mx qr Q2))
    = .ok (mom qr pred) from e2]
  simp only
  rw [show SMachine.cholupdate (mom qr pred).cov (mom qr next).cov (exactSMachine qr).minusOne
    = mx qr U from eU]
  exact congrArg (fun B => (Except.ok ⟨_, B⟩ : Res ((exactSMachine qr).Mom n))) eB

theorem sqSmooth_ok {p : UParams n m} {os : List (Obs m)} {out : List (Moments n)}
    (h : sqSmooth qr p os = .ok out) :
    SMachine.sqSmooth (upar qr p) (os.map (row qr)) = .ok (out.map (mom qr)) := by
  obtain ⟨l, hl, h⟩ := ok_bind_iff.mp h
  obtain ⟨l', hl', h⟩ := ok_bind_iff.mp h
  cases h
  obtain ⟨Q2, hQ, hl'⟩ := ok_bind_iff.mp hl'
  have eQ := cholUpper_eq qr p.Q
  rw [hQ] at eQ
  rw [SMachine.sqSmooth, sqFull_ok qr hl]
  show ((exactSMachine qr).chol n (upar qr p).Q >>= fun Q2 => _) = _
  rw [show (exactSMachine qr).chol n (upar qr p).Q = .ok (mx qr Q2) from eQ]
  simp only [Bind.bind, Except.bind]
  rw [backFull_ok (φ := mom qr) (fun t x y z hz => sqSmoothStep_ok qr hz) l l' hl']
  simp only [Pure.pure, Except.pure, List.map_map]
  rfl

theorem sqUpdate_ok {p : UParams n m} {x : Moments n} {o : Option (Obs m)} {a : UUpdateArgs n m}
    {y : Moments n} (h : sqUpdate qr p x o a = .ok y) :
    SMachine.sqUpdate (upar qr p) (mom qr x) (o.map (row qr)) (uargs qr a) = .ok (mom qr y) := by
  unfold sqUpdate at h
  obtain ⟨f, hf, h⟩ := ok_bind_iff.mp h
  obtain ⟨g, hg, h⟩ := ok_bind_iff.mp h
  obtain ⟨P2, hP, h⟩ := ok_bind_iff.mp h
  obtain ⟨Q2, hQ, h⟩ := ok_bind_iff.mp h
  obtain ⟨R2, hR, h⟩ := ok_bind_iff.mp h
  obtain ⟨pred, hpred, h⟩ := ok_bind_iff.mp h
  obtain ⟨r, hr, h⟩ := ok_bind_iff.mp h
  cases h
  have eP := cholUpper_eq qr x.cov
  have eQ := cholUpper_eq qr (a.Q.getD p.Q)
  have eR := cholUpper_eq qr (a.R.getD p.R)
  rw [hP] at eP
  rw [hQ] at eQ
  rw [hR] at eR
  have ef := UMachine.okFns_default ExactU.fx a.f p.f
  have eg := UMachine.okFns_default ExactU.fx a.g p.g
  rw [hf] at ef
  rw [hg] at eg
  have e2 := sqPoints2moments_eq qr ((sqMoments2points ⟨x.mean, P2⟩).map f) (some Q2)
  rw [hpred] at e2
  unfold SMachine.sqUpdate
  rw [show defaultFunction (uargs qr a).f (upar qr p).f = .ok (fx qr f) from ef,
    show defaultFunction (uargs qr a).g (upar qr p).g = .ok (fx qr g) from eg,
    show (exactSMachine qr).chol n (mom qr x).cov = .ok (mx qr P2) from eP,
    show (uargs qr a).Q.getD (upar qr p).Q = mx qr (a.Q.getD p.Q) from ExactU.getD_mx _ _,
    show (uargs qr a).R.getD (upar qr p).R = mx qr (a.R.getD p.R) from ExactU.getD_mx _ _,
    show (exactSMachine qr).chol n (mx qr (a.Q.getD p.Q)) = .ok (mx qr Q2) from eQ,
    show (exactSMachine qr).chol m (mx qr (a.R.getD p.R)) = .ok (mx qr R2) from eR, observed_eq]
  simp only [Bind.bind, Except.bind]
  rw [show (⟨(mom qr x).mean, mx qr P2⟩ : (exactSMachine qr).Mom n) = mom qr ⟨x.mean, P2⟩ from rfl]
  simp only [sqMoments2points_eq, through_eq]
  rw [show SMachine.sqPoints2moments (pts qr ((sqMoments2points ⟨x.mean, P2⟩).map f))
    (some (mx qr Q2)) = .ok (mom qr pred) from e2]
  simp only [sqMoments2points_eq]
  cases o with
  | none =>
    have := sqCorrect_ok qr hr
    simp only at this
    rw [this]
    rfl
  | some o =>
    have := sqCorrect_ok qr hr
    simp only at this
    rw [this]
    rfl

end ExactS

end Verif
