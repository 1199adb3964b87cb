import Verif.Model.UpdateShape
import Verif.Props.Cholesky
import Verif.Props.Bierman
import Verif.Props.SqrtUnscented
import Verif.Props.Runs
import Verif.Props.Sample
import Verif.Proofs.UnscentedTransform

/-!
# C44: what `filter_update` of the square-root classes returns, as an array
-/

open Matrix

namespace Verif

variable {n m : ℕ}

theorem asMat_ofMat (M : Mat n n) : (NDArray.ofMat M).asMat n = M := by
  ext i j
  simp [NDArray.asMat, NDArray.ofMat, arr2]

theorem reconstructArr_shape (M : Mat n n) : (reconstructArr (.ofMat M)).shape = [1, n, n] := rfl

theorem reconstructArrU_shape (M : Mat n n) : (reconstructArrU (.ofMat M)).shape = [1, n, n] := rfl

theorem reconstructArr_stored (M : Mat n n) :
    (reconstructArr (.ofMat M)).stored.shape = [n, n] ∧
      (reconstructArr (.ofMat M)).stored.asMat n = reconstruct M := by
  refine ⟨rfl, ?_⟩
  ext i j
  show ∑ l ∈ Finset.range n, arr2 M i l * arr2 M j l = _
  rw [reconstruct, Matrix.mul_apply, Finset.sum_range]
  simp [arr2]

theorem reconstructArrU_stored (M : Mat n n) :
    (reconstructArrU (.ofMat M)).stored.shape = [n, n] ∧
      (reconstructArrU (.ofMat M)).stored.asMat n = reconstructU M := by
  refine ⟨rfl, ?_⟩
  ext i j
  show ∑ l ∈ Finset.range n, arr2 M l i * arr2 M l j = _
  rw [reconstructU, Matrix.mul_apply, Finset.sum_range]
  simp [arr2]

theorem reconstructArrB_stored (c : UDU n) :
    (reconstructArrB c).stored.shape = [n, n] ∧
      (reconstructArrB c).stored.asMat n = c.reconstruct := by
  refine ⟨rfl, ?_⟩
  ext i j
  simp [NDArray.asMat, NDArray.stored, reconstructArrB, arr2]

/-- The result of an update: a mean, and an array that holds the covariance behind a leading axis of
length one, entry by entry; after storing the array, the covariance itself. -/
def Boxed (r : Vec n × NDArray) (q : Vec n × Mat n n) : Prop :=
  r.1 = q.1 ∧ r.2.shape = [1, n, n] ∧ r.2.stored.shape = [n, n] ∧ r.2.stored.asMat n = q.2 ∧
    ∀ i j : Fin n, r.2.data [0, i, j] = q.2 i j

theorem cholUpdateArr_of {qr : QR} {p : Params n m} {mean : Vec n} {cov : NDArray}
    (hc : cov.shape = [n, n]) (o : Option (Obs m)) (a : UpdateArgs n m) :
    (∀ e, cholUpdateArr qr p mean cov o a = .error e ↔
      cholUpdate qr p mean (cov.asMat n) o a = .error e) ∧
    ∀ r, cholUpdateArr qr p mean cov o a = .ok r → ∃ q,
      cholUpdate qr p mean (cov.asMat n) o a = .ok q ∧ Boxed r (q.1, q.2 0) := by
  simp only [cholUpdateArr, cholUpdate, choleskyArr, if_pos hc]
  cases argOrDefault a.b p.b with
  | error e => simp [bind, Except.bind]
  | ok b =>
  cases argOrDefault a.d p.d with
  | error e => simp [bind, Except.bind]
  | ok d =>
  cases argOrDefault a.A p.A with
  | error e => simp [bind, Except.bind]
  | ok A =>
  cases argOrDefault a.C p.C with
  | error e => simp [bind, Except.bind]
  | ok C =>
  cases argOrDefault a.Q p.Q with
  | error e => simp [bind, Except.bind]
  | ok Q =>
  cases argOrDefault a.R p.R with
  | error e => simp [bind, Except.bind]
  | ok R =>
  simp only [bind, Except.bind, if_true]
  cases cholesky Q with
  | error e => simp
  | ok Q2 =>
  cases cholesky R with
  | error e => simp
  | ok R2 =>
  cases cholesky (cov.asMat n) with
  | error e => simp
  | ok S2 =>
  refine ⟨fun e => ?_, fun r hr => ⟨_, rfl, ?_⟩⟩
  · constructor <;> intro h <;> cases h
  cases hr
  have hs := reconstructArr_stored (n := n)
  exact ⟨rfl, rfl, (hs _).1, (hs _).2, fun i j => congrFun (congrFun (hs _).2 i) j⟩

theorem bierUpdateArr_of {store : ℝ → ℝ} {p : Params n m} {mean : Vec n} {cov : NDArray}
    (hc : cov.shape = [n, n]) (o : Option (Obs m)) (a : UpdateArgs n m) :
    (∀ e, bierUpdateArr store p mean cov o a = .error e ↔
      bierUpdate store p mean (cov.asMat n) o a = .error e) ∧
    ∀ r, bierUpdateArr store p mean cov o a = .ok r → ∃ q,
      bierUpdate store p mean (cov.asMat n) o a = .ok q ∧ Boxed r (q.1, q.2 0) := by
  simp only [bierUpdateArr, bierUpdate, uduArr, if_pos hc]
  cases argOrDefault a.b p.b with
  | error e => simp [bind, Except.bind]
  | ok b =>
  cases argOrDefault a.d p.d with
  | error e => simp [bind, Except.bind]
  | ok d =>
  cases argOrDefault a.A p.A with
  | error e => simp [bind, Except.bind]
  | ok A =>
  cases argOrDefault a.C p.C with
  | error e => simp [bind, Except.bind]
  | ok C =>
  cases argOrDefault a.Q p.Q with
  | error e => simp [bind, Except.bind]
  | ok Q =>
  cases argOrDefault a.R p.R with
  | error e => simp [bind, Except.bind]
  | ok R =>
  simp only [bind, Except.bind]
  cases udu store (cov.asMat n) with
  | error e => simp
  | ok S =>
  cases cholesky R with
  | error e => simp
  | ok R2 =>
  cases hp : bierPredict A Q b mean S with
  | error e => simp [hp]
  | ok pred =>
  simp only [hp]
  refine ⟨fun e => ?_, fun r hr => ⟨_, rfl, ?_⟩⟩
  · constructor <;> intro h <;> cases h
  cases hr
  have hs := reconstructArrB_stored (n := n)
  exact ⟨rfl, rfl, (hs _).1, (hs _).2, fun i j => congrFun (congrFun (hs _).2 i) j⟩

/-- **C44 (finding).** Whatever the inputs, the covariance that `filter_update` of the Cholesky,
Bierman and square-root unscented classes returns has the shape `(1, n, n)`, not `(n, n)` as
documented. -/
theorem C44_fails_shape (qr : QR) (store : ℝ → ℝ) (mean : Vec n) (cov : NDArray)
    (o : Option (Obs m)) (r : Vec n × NDArray) :
    (∀ (p : Params n m) a, cholUpdateArr qr p mean cov o a = .ok r →
      r.2.shape = [1, n, n] ∧ r.2.shape ≠ [n, n]) ∧
    (∀ (p : Params n m) a, bierUpdateArr store p mean cov o a = .ok r →
      r.2.shape = [1, n, n] ∧ r.2.shape ≠ [n, n]) ∧
    ∀ (p : UParams n m) a, sqUpdateArr qr p mean cov o a = .ok r →
      r.2.shape = [1, n, n] ∧ r.2.shape ≠ [n, n] := by
  have ne : ∀ s : List ℕ, s = [1, n, n] → s = [1, n, n] ∧ s ≠ [n, n] := by
    rintro s rfl
    exact ⟨rfl, by simp⟩
  refine ⟨fun p a h => ne _ ?_, fun p a h => ne _ ?_, fun p a h => ne _ ?_⟩
  · simp only [cholUpdateArr] at h
    repeat (obtain ⟨_, _, h⟩ := ok_bind_iff.mp h)
    cases h
    rfl
  · simp only [bierUpdateArr] at h
    repeat (obtain ⟨_, _, h⟩ := ok_bind_iff.mp h)
    cases h
    rfl
  · simp only [sqUpdateArr] at h
    repeat (obtain ⟨_, _, h⟩ := ok_bind_iff.mp h)
    cases h
    rfl

/-- **C44 (finding).** Such an array cannot be passed on as it is: the next `filter_update` of the
Cholesky and square-root unscented classes fails whatever its other arguments, and so does that of
the Bierman class from two state dimensions on. -/
theorem C44_fails_fed_back (qr : QR) (store : ℝ → ℝ) (mean : Vec n) {cov : NDArray}
    (hcov : cov.shape = [1, n, n]) (o : Option (Obs m)) (r : Vec n × NDArray) :
    (∀ (p : Params n m) a, cholUpdateArr qr p mean cov o a ≠ .ok r) ∧
    (2 ≤ n → ∀ (p : Params n m) a, bierUpdateArr store p mean cov o a ≠ .ok r) ∧
    ∀ (p : UParams n m) a, sqUpdateArr qr p mean cov o a ≠ .ok r := by
  have hne : ¬ cov.shape = [n, n] := by rw [hcov]; simp
  refine ⟨fun p a h => ?_, fun hn p a h => ?_, fun p a h => ?_⟩
  · simp only [cholUpdateArr, choleskyArr, if_neg hne] at h
    iterate 8 obtain ⟨_, -, h⟩ := ok_bind_iff.mp h
    obtain ⟨_, h0, h⟩ := ok_bind_iff.mp h
    cases h0
  · have hu : ∀ S, uduArr store n cov ≠ .ok S := by
      intro S
      simp only [uduArr, if_neg hne, if_pos hcov]
      split_ifs
      · omega
      · exact fun h => by cases h
      · exact fun h => by cases h
    simp only [bierUpdateArr] at h
    iterate 6 obtain ⟨_, -, h⟩ := ok_bind_iff.mp h
    obtain ⟨S, h0, h⟩ := ok_bind_iff.mp h
    exact hu S h0
  · simp only [sqUpdateArr, choleskyArr, if_neg hne] at h
    obtain ⟨_, -, h⟩ := ok_bind_iff.mp h
    obtain ⟨_, -, h⟩ := ok_bind_iff.mp h
    obtain ⟨_, h0, h⟩ := ok_bind_iff.mp h
    cases h0

/-- **C44 (partial).** What works: storing the returned array in a slot of an array of covariances
(as the project's tests do, the leading axis is dropped) and passing the slot on.  Then one
`filter_update` of the Cholesky and Bierman filters leads from row `t` of `filter` to row `t + 1`.
Missing: passing on the returned array itself, see `C44_fails_fed_back`. -/
theorem C44_stored_partial (qr : QR) (hn : 0 < n) {p : Params n m} (hp : p.PosDef)
    {os : List (Obs m)} {out : List (Vec n × Mat n n)} (h : kfFilter p os = .ok out)
    {t : ℕ} {mean : Vec n} {V : NDArray} (hV : V.shape = [n, n])
    (hrow : out[t]? = some (mean, V.asMat n)) {o : Obs m} (ho : os[t + 1]? = some o)
    (hpd : (V.asMat n).PosDef) {a : UpdateArgs n m}
    (hA : Supplied a.A p.A t) (hb : Supplied a.b p.b t) (hQ : Supplied a.Q p.Q t)
    (hC : Supplied a.C p.C (t + 1)) (hd : Supplied a.d p.d (t + 1))
    (hR : Supplied a.R p.R (t + 1)) :
    ∃ q, out[t + 1]? = some q ∧
      (∃ r, cholUpdateArr qr p mean V (some o) a = .ok r ∧ Boxed r q) ∧
      ∃ r, bierUpdateArr id p mean V (some o) a = .ok r ∧ Boxed r q := by
  obtain ⟨q, hq, hu⟩ := C12_update_is_next_row p os out h t mean _ hrow o ho a hA hb hQ hC hd hR
  obtain ⟨⟨Q, eQ, pQ⟩, ⟨R, eR, pR⟩, -⟩ := hp
  have sup : ∀ {k : ℕ} {x : Option (Mat k k)} {y : TV (Mat k k)} {M X : Mat k k} {t : ℕ},
      Supplied x y t → y = .const M → argOrDefault x y = .ok X → X = M := by
    rintro k x y M X t (⟨b, rfl, hb⟩ | ⟨rfl, -⟩) rfl hX
    · cases hb; cases hX; rfl
    · cases hX; rfl
  have hQ' : ∀ X, argOrDefault a.Q p.Q = .ok X → X.PosDef := fun X hX => by
    rw [sup hQ eQ hX]; exact pQ
  have hR' : ∀ X, argOrDefault a.R p.R = .ok X → X.PosDef := fun X hX => by
    rw [sup hR eR hX]; exact pR
  refine ⟨q, hq, ?_, ?_⟩
  · have e := C29_filter_update_eq qr p mean (some o) a hpd hQ' hR'
    rw [hu] at e
    obtain ⟨h1, h2⟩ := cholUpdateArr_of (qr := qr) (p := p) (mean := mean) hV (some o) a
    cases hr : cholUpdateArr qr p mean V (some o) a with
    | error e' => rw [(h1 e').mp hr] at e; cases e
    | ok r =>
      obtain ⟨q', hq', hb'⟩ := h2 r hr
      rw [e] at hq'
      cases hq'
      exact ⟨r, rfl, hb'⟩
  · have e := C30_filter_update_eq hn p mean (some o) a hpd.posSemidef
      (fun X hX => (hQ' X hX).posSemidef) hR'
    rw [hu] at e
    obtain ⟨h1, h2⟩ := bierUpdateArr_of (store := id) (p := p) (mean := mean) hV (some o) a
    cases hr : bierUpdateArr id p mean V (some o) a with
    | error e' => rw [(h1 e').mp hr] at e; cases e
    | ok r =>
      obtain ⟨q', hq', hb'⟩ := h2 r hr
      rw [e] at hq'
      cases hq'
      exact ⟨r, rfl, hb'⟩

/-- A scalar random walk. -/
def exWalkShape : Params 1 1 :=
  ⟨.const 1, .const 0, .const 1, .const 1, .const 0, .const 1, 0, 1⟩

/-- The hypotheses of the theorems above are met by the random walk: a first update from the slot
with the initial covariance succeeds, and a second one with the array it returns fails. -/
example (qr : QR) : ∃ r : Vec 1 × NDArray,
    cholUpdateArr qr exWalkShape 0 (.ofMat (1 : Mat 1 1)) (some ⟨fun _ => 2, fun _ => false⟩) {} = .ok r ∧
    ∀ o a r', cholUpdateArr qr exWalkShape r.1 r.2 o a ≠ .ok r' := by
  have hp : exWalkShape.PosDef := ⟨⟨1, rfl, PosDef.one⟩, ⟨1, rfl, PosDef.one⟩, PosDef.one⟩
  have hdef : exWalkShape.Covers (padAndMask [(fun _ => 2 : Vec 1)]).length :=
    ⟨trivial, trivial, trivial, trivial, trivial, trivial⟩
  obtain ⟨out, ho⟩ : ∃ out, kfFilter exWalkShape (padAndMask [(fun _ => 2 : Vec 1)]) = .ok out :=
    ⟨_, kfFilter_eq hdef⟩
  have hrow := C50_first_row Nat.one_pos ho
  rw [List.head?_eq_getElem?] at hrow
  obtain ⟨q, -, ⟨r, hr, hb⟩, -⟩ := C44_stored_partial qr Nat.one_pos hp (V := .ofMat exWalkShape.S0)
    (a := {}) ho rfl (by rw [asMat_ofMat]; exact hrow) (o := ⟨fun _ => 2, fun _ => false⟩)
    (by rw [C50_padded]; rfl)
    (by rw [asMat_ofMat]; exact PosDef.one) (Or.inr ⟨rfl, _, rfl⟩) (Or.inr ⟨rfl, _, rfl⟩)
    (Or.inr ⟨rfl, _, rfl⟩) (Or.inr ⟨rfl, _, rfl⟩) (Or.inr ⟨rfl, _, rfl⟩) (Or.inr ⟨rfl, _, rfl⟩)
  exact ⟨r, hr, fun o a r' => (C44_fails_fed_back qr id r.1 hb.2.1 o r').1 exWalkShape a⟩

end Verif
