import Verif.Model.ByteOrder
import Verif.Props.Sample

/-!
# C66: `sample` and covariances that are not stored in native byte order
-/

open Matrix

namespace Verif

variable {n m k l : ℕ} {σ : Type}

/-- The array with the same `dtype` and the bytes of every entry reversed. -/
def DArray.byteswap (a : DArray k l) : DArray k l := ⟨a.order, fun i j q => a.bytes i j q.rev⟩

/-- `f` applied to a constant or to every entry of a sequence. -/
def TV.apply {α β : Type} (f : α → β) : TV α → TV β
  | .const a => .const (f a)
  | .seq l => .seq (l.map f)

/-- All arrays are in native byte order. -/
def TV.Native (host : ByteOrder) (a : TV (DArray k l)) : Prop :=
  ∀ t b, lastDims a t = .ok b → b.order = host

/-- No array is in native byte order. -/
def TV.Foreign (host : ByteOrder) (a : TV (DArray k l)) : Prop :=
  ∀ t b, lastDims a t = .ok b → b.order ≠ host

theorem lastDims_apply {α β : Type} (f : α → β) (a : TV α) (t : ℕ) :
    lastDims (a.apply f) t = (lastDims a t).map f := by
  cases a with
  | const a => rfl
  | seq l =>
    simp only [TV.apply, lastDims, List.getElem?_map]
    cases l[t]? <;> rfl

theorem newbyteorder_native {host : ByteOrder} {a : DArray k l} (h : a.order = host) :
    newbyteorder host a = a := by
  subst h; rfl

theorem newbyteorder_foreign {host : ByteOrder} {a : DArray k l} (h : a.order ≠ host) :
    (newbyteorder host a).val = a.byteswap.val := by
  obtain ⟨o, b⟩ := a
  have e : ∀ i j, wordOf host (b i j) = wordOf o (fun q => b i j q.rev) := by
    intro i j
    cases host <;> cases o <;> simp_all [wordOf]
  simp only [newbyteorder, DArray.byteswap, DArray.val, e]

theorem sampleLoopStored_eq (host : ByteOrder) (rng : Rng σ) (p : Params n m)
    (f : DArray n n → Mat n n) (g : DArray m m → Mat m m) (q : Params n m)
    (hA : p.A = q.A) (hb : p.b = q.b) (hC : p.C = q.C) (hd : p.d = q.d) (k : ℕ) :
    ∀ t (Q : TV (DArray n n)) (R : TV (DArray m m)) x s,
      (∀ t a, lastDims Q t = .ok a → (newbyteorder host a).val = f a) →
      (∀ t a, lastDims R t = .ok a → (newbyteorder host a).val = g a) →
      sampleLoopStored host rng p k t Q R x s = sampleLoop rng q k t (Q.apply f) (R.apply g) x s := by
  induction k with
  | zero => intros; rfl
  | succ k ih =>
    intro t Q R x s hQ hR
    simp only [sampleLoopStored, sampleLoop, lastDims_apply, ← hA, ← hb, ← hC, ← hd]
    cases lastDims p.A (t - 1) with
    | error e => rfl
    | ok A =>
    cases lastDims p.b (t - 1) with
    | error e => rfl
    | ok b =>
    cases lq : lastDims Q (t - 1) with
    | error e => rfl
    | ok Qt =>
    cases lastDims p.C t with
    | error e => rfl
    | ok C =>
    cases lastDims p.d t with
    | error e => rfl
    | ok d =>
    cases lr : lastDims R t with
    | error e => rfl
    | ok Rt =>
      simp only [bind, Except.bind, Except.map, rebind, hQ _ _ lq, hR _ _ lr]
      rw [ih (t + 1) (.const Qt) (.const Rt) _ _ (fun t' a ha => by cases ha; exact hQ _ _ lq)
        (fun t' a ha => by cases ha; exact hR _ _ lr)]
      rfl

theorem kfSampleStored_eq (host : ByteOrder) (rng : Rng σ) (p : Params n m) (Q : TV (DArray n n))
    (R : TV (DArray m m)) (f : DArray n n → Mat n n) (g : DArray m m → Mat m m)
    (hQ : ∀ t a, lastDims Q t = .ok a → (newbyteorder host a).val = f a)
    (hR : ∀ t a, lastDims R t = .ok a → (newbyteorder host a).val = g a) (T : ℕ)
    (initial : Option (Vec n)) (s : σ) :
    kfSampleStored host rng p Q R T initial s
      = kfSample rng { p with Q := Q.apply f, R := R.apply g } T initial s := by
  cases T with
  | zero => rfl
  | succ T =>
    simp only [kfSampleStored, kfSample, lastDims_apply]
    cases lastDims p.C 0 with
    | error e => rfl
    | ok C =>
    cases lastDims p.d 0 with
    | error e => rfl
    | ok d =>
    cases lr : lastDims R 0 with
    | error e => rfl
    | ok Rt =>
      simp only [bind, Except.bind, Except.map, rebind, hR _ _ lr]
      rw [sampleLoopStored_eq host rng p f g { p with Q := Q.apply f, R := R.apply g }
        rfl rfl rfl rfl T 1 Q (.const Rt) _ _ hQ (fun t' a ha => by cases ha; exact hR _ _ lr)]
      rfl

theorem ukfSampleLoopStored_eq (host : ByteOrder) (rng : Rng σ) (p : GParams n m)
    (Q : DArray n n) (R : DArray m m) (k : ℕ) : ∀ t x s,
    ukfSampleLoopStored host rng p Q R k t x s
      = ukfSampleLoop rng { p with Q := (newbyteorder host Q).val, R := (newbyteorder host R).val }
          k t x s := by
  induction k with
  | zero => intros; rfl
  | succ k ih => intro t x s; simp only [ukfSampleLoopStored, ukfSampleLoop, ih]

theorem ukfSampleStored_eq (host : ByteOrder) (rng : Rng σ) (p : GParams n m)
    (Q : DArray n n) (R : DArray m m) (T : ℕ) (initial : Option (Vec n)) (s : σ) :
    ukfSampleStored host rng p Q R T initial s
      = ukfSample rng { p with Q := (newbyteorder host Q).val, R := (newbyteorder host R).val }
          T initial s := by
  cases T with
  | zero => rfl
  | succ T => cases initial <;> simp only [ukfSampleStored, ukfSample, ukfSampleLoopStored_eq] <;> rfl

theorem aukfSampleLoopStored_eq (host : ByteOrder) (rng : Rng σ) (p : UParams n m)
    (Q : DArray n n) (R : DArray m m) (k : ℕ) : ∀ t x s,
    aukfSampleLoopStored host rng p Q R k t x s
      = aukfSampleLoop rng { p with Q := (newbyteorder host Q).val, R := (newbyteorder host R).val }
          k t x s := by
  induction k with
  | zero => intros; rfl
  | succ k ih => intro t x s; simp only [aukfSampleLoopStored, aukfSampleLoop, ih]

theorem aukfSampleStored_eq (host : ByteOrder) (rng : Rng σ) (p : UParams n m)
    (Q : DArray n n) (R : DArray m m) (T : ℕ) (initial : Option (Vec n)) (s : σ) :
    aukfSampleStored host rng p Q R T initial s
      = aukfSample rng { p with Q := (newbyteorder host Q).val, R := (newbyteorder host R).val }
          T initial s := by
  cases T with
  | zero => rfl
  | succ T => cases initial <;> simp only [aukfSampleStored, aukfSample, aukfSampleLoopStored_eq] <;> rfl

/-- **C66 (partial).** If the covariances are stored in native byte order, `KalmanFilter.sample` draws
its noise with the numbers in these arrays.  Missing: other byte orders, where the claim is false. -/
theorem C66_native_partial (host : ByteOrder) (rng : Rng σ) {p : Params n m} {T : ℕ}
    (hdef : p.DefinedFor T) {Q : DArray n n} {R : DArray m m} (hQ : Q.order = host)
    (hR : R.order = host) (initial : Option (Vec n)) (s : σ) :
    ∃ (X : ℕ → Vec n) (Z : ℕ → Vec m),
      kfSampleStored host rng p (.const Q) (.const R) T initial s
        = .ok ((List.range T).map fun t => (X t, Z t)) ∧
      X 0 = (firstDraw rng p.mu0 p.S0 initial s).1 ∧
      (∀ t, t + 1 < T → ∀ A b, lastDims p.A t = .ok A → lastDims p.b t = .ok b →
        X (t + 1) = A *ᵥ X t + b + transDraw rng (fun _ => Q.val) (fun _ => R.val)
          (firstDraw rng p.mu0 p.S0 initial s).2 t) ∧
      (∀ t, t < T → ∀ C d, lastDims p.C t = .ok C → lastDims p.d t = .ok d →
        Z t = C *ᵥ X t + d + obsDraw rng (fun _ => Q.val) (fun _ => R.val)
          (firstDraw rng p.mu0 p.S0 initial s).2 t) := by
  have hc := definedFor_iff_covers.mp hdef
  have hdef' : ({ p with Q := .const Q.val, R := .const R.val } : Params n m).DefinedFor T :=
    definedFor_iff_covers.mpr ⟨hc.A, hc.b, trivial, hc.C, hc.d, trivial⟩
  have := C42_state_equations rng hdef' (Q := Q.val) (R := R.val) rfl rfl initial s
  rw [kfSampleStored_eq host rng p (.const Q) (.const R) DArray.val DArray.val
    (fun t a ha => by cases ha; rw [newbyteorder_native hQ])
    (fun t a ha => by cases ha; rw [newbyteorder_native hR])]
  exact this

/-- **C66 (partial).** In native byte order, also time-varying covariances and both unscented classes
work with the numbers in the arrays (for the former see C43). -/
theorem C66_native_all_partial (host : ByteOrder) (rng : Rng σ) (T : ℕ) (initial : Option (Vec n))
    (s : σ) :
    (∀ (p : Params n m) (Q : TV (DArray n n)) (R : TV (DArray m m)), Q.Native host → R.Native host →
      kfSampleStored host rng p Q R T initial s
        = kfSample rng { p with Q := Q.apply DArray.val, R := R.apply DArray.val } T initial s) ∧
    (∀ (p : GParams n m) (Q : DArray n n) (R : DArray m m), Q.order = host → R.order = host →
      ukfSampleStored host rng p Q R T initial s
        = ukfSample rng { p with Q := Q.val, R := R.val } T initial s) ∧
    (∀ (p : UParams n m) (Q : DArray n n) (R : DArray m m), Q.order = host → R.order = host →
      aukfSampleStored host rng p Q R T initial s
        = aukfSample rng { p with Q := Q.val, R := R.val } T initial s) := by
  refine ⟨fun p Q R hQ hR => kfSampleStored_eq host rng p Q R _ _
    (fun t a ha => by rw [newbyteorder_native (hQ t a ha)])
    (fun t a ha => by rw [newbyteorder_native (hR t a ha)]) T initial s,
    fun p Q R hQ hR => ?_, fun p Q R hQ hR => ?_⟩
  · rw [ukfSampleStored_eq, newbyteorder_native hQ, newbyteorder_native hR]
  · rw [aukfSampleStored_eq, newbyteorder_native hQ, newbyteorder_native hR]

/-- **C66 (finding).** If the covariances are not stored in native byte order, the noise is drawn with
the numbers one gets by reversing the bytes of every entry. -/
theorem C66_foreign_byteswapped (host : ByteOrder) (rng : Rng σ) (T : ℕ) (initial : Option (Vec n))
    (s : σ) :
    (∀ (p : Params n m) (Q : TV (DArray n n)) (R : TV (DArray m m)), Q.Foreign host → R.Foreign host →
      kfSampleStored host rng p Q R T initial s
        = kfSample rng { p with Q := Q.apply fun a => a.byteswap.val,
                                R := R.apply fun a => a.byteswap.val } T initial s) ∧
    (∀ (p : GParams n m) (Q : DArray n n) (R : DArray m m), Q.order ≠ host → R.order ≠ host →
      ukfSampleStored host rng p Q R T initial s
        = ukfSample rng { p with Q := Q.byteswap.val, R := R.byteswap.val } T initial s) ∧
    (∀ (p : UParams n m) (Q : DArray n n) (R : DArray m m), Q.order ≠ host → R.order ≠ host →
      aukfSampleStored host rng p Q R T initial s
        = aukfSample rng { p with Q := Q.byteswap.val, R := R.byteswap.val } T initial s) := by
  refine ⟨fun p Q R hQ hR => kfSampleStored_eq host rng p Q R _ _
    (fun t a ha => newbyteorder_foreign (hQ t a ha))
    (fun t a ha => newbyteorder_foreign (hR t a ha)) T initial s,
    fun p Q R hQ hR => ?_, fun p Q R hQ hR => ?_⟩
  · rw [ukfSampleStored_eq, newbyteorder_foreign hQ, newbyteorder_foreign hR]
  · rw [aukfSampleStored_eq, newbyteorder_foreign hQ, newbyteorder_foreign hR]

/-- The `1 × 1` array `[[1.0]]` with `dtype='>f8'`. -/
def bigOne : DArray 1 1 := ⟨.big, fun _ _ => ![63, 240, 0, 0, 0, 0, 0, 0]⟩

/-- The `1 × 1` array `[[1.0]]` with `dtype='<f8'`. -/
def littleOne : DArray 1 1 := ⟨.little, fun _ _ => ![0, 0, 0, 0, 0, 0, 240, 63]⟩

theorem bigOne_word : wordOf .big (bigOne.bytes 0 0) = 4607182418800017408 := by decide

theorem littleOne_word : wordOf .little (littleOne.bytes 0 0) = 4607182418800017408 := by decide

theorem double_one : double 4607182418800017408 = 1 := by
  simp only [double]
  norm_num
  rw [div_eq_one_iff_eq (by positivity), show (1075 : ℕ) = 52 + 1023 from rfl, pow_add]
  norm_num

theorem bigOne_val : bigOne.val = 1 := by
  ext i j
  have hi : i = 0 := Subsingleton.elim _ _
  have hj : j = 0 := Subsingleton.elim _ _
  subst hi; subst hj
  show double (wordOf .big (bigOne.bytes 0 0)) = _
  rw [bigOne_word, double_one, Matrix.one_apply_eq]

theorem littleOne_val : littleOne.val = 1 := by
  ext i j
  have hi : i = 0 := Subsingleton.elim _ _
  have hj : j = 0 := Subsingleton.elim _ _
  subst hi; subst hj
  show double (wordOf .little (littleOne.bytes 0 0)) = _
  rw [littleOne_word, double_one, Matrix.one_apply_eq]

theorem bigOne_view_word : wordOf .little (bigOne.bytes 0 0) = 61503 := by decide

/-- Read in the wrong order, the number 1 becomes `61503 / 2 ^ 1074`, about `3e-319`. -/
theorem bigOne_view : (newbyteorder .little bigOne).val 0 0 = 61503 / 2 ^ 1074 := by
  show double (wordOf .little (bigOne.bytes 0 0)) = _
  rw [bigOne_view_word]
  simp only [double]
  norm_num

/-- A scalar random walk. -/
noncomputable def exWalk : Params 1 1 :=
  ⟨.const 1, .const 0, .const 1, .const 1, .const 0, .const 1, 0, 1⟩

/-- **C66 (the claim fails).** On a little-endian machine a random walk with transition and observation
covariance 1, stored with `dtype='>f8'`, is not sampled with noise of covariance 1. -/
theorem C66_fails : exWalk.DefinedFor 2 ∧ bigOne.val = 1 ∧
    ¬ ∃ (X Z : ℕ → Vec 1),
      kfSampleStored .little diagRng exWalk (.const bigOne) (.const bigOne) 2 none ()
        = .ok ((List.range 2).map fun t => (X t, Z t)) ∧
      ∀ t, t + 1 < 2 → ∀ A b, lastDims exWalk.A t = .ok A → lastDims exWalk.b t = .ok b →
        X (t + 1) = A *ᵥ X t + b + transDraw diagRng (fun _ => bigOne.val) (fun _ => bigOne.val)
          (firstDraw diagRng exWalk.mu0 exWalk.S0 none ()).2 t := by
  refine ⟨definedFor_iff_covers.mpr ⟨trivial, trivial, trivial, trivial, trivial, trivial⟩,
    bigOne_val, ?_⟩
  rintro ⟨X, Z, h1, h2⟩
  have e1 := congrFun (h2 0 (by norm_num) 1 0 rfl rfl) 0
  have r : List.range 2 = [0, 1] := rfl
  simp [kfSampleStored, sampleLoopStored, exWalk, lastDims, rebind, diagRng, bind, Except.bind, pure,
    Except.pure, r] at h1
  rw [bigOne_val] at e1
  simp [transDraw, diagRng, exWalk] at e1
  obtain ⟨⟨h0, -⟩, h1, -⟩ := h1
  rw [← h0, ← h1] at e1
  simp only [Pi.add_apply, bigOne_view] at e1
  have : (61503 : ℝ) / 2 ^ 1074 < 1 := by
    rw [div_lt_one (by positivity)]
    calc (61503 : ℝ) < 2 ^ 16 := by norm_num
      _ ≤ 2 ^ 1074 := pow_le_pow_right₀ (by norm_num) (by norm_num)
  linarith

/-- The same numbers in native order meet the hypotheses of `C66_native_partial`. -/
example : exWalk.DefinedFor 5 ∧ littleOne.order = .little ∧ littleOne.val = bigOne.val :=
  ⟨definedFor_iff_covers.mpr ⟨trivial, trivial, trivial, trivial, trivial, trivial⟩, rfl,
    by rw [littleOne_val, bigOne_val]⟩

/-- A case of `C66_foreign_byteswapped`. -/
example : (TV.const bigOne).Foreign .little := fun _ _ h => by cases h; exact (fun h => nomatch h)

/-- A case of `C66_native_all_partial`, time-varying. -/
example : (TV.seq [littleOne, littleOne.byteswap]).Native .little := by
  intro t b h
  match t with
  | 0 => cases h; rfl
  | 1 => cases h; rfl
  | t + 2 => cases h

end Verif
