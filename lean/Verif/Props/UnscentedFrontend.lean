import Verif.Proofs.UnscentedFrontend
import Verif.Props.Unscented

/-!
# C56: constructors and parameters of the unscented filters
-/

open Matrix

namespace Verif

variable {φ : Type} {n m : ℕ}

/-- **C56.** The constructor succeeds exactly if all arguments agree on the dimensions; the
dimensions are then those they agree on, 1 if nothing determines them, and the arguments are stored
as they are. -/
theorem C56_constructor (a : UArgs φ) :
    ((∃ k, UObj.init a = .ok k) ↔ (∃ n, a.StateDim n) ∧ ∃ m, a.ObsDim m) ∧
    (∀ k, UObj.init a = .ok k → k = a.object k.nDimState k.nDimObs ∧ a.StateDim k.nDimState ∧
      a.ObsDim k.nDimObs ∧ (a.NoStateDim → k.nDimState = 1) ∧ (a.NoObsDim → k.nDimObs = 1)) ∧
    ∀ e, UObj.init a = .error e → e = .valueError := by
  refine ⟨⟨?_, ?_⟩, ?_, fun e he => uInit_error a he⟩
  · rintro ⟨k, hk⟩
    obtain ⟨-, ⟨h1, -⟩, h2, -⟩ := (uInit_ok_iff a k).mp hk
    exact ⟨⟨_, h1⟩, _, h2⟩
  · rintro ⟨⟨n, hn⟩, m, hm⟩
    have hn' : ∃ n, a.StateDim n ∧ (a.NoStateDim → n = 1) := by
      by_cases h : a.NoStateDim
      · obtain ⟨g1, g2, g3, g4⟩ := h
        exact ⟨1, by constructor <;> simp [g1, g2, g3, g4], fun _ => rfl⟩
      · exact ⟨n, hn, fun h' => absurd h' h⟩
    have hm' : ∃ m, a.ObsDim m ∧ (a.NoObsDim → m = 1) := by
      by_cases h : a.NoObsDim
      · obtain ⟨g1, g2⟩ := h
        exact ⟨1, by constructor <;> simp [g1, g2], fun _ => rfl⟩
      · exact ⟨m, hm, fun h' => absurd h' h⟩
    obtain ⟨n, hn⟩ := hn'
    obtain ⟨m, hm⟩ := hm'
    exact ⟨a.object n m, (uInit_ok_iff a _).mpr ⟨rfl, hn, hm⟩⟩
  · intro k hk
    obtain ⟨h0, ⟨h1, h2⟩, h3, h4⟩ := (uInit_ok_iff a k).mp hk
    exact ⟨h0, h1, h3, h2, h4⟩

/-- **C56.** If the arguments stand for the parameters `p` (omitted ones for the documented
defaults), the constructor succeeds, and `filter` and `smooth` of the additive class and of its
square-root variant run the algorithm with exactly these parameters on the rows of the data. -/
theorem C56_additive_methods {a : UArgs PyFun₁} {p : UParams n m} (h : a.MeansAdd p) {X : MArray}
    {os : List (Obs m)} (hX : HasRows X os) (qr : QR) :
    UObj.init a = .ok (a.object n m) ∧
    (a.object n m).filterAdd X = some (aukfFilter p os) ∧
    (a.object n m).smoothAdd X = some (aukfSmooth p os) ∧
    (a.object n m).filterSqrt qr X = some (sqFilter qr p os) ∧
    (a.object n m).smoothSqrt qr X = some (sqSmooth qr p os) := by
  refine ⟨(uInit_ok_iff a _).mpr ⟨rfl, h.state, h.obs⟩, ?_, ?_, ?_, ?_⟩ <;>
  simp only [UObj.filterAdd, UObj.smoothAdd, UObj.filterSqrt, UObj.smoothSqrt] <;>
  rw [h.prepare hX] <;> rfl

/-- **C56.** The same for the class with general noise. -/
theorem C56_general_methods {a : UArgs PyFun₂} {p : GParams n m} (h : a.MeansGen p) {X : MArray}
    {os : List (Obs m)} (hX : HasRows X os) :
    UObj.init a = .ok (a.object n m) ∧
    (a.object n m).filterGen X = some (ukfFilter p os) ∧
    (a.object n m).smoothGen X = some (ukfSmooth p os) := by
  refine ⟨(uInit_ok_iff a _).mpr ⟨rfl, h.state, h.obs⟩, ?_, ?_⟩
  · simp only [UObj.filterGen]
    rw [h.prepare hX]; rfl
  · simp only [UObj.smoothGen, hX.parse]
    rw [h.prepare hX]; rfl

/-- A sine, as a user writes it: `lambda x: np.sin(x)`. -/
noncomputable def pySin : PyFun₁ := fun x => ⟨x.shape, fun i => Real.sin (x.data i)⟩

/-- Arguments as a user passes them: a list of two transition functions, a number as covariance,
all else left out. -/
noncomputable def exUArgs : UArgs PyFun₁ :=
  { f := some (.many (.flat [pySin, pyId])), R := some ⟨[1, 1], fun _ => 2⟩ }

/-- The parameters these arguments stand for. -/
noncomputable def exUMeaning : UParams 1 1 :=
  ⟨.flat [fun x i => Real.sin (x i), fun x => x], .flat [fun x => x], 1, fun _ _ => 2, 0, 1⟩

/-- The hypotheses of `C56_additive_methods` are satisfiable: nonlinear functions that change with
time, one missing observation. -/
example : exUArgs.MeansAdd exUMeaning ∧
    HasRows ⟨[2, 1], fun i => i.headD 0 + 5, fun i => i.headD 0 == 1⟩
      [(⟨fun _ => 5, fun _ => false⟩ : Obs 1), ⟨fun _ => 6, fun _ => true⟩] := by
  have hvec : ∀ (x : Vec 1) (i : Fin 1), (ndVec x).data [(i : ℕ)] = x i := fun x i => by
    simp [ndVec, Subsingleton.elim i 0]
  refine ⟨⟨⟨by constructor <;> simp [exUArgs], fun _ => rfl⟩,
    ⟨⟨?_, by simp [exUArgs]⟩, fun _ => rfl⟩,
    .inr (.inr ⟨_, _, rfl, ?_, rfl⟩), .inl ⟨rfl, _, ⟨rfl, fun _ _ => rfl⟩, rfl⟩,
    .inl ⟨rfl, rfl⟩, .inr ⟨_, rfl, rfl, fun _ _ => rfl⟩, .inl ⟨rfl, rfl⟩, .inl ⟨rfl, rfl⟩, trivial⟩,
    ⟨rfl, .inr le_rfl, ?_⟩⟩
  · rintro x ⟨⟩
    rfl
  · refine .cons (fun x => ⟨rfl, fun i => ?_⟩) (.cons (fun x => ⟨rfl, fun i => hvec x i⟩) .nil)
    show Real.sin ((ndVec x).data [(i : ℕ)]) = Real.sin (x i)
    rw [hvec]
  · intro t ht j
    have : t = 0 ∨ t = 1 := by simp at ht; omega
    rcases this with rfl | rfl
    · norm_num
    · norm_num

/-! ### Defaults -/

/-- The parameters a linear filter has by default if states and observations have dimension `n`. -/
noncomputable def walkParams (n : ℕ) : Params n n :=
  ⟨.const 1, .const 0, .const 1, .const 1, .const 0, .const 1, 0, 1⟩

theorem ndEye_toMats (n m : ℕ) : (ndEye n m).toMats n m
    = some (.const (Matrix.of fun (i : Fin n) (j : Fin m) => if (i : ℕ) = j then 1 else 0)) := by
  simp only [NDArray.toMats, ndEye, if_true]
  congr 2
  ext i j
  simp

theorem ndZeros_toVecs (n : ℕ) : (ndZeros n).toVecs n = some (.const 0) := by
  simp only [NDArray.toVecs, ndZeros, if_true]
  rfl

theorem of_eye (n : ℕ) :
    (Matrix.of fun (i : Fin n) (j : Fin n) => if (i : ℕ) = j then (1 : ℝ) else 0) = 1 := by
  ext i j
  simp [Matrix.one_apply, Fin.ext_iff]

/-- The Kalman filter made with nothing but dimensions. -/
def plainKF (n : ℕ) : KF :=
  ⟨none, none, none, none, none, none, none, none, none, none, n, n, defaultEmNames⟩

/-- Nothing but dimensions. -/
def plainArgs (φ : Type) (n : ℕ) : UArgs φ := { nDimState := some n, nDimObs := some n }

theorem default_prepare {X : MArray} {os : List (Obs n)} (hX : HasRows X os) :
    (plainKF n).prepare X = some (.ok (walkParams n, os)) := by
  unfold plainKF
  simp only [KF.prepare, hX.parse]
  rw [C26_parameters _ (by rintro s ⟨⟩)]
  have e1 : (ndEye n n).toMat n n = some (1 : Mat n n) := MatMeans.toMat (.inl ⟨rfl, rfl⟩)
  have e2 : (ndZeros n).toVec n = some (0 : Vec n) := VecMeans.toVec (.inl ⟨rfl, rfl⟩)
  simp only [KF.resolvedSpec, Option.map_none, Option.getD_none, Resolved.typed, ndEye_toMats,
    ndZeros_toVecs, of_eye, e1, e2, hX.shape, List.drop_succ_cons, List.drop_zero, if_true, hX.rows,
    bind, Option.bind, pure]
  rfl

/-- **C56.** Filters made with `n_dim_state = n_dim_obs = n` and nothing else agree: the additive
and the general unscented filter and smoother return what the Kalman filter and smoother return. -/
theorem C56_defaults_agree {X : MArray} {os : List (Obs n)} (hX : HasRows X os) :
    KF.init { nDimState := some n, nDimObs := some n } = .ok (plainKF n) ∧
    UObj.init (plainArgs PyFun₁ n) = .ok ((plainArgs PyFun₁ n).object n n) ∧
    UObj.init (plainArgs PyFun₂ n) = .ok ((plainArgs PyFun₂ n).object n n) ∧
    ∃ out : List (Vec n × Mat n n), (plainKF n).filter X = some (.ok out) ∧
      ((plainArgs PyFun₁ n).object n n).filterAdd X = some (.ok (out.map toMoments)) ∧
      ((plainArgs PyFun₂ n).object n n).filterGen X = some (.ok (out.map toMoments)) ∧
      (os ≠ [] → ∃ out' : List (Vec n × Mat n n), (plainKF n).smooth X = some (.ok out') ∧
        ((plainArgs PyFun₁ n).object n n).smoothAdd X = some (.ok (out'.map toMoments)) ∧
        ((plainArgs PyFun₂ n).object n n).smoothGen X = some (.ok (out'.map toMoments))) := by
  have hcov : (walkParams n).Covers os.length := ⟨trivial, trivial, trivial, trivial, trivial, trivial⟩
  have hpd : (walkParams n).PosDef := ⟨⟨1, rfl, PosDef.one⟩, ⟨1, rfl, PosDef.one⟩, PosDef.one⟩
  let pu : UParams n n := ⟨.flat [fun x => x], .flat [fun x => x], 1, 1, 0, 1⟩
  let pg : GParams n n := ⟨.flat [fun x w => x + w], .flat [fun x w => x + w], 1, 1, 0, 1⟩
  have hmu : (plainArgs PyFun₁ n).MeansAdd pu := by
    refine ⟨⟨by constructor <;> simp [plainArgs], by simp [UArgs.NoStateDim, plainArgs]⟩,
      ⟨by constructor <;> simp [plainArgs], by simp [UArgs.NoObsDim, plainArgs]⟩,
      .inl ⟨rfl, _, fun _ => rfl, rfl⟩, .inl ⟨rfl, _, ⟨rfl, fun _ _ => rfl⟩, rfl⟩,
      .inl ⟨rfl, rfl⟩, .inl ⟨rfl, rfl⟩, .inl ⟨rfl, rfl⟩, .inl ⟨rfl, rfl⟩, trivial⟩
  have hmg : (plainArgs PyFun₂ n).MeansGen pg := by
    refine ⟨⟨by constructor <;> simp [plainArgs], by simp [UArgs.NoStateDim, plainArgs]⟩,
      ⟨by constructor <;> simp [plainArgs], by simp [UArgs.NoObsDim, plainArgs]⟩,
      .inl ⟨rfl, _, fun _ _ => rfl, rfl⟩, .inl ⟨rfl, _, ⟨rfl, fun _ _ _ => rfl⟩, rfl⟩,
      .inl ⟨rfl, rfl⟩, .inl ⟨rfl, rfl⟩, .inl ⟨rfl, rfl⟩, .inl ⟨rfl, rfl⟩, trivial⟩
  have hau : pu.AffineAs (walkParams n) := by
    refine ⟨?_, ?_, rfl, rfl, rfl, rfl⟩
    · rintro t A b ⟨⟩ ⟨⟩
      exact ⟨_, rfl, fun x => by simp⟩
    · rintro t A b ⟨⟩ ⟨⟩
      exact ⟨_, rfl, fun x => by simp⟩
  have hag : pg.AffineAs (walkParams n) := by
    refine ⟨?_, ?_, rfl, rfl⟩
    · rintro t A b Q ⟨⟩ ⟨⟩ ⟨⟩
      exact ⟨_, 1, rfl, by simp [pg], fun x w => by simp⟩
    · rintro t A b Q ⟨⟩ ⟨⟩ ⟨⟩
      exact ⟨_, 1, rfl, by simp [pg], fun x w => by simp⟩
  obtain ⟨qr⟩ := exists_QR
  obtain ⟨u1, u2, u3, -⟩ := C56_additive_methods hmu hX qr
  obtain ⟨g1, g2, g3⟩ := C56_general_methods hmg hX
  have hgk := C37_eq_kalman (os := os) hag PosDef.one PosDef.one PosDef.one
    (by rintro t Q _ ⟨⟩; exact PosDef.one) (by rintro t Q _ ⟨⟩; exact PosDef.one)
  obtain ⟨out, hf⟩ : ∃ out, kfFilter (walkParams n) os = .ok out := ⟨_, kfFilter_eq hcov⟩
  refine ⟨?_, u1, g1, ⟨out, ?_, ?_, ?_, ?_⟩⟩
  · simp [KF.init, plainKF, determineDim, dimCandidates, bind, Except.bind, pure, Except.pure]
  · simp only [KF.filter, default_prepare hX]
    exact congrArg some hf
  · rw [u2]
    exact congrArg some (C35_filter_eq_kalman hau hpd hf)
  · rw [g2]
    exact congrArg some (hgk.1 _ hf)
  · intro hne
    obtain ⟨out', hs⟩ : ∃ out, kfSmooth (walkParams n) os = .ok out := ⟨_, kfSmooth_eq hne hcov⟩
    refine ⟨out', ?_, ?_, ?_⟩
    · simp only [KF.smooth, default_prepare hX]
      exact congrArg some hs
    · rw [u3]
      exact congrArg some (C36_smooth_eq_kalman hau hpd hs)
    · rw [g3]
      exact congrArg some (hgk.2 _ hs)

/-- **C56.** What the classes do not check: an object whose dimensions differ is made without
complaint, but its default observation function returns vectors as long as the state, so no
parameters with these dimensions correspond to it. -/
theorem C56_default_observation {a : UArgs PyFun₁} {k : UObj PyFun₁} (hk : UObj.init a = .ok k)
    (hg : a.g = none) (hs : SeedValid a.randomState) (hne : k.nDimState ≠ k.nDimObs) :
    ∃ r, k.initialize pyId = .ok r ∧ r.g = .flat [pyId] ∧
      (∀ x : Vec k.nDimState, (pyId (ndVec x)).shape = [k.nDimState]) ∧
      r.typedAdd k.nDimState k.nDimObs = none := by
  obtain ⟨h0, -⟩ := (uInit_ok_iff a k).mp hk
  have hkg : k.g = none := by rw [h0]; exact hg
  have hks : k.randomState = a.randomState := by rw [h0]; rfl
  refine ⟨_, uInitialize_eq pyId k (seedValid_ok (hks ▸ hs)), ?_, fun x => rfl, ?_⟩
  · simp [UObj.resolvedSpec, hkg, fnArray1d]
  have : (k.resolvedSpec pyId).g.typed (Fits₁ k.nDimState k.nDimObs)
      (typed₁ k.nDimState k.nDimObs) = none := by
    refine if_neg fun h => hne ?_
    have := h pyId (by simp [UObj.resolvedSpec, hkg, fnArray1d, Fns.members]) 0
    simpa [pyId, array1d, ndVec] using this
  simp only [UResolved.typedAdd, this]
  cases (k.resolvedSpec pyId).f.typed (Fits₁ k.nDimState k.nDimState)
    (typed₁ k.nDimState k.nDimState) <;> rfl

/-- Two states and one observation, nothing else. -/
example : UObj.init ({ nDimState := some 2, nDimObs := some 1 } : UArgs PyFun₁)
    = .ok (({ nDimState := some 2, nDimObs := some 1 } : UArgs PyFun₁).object 2 1) := by
  rw [uInit_ok_iff]
  refine ⟨rfl, ⟨by constructor <;> simp [UArgs.object], ?_⟩,
    ⟨by constructor <;> simp [UArgs.object], ?_⟩⟩ <;>
  simp [UArgs.NoStateDim, UArgs.NoObsDim]

end Verif
