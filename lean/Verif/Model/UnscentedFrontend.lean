import Verif.Model.Frontend
import Verif.Model.Unscented
import Verif.Model.SqrtUnscented

/-!
# Model of the front end of the unscented filters

`UnscentedMixin` (`pykalman/unscented.py:676-751`), the defaults of the two classes
(`unscented.py:1067-1076` and `1376-1385`) and the first lines of their methods.  The class of
`pykalman/sqrt/unscented.py:554` inherits all of this from the additive one.
-/

open Matrix

namespace Verif

/-- What a user passes as functions: one callable, or an array (or list) of callables. -/
inductive FnArg (φ : Type) where
  | one (f : φ)
  | many (fs : Fns φ)

/-- Values of constructor arguments, before and after conversion. -/
inductive UVal (φ : Type) where
  | arr (a : NDArray)
  | seed (s : Seed)
  | rng (r : RngRef)
  | nat (k : ℕ)
  | fnArg (f : FnArg φ)
  | fns (fs : Fns φ)

/-- Arguments of `UnscentedMixin.__init__`, `unscented.py:679-692`; `φ` is the type of the
callables. -/
structure UArgs (φ : Type) where
  f : Option (FnArg φ) := none
  g : Option (FnArg φ) := none
  Q : Option NDArray := none
  R : Option NDArray := none
  mu0 : Option NDArray := none
  S0 : Option NDArray := none
  nDimState : Option ℕ := none
  nDimObs : Option ℕ := none
  randomState : Option Seed := none

/-- An object of one of the unscented classes, `unscented.py:706-715`. -/
structure UObj (φ : Type) where
  f : Option (FnArg φ)
  g : Option (FnArg φ)
  Q : Option NDArray
  R : Option NDArray
  mu0 : Option NDArray
  S0 : Option NDArray
  nDimState : ℕ
  nDimObs : ℕ
  randomState : Option Seed

variable {φ : Type}

/-- `UnscentedMixin.__init__`, `unscented.py:681-715`. -/
def UObj.init (a : UArgs φ) : Res (UObj φ) := do
  let n ← determineDim [(a.Q, array2d, 1), (a.S0, array2d, 1), (a.mu0, array1d, 0)] a.nDimState
  let m ← determineDim [(a.R, array2d, 1)] a.nDimObs
  pure ⟨a.f, a.g, a.Q, a.R, a.mu0, a.S0, n, m, a.randomState⟩

/-- `get_params(self)`, `pykalman/utils/_sklearn.py:101-112`, for an unscented filter. -/
def UObj.arguments (k : UObj φ) : List (String × Option (UVal φ)) :=
  [("transition_functions", k.f.map .fnArg), ("observation_functions", k.g.map .fnArg),
   ("transition_covariance", k.Q.map .arr), ("observation_covariance", k.R.map .arr),
   ("initial_state_mean", k.mu0.map .arr), ("initial_state_covariance", k.S0.map .arr),
   ("n_dim_state", some (.nat k.nDimState)), ("n_dim_obs", some (.nat k.nDimObs)),
   ("random_state", k.randomState.map .seed)]

/-- `_default_parameters`, `unscented.py:1067-1076` and `1376-1385`; `dflt` is the default of both
functions. -/
def UObj.defaults (dflt : φ) (k : UObj φ) : List (String × Option (UVal φ)) :=
  [("transition_functions", some (.fnArg (.one dflt))),
   ("observation_functions", some (.fnArg (.one dflt))),
   ("transition_covariance", some (.arr (ndEye k.nDimState k.nDimState))),
   ("observation_covariance", some (.arr (ndEye k.nDimObs k.nDimObs))),
   ("initial_state_mean", some (.arr (ndZeros k.nDimState))),
   ("initial_state_covariance", some (.arr (ndEye k.nDimState k.nDimState))),
   ("random_state", some (.seed (.int 0)))]

/-- `array1d` on functions: a single callable becomes an array with one entry. -/
def fnArray1d : FnArg φ → Fns φ
  | .one f => .flat [f]
  | .many fs => fs

/-- The converter of functions. -/
def uConvFns : UVal φ → Res (UVal φ)
  | .fnArg f => .ok (.fns (fnArray1d f))
  | _ => .error .typeError

/-- A converter for arrays. -/
def uConvArr (h : NDArray → NDArray) : UVal φ → Res (UVal φ)
  | .arr a => .ok (.arr (h a))
  | _ => .error .typeError

/-- The converter of `random_state`. -/
def uConvSeed : UVal φ → Res (UVal φ)
  | .seed s => (checkRandomState s).map .rng
  | _ => .error .attributeError

/-- `_converters`, `unscented.py:740-751`. -/
def uConverters : List (String × (UVal φ → Res (UVal φ))) :=
  [("transition_functions", uConvFns), ("observation_functions", uConvFns),
   ("transition_covariance", uConvArr array2d), ("observation_covariance", uConvArr array2d),
   ("initial_state_mean", uConvArr array1d), ("initial_state_covariance", uConvArr array2d),
   ("n_dim_state", fun v => .ok v), ("n_dim_obs", fun v => .ok v), ("random_state", uConvSeed)]

/-- `processed[name]` for an array (the other cases do not occur). -/
def uGetArr (r : List (String × UVal φ)) (name : String) : Res NDArray :=
  match r.lookup name with
  | some (.arr a) => .ok a
  | _ => .error .typeError

/-- `processed[name]` for functions. -/
def uGetFns (r : List (String × UVal φ)) (name : String) : Res (Fns φ) :=
  match r.lookup name with
  | some (.fns a) => .ok a
  | _ => .error .typeError

/-- What `_initialize_parameters` returns. -/
structure UResolved (φ : Type) where
  f : Fns φ
  g : Fns φ
  Q : NDArray
  R : NDArray
  mu0 : NDArray
  S0 : NDArray

/-- `UnscentedMixin._initialize_parameters`, `unscented.py:717-731`. -/
def UObj.initialize (dflt : φ) (k : UObj φ) : Res (UResolved φ) := do
  let r ← preprocessArguments [k.arguments, k.defaults dflt] uConverters
  let f ← uGetFns r "transition_functions"
  let g ← uGetFns r "observation_functions"
  let Q ← uGetArr r "transition_covariance"
  let R ← uGetArr r "observation_covariance"
  let mu0 ← uGetArr r "initial_state_mean"
  let S0 ← uGetArr r "initial_state_covariance"
  pure ⟨f, g, Q, R, mu0, S0⟩

/-! ### Functions on arrays as functions on vectors -/

/-- A vector as an array. -/
def ndVec {k : ℕ} (x : Vec k) : NDArray :=
  ⟨[k], fun i => if h : i.headD 0 < k then x ⟨i.headD 0, h⟩ else 0⟩

/-- A user's function of one vector. -/
abbrev PyFun₁ := NDArray → NDArray

/-- A user's function of a vector and a noise vector. -/
abbrev PyFun₂ := NDArray → NDArray → NDArray

/-- `lambda state: state`, `unscented.py:1378-1379`. -/
def pyId : PyFun₁ := fun x => x

/-- `lambda state, noise: state + noise`, `unscented.py:1069-1070`.  Simplification: arrays of the
same shape only (NumPy broadcasts, or raises `ValueError`, otherwise). -/
def pyAdd : PyFun₂ := fun x w => ⟨x.shape, fun i => x.data i + w.data i⟩

/-- The function returns vectors of length `k` (or numbers, if `k = 1`) for vectors of length `a`. -/
def Fits₁ (a k : ℕ) (F : PyFun₁) : Prop := ∀ x : Vec a, (array1d (F (ndVec x))).shape = [k]

/-- The same for functions of two vectors. -/
def Fits₂ (a b k : ℕ) (F : PyFun₂) : Prop :=
  ∀ (x : Vec a) (w : Vec b), (array1d (F (ndVec x) (ndVec w))).shape = [k]

/-- The function on vectors, as `np.vstack` of the values at the sigma points reads them
(`unscented.py:150-160`). -/
def typed₁ (a k : ℕ) (F : PyFun₁) : Vec a → Vec k := fun x i => (array1d (F (ndVec x))).data [i]

/-- The same for functions of two vectors (`unscented.py:150-160`). -/
def typed₂ (a b k : ℕ) (F : PyFun₂) : Vec a → Vec b → Vec k :=
  fun x w i => (array1d (F (ndVec x) (ndVec w))).data [i]

/-- The functions in an array of functions. -/
def Fns.members : Fns φ → List φ
  | .flat l => l
  | .nested ll => ll.flatten

/-- Apply a conversion to all functions in an array. -/
def Fns.mapAll {ψ : Type} (c : φ → ψ) : Fns φ → Fns ψ
  | .flat l => .flat (l.map c)
  | .nested ll => .nested (ll.map (List.map c))

open Classical in
/-- Typed functions, if all of them fit; otherwise outside the model. -/
noncomputable def Fns.typed {ψ : Type} (fits : φ → Prop) (c : φ → ψ) (fs : Fns φ) :
    Option (Fns ψ) :=
  if ∀ f ∈ fs.members, fits f then some (fs.mapAll c) else none

/-- The typed parameters of the additive filters, if all shapes fit. -/
noncomputable def UResolved.typedAdd (r : UResolved PyFun₁) (n m : ℕ) : Option (UParams n m) := do
  let f ← r.f.typed (Fits₁ n n) (typed₁ n n)
  let g ← r.g.typed (Fits₁ n m) (typed₁ n m)
  let Q ← r.Q.toMat n n
  let R ← r.R.toMat m m
  let mu0 ← r.mu0.toVec n
  let S0 ← r.S0.toMat n n
  pure ⟨f, g, Q, R, mu0, S0⟩

/-- The typed parameters of the general filter, if all shapes fit. -/
noncomputable def UResolved.typedGen (r : UResolved PyFun₂) (n m : ℕ) : Option (GParams n m) := do
  let f ← r.f.typed (Fits₂ n n n) (typed₂ n n n)
  let g ← r.g.typed (Fits₂ n m m) (typed₂ n m m)
  let Q ← r.Q.toMat n n
  let R ← r.R.toMat m m
  let mu0 ← r.mu0.toVec n
  let S0 ← r.S0.toMat n n
  pure ⟨f, g, Q, R, mu0, S0⟩

/-! ### Methods -/

/-- Typed parameters and parsed observations, as the methods of the additive filters obtain them
first (`unscented.py:1197-1208`).  Outer `none`: shapes that do not fit, outside the model. -/
noncomputable def UObj.prepareAdd (k : UObj PyFun₁) (X : MArray) :
    Option (Res (UParams k.nDimState k.nDimObs × List (Obs k.nDimObs))) :=
  let Z := parseObservations X
  match k.initialize pyId with
  | .error e => some (.error e)
  | .ok r =>
    match r.typedAdd k.nDimState k.nDimObs with
    | some p =>
      if Z.shape.drop 1 = [k.nDimObs] then some (.ok (p, Z.rows k.nDimObs)) else none
    | none => none

/-- The same for the general filter (`unscented.py:881-890`). -/
noncomputable def UObj.prepareGen (k : UObj PyFun₂) (X : MArray) :
    Option (Res (GParams k.nDimState k.nDimObs × List (Obs k.nDimObs))) :=
  let Z := parseObservations X
  match k.initialize pyAdd with
  | .error e => some (.error e)
  | .ok r =>
    match r.typedGen k.nDimState k.nDimObs with
    | some p =>
      if Z.shape.drop 1 = [k.nDimObs] then some (.ok (p, Z.rows k.nDimObs)) else none
    | none => none

/-- `AdditiveUnscentedKalmanFilter.filter`, `unscented.py:1178-1218`. -/
noncomputable def UObj.filterAdd (k : UObj PyFun₁) (X : MArray) :
    Option (Res (List (Moments k.nDimState))) :=
  (k.prepareAdd X).map fun r => do
    let (p, os) ← r
    aukfFilter p os

/-- `AdditiveUnscentedKalmanFilter.smooth`, `unscented.py:1333-1374`: the observations are parsed by
`self.filter`. -/
noncomputable def UObj.smoothAdd (k : UObj PyFun₁) (X : MArray) :
    Option (Res (List (Moments k.nDimState))) :=
  (k.prepareAdd X).map fun r => do
    let (p, os) ← r
    aukfSmooth p os

/-- `UnscentedKalmanFilter.filter`, `unscented.py:862-902`. -/
noncomputable def UObj.filterGen (k : UObj PyFun₂) (X : MArray) :
    Option (Res (List (Moments k.nDimState))) :=
  (k.prepareGen X).map fun r => do
    let (p, os) ← r
    ukfFilter p os

/-- `UnscentedKalmanFilter.smooth`, `unscented.py:1024-1065`: the observations are parsed, and parsed
again by `self.filter`. -/
noncomputable def UObj.smoothGen (k : UObj PyFun₂) (X : MArray) :
    Option (Res (List (Moments k.nDimState))) :=
  (k.prepareGen (parseObservations X)).map fun r => do
    let (p, os) ← r
    ukfSmooth p os

/-- `AdditiveUnscentedKalmanFilter.filter` of `sqrt/unscented.py:599-647`. -/
noncomputable def UObj.filterSqrt (qr : QR) (k : UObj PyFun₁) (X : MArray) :
    Option (Res (List (Moments k.nDimState))) :=
  (k.prepareAdd X).map fun r => do
    let (p, os) ← r
    sqFilter qr p os

/-- `AdditiveUnscentedKalmanFilter.smooth` of `sqrt/unscented.py:771-825`. -/
noncomputable def UObj.smoothSqrt (qr : QR) (k : UObj PyFun₁) (X : MArray) :
    Option (Res (List (Moments k.nDimState))) :=
  (k.prepareAdd X).map fun r => do
    let (p, os) ← r
    sqSmooth qr p os

end Verif
