import Verif.Model.Bunch

/-! # Programs that use `Bunch` objects -/

namespace Verif

variable {β : Type}

/-- What a program can do with `Bunch` objects, which are numbered in the order in which they are made. -/
inductive BunchAct (β : Type)
  | create (kwargs : String → Option β)
  | setItem (i : ℕ) (k : String) (v : β)
  | setAttr (i : ℕ) (k : String) (v : β)
  | delItem (i : ℕ) (k : String)
  | delAttr (i : ℕ) (k : String)
  | change (i : ℕ) (f : (String → Option β) → String → Option β)

/-- The objects made so far, and the tables. -/
abbrev BunchState (β : Type) := List PyObj × Tables β

/-- The state afterwards, whether there was an exception or not. -/
def BunchAct.exec (s : BunchState β) : BunchAct β → BunchState β
  | .create kwargs => (s.1 ++ [(newBunch kwargs s.2).1], (newBunch kwargs s.2).2)
  | .setItem i k v => match s.1[i]? with | some o => (s.1, Verif.setItem o k v s.2) | none => s
  | .setAttr i k v => match s.1[i]? with | some o => (s.1, Verif.setAttr o k v s.2) | none => s
  | .delItem i k => match s.1[i]? with | some o => (s.1, (Verif.delItem o k s.2).2) | none => s
  | .delAttr i k => match s.1[i]? with | some o => (s.1, (Verif.delAttr o k s.2).2) | none => s
  | .change i f => match s.1[i]? with | some o => (s.1, changeItems o f s.2) | none => s

/-- The same with one function from names to values in place of each object. -/
def BunchAct.plain (l : List (String → Option β)) : BunchAct β → List (String → Option β)
  | .create kwargs => l ++ [kwargs]
  | .setItem i k v | .setAttr i k v => l.modify i fun t => Function.update t k (some v)
  | .delItem i k | .delAttr i k => l.modify i fun t => Function.update t k none
  | .change i f => l.modify i f

/-- What the file of the robot data has to contain. -/
structure RobotFile where
  (y x A b C d Q R x0 P0 xfilt ll xsmooth : NDArray)
  (Vfilt Vsmooth : List NDArray)

/-- The file contains these arrays. -/
structure RobotFile.In (f : RobotFile) (data : String → Option MatValue) : Prop where
  y : data "y" = some (.array f.y)
  x : data "x" = some (.array f.x)
  A : data "A" = some (.array f.A)
  b : data "b" = some (.array f.b)
  C : data "C" = some (.array f.C)
  d : data "d" = some (.array f.d)
  Q : data "Q" = some (.array f.Q)
  R : data "R" = some (.array f.R)
  x0 : data "x0" = some (.array f.x0)
  P0 : data "P_0" = some (.array f.P0)
  xfilt : data "xfilt" = some (.array f.xfilt)
  Vfilt : data "Vfilt" = some (.cells f.Vfilt)
  ll : data "ll" = some (.array f.ll)
  xsmooth : data "xsmooth" = some (.array f.xsmooth)
  Vsmooth : data "Vsmooth" = some (.cells f.Vsmooth)

/-- The columns of a matrix with `m` rows and `T` columns. -/
def NDArray.columns (m T : ℕ) (a : NDArray) : List (Vec m) :=
  (List.range T).map fun t j => a.data [j, t]

/-- `a` is the transpose of the matrix `b`. -/
def NDArray.IsTranspose (a b : NDArray) : Prop :=
  a.shape = b.shape.reverse ∧ ∀ i j, a.data [i, j] = b.data [j, i]

/-- `a` is the array of the arrays in the list, which have the shape `sh`. -/
def NDArray.IsStack (a : NDArray) (sh : List ℕ) (l : List NDArray) : Prop :=
  a.shape = l.length :: sh ∧ ∀ (t : ℕ) (b : NDArray), l[t]? = some b → ∀ i, a.data (t :: i) = b.data i

end Verif
