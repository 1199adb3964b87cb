import Verif.Model.Frontend
import Mathlib.Logic.Function.Basic

/-!
# Data sets

`Bunch`, `/repo/pykalman/utils/_sklearn.py:90-98`, and `load_robot`, `/repo/pykalman/datasets/base.py`.

A Python object of a class derived from `dict` has two tables: its items, and the table `__dict__` of its
attributes.  `Bunch` makes them one table.  Tables have addresses, so that this can be said.
-/

namespace Verif

/-- The exceptions of dictionaries. -/
inductive DictErr
  | keyError
  | attributeError
  | valueError
  | typeError
  deriving DecidableEq

/-- An object: where the items are, and where the attributes. -/
structure PyObj where
  items : ℕ
  attrs : ℕ

/-- Tables of names and values. -/
structure Tables (β : Type) where
  next : ℕ
  table : ℕ → String → Option β

variable {β : Type}

/-- A change of one table. -/
def Tables.change (s : Tables β) (a : ℕ) (f : (String → Option β) → String → Option β) : Tables β :=
  ⟨s.next, Function.update s.table a (f (s.table a))⟩

/-- `dict.__new__`: no items and no attributes. -/
def newDict (s : Tables β) : PyObj × Tables β :=
  (⟨s.next, s.next + 1⟩, ⟨s.next + 2,
    Function.update (Function.update s.table s.next fun _ => none) (s.next + 1) fun _ => none⟩)

/-- `Bunch.__init__`, `_sklearn.py:96-98`: `dict.__init__(self, kwargs)`, then `self.__dict__ = self`. -/
def newBunch (kwargs : String → Option β) (s : Tables β) : PyObj × Tables β :=
  let (o, s) := newDict s
  let s := s.change o.items fun _ => kwargs
  ({ o with attrs := o.items }, s)

/-- `obj[k]`. -/
def getItem (o : PyObj) (k : String) (s : Tables β) : Except DictErr β :=
  match s.table o.items k with
  | some v => .ok v
  | none => .error .keyError

/-- `obj.k`: the attributes of the object, then those of the class, `cls` (the methods of `dict`).  The
names `__dict__`, `__class__` and the like, which Python looks up in the class first, are left out. -/
def getAttr (cls : String → Option β) (o : PyObj) (k : String) (s : Tables β) : Except DictErr β :=
  match s.table o.attrs k with
  | some v => .ok v
  | none =>
    match cls k with
    | some v => .ok v
    | none => .error .attributeError

/-- `obj[k] = v`. -/
def setItem (o : PyObj) (k : String) (v : β) (s : Tables β) : Tables β :=
  s.change o.items fun t => Function.update t k (some v)

/-- `obj.k = v`. -/
def setAttr (o : PyObj) (k : String) (v : β) (s : Tables β) : Tables β :=
  s.change o.attrs fun t => Function.update t k (some v)

/-- `del obj[k]`; without such a key there is an exception, and nothing changes. -/
def delItem (o : PyObj) (k : String) (s : Tables β) : Except DictErr Unit × Tables β :=
  match s.table o.items k with
  | some _ => (.ok (), s.change o.items fun t => Function.update t k none)
  | none => (.error .keyError, s)

/-- `del obj.k`. -/
def delAttr (o : PyObj) (k : String) (s : Tables β) : Except DictErr Unit × Tables β :=
  match s.table o.attrs k with
  | some _ => (.ok (), s.change o.attrs fun t => Function.update t k none)
  | none => (.error .attributeError, s)

/-- `obj.update(…)`, `obj.clear()`, `obj.pop(…)`, `obj.setdefault(…)`: methods of `dict` that change the
items in the way `f` says. -/
def changeItems (o : PyObj) (f : (String → Option β) → String → Option β) (s : Tables β) : Tables β :=
  s.change o.items f

/-! ### `load_robot` -/

/-- What `scipy.io.loadmat` gives for a name: an array of numbers, or an array of one row of arrays. -/
inductive MatValue
  | array (a : NDArray)
  | cells (l : List NDArray)

/-- What is put into the `Bunch`. -/
inductive DataValue
  | number (k : ℕ)
  | array (a : NDArray)
  | masked (a : MArray)
  | text (s : String)

/-- `data[name]`, an array. -/
def matArray (data : String → Option MatValue) (name : String) : Except DictErr NDArray :=
  match data name with
  | some (.array a) => .ok a
  | some (.cells _) => .error .typeError
  | none => .error .keyError

/-- `data[name][0]`, the row of an array of arrays. -/
def matCells (data : String → Option MatValue) (name : String) : Except DictErr (List NDArray) :=
  match data name with
  | some (.cells l) => .ok l
  | some (.array _) => .error .typeError
  | none => .error .keyError

/-- `a.T`. -/
def NDArray.flip (a : NDArray) : NDArray := ⟨a.shape.reverse, fun i => a.data i.reverse⟩

/-- `a[:, 0]`. -/
def NDArray.firstColumn (a : NDArray) : NDArray := ⟨a.shape.eraseIdx 1, fun i => a.data (i.insertIdx 1 0)⟩

/-- `a[0]`. -/
def NDArray.firstRow (a : NDArray) : NDArray := ⟨a.shape.tail, fun i => a.data (0 :: i)⟩

/-- `c * np.eye(k)`. -/
noncomputable def scaledEye (c : ℝ) (k : ℕ) : NDArray :=
  ⟨[k, k], fun i => match i with | [a, b] => if a = b then c else 0 | _ => 0⟩

/-- `np.asarray([V[t] for t in range(V.shape[0])])`, `base.py:67-68`: `ValueError` if the shapes differ. -/
def stackArrays (l : List NDArray) : Except DictErr NDArray :=
  match l with
  | [] => .ok ⟨[0], fun _ => 0⟩
  | a :: l' =>
    if ∀ b ∈ l', b.shape = a.shape then
      .ok ⟨l.length :: a.shape, fun i => match i with
        | [] => 0
        | t :: i => match l[t]? with | some b => b.data i | none => 0⟩
    else .error .valueError

/-- `pad_and_mask`, `base.py:35-41`. -/
noncomputable def padAndMaskArray (a : NDArray) : MArray :=
  ⟨(a.shape.headD 0 + 1) :: a.shape.tail,
    fun i => match i with | 0 :: _ => 0 | (t + 1) :: i => a.data (t :: i) | [] => 0,
    fun i => match i with | 0 :: _ => true | _ => false⟩

/-- Keyword arguments; Python has no two of the same name. -/
def keywords (l : List (String × β)) (k : String) : Option β := (l.find? fun x => x.1 = k).map Prod.snd

/-- `load_robot`, `base.py:43-90`, for the contents `data` of the file of data and `descr` of the file of
the description.  Both files are there, and the arrays have the axes that are indexed. -/
noncomputable def loadRobot (data : String → Option MatValue) (descr : String) (s : Tables DataValue) :
    Except DictErr PyObj × Tables DataValue :=
  let values : Except DictErr (List (String × DataValue)) := do
    let y ← matArray data "y"
    let Z := padAndMaskArray y.flip
    let x ← matArray data "x"
    let A ← matArray data "A"
    let b ← matArray data "b"
    let C ← matArray data "C"
    let d ← matArray data "d"
    let Q ← matArray data "Q"
    let R ← matArray data "R"
    let x0 ← matArray data "x0"
    let P0 ← matArray data "P_0"
    let xf ← matArray data "xfilt"
    let Vf ← matCells data "Vfilt"
    let ll ← matArray data "ll"
    let xs ← matArray data "xsmooth"
    let Vs ← matCells data "Vsmooth"
    let Vf ← stackArrays Vf
    let Vs ← stackArrays Vs
    .ok [("n_timesteps", .number (Z.shape.headD 0)), ("observations", .masked Z),
      ("states", .array x.flip), ("transition_matrix", .array A), ("transition_offsets", .array b.flip),
      ("observation_matrix", .array C), ("observation_offset", .array d.firstColumn),
      ("initial_transition_covariance", .array (scaledEye 10 5)),
      ("initial_observation_covariance", .array (scaledEye 10 2)),
      ("transition_covariance", .array Q), ("observation_covariance", .array R),
      ("initial_state_mean", .array x0.firstColumn), ("initial_state_covariance", .array P0),
      ("filtered_state_means", .array xf.flip), ("filtered_state_covariances", .array Vf),
      ("loglikelihoods", .array ll.firstRow), ("smoothed_state_means", .array xs.flip),
      ("smoothed_state_covariances", .array Vs), ("DESCR", .text descr)]
  match values with
  | .ok l =>
    let (o, s) := newBunch (keywords l) s
    (.ok o, s)
  | .error e => (.error e, s)

end Verif
