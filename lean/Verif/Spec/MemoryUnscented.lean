import Verif.Spec.Memory
import Verif.Model.MemorySqrtUnscented
import Verif.Model.MemoryUnscentedSample

/-! # Functions of the user as programs on the memory -/

open Matrix

namespace Verif

variable {n m k l q : ℕ} {α β : Type}

/-- Whatever the array it is given, the function changes no array but that one and those in `W`,
whether it returns or raises. -/
def MFun₁.ChangesOnly (W : Set ℕ) (f : MFun₁) : Prop :=
  ∀ h x, h.next ≤ (f x h).2.next ∧
    ∀ a, a < h.next → a ∉ W → a ≠ x.addr → (f x h).2.block a = h.block a

/-- The same for a function of two arrays. -/
def MFun₂.ChangesOnly (W : Set ℕ) (f : MFun₂) : Prop :=
  ∀ h x w, h.next ≤ (f x w h).2.next ∧
    ∀ a, a < h.next → a ∉ W → a ≠ x.addr → a ≠ w.addr → (f x w h).2.block a = h.block a

/-- Arrays that the functions use and nobody changes, with their contents. -/
structure Constants where
  addrs : Set ℕ
  block : ℕ → Block

/-- The arrays are in the memory, with these contents. -/
def Constants.In (K : Constants) (h : Heap) : Prop :=
  ∀ a ∈ K.addrs, a < h.next ∧ h.block a = K.block a

/-- As long as the arrays `K` keep their contents, the function computes `F`, with `W` as its own memory:
it changes no other array, in particular not its argument.  It returns a new array, or its argument, or
an array in `K`. -/
def MFun₁.Computes (W : Set ℕ) (K : Constants) (f : MFun₁) (F : Vec k → Vec l) : Prop :=
  ∀ h x, (∀ a ∈ W, a < h.next) → K.In h → x.addr < h.next → x.addr ∉ W →
    ∃ y h', f x h = (.ok y, h') ∧ h.next ≤ h'.next ∧
      (∀ a, a < h.next → a ∉ W → h'.block a = h.block a) ∧
      (y.addr = x.addr ∨ h.next ≤ y.addr ∨ y.addr ∈ K.addrs) ∧ y.addr < h'.next ∧
      y.vec l h' = F (x.vec k h)

/-- The same for a function of two arrays. -/
def MFun₂.Computes (W : Set ℕ) (K : Constants) (f : MFun₂) (F : Vec k → Vec q → Vec l) : Prop :=
  ∀ h x w, (∀ a ∈ W, a < h.next) → K.In h → x.addr < h.next → x.addr ∉ W →
    w.addr < h.next → w.addr ∉ W →
    ∃ y h', f x w h = (.ok y, h') ∧ h.next ≤ h'.next ∧
      (∀ a, a < h.next → a ∉ W → h'.block a = h.block a) ∧
      (y.addr = x.addr ∨ y.addr = w.addr ∨ h.next ≤ y.addr ∨ y.addr ∈ K.addrs) ∧ y.addr < h'.next ∧
      y.vec l h' = F (x.vec k h) (w.vec q h)

/-- Every function in the array has the property. -/
def Fns.Every (P : α → Prop) : Fns α → Prop
  | .flat l => ∀ a ∈ l, P a
  | .nested l => ∀ r ∈ l, ∀ a ∈ r, P a

/-- The functions of the two arrays correspond to each other, one by one. -/
def Fns.Rel (R : α → β → Prop) : Fns α → Fns β → Prop
  | .flat l, .flat l' => List.Forall₂ R l l'
  | .nested l, .nested l' => List.Forall₂ (List.Forall₂ R) l l'
  | _, _ => False

/-- The functions change only arrays in `W` and their argument. -/
structure UPRef.ChangesOnly₁ (W : Set ℕ) (p : UPRef MFun₁) : Prop where
  f : p.f.Every (MFun₁.ChangesOnly W)
  g : p.g.Every (MFun₁.ChangesOnly W)

/-- The functions change only arrays in `W` and their arguments. -/
structure UPRef.ChangesOnly₂ (W : Set ℕ) (p : UPRef MFun₂) : Prop where
  f : p.f.Every (MFun₂.ChangesOnly W)
  g : p.g.Every (MFun₂.ChangesOnly W)

/-- The array exists and is not in `W`. -/
def ARef.Apart (W : Set ℕ) (h : Heap) (r : ARef) : Prop := r.addr < h.next ∧ r.addr ∉ W

/-- The arrays, apart from the memory `W` of the functions, hold the parameters `P`. -/
structure UPRef.Holds₁ (W : Set ℕ) (K : Constants) (h : Heap) (p : UPRef MFun₁) (P : UParams n m) : Prop where
  f : p.f.Rel (MFun₁.Computes W K) P.f
  g : p.g.Rel (MFun₁.Computes W K) P.g
  Q : p.Q.Apart W h ∧ p.Q.mat n n h = P.Q
  R : p.R.Apart W h ∧ p.R.mat m m h = P.R
  mu0 : p.mu0.Apart W h ∧ p.mu0.vec n h = P.mu0
  S0 : p.S0.Apart W h ∧ p.S0.mat n n h = P.S0

/-- The arrays, apart from the memory `W` of the functions, hold the parameters `P`. -/
structure UPRef.Holds₂ (W : Set ℕ) (K : Constants) (h : Heap) (p : UPRef MFun₂) (P : GParams n m) : Prop where
  f : p.f.Rel (MFun₂.Computes W K) P.f
  g : p.g.Rel (MFun₂.Computes W K) P.g
  Q : p.Q.Apart W h ∧ p.Q.mat n n h = P.Q
  R : p.R.Apart W h ∧ p.R.mat m m h = P.R
  mu0 : p.mu0.Apart W h ∧ p.mu0.vec n h = P.mu0
  S0 : p.S0.Apart W h ∧ p.S0.mat n n h = P.S0

/-- The optional arguments of `filter_update`, apart from the memory `W` of the functions, hold `A`. -/
structure UUpdateRefs.Holds₁ (W : Set ℕ) (K : Constants) (h : Heap) (a : UUpdateRefs MFun₁) (A : UUpdateArgs n m) :
    Prop where
  f : Option.Rel (MFun₁.Computes W K) a.f A.f
  g : Option.Rel (MFun₁.Computes W K) a.g A.g
  Q : (∀ r ∈ a.Q, r.Apart W h) ∧ a.Q.map (ARef.mat n n h) = A.Q
  R : (∀ r ∈ a.R, r.Apart W h) ∧ a.R.map (ARef.mat m m h) = A.R

/-- The optional arguments of `filter_update`, apart from the memory `W` of the functions, hold `A`. -/
structure UUpdateRefs.Holds₂ (W : Set ℕ) (K : Constants) (h : Heap) (a : UUpdateRefs MFun₂) (A : GUpdateArgs n m) :
    Prop where
  f : Option.Rel (MFun₂.Computes W K) a.f A.f
  g : Option.Rel (MFun₂.Computes W K) a.g A.g
  Q : (∀ r ∈ a.Q, r.Apart W h) ∧ a.Q.map (ARef.mat n n h) = A.Q
  R : (∀ r ∈ a.R, r.Apart W h) ∧ a.R.map (ARef.mat m m h) = A.R

/-- The memory `W` of the functions and the arrays `K` that they use exist and are different. -/
structure Memories (W : Set ℕ) (K : Constants) (h : Heap) : Prop where
  own : ∀ a ∈ W, a < h.next
  kept : K.In h
  apart : ∀ a ∈ K.addrs, a ∉ W

/-- Nothing that existed has changed but arrays in `W`. -/
def Heap.KeepsBut (W : Set ℕ) (h h' : Heap) : Prop :=
  h.next ≤ h'.next ∧ ∀ a, a < h.next → a ∉ W → h'.block a = h.block a

/-- A result of a method: the arrays are new and different from each other, and hold the rows. -/
structure MRef.NewRows (h h' : Heap) (M : MRef) (l : List (Moments n)) : Prop where
  mean : h.next ≤ M.mean.addr ∧ M.mean.addr < h'.next
  cov : h.next ≤ M.cov.addr ∧ M.cov.addr < h'.next
  different : M.mean.addr ≠ M.cov.addr
  rows : HoldsRows h' M.mean M.cov (l.map fun x => (x.mean, x.cov))

/-- A result of `filter_update`: the arrays are new and different from each other, and hold `M`. -/
structure MRef.NewMoments (h h' : Heap) (r : MRef) (M : Moments n) : Prop where
  mean : h.next ≤ r.mean.addr ∧ r.mean.addr < h'.next
  cov : h.next ≤ r.cov.addr ∧ r.cov.addr < h'.next
  different : r.mean.addr ≠ r.cov.addr
  means : ∀ i : Fin n, (r.mean.nd h').data [i] = M.mean i
  covs : ∀ i j : Fin n, (r.cov.nd h').data [i, j] = M.cov i j

/-- The same where the covariance has one more axis, of length one. -/
structure MRef.NewMoments3 (h h' : Heap) (r : MRef) (M : Moments n) : Prop where
  mean : h.next ≤ r.mean.addr ∧ r.mean.addr < h'.next
  cov : h.next ≤ r.cov.addr ∧ r.cov.addr < h'.next
  different : r.mean.addr ≠ r.cov.addr
  shape_cov : r.cov.shape = [1, n, n]
  means : ∀ i : Fin n, (r.mean.nd h').data [i] = M.mean i
  covs : ∀ i j : Fin n, (r.cov.nd h').data [0, i, j] = M.cov i j

/-- Two new arrays that hold a sample. -/
structure NewSample {n m : ℕ} (h h' : Heap) (r : ARef × ARef) (l : List (Vec n × Vec m)) : Prop where
  states : h.next ≤ r.1.addr ∧ r.1.addr < h'.next
  obs : h.next ≤ r.2.addr ∧ r.2.addr < h'.next
  different : r.1.addr ≠ r.2.addr
  rows : HoldsSample h' r.1 r.2 l

/-- What a program can do that uses the unscented classes: call a method with any arrays and functions,
make an array, change an array in place. -/
inductive UAct : Type 1
  | aukfFilter (n m : ℕ) (p : UPRef MFun₁) (X : ARef)
  | aukfSmooth (n m : ℕ) (p : UPRef MFun₁) (X : ARef)
  | aukfUpdate (n m : ℕ) (p : UPRef MFun₁) (M : MRef) (o : Option ARef) (a : UUpdateRefs MFun₁)
  | ukfFilter (n m : ℕ) (p : UPRef MFun₂) (X : ARef)
  | ukfSmooth (n m : ℕ) (p : UPRef MFun₂) (X : ARef)
  | ukfUpdate (n m : ℕ) (p : UPRef MFun₂) (M : MRef) (o : Option ARef) (a : UUpdateRefs MFun₂)
  | sqFilter (qr : QR) (n m : ℕ) (p : UPRef MFun₁) (X : ARef)
  | sqSmooth (qr : QR) (n m : ℕ) (p : UPRef MFun₁) (X : ARef)
  | sqUpdate (qr : QR) (n m : ℕ) (p : UPRef MFun₁) (M : MRef) (o : Option ARef) (a : UUpdateRefs MFun₁)
  | aukfSample {σ : Type} (rng : Rng σ) (n m : ℕ) (p : UPRef MFun₁) (T : ℕ) (initial : Option ARef)
      (gen : Res σ)
  | ukfSample {σ : Type} (rng : Rng σ) (n m : ℕ) (p : UPRef MFun₂) (T : ℕ) (initial : Option ARef)
      (gen : Res σ)
  | create (a : NDArray)
  | write (addr : ℕ) (f : Block → Block)

/-- The memory afterwards, whether there was an exception or not. -/
noncomputable def UAct.exec (h : Heap) : UAct → Heap
  | .aukfFilter n m p X => (memAukfFilter n m p X h).2
  | .aukfSmooth n m p X => (memAukfSmooth n m p X h).2
  | .aukfUpdate n m p M o a => (memAukfUpdate n m p M o a h).2
  | .ukfFilter n m p X => (memUkfFilter n m p X h).2
  | .ukfSmooth n m p X => (memUkfSmooth n m p X h).2
  | .ukfUpdate n m p M o a => (memUkfUpdate n m p M o a h).2
  | .sqFilter qr n m p X => (memSqFilter qr n m p X h).2
  | .sqSmooth qr n m p X => (memSqSmoother qr n m p X h).2
  | .sqUpdate qr n m p M o a => (memSqUpdate qr n m p M o a h).2
  | .aukfSample rng n m p T initial gen => (memAukfSample rng n m p T initial gen h).2
  | .ukfSample rng n m p T initial gen => (memUkfSample rng n m p T initial gen h).2
  | .create a => (newArray a h).2
  | .write addr f => ⟨h.next, Function.update h.block addr (f (h.block addr))⟩

/-- The functions handed over change only their arguments and arrays in `W`; the caller changes only
arrays in `W`. -/
def UAct.ChangesOnly (W : Set ℕ) : UAct → Prop
  | .aukfFilter _ _ p _ | .aukfSmooth _ _ p _ | .sqFilter _ _ _ p _ | .sqSmooth _ _ _ p _
  | .aukfSample _ _ _ p _ _ _ =>
    p.ChangesOnly₁ W
  | .ukfFilter _ _ p _ | .ukfSmooth _ _ p _ | .ukfSample _ _ _ p _ _ _ => p.ChangesOnly₂ W
  | .aukfUpdate _ _ p _ _ a | .sqUpdate _ _ _ p _ _ a =>
    p.ChangesOnly₁ W ∧ (∀ f ∈ a.f, f.ChangesOnly W) ∧ ∀ g ∈ a.g, g.ChangesOnly W
  | .ukfUpdate _ _ p _ _ a =>
    p.ChangesOnly₂ W ∧ (∀ f ∈ a.f, f.ChangesOnly W) ∧ ∀ g ∈ a.g, g.ChangesOnly W
  | .create _ => True
  | .write addr _ => addr ∈ W

end Verif
