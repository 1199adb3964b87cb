import Verif.Model.PyFun
import Verif.Spec.RoundedUnscented

/-!
# Vocabulary for Python functions
-/

namespace Verif

open Matrix

variable {σ α β : Type} {n m : ℕ}

/-- Whatever the function has kept, it returns `F` of what it gets, in an array that no later call
overwrites (it may be the array it got). -/
def PyFun.Returns (f : PyFun σ α β) (F : α → β) : Prop :=
  ∀ s x s', (f s x).2.2 s' (f s x).2.1 = F x

/-- The function leaves the arrays it gets as they were. -/
def PyFun.Keeps (f : PyFun σ α β) : Prop := ∀ s x, (f s x).2.1 = x

/-- The function of state and noise leaves the array with the state as it was. -/
def PyFun.KeepsState {γ : Type} (f : PyFun σ (α × γ) β) : Prop := ∀ s x, (f s x).2.1.1 = x.1

/-- The Python functions of `p` compute the functions of `u`; those for observations leave their
arguments alone. -/
structure PyUParams.Computes (p : PyUParams σ n m) (u : UParams n m) : Prop where
  f : Fns.Within (fun f F => f.Returns F) p.f u.f
  g : Fns.Within (fun g G => g.Returns G ∧ g.Keeps) p.g u.g
  Q : p.Q = u.Q
  R : p.R = u.R
  mu0 : p.mu0 = u.mu0
  S0 : p.S0 = u.S0

/-- The same for functions of state and noise. -/
structure PyGParams.Computes (p : PyGParams σ n m) (u : GParams n m) : Prop where
  f : Fns.Within (fun f F => f.Returns fun x => F x.1 x.2) p.f u.f
  g : Fns.Within (fun g G => (g.Returns fun x => G x.1 x.2) ∧ g.KeepsState) p.g u.g
  Q : p.Q = u.Q
  R : p.R = u.R
  mu0 : p.mu0 = u.mu0
  S0 : p.S0 = u.S0

/-- Python: `def h(x): return H(x)`. -/
def PyFun.ofFun (H : α → β) : PyFun σ α β := fun s x => (s, x, fun _ _ => H x)

/-- Python: `def h(x): x[:] = H(x); return x`. -/
def PyFun.inPlace (H : α → α) : PyFun σ α α := fun s x => (s, H x, fun _ y => y)

/-- Python: `def h(x): x[:] = H(x); return K(x)`. -/
def PyFun.overwrites (H : α → α) (K : α → β) : PyFun σ α β := fun s x => (s, H x, fun _ _ => K (H x))

/-- Python: `out = np.zeros(l)`, then `def h(x): out[:] = H(x); return out`. -/
def PyFun.sharedOutput (H : α → β) : PyFun β α β := fun _ x => (H x, x, fun s _ => s)

/-- A function that counts its calls in the first of two counters and takes every `N` calls for one
time step. -/
def PyFun.countFst (N : ℕ) (H : ℕ → α → β) : PyFun (ℕ × ℕ) α β :=
  fun s x => ((s.1 + 1, s.2), x, fun _ _ => H (s.1 / N) x)

/-- The same with the second counter. -/
def PyFun.countSnd (N : ℕ) (H : ℕ → α → β) : PyFun (ℕ × ℕ) α β :=
  fun s x => ((s.1, s.2 + 1), x, fun _ _ => H (s.2 / N) x)

/-- The function counts its calls. -/
def PyFun.Counts (f : PyFun ℕ α β) : Prop := ∀ s x, (f s x).1 = s + 1

/-- The function leaves `c` in the array it gets, whatever was there (as `x[:] = 0` does). -/
def PyFun.Wipes (f : PyFun σ α β) (c : α) : Prop := ∀ s x, (f s x).2.1 = c

/-- The function of state and noise leaves `c` in the array with the state. -/
def PyFun.WipesState {γ : Type} (f : PyFun σ (α × γ) β) (c : α) : Prop := ∀ s x, (f s x).2.1.1 = c

end Verif
