import Verif.Proofs.RaisingSample
import Verif.Props.Raising

/-!
# C106: `sample` with functions that are not defined everywhere

`sample` calls the user's functions only at the states that it returns: the transition function of time `t`
at the state of row `t` (if there is a next row) and the observation function of time `t` at the state of row
`t`.  The last state of a sample of `t + 1` rows is the state of row `t` of any longer sample made with the
same generator.
-/

open Matrix

namespace Verif

variable {E σ : Type} {n m : ℕ}

/-- `AdditiveUnscentedKalmanFilter.sample` returns what it returns for any functions that continue the
given ones, unless one of the functions fails at the state sampled for its own row. -/
theorem C106_sample (rng : Rng σ) {u : EUParams E n m} {v : UParams n m} (h : u.ContinuedBy v) (T : ℕ)
    (initial : Option (Vec n)) (s : σ) :
    aukfSampleE rng u T initial s = libE (aukfSample rng v T initial s) ∨
      ∃ e, aukfSampleE rng u T initial s = .error (.user e) ∧
        ∃ t out x y, aukfSample rng v (t + 1) initial s = .ok out ∧ out.getLast? = some (x, y) ∧
          ((t + 1 < T ∧ ∃ f, u.f.at t = .ok f ∧ f x = .error e) ∨
            (t < T ∧ ∃ g, u.g.at t = .ok g ∧ g x = .error e)) :=
  aukfSampleE_cases rng h T initial s

/-- Conversely it raises an exception of a function if some function is not defined at the state of its
row. -/
theorem C106_sample_undefined (rng : Rng σ) {u : EUParams E n m} {v : UParams n m} (h : u.ContinuedBy v)
    (T : ℕ) (initial : Option (Vec n)) (s : σ) {t : ℕ} {out : List (Vec n × Vec m)} {x : Vec n} {y : Vec m}
    (ho : aukfSample rng v (t + 1) initial s = .ok out) (hx : out.getLast? = some (x, y))
    (hr : (t + 1 < T ∧ ∃ f, u.f.at t = .ok f ∧ ∃ e, f x = .error e) ∨
      (t < T ∧ ∃ g, u.g.at t = .ok g ∧ ∃ e, g x = .error e)) :
    ∃ e, aukfSampleE rng u T initial s = .error (.user e) :=
  aukfSampleE_raises rng h T initial s ho hx hr

/-- The same for `UnscentedKalmanFilter.sample`, where the functions get a draw of the noise as well. -/
theorem C106_general_sample (rng : Rng σ) {u : EGParams E n m} {v : GParams n m} (h : u.ContinuedBy v)
    (T : ℕ) (initial : Option (Vec n)) (s : σ) :
    ukfSampleE rng u T initial s = libE (ukfSample rng v T initial s) ∨
      ∃ e, ukfSampleE rng u T initial s = .error (.user e) ∧
        ∃ t out x y, ukfSample rng v (t + 1) initial s = .ok out ∧ out.getLast? = some (x, y) ∧
          ((t + 1 < T ∧ ∃ f w, u.f.at t = .ok f ∧ f x w = .error e) ∨
            (t < T ∧ ∃ g w, u.g.at t = .ok g ∧ g x w = .error e)) :=
  ukfSampleE_cases rng h T initial s

theorem C106_general_sample_undefined (rng : Rng σ) {u : EGParams E n m} {v : GParams n m}
    (h : u.ContinuedBy v) (T : ℕ) (initial : Option (Vec n)) (s : σ) {t : ℕ}
    {out : List (Vec n × Vec m)} {x : Vec n} {y : Vec m}
    (ho : ukfSample rng v (t + 1) initial s = .ok out) (hx : out.getLast? = some (x, y))
    (hr : (t + 1 < T ∧ ∃ f, u.f.at t = .ok f ∧ ∀ w, ∃ e, f x w = .error e) ∨
      (t < T ∧ ∃ g, u.g.at t = .ok g ∧ ∀ w, ∃ e, g x w = .error e)) :
    ∃ e, ukfSampleE rng u T initial s = .error (.user e) :=
  ukfSampleE_raises rng h T initial s ho hx hr

/-! ### Examples -/

/-- A random walk that starts at a negative number has no logarithm. -/
example (rng : Rng σ) (T : ℕ) (s : σ) :
    ∃ e, aukfSampleE rng (logWalk 10) (T + 1) (some ![-1]) s = .error (.user e) := by
  let v : UParams 1 1 := ⟨.flat [fun x => x], .flat [fun x => ![Real.log (x 0)]], 1, 1, ![10], 1⟩
  have hv : (logWalk 10).ContinuedBy v :=
    ⟨.cons (fun x y h => by cases h; rfl) .nil, .cons logE_continues .nil, rfl, rfl, rfl, rfl⟩
  refine C106_sample_undefined rng hv (T + 1) (some ![-1]) s (t := 0) (x := ![-1]) rfl rfl
    (.inr ⟨by omega, logE, rfl, "math domain error", ?_⟩)
  rw [logE, if_neg (by norm_num)]

/-- One row of it from a positive number is drawn without an exception. -/
example (rng : Rng σ) (s : σ) :
    ∃ out, aukfSampleE rng (logWalk 10) 1 (some ![1]) s = .ok out ∧ out.length = 1 := by
  let v : UParams 1 1 := ⟨.flat [fun x => x], .flat [fun x => ![Real.log (x 0)]], 1, 1, ![10], 1⟩
  have hv : (logWalk 10).ContinuedBy v :=
    ⟨.cons (fun x y h => by cases h; rfl) .nil, .cons logE_continues .nil, rfl, rfl, rfl, rfl⟩
  rcases C106_sample rng hv 1 (some ![1]) s with h1 | ⟨e, -, t, out, x, y, h2, h3, h4⟩
  · exact ⟨_, h1, rfl⟩
  · rcases h4 with ⟨h4, -⟩ | ⟨h4, g, h5, h6⟩
    · omega
    · obtain rfl : t = 0 := by omega
      cases h2
      cases h3
      cases h5
      rw [logE, if_pos (by norm_num)] at h6
      cases h6

end Verif
