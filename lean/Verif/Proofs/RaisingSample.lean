import Verif.Model.RaisingSample
import Verif.Proofs.Raising

/-!
# Lemmas about `sample` with functions that raise exceptions
-/

open Matrix

namespace Verif

variable {E σ : Type} {n m : ℕ}

theorem aukfSampleLoopE_cases (rng : Rng σ) {u : EUParams E n m} {v : UParams n m} (h : u.ContinuedBy v)
    (k t : ℕ) (prev : Vec n) (z : Vec m) (s : σ) :
    aukfSampleLoopE rng u k (t + 1) prev s = libE (aukfSampleLoop rng v k (t + 1) prev s) ∨
    ∃ e, aukfSampleLoopE rng u k (t + 1) prev s = .error (.user e) ∧
      ∃ j out x y, aukfSampleLoop rng v j (t + 1) prev s = .ok out ∧
        ((prev, z) :: out).getLast? = some (x, y) ∧
        ((j < k ∧ ∃ f, u.f.at (t + j) = .ok f ∧ f x = .error e) ∨
          (0 < j ∧ j ≤ k ∧ ∃ g, u.g.at (t + j) = .ok g ∧ g x = .error e)) := by
  induction k generalizing t prev z s with
  | zero => exact .inl rfl
  | succ k ih =>
    simp only [aukfSampleLoopE, aukfSampleLoop, h.Q, h.R, Nat.add_sub_cancel]
    rcases h.f.entry t with ⟨e, f1, f2⟩ | ⟨f, F, f1, f2, f3⟩
    · exact .inl (by simp only [f1, f2]; rfl)
    set w := rng.normal n 0 v.Q s with hw
    cases hfx : f prev with
    | error e =>
      exact .inr ⟨e, by simp only [f1, hfx, libE_ok, bind, Except.bind]; rfl, 0, [], prev, z, rfl, rfl,
        .inl ⟨by omega, f, f1, hfx⟩⟩
    | ok y =>
    obtain rfl := f3 _ _ hfx
    rcases h.g.entry (t + 1) with ⟨e, g1, g2⟩ | ⟨g, G, g1, g2, g3⟩
    · exact .inl (by simp only [f1, f2, hfx, g1, g2, libE_ok, userE, bind, Except.bind]; rfl)
    set q := rng.normal m 0 v.R w.2 with hq
    have one : ∀ j out, aukfSampleLoop rng v j (t + 1 + 1) (F prev + w.1) q.2 = .ok out →
        aukfSampleLoop rng v (j + 1) (t + 1) prev s = .ok ((F prev + w.1, G (F prev + w.1) + q.1) :: out) := by
      intro j out hj
      simp only [aukfSampleLoop, Nat.add_sub_cancel, f2, g2, bind, Except.bind, ← hw, ← hq, hj]
      rfl
    cases hgx : g (F prev + w.1) with
    | error e =>
      exact .inr ⟨e, by simp only [f1, hfx, g1, hgx, libE_ok, userE, bind, Except.bind], 1, _, _, _,
        one 0 [] rfl, rfl, .inr ⟨by omega, by omega, g, g1, hgx⟩⟩
    | ok y =>
    have hy := g3 _ _ hgx
    rcases ih (t + 1) (F prev + w.1) (G (F prev + w.1) + q.1) q.2 with h1 | ⟨e, h1, j, out, x, y', h2, h3, h4⟩
    · refine .inl ?_
      simp only [f1, f2, hfx, g1, g2, hgx, h1, libE_ok, userE, bind, Except.bind, hy]
      cases aukfSampleLoop rng v k (t + 1 + 1) (F prev + w.1) q.2 <;> rfl
    · refine .inr ⟨e, by simp only [f1, hfx, g1, hgx, h1, libE_ok, userE, bind, Except.bind], j + 1, _, x,
        y', one j out h2, ?_, ?_⟩
      · rw [List.getLast?_cons_cons]
        exact h3
      · rw [show t + (j + 1) = t + 1 + j by omega]
        rcases h4 with ⟨h5, h6⟩ | ⟨h5, h6, h7⟩
        · exact .inl ⟨by omega, h6⟩
        · exact .inr ⟨by omega, by omega, h7⟩

theorem aukfSampleE_cases (rng : Rng σ) {u : EUParams E n m} {v : UParams n m} (h : u.ContinuedBy v)
    (T : ℕ) (initial : Option (Vec n)) (s : σ) :
    aukfSampleE rng u T initial s = libE (aukfSample rng v T initial s) ∨
    ∃ e, aukfSampleE rng u T initial s = .error (.user e) ∧
      ∃ t out x y, aukfSample rng v (t + 1) initial s = .ok out ∧ out.getLast? = some (x, y) ∧
        ((t + 1 < T ∧ ∃ f, u.f.at t = .ok f ∧ f x = .error e) ∨
          (t < T ∧ ∃ g, u.g.at t = .ok g ∧ g x = .error e)) := by
  cases T with
  | zero => exact .inl rfl
  | succ k =>
    obtain ⟨i, hE, hi⟩ : ∃ i : Vec n × σ, aukfSampleE rng u (k + 1) initial s = (do
        let g ← libE (u.g.at 0)
        let v := rng.normal m 0 u.R i.2
        let y ← userE (g i.1)
        let rest ← aukfSampleLoopE rng u k 1 i.1 v.2
        pure ((i.1, y + v.1) :: rest)) ∧ ∀ k, aukfSample rng v (k + 1) initial s = (do
        let g ← v.g.at 0
        let q := rng.normal m 0 v.R i.2
        let z := g i.1 + q.1
        let rest ← aukfSampleLoop rng v k 1 i.1 q.2
        pure ((i.1, z) :: rest)) := by
      cases initial with
      | none => exact ⟨rng.normal n u.mu0 u.S0 s, rfl, fun k => by rw [h.mu0, h.S0]; rfl⟩
      | some x => exact ⟨(x, s), rfl, fun k => rfl⟩
    rw [hE]
    simp only [hi, h.R]
    set q := rng.normal m 0 v.R i.2 with hq
    rcases h.g.entry 0 with ⟨e, g1, g2⟩ | ⟨g, G, g1, g2, g3⟩
    · exact .inl (by simp only [g1, g2]; rfl)
    cases hgx : g i.1 with
    | error e =>
      refine .inr ⟨e, by simp only [g1, hgx, libE_ok, userE, bind, Except.bind], 0, _, i.1, _,
        by simp only [g2, bind, Except.bind]; rfl, rfl, .inr ⟨by omega, g, g1, hgx⟩⟩
    | ok y =>
    have hy := g3 _ _ hgx
    rcases aukfSampleLoopE_cases rng h k 0 i.1 (G i.1 + q.1) q.2 with h1 | ⟨e, h1, j, out, x, y', h2, h3, h4⟩
    · refine .inl ?_
      simp only [Nat.zero_add] at h1
      simp only [g1, g2, hgx, h1, libE_ok, userE, bind, Except.bind, hy]
      cases aukfSampleLoop rng v k 1 i.1 q.2 <;> rfl
    · simp only [Nat.zero_add] at h1 h2 h4
      refine .inr ⟨e, by simp only [g1, hgx, h1, libE_ok, userE, bind, Except.bind], j, _, x, y',
        by simp only [g2, h2, bind, Except.bind]; rfl, h3, ?_⟩
      rcases h4 with ⟨h5, h6⟩ | ⟨-, h6, h7⟩
      · exact .inl ⟨by omega, h6⟩
      · exact .inr ⟨by omega, h7⟩

theorem ukfSampleLoopE_cases (rng : Rng σ) {u : EGParams E n m} {v : GParams n m} (h : u.ContinuedBy v)
    (k t : ℕ) (prev : Vec n) (z : Vec m) (s : σ) :
    ukfSampleLoopE rng u k (t + 1) prev s = libE (ukfSampleLoop rng v k (t + 1) prev s) ∨
    ∃ e, ukfSampleLoopE rng u k (t + 1) prev s = .error (.user e) ∧
      ∃ j out x y, ukfSampleLoop rng v j (t + 1) prev s = .ok out ∧
        ((prev, z) :: out).getLast? = some (x, y) ∧
        ((j < k ∧ ∃ f w, u.f.at (t + j) = .ok f ∧ f x w = .error e) ∨
          (0 < j ∧ j ≤ k ∧ ∃ g w, u.g.at (t + j) = .ok g ∧ g x w = .error e)) := by
  induction k generalizing t prev z s with
  | zero => exact .inl rfl
  | succ k ih =>
    simp only [ukfSampleLoopE, ukfSampleLoop, h.Q, h.R, Nat.add_sub_cancel]
    rcases h.f.entry t with ⟨e, f1, f2⟩ | ⟨f, F, f1, f2, f3⟩
    · exact .inl (by simp only [f1, f2]; rfl)
    set w := rng.normal n 0 v.Q s with hw
    cases hfx : f prev w.1 with
    | error e =>
      exact .inr ⟨e, by simp only [f1, hfx, libE_ok, bind, Except.bind]; rfl, 0, [], prev, z, rfl, rfl,
        .inl ⟨by omega, f, w.1, f1, hfx⟩⟩
    | ok y =>
    obtain rfl := f3 _ _ _ hfx
    rcases h.g.entry (t + 1) with ⟨e, g1, g2⟩ | ⟨g, G, g1, g2, g3⟩
    · exact .inl (by simp only [f1, f2, hfx, g1, g2, libE_ok, userE, bind, Except.bind]; rfl)
    set q := rng.normal m 0 v.R w.2 with hq
    have one : ∀ j out, ukfSampleLoop rng v j (t + 1 + 1) (F prev w.1) q.2 = .ok out →
        ukfSampleLoop rng v (j + 1) (t + 1) prev s = .ok ((F prev w.1, G (F prev w.1) q.1) :: out) := by
      intro j out hj
      simp only [ukfSampleLoop, Nat.add_sub_cancel, f2, g2, bind, Except.bind, ← hw, ← hq, hj]
      rfl
    cases hgx : g (F prev w.1) q.1 with
    | error e =>
      exact .inr ⟨e, by simp only [f1, hfx, g1, hgx, libE_ok, userE, bind, Except.bind], 1, _, _, _,
        one 0 [] rfl, rfl, .inr ⟨by omega, by omega, g, q.1, g1, hgx⟩⟩
    | ok y =>
    have hy := g3 _ _ _ hgx
    rcases ih (t + 1) (F prev w.1) (G (F prev w.1) q.1) q.2 with h1 | ⟨e, h1, j, out, x, y', h2, h3, h4⟩
    · refine .inl ?_
      simp only [f1, f2, hfx, g1, g2, hgx, h1, libE_ok, userE, bind, Except.bind, hy]
      cases ukfSampleLoop rng v k (t + 1 + 1) (F prev w.1) q.2 <;> rfl
    · refine .inr ⟨e, by simp only [f1, hfx, g1, hgx, h1, libE_ok, userE, bind, Except.bind], j + 1, _, x,
        y', one j out h2, ?_, ?_⟩
      · rw [List.getLast?_cons_cons]
        exact h3
      · rw [show t + (j + 1) = t + 1 + j by omega]
        rcases h4 with ⟨h5, h6⟩ | ⟨h5, h6, h7⟩
        · exact .inl ⟨by omega, h6⟩
        · exact .inr ⟨by omega, by omega, h7⟩

theorem ukfSampleE_cases (rng : Rng σ) {u : EGParams E n m} {v : GParams n m} (h : u.ContinuedBy v)
    (T : ℕ) (initial : Option (Vec n)) (s : σ) :
    ukfSampleE rng u T initial s = libE (ukfSample rng v T initial s) ∨
    ∃ e, ukfSampleE rng u T initial s = .error (.user e) ∧
      ∃ t out x y, ukfSample rng v (t + 1) initial s = .ok out ∧ out.getLast? = some (x, y) ∧
        ((t + 1 < T ∧ ∃ f w, u.f.at t = .ok f ∧ f x w = .error e) ∨
          (t < T ∧ ∃ g w, u.g.at t = .ok g ∧ g x w = .error e)) := by
  cases T with
  | zero => exact .inl rfl
  | succ k =>
    obtain ⟨i, hE, hi⟩ : ∃ i : Vec n × σ, ukfSampleE rng u (k + 1) initial s = (do
        let g ← libE (u.g.at 0)
        let v := rng.normal m 0 u.R i.2
        let z ← userE (g i.1 v.1)
        let rest ← ukfSampleLoopE rng u k 1 i.1 v.2
        pure ((i.1, z) :: rest)) ∧ ∀ k, ukfSample rng v (k + 1) initial s = (do
        let g ← v.g.at 0
        let q := rng.normal m 0 v.R i.2
        let z := g i.1 q.1
        let rest ← ukfSampleLoop rng v k 1 i.1 q.2
        pure ((i.1, z) :: rest)) := by
      cases initial with
      | none => exact ⟨rng.normal n u.mu0 u.S0 s, rfl, fun k => by rw [h.mu0, h.S0]; rfl⟩
      | some x => exact ⟨(x, s), rfl, fun k => rfl⟩
    rw [hE]
    simp only [hi, h.R]
    set q := rng.normal m 0 v.R i.2 with hq
    rcases h.g.entry 0 with ⟨e, g1, g2⟩ | ⟨g, G, g1, g2, g3⟩
    · exact .inl (by simp only [g1, g2]; rfl)
    cases hgx : g i.1 q.1 with
    | error e =>
      refine .inr ⟨e, by simp only [g1, hgx, libE_ok, userE, bind, Except.bind], 0, _, i.1, _,
        by simp only [g2, bind, Except.bind]; rfl, rfl, .inr ⟨by omega, g, q.1, g1, hgx⟩⟩
    | ok y =>
    have hy := g3 _ _ _ hgx
    rcases ukfSampleLoopE_cases rng h k 0 i.1 (G i.1 q.1) q.2 with h1 | ⟨e, h1, j, out, x, y', h2, h3, h4⟩
    · refine .inl ?_
      simp only [Nat.zero_add] at h1
      simp only [g1, g2, hgx, h1, libE_ok, userE, bind, Except.bind, hy]
      cases ukfSampleLoop rng v k 1 i.1 q.2 <;> rfl
    · simp only [Nat.zero_add] at h1 h2 h4
      refine .inr ⟨e, by simp only [g1, hgx, h1, libE_ok, userE, bind, Except.bind], j, _, x, y',
        by simp only [g2, h2, bind, Except.bind]; rfl, h3, ?_⟩
      rcases h4 with ⟨h5, h6⟩ | ⟨-, h6, h7⟩
      · exact .inl ⟨by omega, h6⟩
      · exact .inr ⟨by omega, h7⟩

theorem aukfSampleLoopE_raises (rng : Rng σ) {u : EUParams E n m} {v : UParams n m} (h : u.ContinuedBy v)
    (j k t : ℕ) (prev : Vec n) (z : Vec m) (s : σ) {out : List (Vec n × Vec m)} {x : Vec n} {y : Vec m}
    (ho : aukfSampleLoop rng v j (t + 1) prev s = .ok out)
    (hx : ((prev, z) :: out).getLast? = some (x, y))
    (hr : (j < k ∧ ∃ f, u.f.at (t + j) = .ok f ∧ ∃ e, f x = .error e) ∨
      (0 < j ∧ j ≤ k ∧ ∃ g, u.g.at (t + j) = .ok g ∧ ∃ e, g x = .error e)) :
    ∃ e, aukfSampleLoopE rng u k (t + 1) prev s = .error (.user e) := by
  induction j generalizing k t prev z s out with
  | zero =>
    cases ho
    cases hx
    rcases hr with ⟨h1, f, h2, h3⟩ | ⟨h1, -⟩
    · obtain ⟨k, rfl⟩ := Nat.exists_eq_succ_of_ne_zero (by omega : k ≠ 0)
      obtain ⟨e, h3⟩ := h3
      exact ⟨e, by rw [Nat.add_zero] at h2; simp only [aukfSampleLoopE, Nat.add_sub_cancel]; rw [h2]; simp only [libE_ok, bind,
        Except.bind, h3]; rfl⟩
    · omega
  | succ j ih =>
    obtain ⟨k, rfl⟩ := Nat.exists_eq_succ_of_ne_zero (by omega : k ≠ 0)
    simp only [aukfSampleLoop, Nat.add_sub_cancel] at ho
    obtain ⟨F, f2, ho⟩ := ok_bind_iff.mp ho
    obtain ⟨G, g2, ho⟩ := ok_bind_iff.mp ho
    obtain ⟨l, hl, ho⟩ := ok_bind_iff.mp ho
    cases ho
    simp only [aukfSampleLoopE, Nat.succ_eq_add_one, h.Q, h.R, Nat.add_sub_cancel]
    set w := rng.normal n 0 v.Q s with hw
    rcases h.f.entry t with ⟨e, f1, f2'⟩ | ⟨f, F', f1, f2', f3⟩
    · rw [f2] at f2'; cases f2'
    cases f2.symm.trans f2'
    rcases h.g.entry (t + 1) with ⟨e, g1, g2'⟩ | ⟨g, G', g1, g2', g3⟩
    · rw [g2] at g2'; cases g2'
    cases g2.symm.trans g2'
    cases hfx : f prev with
    | error e => exact ⟨e, by simp only [f1, hfx, libE_ok, bind, Except.bind]; rfl⟩
    | ok y0 =>
    obtain rfl := f3 _ _ hfx
    set q := rng.normal m 0 v.R w.2 with hq
    cases hgx : g (F prev + w.1) with
    | error e => exact ⟨e, by simp only [f1, hfx, g1, hgx, libE_ok, userE, bind, Except.bind]⟩
    | ok y1 =>
    rw [List.getLast?_cons_cons] at hx
    rw [show t + (j + 1) = t + 1 + j by omega] at hr
    by_cases hj : j = 0 ∧ ¬ (j < k ∧ ∃ f, u.f.at (t + 1 + j) = .ok f ∧ ∃ e, f x = .error e)
    · obtain ⟨rfl, hn⟩ := hj
      rcases hr with ⟨h1, h2⟩ | ⟨-, h1, g', h2, h3⟩
      · exact absurd ⟨by omega, h2⟩ hn
      · cases hl
        cases hx
        cases g1.symm.trans h2
        obtain ⟨e, h3⟩ := h3
        rw [h3] at hgx
        cases hgx
    · have hr' : (j < k ∧ ∃ f, u.f.at (t + 1 + j) = .ok f ∧ ∃ e, f x = .error e) ∨
          (0 < j ∧ j ≤ k ∧ ∃ g, u.g.at (t + 1 + j) = .ok g ∧ ∃ e, g x = .error e) := by
        rcases hr with ⟨h1, h2⟩ | ⟨-, h1, h2⟩
        · exact .inl ⟨by omega, h2⟩
        · by_cases h0 : j = 0
          · exact .inl (by by_contra hc; exact hj ⟨h0, hc⟩)
          · exact .inr ⟨by omega, by omega, h2⟩
      obtain ⟨e, he⟩ := ih k (t + 1) _ _ q.2 hl hx hr'
      exact ⟨e, by simp only [f1, hfx, g1, hgx, he, libE_ok, userE, bind, Except.bind]⟩

theorem aukfSampleE_raises (rng : Rng σ) {u : EUParams E n m} {v : UParams n m} (h : u.ContinuedBy v)
    (T : ℕ) (initial : Option (Vec n)) (s : σ) {t : ℕ} {out : List (Vec n × Vec m)} {x : Vec n}
    {y : Vec m} (ho : aukfSample rng v (t + 1) initial s = .ok out)
    (hx : out.getLast? = some (x, y))
    (hr : (t + 1 < T ∧ ∃ f, u.f.at t = .ok f ∧ ∃ e, f x = .error e) ∨
      (t < T ∧ ∃ g, u.g.at t = .ok g ∧ ∃ e, g x = .error e)) :
    ∃ e, aukfSampleE rng u T initial s = .error (.user e) := by
  obtain ⟨k, rfl⟩ := Nat.exists_eq_succ_of_ne_zero (by omega : T ≠ 0)
  obtain ⟨i, hE, hi⟩ : ∃ i : Vec n × σ, aukfSampleE rng u (k + 1) initial s = (do
      let g ← libE (u.g.at 0)
      let v := rng.normal m 0 u.R i.2
      let y ← userE (g i.1)
      let rest ← aukfSampleLoopE rng u k 1 i.1 v.2
      pure ((i.1, y + v.1) :: rest)) ∧ ∀ k, aukfSample rng v (k + 1) initial s = (do
      let g ← v.g.at 0
      let q := rng.normal m 0 v.R i.2
      let z := g i.1 + q.1
      let rest ← aukfSampleLoop rng v k 1 i.1 q.2
      pure ((i.1, z) :: rest)) := by
    cases initial with
    | none => exact ⟨rng.normal n u.mu0 u.S0 s, rfl, fun k => by rw [h.mu0, h.S0]; rfl⟩
    | some x => exact ⟨(x, s), rfl, fun k => rfl⟩
  simp only [Nat.succ_eq_add_one, hE]
  rw [hi] at ho
  obtain ⟨G, g2, ho⟩ := ok_bind_iff.mp ho
  obtain ⟨l, hl, ho⟩ := ok_bind_iff.mp ho
  cases ho
  rcases h.g.entry 0 with ⟨e, g1, g2'⟩ | ⟨g, G', g1, g2', g3⟩
  · rw [g2] at g2'; cases g2'
  simp only [h.R]
  set q := rng.normal m 0 v.R i.2 with hq
  cases hgx : g i.1 with
  | error e => exact ⟨e, by simp only [g1, hgx, libE_ok, userE, bind, Except.bind]⟩
  | ok y1 =>
  by_cases hj : t = 0 ∧ ¬ (t < k ∧ ∃ f, u.f.at t = .ok f ∧ ∃ e, f x = .error e)
  · obtain ⟨rfl, hn⟩ := hj
    rcases hr with ⟨h1, h2⟩ | ⟨-, g', h2, h3⟩
    · exact absurd ⟨by omega, h2⟩ hn
    · cases hl
      cases hx
      cases g1.symm.trans h2
      obtain ⟨e, h3⟩ := h3
      rw [h3] at hgx
      cases hgx
  · have hr' : (t < k ∧ ∃ f, u.f.at (0 + t) = .ok f ∧ ∃ e, f x = .error e) ∨
        (0 < t ∧ t ≤ k ∧ ∃ g, u.g.at (0 + t) = .ok g ∧ ∃ e, g x = .error e) := by
      rw [Nat.zero_add]
      rcases hr with ⟨h1, h2⟩ | ⟨h1, h2⟩
      · exact .inl ⟨by omega, h2⟩
      · by_cases h0 : t = 0
        · exact .inl (by by_contra hc; exact hj ⟨h0, hc⟩)
        · exact .inr ⟨by omega, by omega, h2⟩
    obtain ⟨e, he⟩ := aukfSampleLoopE_raises rng h t k 0 i.1 _ q.2 hl hx hr'
    rw [Nat.zero_add] at he
    exact ⟨e, by simp only [g1, hgx, he, libE_ok, userE, bind, Except.bind]⟩

theorem ukfSampleLoopE_raises (rng : Rng σ) {u : EGParams E n m} {v : GParams n m} (h : u.ContinuedBy v)
    (j k t : ℕ) (prev : Vec n) (z : Vec m) (s : σ) {out : List (Vec n × Vec m)} {x : Vec n} {y : Vec m}
    (ho : ukfSampleLoop rng v j (t + 1) prev s = .ok out)
    (hx : ((prev, z) :: out).getLast? = some (x, y))
    (hr : (j < k ∧ ∃ f, u.f.at (t + j) = .ok f ∧ ∀ w, ∃ e, f x w = .error e) ∨
      (0 < j ∧ j ≤ k ∧ ∃ g, u.g.at (t + j) = .ok g ∧ ∀ w, ∃ e, g x w = .error e)) :
    ∃ e, ukfSampleLoopE rng u k (t + 1) prev s = .error (.user e) := by
  induction j generalizing k t prev z s out with
  | zero =>
    cases ho
    cases hx
    rcases hr with ⟨h1, f, h2, h3⟩ | ⟨h1, -⟩
    · obtain ⟨k, rfl⟩ := Nat.exists_eq_succ_of_ne_zero (by omega : k ≠ 0)
      obtain ⟨e, h3⟩ := h3 (rng.normal n 0 u.Q s).1
      exact ⟨e, by rw [Nat.add_zero] at h2; simp only [ukfSampleLoopE, Nat.add_sub_cancel]; rw [h2]; simp only [libE_ok, bind,
        Except.bind, h3]; rfl⟩
    · omega
  | succ j ih =>
    obtain ⟨k, rfl⟩ := Nat.exists_eq_succ_of_ne_zero (by omega : k ≠ 0)
    simp only [ukfSampleLoop, Nat.add_sub_cancel] at ho
    obtain ⟨F, f2, ho⟩ := ok_bind_iff.mp ho
    obtain ⟨G, g2, ho⟩ := ok_bind_iff.mp ho
    obtain ⟨l, hl, ho⟩ := ok_bind_iff.mp ho
    cases ho
    simp only [ukfSampleLoopE, Nat.succ_eq_add_one, h.Q, h.R, Nat.add_sub_cancel]
    set w := rng.normal n 0 v.Q s with hw
    rcases h.f.entry t with ⟨e, f1, f2'⟩ | ⟨f, F', f1, f2', f3⟩
    · rw [f2] at f2'; cases f2'
    cases f2.symm.trans f2'
    rcases h.g.entry (t + 1) with ⟨e, g1, g2'⟩ | ⟨g, G', g1, g2', g3⟩
    · rw [g2] at g2'; cases g2'
    cases g2.symm.trans g2'
    cases hfx : f prev w.1 with
    | error e => exact ⟨e, by simp only [f1, hfx, libE_ok, bind, Except.bind]; rfl⟩
    | ok y0 =>
    obtain rfl := f3 _ _ _ hfx
    set q := rng.normal m 0 v.R w.2 with hq
    cases hgx : g (F prev w.1) q.1 with
    | error e => exact ⟨e, by simp only [f1, hfx, g1, hgx, libE_ok, userE, bind, Except.bind]⟩
    | ok y1 =>
    rw [List.getLast?_cons_cons] at hx
    rw [show t + (j + 1) = t + 1 + j by omega] at hr
    by_cases hj : j = 0 ∧ ¬ (j < k ∧ ∃ f, u.f.at (t + 1 + j) = .ok f ∧ ∀ w, ∃ e, f x w = .error e)
    · obtain ⟨rfl, hn⟩ := hj
      rcases hr with ⟨h1, h2⟩ | ⟨-, h1, g', h2, h3⟩
      · exact absurd ⟨by omega, h2⟩ hn
      · cases hl
        cases hx
        cases g1.symm.trans h2
        obtain ⟨e, h3⟩ := h3 q.1
        rw [h3] at hgx
        cases hgx
    · have hr' : (j < k ∧ ∃ f, u.f.at (t + 1 + j) = .ok f ∧ ∀ w, ∃ e, f x w = .error e) ∨
          (0 < j ∧ j ≤ k ∧ ∃ g, u.g.at (t + 1 + j) = .ok g ∧ ∀ w, ∃ e, g x w = .error e) := by
        rcases hr with ⟨h1, h2⟩ | ⟨-, h1, h2⟩
        · exact .inl ⟨by omega, h2⟩
        · by_cases h0 : j = 0
          · exact .inl (by by_contra hc; exact hj ⟨h0, hc⟩)
          · exact .inr ⟨by omega, by omega, h2⟩
      obtain ⟨e, he⟩ := ih k (t + 1) _ _ q.2 hl hx hr'
      exact ⟨e, by simp only [f1, hfx, g1, hgx, he, libE_ok, userE, bind, Except.bind]⟩

theorem ukfSampleE_raises (rng : Rng σ) {u : EGParams E n m} {v : GParams n m} (h : u.ContinuedBy v)
    (T : ℕ) (initial : Option (Vec n)) (s : σ) {t : ℕ} {out : List (Vec n × Vec m)} {x : Vec n}
    {y : Vec m} (ho : ukfSample rng v (t + 1) initial s = .ok out)
    (hx : out.getLast? = some (x, y))
    (hr : (t + 1 < T ∧ ∃ f, u.f.at t = .ok f ∧ ∀ w, ∃ e, f x w = .error e) ∨
      (t < T ∧ ∃ g, u.g.at t = .ok g ∧ ∀ w, ∃ e, g x w = .error e)) :
    ∃ e, ukfSampleE rng u T initial s = .error (.user e) := by
  obtain ⟨k, rfl⟩ := Nat.exists_eq_succ_of_ne_zero (by omega : T ≠ 0)
  obtain ⟨i, hE, hi⟩ : ∃ i : Vec n × σ, ukfSampleE rng u (k + 1) initial s = (do
      let g ← libE (u.g.at 0)
      let v := rng.normal m 0 u.R i.2
      let z ← userE (g i.1 v.1)
      let rest ← ukfSampleLoopE rng u k 1 i.1 v.2
      pure ((i.1, z) :: rest)) ∧ ∀ k, ukfSample rng v (k + 1) initial s = (do
      let g ← v.g.at 0
      let q := rng.normal m 0 v.R i.2
      let z := g i.1 q.1
      let rest ← ukfSampleLoop rng v k 1 i.1 q.2
      pure ((i.1, z) :: rest)) := by
    cases initial with
    | none => exact ⟨rng.normal n u.mu0 u.S0 s, rfl, fun k => by rw [h.mu0, h.S0]; rfl⟩
    | some x => exact ⟨(x, s), rfl, fun k => rfl⟩
  simp only [Nat.succ_eq_add_one, hE]
  rw [hi] at ho
  obtain ⟨G, g2, ho⟩ := ok_bind_iff.mp ho
  obtain ⟨l, hl, ho⟩ := ok_bind_iff.mp ho
  cases ho
  rcases h.g.entry 0 with ⟨e, g1, g2'⟩ | ⟨g, G', g1, g2', g3⟩
  · rw [g2] at g2'; cases g2'
  simp only [h.R]
  set q := rng.normal m 0 v.R i.2 with hq
  cases hgx : g i.1 q.1 with
  | error e => exact ⟨e, by simp only [g1, hgx, libE_ok, userE, bind, Except.bind]⟩
  | ok y1 =>
  by_cases hj : t = 0 ∧ ¬ (t < k ∧ ∃ f, u.f.at t = .ok f ∧ ∀ w, ∃ e, f x w = .error e)
  · obtain ⟨rfl, hn⟩ := hj
    rcases hr with ⟨h1, h2⟩ | ⟨-, g', h2, h3⟩
    · exact absurd ⟨by omega, h2⟩ hn
    · cases hl
      cases hx
      cases g1.symm.trans h2
      obtain ⟨e, h3⟩ := h3 q.1
      rw [h3] at hgx
      cases hgx
  · have hr' : (t < k ∧ ∃ f, u.f.at (0 + t) = .ok f ∧ ∀ w, ∃ e, f x w = .error e) ∨
        (0 < t ∧ t ≤ k ∧ ∃ g, u.g.at (0 + t) = .ok g ∧ ∀ w, ∃ e, g x w = .error e) := by
      rw [Nat.zero_add]
      rcases hr with ⟨h1, h2⟩ | ⟨h1, h2⟩
      · exact .inl ⟨by omega, h2⟩
      · by_cases h0 : t = 0
        · exact .inl (by by_contra hc; exact hj ⟨h0, hc⟩)
        · exact .inr ⟨by omega, by omega, h2⟩
    obtain ⟨e, he⟩ := ukfSampleLoopE_raises rng h t k 0 i.1 _ q.2 hl hx hr'
    rw [Nat.zero_add] at he
    exact ⟨e, by simp only [g1, hgx, he, libE_ok, userE, bind, Except.bind]⟩

end Verif
