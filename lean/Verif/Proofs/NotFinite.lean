import Verif.Spec.NotFinite
import Verif.Proofs.ParamNaN

/-!
# Infinite numbers and overflow
-/

namespace Verif

variable {n m : ℕ}

section IEEE

variable {M : SMachine} {nan inf : M.F → Prop} {fma : M.F → M.F → M.F → M.F}
  (h : M.IEEE nan inf fma)

include h

theorem SMachine.IEEE.add_left {x : M.F} (y : M.F) (hx : NotFinite nan inf x) :
    NotFinite nan inf (M.add x y) := by
  by_cases hy : NotFinite nan inf y
  · rcases hx with hx | hx
    · exact .inl (h.nan_add _ hx)
    · rcases hy with hy | hy
      · exact .inl (h.add_nan _ hy)
      · exact h.inf_add_inf hx hy
  · rcases hx with hx | hx
    · exact .inl (h.nan_add _ hx)
    · exact .inr (h.inf_add hx hy)

theorem SMachine.IEEE.add_right (x : M.F) {y : M.F} (hy : NotFinite nan inf y) :
    NotFinite nan inf (M.add x y) := by
  by_cases hx : NotFinite nan inf x
  · exact h.add_left y hx
  · rcases hy with hy | hy
    · exact .inl (h.add_nan _ hy)
    · exact .inr (h.add_inf hx hy)

theorem SMachine.IEEE.sub_left {x : M.F} (y : M.F) (hx : NotFinite nan inf x) :
    NotFinite nan inf (M.sub x y) := by
  by_cases hy : NotFinite nan inf y
  · rcases hx with hx | hx
    · exact .inl (h.nan_sub _ hx)
    · rcases hy with hy | hy
      · exact .inl (h.sub_nan _ hy)
      · exact h.inf_sub_inf hx hy
  · rcases hx with hx | hx
    · exact .inl (h.nan_sub _ hx)
    · exact .inr (h.inf_sub hx hy)

theorem SMachine.IEEE.sub_right (x : M.F) {y : M.F} (hy : NotFinite nan inf y) :
    NotFinite nan inf (M.sub x y) := by
  by_cases hx : NotFinite nan inf x
  · exact h.sub_left y hx
  · rcases hy with hy | hy
    · exact .inl (h.sub_nan _ hy)
    · exact .inr (h.sub_inf hx hy)

theorem SMachine.IEEE.mul_left {x : M.F} (y : M.F) (hx : NotFinite nan inf x) :
    NotFinite nan inf (M.mul x y) := by
  rcases hx with hx | hx
  · exact .inl (h.nan_mul _ hx)
  · by_cases hy : nan y
    · exact .inl (h.mul_nan _ hy)
    · exact h.inf_mul hx hy

theorem SMachine.IEEE.mul_right (x : M.F) {y : M.F} (hy : NotFinite nan inf y) :
    NotFinite nan inf (M.mul x y) := by
  rcases hy with hy | hy
  · exact .inl (h.mul_nan _ hy)
  · by_cases hx : nan x
    · exact .inl (h.nan_mul _ hx)
    · exact h.mul_inf hx hy

/-- Whatever the order of the additions, a factor that is not finite is not lost. -/
theorem SMachine.IEEE.dotOf {s : Multiset (M.F × M.F)} {x : M.F} (hd : DotOf M.toMachine fma s x)
    (hb : ∃ q ∈ s, NotFinite nan inf q.1 ∨ NotFinite nan inf q.2) : NotFinite nan inf x := by
  have prod : ∀ a b, (∃ q ∈ ({(a, b)} : Multiset (M.F × M.F)),
      NotFinite nan inf q.1 ∨ NotFinite nan inf q.2) → NotFinite nan inf (M.mul a b) := by
    rintro a b ⟨q, hq, hb⟩
    rw [Multiset.mem_singleton] at hq
    subst hq
    exact hb.elim (h.mul_left _) (h.mul_right _)
  induction hd with
  | mul a b => exact prod a b hb
  | fmaZero a b => exact h.fma_mul _ _ _ (prod a b hb)
  | add _ _ ih1 ih2 =>
    obtain ⟨q, hq, hb⟩ := hb
    rcases Multiset.mem_add.mp hq with hq | hq
    · exact h.add_left _ (ih1 ⟨q, hq, hb⟩)
    · exact h.add_right _ (ih2 ⟨q, hq, hb⟩)
  | fma a b _ ih =>
    obtain ⟨q, hq, hb⟩ := hb
    rcases Multiset.mem_cons.mp hq with rfl | hq
    · exact h.fma_mul _ _ _ (prod a b ⟨_, Multiset.mem_singleton_self _, hb⟩)
    · exact h.fma_add _ _ (ih ⟨q, hq, hb⟩)
  | start _ ih => exact h.add_right _ (ih hb)
  | scale _ ih => exact h.mul_right _ (ih hb)

omit h in
theorem mem_pairsOf {F : Type} {k : ℕ} (x y : Fin k → F) (i : Fin k) : (x i, y i) ∈ pairsOf x y := by
  rw [pairsOf, Multiset.mem_coe, List.mem_ofFn]
  exact ⟨i, rfl⟩

/-- What is not finite spreads as `nan` does, except through `np.allclose`. -/
theorem SMachine.IEEE.spread : M.SpreadDot (NotFinite nan inf) where
  add_left y hx := h.add_left y hx
  add_right x _ hy := h.add_right x hy
  sub_left y hx := h.sub_left y hx
  sub_right x _ hy := h.sub_right x hy
  mul_left y hx := h.mul_left y hx
  mul_right x _ hy := h.mul_right x hy
  dotV_right X v j hb i := h.dotOf (h.dotV X v i j.pos) ⟨_, mem_pairsOf _ _ j, .inr hb⟩
  dotV_left v i j hb := h.dotOf (h.dotV _ v i j.pos) ⟨_, mem_pairsOf _ _ j, .inl hb⟩
  dotM_left Y i j hb c := h.dotOf (h.dotM _ Y i c j.pos) ⟨_, mem_pairsOf _ _ j, .inl hb⟩
  dotM_right X Y j c hb i := h.dotOf (h.dotM X Y i c j.pos) ⟨_, mem_pairsOf _ _ j, .inr hb⟩
  pinv hb := h.pinv hb
  chol hb := h.chol hb
  cholL hb := h.cholL hb
  qr hb := h.qr hb
  dot_left y i hb := h.dotOf (h.dot _ y i.pos) ⟨_, mem_pairsOf _ _ i, .inl hb⟩
  dot_right x _ i hb := h.dotOf (h.dot x _ i.pos) ⟨_, mem_pairsOf _ _ i, .inr hb⟩

end IEEE

namespace MeanFlow

variable {M : Machine} {bad : M.F → Prop} {p : M.Par n m} {os : List (M.Row m)} {l : List (M.St n m)}

theorem after (h : MeanFlow bad p os l) {s t : ℕ} (hst : s < t) (ht : t < l.length)
    (hb : HasBad bad (l[s]'(by omega)).filtMean) : Machine.AllBad bad l[t].filtMean := by
  have hn : 0 < n := by
    obtain ⟨i, -⟩ := hb
    exact i.pos
  exact h.all_from hn (u := s + 1) (by omega) ht (h.kept _ (by omega) (h.step s (by omega) hb))

end MeanFlow

namespace Machine

variable {M : Machine} {bad : M.F → Prop} (h : M.NaN bad)

include h

theorem NaN.smoothLoop_last (hn : 0 < n) {A : TV (M.A n n)} {rest : List (M.St n m)} {t : ℕ}
    {s : M.St n m} {r : M.SSt n × List (M.SSt n)} (hr : M.smoothLoop A t s rest = .ok r)
    (hlast : ∀ x, (s :: rest).getLast? = some x → HasBad bad x.filtMean) :
    (∀ x ∈ r.1 :: r.2, HasBad bad x.mean) ∧ (∀ x ∈ (r.1 :: r.2).dropLast, AllBad bad x.mean) := by
  induction rest generalizing t s r with
  | nil =>
    cases hr
    refine ⟨fun x hx => ?_, fun x hx => by simp at hx⟩
    simp only [List.mem_singleton] at hx
    subst hx
    exact hlast s rfl
  | cons s' rest ih =>
    rw [smoothLoop] at hr
    obtain ⟨r', hr', hr⟩ := ok_bind_iff.mp hr
    obtain ⟨At, -, hr⟩ := ok_bind_iff.mp hr
    obtain ⟨u, hu, hr⟩ := ok_bind_iff.mp hr
    cases hr
    obtain ⟨i1, i2⟩ := ih hr' (fun x hx => hlast x (by simpa using hx))
    rw [smoothUpdate] at hu
    obtain ⟨inv, -, hu⟩ := ok_bind_iff.mp hu
    obtain ⟨j, hj⟩ := i1 r'.1 (by simp)
    have hub : AllBad bad u.mean := by
      rw [← show _ = u.mean from congrArg SSt.mean (Except.ok.inj hu)]
      exact fun i => h.add_right _ (h.dotV_right _ (h.sub_left _ hj) i)
    constructor
    · intro x hx
      rcases List.mem_cons.mp hx with rfl | hx
      · exact ⟨⟨0, hn⟩, hub _⟩
      · exact i1 x hx
    · intro x hx
      rw [List.dropLast_cons_of_ne_nil (by simp)] at hx
      rcases List.mem_cons.mp hx with rfl | hx
      · exact hub
      · exact i2 x hx

theorem NaN.smoothFull_last (hn : 0 < n) {A : TV (M.A n n)} {rows : List (M.St n m)}
    {sm : List (M.SSt n)} (hs : M.smoothFull A rows = .ok sm)
    (hlast : ∀ x, rows.getLast? = some x → HasBad bad x.filtMean) :
    (∀ x ∈ sm, HasBad bad x.mean) ∧ ∀ x ∈ sm.dropLast, AllBad bad x.mean := by
  cases rows with
  | nil => cases hs
  | cons s rest =>
    rw [smoothFull] at hs
    obtain ⟨r, hr, hs⟩ := ok_bind_iff.mp hs
    cases hs
    exact h.smoothLoop_last hn hr hlast

/-- A filtered covariance that is not finite: no row after it is used, and all covariances after it are
not finite. -/
theorem NaN.full_cov_after (hm : 0 < m) {p : M.Par n m} {os : List (M.Row m)} {l : List (M.St n m)}
    (hl : M.full p os = .ok l) {s : ℕ} (hs : s < l.length) (hb : HasBad₂ bad l[s].filtCov) {t : ℕ}
    (hst : s < t) (ht : t < l.length) :
    HasBad₂ bad l[t].predCov ∧ HasBad₂ bad l[t].filtCov ∧
      ∃ ht' : t < os.length, ¬ os[t].Used := by
  obtain ⟨h1, h2, h3⟩ := full_rows hl
  have hlen : l.length = os.length := loop_length hl
  have hfilt : ∀ s (hs : s < l.length), HasBad₂ bad l[s].predCov →
      HasBad₂ bad l[s].filtCov ∧ ∃ hs' : s < os.length, ¬ os[s].Used := by
    intro s hs hb
    obtain ⟨C, R, d, -, -, hd, hc⟩ := h3 s hs (by omega)
    by_cases hmis : os[s].missing
    · rw [correct, if_neg (not_not.mpr hmis)] at hc
      rw [← show _ = l[s].filtCov from congrArg (fun x => x.2.2) (Except.ok.inj hc)]
      exact ⟨hb, by omega, fun hu => hu.not_missing hmis⟩
    · exact (raises_iff.mp (h.correct_raises_one hm (Row.used_of_not_missing hmis) (.inl hb)) _
        hc).elim
  obtain ⟨d, rfl⟩ := Nat.exists_eq_add_of_le (Nat.succ_le_of_lt hst)
  induction d with
  | zero =>
    obtain ⟨A, Q, b, -, -, -, e⟩ := h2 s (by omega)
    have hp : HasBad₂ bad l[s + 1].predCov := by
      rw [show l[s + 1].predCov = _ from congrArg Prod.snd e]
      exact h.predict_cov_one (.inl hb)
    exact ⟨hp, hfilt _ (by omega) hp⟩
  | succ d ih =>
    obtain ⟨A, Q, b, -, -, -, e⟩ := h2 (s.succ + d) (by omega)
    have hp : HasBad₂ bad l[s.succ + (d + 1)].predCov := by
      rw [show l[s.succ + (d + 1)].predCov = _ from congrArg Prod.snd e]
      exact h.predict_cov_one (.inl (ih (by omega) (by omega)).2.1)
    exact ⟨hp, hfilt _ (by omega) hp⟩

end Machine

end Verif
