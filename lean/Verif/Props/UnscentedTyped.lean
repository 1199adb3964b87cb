import Verif.Props.UnscentedFrontend

/-!
# C56: the functions that the unscented classes read at each step

`typedAdd` and `typedGen` delimit the model: they give parameters only if the values of all the
functions have the right shape.  Here is what the functions read at a time step then are, in terms
of the functions the user gave.
-/

open Matrix

namespace Verif

variable {n m : ℕ} {φ ψ : Type}

theorem Fns.typed_at {fits : φ → Prop} {c : φ → ψ} {fs : Fns φ} {gs : Fns ψ}
    (h : fs.typed fits c = some gs) (t : ℕ) :
    (∀ g, gs.at t = .ok g → ∃ f, fs.at t = .ok f ∧ fits f ∧ g = c f) ∧
    ∀ e, gs.at t = .error e ↔ fs.at t = .error e := by
  rw [Fns.typed] at h
  split_ifs at h with hf
  cases h
  cases fs with
  | flat l => cases l with
    | nil => simp [Fns.mapAll, Fns.at, first]
    | cons f l =>
      simp only [Fns.members, List.mem_cons, forall_eq_or_imp] at hf
      simp [Fns.mapAll, Fns.at, first, hf.1]
  | nested ll =>
    simp only [Fns.mapAll, Fns.at, List.getElem?_map]
    cases ht : ll[t]? with
    | none => simp
    | some l => cases l with
      | nil => simp [first]
      | cons f l =>
        have : fits f := hf f (List.mem_flatten.mpr ⟨_, List.mem_of_getElem? ht, by simp⟩)
        simp [first, this]

/-- `g` is the function `F` of the user, on vectors: the value of `F` at each vector has, as an array
with at least one axis, the shape `(k,)`, and `g` has its entries. -/
def ReadsAs₁ (a k : ℕ) (F : PyFun₁) (g : Vec a → Vec k) : Prop :=
  ∀ x : Vec a, (array1d (F (ndVec x))).shape = [k] ∧
    ∀ i : Fin k, g x i = (array1d (F (ndVec x))).data [i]

/-- The same for functions of a vector and a noise. -/
def ReadsAs₂ (a b k : ℕ) (F : PyFun₂) (g : Vec a → Vec b → Vec k) : Prop :=
  ∀ (x : Vec a) (w : Vec b), (array1d (F (ndVec x) (ndVec w))).shape = [k] ∧
    ∀ i : Fin k, g x w i = (array1d (F (ndVec x) (ndVec w))).data [i]

/-- **C56.** At every time step, the transition and observation functions of the additive classes
are those the user's arrays of functions hold for that step, with values of the right shape; and
reading one raises exactly if reading it from the user's array raises. -/
theorem C56_functions_read {r : UResolved PyFun₁} {p : UParams n m} (h : r.typedAdd n m = some p)
    (t : ℕ) :
    (∀ f, p.f.at t = .ok f → ∃ F, r.f.at t = .ok F ∧ ReadsAs₁ n n F f) ∧
    (∀ g, p.g.at t = .ok g → ∃ G, r.g.at t = .ok G ∧ ReadsAs₁ n m G g) ∧
    (∀ e, p.f.at t = .error e ↔ r.f.at t = .error e) ∧
    ∀ e, p.g.at t = .error e ↔ r.g.at t = .error e := by
  simp only [UResolved.typedAdd, bind, Option.bind_eq_some_iff, pure, Option.some.injEq] at h
  obtain ⟨f, hf, g, hg, Q, -, R, -, mu, -, S, -, rfl⟩ := h
  refine ⟨fun f' h' => ?_, fun g' h' => ?_, (Fns.typed_at hf t).2, (Fns.typed_at hg t).2⟩
  · obtain ⟨F, hF, hfit, rfl⟩ := (Fns.typed_at hf t).1 _ h'
    exact ⟨F, hF, fun x => ⟨hfit x, fun _ => rfl⟩⟩
  · obtain ⟨F, hF, hfit, rfl⟩ := (Fns.typed_at hg t).1 _ h'
    exact ⟨F, hF, fun x => ⟨hfit x, fun _ => rfl⟩⟩

/-- **C56.** The same for the class with general noise. -/
theorem C56_general_functions_read {r : UResolved PyFun₂} {p : GParams n m}
    (h : r.typedGen n m = some p) (t : ℕ) :
    (∀ f, p.f.at t = .ok f → ∃ F, r.f.at t = .ok F ∧ ReadsAs₂ n n n F f) ∧
    (∀ g, p.g.at t = .ok g → ∃ G, r.g.at t = .ok G ∧ ReadsAs₂ n m m G g) ∧
    (∀ e, p.f.at t = .error e ↔ r.f.at t = .error e) ∧
    ∀ e, p.g.at t = .error e ↔ r.g.at t = .error e := by
  simp only [UResolved.typedGen, bind, Option.bind_eq_some_iff, pure, Option.some.injEq] at h
  obtain ⟨f, hf, g, hg, Q, -, R, -, mu, -, S, -, rfl⟩ := h
  refine ⟨fun f' h' => ?_, fun g' h' => ?_, (Fns.typed_at hf t).2, (Fns.typed_at hg t).2⟩
  · obtain ⟨F, hF, hfit, rfl⟩ := (Fns.typed_at hf t).1 _ h'
    exact ⟨F, hF, fun x w => ⟨hfit x w, fun _ => rfl⟩⟩
  · obtain ⟨F, hF, hfit, rfl⟩ := (Fns.typed_at hg t).1 _ h'
    exact ⟨F, hF, fun x w => ⟨hfit x w, fun _ => rfl⟩⟩

/-- The hypothesis of `C56_functions_read` is satisfiable, with transition functions that change with
time; at the second step the function read is the second one. -/
example : ∃ p : UParams 1 1, UResolved.typedAdd
    ⟨.nested [[pySin], [pyId]], .flat [pyId], ndEye 1 1, ndEye 1 1, ndZeros 1, ndEye 1 1⟩ 1 1
      = some p ∧ ∃ f, p.f.at 1 = .ok f ∧ ReadsAs₁ 1 1 pyId f := by
  have e1 : (ndEye 1 1).toMat 1 1 = some (1 : Mat 1 1) := MatMeans.toMat (.inl ⟨rfl, rfl⟩)
  have e2 : (ndZeros 1).toVec 1 = some (0 : Vec 1) := VecMeans.toVec (.inl ⟨rfl, rfl⟩)
  have hf : (Fns.nested [[pySin], [pyId]]).typed (Fits₁ 1 1) (typed₁ 1 1)
      = some (.nested [[typed₁ 1 1 pySin], [typed₁ 1 1 pyId]]) := by
    refine if_pos fun F hF => ?_
    simp only [Fns.members, List.flatten_cons, List.flatten_nil, List.mem_append, List.mem_singleton,
      List.not_mem_nil, or_false] at hF
    rcases hF with rfl | rfl <;> exact fun x => rfl
  have hg : (Fns.flat [pyId]).typed (Fits₁ 1 1) (typed₁ 1 1) = some (.flat [typed₁ 1 1 pyId]) := by
    refine if_pos fun F hF => ?_
    simp only [Fns.members, List.mem_singleton] at hF
    subst hF
    exact fun x => rfl
  refine ⟨⟨.nested [[typed₁ 1 1 pySin], [typed₁ 1 1 pyId]], .flat [typed₁ 1 1 pyId], 1, 1, 0, 1⟩,
    ?_, _, rfl, fun x => ⟨rfl, fun _ => rfl⟩⟩
  simp only [UResolved.typedAdd, hf, hg, e1, e2, bind, Option.bind, pure]

/-- The function `lambda x, w: np.sin(x) + w`. -/
noncomputable def pySinPlus : PyFun₂ :=
  fun x w => ⟨x.shape, fun i => Real.sin (x.data i) + w.data i⟩

/-- The hypothesis of `C56_general_functions_read` is satisfiable. -/
example : ∃ p : GParams 1 1, UResolved.typedGen
    ⟨.nested [[pySinPlus], [pySinPlus]], .flat [pySinPlus], ndEye 1 1, ndEye 1 1, ndZeros 1,
      ndEye 1 1⟩ 1 1 = some p := by
  have e1 : (ndEye 1 1).toMat 1 1 = some (1 : Mat 1 1) := MatMeans.toMat (.inl ⟨rfl, rfl⟩)
  have e2 : (ndZeros 1).toVec 1 = some (0 : Vec 1) := VecMeans.toVec (.inl ⟨rfl, rfl⟩)
  have hF : ∀ fs : Fns PyFun₂, (∀ F ∈ fs.members, F = pySinPlus) →
      fs.typed (Fits₂ 1 1 1) (typed₂ 1 1 1) = some (fs.mapAll (typed₂ 1 1 1)) :=
    fun fs h => if_pos fun F hm => h F hm ▸ fun x w => rfl
  have hf := hF (.nested [[pySinPlus], [pySinPlus]]) (by simp [Fns.members])
  have hg := hF (.flat [pySinPlus]) (by simp [Fns.members])
  refine ⟨⟨(Fns.nested [[pySinPlus], [pySinPlus]]).mapAll (typed₂ 1 1 1),
    (Fns.flat [pySinPlus]).mapAll (typed₂ 1 1 1), 1, 1, 0, 1⟩, ?_⟩
  simp only [UResolved.typedGen, hf, hg, e1, e2, bind, Option.bind, pure]

end Verif
