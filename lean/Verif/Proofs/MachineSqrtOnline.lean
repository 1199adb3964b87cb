import Verif.Proofs.MachineSqrt

/-!
# One step of the square root filters on the numbers of a machine
-/

namespace Verif.SMachine

variable {M : SMachine} {n m : ℕ}

theorem cholStep_update {p : M.Par n m} {t : ℕ} {a : M.toMachine.Args n m} (ha : a.For p t)
    {Q2 : M.A n n} {R2 : M.A m m} (hQ : cholParam p.Q = .ok Q2) (hR : cholParam p.R = .ok R2)
    (S2 : M.A n n) (s : M.CSt n) {cov : M.A n n} (hc : M.cholL n cov = .ok s.filtCov2)
    (o : M.Row m) :
    cholUpdate p s.filtMean cov (some o) a
      = (cholStep p Q2 R2 S2 (t + 1) (some s) o).map fun s => (s.filtMean, reconstruct s.filtCov2) := by
  obtain ⟨A, hA, hA'⟩ := Machine.argOrDefault_supplied ha.A
  obtain ⟨b, hb, hb'⟩ := Machine.argOrDefault_supplied ha.b
  obtain ⟨Q, hQ1, hQ'⟩ := Machine.argOrDefault_supplied ha.Q
  obtain ⟨C, hC, hC'⟩ := Machine.argOrDefault_supplied ha.C
  obtain ⟨d, hd, hd'⟩ := Machine.argOrDefault_supplied ha.d
  obtain ⟨R, hR1, hR'⟩ := Machine.argOrDefault_supplied ha.R
  have hQ2 : M.cholL n Q = .ok Q2 := by
    cases h : p.Q with
    | const Q0 => rw [h] at hQ hQ'; cases hQ'; exact hQ
    | seq l => rw [h] at hQ; cases hQ
  have hR2 : M.cholL m R = .ok R2 := by
    cases h : p.R with
    | const R0 => rw [h] at hR hR'; cases hR'; exact hR
    | seq l => rw [h] at hR; cases hR
  simp only [cholUpdate, cholStep, UMachine.observed, hA, hb, hQ1, hC, hd, hR1, hA', hb', hC', hd',
    hQ2, hR2, hc, Nat.add_sub_cancel, Bind.bind, Except.bind, Pure.pure, Except.pure]
  cases cholPredict A Q2 b s.filtMean s.filtCov2 with
  | error e => rfl
  | ok pred =>
    simp only
    cases cholCorrect C R2 d pred.1 pred.2 o <;> rfl

theorem cholFilter_append {p : M.Par n m} {xs : List (M.Row m)} {l : List (M.CSt n)}
    (h : cholFull p xs = .ok l) {s : M.CSt n} (hs : l.getLast? = some s)
    {a : M.toMachine.Args n m} (ha : a.For p (xs.length - 1))
    (hc : M.cholL n (reconstruct s.filtCov2) = .ok s.filtCov2) (o : M.Row m) :
    cholFilter p (xs ++ [o]) = (cholUpdate p s.filtMean (reconstruct s.filtCov2) (some o) a).map
      fun r => l.map (fun s => (s.filtMean, reconstruct s.filtCov2)) ++ [r] := by
  have h' := h
  unfold cholFull at h
  obtain ⟨Q2, hQ, h⟩ := ok_bind_iff.mp h
  obtain ⟨R2, hR, h⟩ := ok_bind_iff.mp h
  obtain ⟨S2, hS, h⟩ := ok_bind_iff.mp h
  have hlen := UMachine.run_length h
  have hpos : 0 < xs.length := by
    rw [← hlen]
    cases l with
    | nil => cases hs
    | cons => simp
  rw [cholStep_update ha hQ hR S2 s hc o, cholFilter, cholRows, cholFull, hQ, hR, hS]
  simp only [Bind.bind, Except.bind]
  rw [UMachine.run_append, h]
  simp only [Bind.bind, Except.bind, hs, Option.some_or, zero_add, UMachine.run]
  rw [show xs.length - 1 + 1 = xs.length by omega]
  cases cholStep p Q2 R2 S2 xs.length (some s) o with
  | error e => rfl
  | ok s' =>
    simp only [Except.map, Pure.pure, Except.pure, List.map_map, List.map_append]
    rfl

theorem dotRows_map (hc : M.ColumnWise) (h1 : M.SingleColumn) (inv : M.A m m) (l : List (M.V m)) :
    dotRows inv l = l.map fun v => M.dotV m m inv v := by
  refine List.ext_getElem (by rw [dotRows_length, List.length_map]) fun j hj hj' => ?_
  have hj1 : j < l.length := by simpa using hj'
  rw [dotRows_getElem inv l j hj hj1, List.getElem_map]
  funext i
  rw [hc m m l.length 1 inv _ (fun i _ => l[j] i) ⟨j, hj1⟩ 0 (fun i => rfl) i, h1]

theorem dotOffsets_map (hc : M.ColumnWise) (h1 : M.SingleColumn) (inv : M.A m m) (d : TV (M.V m)) :
    dotOffsets inv d = d.map fun v => M.dotV m m inv v := by
  cases d with
  | const d => rfl
  | seq l => exact congrArg TV.seq (dotRows_map hc h1 inv l)

theorem dotRowsMasked_map (hc : M.ColumnWise) (h1 : M.SingleColumn) (inv : M.A m m)
    (os : List (M.Row m)) :
    dotRowsMasked inv os = os.map fun o => ⟨M.dotV m m inv o.val, o.mask⟩ := by
  rw [dotRowsMasked, dotRows_map hc h1]
  induction os with
  | nil => rfl
  | cons o os ih => rw [List.map_cons, List.map_cons, List.zipWith_cons_cons, ih]; rfl

theorem bierStep_update {p : M.Par n m} {t : ℕ} {a : M.toMachine.Args n m} (ha : a.For p t)
    {R2 inv : M.A m m} (hQc : p.Q.IsConst) (hR : cholParam p.R = .ok R2)
    (hinv : M.pinv m R2 = .ok inv) (S0 : M.UD n) (s : M.BSt n) {cov : M.A n n}
    {store : M.F → M.F} (hc : udu store cov = .ok s.filtCov) (o : M.Row m) :
    bierUpdate store p s.filtMean cov (some o) a
      = (bierStep p (p.C.map fun X => M.dotM m m n inv X) (p.d.map fun v => M.dotV m m inv v) S0
          (t + 1) (some s) ⟨M.dotV m m inv o.val, o.mask⟩).map
          fun s => (s.filtMean, s.filtCov.reconstruct) := by
  obtain ⟨A, hA, hA'⟩ := Machine.argOrDefault_supplied ha.A
  obtain ⟨b, hb, hb'⟩ := Machine.argOrDefault_supplied ha.b
  obtain ⟨Q, hQ1, hQ'⟩ := Machine.argOrDefault_supplied ha.Q
  obtain ⟨C, hC, hC'⟩ := Machine.argOrDefault_supplied ha.C
  obtain ⟨d, hd, hd'⟩ := Machine.argOrDefault_supplied ha.d
  obtain ⟨R, hR1, hR'⟩ := Machine.argOrDefault_supplied ha.R
  obtain ⟨Q0, hQ0⟩ := hQc
  rw [hQ0] at hQ' hQ1
  cases hQ'
  have hR2 : M.cholL m R = .ok R2 := by
    cases h : p.R with
    | const R0 => rw [h] at hR hR'; cases hR'; exact hR
    | seq l => rw [h] at hR; cases hR
  simp only [bierUpdate, bierStep, UMachine.observed, hA, hb, hQ1, hC, hd, hR1, hA', hb',
    lastDims_map, hC', hd', hQ0, hR2, hinv, hc, Nat.add_sub_cancel, Bind.bind, Except.bind,
    Pure.pure, Except.pure, Except.map]
  cases bierPredict A Q b s.filtMean s.filtCov <;> rfl

theorem bierFilter_append (hcw : M.ColumnWise) (h1 : M.SingleColumn) {store store' : M.F → M.F}
    {p : M.Par n m} (hQc : p.Q.IsConst) {xs : List (M.Row m)} {l : List (M.BSt n)}
    (h : bierFull store p xs = .ok l) {s : M.BSt n} (hs : l.getLast? = some s)
    {a : M.toMachine.Args n m} (ha : a.For p (xs.length - 1))
    (hc : udu store' s.filtCov.reconstruct = .ok s.filtCov) (o : M.Row m) :
    bierFilter store p (xs ++ [o])
      = (bierUpdate store' p s.filtMean s.filtCov.reconstruct (some o) a).map
        fun r => l.map (fun s => (s.filtMean, s.filtCov.reconstruct)) ++ [r] := by
  unfold bierFull at h
  obtain ⟨S0, hS, h⟩ := ok_bind_iff.mp h
  obtain ⟨r, hr, h⟩ := ok_bind_iff.mp h
  unfold decorrelate at hr
  obtain ⟨R2, hR, hr⟩ := ok_bind_iff.mp hr
  obtain ⟨inv, hinv, hr⟩ := ok_bind_iff.mp hr
  cases hr
  have hlen := UMachine.run_length h
  rw [dotRowsMasked_length] at hlen
  have hpos : 0 < xs.length := by
    rw [← hlen]
    cases l with
    | nil => cases hs
    | cons => simp
  rw [bierStep_update ha hQc hR hinv S0 s hc o, bierFilter, bierRows, bierFull, hS, decorrelate, hR]
  simp only [Bind.bind, Except.bind, Pure.pure, Except.pure, hinv]
  simp only [dotRowsMasked_map hcw h1, dotOffsets_map hcw h1] at h ⊢
  rw [List.map_append, UMachine.run_append, h]
  simp only [Bind.bind, Except.bind, hs, Option.some_or, zero_add, UMachine.run, List.map_cons,
    List.map_nil, List.length_map]
  rw [show xs.length - 1 + 1 = xs.length by omega]
  cases bierStep p _ _ S0 xs.length (some s) _ with
  | error e => rfl
  | ok s' =>
    cases l with
    | nil => cases hs
    | cons s0 l =>
      simp only [Except.map, Pure.pure, Except.pure, List.map_map, List.map_append, List.cons_append,
        List.map_cons]
      rfl

theorem sqStep_update {p : M.UPar n m} {t : ℕ} {a : M.UArgs n m} (ha : a.For p t)
    {Q2 : M.A n n} {R2 : M.A m m} (hQ : M.chol n p.Q = .ok Q2) (hR : M.chol m p.R = .ok R2)
    (s : M.Mom n) {cov : M.A n n} (hc : M.chol n cov = .ok s.cov) (o : M.Row m) :
    sqUpdate p ⟨s.mean, cov⟩ (some o) a = (sqStep p Q2 R2 (t + 1) (some s) o).map unroot := by
  obtain ⟨f, hf, hf'⟩ := UMachine.supplied ha.f
  obtain ⟨g, hg, hg'⟩ := UMachine.supplied ha.g
  simp only [sqUpdate, sqStep, UMachine.observed, hf, hg, hf', hg',
    UMachine.getD_supplied ha.Q, UMachine.getD_supplied ha.R, hQ, hR, hc, Nat.add_sub_cancel,
    Bind.bind, Except.bind, Pure.pure, Except.pure]
  cases (sqMoments2points s).through f with
  | error e => rfl
  | ok q =>
    simp only
    cases sqPoints2moments q (some Q2) with
    | error e => rfl
    | ok pred =>
      simp only
      cases sqCorrect g pred (sqMoments2points pred) o R2 <;> rfl

theorem sqFilter_append {p : M.UPar n m} {xs : List (M.Row m)} {l : List (M.Mom n)}
    (h : sqFull p xs = .ok l) {s : M.Mom n} (hs : l.getLast? = some s)
    {a : M.UArgs n m} (ha : a.For p (xs.length - 1))
    (hc : M.chol n (unroot s).cov = .ok s.cov) (o : M.Row m) :
    sqFilter p (xs ++ [o]) = (sqUpdate p (unroot s) (some o) a).map
      fun r => l.map unroot ++ [r] := by
  unfold sqFull at h
  obtain ⟨Q2, hQ, h⟩ := ok_bind_iff.mp h
  obtain ⟨R2, hR, h⟩ := ok_bind_iff.mp h
  have hlen := UMachine.run_length h
  have hpos : 0 < xs.length := by
    rw [← hlen]
    cases l with
    | nil => cases hs
    | cons => simp
  have e := sqStep_update ha hQ hR s hc o
  rw [show (⟨s.mean, (unroot s).cov⟩ : M.Mom n) = unroot s from rfl] at e
  rw [e, sqFilter, sqFull, hQ, hR]
  simp only [Bind.bind, Except.bind]
  rw [UMachine.run_append, h]
  simp only [Bind.bind, Except.bind, hs, Option.some_or, zero_add, UMachine.run]
  rw [show xs.length - 1 + 1 = xs.length by omega]
  cases sqStep p Q2 R2 xs.length (some s) o with
  | error e => rfl
  | ok s' =>
    simp only [Except.map, Pure.pure, Except.pure, List.map_append]
    rfl

end Verif.SMachine
