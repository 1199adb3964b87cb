import Verif.Model.Standard

/-!
# Vocabulary for leaving out one row (C115)
-/

namespace Verif

variable {m : ℕ}

/-- `os'` is `os` with row `k` masked: the other rows are the same, and some component of row `k` is
masked. -/
structure MaskedAt (k : ℕ) (os os' : List (Obs m)) : Prop where
  len : os'.length = os.length
  rows : ∀ t, t ≠ k → os'[t]? = os[t]?
  hidden : ∀ o, os'[k]? = some o → ∃ i, o.mask i = true

end Verif
