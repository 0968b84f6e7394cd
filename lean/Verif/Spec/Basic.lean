import Verif.Model.NdArr

/-!
# Specification vocabulary: broadcasting
-/

namespace Npplus.Spec

/-- `sh` is the common shape to which numpy broadcasts arrays of the shapes `ss`: it has as many axes as the
longest, and counted from the last axis every array has the length of `sh` or 1 (missing axes count as 1). -/
structure Common (ss : List (List ℕ)) (sh : List ℕ) : Prop where
  len : ∀ s ∈ ss, s.length ≤ sh.length
  maxlen : ∃ s ∈ ss, s.length = sh.length
  fits : ∀ s ∈ ss, ∀ k, rdim s k = rdim sh k ∨ rdim s k = 1
  hit : ∀ k, ∃ s ∈ ss, rdim s k = rdim sh k

/-- The element `idx` of `a` after broadcasting it. -/
def bget {α : Type} (a : NdArr α) (idx : List ℕ) : α := a.get (bcIdx a.shape idx)

end Npplus.Spec
