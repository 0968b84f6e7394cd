import Mathlib.Data.Int.Notation
import Mathlib.Order.Lattice
import Mathlib.Algebra.Order.Ring.Int
/-!
# Specification of Python's slices, independent of the model
-/
namespace Npplus

/-- a negative index counts from the end -/
def Spec.fromEnd (d : ℕ) (i : ℤ) : ℤ := if i < 0 then i + d else i

/-- The indices of `start:stop:step` on an axis of length `d` (Python's description): with a positive step, in increasing order, the indices from
`start` on (default the first), below `stop` if there is one, in steps of `step`; with a negative step, in decreasing order, those from `start` down
(default the last), above `stop` if there is one.  A start beyond the axis means its nearest end. -/
def Spec.SliceOf (d : ℕ) (start stop : Option ℤ) (s : ℤ) (l : List ℕ) : Prop :=
  (0 < s → l.Pairwise (· < ·) ∧ ∀ x : ℕ, x ∈ l ↔ x < d ∧ max 0 (Spec.fromEnd d (start.getD 0)) ≤ x ∧ (∀ b ∈ stop, (x : ℤ) < Spec.fromEnd d b) ∧
    s ∣ (x - max 0 (Spec.fromEnd d (start.getD 0)))) ∧
  (s < 0 → l.Pairwise (· > ·) ∧ ∀ x : ℕ, x ∈ l ↔ x < d ∧ (x : ℤ) ≤ min (d - 1 : ℤ) (Spec.fromEnd d (start.getD (d - 1))) ∧
    (∀ b ∈ stop, Spec.fromEnd d b < (x : ℤ)) ∧ s ∣ (min (d - 1 : ℤ) (Spec.fromEnd d (start.getD (d - 1))) - x))

end Npplus
