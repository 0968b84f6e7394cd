import Verif.Np

/-!
# numpy shapes and broadcasting (library behaviour)
-/

namespace Npplus

/-- Broadcast of two shapes given *innermost axis first*. -/
def bcastRev : List ℕ → List ℕ → Option (List ℕ)
  | [], b => some b
  | a, [] => some a
  | a :: s, b :: t =>
    match bcastRev s t with
    | none => none
    | some r =>
      if a = b then some (a :: r) else if a = 1 then some (b :: r)
      else if b = 1 then some (a :: r) else none

/-- numpy's broadcasting rule: align shapes at the last axis; equal or 1. -/
def bcastShape (s t : List ℕ) : Except PyErr (List ℕ) :=
  match bcastRev s.reverse t.reverse with
  | some r => .ok r.reverse
  | none => .error .valueError

end Npplus
