import Verif.Spec.PwPoly

/-!
# Specification vocabulary: boundary conditions of splines (docstring pwpoly.py:842-868)

`lo` and `hi` are lists of optional values, item `q` being the Taylor coefficient of order `q+1`;
items beyond the end of the list are unspecified.
-/

namespace Npplus.Spec

variable {V : Type}

/-- Item `q`, `none` when not specified. -/
def bcItem (l : List (Option V)) (q : ℕ) : Option V := l.getD q none

/-- How many items are specified. -/
def bcCount (l : List (Option V)) : ℕ := (l.filter Option.isSome).length

/-- `lo'`, `hi'` complete the boundary conditions `lo`, `hi` of a degree `n` spline as the docstring
says: `n-1` values are specified in total, given values are kept, all the others are zero, and they are
the highest unspecified derivatives, `lo` before `hi` for the same order. -/
structure Completed [Zero V] (n : ℕ) (lo hi lo' hi' : List (Option V)) : Prop where
  total : bcCount lo' + bcCount hi' = n - 1
  len_lo : lo'.length ≤ n - 1
  len_hi : hi'.length ≤ n - 1
  keep_lo : ∀ q v, bcItem lo q = some v → bcItem lo' q = some v
  keep_hi : ∀ q v, bcItem hi q = some v → bcItem hi' q = some v
  /-- a new condition at `lo` is zero, and every derivative of higher order is specified -/
  new_lo : ∀ q v, bcItem lo q = none → bcItem lo' q = some v →
    v = 0 ∧ ∀ q', q < q' → q' < n - 1 → (bcItem lo' q').isSome ∧ (bcItem hi' q').isSome
  /-- a new condition at `hi` is zero, every derivative of higher order is specified, and so is the
  same derivative at `lo` -/
  new_hi : ∀ q v, bcItem hi q = none → bcItem hi' q = some v →
    v = 0 ∧ (bcItem lo' q).isSome ∧
      ∀ q', q < q' → q' < n - 1 → (bcItem lo' q').isSome ∧ (bcItem hi' q').isSome

end Npplus.Spec
