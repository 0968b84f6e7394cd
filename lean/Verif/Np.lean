import Mathlib.Algebra.Order.Field.Basic
import Mathlib.Algebra.Module.Basic

/-!
# Python / numpy primitives shared by the models

Exceptions are values.  These definitions model *library* behaviour (Python, numpy), not code of
/repo; they belong to the trusted base and are kept as small as possible.
-/

namespace Npplus

/-- The Python exceptions raised (explicitly or by numpy) on the modelled paths. -/
inductive PyErr where
  | typeError | valueError | indexError | keyError | attributeError | levmarError | linAlgError | stopIteration | importError
  deriving DecidableEq, Repr

section order
variable {K : Type*} [LinearOrder K]

/-- `numpy.searchsorted(xk, x)` (side='left') for a sorted `xk`: the number of elements `< x`.
Used at pwpoly.py:318, 393, 619, 655, 1445 and pcwise.py:75. -/
def searchsorted (xk : List K) (x : K) : ℕ := xk.countP (fun k => decide (k < x))

end order

end Npplus
