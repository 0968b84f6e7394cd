import Verif.Np
import Mathlib.Algebra.BigOperators.Group.Finset.Basic
import Mathlib.Data.Nat.Choose.Basic
import Mathlib.Data.Nat.Factorial.Basic

/-!
# Specification vocabulary: polynomials given by coefficient lists

Written without reference to the code: the value of a polynomial and its derivatives as explicit
sums of powers.
-/

namespace Npplus.Spec

open Finset

variable {K : Type*} [Field K] {V : Type*} [AddCommGroup V] [Module K V]

/-- `c[0] + c[1] x + c[2] x² + ...` -/
def polyVal (c : List V) (x : K) : V := ∑ i ∈ range c.length, x ^ i • c.getD i 0

/-- The `k`-th derivative at `x` divided by `k!`: `Σ_i (i choose k) x^(i-k) c[i]`. -/
def taylorCoeff (c : List V) (x : K) (k : ℕ) : V :=
  ∑ i ∈ range c.length, ((i.choose k : K) * x ^ (i - k)) • c.getD i 0

/-- The `k`-th derivative at `x`: `Σ_i i(i-1)...(i-k+1) x^(i-k) c[i]`. -/
def polyDeriv (c : List V) (x : K) (k : ℕ) : V :=
  ∑ i ∈ range c.length, ((i.descFactorial k : K) * x ^ (i - k)) • c.getD i 0

end Npplus.Spec
