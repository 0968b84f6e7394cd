import Mathlib.LinearAlgebra.Matrix.Determinant.Basic
import Mathlib.Algebra.Module.Basic

/-!
# Specification vocabulary: band matrices and linear systems

An array of shape `(m, n)` is a function of two indices with explicit dimensions.
-/

namespace Npplus

/-- A two dimensional numpy array: its shape and its elements (indices beyond the shape: junk). -/
structure Arr2 (K : Type) where
  m : ℕ
  n : ℕ
  get : ℕ → ℕ → K

namespace Spec

variable {K : Type} [Field K] {V : Type} [AddCommGroup V] [Module K V]

/-- The band matrix of LAPACK/scipy diagonal ordered form: `a[i,j] = ab[u+i-j, j]` for
`j - u ≤ i ≤ j + l`, 0 elsewhere. -/
def bandMat (l u : ℕ) (ab : ℕ → ℕ → K) (i j : ℕ) : K :=
  if j ≤ u + i ∧ i ≤ j + l then ab (u + i - j) j else 0

/-- The cyclic band matrix: element `ab[r,j]` belongs to equation `i = j + r - u` modulo `n`. -/
def cyclicMat (n l u : ℕ) (ab : ℕ → ℕ → K) (i j : ℕ) : K :=
  ∑ r ∈ Finset.range (l + u + 1), if (i + u) % n = (j + r) % n then ab r j else 0

/-- `x` solves the `n × n` system `a x = b`. -/
def Solves (n : ℕ) (a : ℕ → ℕ → K) (x b : ℕ → V) : Prop :=
  ∀ i < n, ∑ j ∈ Finset.range n, a i j • x j = b i

/-- The `n × n` matrix is nonsingular. -/
def Nonsing (n : ℕ) (a : ℕ → ℕ → K) : Prop :=
  (Matrix.of fun i j : Fin n => a i j).det ≠ 0

end Spec
end Npplus
