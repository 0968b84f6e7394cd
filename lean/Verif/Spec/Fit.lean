import Verif.Spec.PwPoly
import Mathlib.Algebra.BigOperators.Group.Finset.Basic
import Mathlib.Algebra.BigOperators.Pi

/-!
# Specification vocabulary: least squares fits (docstring pwpoly.py:1139-1231)
-/

namespace Npplus.Spec

variable {K : Type} [Field K] [LinearOrder K] {V : Type} [AddCommGroup V] [Module K V] {m : ℕ}

/-- `g` is a polyline with the knots `xk`: a linear function on every closed interval between neighbouring
knots (so it is continuous at the interior knots). -/
def IsPolyline (xk : List K) (g : K → V) : Prop :=
  ∀ j, j + 1 < xk.length → ∃ a b : V, ∀ t, xk.getD j 0 ≤ t → t ≤ xk.getD (j + 1) 0 → g t = a + t • b

/-- `chi2 = sum(((f(x)-y)/sigy)**2)`, over all points and components. -/
def chi2 (x : List K) (y sig : List (Fin m → K)) (f : K → Fin m → K) : K :=
  ∑ t ∈ Finset.range x.length, ∑ i, ((f (x.getD t 0) i - y.getD t 0 i) / sig.getD t 0 i) ^ 2

/-- The knots of a fit: the given ones, in increasing order, and the smallest (largest) abscissa of the data when
it is beyond them. -/
structure FitKnots (xk x xk' : List K) : Prop where
  inc : xk'.Pairwise (· < ·)
  mem : ∀ t, t ∈ xk' ↔ t ∈ xk ∨ (t ∈ x ∧ (∀ s ∈ x, t ≤ s) ∧ ∀ k ∈ xk, t < k) ∨
    (t ∈ x ∧ (∀ s ∈ x, s ≤ t) ∧ ∀ k ∈ xk, k < t)

/-- `g` is a piecewise polynomial of degree (at most) `n` between the knots `xk`; `C j` are the coefficients in the
interval from `xk[j]` to `xk[j+1]`, in powers of the distance from `xk[j]`.  An interior knot belongs to the interval
on its left. -/
def IsPwOn (xk : List K) (n : ℕ) (C : ℕ → List V) (g : K → V) : Prop :=
  ∀ j, j + 1 < xk.length → (C j).length = n + 1 ∧
    ∀ t, (xk.getD j 0 < t ∨ j = 0 ∧ xk.getD 0 0 = t) → t ≤ xk.getD (j + 1) 0 → g t = polyVal (C j) (t - xk.getD j 0)

/-- The `k`-th coefficient (`k`-th derivative over `k!`) of interval `j` at its right end `xk[j+1]`. -/
def rightCoeff (xk : List K) (C : ℕ → List V) (j k : ℕ) : V := taylorCoeff (C j) (xk.getD (j + 1) 0 - xk.getD j 0) k

/-- The jump of the `k`-th coefficient at `xk[j+1]`, from interval `j` to interval `j+1`. -/
def jump (xk : List K) (C : ℕ → List V) (j k : ℕ) : V := (C (j + 1)).getD k 0 - rightCoeff xk C j k

/-- Continuous derivatives of order `0,…,nc` at the interior knots. -/
def SmoothTo (xk : List K) (nc : ℕ) (C : ℕ → List V) : Prop :=
  ∀ j, j + 2 < xk.length → ∀ k ≤ nc, jump xk C j k = 0

/-- The first coefficients at the first knot are `lo`, those at the last knot are `hi`. -/
def EndValues (xk : List K) (C : ℕ → List V) (lo hi : List V) : Prop :=
  (∀ k < lo.length, (C 0).getD k 0 = lo.getD k 0) ∧ ∀ k < hi.length, rightCoeff xk C (xk.length - 2) k = hi.getD k 0

/-- `g` is a periodic piecewise polynomial function with the period `xk[-1]-xk[0]`, of degree at most `n` between the
knots; `C j` as in `IsPwOn`.  (The value at `xk[-1]` is the one at `xk[0]`, which is that of the first interval.) -/
def IsPwPer [IsStrictOrderedRing K] (xk : List K) (n : ℕ) (C : ℕ → List V) (g : K → V) : Prop :=
  (∀ t (k : ℤ), g (t + k * (xk.getD (xk.length - 1) 0 - xk.getD 0 0)) = g t) ∧
  ∀ j, j + 1 < xk.length → (C j).length = n + 1 ∧
    ∀ t, (xk.getD j 0 < t ∨ j = 0 ∧ xk.getD 0 0 = t) → t ≤ xk.getD (j + 1) 0 → t < xk.getD (xk.length - 1) 0 →
      g t = polyVal (C j) (t - xk.getD j 0)

/-- The jump of the `k`-th coefficient at `xk[j+1]`, from interval `j` to the next one; the interval after the last one
is the first one, one period later. -/
def perJump (xk : List K) (C : ℕ → List V) (j k : ℕ) : V :=
  (C ((j + 1) % (xk.length - 1))).getD k 0 - rightCoeff xk C j k

end Npplus.Spec
