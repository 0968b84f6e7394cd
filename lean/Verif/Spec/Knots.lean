import Verif.Spec.PwPoly

/-! # Specification vocabulary: unions of knot arrays -/

namespace Npplus.Spec
variable {K : Type} [Field K] [LinearOrder K]

/-- Every knot interval of `xk` is at most `D` wide. -/
def GapsLE (D : K) (xk : List K) : Prop := ∀ j (h : j + 1 < xk.length), xk[j + 1] - xk[j] ≤ D

/-- Different knots of the two arrays differ by more than `tol` times `D`, where no knot interval is
wider than `D` (two one-knot arrays have no interval: there `D` is at least `1 + |y|`). -/
structure Separated (tol D : K) (xk yk : List K) : Prop where
  nonneg : 0 ≤ D
  gx : GapsLE D xk
  gy : GapsLE D yk
  single : xk.length ≤ 1 → yk.length ≤ 1 → ∀ y ∈ yk, 1 + |y| ≤ D
  far : ∀ x ∈ xk, ∀ y ∈ yk, x = y ∨ tol * D < |x - y|

/-- Strictly increasing and not empty. -/
structure Knots (xk : List K) : Prop where
  ne : xk ≠ []
  inc : xk.Pairwise (· < ·)

/-- Two points lie in the same interval of the knots. -/
def SameInterval (xk : List K) (x y : K) : Prop := ∃ i, InPiece xk i x ∧ InPiece xk i y

end Npplus.Spec
