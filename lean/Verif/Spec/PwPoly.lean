import Verif.Model.PwPoly
import Verif.Spec.Poly

/-!
# Specification vocabulary: piecewise polynomials

What a user knows about a PwPoly: knots `xk`, `K+1` coefficient lists, and which piece a point
belongs to.  Nothing here refers to `searchsorted` or to the evaluation code.
-/

namespace Npplus.Spec

variable {K : Type} [Field K] [LinearOrder K] {V : Type} [AddCommGroup V] [Module K V]

/-- `x` belongs to piece `i`: the knots numbered below `i` are left of `x`, the others are not. -/
def InPiece (xk : List K) (i : ℕ) (x : K) : Prop :=
  i ≤ xk.length ∧ (∀ j (h : j < xk.length), j < i → xk[j] < x) ∧
    ∀ j (h : j < xk.length), i ≤ j → x ≤ xk[j]

/-- The origin of piece `i`: the knot at its left end, and the first knot for the piece before the
first knot. -/
def origin (xk : List K) (i : ℕ) : K := xk.getD (i - 1) 0

/-- A well formed PwPoly: at least one knot, strictly increasing knots, one coefficient list more
than knots, all with the same number (at least one) of coefficients. -/
structure WF (p : PwPoly K V) : Prop where
  ne : p.xk ≠ []
  inc : p.xk.Pairwise (· < ·)
  len : p.c.length = p.xk.length + 1
  pos : 1 ≤ p.n
  row : ∀ l ∈ p.c, l.length = p.n

/-- The coefficients of piece `i`. -/
def piece (p : PwPoly K V) (i : ℕ) : List V := p.c.getD i []

/-- The value at `x` of the polynomial of piece `i` (`x` need not be in the piece). -/
def pieceVal (p : PwPoly K V) (i : ℕ) (x : K) : V := polyVal (piece p i) (x - origin p.xk i)

/-- The `k`-th derivative at `x` of the polynomial of piece `i`. -/
def pieceDeriv (p : PwPoly K V) (i : ℕ) (x : K) (k : ℕ) : V :=
  polyDeriv (piece p i) (x - origin p.xk i) k

/-- The two pieces meeting at knot `j` have the same `k`-th derivative there. -/
def MatchAt (p : PwPoly K V) (k j : ℕ) : Prop :=
  pieceDeriv p j (p.xk.getD j 0) k = pieceDeriv p (j + 1) (p.xk.getD j 0) k

/-- Continuous function. -/
def Continuous (p : PwPoly K V) : Prop := ∀ j < p.xk.length, MatchAt p 0 j

/-- `P` is the integral of `p` which is `v` at `lbnd`: same knots, the derivative of every piece is
the piece of `p`, continuous, and with the given value at `lbnd`. -/
structure IsIntegral (p P : PwPoly K V) (lbnd : K) (v : V) : Prop where
  xk : P.xk = p.xk
  deriv : ∀ i x k, pieceDeriv P i x (k + 1) = pieceDeriv p i x k
  cont : Continuous P
  val : ∀ i, InPiece p.xk i lbnd → pieceVal P i lbnd = v

/-- Repeated integration, one constant for each. -/
inductive IsIntegrals (lbnd : K) : PwPoly K V → List V → PwPoly K V → Prop
  | done (p) : IsIntegrals lbnd p [] p
  | step {p P Q : PwPoly K V} {v : V} {ks : List V} :
      IsIntegral p P lbnd v → IsIntegrals lbnd P ks Q → IsIntegrals lbnd p (v :: ks) Q

end Npplus.Spec
