import Verif.Spec.PwPoly
import Mathlib.LinearAlgebra.Matrix.Notation

/-!
# Specification vocabulary: solutions of p(x) = v

Written without reference to the root finding code.
-/

namespace Npplus.Spec

variable {K : Type} [Field K] [LinearOrder K]

/-- `p` jumps across `v` (or reaches it from one side) at knot number `j`: the values on the two
sides are not both above or both below `v`. -/
def JumpsAcross (p : PwPoly K K) (v : K) (j : ℕ) : Prop :=
  j < p.xk.length ∧
    (pieceVal p j (p.xk.getD j 0) - v) * (pieceVal p (j + 1) (p.xk.getD j 0) - v) ≤ 0

/-- The unit of length of piece `i`: the distance of the knots at its ends; that of the neighbouring
piece for the two semi-infinite ones; 1 when there is a single knot. -/
def width (xk : List K) (i : ℕ) : K :=
  if xk.length = 1 then 1
  else xk.getD (min (max i 1) (xk.length - 1)) 0 - xk.getD (min (max i 1) (xk.length - 1) - 1) 0

/-- The coefficients of `p - v` on piece `i` in the variable `t = (x - origin)/width`. -/
def unitCoef (p : PwPoly K K) (v : K) (i k : ℕ) : K :=
  (piece p i).getD k 0 * width p.xk i ^ k - if k = 0 then v else 0

/-- The same, but expanded around the right end of the piece. -/
def endCoef (p : PwPoly K K) (v : K) (i k : ℕ) : K :=
  taylorCoeff (piece p i) (if i = 0 then 0 else width p.xk i) k * width p.xk i ^ k -
    if k = 0 then v else 0

/-- Among the `n` numbers `a 0, ..., a (n-1)` there are two consecutive ones exactly one of which is
negative. -/
def SignChange (n : ℕ) (a : ℕ → K) : Prop := ∃ k, k + 1 < n ∧ (a (k + 1) < 0 ↔ ¬ a k < 0)

/-- Descartes' rule of signs, applied at the two ends of piece `i`, does not exclude a solution of
`p = v` in that piece. -/
def MayVanish (p : PwPoly K K) (v : K) (i : ℕ) : Prop :=
  i ≤ p.xk.length ∧ (0 < i → SignChange p.n (unitCoef p v i)) ∧
    (i < p.xk.length → SignChange p.n (fun k => (-1) ^ k * endCoef p v i k))

/-- The degree of `p` on piece `i` (0 for a constant). -/
def pieceDeg (p : PwPoly K K) (i : ℕ) : ℕ :=
  Nat.findGreatest (fun k => (piece p i).getD k 0 ≠ 0) (p.n - 1)

/-- No piece has a leading coefficient which is negligible (relative size `tol`, in units of the
width of the piece) compared to its other coefficients. -/
def NotNegligible (p : PwPoly K K) (v tol : K) : Prop :=
  ∀ i, MayVanish p v i → 1 ≤ pieceDeg p i → ∀ k < p.n,
    tol * |unitCoef p v i k| < |unitCoef p v i (pieceDeg p i)|

/-- Among the pieces which may vanish, those which are nonlinear come first. -/
def NonlinearFirst (p : PwPoly K K) (v : K) : Prop :=
  ∀ i j, MayVanish p v i → MayVanish p v j → i < j → 2 ≤ pieceDeg p j → 2 ≤ pieceDeg p i

/-- The piece before the first knot may vanish and is linear. -/
def LinFirst (p : PwPoly K K) (v : K) : Prop := MayVanish p v 0 ∧ pieceDeg p 0 = 1

/-- The piece after the last knot may vanish and is linear. -/
def LinLast (p : PwPoly K K) (v : K) : Prop :=
  MayVanish p v p.xk.length ∧ pieceDeg p p.xk.length = 1

/-- All the pieces may vanish and are nonlinear. -/
def AllNonlinear (p : PwPoly K K) (v : K) : Prop :=
  ∀ i ≤ p.xk.length, MayVanish p v i ∧ 2 ≤ pieceDeg p i

/-- What the documentation of `roots` promises of every value returned: the function takes the value
`v` at `x`, or `x` is a knot where the function jumps across `v`. -/
def Solution (p : PwPoly K K) (v x : K) : Prop :=
  p.call x = v ∨ ∃ j, JumpsAcross p v j ∧ x = p.xk.getD j 0

/-- The contract of `numpy.linalg.eigvals` for a finite matrix, restricted to the eigenvalues which
are in the field: it lists exactly the eigenvalues, at most `n` of them. -/
structure EigSpec (E : (n : ℕ) → Matrix (Fin n) (Fin n) K → List K) : Prop where
  mem : ∀ (n : ℕ) (M : Matrix (Fin n) (Fin n) K) (t : K),
    t ∈ E n M ↔ ∃ u : Fin n → K, u ≠ 0 ∧ ∀ i, ∑ j, M i j * u j = t * u i
  len : ∀ (n : ℕ) (M : Matrix (Fin n) (Fin n) K), (E n M).length ≤ n

end Npplus.Spec
