import Verif.Model.PwPoly
import Mathlib.LinearAlgebra.Matrix.Notation

/-!
# Model of `PwPoly.roots` (npplus/pwpoly.py:412-523)

Scalar piecewise polynomials only (`c.ndim != 2` raises TypeError, pwpoly.py:441-442).
`numpy.linalg.eigvals` followed by `isreal`/`real` is the parameter `E`: the list of the
eigenvalues of a matrix which lie in the field `K`.
-/

namespace Npplus

namespace Roots

variable {K : Type} [Field K] [LinearOrder K]

/-- pwpoly.py:440-444: `c = self.c.copy(); c[0] -= value` (skipped when `value` is zero, which makes
no difference). -/
def coef (p : PwPoly K K) (value : K) : List (List K) := p.c.map (PwPoly.addHead (-value))

/-- pwpoly.py:446 `dx = xk - xk0[:-1]`. -/
def dx0 (xk : List K) : List K := List.zipWith (· - ·) xk (PwPoly.mkXk0 xk).dropLast

/-- pwpoly.py:447 `cup = polyddx(c[:, :-1], dx)`: coefficients at the upper end of every piece but
the last. -/
def cup (p : PwPoly K K) (value : K) : List (List K) :=
  List.zipWith (fun l d => polyddxAll l d) (coef p value).dropLast (dx0 p.xk)

/-- pwpoly.py:448-450: the knots with `yhi*ylo <= 0`, `yhi = cup[0]`, `ylo = c[0, 1:]`. -/
def crossKnots (p : PwPoly K K) (value : K) : List K :=
  (List.zipWith (fun (x : K) (y : K × K) => (x, y)) p.xk
      (List.zipWith (fun (u l : List K) => (u.headD 0, l.headD 0)) (cup p value)
        (coef p value).tail)).filterMap
    (fun a => if a.2.1 * a.2.2 ≤ 0 then some a.1 else none)

/-- pwpoly.py:454-459: the width of every piece, `dx` (and `dxsave`). -/
def dxs (xk : List K) : List K :=
  let dx := dx0 xk
  if 1 < dx.length then
    let dx := dx.set 0 (dx.getD 1 0)
    dx ++ [dx.getLastD 0]
  else [1, 1]

/-- pwpoly.py:460-463, `dxn = [1, dx, dx**2, ...]` and `c *= dxn`, for one piece. -/
def scale (d : K) (l : List K) : List K := l.mapIdx (fun k a => a * d ^ k)

/-- The scaled coefficients of piece `i` (pwpoly.py:463). -/
def sc (p : PwPoly K K) (value : K) (i : ℕ) : List K :=
  scale ((dxs p.xk).getD i 0) ((coef p value).getD i [])

/-- The scaled coefficients at the upper end of piece `i` (pwpoly.py:464), with the sign of the odd
ones changed (pwpoly.py:468). -/
def scup (p : PwPoly K K) (value : K) (i : ℕ) : List K :=
  (scale ((dxs p.xk).getD i 0) ((cup p value).getD i [])).mapIdx
    (fun k a => if k % 2 = 1 then -a else a)

/-- pwpoly.py:466 and 469 `((c[1:] < 0) != (c[:-1] < 0)).sum(axis=0) > 0` for one piece. -/
def signChange (l : List K) : Bool :=
  (List.zipWith (fun a b => decide (b < 0) != decide (a < 0)) l l.tail).any id

/-- pwpoly.py:466-469, `maybe[i]`. -/
def maybe (p : PwPoly K K) (value : K) (i : ℕ) : Bool :=
  (if i = 0 then true else signChange (sc p value i)) &&
    (if i < p.xk.length then signChange (scup p value i) else true)

/-- pwpoly.py:471-473, the effective degree of one piece:
`deg = |c|; deg = ((deg > tol*deg.max()) * arange(n+1)).max()`. -/
def effDeg (tol : K) (l : List K) : ℕ :=
  let m := (l.map abs).foldl max 0
  (l.mapIdx (fun k a => if tol * m < |a| then k else 0)).foldl max 0

/-- pwpoly.py:470: the numbers of the pieces kept by the mask `maybe`. -/
def cols (p : PwPoly K K) (value : K) : List ℕ :=
  (List.range p.c.length).filter (fun i => maybe p value i)

/-- pwpoly.py:473 `deg`, one entry for each piece kept. -/
def degs (p : PwPoly K K) (value tol : K) : List ℕ :=
  (cols p value).map (fun i => effDeg tol (sc p value i))

/-- pwpoly.py:478 `xi = -cup[0, :] / cup[1, :]` for a linear piece. -/
def linXi (p : PwPoly K K) (value : K) (i : ℕ) : K :=
  -(sc p value i).getD 0 0 / (sc p value i).getD 1 0

/-- pwpoly.py:488, 505-510 `xi*dx + xk0`: back to the original variable in piece `i`. -/
def unscale (p : PwPoly K K) (i : ℕ) (xi : K) : K :=
  xi * (dxs p.xk).getD i 0 + p.xk0.getD i 0

/-- pwpoly.py:475-488: roots of the linear pieces.  `j` is the number of the piece, `k` its position
among the linear pieces. -/
def linRoots (p : PwPoly K K) (value tol : K) : List K :=
  let lin := (cols p value).filter (fun i => effDeg tol (sc p value i) == 1)
  let first := maybe p value 0 && (degs p value tol).getD 0 0 == 1
  let last := maybe p value p.xk.length && (degs p value tol).getLastD 0 == 1
  lin.zipIdx.filterMap fun (j, k) =>
    let xi := linXi p value j
    let mask : Bool :=
      if first then (if k = 0 then decide (xi ≤ 0) else decide (0 ≤ xi))
      else if !last then decide (0 ≤ xi) && decide (xi ≤ 1)
      else decide (0 ≤ xi)
    if mask then some (unscale p j xi) else none

/-- pwpoly.py:497-500: the companion matrix, ones below the diagonal and `-ci[:n]/ci[n]` in the last
column. -/
def companion (n : ℕ) (c : List K) : Matrix (Fin n) (Fin n) K := fun i j =>
  if j.val + 1 = n then -c.getD i.val 0 / c.getD n 0
  else if i.val = j.val + 1 then 1 else 0

/-- pwpoly.py:495-510, one trip of the loop over the pieces of degree above 1: piece number `j`, at
position `i` among those pieces.  `n = deg[i]` indexes the degrees of *all* the pieces kept, not of
the pieces of degree above 1.  `n = 0` raises IndexError (`m[:, -1]` of an empty matrix);
`ci[n] = 0` puts infinities or NaNs in the matrix, for which eigvals raises LinAlgError. -/
def nlStep (E : (n : ℕ) → Matrix (Fin n) (Fin n) K → List K) (p : PwPoly K K) (value tol : K)
    (checkFirst checkLast : Bool) (ji : ℕ × ℕ) : Except PyErr (List K) :=
  let (j, i) := ji
  let n := (degs p value tol).getD i 0
  let ci := sc p value j
  if n = 0 then .error .indexError
  else if ci.getD n 0 = 0 then .error .linAlgError
  else
    let xi := E n (companion n ci)
    let ok : K → Bool := fun t =>
      if i = 0 && checkFirst then decide (t ≤ 0)
      else if decide (i < p.xk.length) || !checkLast then decide (0 ≤ t) && decide (t ≤ 1)
      else decide (0 ≤ t)
    .ok ((xi.filter ok).map (unscale p j))

/-- pwpoly.py:489-510: roots of the pieces of degree above 1. -/
def nlRoots (E : (n : ℕ) → Matrix (Fin n) (Fin n) K → List K) (p : PwPoly K K) (value tol : K) :
    Except PyErr (List K) := do
  let nl := (cols p value).filter (fun i => decide (1 < effDeg tol (sc p value i)))
  let checkFirst := maybe p value 0 && decide (1 < (degs p value tol).getD 0 0)
  let checkLast := maybe p value p.xk.length && decide (1 < (degs p value tol).getLastD 0)
  let r ← nl.zipIdx.mapM (nlStep E p value tol checkFirst checkLast)
  return r.flatten

/-- pwpoly.py:514-522, `x[mask]` with `mask[1:] = x[1:] - x[:-1] > tol*dx`,
`dx = 0.5*(dx[1:] + dx[:-1])`, `dx = dxsave[xk.searchsorted(x)]`; `prev` is the element before. -/
def dedupGo (xk : List K) (tol : K) : K → List K → List K
  | _, [] => []
  | prev, b :: l =>
    let w := (1 / 2 : K) * ((dxs xk).getD (searchsorted xk b) 0 + (dxs xk).getD (searchsorted xk prev) 0)
    if tol * w < b - prev then b :: dedupGo xk tol b l else dedupGo xk tol b l

/-- pwpoly.py:514-522: remove duplicates from the sorted list (the first element stays). -/
def dedup (xk : List K) (tol : K) : List K → List K
  | [] => []
  | a :: l => a :: dedupGo xk tol a l

end Roots

/-- pwpoly.py:412-523 `roots(value, tol)`.  `concatenate` of an empty list of arrays (no root found)
raises ValueError; arrays without elements are never put in that list. -/
def PwPoly.roots {K : Type} [Field K] [LinearOrder K]
    (E : (n : ℕ) → Matrix (Fin n) (Fin n) K → List K) (p : PwPoly K K) (value tol : K) :
    Except PyErr (List K) := do
  let x := Roots.crossKnots p value
  if p.n ≤ 1 then return x
  let lin := Roots.linRoots p value tol
  let nl ← Roots.nlRoots E p value tol
  let all := x ++ lin ++ nl
  if all = [] then throw .valueError
  return Roots.dedup p.xk tol (all.insertionSort (· ≤ ·))

end Npplus
