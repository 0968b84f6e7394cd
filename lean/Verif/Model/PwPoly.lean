import Verif.Model.Poly
import Verif.NpShape
import Mathlib.Algebra.Order.Group.Abs
import Mathlib.Data.List.Sort

/-!
# Model of class `PwPoly` (npplus/pwpoly.py:68-786)

The coefficient array `c` has axes `(degree, dimensionality, piece)`.  The model stores it piece by
piece (`c[i]` is the coefficient list of piece `i`, the numpy array transposed); the dimensionality
axes are in the module `V`.  `n = c.shape[0]` is the number of coefficients per piece.
`xk0` is recomputed from `xk` instead of being stored.
-/

namespace Npplus

/-- The attributes of a PwPoly object (pwpoly.py:242-251 `_rawinit`). -/
structure PwPoly (K V : Type) where
  /-- knot points -/
  xk : List K
  /-- `c.shape[0]`, the degree plus one -/
  n : ℕ
  /-- coefficients, one list per piece -/
  c : List (List V)
  deriving DecidableEq, Repr

namespace PwPoly

section
variable {K : Type} [Zero K] [Sub K] [LinearOrder K] {V : Type} [Zero V] [Add V] [SMul K V]

/-- pwpoly.py:247 `concatenate((xk[0:1], xk))`. -/
def mkXk0 (xk : List K) : List K := xk.take 1 ++ xk

/-- `self.xk0`, the origin of each piece (pwpoly.py:244-248). -/
def xk0 (p : PwPoly K V) : List K := mkXk0 p.xk

/-- pwpoly.py:331 `deg`. -/
def deg (p : PwPoly K V) : ℕ := p.n - 1

/-- pwpoly.py:299-321 `__call__(x)` at one point (numpy applies it elementwise to an array). -/
def call (p : PwPoly K V) (x : K) : V :=
  let ix := searchsorted p.xk x
  polyfun (p.c.getD ix []) (x - p.xk0.getD ix 0)

end

variable {K : Type} [Field K] [LinearOrder K] {V : Type} [AddCommGroup V] [Module K V]

/-- pwpoly.py:299-321 `__call__(x, nd)`: `nd+1` values (a single one when `nd = 0`). -/
def callN (p : PwPoly K V) (x : K) (nd : ℕ) : List V :=
  let ix := searchsorted p.xk x
  if nd = 0 then [polyfun (p.c.getD ix []) (x - p.xk0.getD ix 0)]
  else polyddxNorm (p.c.getD ix []) (x - p.xk0.getD ix 0) nd

/-- pwpoly.py:363 `c[1:] * arange(1, n)` for one piece. -/
def derivPiece (K : Type) [Field K] {V : Type} [AddCommGroup V] [Module K V] (c : List V) :
    List V :=
  (c.drop 1).mapIdx (fun i v => ((i + 1 : ℕ) : K) • v)

/-- pwpoly.py:358-363, the loop of `deriv` (`zeros_like(c); break` when fewer than 2 rows). -/
def derivLoop (K : Type) [Field K] {V : Type} [AddCommGroup V] [Module K V] :
    ℕ → ℕ → List (List V) → ℕ × List (List V)
  | 0, n, c => (n, c)
  | m + 1, n, c =>
    if n < 2 then (n, c.map (fun l => l.map (fun _ => 0)))
    else derivLoop K m (n - 1) (c.map (derivPiece K))

/-- pwpoly.py:343-364 `deriv(m)`. -/
def deriv (p : PwPoly K V) (m : ℕ := 1) : PwPoly K V :=
  let r := derivLoop K m p.n p.c
  ⟨p.xk, r.1, r.2⟩

/-- `numpy.cumsum` along a list. -/
def cumsumFrom (s : V) : List V → List V
  | [] => []
  | a :: l => (s + a) :: cumsumFrom (s + a) l

/-- `c[0] += v` on one piece. -/
def addHead (v : V) : List V → List V
  | [] => []
  | a :: l => (a + v) :: l

/-- pwpoly.py:404-406: `concatenate((c0, c * (1/arange(1,n+1))))` for one piece. -/
def integPiece (K : Type) [Field K] {V : Type} [AddCommGroup V] [Module K V] (c : List V) :
    List V :=
  0 :: c.mapIdx (fun i v => (1 / ((i + 1 : ℕ) : K)) • v)

/-- pairwise differences `a[1:] - a[:-1]` (pwpoly.py:401, 544, 656). -/
def diffs (xk : List K) : List K := List.zipWith (fun a b => b - a) xk xk.tail

/-- pwpoly.py:407-408: `c[0, ..., 2:] += polyfun(c[..., 1:-1], dx).cumsum(axis=-1)`. -/
def stepUp (xk : List K) (c : List (List V)) : List (List V) :=
  let inc := List.zipWith (fun l dx => polyfun l dx) ((c.drop 1).dropLast) (diffs xk)
  c.take 2 ++ List.zipWith (fun l s => addHead s l) (c.drop 2) (cumsumFrom 0 inc)

/-- pwpoly.py:403-409, one trip of the loop of `integ`.
`lb` is `lbnd - xk0[ibnd]`; `xk.size > 1` guards the step adjustment. -/
def integStep (xk : List K) (ibnd : ℕ) (lb : K) (c : List (List V)) (k : V) : List (List V) :=
  let c := c.map (integPiece K)
  let c := if 1 < xk.length then stepUp xk c else c
  let v := k - polyfun (c.getD ibnd []) lb
  c.map (addHead v)

/-- pwpoly.py:395-400: the integration constants for `m` integrations: `k` is padded with zeros to
length `m`; a longer `k` is broadcast against `m` rows (accepted only when `m = 1`, or when `k` has
one element and `m = 0`).
Simplification: `k` already has the leading dimensions of the coefficients (see `IntegShape` for
the shape handling of `k`). -/
def integConsts (m : ℕ) (k : List V) : Except PyErr (List V) :=
  let k := k ++ List.replicate (m - k.length) 0
  if k.length = m then .ok k
  else if m = 1 then .ok k
  else if k.length = 1 then .ok (List.replicate m (k.headD 0))
  else .error .valueError

/-- pwpoly.py:395-399 seen through the shapes only: the shape of `consts` when `p` has
dimensionality axes `dims` (so `c.ndim - 2 = dims.length`) and `k` has shape `ks`. -/
def integConstsShape (dims : List ℕ) (m : ℕ) (ks : List ℕ) : Except PyErr (List ℕ) :=
  let ks := if ks.length = dims.length then 1 :: ks else ks
  match ks with
  | [] => .error .indexError                 -- `k.shape[0]` of a scalar
  | k0 :: rest =>
    let k0 := if k0 < m then m else k0
    bcastShape (m :: dims) (k0 :: rest)

/-- pwpoly.py:366-410 `integ(m, k, lbnd)`. -/
def integ (p : PwPoly K V) (m : ℕ := 1) (k : List V := []) (lbnd : K := 0) :
    Except PyErr (PwPoly K V) := do
  let consts ← integConsts m k
  let ibnd := searchsorted p.xk lbnd
  let lb := lbnd - p.xk0.getD ibnd 0
  .ok ⟨p.xk, p.n + consts.length, consts.foldl (integStep p.xk ibnd lb) p.c⟩

/-- pwpoly.py:525-546 `jumps(n)`: one list (rows 0..n) per knot.  The subtraction broadcasts, so
`n` beyond the degree is an error unless there is a single coefficient row. -/
def jumps (p : PwPoly K V) (n : Option ℕ := none) : Except PyErr (List (List V)) :=
  let n := n.getD (p.n - 1)
  if p.n < n + 1 ∧ p.n ≠ 1 then .error .valueError
  else .ok <|
    List.zipWith (fun (cm : List V) (cp : List V) =>
        cm.mapIdx (fun k v => (if p.n = 1 then cp.getD 0 0 else cp.getD k 0) - v))
      (List.zipWith (fun l dx => polyddx l dx n) p.c.dropLast (diffs p.xk0)) (p.c.drop 1)

/-- pwpoly.py:619-624, the body of `addknots` (`_nocheck=True`): each new interval takes the piece
of `self` containing its midpoint, re-expanded about the new origin. -/
def addknotsRaw (p : PwPoly K V) (xk : List K) : PwPoly K V :=
  let mids := List.zipWith (fun a b => (1/2 : K) * (b + a)) xk xk.tail
  let ic := [0] ++ mids.map (searchsorted p.xk) ++ [p.xk.length]
  ⟨xk, p.n, List.zipWith (fun i x0 => polyddx (p.c.getD i []) (x0 - p.xk0.getD i 0) (p.n - 1))
    ic (mkXk0 xk)⟩

/-- pwpoly.py:655-662: the points of `yk` farther than `tol` times the local knot spacing from
their neighbours in `xk` (`xk` has at least two points). -/
def farPoints (tol : K) (xk yk : List K) : List K :=
  let dx := diffs xk
  let dx := dx.take 1 ++ dx ++ dx.drop (dx.length - 1)
  yk.filter fun y =>
    let iy := searchsorted xk y
    let d := dx.getD iy 0 * tol
    decide (d < |y - xk.getD (iy - 1) 0|) && decide (d < |y - xk.getD (min iy (xk.length - 1)) 0|)

/-- pwpoly.py:646-665, one trip of the loop of `allknots`; `none` means `continue` (the array `xk`
is unchanged, the same object), `some` is a new array. -/
def allknotsStep (tol : K) (xk yk : List K) : Except PyErr (Option (List K)) :=
  if xk = yk then .ok none
  else
    let (xk, yk) := if xk.length < yk.length then (yk, xk) else (xk, yk)
    if 1 < xk.length then
      .ok (some ((xk ++ farPoints tol xk yk).insertionSort (· ≤ ·)))
    else match xk, yk with
      | x :: _, y :: _ =>
        if |x - y| ≤ tol + tol * |y| then .ok none
        else .ok (some ((xk ++ yk).insertionSort (· ≤ ·)))
      | _, _ => .error .indexError

/-- pwpoly.py:642-666 `allknots`: the union and whether it is a new object (`xk is not self.xk`). -/
def allknotsGo (tol : K) : List K × Bool → List (List K) → Except PyErr (List K × Bool)
  | s, [] => .ok s
  | (xk, new), yk :: rest =>
    match allknotsStep tol xk yk with
    | .error e => .error e
    | .ok none => allknotsGo tol (xk, new) rest
    | .ok (some xk') => allknotsGo tol (xk', true) rest

/-- pwpoly.py:626-666 `self.allknots(*args, tol=tol)`. -/
def allknots (p : PwPoly K V) (tol : K) (args : List (List K)) : Except PyErr (List K) :=
  (allknotsGo tol (p.xk, false) args).map Prod.fst

/-- pwpoly.py:593-624 `addknots(xk)` with the default tolerance of `allknots`. -/
def addknots (p : PwPoly K V) (tol : K) (xk : List K) : Except PyErr (PwPoly K V) :=
  match allknotsGo tol (p.xk, false) [xk] with
  | .error e => .error e
  | .ok (_, false) => .ok p
  | .ok (u, true) => if u.length = p.xk.length then .ok p else .ok (p.addknotsRaw u)

/-- pwpoly.py:642 the default `tol`. -/
def defaultTol (K : Type) [Field K] : K := 1 / 1000000

/-- pwpoly.py:700-701 `__neg__`. -/
def neg (p : PwPoly K V) : PwPoly K V := ⟨p.xk, p.n, p.c.map (fun l => l.map (fun v => -v))⟩

/-- pwpoly.py:715-724: pad the coefficient rows with zeros up to `nd+1` rows. -/
def padTo (p : PwPoly K V) (nd : ℕ) : PwPoly K V :=
  if p.deg ≠ nd then ⟨p.xk, p.n + (nd - p.deg), p.c.map (fun l => l ++ List.replicate (nd - p.deg) 0)⟩
  else p

/-- pwpoly.py:733-736: bring both operands to common knots. -/
def commonKnots {W : Type} [AddCommGroup W] [Module K W] (p : PwPoly K V) (q : PwPoly K W) :
    Except PyErr (PwPoly K V × PwPoly K W) :=
  match allknotsGo (defaultTol K) (p.xk, false) [q.xk] with
  | .error e => .error e
  | .ok (u, true) => .ok (p.addknotsRaw u, q.addknotsRaw u)
  | .ok (_, false) => .ok (p, q)

/-- pwpoly.py:710-742 `_binary(other)` for a PwPoly `other` (`skip=False`).
Simplification: both operands have the same leading dimensions (same `V`). -/
def binary (p q : PwPoly K V) : Except PyErr (PwPoly K V × PwPoly K V) :=
  let nd := max p.deg q.deg
  commonKnots (p.padTo nd) (q.padTo nd)

/-- pwpoly.py:744-746 `__add__` for a PwPoly operand. -/
def add (p q : PwPoly K V) : Except PyErr (PwPoly K V) :=
  (binary p q).map fun (a, b) => ⟨a.xk, a.n, List.zipWith (List.zipWith (· + ·)) a.c b.c⟩

/-- pwpoly.py:751-753 `__sub__` for a PwPoly operand. -/
def sub (p q : PwPoly K V) : Except PyErr (PwPoly K V) :=
  (binary p q).map fun (a, b) => ⟨a.xk, a.n, List.zipWith (List.zipWith (· - ·)) a.c b.c⟩

/-- pwpoly.py:769-773 for one piece: `product[i:i+n] += c * other[i]` for every row of `other`. -/
def mulPiece {R : Type} [CommRing R] (c other : List R) : List R :=
  (other.zipIdx).foldl
    (fun prod (d, i) =>
      prod.take i ++ List.zipWith (· + ·) ((prod.drop i).take c.length) (c.map (· * d))
        ++ prod.drop (i + c.length))
    (List.replicate (c.length + other.length - 1) 0)

/-- pwpoly.py:759-774 `__mul__` for a PwPoly operand (values in a commutative `K`-algebra `R`,
multiplied elementwise by numpy). -/
def mul {R : Type} [CommRing R] [Module K R] (p q : PwPoly K R) : Except PyErr (PwPoly K R) :=
  (commonKnots p q).map fun (a, b) =>
    if a.n < b.n then ⟨a.xk, b.n + a.n - 1, List.zipWith mulPiece b.c a.c⟩
    else ⟨a.xk, a.n + b.n - 1, List.zipWith mulPiece a.c b.c⟩

end PwPoly

/-- The right hand operand of a binary operator: a PwPoly or anything `numpy` would convert. -/
inductive Operand (K V : Type) where
  | pw (q : PwPoly K V)
  | num (v : V)

namespace PwPoly
variable {K : Type} [Field K] [LinearOrder K] {R : Type} [CommRing R] [Module K R]

/-- pwpoly.py:740: a non-PwPoly operand is passed to `asfarray(other, dtype=self.c.dtype)`, but the
module's own `asfarray(a)` (pwpoly.py:64-65) accepts a single argument: Python raises TypeError. -/
def binaryNum (_p : PwPoly K R) (_v : R) : Except PyErr (PwPoly K R × R) := .error .typeError

/-- pwpoly.py:744-749 `__add__`, `__radd__`. -/
def addOp (p : PwPoly K R) : Operand K R → Except PyErr (PwPoly K R)
  | .pw q => p.add q
  | .num v => do
    let (a, w) ← p.binaryNum v
    -- `this.c + other` adds the number to every coefficient row
    return ⟨a.xk, a.n, a.c.map (fun l => l.map (· + w))⟩

/-- pwpoly.py:751-753 `__sub__`. -/
def subOp (p : PwPoly K R) : Operand K R → Except PyErr (PwPoly K R)
  | .pw q => p.sub q
  | .num v => do
    let (a, w) ← p.binaryNum v
    return ⟨a.xk, a.n, a.c.map (fun l => l.map (· - w))⟩

/-- pwpoly.py:755-757 `__rsub__` (reached only with a non-PwPoly left operand). -/
def rsubOp (p : PwPoly K R) (v : R) : Except PyErr (PwPoly K R) := do
  let (a, w) ← p.binaryNum v
  return ⟨a.xk, a.n, a.c.map (fun l => l.map (w - ·))⟩

/-- pwpoly.py:759-777 `__mul__`, `__rmul__`. -/
def mulOp (p : PwPoly K R) : Operand K R → Except PyErr (PwPoly K R)
  | .pw q => p.mul q
  | .num v => do
    let (a, w) ← p.binaryNum v
    return ⟨a.xk, a.n, a.c.map (fun l => l.map (· * w))⟩

/-- pwpoly.py:779-786 `__truediv__`: a PwPoly divisor raises TypeError after `_binary`;
a number fails in `_binary`. -/
def divOp [Div R] (p : PwPoly K R) : Operand K R → Except PyErr (PwPoly K R)
  | .pw q => do
    let _ ← binary p q
    .error .typeError
  | .num v => do
    let (a, w) ← p.binaryNum v
    return ⟨a.xk, a.n, a.c.map (fun l => l.map (· / w))⟩

end PwPoly
end Npplus
