import Verif.Model.NdArr
import Verif.Model.PwPoly
import Verif.Model.PerPw

/-!
# Model of polynomial evaluation with arrays (npplus/pwpoly.py:299-321, 799-802, 1460-1547)

The same functions as in Model/Poly and Model/PwPoly, now with n-dimensional coefficient arrays and points, statement by statement: every
broadcast, in-place operation and assignment to a part of an array is the numpy operation on whole arrays, with its ValueError.  Elements are
of a field (dtype and rounding are not modelled).
-/

namespace Npplus
namespace NdArr
variable {α β : Type}

/-- `a[j]`: a row, along the first axis -/
def row (a : NdArr α) (j : ℕ) : NdArr α := ⟨a.shape.tail, fun idx => a.get (j :: idx)⟩

/-- `a *= b`, `a += b`: the result must fit into `a` (numpy: ValueError, non-broadcastable output operand) -/
def inplace (f : α → β → α) (a : NdArr α) (b : NdArr β) : Except PyErr (NdArr α) := do
  let r ← a.zip f b
  if r.shape = a.shape then return r else throw .valueError

/-- `a[..., ix]` with an array of (nonnegative) indices: its axes replace the last axis of `a` -/
def takeLast (a : NdArr α) (ix : NdArr ℕ) : NdArr α :=
  ⟨a.shape.dropLast ++ ix.shape, fun idx => a.get (idx.take (a.shape.length - 1) ++ [ix.get (idx.drop (a.shape.length - 1))])⟩

end NdArr

open NdArr
variable {K : Type} [Field K]

/-- pwpoly.py:1541-1547 `_polysetup`: `c[-2] + c[-1]*x`; `c[-1] + zeros_like(x)` if there is no `c[-2]`; without `c[-1]` IndexError. -/
def polysetupNd (c x : NdArr K) : Except PyErr (NdArr K) := do
  let n := c.shape.headD 0
  if n = 0 then throw .indexError
  if n = 1 then (c.row 0).zip (· + ·) (x.map fun _ => (0 : K))
  else do
    let t ← (c.row (n - 1)).zip (· * ·) x
    (c.row (n - 2)).zip (· + ·) t

/-- pwpoly.py:1460-1481 `polyfun(c, x)`; the rows `c[-3::-1]`. -/
def polyfunNd (c x : NdArr K) : Except PyErr (NdArr K) := do
  let p ← polysetupNd c x
  (List.range (c.shape.headD 0 - 2)).reverse.foldlM (fun p j => do
    let p ← p.inplace (· * ·) x
    p.inplace (· + ·) (c.row j)) p

/-- pwpoly.py:1484-1538 `polyddx(c, x, nd, norm)`.  (`nd=None` is `nd = c.shape[0]-1`.) -/
def polyddxNd (c x : NdArr K) (nd : ℕ) (norm : Bool) : Except PyErr (NdArr K) := do
  let n := c.shape.headD 0
  let p ← polysetupNd c x
  let r := p.shape
  let p := concatAx 0 (p.newAxis 0) ⟨nd :: r, fun _ => 0⟩
  let p ← if nd = 0 then pure p else p.setAt 0 1 (c.row (n - 1))
  let p ← (List.range (n - 2)).reverse.foldlM (fun p j => do
    let cns : NdArr K := p.map fun _ => 0
    let cns ← cns.setAt 0 0 (c.row j)
    let cns ← cns.setSlice 0 1 nd (p.sliceAx 0 0 nd)
    let p ← p.inplace (· * ·) x
    p.inplace (· + ·) cns) p
  if norm ∧ nd ≠ 0 then
    return ⟨p.shape, fun idx => if 1 ≤ idx.headD 0 then p.get idx * (Nat.factorial (idx.headD 0) : K) else p.get idx⟩
  else return p

/-- A PwPoly with its coefficient array `c` of shape `(degree+1,) + shape + (number of knots + 1,)`. -/
structure NdPw (K : Type) where
  xk : List K
  c : NdArr K

/-- The component at the index `v` of a PwPoly: its coefficient array is `c[:, v, :]`. -/
def NdPw.comp (p : NdPw K) (v : List ℕ) : PwPoly K K :=
  ⟨p.xk, p.c.shape.headD 0, (List.range (p.xk.length + 1)).map fun i => (List.range (p.c.shape.headD 0)).map fun j => p.c.get (j :: (v ++ [i]))⟩

variable [LinearOrder K]

/-- pwpoly.py:299-321 `PwPoly.__call__(x, nd)` for an array `x` -/
def NdPw.call (p : NdPw K) (x : NdArr K) (nd : ℕ) : Except PyErr (NdArr K) :=
  let ix := x.map (searchsorted p.xk)
  let x := x.map fun t => t - (PwPoly.mkXk0 p.xk).getD (searchsorted p.xk t) 0
  let c := p.c.takeLast ix
  if nd = 0 then polyfunNd c x else polyddxNd c x nd true

/-- pwpoly.py:799-802 `PerPwPoly.__call__(x, nd)` for an array `x` -/
def NdPw.callPer [FloorRing K] (p : NdPw K) (period : K) (x : NdArr K) (nd : ℕ) : Except PyErr (NdArr K) :=
  let x0 := p.xk.getD 0 0
  p.call (x.map fun t => x0 + pmod (t - x0) period) nd

end Npplus
