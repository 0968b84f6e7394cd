import Verif.Np
import Mathlib.Data.Nat.Factorial.Basic

/-!
# Model of the workhorse functions of `npplus/pwpoly.py` (lines 1456-1547)

A coefficient array `c` of shape `(n,)` is a list, lowest power first.  Trailing axes of `c` and `x`
are handled elementwise by numpy; here the coefficients live in a `K`-module `V`
(`V = K` scalar, `V = ι → K` multidimensional) and `x : K`.
-/

namespace Npplus

/-! The functions up to `polyfun` need only the operations `+`, `•` (a coefficient times a number) and 0, not their laws, so that
they can also be run in floating point arithmetic (Spec/Float). -/

section
variable {K : Type*} {V : Type*} [Zero V] [Add V] [SMul K V]

/-- pwpoly.py:1541-1547 `_polysetup`: `p = c[-2] + c[-1]*x`, or `c[-1] + 0` when `c[-2]` raises
IndexError (one coefficient).  The empty array, for which the code raises IndexError, is totalised
to 0 here; `polyfunE` and `polyddxE` below carry the exception. -/
def polysetup (c : List V) (x : K) : V :=
  match c.reverse with
  | [] => 0
  | [a] => a
  | b :: a :: _ => a + x • b

/-- pwpoly.py:1478 and 1532, the slice `c[-3::-1]`: all coefficients but the last two, reversed. -/
def backFrom3 (c : List V) : List V := (c.take (c.length - 2)).reverse

/-- pwpoly.py:1460-1481 `polyfun`. -/
def polyfun (c : List V) (x : K) : V :=
  (backFrom3 c).foldl (fun p cn => x • p + cn) (polysetup c x)

end

variable {K : Type*} [Field K] {V : Type*} [AddCommGroup V] [Module K V]

/-- `polyfun` with the IndexError of `_polysetup` on an empty coefficient array (pwpoly.py:1546). -/
def polyfunE (c : List V) (x : K) : Except PyErr V :=
  if c.length = 0 then .error .indexError else .ok (polyfun c x)

/-- pwpoly.py:1527-1530: rows `[p, 0, ..., 0]` (`nd` zeros), then `p[1] = c[-1]` when `nd > 0`. -/
def polyddxInit (c : List V) (x : K) (nd : ℕ) : List V :=
  let p := polysetup c x :: List.replicate nd 0
  if nd = 0 then p else p.set 1 (c.getLast?.getD 0)

/-- pwpoly.py:1533-1535, one trip of the loop: `cns = [cn] + p[0:nd]; p *= x; p += cns`. -/
def polyddxStep (x : K) (nd : ℕ) (p : List V) (cn : V) : List V :=
  List.zipWith (fun a b => x • a + b) p (cn :: p.take nd)

/-- pwpoly.py:1484-1538 `polyddx(c, x, nd)` with `norm=False` (Taylor coefficients). -/
def polyddx (c : List V) (x : K) (nd : ℕ) : List V :=
  (backFrom3 c).foldl (polyddxStep x nd) (polyddxInit c x nd)

/-- pwpoly.py:1536-1537, `norm=True`: row `k` is multiplied by `k!`
(`arange(1, nd+1).cumprod()`). -/
def polyddxNorm (c : List V) (x : K) (nd : ℕ) : List V :=
  (polyddx c x nd).mapIdx (fun k v => (Nat.factorial k : K) • v)

/-- pwpoly.py:1524-1525, `nd=None`: all the derivatives, `nd = c.shape[0]-1`. -/
def polyddxAll (c : List V) (x : K) : List V := polyddx c x (c.length - 1)

/-- `polyddx` with the IndexError on an empty coefficient array (pwpoly.py:1546). -/
def polyddxE (c : List V) (x : K) (nd : ℕ) : Except PyErr (List V) :=
  if c.length = 0 then .error .indexError else .ok (polyddx c x nd)

end Npplus
