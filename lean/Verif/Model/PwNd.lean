import Verif.Model.PolyNd

/-!
# Model of the methods of PwPoly on n-dimensional coefficient arrays (npplus/pwpoly.py:343-410, 525-546, 593-624, 700-774)

The coefficient array `c` is one array of shape `(degree+1,) + shape + (number of knots + 1,)` as in the code, and every slice, reshape,
broadcast and in-place operation is the numpy operation on the whole array.  Elements are of a field (dtype and rounding are not modelled).
-/

namespace Npplus
namespace NdArr
variable {α : Type}

/-- `a.reshape(s[0:1] + (1,)*j + s[1:])`, `s` the shape of `a` -/
def padAxes (j : ℕ) (a : NdArr α) : NdArr α :=
  ⟨a.shape.take 1 ++ List.replicate j 1 ++ a.shape.drop 1, fun idx => a.get (idx.take 1 ++ idx.drop (1 + j))⟩

/-- a 1-dimensional array -/
def of1 [Zero α] (l : List α) : NdArr α := ⟨[l.length], fun idx => l.getD (idx.headD 0) 0⟩

/-- `a[..., lo:lo+len]` -/
def sliceLast (lo len : ℕ) (a : NdArr α) : NdArr α := sliceAx (a.shape.length - 1) lo len a

/-- `a[..., i]` for a number `i` -/
def atLast (i : ℕ) (a : NdArr α) : NdArr α := ⟨a.shape.dropLast, fun idx => a.get (idx ++ [i])⟩

/-- `a[i:i+n] += b` -/
def addSlice [Add α] (i n : ℕ) (a b : NdArr α) : Except PyErr (NdArr α) := do
  let r ← (a.sliceAx 0 i n).inplace (· + ·) b
  a.setSlice 0 i n r

end NdArr

open NdArr
namespace NdPw
variable {K : Type} [Field K] [LinearOrder K]

/-- pwpoly.py:700-701 `__neg__` -/
def neg (p : NdPw K) : NdPw K := ⟨p.xk, p.c.map fun a => -a⟩

/-- pwpoly.py:358-363, the loop of `deriv`: `c[1:] * arange(1, n).reshape((n-1,) + (1,)*(c.ndim-1))` -/
def derivLoop : ℕ → NdArr K → Except PyErr (NdArr K)
  | 0, c => .ok c
  | m + 1, c => do
    let n := c.shape.headD 0
    if n < 2 then return c.map fun _ => 0
    else
      let c ← (c.sliceAx 0 1 (n - 1)).zip (· * ·) ⟨(n - 1) :: List.replicate (c.shape.length - 1) 1, fun idx => ((idx.headD 0 + 1 : ℕ) : K)⟩
      derivLoop m c

/-- pwpoly.py:343-364 `deriv(m)` -/
def deriv (p : NdPw K) (m : ℕ := 1) : Except PyErr (NdPw K) := do
  let c ← derivLoop m p.c
  return ⟨p.xk, c⟩

/-- pwpoly.py:525-546 `jumps(n)` -/
def jumps (p : NdPw K) (n : Option ℕ := none) : Except PyErr (NdArr K) := do
  let n := n.getD (p.c.shape.headD 0 - 1)
  let dx := NdArr.of1 (PwPoly.diffs (PwPoly.mkXk0 p.xk))
  let cminus ← polyddxNd (p.c.sliceLast 0 p.xk.length) dx n false
  ((p.c.sliceLast 1 p.xk.length).sliceAx 0 0 (min (1 + n) (p.c.shape.headD 0))).zip (· - ·) cminus

/-- pwpoly.py:619-624, the body of `addknots` (`_nocheck=True`) -/
def addknotsRaw (p : NdPw K) (xk : List K) : Except PyErr (NdPw K) := do
  let mids := List.zipWith (fun a b => (1/2 : K) * (b + a)) xk xk.tail
  let ic : NdArr ℕ := NdArr.of1 ([0] ++ mids.map (searchsorted p.xk) ++ [p.xk.length])
  let xk0 := NdArr.of1 (PwPoly.mkXk0 xk)
  let x ← xk0.zip (· - ·) (ic.map fun i => (PwPoly.mkXk0 p.xk).getD i 0)
  let c ← polyddxNd (p.c.takeLast ic) x (p.c.shape.headD 0 - 1) false
  return ⟨xk, c⟩

/-- pwpoly.py:593-624 `addknots(xk)` -/
def addknots (p : NdPw K) (tol : K) (xk : List K) : Except PyErr (NdPw K) :=
  match PwPoly.allknotsGo tol (p.xk, false) [xk] with
  | .error e => .error e
  | .ok (_, false) => .ok p
  | .ok (u, true) => if u.length = p.xk.length then .ok p else p.addknotsRaw u

/-- pwpoly.py:715-724: `concatenate((c, zeros))` up to degree `nd` -/
def padTo (p : NdPw K) (nd : ℕ) : NdPw K :=
  if p.c.shape.headD 0 - 1 ≠ nd then ⟨p.xk, concatAx 0 p.c ⟨p.c.shape.set 0 (nd - (p.c.shape.headD 0 - 1)), fun _ => 0⟩⟩ else p

/-- pwpoly.py:725-732: bring both coefficient arrays to the same number of axes -/
def sameAxes (p q : NdPw K) : NdPw K × NdPw K :=
  let la := p.c.shape.length
  let lb := q.c.shape.length
  if la < lb then (⟨p.xk, p.c.padAxes (lb - la)⟩, q)
  else if lb < la then (p, ⟨q.xk, q.c.padAxes (la - lb)⟩)
  else (p, q)

/-- pwpoly.py:733-736: bring both operands to common knots -/
def commonKnots (p q : NdPw K) : Except PyErr (NdPw K × NdPw K) :=
  match PwPoly.allknotsGo (PwPoly.defaultTol K) (p.xk, false) [q.xk] with
  | .error e => .error e
  | .ok (u, true) => do
    let a ← p.addknotsRaw u
    let b ← q.addknotsRaw u
    return (a, b)
  | .ok (_, false) => .ok (p, q)

/-- pwpoly.py:710-742 `_binary(other, skip)` for a PwPoly `other` -/
def binary (p q : NdPw K) (skip : Bool) : Except PyErr (NdPw K × NdPw K) :=
  let nd := max (p.c.shape.headD 0 - 1) (q.c.shape.headD 0 - 1)
  let (a, b) := if skip then (p, q) else (p.padTo nd, q.padTo nd)
  let (a, b) := sameAxes a b
  commonKnots a b

/-- pwpoly.py:744-746 `p + q` -/
def add (p q : NdPw K) : Except PyErr (NdPw K) := do
  let (a, b) ← binary p q false
  let c ← a.c.zip (· + ·) b.c
  return ⟨a.xk, c⟩

/-- pwpoly.py:751-753 `p - q` -/
def sub (p q : NdPw K) : Except PyErr (NdPw K) := do
  let (a, b) ← binary p q false
  let c ← a.c.zip (· - ·) b.c
  return ⟨a.xk, c⟩

/-- pwpoly.py:768-773: the loop over the rows of the operand of lower degree -/
def mulLoop (c other : NdArr K) : Except PyErr (Option (NdArr K)) :=
  let n := c.shape.headD 0
  let m := other.shape.headD 0
  (List.range m).foldlM (fun prod i => do
    let cd ← c.zip (· * ·) (other.row i)
    let prod := prod.getD ⟨(n + m - 1) :: cd.shape.drop 1, fun _ => 0⟩
    let prod ← prod.addSlice i n cd
    return some prod) none

/-- pwpoly.py:759-774 `p * q`.  (`product` would be None, without shape, only if `q` had no coefficients: AttributeError.) -/
def mul (p q : NdPw K) : Except PyErr (NdPw K) := do
  let (a, b) ← binary p q true
  let (c, other) := if a.c.shape.headD 0 < b.c.shape.headD 0 then (b.c, a.c) else (a.c, b.c)
  match ← mulLoop c other with
  | none => throw .attributeError
  | some c => return ⟨a.xk, c⟩

/-- pwpoly.py:395-400: the array of integration constants, `k` any array -/
def integConsts (p : NdPw K) (m : ℕ) (k : NdArr K) : Except PyErr (NdArr K) := do
  let k := if k.shape.length = p.c.shape.length - 2 then k.newAxis 0 else k
  if k.shape = [] then throw .indexError
  let k := if k.shape.headD 0 < m then concatAx 0 k ⟨k.shape.set 0 (m - k.shape.headD 0), fun _ => 0⟩ else k
  (⟨m :: (p.c.shape.drop 1).dropLast, fun _ => 0⟩ : NdArr K).zip (· + ·) k

/-- `c[0, ..., 2:] += inc` (pwpoly.py:408) -/
def addTail (c inc : NdArr K) : Except PyErr (NdArr K) := do
  let nd := c.shape.length
  let L := c.shape.getD (nd - 1) 0
  let row := c.row 0
  let r ← (row.sliceLast 2 (L - 2)).inplace (· + ·) inc
  let row ← row.setSlice (nd - 2) 2 (L - 2) r
  c.setAt 0 0 row

/-- pwpoly.py:403-409, one trip of the loop of `integ`; `k` is a row of the constants -/
def integStep (xk : List K) (ibnd : ℕ) (lb : K) (c0 : NdArr K) (c k : NdArr K) : Except PyErr (NdArr K) := do
  let n := c.shape.headD 0
  let cn ← c.zip (· * ·) ⟨n :: List.replicate (c.shape.length - 1) 1, fun idx => 1 / ((idx.headD 0 + 1 : ℕ) : K)⟩
  let c := concatAx 0 c0 cn
  let c ← if 1 < xk.length then do
      let inc ← polyfunNd (c.sliceLast 1 (c.shape.getD (c.shape.length - 1) 0 - 2)) (NdArr.of1 (PwPoly.diffs xk))
      addTail c (inc.cumsumAx (inc.shape.length - 1))
    else pure c
  let y ← polyfunNd (c.atLast ibnd) ⟨[], fun _ => lb⟩
  let d ← k.zip (· - ·) y
  let row ← (c.row 0).inplace (· + ·) (d.newAxis d.shape.length)
  c.setAt 0 0 row

/-- pwpoly.py:366-410 `integ(m, k, lbnd)`, `lbnd` a number, `k` any array -/
def integ (p : NdPw K) (m : ℕ) (k : NdArr K) (lbnd : K) : Except PyErr (NdPw K) := do
  let ibnd := searchsorted p.xk lbnd
  let lb := lbnd - (PwPoly.mkXk0 p.xk).getD ibnd 0
  let consts ← p.integConsts m k
  let c0 : NdArr K := ⟨p.c.shape.set 0 1, fun _ => 0⟩
  let c ← (List.range (consts.shape.headD 0)).foldlM (fun c i => integStep p.xk ibnd lb c0 c (consts.row i)) p.c
  return ⟨p.xk, c⟩

end NdPw
end Npplus
