import Verif.Model.PwNd
import Verif.Model.PwInit

/-!
# Model of the PwPoly constructor and `reknot` with n-dimensional data (npplus/pwpoly.py:181-240, 548-591)

Statement by statement on whole arrays, each with its numpy error.  `numpy.linalg.inv` is the parameter `inv` as in Model/PwInit.  Elements
are of a field (dtype and rounding are not modelled); the in-place change of the caller's last array (line 214) is the subject of Model/InitMem.
-/

namespace Npplus
namespace NdArr
variable {α : Type}

/-- `array(args)` of a tuple of arrays: ValueError unless all have the same shape -/
def stack [Zero α] (l : List (NdArr α)) : Except PyErr (NdArr α) :=
  if ∀ a ∈ l, a.shape = (l.headD ⟨[], fun _ => 0⟩).shape then
    .ok ⟨l.length :: (if l = [] then [] else (l.headD ⟨[], fun _ => 0⟩).shape), fun idx => (l.getD (idx.headD 0) ⟨[], fun _ => 0⟩).get idx.tail⟩
  else .error .valueError

/-- `a[..., ::-1]` -/
def revLast (a : NdArr α) : NdArr α :=
  let k := a.shape.length - 1
  ⟨a.shape, fun idx => a.get (idx.set k (a.shape.getD k 0 - 1 - idx.getD k 0))⟩

/-- the rows of an array, along the first axis (what indexing or iterating over it gives) -/
def rows (a : NdArr α) : List (NdArr α) := (List.range (a.shape.headD 0)).map a.row

/-- `concatenate((a, b), axis=k)`: ValueError unless the other axes agree -/
def concatE (k : ℕ) (a b : NdArr α) : Except PyErr (NdArr α) :=
  if a.shape.length = b.shape.length ∧ a.shape.eraseIdx k = b.shape.eraseIdx k then .ok (concatAx k a b) else .error .valueError

/-- `a.cumprod(axis=0)` -/
def cumprod0 [Mul α] (a : NdArr α) : NdArr α :=
  ⟨a.shape, fun idx => Nat.rec (a.get (idx.set 0 0)) (fun i r => r * a.get (idx.set 0 (i + 1))) (idx.headD 0)⟩

/-- `m.dot(a.reshape(a.shape[0], prod(a.shape[1:]))).reshape(a.shape)`: all the columns of the rows of `a` times the matrix -/
def rowsDot [AddCommMonoid α] [Mul α] {h : ℕ} (m : Matrix (Fin h) (Fin h) α) (a : NdArr α) : NdArr α :=
  ⟨a.shape, fun idx => if hi : idx.headD 0 < h then ((List.finRange h).map fun j => m ⟨idx.headD 0, hi⟩ j * a.get (j.val :: idx.tail)).sum
    else 0⟩

end NdArr

open NdArr
namespace NdPw
variable {K : Type} [Field K] [LinearOrder K]

/-- pwpoly.py:220: `argz = argz[newaxis] if even else left[0:0, ...]` -/
def topRows (argz : Option (NdArr K)) (left : NdArr K) : NdArr K :=
  match argz with
  | some z => z.newAxis 0
  | none => left.sliceAx 0 0 0

/-- pwpoly.py:211-238: the coefficients, from knots (increasing, at least two), the array of the `h+1` given arrays and the optional array `argz` -/
def initPieces (inv : InvFun K) (xk : List K) (args : NdArr K) (argz : Option (NdArr K)) : Except PyErr (NdPw K) := do
  let nk := xk.length
  let nda := args.shape.length - 2
  let h := args.shape.headD 0 - 1
  -- 211-215: fact = maximum(arange(h+1), 1).cumprod()
  let args ← args.inplace (· * ·) ⟨(h + 1) :: List.replicate (nda + 1) 1, fun idx => 1 / (Nat.factorial (idx.headD 0) : K)⟩
  let argz := argz.map fun z => z.map fun v => v * (1 / (PwPoly.evenDiv h : K))
  -- 217-221
  let dx : NdArr K := ⟨List.replicate nda 1 ++ [nk - 1], fun idx => (PwPoly.diffs xk).getD (idx.getD nda 0) 0⟩
  let left := args.sliceLast 0 (nk - 1)
  let rght := args.sliceLast 1 (nk - 1)
  let z := topRows argz left
  let c ← concatE 0 left (left.map fun _ => 0)
  let c ← concatE 0 c z
  let pd ← polyddxNd c dx h false
  let rght ← rght.zip (· - ·) pd
  -- 222-225
  let dxn ← dx.zip (· + ·) ⟨(h + 1) :: dx.shape, fun _ => (0 : K)⟩
  let dxn ← dxn.setAt 0 0 ⟨[], fun _ => 1⟩
  let dxn := dxn.cumprod0
  let rght ← rght.inplace (· * ·) dxn
  -- 226-230
  let rght := rowsDot (inv (h + 1) (PwPoly.twoSided K h)) rght
  -- 231-233
  let t ← dx.zip (· * ·) (dxn.row h)
  let dxn ← dxn.inplace (· * ·) t
  let rght ← rght.inplace (· * ·) (dxn.map fun d => 1 / d)
  let c ← concatE 0 left rght
  let c ← concatE 0 c z
  -- 235-237
  let left := (c.sliceLast 0 1).map fun _ => (0 : K)
  let c ← concatE (nda + 1) left c
  let c ← concatE (nda + 1) c left
  -- 237: `c[0:h+1, ..., 0:nk+1:nk] = args[..., 0:nk:nk-1]`: first and last piece from first and last knot
  let c : NdArr K := ⟨c.shape, fun idx =>
    if idx.headD 0 < h + 1 ∧ idx.getD (nda + 1) 0 = 0 then args.get (idx.set (nda + 1) 0)
    else if idx.headD 0 < h + 1 ∧ idx.getD (nda + 1) 0 = nk then args.get (idx.set (nda + 1) (nk - 1))
    else c.get idx⟩
  return ⟨xk, c⟩

/-- pwpoly.py:201-240, after the even degree analysis -/
def initBody (inv : InvFun K) (xk : List K) (body : List (NdArr K)) (z : Option (NdArr K)) : Except PyErr (NdPw K) := do
  let nk := xk.length
  let args ← stack body                                                        -- 201
  if args.shape.length < 2 then throw .typeError                               -- 203
  if xk = [] ∨ 0 ∈ args.shape then throw .indexError                           -- 205: xk[0], args.ravel()[0]
  let last := args.shape.getD (args.shape.length - 1) 0
  if last = nk + 1 then return ⟨xk, args⟩                                      -- 206
  else if last ≠ nk then throw .typeError                                      -- 207
  else if nk < 2 then throw .typeError                                         -- 209
  else initPieces inv xk args z

/-- pwpoly.py:193-240: `PwPoly(xk, *args)` once `xk` is increasing -/
def initInc (inv : InvFun K) (xk : List K) (args : List (NdArr K)) : Except PyErr (NdPw K) :=
  match args.getLast? with
  | none => .error .indexError                                                 -- 193: args[-1]
  | some z =>
    if z.shape = [] then .error .indexError else                               -- 194: argz.shape[-1]
    let last := z.shape.getD (z.shape.length - 1) 0
    if last + 1 = xk.length then
      if args.dropLast = [] then do                                            -- 197-200
        let zero := (z.sliceLast 0 (min 1 last)).map fun _ => (0 : K)
        let y ← concatE (z.shape.length - 1) zero z
        let y ← concatE (z.shape.length - 1) y zero
        initBody inv xk [y] none
      else initBody inv xk args.dropLast (some z)
    else initBody inv xk args none

/-- pwpoly.py:181-240 `PwPoly(xk, *args)`, each argument an array.  189-192: for decreasing `xk` all the arguments are made one array first. -/
def init (inv : InvFun K) (xk : List K) (args : List (NdArr K)) : Except PyErr (NdPw K) :=
  if 1 < xk.length ∧ xk.getD (xk.length - 1) 0 < xk.getD 0 0 then do
    let a ← stack args
    initInc inv xk.reverse a.revLast.rows
  else initInc inv xk args

/-- pwpoly.py:572-589 `reknot(xk, n)` for a PwPoly (an empty `xk` raises IndexError at `xk[0]`) -/
def reknot (inv : InvFun K) (p : NdPw K) (xk : List K) (n : Option ℕ := none) : Except PyErr (NdPw K) := do
  let n := n.getD (p.c.shape.headD 0 - 1)
  if xk = [] then throw .indexError
  let xk := if xk.getD (xk.length - 1) 0 < xk.getD 0 0 then xk.reverse else xk
  let h := (n - 1) / 2
  let c ← p.call (NdArr.of1 xk) h
  let c := if h = 0 then c.newAxis 0 else c
  let args := c.rows
  let args ← if n % 2 = 0 then do
      let d ← p.deriv n
      let y ← d.call (NdArr.of1 (List.zipWith (fun a b => (1/2 : K) * (b + a)) xk xk.tail)) 0
      pure (args ++ [y])
    else pure args
  init inv xk args

end NdPw
end Npplus
