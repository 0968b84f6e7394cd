import Verif.Model.PolyNd
import Verif.Model.PerPw

/-!
# Model of `PwPoly.__getitem__`, `__len__` and iteration with any basic index (npplus/pwpoly.py:688-698)

numpy's basic indexing: integers, slices, `newaxis` and one `Ellipsis`.  Index arrays and masks are not modelled.
-/

namespace Npplus

/-- An element of a basic index: an integer, a slice `start:stop:step`, `newaxis` (None) or `...` -/
inductive Key
  | int (i : ℤ)
  | slice (start stop step : Option ℤ)
  | newaxis
  | ellipsis
deriving DecidableEq

/-- the slice `:` -/
def Key.colon : Key := .slice none none none

namespace NdArr

/-- `slice(start, stop, step).indices(d)` (CPython, sliceobject.c): the first index, the end, the step; ValueError if the step is 0. -/
def sliceBounds (d : ℕ) (start stop step : Option ℤ) : Except PyErr (ℤ × ℤ × ℤ) :=
  let s := step.getD 1
  if s = 0 then .error .valueError else
  let lower : ℤ := if s < 0 then -1 else 0
  let upper : ℤ := if s < 0 then (d : ℤ) - 1 else d
  let clip (i : ℤ) : ℤ := if i < 0 then max (i + d) lower else min i upper
  let a := (start.map clip).getD (if s < 0 then upper else lower)
  let b := (stop.map clip).getD (if s < 0 then lower else upper)
  .ok (a, b, s)

/-- the indices selected by a slice on an axis of length `d`, in order: `range(a, b, s)` -/
def sliceIdx (d : ℕ) (start stop step : Option ℤ) : Except PyErr (List ℕ) := do
  let (a, b, s) ← sliceBounds d start stop step
  let n : ℤ := if s < 0 then (a - b - s - 1) / (-s) else (b - a + s - 1) / s
  return (List.range n.toNat).map fun k : ℕ => (a + (k : ℤ) * s).toNat

/-- number of axes which a key needs -/
def keyAxes : List Key → ℕ
  | [] => 0
  | .int _ :: ks => keyAxes ks + 1
  | .slice .. :: ks => keyAxes ks + 1
  | _ :: ks => keyAxes ks

/-- shape of `a[key]` and the index into `a` of each of its elements; the axes after the key are taken whole -/
def select : List Key → List ℕ → Except PyErr (List ℕ × (List ℕ → List ℕ))
  | [], s => .ok (s, id)
  | .newaxis :: ks, s => do
    let (t, f) ← select ks s
    return (1 :: t, fun idx => f idx.tail)
  | .ellipsis :: ks, s => do
    let n := s.length - keyAxes ks
    let (t, f) ← select ks (s.drop n)
    return (s.take n ++ t, fun idx => idx.take n ++ f (idx.drop n))
  | .int _ :: _, [] => .error .indexError
  | .slice .. :: _, [] => .error .indexError
  | .int i :: ks, d :: s =>
    match npIndex d i with
    | none => .error .indexError
    | some j => do
      let (t, f) ← select ks s
      return (t, fun idx => j.val :: f idx)
  | .slice a b c :: ks, d :: s => do
    let l ← sliceIdx d a b c
    let (t, f) ← select ks s
    return (l.length :: t, fun idx => l.getD (idx.headD 0) 0 :: f idx.tail)

/-- `a[key]` (a view: shape and elements); more than one `...` or more keys than axes: IndexError -/
def index {α : Type} (key : List Key) (a : NdArr α) : Except PyErr (NdArr α) := do
  if 1 < key.count .ellipsis then throw .indexError
  if a.shape.length < keyAxes key then throw .indexError
  let (t, f) ← select key a.shape
  return ⟨t, fun idx => a.get (f idx)⟩

end NdArr

open NdArr
namespace NdPw
variable {K : Type}

/-- pwpoly.py:694-698 `__getitem__(key)`: `c[(colon,) + key + (Ellipsis, colon)]` -/
def getitem (p : NdPw K) (key : List Key) : Except PyErr (NdPw K) := do
  let c ← p.c.index ([Key.colon] ++ key ++ [Key.ellipsis, Key.colon])
  return ⟨p.xk, c⟩

/-- pwpoly.py:688-692 `__len__` -/
def len (p : NdPw K) : Except PyErr ℕ :=
  match (p.c.shape.drop 1).dropLast with
  | [] => .error .typeError
  | d :: _ => .ok d

/-- Python's iteration over an object with `__getitem__` only: `p[0]`, `p[1]`, ... until IndexError (here with a bound on the number of steps) -/
def iterate (p : NdPw K) : ℕ → ℕ → Except PyErr (List (NdPw K))
  | 0, _ => .ok []
  | fuel + 1, i =>
    match p.getitem [.int i] with
    | .error .indexError => .ok []
    | .error e => .error e
    | .ok q => do
      let l ← p.iterate fuel (i + 1)
      return q :: l

end NdPw
end Npplus
