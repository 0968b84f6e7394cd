import Verif.Model.NdArr
import Verif.Np

/-!
# Model of npplus/pcwise.py

Exact arithmetic (no NaN), results are elements of one type `Y` (the code's result array is float64).
-/

namespace Npplus.Pcwise

/-- An exception: `ValueError(msg)` with its message, or another one. -/
inductive PcErr where
  | valueErrorMsg (msg : String)
  | py (e : PyErr)
  deriving DecidableEq

/-- An element of the tuple returned by the decorated function: a function of an array, a string, a number. -/
inductive Ent (X Y : Type) where
  | fn (f : NdArr X → Except PcErr (NdArr Y))
  | str (msg : String)
  | num (x : X)

/-- `l[0::2]` -/
def evens {α : Type} : List α → List α
  | [] => []
  | [a] => [a]
  | a :: _ :: l => a :: evens l

/-- `l[1::2]` -/
def odds {α : Type} : List α → List α
  | [] => []
  | [_] => []
  | _ :: b :: l => b :: odds l

/-- All indices of an array of this shape in C order. -/
def allIdx (s : List ℕ) : List (List ℕ) := (List.range s.prod).map (NdArr.unravel s)

section
variable {X Y : Type} [LinearOrder X]

/-- pcwise.py:62-68, 88-93 what is called for the entry at an even place: `fn + ''` succeeds only for a string,
which is replaced by a function raising ValueError(msg); calling a number is a TypeError. -/
def Ent.call : Ent X Y → NdArr X → Except PcErr (NdArr Y)
  | .fn f, a => f a
  | .str m, _ => .error (.valueErrorMsg m)
  | .num _, _ => .error (.py .typeError)

/-- pcwise.py:55 `xvals = array(fxtuple[1::2])`; simplification: anything but a number there is a TypeError. -/
def xvalsOf : List (Ent X Y) → Except PcErr (List X)
  | [] => .ok []
  | .num x :: l => (xvalsOf l).map (x :: ·)
  | _ :: _ => .error (.py .typeError)

/-- `diff(xvals) > 0` everywhere -/
def strictInc (l : List X) : Bool := (List.zip l l.tail).all fun p => decide (p.1 < p.2)

/-- pcwise.py:53-69 the part of the decorator that runs at decoration time, `tuple = f(None)`. -/
def setup (tuple : List (Ent X Y)) : Except PcErr (List (Ent X Y) × List X) := do
  let funcs := evens tuple
  let xvals ← xvalsOf (odds tuple)
  if funcs.length ≠ xvals.length + 1 then throw (.py .typeError)
  if xvals.length > 1 ∧ strictInc xvals = false then throw (.py .typeError)
  return (funcs, xvals)

/-- pcwise.py:79-82 one pass of the loop: the points with `mask`, in C order, are passed to `f` as a 1-D array; its
value is assigned to the same places of `result` (broadcasting a length 1 or scalar value). -/
def maskStep (x : NdArr X) (mask : List ℕ → Bool) (f : NdArr X → Except PcErr (NdArr Y)) (result : NdArr Y) :
    Except PcErr (NdArr Y) :=
  let pos := (allIdx x.shape).filter mask
  if pos.length = 0 then .ok result
  else do
    let v ← f ⟨[pos.length], fun j => x.get (pos.getD (j.getD 0 0) [])⟩
    if canAssign v.shape [pos.length] then
      return ⟨result.shape, fun idx => if mask idx then v.get (bcIdx v.shape [pos.idxOf idx]) else result.get idx⟩
    else throw (.py .valueError)

/-- pcwise.py:79-82 the loop over the functions, from number `i` on. -/
def maskLoop (x : NdArr X) (ialg : List ℕ → ℕ) : ℕ → List (Ent X Y) → NdArr Y → Except PcErr (NdArr Y)
  | _, [], result => .ok result
  | i, f :: fs, result => do
    let r ← maskStep x (fun idx => ialg idx == i) f.call result
    maskLoop x ialg (i + 1) fs r

/-- pcwise.py:71-83 `multif(x)`. -/
def multif [Zero Y] (funcs : List (Ent X Y)) (xvals : List X) (x : NdArr X) : Except PcErr (NdArr Y) :=
  let ialg := fun idx => searchsorted xvals (x.get idx)
  if x.shape = [] then
    match funcs[ialg []]? with
    | some f => f.call x
    | none => .error (.py .indexError)
  else maskLoop x ialg 0 funcs ⟨x.shape, fun _ => 0⟩

end
end Npplus.Pcwise
