import Verif.Model.PwInit

/-!
# Model of the PwPoly constructor with the caller's arrays in memory (npplus/pwpoly.py:181-240)

The constructor of Model/PwInit is a function of the values of its arguments.  Here the arguments are arrays the caller keeps.
-/

namespace Npplus.InitMem

variable {K : Type} [Field K] [LinearOrder K] {V : Type} [AddCommGroup V] [Module K V]

/-- An array of the caller.  `asarray(a, float)` does not copy an ndarray of floats (`float = true`); everything else (a list, an
integer array) is copied. -/
structure Arr (V : Type) where
  float : Bool
  data : List V

/-- the elements of array number `r` -/
def val (mem : List (Arr V)) (r : ℕ) : List V := (mem[r]?.map Arr.data).getD []

/-- pwpoly.py:201-240 for even degree: `body` are the values in the copy made at 201, `z` is the caller's last array (193 copies it
only if it is not a float array).  215 `argz *= 1./(...)` is in place. -/
def initBodyMem (inv : InvFun K) (xk : List K) (body : List (List V)) (z : ℕ) (mem : List (Arr V)) :
    Except PyErr (PwPoly K V) × List (Arr V) :=
  let nk := xk.length
  if PwPoly.Ragged body then (.error .valueError, mem) else
  if xk = [] ∨ body.headD [] = [] then (.error .indexError, mem) else
  if (body.headD []).length = nk + 1 then (.ok ⟨xk, body.length, (List.range (nk + 1)).map (PwPoly.col body)⟩, mem)
  else if (body.headD []).length ≠ nk then (.error .typeError, mem)
  else if nk < 2 then (.error .typeError, mem)
  else
    let h := body.length - 1
    let argz := (val mem z).map fun v => (1 / (PwPoly.evenDiv h : K)) • v                        -- 215
    let mem' := match mem[z]? with
      | some a => if a.float then mem.set z ⟨true, argz⟩ else mem
      | none => mem
    (.ok (PwPoly.initPieces inv xk body (some (val mem z))), mem')

/-- pwpoly.py:181-240 `PwPoly(xk, *args)`; `args` are the numbers of the caller's arrays.  `xk` is only read (it is always copied by
`_rawinit`, 243-247).  For decreasing `xk` 192 makes a new array of all the arguments. -/
def init (inv : InvFun K) (xk : List K) (args : List ℕ) (mem : List (Arr V)) : Except PyErr (PwPoly K V) × List (Arr V) :=
  if 1 < xk.length ∧ xk.getD (xk.length - 1) 0 < xk.getD 0 0 then
    (PwPoly.init inv xk (args.map (val mem)), mem)
  else
    match args.getLast? with
    | none => (.error .indexError, mem)
    | some z =>
      if (val mem z).length + 1 = xk.length then
        if args.dropLast = [] then (PwPoly.initBody inv xk [PwPoly.histRow (val mem z)] none, mem)
        else initBodyMem inv xk (args.dropLast.map (val mem)) z mem
      else (PwPoly.initBody inv xk (args.map (val mem)) none, mem)

/-- a history of constructor calls with the same arrays: the functions made and the arrays afterwards -/
def history (inv : InvFun K) : List (List K × List ℕ) → List (Arr V) → List (Except PyErr (PwPoly K V)) × List (Arr V)
  | [], mem => ([], mem)
  | (xk, args) :: calls, mem =>
    let (r, mem) := init inv xk args mem
    let (rs, mem) := history inv calls mem
    (r :: rs, mem)

end Npplus.InitMem
