import Verif.Model.PerPw
import Mathlib.LinearAlgebra.Matrix.NonsingularInverse

/-!
# Model of the PwPoly constructor and of `reknot`
(npplus/pwpoly.py:181-240, 278-297, 548-591)
-/

namespace Npplus

variable {K : Type} [Field K] [LinearOrder K] {V : Type} [AddCommGroup V] [Module K V]

/-- `numpy.linalg.inv`, a parameter of the model. -/
abbrev InvFun (K : Type) := (m : ℕ) → Matrix (Fin m) (Fin m) K → Matrix (Fin m) (Fin m) K

/-- The contract of `numpy.linalg.inv`: the inverse of every invertible matrix. -/
def InvOK [DecidableEq K] (inv : InvFun K) : Prop :=
  ∀ m (A : Matrix (Fin m) (Fin m) K), IsUnit A.det → A * inv m A = 1 ∧ inv m A * A = 1

namespace PwPoly

/-- pwpoly.py:287 `polyddx(eye(2*h+2, h+1, -h-1), 1., h)`: column `j` is the list of the Taylor
coefficients `0..h` at 1 of the polynomial whose coefficient list is column `j` of
`eye(2h+2, h+1, -h-1)` (a single 1 at row `h+1+j`). -/
def twoSided (K : Type) [Field K] (h : ℕ) : Matrix (Fin (h + 1)) (Fin (h + 1)) K :=
  fun k j => (polyddx ((List.replicate (2 * h + 2) (0 : K)).set (h + 1 + j) 1) (1 : K) h).getD k 0

/-- `m.dot(v)` (pwpoly.py:228) on a list of `m` rows. -/
def matDot {m : ℕ} (A : Matrix (Fin m) (Fin m) K) (v : List V) : List V :=
  List.ofFn fun i => ((List.finRange m).map fun j => A i j • v.getD j 0).sum

/-- pwpoly.py:216-233 for one interval: coefficients `left` (at the left end), `rght` (at the right
end), both of length `h+1`, interval length `dx`, `z` the optional top coefficient (even degree).
The cache of pwpoly.py:283-288 only avoids recomputing the inverse. -/
def hermite (inv : InvFun K) (h : ℕ) (dx : K) (left rght z : List V) : List V :=
  let c := left ++ List.replicate (h + 1) 0 ++ z
  let rght := List.zipWith (· - ·) rght (polyddx c dx h)
  let rght := rght.mapIdx (fun k v => dx ^ k • v)
  let rght := matDot (inv (h + 1) (twoSided K h)) rght
  let rght := rght.mapIdx (fun k v => (1 / dx ^ (h + 1 + k)) • v)
  left ++ rght ++ z

/-- Column `i` of a list of rows: `args[:, i]`. -/
def col (args : List (List V)) (i : ℕ) : List V := args.map (fun r => r.getD i 0)

/-- pwpoly.py:211-214: `args *= 1./fact`, derivative rows to Taylor coefficient rows. -/
def divFact (K : Type) [Field K] {V : Type} [AddCommGroup V] [Module K V] (args : List (List V)) :
    List (List V) :=
  args.mapIdx (fun k r => r.map (fun v => (1 / (Nat.factorial k : K)) • v))

/-- pwpoly.py:214: `fact[0] * arange(h+1, 2*h+1).prod()`. -/
def evenDiv (h : ℕ) : ℕ := ((List.range h).map (fun i => h + 1 + i)).prod

/-- pwpoly.py:209-239: all the pieces, from knots (increasing, at least two), `h+1` derivative rows of
the knots' length and the optional row `argz`. -/
def initPieces (inv : InvFun K) (xk : List K) (args : List (List V)) (argz : Option (List V)) :
    PwPoly K V :=
  let h := args.length - 1
  let nk := xk.length
  let args := divFact K args
  let argz := argz.map (fun r => r.map (fun v => (1 / (evenDiv h : K)) • v))
  let zcol := fun i : ℕ => match argz with | none => [] | some r => [r.getD i 0]
  let zzero : List V := match argz with | none => [] | some _ => [0]
  let inner := (List.range (nk - 1)).map fun i =>
    hermite inv h (xk.getD (i + 1) 0 - xk.getD i 0) (col args i) (col args (i + 1)) (zcol i)
  let lo := col args 0 ++ List.replicate (h + 1) 0 ++ zzero
  let hi := col args (nk - 1) ++ List.replicate (h + 1) 0 ++ zzero
  ⟨xk, 2 * (h + 1) + (if argz.isSome then 1 else 0), [lo] ++ inner ++ [hi]⟩

/-- Rows of different lengths: `numpy.array` of such a tuple raises ValueError. -/
def Ragged (args : List (List V)) : Prop := ∃ r ∈ args, r.length ≠ (args.headD []).length

instance (args : List (List V)) : Decidable (Ragged args) := by unfold Ragged; infer_instance

/-- pwpoly.py:201-240, after the even degree analysis: `body` the rows at the knots (or per piece),
`z` the optional shorter row. -/
def initBody (inv : InvFun K) (xk : List K) (body : List (List V)) (z : Option (List V)) :
    Except PyErr (PwPoly K V) :=
  let nk := xk.length
  if Ragged body then .error .valueError else                       -- 201: array(args)
  if xk = [] ∨ body.headD [] = [] then .error .indexError else      -- 205: xk[0], ravel()[0]
  if (body.headD []).length = nk + 1 then                           -- 206
    .ok ⟨xk, body.length, (List.range (nk + 1)).map (col body)⟩
  else if (body.headD []).length ≠ nk then .error .typeError        -- 207
  else if nk < 2 then .error .typeError                             -- 209
  else .ok (initPieces inv xk body z)

/-- pwpoly.py:198-199: `zero = zeros_like(argz[..., 0:1])`, `concatenate((zero, argz, zero))`; `argz[..., 0:1]` of an empty array is empty. -/
def histRow (z : List V) : List V := (z.take 1).map (fun _ => 0) ++ z ++ (z.take 1).map fun _ => 0

/-- pwpoly.py:193-240: `PwPoly(xk, *args)` once `xk` is increasing. -/
def initInc (inv : InvFun K) (xk : List K) (args : List (List V)) : Except PyErr (PwPoly K V) :=
  match args.getLast? with
  | none => .error .indexError                                      -- 193: args[-1]
  | some z =>
    if z.length + 1 = xk.length then                                -- 194 even
      if args.dropLast = [] then initBody inv xk [histRow z] none  -- 197-200
      else initBody inv xk args.dropLast (some z)
    else initBody inv xk args none

/-- pwpoly.py:181-240 `PwPoly(xk, *args)`, each argument a list of values in `V`.
Not modelled: `xk` or arguments that are not arrays of numbers, wrong number of axes, and that
`argz *= …` (line 218) overwrites the caller's last array when it is a float array: see Model/InitMem.
189-192: decreasing `xk`; `asarray(args)` of a ragged tuple raises ValueError.  (For decreasing `xk` and
one short array line 197 takes the truth value of an empty array, an error from numpy 2.2 on; modelled
as in older numpy.) -/
def init (inv : InvFun K) (xk : List K) (args : List (List V)) : Except PyErr (PwPoly K V) :=
  if 1 < xk.length ∧ xk.getD (xk.length - 1) 0 < xk.getD 0 0 then
    if Ragged args then .error .valueError else initInc inv xk.reverse (args.map List.reverse)
  else initInc inv xk args

/-- pwpoly.py:572-589 `reknot(xk, n)` for a PwPoly (an empty `xk` raises IndexError at `xk[0]`). -/
def reknot (inv : InvFun K) (p : PwPoly K V) (xk : List K) (n : Option ℕ := none) :
    Except PyErr (PwPoly K V) :=
  let n := n.getD (p.n - 1)
  if xk = [] then .error .indexError else
  let xk := if xk.getD (xk.length - 1) 0 < xk.getD 0 0 then xk.reverse else xk
  let h := (n - 1) / 2
  -- `self(xk, h)`: row k, knot i
  let rows := (List.range (h + 1)).map fun k => xk.map fun x => (p.callN x h).getD k 0
  let rows := if n % 2 = 0 then
      rows ++ [List.zipWith (fun a b => (p.deriv n).call ((1/2 : K) * (b + a))) xk xk.tail]
    else rows
  init inv xk rows

end PwPoly
end Npplus
