import Verif.Model.NdArr
import Mathlib.Analysis.SpecialFunctions.Complex.Arg
import Mathlib.Analysis.SpecialFunctions.Pow.Complex
import Mathlib.Analysis.SpecialFunctions.Log.Basic
import Mathlib.Analysis.SpecialFunctions.Trigonometric.Arctan
import Mathlib.Data.Real.Sqrt
import Mathlib.Data.Sign.Defs

/-!
# Model of npplus/basic.py

Arrays are numeric (one element type; the dtype rules and the rejection of non-numeric arrays, basic.py:172-177 and
230-235, are not modelled), arithmetic is exact.
-/

namespace Npplus.Basic

variable {K : Type}

/-- basic.py:55-96 `span(start, stop, num, axis)`.  After the negative-axis correction of lines 86-87 an axis outside
`0..ndim` makes `repeat` raise (AxisError is a ValueError); a still negative one is modelled as the same error. -/
def span [Zero K] [Add K] [Sub K] [Div K] [IntCast K] (start stop : NdArr K) (num : ℤ) (axis : ℤ := 0) : Except PyErr (NdArr K) := do
  let shape ← start.zip (fun _ _ => (0 : K)) stop                     -- 83
  let start ← start.zip (· + ·) shape                                 -- 84
  let stop ← stop.zip (· + ·) shape
  let nd := shape.shape.length
  let axis := if axis < 0 then axis + nd + 1 else axis                -- 86-87
  if axis < 0 ∨ nd < axis then throw .valueError
  let k := axis.toNat
  let start := start.newAxis k                                        -- 89
  let stop := stop.newAxis k
  if num < 0 then throw .valueError                                   -- 90 repeat
  let s := start.repeatAx num.toNat k
  if num - 1 < 0 then throw .valueError                               -- 91 repeat
  let d ← stop.zip (fun b a => (b - a) / ((num - 1 : ℤ) : K)) start
  let ds := d.repeatAx (num - 1).toNat k
  let c := ds.cumsumAx k                                              -- 93
  let s : NdArr K := ⟨s.shape, fun idx =>
    if 1 ≤ idx.getD k 0 then s.get idx + c.get (idx.set k (idx.getD k 0 - 1)) else s.get idx⟩
  return ⟨s.shape, fun idx =>                                         -- 95
    if idx.getD k 0 + 1 = s.shape.getD k 0 then stop.get (idx.set k 0) else s.get idx⟩

open Classical in
/-- basic.py:99-139 `spanl(start, stop, num, axis)`.  (`shape[:axis] + (1,) + shape[axis:]` for `axis` beyond the last
one appends the new axis.) -/
noncomputable def spanl (start stop : NdArr ℝ) (num : ℤ) (axis : ℤ := 0) : Except PyErr (NdArr ℝ) := do
  let s : NdArr ℝ := start.map fun t => ((SignType.sign t : ℤ) : ℝ)      -- 129
  let start := start.map abs
  let stop ← s.zip (· * ·) stop                                       -- 130
  if ∃ idx, ValidIdx stop.shape idx ∧ stop.get idx ≤ 0 then throw .valueError   -- 131-132
  let nd := s.shape.length
  let axis' := if axis < 0 then axis + nd + 1 else axis               -- 133-137
  if axis' < 0 then throw .valueError
  let s := if axis = 0 then s else s.newAxis (min axis'.toNat nd)
  let r ← span (start.map Real.log) (stop.map Real.log) num axis'     -- 138
  s.zip (· * ·) (r.map Real.exp)

/-- `(1,)*(ndim-a.ndim) + a.shape` (basic.py:185, 241). -/
def padShape (nd : ℕ) (s : List ℕ) : List ℕ := List.replicate (nd - s.length) 1 ++ s

/-- `shape.max(axis=0)` of a nonempty table of shapes (basic.py:188, 242). -/
def maxShape : List (List ℕ) → List ℕ
  | [] => []
  | s :: l => l.foldl (List.zipWith max) s

/-- The largest number of dimensions of the arguments (basic.py:178, 236). -/
def maxDim (args : List (NdArr K)) : ℕ := args.foldl (fun n a => max n a.shape.length) 0

/-- basic.py:190-192: the second pass of `cat_`. -/
def catLoop (k : ℕ) : List (ℕ × NdArr K) → ℕ → NdArr K → Except PyErr (NdArr K)
  | [], _, r => .ok r
  | (di, a) :: l, i, r => do
    let r ← r.setSlice k i di a
    catLoop k l (i + di) r

/-- basic.py:142-193 `cat_(*args, axis=axis)`.  Without arguments `None.dtype` is an AttributeError. -/
def cat_ [Zero K] (args : List (NdArr K)) (axis : ℤ := 0) : Except PyErr (NdArr K) := do
  if args = [] then throw .attributeError                             -- 180
  let nd := max (maxDim args) 1                                       -- 178-182
  if axis < -(nd : ℤ) ∨ (nd : ℤ) ≤ axis then throw .valueError        -- 183
  let k := (if axis < 0 then axis + nd else axis).toNat
  let shapes := args.map fun a => padShape nd a.shape                 -- 185
  let lens := shapes.map (·.getD k 0)                                 -- 186
  let shapes := shapes.map (·.set k lens.sum)                         -- 187
  catLoop k (lens.zip args) 0 ⟨maxShape shapes, fun _ => 0⟩           -- 188-193

/-- basic.py:248-249: the second pass of `a_`. -/
def stackLoop (k : ℕ) : List (NdArr K) → ℕ → NdArr K → Except PyErr (NdArr K)
  | [], _, r => .ok r
  | a :: l, i, r => do
    let r ← r.setAt k i a
    stackLoop k l (i + 1) r

/-- basic.py:196-250 `a_(*args, axis=axis)`. -/
def a_ [Zero K] (args : List (NdArr K)) (axis : ℤ := 0) : Except PyErr (NdArr K) := do
  if args = [] then throw .attributeError                             -- 238
  let nd := maxDim args
  if axis < -(nd : ℤ) - 1 ∨ ((nd : ℤ) < axis ∧ 0 < nd) then throw .valueError   -- 239
  let shape := maxShape (args.map fun a => padShape nd a.shape)       -- 241-242
  let axis := if axis < 0 then (nd : ℤ) + 1 + axis else axis          -- 243
  let k := min axis.toNat nd                                          -- 245, 247: slices stop at the end
  stackLoop k args 0 ⟨shape.insertIdx k args.length, fun _ => 0⟩      -- 246-250

/-- basic.py:253-257 `max_(a, *args)` -/
def max_ [LinearOrder K] (a : NdArr K) (args : List (NdArr K)) : Except PyErr (NdArr K) :=
  args.foldlM (fun a b => a.zip max b) a

/-- basic.py:260-264 `min_(a, *args)` -/
def min_ [LinearOrder K] (a : NdArr K) (args : List (NdArr K)) : Except PyErr (NdArr K) :=
  args.foldlM (fun a b => a.zip min b) a

/-- `r.sum(axis=0)` -/
def sumAx0 [AddCommMonoid K] (a : NdArr K) : NdArr K :=
  ⟨a.shape.drop 1, fun idx => ∑ i ∈ Finset.range (a.shape.getD 0 0), a.get (i :: idx)⟩

/-- basic.py:267-281 `abs_(a, *args)`; `absolute`, `conj` and `sqrt` are those of the element type. -/
def abs_ [CommSemiring K] (absolute conj sqrt : K → K) (a : NdArr K) (args : List (NdArr K)) :
    Except PyErr (NdArr K) := do
  if args = [] then return a.map absolute
  let a ← a_ (a :: args)
  return (sumAx0 (a.map fun t => conj t * t)).map sqrt

/-- `abs_` of real arrays. -/
noncomputable def absReal : NdArr ℝ → List (NdArr ℝ) → Except PyErr (NdArr ℝ) := abs_ (|·|) id Real.sqrt

/-- `abs_` of complex arrays (`sqrt` is the principal root). -/
noncomputable def absComplex : NdArr ℂ → List (NdArr ℂ) → Except PyErr (NdArr ℂ) :=
  abs_ (fun z => ((‖z‖ : ℝ) : ℂ)) (starRingEnd ℂ) fun z => z ^ (1 / 2 : ℂ)

/-- `numpy.arctan2(a, b)` (without signed zeros). -/
noncomputable def arctan2 (a b : ℝ) : ℝ := Complex.arg ⟨b, a⟩

/-- `x % m` for floats, `m > 0`. -/
noncomputable def rmod (x m : ℝ) : ℝ := x - m * ⌊x / m⌋

/-- basic.py:284-325 `atan(a, b, branch=branch)`; `out` only says where the result is stored. -/
noncomputable def atan (a : NdArr ℝ) (b : Option (NdArr ℝ) := none) (branch : Option (NdArr ℝ) := none) :
    Except PyErr (NdArr ℝ) :=
  match b with
  | none => .ok (a.map Real.arctan)                                   -- 313
  | some b => do
    let a ← a.zip arctan2 b                                           -- 314
    match branch with
    | none => return a
    | some c =>
      let d ← a.zip (fun t c => rmod (t - c) (2 * Real.pi)) c         -- 322
      d.zip (· + ·) c

/-- basic.py:330-378 `cum(a, axis)`; `none` is `axis=None`. -/
def cum [Zero K] [Add K] (a : NdArr K) (axis : Option ℤ := some (-1)) : Except PyErr (NdArr K) := do
  if a.shape = [] then throw .typeError
  match axis with
  | none =>
    let a := a.ravel
    return NdArr.concatAx 0 ⟨[1], fun _ => 0⟩ (a.cumsumAx 0)
  | some axis =>
    let k ← normAxis a.shape.length axis                              -- 376
    return NdArr.concatAx k ⟨a.shape.set k 1, fun _ => 0⟩ (a.cumsumAx k)

/-- basic.py:381-430 `zcen(a, axis)` -/
def zcen [Add K] [Mul K] [Div K] [One K] [NatCast K] (a : NdArr K) (axis : ℤ := -1) : Except PyErr (NdArr K) := do
  if a.shape = [] then throw .typeError
  let k ← normAxis a.shape.length axis                                -- 423
  let n := a.shape.getD k 0
  if n < 2 then throw .typeError
  (a.sliceAx k 1 (n - 1)).zip (fun u v => (u + v) * (1 / 2)) (a.sliceAx k 0 (n - 1))

/-- basic.py:433-479 `pcen(a, axis)`; `a[-1:]` of an empty axis is empty. -/
def pcen [Add K] [Mul K] [Div K] [One K] [NatCast K] (a : NdArr K) (axis : ℤ := -1) : Except PyErr (NdArr K) := do
  if a.shape = [] then throw .typeError
  let k ← normAxis a.shape.length axis                                -- 470
  let n := a.shape.getD k 0
  let first := a.sliceAx k 0 (min n 1)
  let last := a.sliceAx k (n - 1) (min n 1)
  if n < 2 then return first.concatAx k last                          -- 473
  let mid ← (a.sliceAx k 1 (n - 1)).zip (fun u v => (u + v) * (1 / 2)) (a.sliceAx k 0 (n - 1))
  return (first.concatAx k mid).concatAx k last

end Npplus.Basic
