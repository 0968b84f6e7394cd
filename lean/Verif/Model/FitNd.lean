import Verif.Model.Fit
import Verif.Model.NdArr

/-!
# Model of the array arguments of `plfit` and `splfit` (npplus/pwpoly.py:1429-1454)

`Model/Fit.lean` is the fit of flat data; here are arrays of any shape.  The knots are one-dimensional.
-/

namespace Npplus

/-- `zeros(shape)` -/
def NdArr.zeros {α : Type} [Zero α] (sh : List ℕ) : NdArr α := ⟨sh, fun _ => 0⟩

/-- `ones(shape)` -/
def NdArr.ones {α : Type} [One α] (sh : List ℕ) : NdArr α := ⟨sh, fun _ => 1⟩

/-- `a.reshape(shape)`; ValueError when the number of elements differs. -/
def NdArr.reshape {α : Type} [Zero α] (sh : List ℕ) (a : NdArr α) : Except PyErr (NdArr α) :=
  if sh.prod = a.shape.prod then .ok (NdArr.ofList sh a.toList) else .error .valueError

namespace Fit

variable {K : Type} [Field K] [LinearOrder K]

/-- What `_splfit_args` returns (the interval index and widths are computed in the flat fit). -/
structure NdArgs (K : Type) where
  x : List K
  y : NdArr K
  sig : NdArr K
  yshape : List ℕ
  lo : List (List K)
  hi : List (List K)

/-- pwpoly.py:1429-1454 `_splfit_args` -/
def splfitArgs (x y : NdArr K) (sigy : Option (NdArr K)) (lo hi : List (NdArr K)) : Except PyErr (NdArgs K) := do
  let ndimx := x.shape.length
  let ndimy : ℤ := (y.shape.length : ℤ) - ndimx
  let y ← y.zip (· + ·) (NdArr.zeros x.shape)                           -- 1432
  -- 1433, 1434: start of the slice `[ndimy:]`, a negative number counts from the end
  let k : ℕ := (if ndimy < 0 then ndimy + y.shape.length else ndimy).toNat
  let x ← x.zip (· + ·) (NdArr.zeros (y.shape.drop k))
  let yshape := y.shape.take k
  let sig ← match sigy with                                             -- 1435-1438
    | none => pure (NdArr.ones y.shape)
    | some s => s.zip (· + ·) (NdArr.zeros y.shape)
  let x := x.toList
  let shape := (if ndimy ≠ 0 then yshape else [1]) ++ [x.length]        -- 1440
  let y ← y.reshape shape
  let sig ← sig.reshape shape
  let lo ← lo.mapM fun bc => (bc.zip (· + ·) (NdArr.zeros yshape)).map NdArr.toList   -- 1447-1453
  let hi ← hi.mapM fun bc => (bc.zip (· + ·) (NdArr.zeros yshape)).map NdArr.toList
  return ⟨x, y, sig, yshape, lo, hi⟩

/-- The result of `splfit` with `cost=True`: a piecewise polynomial whose values have the shape `lead`, here a vector of
`m` components in C order. -/
structure NdFit (K : Type) where
  lead : List ℕ
  m : ℕ
  out : SplineOut K (Fin m → K)
  cost : Cost K m

/-- see `NdFit` -/
structure NdPl (K : Type) where
  lead : List ℕ
  m : ℕ
  out : SplineOut K (Fin m → K)

/-- `[[a[i, t] for i in range(m)] for t in range(N)]` -/
def columns (m N : ℕ) (a : NdArr K) : List (Fin m → K) := (List.range N).map fun t i => a.get [i.1, t]

/-- `[v[i] for v in bcs]` -/
def bcVals (m : ℕ) (bcs : List (List K)) : List (Fin m → K) := bcs.map fun v i => v.getD i.1 0

/-- pwpoly.py:1132-1375 `splfit` for arrays.  `_splfit_setup` comes first (1239); it looks at all the `x` and at whether there are
boundary conditions, and acts element by element, so the flat fit can repeat it after the broadcasting.
The loop (1281) is over the first axis of the reshaped `y` and `w`, and `bincount` (1287) requires the rest to be one axis:
ValueError otherwise.  With no component `c[:, mask]` (1343) is an IndexError.  A boundary value with no elements is an IndexError in the loop
(simplified: an invalid `nc` would be reported first).  A 0-dimensional `y` with `x` of one or more dimensions (`shape` has one axis)
works only for one point.  Simplified: if broadcasting against an axis of length 0 of `y` leaves no points, the exception here is
ValueError, in the code LinAlgError. -/
def splfitNd [FloorRing K] (S : Scipy K) (xk : List K) (x y : NdArr K) (sigy : Option (NdArr K) := none) (n : ℕ := 3) (nc : Option ℤ := none)
    (lo hi : List (NdArr K) := []) (per : Bool := false) (extrap : Option (ℕ × ℕ) := none) : Except PyErr (NdFit K) := do
  let _ ← setup (m := 1) xk x.toList (lo.map fun _ => 0) (hi.map fun _ => 0) per extrap
  let a ← splfitArgs x y sigy lo hi
  let N := a.x.length
  match a.y.shape with
  | [m, _] =>
    if m ≠ 0 ∧ (∃ l ∈ a.lo ++ a.hi, l = []) then throw .indexError
    let r ← splfit S xk a.x (columns m N a.y) (some (columns m N a.sig)) n nc (bcVals m a.lo) (bcVals m a.hi) per extrap
    if m = 0 then throw .indexError
    return ⟨a.yshape, m, r.1, r.2⟩
  | [1] =>
    let y2 ← a.y.reshape [1, 1]
    let sig2 ← a.sig.reshape [1, 1]
    let r ← splfit S xk a.x (columns 1 1 y2) (some (columns 1 1 sig2)) n nc (bcVals 1 a.lo) (bcVals 1 a.hi) per extrap
    return ⟨a.yshape, 1, r.1, r.2⟩
  | [_] => throw .valueError
  | m :: _ => if m = 0 then throw .indexError else throw .valueError
  | [] => throw .valueError

/-- pwpoly.py:1083-1129 `plfit` for arrays; see `splfitNd`.  Differences: the number of boundary conditions is checked before (1101), no components
are possible (1128), and with a 0-dimensional `y` and more than one point the `reshape` (1128) fails (simplified: an exception of the solver or
an IndexError for the boundary value would come first).  More than one leading axis: `bincount` (1119), unless there is no component. -/
def plfitNd [FloorRing K] (inv : InvFun K) (S : Scipy K) (H : SolveH K) (xk : List K) (x y : NdArr K) (sigy : Option (NdArr K) := none)
    (lo hi : List (NdArr K) := []) (per : Bool := false) (extrap : Option (ℕ × ℕ) := none) : Except PyErr (NdPl K) := do
  let _ ← setup (m := 1) xk x.toList (lo.map fun _ => 0) (hi.map fun _ => 0) per extrap
  if 1 < lo.length ∨ 1 < hi.length then throw .valueError
  let a ← splfitArgs x y sigy lo hi
  let N := a.x.length
  match a.y.shape with
  | [m, _] =>
    if m ≠ 0 ∧ (∃ l ∈ a.lo ++ a.hi, l = []) then throw .indexError
    let r ← plfit inv S H xk a.x (columns m N a.y) (some (columns m N a.sig)) (bcVals m a.lo) (bcVals m a.hi) per extrap
    return ⟨a.yshape, m, r⟩
  | [1] =>
    let y2 ← a.y.reshape [1, 1]
    let sig2 ← a.sig.reshape [1, 1]
    let r ← plfit inv S H xk a.x (columns 1 1 y2) (some (columns 1 1 sig2)) (bcVals 1 a.lo) (bcVals 1 a.hi) per extrap
    return ⟨a.yshape, 1, r⟩
  | [_] => throw .valueError
  | m :: _ =>
    if m ≠ 0 then throw .valueError
    let r ← plfit (m := 0) inv S H xk a.x (a.x.map fun _ => Fin.elim0) none [] [] per extrap
    return ⟨a.yshape, 0, r⟩
  | [] => throw .valueError

end Fit
end Npplus
