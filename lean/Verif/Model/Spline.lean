import Verif.Model.PwInit
import Verif.Model.SolvePer

/-!
# Model of `spline` and `pline` (npplus/pwpoly.py:817-1048, `_bico` 1378-1388)

Leading dimensions of `y` and of the boundary values are in the module `V` (python broadcasts the
boundary values to them).  `lo` and `hi` are lists of `Option V` (`None` = not specified); the
shorthand of a single number is the one element list.  `extrap` is given as a pair of naturals.
-/

namespace Npplus

variable {K : Type} [Field K] [LinearOrder K] {V : Type} [AddCommGroup V] [Module K V]

/-- pwpoly.py:1378-1388 `_bico(deg)`, row `i` (row 0 is all ones; row `i+1` is `i+1` zeros followed by
`ci[i:-1].cumsum()`). -/
def bicoRow (K : Type) [Field K] (deg : ℕ) : ℕ → List K
  | 0 => List.replicate (deg + 1) 1
  | i + 1 => List.replicate (i + 1) 0 ++ PwPoly.cumsumFrom 0 (((bicoRow K deg i).drop i).dropLast)

namespace Spl

/-- The arguments as lists, the widths as a function: `dx[j] = x[j+1]-x[j]` (pwpoly.py:972). -/
def width (x : List K) (j : ℕ) : K := x.getD (j + 1) 0 - x.getD j 0

/-- pwpoly.py:973-977 flattened: `dxr.ravel()[f]` is 1, -R, -R², … with `R = dx[j]/dx[j+1]`
(cyclically), `f = j*n + m`. -/
def dxrFlat (n nk1 : ℕ) (dx : ℕ → K) (f : ℕ) : K :=
  if f % n = 0 then 1 else -(dx (f / n) / dx ((f / n + 1) % nk1)) ^ (f % n)

/-- pwpoly.py:962-978: the matrix `ab` (rows 0..n, `nk1*n` columns) before the boundary conditions.
Row 0 is `roll(dxr.ravel(), nm1)`; rows `1..n` are `bc[::-1]` repeated, `bc = _bico(n)[:, 1:]` with
`bc[0,-1] = 0`. -/
def baseAB (n nk1 : ℕ) (dx : ℕ → K) (r c : ℕ) : K :=
  if r = 0 then dxrFlat n nk1 dx (rollIdx (nk1 * n) ((n - 1 : ℕ) : ℤ) c)
  else if r = n ∧ c % n = n - 1 then 0
  else (bicoRow K n (n - r)).getD (c % n + 1) 0

/-- pwpoly.py:979-981: `b[0::n] = y[1:] - y[:-1]`. -/
def baseB (n : ℕ) (y : List V) (i : ℕ) : V :=
  if i % n = 0 then y.getD (i / n + 1) 0 - y.getD (i / n) 0 else 0

/-- pwpoly.py:947-959: one call of the loop `while missing` with `i + 1 = i1`, the state
`(missing, lo, hi, nlo)`. -/
def fillLoop : ℕ → ℤ → List (Option V) → List (Option V) → ℕ →
    Except PyErr (List (Option V) × List (Option V) × ℕ)
  | i1, missing, lo, hi, nlo =>
    if missing = 0 then .ok (lo, hi, nlo)
    else match i1 with
      | 0 => .error .indexError
      | i + 1 =>
        let (lo, missing, nlo) := if (lo.getD i none).isNone then
          (lo.set i (some 0), missing - 1, nlo + 1) else (lo, missing, nlo)
        let (hi, missing) := if missing ≠ 0 ∧ (hi.getD i none).isNone then
          (hi.set i (some 0), missing - 1) else (hi, missing)
        fillLoop i missing lo hi nlo
  termination_by structural i1 => i1

/-- The number of items that are not None (`len(l) - l.count(None)`). -/
def nspec (l : List (Option V)) : ℕ := l.countP (fun o => o.isSome)

/-- pwpoly.py:938-961: complete the boundary conditions; result `(lo, hi, nlo)`.
(`lo`, `hi` have at most `n-1` items here; `n ≥ 2`.) -/
def fillBC (n : ℕ) (lo hi : List (Option V)) :
    Except PyErr (List (Option V) × List (Option V) × ℕ) :=
  let nm1 := n - 1
  let lo := lo ++ List.replicate (nm1 - lo.length) none
  let nlo := nspec lo
  let missing : ℤ := nm1 - (nlo + nspec hi : ℕ)
  if missing ≠ 0 then
    fillLoop (n - 1) missing lo (hi ++ List.replicate (nm1 - hi.length) none) nlo
  else .ok (lo, hi, nlo)

/-- pwpoly.py:989-996: the loop over `hi`; `k` counts the conditions already set.  The strided slice
`ab.ravel()[k-n : (k-n)*nun : 1-nun]` of the `(n+1) × nun` array consists of the elements
`(n-t, nun-n+k+t)`, `t = 0 .. n-k-1`; they are set to `bc[1:][i, k:]`. -/
def hiLoop (n nun : ℕ) (dxl : K) : List (Option V) → ℕ → ℕ → (ℕ → ℕ → K) × (ℕ → V) →
    (ℕ → ℕ → K) × (ℕ → V)
  | [], _, _, s => s
  | none :: rest, i, k, s => hiLoop n nun dxl rest (i + 1) k s
  | some v :: rest, i, k, (ab, b) =>
    hiLoop n nun dxl rest (i + 1) (k + 1)
      ((fun r c => if k < r ∧ r ≤ n ∧ c = nun - n + k + (n - r) then
          (bicoRow K n (i + 1)).getD (k + (n - r) + 1) 0 else ab r c),
        Function.update b (nun - (n - 1) + k) (dxl ^ (i + 1) • v))

/-- pwpoly.py:1000-1009: the loop over `reversed(lo)`; `k` is the python `k`, `j` is the python `j`
divided by `nun`.  `ab.ravel()[j*nun::1-nun][mi]` is the element `(j-mi, mi)`. -/
def loLoop (n : ℕ) (dx0 : K) : List (Option V) → ℕ → ℕ → ℕ → (ℕ → ℕ → K) × (ℕ → V) →
    (ℕ → ℕ → K) × (ℕ → V)
  | [], _, _, _, s => s
  | none :: rest, i, k, j, s => loLoop n dx0 rest (i + 1) k j s
  | some v :: rest, i, k, j, (ab, b) =>
    let mi := n - 1 - 1 - i
    loLoop n dx0 rest (i + 1) (k - 1) (j - 1)
      ((fun r c => if r = j - 1 - mi ∧ c = mi then 1 else ab r c),
        Function.update b k (dx0 ^ (mi + 1) • v))

/-- pwpoly.py:988-1009: the system of the nonperiodic spline. -/
def system (n : ℕ) (x : List K) (y : List V) (lo hi : List (Option V)) (nlo : ℕ) :
    (ℕ → ℕ → K) × (ℕ → V) :=
  let nk1 := x.length - 1
  let nun := nk1 * n
  let dx := width x
  let ab := fun r c => if r = 0 ∧ c < n - 1 then 0 else baseAB n nk1 dx r c   -- 988
  let (ab, b) := hiLoop n nun (dx (nk1 - 1)) hi 0 0 (ab, baseB n y)
  let b := if nlo ≠ 0 then fun i => b (rollIdx nun (nlo : ℤ) i) else b        -- 997-999
  loLoop n (dx 0) lo.reverse 0 (nlo - 1) (n - 1) (ab, b)

/-- `c[e+1:] = 0` on one piece (pwpoly.py:933, 936, 1022, 1023). -/
def trunc (e : ℕ) (l : List V) : List V := l.mapIdx (fun k v => if e + 1 ≤ k then 0 else v)

/-- pwpoly.py:1012-1016: the coefficients of interval `j` from the solution `z`. -/
def inner (n : ℕ) (x : List K) (y : List V) (z : ℕ → V) (j : ℕ) : List V :=
  y.getD j 0 :: (List.range n).map (fun q => (1 / width x j ^ (q + 1)) • z (j * n + q))

/-- pwpoly.py:1012-1018: all the pieces, with the extrapolation pieces. -/
def assemble (n : ℕ) (x : List K) (y : List V) (z : ℕ → V) : PwPoly K V :=
  let nk1 := x.length - 1
  ⟨x, n + 1, [inner n x y z 0] ++ (List.range nk1).map (inner n x y z) ++
    [polyddx (inner n x y z (nk1 - 1)) (width x (nk1 - 1)) n]⟩

/-- pwpoly.py:1022-1023: truncation of the first and of the last piece. -/
def truncEnds (e : ℕ × ℕ) (p : PwPoly K V) : PwPoly K V :=
  ⟨p.xk, p.n, (p.c.modify 0 (trunc e.1)).modify (p.c.length - 1) (trunc e.2)⟩

/-- pwpoly.py:931-937, after the call of the constructor (`len(xk) > 1` holds): degree 1. -/
def linear (e : ℕ × ℕ) (p : PwPoly K V) : PwPoly K V :=
  let c := p.c.set 0 (trunc e.1 (p.c.getD 1 []))
  let last := c.length - 1
  ⟨p.xk, p.n, c.set last (trunc e.2 (polyddx (c.getD (last - 1) [])
    (p.xk.getD (p.xk.length - 1) 0 - p.xk.getD (p.xk.length - 2) 0) (p.n - 1)))⟩

/-- pwpoly.py:928-1024 for `per=False`, `x` increasing, the number of boundary values checked. -/
def nonper (inv : InvFun K) (S : Scipy K) (x : List K) (y : List V) (n : ℕ)
    (lo hi : List (Option V)) (e : ℕ × ℕ) : Except PyErr (PwPoly K V) := do
  if n < 2 then
    let p ← PwPoly.init inv x [y]
    return linear e p
  let (lo, hi, nlo) ← fillBC n lo hi
  let nun := (x.length - 1) * n
  let s := system n x y lo hi nlo
  let z ← solveBanded S (1 + nlo) (n - 1 - nlo) ⟨n + 1, nun, s.1⟩ nun s.2
  return truncEnds e (assemble n x y z)

/-- pwpoly.py:925-1020 for `per=True`: `y[-1] = y[0]` first. -/
def periodic (inv : InvFun K) (S : Scipy K) (x : List K) (y : List V) (n : ℕ) :
    Except PyErr (PerPwPoly K V) := do
  let y := y.set (y.length - 1) (y.getD 0 0)
  if n < 2 then
    let p ← PwPoly.init inv x [y]
    let P ← PerPwPoly.new p
    return ⟨linear (n - 1, n - 1) P.base, P.period⟩
  let nk1 := x.length - 1
  let nun := nk1 * n
  let z ← solvePeriodic S 1 (n - 1) ⟨n + 1, nun, baseAB n nk1 (width x)⟩ nun (baseB n y)
  PerPwPoly.new (assemble n x y z)

end Spl

/-- What `spline` returns. -/
inductive SplineOut (K V : Type) where
  | pw (p : PwPoly K V)
  | per (p : PerPwPoly K V)

/-- pwpoly.py:817-1024 `spline(x, y, n, lo, hi, per, extrap)`.  Not modelled: the conversion of the
arguments to arrays (`x`, `y` of the wrong number of axes). -/
def spline (inv : InvFun K) (S : Scipy K) (x : List K) (y : List V) (n : ℕ := 3)
    (lo hi : List (Option V) := []) (per : Bool := false) (extrap : Option (ℕ × ℕ) := none) :
    Except PyErr (SplineOut K V) := do
  if x.length < 2 then throw .typeError                               -- 900
  if y.length ≠ x.length then throw .typeError                        -- 903
  if per ∧ (lo ≠ [] ∨ hi ≠ [] ∨ extrap ≠ none) then throw .typeError  -- 913
  let e := extrap.getD (n - 1, n - 1)                                 -- 915
  let dec := x.getD (x.length - 1) 0 < x.getD 0 0                     -- 919
  let (x, y, lo, hi, e) := if dec then (x.reverse, y.reverse, hi, lo, (e.2, e.1))
    else (x, y, lo, hi, e)
  -- 923: `nm1` is -1 for `n = 0`
  if n = 0 ∨ n - 1 < lo.length ∨ n - 1 < hi.length then throw .typeError
  if per then (Spl.periodic inv S x y n).map .per
  else (Spl.nonper inv S x y n lo hi e).map .pw

/-- pwpoly.py:1027-1048 `pline(x, y, extrap, per)`. -/
def pline (inv : InvFun K) (S : Scipy K) (x : List K) (y : List V) (extrap : Option (ℕ × ℕ) := none)
    (per : Bool := false) : Except PyErr (SplineOut K V) :=
  spline inv S x y 1 [] [] per extrap

end Npplus
