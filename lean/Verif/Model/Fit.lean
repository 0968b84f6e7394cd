import Verif.Model.Spline

/-!
# Model of `plfit` and `splfit` (npplus/pwpoly.py:1051-1454)

This is the numerical part: `x` is a flat list, `y` (and `sigy`) have `m` components, values are `Fin m → K`.
How the code gets there from arrays of any shape (pwpoly.py:1429-1454) is modelled in `Model/FitNd.lean`.
`lo` and `hi` are lists of values.
-/

namespace Npplus

variable {K : Type} [Field K] [LinearOrder K] {m : ℕ}

/-- `scipy.linalg.solveh_banded(ab, b, lower=True)`, `n` unknowns, `ab` with `u+1` rows. -/
abbrev SolveH (K : Type) : Type := (u n : ℕ) → (ℕ → ℕ → K) → (ℕ → K) → Except PyErr (ℕ → K)

/-- A python loop over the components, collecting the results. -/
def seqFin {α : Type} : (m : ℕ) → (Fin m → Except PyErr α) → Except PyErr (Fin m → α)
  | 0, _ => .ok Fin.elim0
  | m + 1, f => do
    let a ← f 0
    let r ← seqFin m (fun i => f i.succ)
    .ok (Fin.cons a r)

namespace Fit

/-- What the set-up functions of plfit and splfit return. -/
structure Setup (K : Type) (m : ℕ) where
  xk : List K
  x : List K
  lo : List (Fin m → K)
  hi : List (Fin m → K)
  extrap : Option (ℕ × ℕ)

/-- `x.min()`, `x.max()` of a nonempty array. -/
def amin (x : List K) : K := x.foldl min (x.getD 0 0)
/-- see `amin` -/
def amax (x : List K) : K := x.foldl max (x.getD 0 0)

/-- pwpoly.py:1391-1426 `_splfit_setup` (without the conversion of the arguments to arrays).
`x.min()` of an empty array is a ValueError. -/
def setup [FloorRing K] (xk x : List K) (lo hi : List (Fin m → K)) (per : Bool) (extrap : Option (ℕ × ℕ)) :
    Except PyErr (Setup K m) := do
  if per ∧ (lo ≠ [] ∨ hi ≠ [] ∨ extrap ≠ none) then throw .typeError   -- 1397
  if xk.length < 2 then throw .typeError                               -- 1400
  let dec := xk.getD (xk.length - 1) 0 < xk.getD 0 0                   -- 1402
  let (xk, lo, hi, extrap) := if dec then (xk.reverse, hi, lo, extrap.map fun e => (e.2, e.1))
    else (xk, lo, hi, extrap)
  let x0 := xk.getD 0 0
  let xl := xk.getD (xk.length - 1) 0
  if per then
    return ⟨xk, x.map fun t => pmod (t - x0) (xl - x0) + x0, lo, hi, extrap⟩   -- 1411-1412
  if x = [] then throw .valueError
  let xmin := amin x
  let xmax := amax x
  if xmin < x0 ∧ lo ≠ [] then throw .valueError                        -- 1416
  if xl < xmax ∧ hi ≠ [] then throw .valueError                        -- 1422
  let front := if xmin < x0 then [xmin] else []
  let back := if xl < xmax then [xmax] else []
  return ⟨front ++ xk ++ back, x, lo, hi, extrap⟩

/-- pwpoly.py:1445: the interval index of a data point. -/
def index (xk : List K) (t : K) : ℕ := min (max (searchsorted xk t) 1) (xk.length - 1) - 1

/-- `numpy.bincount(ix, w)[k]` for `N` data. -/
def bincount (N : ℕ) (ix : ℕ → ℕ) (w : ℕ → K) (k : ℕ) : K :=
  ∑ t ∈ Finset.range N, if ix t = k then w t else 0

/-- pwpoly.py:1051-1080 `_plfitter`, `nun` unknowns; the result is an array of length `nun`. -/
def plfitter (S : Scipy K) (H : SolveH K) (nun : ℕ) (adiag asup b : ℕ → K) (lo hi : Option K) (per : Bool) :
    Except PyErr (ℕ → K) :=
  if per then do
    -- 1053-1059
    let a : Arr2 K := ⟨2, nun - 1, fun r j =>
      if r = 0 then (if j = 0 then adiag 0 + adiag (nun - 1) else adiag j) else asup j⟩
    let b : ℕ → K := fun k => if k = 0 then b 0 + b (nun - 1) else b k
    let y ← solvesPeriodic S a (nun - 1) b true
    return fun k => if k = nun - 1 then y 0 else y k
  else do
    -- 1061: a[0] is the diagonal, a[1] the subdiagonal
    let a : ℕ → ℕ → K := fun r j => if r = 0 then adiag j else asup j
    -- 1062-1067: drop the first unknown; the remaining arrays start at `o`
    let o := if lo.isSome then 1 else 0
    let a : ℕ → ℕ → K := fun r j => a r (o + j)
    let b1 : ℕ → K := fun k => b (o + k)
    let len := nun - o
    if lo.isSome ∧ len = 0 then throw .indexError
    let b1 := match lo with
      | some l => Function.update b1 0 (b1 0 - l * asup 0)
      | none => b1
    -- 1068-1073: drop the last
    let len' := if hi.isSome then len - 1 else len
    if hi.isSome ∧ len' = 0 then throw .indexError
    let b1 := match hi with
      | some h => Function.update b1 (len' - 1) (b1 (len' - 1) - h * asup (nun - 2))
      | none => b1
    -- 1078-1080
    let z ← H 1 len' a b1
    return fun k =>
      if k = 0 ∧ lo.isSome then lo.getD 0
      else if k = nun - 1 ∧ hi.isSome then hi.getD 0
      else z (k - o)

/-- pwpoly.py:1117-1127, one component: `N` data with interval index `ix`, fraction `p`, value `yy`, weight `w`. -/
def plComp (S : Scipy K) (H : SolveH K) (nun N : ℕ) (ix : ℕ → ℕ) (p yy w : ℕ → K) (lo hi : Option K) (per : Bool) :
    Except PyErr (ℕ → K) :=
  let q := fun t => 1 - p t
  plfitter S H nun
    (fun k => bincount N ix (fun t => w t * q t * q t) k + bincount N (fun t => 1 + ix t) (fun t => w t * p t * p t) k)
    (fun k => bincount N ix (fun t => w t * p t * q t) k)
    (fun k => bincount N ix (fun t => w t * q t * yy t) k + bincount N (fun t => 1 + ix t) (fun t => w t * p t * yy t) k)
    lo hi per

/-- pwpoly.py:1083-1129 `plfit(xk, x, y, sigy, lo, hi, per, extrap)` with the default solver. -/
def plfit [FloorRing K] (inv : InvFun K) (S : Scipy K) (H : SolveH K) (xk x : List K)
    (y : List (Fin m → K)) (sigy : Option (List (Fin m → K)) := none)
    (lo hi : List (Fin m → K) := []) (per : Bool := false) (extrap : Option (ℕ × ℕ) := none) :
    Except PyErr (SplineOut K (Fin m → K)) := do
  let s ← setup xk x lo hi per extrap
  if 1 < s.lo.length ∨ 1 < s.hi.length then throw .valueError          -- 1101
  if y.length ≠ x.length then throw .valueError
  let sig := sigy.getD (y.map fun _ _ => 1)                            -- 1435-1438
  if sig.length ≠ y.length then throw .valueError
  let nun := s.xk.length
  let N := x.length
  let ix := fun t => index s.xk (s.x.getD t 0)
  let p := fun t => (s.x.getD t 0 - s.xk.getD (ix t) 0) * (1 / Spl.width s.xk (ix t))   -- 1110
  let yk ← seqFin m fun i => plComp S H nun N ix p (fun t => y.getD t 0 i)
    (fun t => 1 / (sig.getD t 0 i * sig.getD t 0 i)) (s.lo.head?.map (· i)) (s.hi.head?.map (· i)) per
  pline inv S s.xk ((List.range nun).map fun k i => yk i k) s.extrap per   -- 1129

/-! ### splfit -/

/-- The cost array of `splfit`. -/
structure Cost (K : Type) (m : ℕ) where
  /-- `cost[k]`, `k ≤ nc`: one value for each interior knot (for each interval when periodic) -/
  inner : List (List (Fin m → K))
  lo : List (Fin m → K)
  hi : List (Fin m → K)

/-- pwpoly.py:1293-1301: the array `a` before `reshape`, element `[r, j, q]`, `q < n2+nc`; `xp j p` are the
moments. -/
def splA (n nc : ℕ) (xp : ℕ → ℕ → K) (rat : ℕ → ℕ → K) (r j q : ℕ) : K :=
  let n1 := n + 1
  let nc1 := nc + 1
  let ccSize := sliceLen (nc1 * n1) (n1 - r) (n1 * r) (n + 2)
  if r = nc1 ∧ n1 ≤ q then -(rat j (q - n1))                            -- 1300
  else if r = n1 ∧ q < nc1 then 1                                       -- 1299
  else if r ≤ n ∧ r ≠ 0 ∧ n1 - r ≤ q ∧ q < n1 - r + ccSize then         -- 1296-1298
    let f := n1 - r + (q - (n1 - r)) * (n + 2)
    (bicoRow K n (f / n1)).getD (f % n1) 0
  else if r ≤ n ∧ q < n1 - r then xp j (r + 2 * q)                      -- 1295
  else 0

/-- The linear system of one component (pwpoly.py:1281-1330): number of unknowns, the lower form of the
symmetric matrix, and the right hand side. -/
structure Sys (K : Type) where
  n : ℕ
  a : ℕ → ℕ → K
  b : ℕ → K

/-- pwpoly.py:1281-1330 for one component: data `(x, y, w)` with `x` already scaled to the interval,
interval widths `dx` (`nk1` of them).  `wx` is `w*x**p`, accumulated by the code in lines 1284-1291. -/
def splSys (n nc nk1 : ℕ) (dx : ℕ → K) (N : ℕ) (ix : ℕ → ℕ) (x y w : ℕ → K) (lo hi : List K) (per : Bool) : Sys K :=
  let n1 := n + 1
  let nc1 := nc + 1
  let B := n + 2 + nc
  let rat := fun j k => dx j ^ k / dx ((j + 1) % nk1) ^ k               -- 1263-1266
  let wx := fun p t => w t * x t ^ p
  let xp := fun j p => bincount N ix (wx p) j
  let a := fun r f => splA n nc xp rat r (f / B) (f % B)
  let b := fun f => if f % B < n1 then bincount N ix (fun t => wx (f % B) t * y t) (f / B) else 0
  if per then ⟨B * nk1, a, b⟩
  else
    let nhi := hi.length
    let nlo := lo.length
    let len := B * nk1 - (nc1 - nhi)                                    -- 1305-1308
    let b := fun f => if len - nhi ≤ f then hi.getD (f - (len - nhi)) 0 * dx (nk1 - 1) ^ (f - (len - nhi)) else b f
    ⟨nlo + len,
      fun r f => if f < nlo then (if r = nlo then -1 else 0) else a r (f - nlo),  -- 1271-1274, 1316
      fun f => if f < nlo then lo.getD f 0 * -(dx 0 ^ f) else b (f - nlo)⟩        -- 1318-1320

/-- pwpoly.py:1344-1345: coefficients of interval `j` from the solutions. -/
def splInner (n nc nlo : ℕ) (dx : ℕ → K) (z : Fin m → ℕ → K) (j : ℕ) : List (Fin m → K) :=
  (List.range (n + 1)).map fun q i => z i (nlo + (j * (n + 2 + nc) + q)) / dx j ^ q

/-- pwpoly.py:1346-1349: all the pieces. -/
def splAssemble (n nc nlo : ℕ) (xk : List K) (z : Fin m → ℕ → K) : PwPoly K (Fin m → K) :=
  let nk1 := xk.length - 1
  let inner := splInner n nc nlo (Spl.width xk) z
  ⟨xk, n + 1, [inner 0] ++ (List.range nk1).map inner ++
    [polyddx (inner (nk1 - 1)) (Spl.width xk (nk1 - 1)) n]⟩

/-- pwpoly.py:1342, 1355-1373: the cost array, `-2` times the multipliers, in the units of `x`. -/
def splCost (n nc nk1 : ℕ) (dx : ℕ → K) (nlo nhi : ℕ) (z : Fin m → ℕ → K) (per : Bool) : Cost K m :=
  let B := n + 2 + nc
  let mul := fun j k i => -2 * z i (nlo + (j * B + (n + 1) + k))
  if per then
    ⟨(List.range (nc + 1)).map fun k => (List.range nk1).map fun j i => mul j k i * dx ((j + 1) % nk1) ^ k, [], []⟩
  else
    ⟨(List.range (nc + 1)).map fun k => (List.range (nk1 - 1)).map fun j i => mul j k i * dx j ^ k,
      (List.range nlo).map fun k i => -2 * z i k * dx 0 ^ k,
      (List.range nhi).map fun k i => mul (nk1 - 1) k i * dx (nk1 - 1) ^ k⟩

/-- pwpoly.py:1132-1375 `splfit(xk, x, y, sigy, n, nc, lo, hi, per, extrap, cost=True)`; without `cost` the first
component is returned.  (`n = 0` with the default `nc = -1` fails in `_bico` with IndexError, or earlier with
ValueError when there are boundary conditions.) -/
def splfit [FloorRing K] (S : Scipy K) (xk x : List K)
    (y : List (Fin m → K)) (sigy : Option (List (Fin m → K)) := none) (n : ℕ := 3) (nc : Option ℤ := none)
    (lo hi : List (Fin m → K) := []) (per : Bool := false) (extrap : Option (ℕ × ℕ) := none) :
    Except PyErr (SplineOut K (Fin m → K) × Cost K m) := do
  let s ← setup xk x lo hi per extrap
  if y.length ≠ x.length then throw .valueError
  let sig := sigy.getD (y.map fun _ _ => 1)
  if sig.length ≠ y.length then throw .valueError
  let nc : ℤ ← match nc with                                            -- 1246-1249
    | none => pure ((n : ℤ) - 1)
    | some k => if k < 0 ∨ (n : ℤ) ≤ k then throw .valueError else pure k
  if 1 + nc < max s.lo.length s.hi.length then throw .valueError        -- 1250
  if nc < 0 then throw .indexError
  let nc := nc.toNat
  let e := s.extrap.getD (nc, nc)                                       -- 1252-1255
  let nk1 := s.xk.length - 1
  let dx := Spl.width s.xk
  let N := x.length
  let ix := fun t => index s.xk (s.x.getD t 0)
  let xs := fun t => (s.x.getD t 0 - s.xk.getD (ix t) 0) * (1 / dx (ix t))  -- 1261
  let z ← seqFin m fun i =>
    let sys := splSys n nc nk1 dx N ix xs (fun t => y.getD t 0 i)
      (fun t => 1 / (sig.getD t 0 i * sig.getD t 0 i)) (s.lo.map (· i)) (s.hi.map (· i)) per
    let ab : Arr2 K := ⟨n + 2, sys.n, sys.a⟩
    if per then solvesPeriodic S ab sys.n sys.b true else solvesBanded S ab sys.n sys.b true
  let p := splAssemble n nc s.lo.length s.xk z
  let cost := splCost n nc nk1 dx s.lo.length s.hi.length z per
  if per then
    let P ← PerPwPoly.new p
    return (.per P, cost)
  else return (.pw (Spl.truncEnds e p), cost)

end Fit
end Npplus
