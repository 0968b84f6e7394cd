import Verif.Model.Spline

/-!
# Model of the arithmetic and the knots of PerPwPoly objects, alone and mixed with PwPoly objects
(npplus/pwpoly.py:548-624, 708-786, 789-812)

`SplineOut` is an object of either class.  PerPwPoly does not override the operators; `self.new` is that of the class of `self`, and the
temporary operands made by `_binary` have the class of `self` too.
-/

namespace Npplus

variable {K : Type} [Field K] [LinearOrder K] {V : Type} [AddCommGroup V] [Module K V]

namespace SplineOut

/-- the attributes of PwPoly -/
def base : SplineOut K V → PwPoly K V
  | .pw p => p
  | .per P => P.base

/-- the class -/
def isPer : SplineOut K V → Bool
  | .pw _ => false
  | .per _ => true

/-- pwpoly.py:299-321 and 799-802 `p(x)` -/
def call [FloorRing K] : SplineOut K V → K → Except PyErr V
  | .pw p, x => .ok (p.call x)
  | .per P, x => P.call x

/-- pwpoly.py:254-276 `cls.new(xk, c)` -/
def new (per : Bool) (p : PwPoly K V) : Except PyErr (SplineOut K V) :=
  if per then (PerPwPoly.new p).map .per else .ok (.pw p)

/-- pwpoly.py:715-724 one operand padded with zeros by `self.new`; `cls` is the class of `self` -/
def pad (cls : Bool) (o : SplineOut K V) (nd : ℕ) : Except PyErr (SplineOut K V) :=
  if o.base.deg ≠ nd then new cls (o.base.padTo nd) else .ok o

/-- pwpoly.py:619-624 `addknots(xk, True)`: the class is that of the object -/
def addknotsRaw (o : SplineOut K V) (u : List K) : Except PyErr (SplineOut K V) := new o.isPer (o.base.addknotsRaw u)

/-- pwpoly.py:593-624 `addknots(xk)` -/
def addknots (o : SplineOut K V) (tol : K) (xk : List K) : Except PyErr (SplineOut K V) :=
  match PwPoly.allknotsGo tol (o.base.xk, false) [xk] with
  | .error e => .error e
  | .ok (_, false) => .ok o
  | .ok (u, true) => if u.length = o.base.xk.length then .ok o else o.addknotsRaw u

/-- pwpoly.py:733-736 common knots -/
def common (a b : SplineOut K V) : Except PyErr (SplineOut K V × SplineOut K V) :=
  match PwPoly.allknotsGo (PwPoly.defaultTol K) (a.base.xk, false) [b.base.xk] with
  | .error e => .error e
  | .ok (u, true) => do
    let a ← a.addknotsRaw u
    let b ← b.addknotsRaw u
    return (a, b)
  | .ok (_, false) => .ok (a, b)

/-- pwpoly.py:710-742 `_binary(other)`.  Simplification: both operands have the same leading dimensions. -/
def binary (p q : SplineOut K V) : Except PyErr (SplineOut K V × SplineOut K V) := do
  let nd := max p.base.deg q.base.deg
  let a ← pad p.isPer p nd
  let b ← pad p.isPer q nd
  common a b

/-- pwpoly.py:744-746 `p + q` -/
def add (p q : SplineOut K V) : Except PyErr (SplineOut K V) := do
  let (a, b) ← binary p q
  new p.isPer ⟨a.base.xk, a.base.n, List.zipWith (List.zipWith (· + ·)) a.base.c b.base.c⟩

/-- pwpoly.py:751-753 `p - q` -/
def sub (p q : SplineOut K V) : Except PyErr (SplineOut K V) := do
  let (a, b) ← binary p q
  new p.isPer ⟨a.base.xk, a.base.n, List.zipWith (List.zipWith (· - ·)) a.base.c b.base.c⟩

/-- pwpoly.py:759-774 `p * q` (`_binary` with `skip=True`) -/
def mul {R : Type} [CommRing R] [Module K R] (p q : SplineOut K R) : Except PyErr (SplineOut K R) := do
  let (a, b) ← common p q
  if a.base.n < b.base.n then new p.isPer ⟨a.base.xk, b.base.n + a.base.n - 1, List.zipWith PwPoly.mulPiece b.base.c a.base.c⟩
  else new p.isPer ⟨a.base.xk, a.base.n + b.base.n - 1, List.zipWith PwPoly.mulPiece a.base.c b.base.c⟩

end SplineOut

/-- pwpoly.py:548-591 `reknot(xk, n)` of a PerPwPoly: the new knots must span the same period, to 1e-6; the data are sampled with the periodic
`__call__`; `PwPoly.__init__` ends with `PerPwPoly._rawinit`. -/
def PerPwPoly.reknot [FloorRing K] (inv : InvFun K) (P : PerPwPoly K V) (xk : List K) (n : Option ℕ := none) :
    Except PyErr (PerPwPoly K V) := do
  let n := n.getD (P.base.n - 1)
  if xk = [] then throw .indexError
  let xk := if xk.getD (xk.length - 1) 0 < xk.getD 0 0 then xk.reverse else xk
  let period ← match P.period with | none => .error PyErr.attributeError | some per => .ok per
  let span := xk.getD (xk.length - 1) 0 - xk.getD 0 0
  if 1 / 1000000 * period < |span - period| then throw .valueError
  let h := (n - 1) / 2
  let vals ← xk.mapM fun x => P.callN x h
  let rows := (List.range (h + 1)).map fun k => vals.map fun l => l.getD k 0
  let rows ← if n % 2 = 0 then do
      let d ← P.deriv n
      let z ← (List.zipWith (fun a b => (1/2 : K) * (b + a)) xk xk.tail).mapM fun x => d.call x
      pure (rows ++ [z])
    else pure rows
  let q ← PwPoly.init inv xk rows
  let Q ← PerPwPoly.new q
  return ⟨Q.base, some span⟩

end Npplus
