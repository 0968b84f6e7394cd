import Verif.Model.PwPoly
import Mathlib.Algebra.Order.Floor.Defs
import Mathlib.Algebra.Order.Floor.Ring
import Mathlib.Algebra.Module.Pi
import Mathlib.Algebra.Group.Pi.Basic

/-!
# Model of class `PerPwPoly`, of pickling and of components
(npplus/pwpoly.py:668-701, 789-812)
-/

namespace Npplus

variable {K : Type} [Field K] [LinearOrder K] {V : Type} [AddCommGroup V] [Module K V]

/-- Python's `a % b` on floats for `b > 0` (`a - b*floor(a/b)`), pwpoly.py:801. -/
def pmod [FloorRing K] (a b : K) : K := a - b * ⌊a / b⌋

/-- A PerPwPoly object: the attributes `xk`, `c` of the base class and `period`.
`none` means that the attribute `period` is missing. -/
structure PerPwPoly (K V : Type) where
  base : PwPoly K V
  period : Option K

namespace PerPwPoly

/-- pwpoly.py:804-811 `_rawinit` and pwpoly.py:254-276 `new`: at least two knots; the extrapolation
pieces are overwritten by the first piece and by the last piece re-expanded at the last knot. -/
def new (p : PwPoly K V) : Except PyErr (PerPwPoly K V) :=
  if p.xk.length < 2 then .error .typeError
  else
    let c := p.c.set 0 (p.c.getD 1 [])
    let last := c.length - 1
    let c := c.set last (polyddx (c.getD (last - 1) [])
      (p.xk.getD (p.xk.length - 1) 0 - p.xk.getD (p.xk.length - 2) 0) (p.n - 1))
    .ok ⟨⟨p.xk, p.n, c⟩, some (p.xk.getD (p.xk.length - 1) 0 - p.xk.getD 0 0)⟩

/-- pwpoly.py:799-802 `__call__(x)`. -/
def call [FloorRing K] (p : PerPwPoly K V) (x : K) : Except PyErr V :=
  match p.period with
  | none => .error .attributeError
  | some per =>
    let x0 := p.base.xk.getD 0 0
    .ok (p.base.call (x0 + pmod (x - x0) per))

/-- pwpoly.py:799-802 `__call__(x, nd)`. -/
def callN [FloorRing K] (p : PerPwPoly K V) (x : K) (nd : ℕ) : Except PyErr (List V) :=
  match p.period with
  | none => .error .attributeError
  | some per =>
    let x0 := p.base.xk.getD 0 0
    .ok (p.base.callN (x0 + pmod (x - x0) per) nd)

/-- pwpoly.py:343-364 `deriv` inherited by PerPwPoly: `self.new` is `PerPwPoly.new`. -/
def deriv (p : PerPwPoly K V) (m : ℕ := 1) : Except PyErr (PerPwPoly K V) := new (p.base.deriv m)

/-- pwpoly.py:700-701 `__neg__` inherited by PerPwPoly. -/
def neg (p : PerPwPoly K V) : Except PyErr (PerPwPoly K V) := new p.base.neg

/-- pwpoly.py:366-410 `integ` inherited by PerPwPoly. -/
def integ (p : PerPwPoly K V) (m : ℕ := 1) (k : List V := []) (lbnd : K := 0) :
    Except PyErr (PerPwPoly K V) :=
  match p.base.integ m k lbnd with
  | .error e => .error e
  | .ok q => new q

end PerPwPoly

/-! ### pickle and copy -/

/-- The dict returned by `__getstate__` (pwpoly.py:669-670). -/
structure PickleState (K V : Type) where
  xk0 : List K
  n : ℕ
  c : List (List V)

/-- pwpoly.py:669-670. -/
def PwPoly.getstate (p : PwPoly K V) : PickleState K V := ⟨p.xk0, p.n, p.c⟩

/-- pwpoly.py:672-675: `self.xk = self.xk0[1:]`.  (`xk0` itself is recomputed by the model; it is
`xk[0:1] + xk`, see `C20_pickle` for why nothing is lost.) -/
def PwPoly.setstate (s : PickleState K V) : PwPoly K V := ⟨s.xk0.drop 1, s.n, s.c⟩

/-- `__getstate__` inherited by PerPwPoly: no `period`. -/
def PerPwPoly.getstate (p : PerPwPoly K V) : PickleState K V := p.base.getstate

/-- `__setstate__` inherited by PerPwPoly: the object has no attribute `period`. -/
def PerPwPoly.setstate (s : PickleState K V) : PerPwPoly K V := ⟨PwPoly.setstate s, none⟩

/-! ### components -/

/-- Values of shape `dims`. -/
def Vals (K : Type) : List ℕ → Type
  | [] => K
  | d :: ds => Fin d → Vals K ds

/-- Elementwise addition. -/
@[reducible] def Vals.group (K : Type) [Field K] : (dims : List ℕ) → AddCommGroup (Vals K dims)
  | [] => inferInstanceAs (AddCommGroup K)
  | d :: ds => by
    have := Vals.group K ds
    exact inferInstanceAs (AddCommGroup (Fin d → Vals K ds))

instance (dims : List ℕ) : AddCommGroup (Vals K dims) := Vals.group K dims

/-- Elementwise multiplication by a number. -/
@[reducible] def Vals.module (K : Type) [Field K] : (dims : List ℕ) → Module K (Vals K dims)
  | [] => inferInstanceAs (Module K K)
  | d :: ds => by
    have := Vals.module K ds
    exact inferInstanceAs (Module K (Fin d → Vals K ds))

instance (dims : List ℕ) : Module K (Vals K dims) := Vals.module K dims

/-- Component `i` along the first axis. -/
def Vals.get {d : ℕ} {ds : List ℕ} (v : Vals K (d :: ds)) (i : Fin d) : Vals K ds := v i

/-- numpy's integer index on an axis of length `d` (negative counts from the end). -/
def npIndex (d : ℕ) (k : ℤ) : Option (Fin d) :=
  if h : 0 ≤ k ∧ k < d then some ⟨k.toNat, by omega⟩
  else if h : k < 0 ∧ -d ≤ k then some ⟨(k + d).toNat, by omega⟩
  else none

/-- numpy `v[key]` for a tuple of integers. -/
def indexVals : (dims : List ℕ) → Vals K dims → List ℤ → Except PyErr (Σ ds, Vals K ds)
  | dims, v, [] => .ok ⟨dims, v⟩
  | [], _, _ :: _ => .error .indexError
  | d :: ds, v, k :: ks =>
    match npIndex d k with
    | none => .error .indexError
    | some i => indexVals ds (Vals.get v i) ks

/-- pwpoly.py:688-692 `__len__`. -/
def PwPoly.len (dims : List ℕ) (_p : PwPoly K (Vals K dims)) : Except PyErr ℕ :=
  match dims with
  | [] => .error .typeError
  | d :: _ => .ok d

/-- One integer index applied to the coefficients. -/
def PwPoly.comp {d : ℕ} {ds : List ℕ} (p : PwPoly K (Vals K (d :: ds))) (i : Fin d) :
    PwPoly K (Vals K ds) :=
  ⟨p.xk, p.n, p.c.map (fun l => l.map (fun v => Vals.get v i))⟩

/-- pwpoly.py:694-698 `__getitem__` for an integer or a tuple of integers:
`self.c[(colon,)+key+(Ellipsis, colon)]`. -/
def PwPoly.getitem : (dims : List ℕ) → PwPoly K (Vals K dims) → List ℤ →
    Except PyErr (Σ ds, PwPoly K (Vals K ds))
  | dims, p, [] => .ok ⟨dims, p⟩
  | [], _, _ :: _ => .error .indexError
  | d :: ds, p, k :: ks =>
    match npIndex d k with
    | none => .error .indexError
    | some i => PwPoly.getitem ds (p.comp i) ks

end Npplus
