import Verif.Model.PerPw
import Verif.Model.PwInit
import Verif.Model.NdArr

/-!
# Model of the sharing of coefficient arrays between PwPoly objects (npplus/pwpoly.py:242-276, 343-410, 412-470, 668-786, 804-811)

The other models treat a PwPoly as a value.  Here the coefficient arrays are in a memory: an object refers to an array, which may be
a view of the memory of another one (numpy basic indexing and `reshape`), and assignments like `c[..., 0] = ...` and `c *= ...`
change the memory.  The knot arrays `xk0` are shared too, but nothing ever assigns to them, so they are values here.
A state survives an exception.
-/

namespace Npplus.Heap

variable {K : Type} [Field K] [LinearOrder K]

/-- The memory of a coefficient array with axes (degree, dimensionality, piece): `get idx i` is the list of the `n` coefficients of
piece `i` of the component with multi-index `idx`; `m` is the number of pieces. -/
structure Buf (K : Type) where
  n : ℕ
  m : ℕ
  get : List ℕ → ℕ → List K

/-- A numpy array: its component with multi-index `idx` is the component `comp idx` of the memory `ref`. -/
structure View where
  ref : ℕ
  shape : List ℕ
  comp : List ℕ → List ℕ

/-- A PwPoly (`per = false`) or PerPwPoly (`per = true`) object. -/
structure Obj (K : Type) where
  per : Bool
  xk : List K
  c : View

/-- The memory (addresses below `next` are in use) and the objects the user has got so far. -/
structure St (K : Type) where
  heap : ℕ → Buf K
  next : ℕ
  objs : List (Obj K)

/-- A program: it may raise an exception, the state is kept. -/
abbrev M (K α : Type) := ExceptT PyErr (StateM (St K)) α

/-- The function an object represents, one component. -/
def St.value (st : St K) (o : Obj K) (idx : List ℕ) : PwPoly K K :=
  let b := st.heap o.c.ref
  ⟨o.xk, b.n, (List.range b.m).map fun i => b.get (o.c.comp idx) i⟩

/-- a new array -/
def alloc (shape : List ℕ) (b : Buf K) : M K View := fun st =>
  (.ok ⟨st.next, shape, id⟩, { st with heap := Function.update st.heap st.next b, next := st.next + 1 })

/-- reading an array: its elements as a new memory -/
def read (v : View) : M K (Buf K) := fun st =>
  (.ok ⟨(st.heap v.ref).n, (st.heap v.ref).m, fun idx i => (st.heap v.ref).get (v.comp idx) i⟩, st)

/-- assignment to elements of the memory of an array -/
def write (v : View) (f : Buf K → Buf K) : M K Unit := fun st =>
  (.ok (), { st with heap := Function.update st.heap v.ref (f (st.heap v.ref)) })

open Classical in
/-- pwpoly.py:809-810 `c[..., 0] = c[..., 1]; c[..., -1] = polyddx(c[..., -2], dx)` on the components in `sees`. -/
noncomputable def Buf.perInit (dx : K) (sees : List ℕ → Prop) (b : Buf K) : Buf K :=
  { b with get := fun k i =>
      if sees k then (if i = 0 then b.get k 1 else if i + 1 = b.m then polyddx (b.get k (b.m - 2)) dx (b.n - 1) else b.get k i)
      else b.get k i }

/-- the components of the memory seen through an array -/
def View.Sees (v : View) (k : List ℕ) : Prop := ∃ idx, ValidIdx v.shape idx ∧ v.comp idx = k

/-- pwpoly.py:810 `xk[-1] - xk[-2]` -/
def lastDx (xk : List K) : K := xk.getD (xk.length - 1) 0 - xk.getD (xk.length - 2) 0

/-- pwpoly.py:254-276 `cls.new(xk, c)` with `_rawinit` of PwPoly (242-250: nothing is copied) or of PerPwPoly (804-811: at least
two knots, then the array is modified). -/
noncomputable def new (per : Bool) (xk : List K) (c : View) : M K (Obj K) := do
  if per then
    if xk.length < 2 then throw .typeError
    write c (Buf.perInit (lastDx xk) c.Sees)
  return ⟨per, xk, c⟩

/-- pwpoly.py:356-363 the loop of `deriv`: each trip makes a new array -/
def derivLoop : ℕ → View → M K View
  | 0, c => pure c
  | m + 1, c => do
    let b ← read c
    if b.n < 2 then alloc c.shape ⟨b.n, b.m, fun idx i => (b.get idx i).map fun _ => 0⟩
    else do
      let c ← alloc c.shape ⟨b.n - 1, b.m, fun idx i => PwPoly.derivPiece K (b.get idx i)⟩
      derivLoop m c

/-- pwpoly.py:343-364 `deriv(m)`; for `m = 0` the array is shared -/
noncomputable def deriv (o : Obj K) (m : ℕ) : M K (Obj K) := do
  let c ← derivLoop m o.c
  new o.per o.xk c

/-- pwpoly.py:403-409 the loop of `integ`, one trip for each constant: a new array (406), modified in place (408, 409).
The values assigned are those of `PwPoly.integStep`. -/
def integLoop (xk : List K) (ibnd : ℕ) (lb : K) : List (List ℕ → K) → View → M K View
  | [], c => pure c
  | k :: ks, c => do
    let b ← read c
    let c ← alloc c.shape ⟨b.n + 1, b.m, fun idx i => PwPoly.integPiece K (b.get idx i)⟩
    if 1 < xk.length then
      write c fun b => { b with get := fun idx i => (PwPoly.stepUp xk ((List.range b.m).map (b.get idx))).getD i [] }
    write c fun b => { b with get := fun idx i => PwPoly.addHead (k idx - polyfun (b.get idx ibnd) lb) (b.get idx i) }
    integLoop xk ibnd lb ks c

/-- pwpoly.py:366-410 `integ(m, k, lbnd)` with `m` constants `ks`; for `m = 0` the array is shared -/
noncomputable def integ (o : Obj K) (ks : List (List ℕ → K)) (lbnd : K) : M K (Obj K) := do
  let ibnd := searchsorted o.xk lbnd
  let c ← integLoop o.xk ibnd (lbnd - (PwPoly.mkXk0 o.xk).getD ibnd 0) ks o.c
  new o.per o.xk c

/-- pwpoly.py:438-462 what `roots(value)` assigns: to a copy of the array (438) -/
def roots (o : Obj K) (value : K) (dxn : ℕ → ℕ → K) : M K Unit := do
  let b ← read o.c
  let c ← alloc o.c.shape b                                                            -- 438 self.c.copy()
  if value ≠ 0 then write c fun b => { b with get := fun idx i => PwPoly.addHead (-value) (b.get idx i) }    -- 442
  write c fun b => { b with get := fun idx i => (b.get idx i).mapIdx fun d v => dxn d i * v }   -- 462 c *= dxn

/-- pwpoly.py:700-701 `-p` -/
noncomputable def neg (o : Obj K) : M K (Obj K) := do
  let b ← read o.c
  let c ← alloc o.c.shape { b with get := fun idx i => (b.get idx i).map fun v => -v }
  new o.per o.xk c

/-- pwpoly.py:669-675 copying: `__getstate__` copies the array, `__setstate__` does not call `_rawinit`.  (That a copy of a PerPwPoly
lacks its period is in C20.) -/
def copy (o : Obj K) : M K (Obj K) := do
  let b ← read o.c
  let c ← alloc o.c.shape b
  return ⟨o.per, o.xk, c⟩

open Classical in
/-- pwpoly.py:694-698 `p[key]` for basic indexing: the array is a view; component `idx` of the new one is component `f idx` of the
old one. -/
noncomputable def item (o : Obj K) (shape : List ℕ) (f : List ℕ → List ℕ) : M K (Obj K) := do
  if ∃ idx, ValidIdx shape idx ∧ ¬ ValidIdx o.c.shape (f idx) then throw .indexError
  new o.per o.xk ⟨o.c.ref, shape, fun idx => o.c.comp (f idx)⟩

/-- A method whose result is made of a new array with any values: `p[key]` for advanced indexing (694-698, a copy), `addknots` (593-625)
with new knots, `reknot` (549-591), `p / x`. -/
noncomputable def fresh (per : Bool) (xk : List K) (shape : List ℕ) (n : ℕ) (get : List ℕ → ℕ → List K) : M K (Obj K) := do
  let c ← alloc shape ⟨n, xk.length + 1, get⟩
  new per xk c

/-- pwpoly.py:715-724 pad the coefficients with zeros: a new array -/
noncomputable def pad (per : Bool) (o : Obj K) (nd : ℕ) : M K (Obj K) := do
  let b ← read o.c
  if b.n ≠ nd then
    let c ← alloc o.c.shape ⟨nd, b.m, fun idx i => b.get idx i ++ List.replicate (nd - b.n) 0⟩
    new per o.xk c
  else return o

/-- pwpoly.py:727-732 `c.reshape(s[0:1] + (1,)*k + s[1:])`: a view -/
def View.lift (v : View) (k : ℕ) : View := ⟨v.ref, List.replicate k 1 ++ v.shape, fun idx => v.comp (idx.drop k)⟩

/-- pwpoly.py:713-724 one operand: not padded for a product -/
noncomputable def operand (skip per : Bool) (o : Obj K) (nd : ℕ) : M K (Obj K) := if skip then pure o else pad per o nd

/-- pwpoly.py:725-732 equal numbers of dimensions; the temporary objects are made by `self.new`, also that of the other operand -/
noncomputable def align (per : Bool) (this other : Obj K) : M K (Obj K × Obj K) :=
  let la := this.c.shape.length
  let lb := other.c.shape.length
  if la < lb then do
    let this ← new per this.xk (this.c.lift (lb - la))
    return (this, other)
  else if lb < la then do
    let other ← new per other.xk (other.c.lift (la - lb))
    return (this, other)
  else return (this, other)

/-- pwpoly.py:708-733 the part of `_binary(other, skip)` that makes temporary objects with `self.new` -/
noncomputable def binaryArgs (self other : Obj K) (skip : Bool) : M K (Obj K × Obj K) := do
  let a ← read self.c
  let b ← read other.c
  let this ← operand skip self.per self (max a.n b.n)
  let other ← operand skip self.per other (max a.n b.n)
  align self.per this other

/-- pwpoly.py:619-624 `addknots(u, True)`: a new array, of the class of the object -/
noncomputable def addknots (o : Obj K) (u : List K) : M K (Obj K) := do
  let b ← read o.c
  let c ← alloc o.c.shape ⟨b.n, u.length + 1, fun idx i =>
    ((⟨o.xk, b.n, (List.range b.m).map fun i => b.get idx i⟩ : PwPoly K K).addknotsRaw u).c.getD i []⟩
  new o.per u c

/-- pwpoly.py:733-736 common knots -/
noncomputable def common (this other : Obj K) : M K (Obj K × Obj K) :=
  match PwPoly.allknotsGo (PwPoly.defaultTol K) (this.xk, false) [other.xk] with
  | .error e => throw e
  | .ok (u, true) => do
    let this ← addknots this u
    let other ← addknots other u
    return (this, other)
  | .ok (_, false) => return (this, other)

/-- The binary operators with a PwPoly on the right. -/
inductive Bin where
  | add
  | sub
  | mul
  | div

/-- pwpoly.py:760 the argument `skip` of `_binary` -/
def Bin.skip : Bin → Bool
  | .mul => true
  | _ => false

/-- pwpoly.py:746, 753, 764-772 the number of coefficients of the result -/
def Bin.rows (op : Bin) (n m : ℕ) : ℕ :=
  match op with
  | .mul => if n < m then m + n - 1 else n + m - 1
  | _ => n

/-- pwpoly.py:746, 753, 764-773 the coefficients of one component of the result -/
def Bin.pieces (op : Bin) (n m : ℕ) (a b : List (List K)) : List (List K) :=
  match op with
  | .add => List.zipWith (List.zipWith (· + ·)) a b
  | .sub => List.zipWith (List.zipWith (· - ·)) a b
  | .mul => if n < m then List.zipWith PwPoly.mulPiece b a else List.zipWith PwPoly.mulPiece a b
  | .div => []

/-- pwpoly.py:741-786 the result of a binary operation: a new array (for `*` it is filled in place, 773), of the broadcast shape;
a quotient raises TypeError (783). -/
noncomputable def finish (per : Bool) (op : Bin) (this other : Obj K) : M K (Obj K) := do
  if op matches .div then throw .typeError
  let a ← read this.c
  let b ← read other.c
  match bcastShape this.c.shape other.c.shape with
  | .error e => throw e
  | .ok shape => do
    let c ← alloc shape ⟨op.rows a.n b.n, this.xk.length + 1, fun _ _ => List.replicate (op.rows a.n b.n) 0⟩
    write c fun buf => { buf with get := fun idx i => (op.pieces a.n b.n ((List.range a.m).map fun i => a.get (bcIdx this.c.shape idx) i)
      ((List.range b.m).map fun i => b.get (bcIdx other.c.shape idx) i)).getD i [] }
    new per this.xk c

/-- pwpoly.py:708-786 `p + q`, `p - q`, `p * q`, `p / q` -/
noncomputable def binary (self other : Obj K) (op : Bin) : M K (Obj K) := do
  let (this, other) ← binaryArgs self other op.skip
  let (this, other) ← common this other
  finish self.per op this other

/-- What a user can do with the objects he has (numbered in the order in which he got them). -/
inductive Op (K : Type) where
  /-- a constructor: PwPoly, PerPwPoly, spline, pline, plfit, splfit (all make a new array) -/
  | make (per : Bool) (xk : List K) (shape : List ℕ) (n : ℕ) (get : List ℕ → ℕ → List K)
  /-- a method with a new array as result -/
  | fresh (o : ℕ) (xk : List K) (shape : List ℕ) (n : ℕ) (get : List ℕ → ℕ → List K)
  | deriv (o m : ℕ)
  | integ (o : ℕ) (ks : List (List ℕ → K)) (lbnd : K)
  | neg (o : ℕ)
  | pos (o : ℕ)
  | copy (o : ℕ)
  | item (o : ℕ) (shape : List ℕ) (f : List ℕ → List ℕ)
  | roots (o : ℕ) (value : K) (dxn : ℕ → ℕ → K)
  | binary (o q : ℕ) (op : Bin)

/-- the object a name refers to (KeyError if there is none) -/
def getObj (o : ℕ) : M K (Obj K) := fun st =>
  match st.objs[o]? with
  | some x => (.ok x, st)
  | none => (.error .keyError, st)

/-- the program run by an operation; its result, if it is an object -/
noncomputable def Op.prog : Op K → M K (Option (Obj K))
  | .make per xk shape n get => do return some (← Heap.fresh per xk shape n get)
  | .fresh o xk shape n get => do
    let x ← getObj o
    return some (← Heap.fresh x.per xk shape n get)
  | .deriv o m => do
    let x ← getObj o
    return some (← Heap.deriv x m)
  | .integ o ks lbnd => do
    let x ← getObj o
    return some (← Heap.integ x ks lbnd)
  | .neg o => do
    let x ← getObj o
    return some (← Heap.neg x)
  | .pos o => do return some (← getObj o)                                              -- 703-704
  | .copy o => do
    let x ← getObj o
    return some (← Heap.copy x)
  | .item o shape f => do
    let x ← getObj o
    return some (← Heap.item x shape f)
  | .roots o value dxn => do
    let x ← getObj o
    Heap.roots x value dxn
    return none
  | .binary o q op => do
    let x ← getObj o
    let y ← getObj q
    return some (← Heap.binary x y op)

/-- one operation; the user keeps the object it returns -/
noncomputable def Op.exec (op : Op K) (st : St K) : St K :=
  match op.prog.run st with
  | (.ok (some o), st) => { st with objs := st.objs ++ [o] }
  | (_, st) => st

/-- a history of operations -/
noncomputable def exec (ops : List (Op K)) (st : St K) : St K := ops.foldl (fun st op => op.exec st) st

/-- no objects yet -/
def St.init : St K := ⟨fun _ => ⟨0, 0, fun _ _ => []⟩, 0, []⟩

end Npplus.Heap
