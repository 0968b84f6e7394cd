import Verif.Np

/-!
# Model of npplus/itemattr.py

Attribute and item access, the `items_are_attrs` decorator and `redict`.  Names are lists of characters.
`dict` itself is library behaviour: an insertion ordered list of items with distinct keys.
-/

namespace Npplus.ItemAttr

/-- An attribute name / string key. -/
abbrev Name := List Char

/-- A key: a string, or any other hashable object (numbered; such keys are reachable by item access only). -/
inductive Key where
  | str (s : Name)
  | other (n : ℕ)
  deriving DecidableEq

/-- Python `name.startswith('__')` -/
def dunder (name : Name) : Bool := ['_', '_'].isPrefixOf name

/-- itemattr.py:51-52 `ItemsAreAttrs.name2key`: `name[:-1] if name.endswith('_') else name`. -/
def name2key (name : Name) : Name := if name.getLast? = some '_' then name.dropLast else name

/-- The item protocol `__getitem__`, `__setitem__`, `__delitem__` of an arbitrary mapping class with instance
state `S` (library / user code; a parameter). -/
structure Mapping (S V : Type) where
  getitem : S → Key → Except PyErr V
  setitem : S → Key → V → Except PyErr S
  delitem : S → Key → Except PyErr S

section dict
variable {V : Type}

/-- builtin `dict.__getitem__` -/
def dget : List (Key × V) → Key → Except PyErr V
  | [], _ => .error .keyError
  | (k', v) :: d, k => if k' = k then .ok v else dget d k

/-- builtin `dict.__setitem__`: an existing key keeps its place, a new one goes to the end -/
def dset : List (Key × V) → Key → V → List (Key × V)
  | [], k, v => [(k, v)]
  | (k', v') :: d, k, v => if k' = k then (k', v) :: d else (k', v') :: dset d k v

/-- builtin `dict.__delitem__` -/
def ddel : List (Key × V) → Key → Except PyErr (List (Key × V))
  | [], _ => .error .keyError
  | (k', v') :: d, k => if k' = k then .ok d else (ddel d k).map ((k', v') :: ·)

/-- The builtin dict as a mapping. -/
def dictMapping (V : Type) : Mapping (List (Key × V)) V :=
  ⟨dget, fun d k v => .ok (dset d k v), ddel⟩

end dict

/-- What an attribute or item access yields: an item of the mapping, an attribute found on the class, or
nothing (statements). -/
inductive Out (V A : Type) where
  | item (v : V)
  | attr (a : A)
  | unit

/-- The six operations of client code. -/
inductive Op (V : Type) where
  | getattr (n : Name)
  | setattr (n : Name) (v : V)
  | delattr (n : Name)
  | getitem (k : Key)
  | setitem (k : Key) (v : V)
  | delitem (k : Key)

/-- How a class answers attribute operations: the special methods `__getattribute__` (with its `__getattr__`
fallback), `__setattr__`, `__delattr__`. -/
structure AttrMethods (S V A : Type) where
  get : S → Name → Except PyErr (Out V A)
  set : S → Name → V → Except PyErr S
  del : S → Name → Except PyErr S

section
variable {S V A : Type}

/-- `object.__getattribute__(x, name)` for an instance without instance `__dict__` entries: the class attribute
(bound method, …) or AttributeError.  `cls` is the lookup on the class (library behaviour; a parameter). -/
def objGet (cls : Name → Option A) (name : Name) : Except PyErr A :=
  match cls name with
  | some a => .ok a
  | none => .error .attributeError

/-- itemattr.py:193-200 `ADict.__getattr__`, `__setattr__`, `__delattr__`.  Python calls `__getattr__` only after
the ordinary lookup `object.__getattribute__` failed with AttributeError; `__slots__ = []` (line 185) means that
there is no instance `__dict__`. -/
def adictMethods (M : Mapping S V) (cls : Name → Option A) : AttrMethods S V A where
  get s name := match objGet cls name with
    | .ok a => .ok (.attr a)
    | .error _ => (M.getitem s (.str (name2key name))).map .item
  set s name v := M.setitem s (.str (name2key name)) v
  del s name := M.delitem s (.str (name2key name))

/-- itemattr.py:54-68 `ItemsAreAttrs.get`, `set`, `delete`.  `attrs` is the `_IAA_class_attrs_` collection. -/
def iaaMethods (M : Mapping S V) (cls : Name → Option A) (attrs : List Name) : AttrMethods S V A where
  get s name :=
    if dunder name || attrs.contains name then (objGet cls name).map .attr
    else (M.getitem s (.str (name2key name))).map .item
  set s name v :=
    if dunder name then .error .valueError
    else M.setitem s (.str (name2key name)) v
  del s name :=
    if dunder name then .error .valueError
    else M.delitem s (.str (name2key name))

/-- One client operation on an instance: new state and result; after an exception the state is the old one
(`dict` operations are atomic). -/
def step (M : Mapping S V) (T : AttrMethods S V A) (s : S) : Op V → S × Except PyErr (Out V A)
  | .getattr n => (s, T.get s n)
  | .setattr n v => match T.set s n v with
    | .ok s' => (s', .ok .unit)
    | .error e => (s, .error e)
  | .delattr n => match T.del s n with
    | .ok s' => (s', .ok .unit)
    | .error e => (s, .error e)
  | .getitem k => (s, (M.getitem s k).map .item)
  | .setitem k v => match M.setitem s k v with
    | .ok s' => (s', .ok .unit)
    | .error e => (s, .error e)
  | .delitem k => match M.delitem s k with
    | .ok s' => (s', .ok .unit)
    | .error e => (s, .error e)

/-- A client program: all results, and the final state. -/
def run (M : Mapping S V) (T : AttrMethods S V A) (s : S) : List (Op V) → S × List (Except PyErr (Out V A))
  | [] => (s, [])
  | o :: os => let r := step M T s o; let q := run M T r.1 os; (q.1, r.2 :: q.2)

end

/-! ## The decorator -/

/-- A class object as far as `items_are_attrs` looks at it: has it an attribute `decorator_argument`, what does
`dir` list, which of `get`, `set`, `delete` are in its own `__dict__` (method bodies of type `F`), and the
three special methods it ends up with. -/
structure PyClass (F : Type) where
  decoratorArgument : Bool
  dir : List Name
  ownGet : Option F
  ownSet : Option F
  ownDelete : Option F
  getattribute : Option F
  setattr : Option F
  delattr : Option F
  iaaAttrs : Option (List Name)

/-- What a call of `items_are_attrs` returns: a class, or `partial(items_are_attrs, methods=…)`. -/
inductive Deco (F : Type) where
  | cls (c : PyClass F)
  | part (methods : PyClass F)

variable {F : Type}

/-- `methods.__dict__[name]` -/
def ownLookup (o : Option F) : Except PyErr F :=
  match o with
  | some f => .ok f
  | none => .error .keyError

/-- itemattr.py:71,130-142 `items_are_attrs(cls=None, methods=ItemsAreAttrs)`.  Line 129 is
`cls, methods = None, methods`. -/
def itemsAreAttrs (cls : Option (PyClass F)) (methods : PyClass F) : Except PyErr (Deco F) := do
  let cls : Option (PyClass F) := match cls with
    | some c => if c.decoratorArgument then none else some c
    | none => none
  match cls with
  | none => return .part methods
  | some c =>
    let names := c.dir.filter (fun n => !dunder n)
    let g ← ownLookup methods.ownGet
    let s ← ownLookup methods.ownSet
    let d ← ownLookup methods.ownDelete
    return .cls { c with iaaAttrs := some names, getattribute := some g, setattr := some s, delattr := some d }

/-- Application of the decorator expression `@items_are_attrs(arg)` to a class `c`: call, then call the
returned `partial` (TypeError when the call returned a class: a class is not a decorator for another one here). -/
def decorateWith (dflt : PyClass F) (arg : Option (PyClass F)) (c : PyClass F) : Except PyErr (Deco F) := do
  match ← itemsAreAttrs arg dflt with
  | .part m => itemsAreAttrs (some c) m
  | .cls _ => .error .typeError

/-! ## redict, on a heap -/

/-- Classes of dict objects. -/
inductive DCls where
  | dict
  | adict
  | sub (isADict : Bool) (n : ℕ)
  deriving DecidableEq

/-- `isinstance(d, ADict)` -/
def DCls.isADict : DCls → Bool
  | .dict => false
  | .adict => true
  | .sub b _ => b

/-- A value: something which is not a dict, or a reference to a dict object. -/
inductive HVal (V : Type) where
  | leaf (a : V)
  | ref (r : ℕ)

/-- The dict objects in existence; `ref r` is the `r`-th. -/
abbrev Heap (V : Type) := List (DCls × List (Key × HVal V))

section redict
variable {V : Type}

/-- itemattr.py:230-232: the loop over `items`, updating the new dict object `r'` in place.  `rec` is the
recursive call `redict(value, cls)`. -/
def redictLoop (rec : Heap V → ℕ → Option (Heap V × ℕ)) (r' : ℕ) : Heap V → List (Key × HVal V) → Option (Heap V)
  | h, [] => some h
  | h, (_, .leaf _) :: its => redictLoop rec r' h its
  | h, (k, .ref q) :: its =>
    match rec h q with
    | none => none
    | some (h2, q') =>
      match h2[r']? with
      | none => none
      | some o => redictLoop rec r' (h2.set r' (o.1, dset o.2 k (.ref q'))) its

/-- itemattr.py:227-233 with `cls` given.  `cls(d)` allocates a shallow copy.  `fuel` bounds the recursion depth
(Python recursion is unbounded in the model); `none` = out of fuel (or dangling reference). -/
def redictCls (cls : DCls) : ℕ → Heap V → ℕ → Option (Heap V × ℕ)
  | 0, _, _ => none
  | fuel + 1, h, r =>
    match h[r]? with
    | none => none
    | some o =>
      let r' := h.length
      (redictLoop (redictCls cls fuel) r' (h ++ [(cls, o.2)]) o.2).map fun h' => (h', r')

/-- itemattr.py:206-233 `redict(d, cls=None)`. -/
def redict (fuel : ℕ) (h : Heap V) (r : ℕ) (cls : Option DCls) : Option (Heap V × ℕ) :=
  match h[r]? with
  | none => none
  | some o =>
    let cls := match cls with
      | none => if o.1.isADict then DCls.dict else DCls.adict
      | some c => c
    redictCls cls fuel h r

end redict

end Npplus.ItemAttr
