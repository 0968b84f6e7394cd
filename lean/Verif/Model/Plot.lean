import Verif.Model.ItemAttr

/-!
# Model of npplus/pyplotx/pltwraps.py, cbqcolors.py, mpldefaults.py and of reloadx (npplus/interactive.py)

matplotlib is a parameter: any set of functions that act on an arbitrary state, return objects and may raise.
-/

set_option linter.unusedSectionVars false
namespace Npplus
open ItemAttr (Name)

/-! ## pltwraps -/

/-- The module `matplotlib.pyplot`: for each name it has, a function of the arguments that changes the state and
returns an object or raises. -/
structure Plt (σ Arg Obj : Type) where
  fn : Name → Option (Arg → σ → Except PyErr Obj × σ)

/-- What a name of pltwraps is bound to: a function returning `None` (`Unit`), or `NotImplemented`. -/
inductive Wrapped (σ Arg : Type) where
  | fn (f : Arg → σ → Except PyErr Unit × σ)
  | notImplemented

/-- pltwraps.py:36-53 `_iwrap(name)` and the loop around it.  `f` is looked up once, when pltwraps is imported. -/
def iwrap {σ Arg Obj : Type} (plt : Plt σ Arg Obj) (name : Name) : Wrapped σ Arg :=
  match plt.fn name with
  | none => .notImplemented
  | some f => .fn fun a s =>
    match f a s with
    | (.ok _, s') => (.ok (), s')
    | (.error e, s') => (.error e, s')

/-- The part of the state of the current axes that `xylim` and `logxy` are about; `other` is everything else. -/
structure Axes (K σ : Type) where
  xlog : Bool
  ylog : Bool
  xmin : K
  xmax : K
  ymin : K
  ymax : K
  other : σ

/-- `plt.xscale('log' if b else 'linear')` (matplotlib) -/
def Axes.xscale {K σ : Type} (s : Axes K σ) (b : Bool) : Axes K σ := { s with xlog := b }

/-- `plt.yscale('log' if b else 'linear')` (matplotlib) -/
def Axes.yscale {K σ : Type} (s : Axes K σ) (b : Bool) : Axes K σ := { s with ylog := b }

/-- `plt.axis(xmin=, xmax=, ymin=, ymax=)` (matplotlib): limits that are `None` are left unchanged -/
def Axes.axis {K σ : Type} (s : Axes K σ) (xmin xmax ymin ymax : Option K) : Axes K σ :=
  { s with
    xmin := xmin.getD s.xmin
    xmax := xmax.getD s.xmax
    ymin := ymin.getD s.ymin
    ymax := ymax.getD s.ymax }

/-- pltwraps.py:56-74 -/
def xylim {K σ : Type} (xmin xmax ymin ymax : Option K) (s : Axes K σ) : Axes K σ := s.axis xmin xmax ymin ymax

/-- The argument `islogy`: omitted (`Ellipsis`), or `None` or a value with a truth value. -/
inductive LogY where
  | omitted
  | given (v : Option Bool)

/-- pltwraps.py:77-95 -/
def logxy {K σ : Type} (islog : Option Bool) (islogy : LogY) (s : Axes K σ) : Axes K σ :=
  let s := match islog with
    | some b => s.xscale b
    | none => s
  let y := match islogy with
    | .omitted => islog
    | .given v => v
  match y with
  | some b => s.yscale b
  | none => s

/-! ## cbqcolors -/

namespace CBQ
/-- cbqcolors.py:56-57 -/
def set1 : List String := ["#E41A1C", "#377EB8", "#4DAF4A", "#984EA3", "#FF7F00", "#FFFF33", "#A65628", "#F781BF", "#999999"]
/-- cbqcolors.py:58-59 -/
def pastel1 : List String := ["#FBB4AE", "#B3CDE3", "#CCEBC5", "#DECBE4", "#FED9A6", "#FFFFCC", "#E5D8BD", "#FDDAEC", "#F2F2F2"]
/-- cbqcolors.py:60-61 -/
def set2 : List String := ["#66C2A5", "#FC8D62", "#8DA0CB", "#E78AC3", "#A6D854", "#FFD92F", "#E5C494", "#B3B3B3"]
/-- cbqcolors.py:62-63 -/
def pastel2 : List String := ["#B3E2CD", "#FDCDAC", "#CBD5E8", "#F4CAE4", "#E6F5C9", "#FFF2AE", "#F1E2CC", "#CCCCCC"]
/-- cbqcolors.py:64-65 -/
def dark2 : List String := ["#1B9E77", "#D95F02", "#7570B3", "#E7298A", "#66A61E", "#E6AB02", "#A6761D", "#666666"]
/-- cbqcolors.py:66-67 -/
def set3 : List String := ["#8DD3C7", "#FFFFB3", "#BEBADA", "#FB8072", "#80B1D3", "#FDB462", "#B3DE69", "#FCCDE5", "#D9D9D9",
  "#BC80BD", "#CCEBC5", "#FFED6F"]
/-- cbqcolors.py:68-69 -/
def accent : List String := ["#7FC97F", "#BEAED4", "#FDC086", "#FFFF99", "#386CB0", "#F0027F", "#BF5B17", "#666666"]
/-- cbqcolors.py:70-71 -/
def paired : List String := ["#A6CEE3", "#1F78B4", "#B2DF8A", "#33A02C", "#FB9A99", "#E31A1C", "#FDBF6F", "#FF7F00", "#CAB2D6",
  "#6A3D9A", "#FFFF99", "#B15928"]
/-- cbqcolors.py:76-77 -/
def set1ny : List String := ["#377EB8", "#4DAF4A", "#E41A1C", "#999999", "#984EA3", "#FF7F00", "#A65628", "#F781BF"]
/-- cbqcolors.py:78-79 -/
def pastel1ny : List String := ["#B3CDE3", "#CCEBC5", "#FBB4AE", "#F2F2F2", "#DECBE4", "#FED9A6", "#E5D8BD", "#FDDAEC"]
/-- cbqcolors.py:80-81 -/
def set3ny : List String := ["#80B1D3", "#B3DE69", "#FB8072", "#8DD3C7", "#BC80BD", "#FFED6F", "#D9D9D9", "#FCCDE5", "#BEBADA",
  "#FDB462", "#CCEBC5"]
/-- cbqcolors.py:82-83 -/
def accentny : List String := ["#386CB0", "#7FC97F", "#F0027F", "#BF5B17", "#BEAED4", "#FDC086", "#666666"]

/-- `getattr(CBQ, name)` for the colour sets (cbqcolors.py:56-83).  Other attributes of the class (methods, dunder names),
which `cycler` would reject, are not modelled. -/
def get (name : String) : Except PyErr (List String) :=
  match name with
  | "set1" => .ok set1
  | "pastel1" => .ok pastel1
  | "set2" => .ok set2
  | "pastel2" => .ok pastel2
  | "dark2" => .ok dark2
  | "set3" => .ok set3
  | "accent" => .ok accent
  | "paired" => .ok paired
  | "set1ny" => .ok set1ny
  | "pastel1ny" => .ok pastel1ny
  | "set3ny" => .ok set3ny
  | "accentny" => .ok accentny
  | _ => .error .attributeError

end CBQ

/-- Values of matplotlib parameters. -/
inductive RcVal where
  | str (s : String)
  | cycle (l : List String)
  deriving DecidableEq

/-- `rcParams`: parameter name to value -/
abbrev Rc := String → RcVal

/-- `rc(group, key=value)` (matplotlib), writing `group.key` -/
def Rc.set (r : Rc) (key : String) (v : RcVal) : Rc := fun k => if k = key then v else r k

/-- cbqcolors.py:85-98 `CBQ.set_color_cycle(name, axes)`.  `axes` is the cycle of the given Axes object, if any. -/
def setColorCycle (name : String) (axes : Option (List String)) (r : Rc) :
    Except PyErr Unit × Rc × Option (List String) :=
  match CBQ.get name with
  | .error e => (.error e, r, axes)
  | .ok l => (.ok (), r.set "axes.prop_cycle" (.cycle l), axes)

/-! ## mpldefaults -/

/-- mpldefaults.py:72-113: the rc settings of `style_npp` after the colour cycle, in order. -/
def styleTail (box : Bool) : List (String × RcVal) :=
  [("savefig.bbox", .str "tight"), ("savefig.pad_inches", .str "0.02"), ("image.aspect", .str "auto"),
    ("figure.facecolor", .str "0.9"), ("figure.edgecolor", .str "white"), ("axes.facecolor", .str "white")] ++
  (if ¬ box then [("axes.edgecolor", .str "0.8"), ("axes.linewidth", .str "1.0")]
    else [("axes.edgecolor", .str "k"), ("axes.linewidth", .str "1.4")]) ++
  [("font.size", .str "14.0"), ("axes.titlesize", .str "x-large"), ("axes.labelsize", .str "large"),
    ("xtick.labelsize", .str "large"), ("ytick.labelsize", .str "large"), ("lines.linewidth", .str "3"),
    ("lines.markersize", .str "10"), ("xtick.major.size", .str "6"), ("xtick.major.width", .str "1.4"),
    ("ytick.major.size", .str "6"), ("ytick.major.width", .str "1.4")] ++
  (if ¬ box then [("xtick.direction", .str "out"), ("ytick.direction", .str "out")]
    else [("xtick.direction", .str "in"), ("ytick.direction", .str "in")])

/-- Apply settings in order. -/
def Rc.setAll (r : Rc) : List (String × RcVal) → Rc
  | [] => r
  | (k, v) :: l => Rc.setAll (r.set k v) l

/-- mpldefaults.py:40-113 `style_npp(box, cycle)` -/
def styleNpp (box : Bool) (cycle : String) (r : Rc) : Except PyErr Unit × Rc :=
  let r := r.set "image.cmap" (.str "viridis")
  if cycle ≠ "" then
    match setColorCycle cycle none r with
    | (.error e, r, _) => (.error e, r)
    | (.ok _, r, _) => (.ok (), r.setAll (styleTail box))
  else (.ok (), r.setAll (styleTail box))

/-- Keyword arguments: distinct names with values of type `V`. -/
abbrev Kwargs (V : Type) := List (Name × V)

/-- mpldefaults.py:117-122 `title(s, *args, **kwargs)`: the keyword arguments passed on to `plt.title`.  `isNone` tells
which values are `None`, `v103` is 1.03, `out` is `rcParams['xtick.direction'] == 'out'`.  `dict(y=1.03, **kwargs)` raises
TypeError if `kwargs` has a `y`. -/
def titleKwargs {V : Type} (isNone : V → Bool) (v103 : V) (out : Bool) (kw : Kwargs V) : Except PyErr (Kwargs V) :=
  let y := kw.find? (fun a => a.1 = ['y'])
  let kw := kw.filter (fun a => a.1 ≠ ['r', 'e', 't'])
  if (y.all fun a => isNone a.2) ∧ out then
    if kw.any (fun a => a.1 = ['y']) then .error .typeError
    else .ok ((['y'], v103) :: kw)
  else .ok kw

/-! ## reloadx -/

/-- A namespace. -/
abbrev Ns (V : Type) := Name → Option V

/-- `ns[name] = v` -/
def Ns.set {V : Type} (ns : Ns V) (name : Name) (v : V) : Ns V := fun k => if k = name then some v else ns k

/-- The interpreter: `sys.modules` (numbers identify module objects), the namespaces of the module objects, the
namespace of `__main__`, and the next unused module number. -/
structure World (V : Type) where
  sysmod : Name → Option ℕ
  mods : ℕ → Ns V
  main : Ns V
  next : ℕ

/-- interactive.py:101 `nm.startswith('__') and nm.endswith('__')` -/
def isDunder (nm : Name) : Bool := ['_', '_'].isPrefixOf nm && ['_', '_'].isSuffixOf nm

/-- Argument of `reloadx`: a module object or a module name. -/
inductive ModArg where
  | obj (id : ℕ)
  | name (n : Name)

/-- Running the source of a module in a namespace (the initial contents for a fresh import, the old contents for a
reload); the namespace may be changed even if it raises.  Simplification: it does not change `__main__` or the table of
modules. -/
abbrev Exec (V : Type) := Name → Ns V → Except PyErr Unit × Ns V

/-- interactive.py:100-102: the loop over `vars(module)` and `setattr(__main__, ...)` -/
def copyNames {V : Type} (m main : Ns V) : Ns V := fun nm =>
  match m nm with
  | some v => if isDunder nm then main nm else some v
  | none => main nm

/-- interactive.py:54-104 `reloadx(module)`.  `nameOf` is the name under which a module object is reloaded, `mainV` the
module object `__main__` as a value.  `importlib.reload` raises ImportError unless `sys.modules` has this very object
under its name.  Simplifications: `module` is not `__main__` itself; a failed import of a new module leaves it out of
`sys.modules`. -/
def reloadx {V : Type} (exec : Exec V) (nameOf : ℕ → Name) (mainV : V) (arg : ModArg) (w : World V) :
    Except PyErr ℕ × World V :=
  let loaded : Except PyErr ℕ × World V := match arg with
    | .obj id =>
      if w.sysmod (nameOf id) ≠ some id then (.error .importError, w) else
      match exec (nameOf id) (w.mods id) with
      | (.error e, ns) => (.error e, { w with mods := fun k => if k = id then ns else w.mods k })
      | (.ok _, ns) => (.ok id, { w with mods := fun k => if k = id then ns else w.mods k })
    | .name n =>
      match exec n (fun _ => none) with
      | (.error e, _) => (.error e, { w with sysmod := fun k => if k = n then none else w.sysmod k })
      | (.ok _, ns) => (.ok w.next, { w with
          sysmod := fun k => if k = n then some w.next else w.sysmod k
          mods := fun k => if k = w.next then ns else w.mods k
          next := w.next + 1 })
  match loaded with
  | (.error e, w) => (.error e, w)
  | (.ok id, w) =>
    let w := { w with main := copyNames (w.mods id) w.main }
    let w := if (w.mods id ['m', 'y']).isNone then
        { w with mods := fun k => if k = id then (w.mods id).set ['m', 'y'] mainV else w.mods k }
      else w
    (.ok id, w)

end Npplus
