import Verif.Model.Plot
import Verif.Model.CmapData
import Mathlib.Data.Real.Basic
import Mathlib.Algebra.Order.Floor.Semiring
import Mathlib.Algebra.Order.Archimedean.Real.Basic

/-!
# Model of npplus/pyplotx/mpl2cmaps.py (below the tables) and of execfile (npplus/interactive.py)
-/

set_option linter.unusedSectionVars false
namespace Npplus

/-! ## mpl2cmaps -/

namespace Cmaps

/-- A colour table: what `ListedColormap(data, name=name)` is made of. -/
abbrev Table := List (ℕ × ℕ × ℕ)

/-- mpl2cmaps.py:1055-1062 the loop that fills `cmaps` -/
def cmaps : List (String × Table) :=
  [("magma", magmaData), ("inferno", infernoData), ("plasma", plasmaData), ("viridis", viridisData)]

/-- The state of pyplot these functions are about: the registry of colour maps, the parameters, the images (each with the
name of its colour map) and which of them is the current one (`gci()`), and the number of calls of `draw_if_interactive`. -/
structure State where
  registry : String → Option Table
  rc : Rc
  images : ℕ → Option String
  current : Option ℕ
  draws : ℕ

/-- `register_cmap(cmap=cmap)` (matplotlib) -/
def register (s : State) (c : String × Table) : State :=
  { s with registry := fun n => if n = c.1 then some c.2 else s.registry n }

/-- mpl2cmaps.py:1070-1071, run when the module is imported -/
def importModule (s : State) : State := cmaps.foldl register s

/-- `image.set_cmap(name)` (matplotlib): ValueError for a name that is not registered -/
def setCmap (s : State) (i : ℕ) (name : String) : Except PyErr State :=
  match s.registry name with
  | none => .error .valueError
  | some _ => .ok { s with images := fun j => if j = i then some name else s.images j }

/-- mpl2cmaps.py:1074-1080 the function made by `cminst(name)` -/
def cminst (name : String) (s : State) : Except PyErr State := do
  let s := { s with rc := s.rc.set "image.cmap" (.str name) }
  let s ← match s.current with
    | some i => setCmap s i name
    | none => .ok s
  return { s with draws := s.draws + 1 }

/-- mpl2cmaps.py:1088-1090: what the module's names are finally bound to -/
def lookup (name : String) : Option (State → Except PyErr State) :=
  ((["magma", "inferno", "plasma", "viridis"].map fun n => (n, cminst n)).find? fun c => c.1 = name).map (·.2)

/-- The colour of the value `x` of a normalised image (matplotlib's `Colormap.__call__` for `N` colours: the index is `int(x*N)`,
values below 0 get the first and values of 1 and above the last colour). -/
noncomputable def colour (t : Table) (x : ℝ) : ℕ × ℕ × ℕ :=
  t.getD (min ⌊x * t.length⌋₊ (t.length - 1)) (0, 0, 0)

end Cmaps

/-! ## execfile -/

/-- A python process: its dictionaries (namespaces) by identity, each a map from names to values. -/
structure Proc (Val : Type) where
  dict : ℕ → String → Option Val

/-- Reading and compiling a file: `open`, `read` and `compile` may raise (FileNotFoundError, SyntaxError, ...); running the code
with given globals and locals dictionaries changes the process and may raise. -/
structure Files (Val : Type) where
  load : String → Except PyErr ℕ
  exec : ℕ → (globals locals : ℕ) → Proc Val → Except PyErr Unit × Proc Val

/-- `exec(code, globals)` uses the globals dictionary for the locals too. -/
def pyExec {Val : Type} (f : Files Val) (code : ℕ) (args : List ℕ) (s : Proc Val) : Except PyErr Unit × Proc Val :=
  match args with
  | [g] => f.exec code g g s
  | [g, l] => f.exec code g l s
  | _ => (.error .typeError, s)

/-- interactive.py:45-50 `execfile(name, *args)`; `here` is `globals()` of the module npplus.interactive. -/
def execfile {Val : Type} (f : Files Val) (here : ℕ) (name : String) (args : List ℕ) (s : Proc Val) :
    Except PyErr Unit × Proc Val :=
  let args := if args.length > 0 then args else [here]
  match f.load name with
  | .error e => (.error e, s)
  | .ok code => pyExec f code args s

end Npplus
