import Verif.Model.Lsq
import Verif.Model.ItemAttr

/-!
# lsqfit.py `levmar`: the configuration dictionaries

`levmar.config`, the `cfg` keyword and the `info` attribute of the result are dict objects; here they live on a heap, so that sharing shows.
-/

namespace Npplus
variable {K : Type} [Field K] [LinearOrder K]

/-- A value in a configuration or `info` dictionary. -/
inductive CfgVal (K : Type) where
  | int (n : ℕ)
  | num (x : K)
  | str (s : List Char)
  | vec (l : List K)

/-- a dict with string (or other) keys -/
abbrev CDict (K : Type) := List (ItemAttr.Key × CfgVal K)

/-- a string key -/
def ckey (s : String) : ItemAttr.Key := .str s.toList

/-- builtin `dict.update` -/
def CDict.update (d e : CDict K) : CDict K := e.foldl (fun d kv => ItemAttr.dset d kv.1 kv.2) d

/-- a number used in arithmetic; TypeError for other values -/
def CfgVal.toNum : CfgVal K → Except PyErr K
  | .int n => .ok n
  | .num x => .ok x
  | _ => .error .typeError

/-- the iteration limit; simplification: a nonnegative int (a float would also be accepted by Python) -/
def CfgVal.toNat : CfgVal K → Except PyErr ℕ
  | .int n => .ok n
  | _ => .error .typeError

/-- `cfg[k]` used as a number -/
def CDict.num (d : CDict K) (k : String) : Except PyErr K := do (← ItemAttr.dget d (ckey k)).toNum

/-- lsqfit.py:286-290 the steps of the finite differences: looked up only when they are used (plain functions, and no argument given) -/
def CDict.step (d : CDict K) (isgen : Bool) (arg : Option (List K)) (k : String) : Except PyErr K :=
  if isgen || arg.isSome then .ok 0 else d.num k

/-- The heap of dict objects. -/
abbrev CHeap (K : Type) := List (CDict K)

/-- lsqfit.py:322-323 `itmax, tol = cfg['itmax'], cfg['tol']` and so on -/
def CDict.read (d : CDict K) (prel pabs : K) : Except PyErr (LmCfg K) := do
  let itmax ← (← ItemAttr.dget d (ckey "itmax")).toNat
  let tol ← d.num "tol"
  let lambda0 ← d.num "lambda0"
  let lambdax ← d.num "lambdax"
  let gain ← d.num "gain"
  return ⟨itmax, tol, lambda0, lambdax, gain, prel, pabs⟩

/-- the part of `levmar` that reads the configuration `d` -/
def levmarWith (d : CDict K) (A : LmArgs K) (F : UserF K) (solve : List (List K) → List K → Except PyErr (List K))
    (inv : List (List K) → Except PyErr (List (List K))) (outFuel inFuel : ℕ) : Except Stop (LmFit K) :=
  match bcast1 A.data.length A.errs with                                              -- 279
  | .error e => .error (.raised e)
  | .ok _ =>
  match d.step F.isgen A.prel "prel", d.step F.isgen A.pabs "pabs" with               -- 287-290
  | .error e, _ => .error (.raised e)
  | .ok _, .error e => .error (.raised e)
  | .ok prel, .ok pabs =>
    match ({ A with cfg := ⟨0, 0, 0, 0, 0, prel, pabs⟩ } : LmArgs K).env F solve with  -- 291-308 (uses only these two)
    | .error e => .error (.raised e)
    | .ok _ =>
      match d.read prel pabs with                                                     -- 322-323
      | .error e => .error (.raised e)
      | .ok c => (levmar { A with cfg := c } F solve inv outFuel inFuel).1

/-- lsqfit.py:386-387 what is added to the configuration to become `info` -/
def infoItems (r : LmFit K) : CDict K :=
  [(ckey "src", .str "levmar".toList), (ckey "niter", .int r.niter), (ckey "neval", .int r.neval), (ckey "p0", .vec r.p0), (ckey "chi20", .num r.chi20),
    (ckey "lamda", .num r.lamda)]

/-- lsqfit.py:283-285, 386-388: `levmar(...)` seen from the dictionaries.  `config` is the object `levmar.config`, `cfg` the one passed by keyword.
The result is the fit and the object `fit.info`, or an exception, and the heap afterwards. -/
def levmarCall (h : CHeap K) (config : ℕ) (cfg : Option ℕ) (A : LmArgs K) (F : UserF K)
    (solve : List (List K) → List K → Except PyErr (List K)) (inv : List (List K) → Except PyErr (List (List K))) (outFuel inFuel : ℕ) :
    Except Stop (LmFit K × ℕ) × CHeap K :=
  let new := h.length
  let h := h ++ [h.getD config []]                                                    -- cfg = levmar.config.copy()
  let h := match cfg with
    | none => h
    | some c => h.set new (CDict.update (h.getD new []) (h.getD c []))                -- cfg.update(kwargs.pop('cfg'))
  match levmarWith (h.getD new []) A F solve inv outFuel inFuel with
  | .error e => (.error e, h)
  | .ok r => (.ok (r, new), h.set new (CDict.update (h.getD new []) (infoItems r)))

end Npplus
