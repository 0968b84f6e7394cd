import Verif.Model.NdArr
import Mathlib.Algebra.Order.Field.Basic
import Mathlib.Algebra.Order.BigOperators.Group.Finset
import Mathlib.Data.Matrix.Mul
import Mathlib.Data.Fintype.Fin
import Mathlib.Data.Fintype.BigOperators
import Mathlib.Algebra.Order.Group.Abs

/-!
# Model of npplus/lsqfit.py

Exact arithmetic over a linearly ordered field.  `scipy.linalg.svd`, `numpy.linalg.solve` and `numpy.linalg.inv` are
parameters.  The user's function is an arbitrary (possibly stateful, possibly raising) oracle; every call is logged.
-/

set_option linter.unusedSectionVars false
namespace Npplus

/-! ## regress -/

/-- Result of `scipy.linalg.svd(m, full_matrices=False)` for an `nc` by `N` matrix. -/
structure SVD (K : Type) (nc N : ℕ) where
  u : Matrix (Fin nc) (Fin (min nc N)) K
  s : Fin (min nc N) → K
  v : Matrix (Fin (min nc N)) (Fin N) K

/-- The observable parts of the `ModelFit` made by `regress` (lsqfit.py:155-156); without `model=1` only `p` is
returned (lsqfit.py:140-141).  `fit` is what calling the model returns (lsqfit.py:151-152). -/
structure RegFit (K : Type) (nc N : ℕ) where
  p : Fin nc → K
  pcov : Matrix (Fin nc) (Fin nc) K
  chi2 : K
  ndof : ℤ
  u : Matrix (Fin nc) (Fin (min nc N)) K
  s : Fin (min nc N) → K
  fit : Fin N → K

variable {K : Type} [Field K] [LinearOrder K]

/-- lsqfit.py:127 `minimum(maximum(rcond, 1.e-13), 0.5)` -/
def rcondClip (rcond : K) : K := min (max rcond (1 / 10 ^ 13)) (1 / 2)

/-- lsqfit.py:133-156: the numerical part, for the scaled matrix `m` and data `b`; `r t` is `rstdev` of datum `t`. -/
def regressCore {nc N : ℕ} (d : SVD K nc N) (rcond : K) (m : Matrix (Fin nc) (Fin N) K) (b r : Fin N → K) :
    Except PyErr (RegFit K nc N) :=
  if h : min nc N = 0 then .error .indexError   -- s[0]
  else
    let vb : Fin (min nc N) → K := fun j => ∑ t, d.v j t * b t
    let mask : Fin (min nc N) → Bool := fun j => decide (rcond * d.s ⟨0, Nat.pos_of_ne_zero h⟩ < d.s j)
    let rs : Fin (min nc N) → K := fun j => if mask j then 1 / d.s j else 0
    let pc : Matrix (Fin nc) (Fin (min nc N)) K := fun i j => d.u i j * rs j
    let p : Fin nc → K := fun i => ∑ j, pc i j * vb j
    let ndof : ℤ := (N : ℤ) - ((List.finRange (min nc N)).countP mask : ℤ)
    let fit : Fin N → K := fun t => ∑ i, p i * m i t
    .ok {
      p := p
      pcov := fun i i' => ∑ j, pc i j * pc i' j
      chi2 := (∑ t, (fit t - b t) * (fit t - b t)) / max (ndof : K) 1
      ndof := ndof
      u := d.u
      s := fun j => if mask j then d.s j else 0
      fit := fun t => fit t / r t }

/-- lsqfit.py:44-156 `regress(data, *mdl, errs=errs, rcond=rcond)`.  `errs` and the models are arrays of any shape
(a scalar is an array of shape `[]`).  Simplification: when `data.ravel() * rstdev` is not one-dimensional the model
raises ValueError at once; numpy's `v.dot(b)` raises it too, unless the leading length happens to be `data.size`. -/
def regress (svd : ∀ nc N, Matrix (Fin nc) (Fin N) K → Except PyErr (SVD K nc N)) (data : NdArr K) (mdl : List (NdArr K))
    (errs : NdArr K) (rcond : K) : Except PyErr (RegFit K mdl.length data.shape.prod) := do
  -- lines 120-122: m[i] += mi
  if ¬ mdl.all (fun mi => canAssign mi.shape data.shape) then throw .valueError
  let m0 : Matrix (Fin mdl.length) (Fin data.shape.prod) K := fun i t =>
    (mdl.get i).get (bcIdx (mdl.get i).shape (NdArr.unravel data.shape t))
  let rstdev := errs.map (fun e => 1 / e)
  -- lines 129-130
  let b ← (NdArr.ravel data).zip (· * ·) rstdev
  if ¬ canAssign rstdev.shape [mdl.length, data.shape.prod] then throw .valueError
  let m : Matrix (Fin mdl.length) (Fin data.shape.prod) K := fun i t =>
    m0 i t * rstdev.get (bcIdx rstdev.shape [i, t])
  let d ← svd mdl.length data.shape.prod m
  if b.shape ≠ [data.shape.prod] then throw .valueError
  regressCore d (rcondClip rcond) m (fun t => b.get [t]) (fun t => rstdev.get (bcIdx rstdev.shape [t]))

/-! ## one-dimensional numpy arithmetic (library behaviour) -/

/-- elementwise operation of two one-dimensional arrays with broadcasting -/
def bzip (op : K → K → K) (a b : List K) : Except PyErr (List K) :=
  if a.length = b.length then .ok (List.zipWith op a b)
  else if b.length = 1 then .ok (a.map fun x => op x (b.getD 0 0))
  else if a.length = 1 then .ok (b.map fun y => op (a.getD 0 0) y)
  else .error .valueError

/-- inner product of two one-dimensional arrays -/
def dot1 (a b : List K) : Except PyErr K :=
  if a.length = b.length then .ok (List.zipWith (· * ·) a b).sum else .error .valueError

/-- broadcast `l` to length `n` as `zeros(n) + l` does (lengths `n` or 1; anything else is rejected here, although
numpy would also extend an array of length 1 to the length of `l`) -/
def bcast1 (n : ℕ) (l : List K) : Except PyErr (List K) :=
  if l.length = n then .ok l else if l.length = 1 then .ok (List.replicate n (l.getD 0 0)) else .error .valueError

/-! ## levmar -/

/-- How a computation can stop without a value: a Python exception, or the fuel of the model ran out. -/
inductive Stop where
  | raised (e : PyErr)
  | fuel
  deriving DecidableEq, Repr

/-- A computation that calls the user's function: the state is the list of all parameter vectors it was called with. -/
abbrev Run (K α : Type) := List (List K) → Except Stop α × List (List K)

namespace Run
variable {α β : Type}

/-- return a value -/
def ret (a : α) : Run K α := fun log => (.ok a, log)

/-- raise -/
def fail (s : Stop) : Run K α := fun log => (.error s, log)

/-- sequencing -/
def andThen (m : Run K α) (k : α → Run K β) : Run K β := fun log =>
  match m log with
  | (.ok a, log') => k a log'
  | (.error s, log') => (.error s, log')

/-- a computation that does not call the user's function -/
def lift (e : Except PyErr α) : Run K α := fun log =>
  match e with
  | .ok a => (.ok a, log)
  | .error e => (.error (.raised e), log)

instance : Monad (Run K) where
  pure := ret
  bind := andThen

end Run

/-- The user's model function.  What it returns may depend on all earlier calls (a stateful function).
`val` is the return value of a plain function, or the first yield of a generator function; `dval` is the second
yield (one row per parameter).  The function is assumed not to modify its argument, and its results are
one-dimensional. -/
structure UserF (K : Type) where
  isgen : Bool
  val : List (List K) → List K → Except PyErr (List K)
  dval : List (List K) → List K → Except PyErr (List (List K))

/-- `f(p, *args, **kwargs)` (with `next` for a generator function): log the call, then answer. -/
def UserF.call (F : UserF K) (p : List K) : Run K (List K) := fun log =>
  match F.val log p with
  | .ok v => (.ok v, log ++ [p])
  | .error e => (.error (.raised e), log ++ [p])

/-- lsqfit.py:552-557: the loop of `numerical_partials` over the steps `dp` of the free parameters `p`, from index
`i` on. -/
def partialsLoop (F : UserF K) (pfull f0 : List K) (pmask : List Bool) (p : List K) : List K → ℕ → Run K (List (List K))
  | [], _ => Run.ret []
  | d :: ds, i =>
    if d = 0 then Run.fail (.raised .valueError)
    else do
      let v ← F.call (maskSet pmask (p.set i (p.getD i 0 + d)) pfull)
      let dv ← Run.lift (bzip (· - ·) v f0)
      let rest ← partialsLoop F pfull f0 pmask p ds (i + 1)
      Run.ret (dv.map (· / d) :: rest)

/-- lsqfit.py:538-550: the steps of the free parameters. -/
def partialSteps (pfull : List K) (pmin pmax : Option (List K)) (prel pabs : List K) (pmask : List Bool) :
    Except PyErr (List K) :=
  let dp := List.zipWith max (List.zipWith (fun r x => r * |x|) prel pfull) pabs
  let p := maskGet pmask pfull
  let dp := maskGet pmask dp
  match pmax with
  | none => .ok dp
  | some pmax =>
    let mask := List.zipWith (fun s m => decide (m < s)) (List.zipWith (· + ·) p dp) pmax
    let dp := List.zipWith (fun (b : Bool) d => if b then d * -1 else d) mask dp
    if mask.any id then
      match pmin with
      | none => .ok dp
      | some pmin =>
        if (List.zipWith (fun s m => decide (s < m)) (List.zipWith (· + ·) p dp) pmin).any id then .error .valueError
        else .ok dp
    else .ok dp

/-- lsqfit.py:530-557 `numerical_partials(f, pfull, f0, pmin, pmax, prel, pabs, pmask)`; `pmin` and `pmax` are the
bounds of the free parameters, `prel` and `pabs` have one element per parameter. -/
def numericalPartials (F : UserF K) (pfull f0 : List K) (pmin pmax : Option (List K)) (prel pabs : List K)
    (pmask : List Bool) : Run K (List (List K)) := do
  let dp ← Run.lift (partialSteps pfull pmin pmax prel pabs pmask)
  partialsLoop F pfull f0 pmask (maskGet pmask pfull) dp 0

/-- lsqfit.py:393-394 `levmar.config` -/
structure LmCfg (K : Type) where
  itmax : ℕ := 100
  tol : K
  lambda0 : K
  lambdax : K
  gain : K
  prel : K
  pabs : K

/-- lsqfit.py:393-394, the default values -/
def LmCfg.default : LmCfg K where
  itmax := 100
  tol := 1 / 10 ^ 7
  lambda0 := 1 / 1000
  lambdax := 10 ^ 12
  gain := 10
  prel := 1 / 10 ^ 6
  pabs := 1 / 10 ^ 9

/-- The data and settings after lsqfit.py:277-308, fixed during the iteration. -/
structure LmEnv (K : Type) where
  data : List K
  wgt : List K
  p0 : List K
  pmask : List Bool
  pmin : Option (List K)
  pmax : Option (List K)
  prel : List K
  pabs : List K
  cfg : LmCfg K
  F : UserF K
  solve : List (List K) → List K → Except PyErr (List K)

/-- `pfull[pmask] = p` (lsqfit.py:314, 320).  `pfull` starts as a copy of `p0` and only its free elements are ever
assigned, so it is recomputed from `p0`. -/
def LmEnv.full (E : LmEnv K) (p : List K) : List K := maskSet E.pmask p E.p0

/-- `f0 = f(p, *args, **kwargs); next(f0); next(f0)` for a generator function (lsqfit.py:315-317): one call. -/
def UserF.callGen (F : UserF K) (p : List K) : Run K (List K × List (List K)) := fun log =>
  match F.val log p, F.dval log p with
  | .error e, _ => (.error (.raised e), log ++ [p])
  | .ok _, .error e => (.error (.raised e), log ++ [p])
  | .ok v, .ok rows => (.ok (v, rows), log ++ [p])

/-- lsqfit.py:312-324 and 334: `dm, dmdp = g(p)`; indexing by a mask of another length is an IndexError. -/
def LmEnv.g (E : LmEnv K) (p : List K) : Run K (List K × List (List K)) :=
  if E.F.isgen then do
    let r ← E.F.callGen (E.full p)
    if r.2.length ≠ E.pmask.length then Run.fail (.raised .indexError)
    else Run.ret (r.1, maskGet E.pmask r.2)
  else do
    let f0 ← E.F.call (E.full p)
    let rows ← numericalPartials E.F (E.full p) f0 E.pmin E.pmax E.prel E.pabs E.pmask
    Run.ret (f0, rows)

/-- lsqfit.py:353-356: clip to the bounds -/
def LmEnv.clip (E : LmEnv K) (p : List K) : List K :=
  let p := match E.pmin with
    | none => p
    | some b => List.zipWith max p b
  match E.pmax with
  | none => p
  | some b => List.zipWith min p b

/-- lsqfit.py:351-352 `fill_diagonal(amult, 1.+lamda)`, `alpha*amult` -/
def damp (alpha : List (List K)) (lam : K) : List (List K) :=
  alpha.mapIdx fun i row => row.mapIdx fun j a => if i = j then a * (1 + lam) else a * 1

/-- lsqfit.py:357-359: `(wgt * dm*dm).sum()` with `dm = data - next(g(p))` -/
def LmEnv.chi2At (E : LmEnv K) (p : List K) : Run K K := do
  let v ← E.F.call (E.full p)
  let dm ← Run.lift (bzip (· - ·) E.data v)
  let w ← Run.lift (bzip (· * ·) E.wgt dm)
  let w ← Run.lift (bzip (· * ·) w dm)
  Run.ret w.sum

/-- lsqfit.py:350-366: the inner loop; returns the new `p`, `chi2`, `lamda` and the number of evaluations. -/
def LmEnv.inner (E : LmEnv K) (alpha : List (List K)) (beta p1 : List K) (chi2p : K) : ℕ → K → Run K (List K × K × K × ℕ)
  | 0, _ => Run.fail .fuel
  | fuel + 1, lam => do
    let x ← Run.lift (E.solve (damp alpha lam) beta)
    let s ← Run.lift (bzip (· + ·) p1 x)
    let p := E.clip s
    let chi2 ← E.chi2At p
    if chi2 < 1000001 / 1000000 * chi2p ∨ p = p1 then Run.ret (p, chi2, lam, 1)
    else
      let lam := lam * E.cfg.gain
      if E.cfg.lambdax < lam then Run.fail (.raised .levmarError)
      else do
        let r ← LmEnv.inner E alpha beta p1 chi2p fuel lam
        Run.ret (r.1, r.2.1, r.2.2.1, r.2.2.2 + 1)

/-- The variables of `levmar` after its main loop.  `path` is not a variable of the program: it lists the parameter
vectors at which the loop body was started, newest first. -/
structure LmState (K : Type) where
  p : List K
  lam : K
  chi2 : K
  chi20 : K
  niter : ℕ
  neval : ℕ
  alpha : List (List K)
  path : List (List K)
  warned : Bool

/-- lsqfit.py:340-341: `dmdp.dot(beta)` and `inner(wgt*dmdp, dmdp)`; `array([])` (no free parameter, finite
differences) cannot be multiplied by `beta`. -/
def normalEqs (isgen : Bool) (wgt beta : List K) (rows : List (List K)) : Except PyErr (List K × List (List K)) := do
  if rows = [] ∧ ¬ isgen ∧ beta ≠ [] then throw .valueError
  let bt ← rows.mapM (fun r => dot1 r beta)
  let wr ← rows.mapM (fun r => bzip (· * ·) wgt r)
  let al ← wr.mapM (fun r => rows.mapM (fun r' => dot1 r r'))
  return (bt, al)

/-- lsqfit.py:332-377: the main loop.  `inFuel` bounds the inner loop, the last argument but one the main loop. -/
def LmEnv.outer (E : LmEnv K) (inFuel : ℕ) : ℕ → LmState K → Run K (LmState K)
  | 0, _ => Run.fail .fuel
  | fuel + 1, st => do
    let gv ← E.g st.p
    let dm ← Run.lift (bzip (· - ·) E.data gv.1)
    let beta ← Run.lift (bzip (· * ·) E.wgt dm)
    let c ← Run.lift (bzip (· * ·) beta dm)
    let chi2 := if st.niter = 0 then c.sum else st.chi2
    let chi20 := if st.niter = 0 then c.sum else st.chi20
    let ba ← Run.lift (normalEqs E.F.isgen E.wgt beta gv.2)
    let st := { st with
      chi2 := chi2
      chi20 := chi20
      neval := st.neval + 1
      alpha := ba.2
      path := E.full st.p :: st.path }
    if chi2 = 0 then Run.ret st
    else do
      let r ← E.inner ba.2 ba.1 st.p chi2 inFuel st.lam
      let st := { st with
        p := r.1
        chi2 := r.2.1
        lam := r.2.2.1
        neval := st.neval + r.2.2.2 }
      let conv := (chi2 - r.2.1) / (chi2 + r.2.1)
      if conv + conv ≤ E.cfg.tol then Run.ret st
      else
        let st := { st with
          lam := st.lam / E.cfg.gain
          niter := st.niter + 1 }
        if E.cfg.itmax ≤ st.niter then Run.ret { st with warned := true }
        else LmEnv.outer E inFuel fuel st

/-- The observable parts of the `ModelFit` made by `levmar` (lsqfit.py:379-388); `path` and `alpha` are ghosts, see
`LmState`; `warned` says whether the iteration limit was hit (lsqfit.py:374-376). -/
structure LmFit (K : Type) where
  p : List K
  pcov : List (List K)
  chi2 : K
  ndof : ℤ
  isgenf : Bool
  niter : ℕ
  neval : ℕ
  p0 : List K
  chi20 : K
  lamda : K
  warned : Bool
  path : List (List K)
  alpha : List (List K)

/-- lsqfit.py:379-388 -/
def LmEnv.finish (E : LmEnv K) (inv : List (List K) → Except PyErr (List (List K))) (st : LmState K) :
    Except PyErr (LmFit K) := do
  let ndof : ℤ := (E.data.length : ℤ) - (E.pmask.countP id : ℤ)
  let np := E.p0.length
  let ai ← inv st.alpha
  let pc := ai.map fun row => maskSet E.pmask row (List.replicate np 0)
  return {
    p := E.full st.p
    pcov := maskSet E.pmask pc (List.replicate np (List.replicate np 0))
    chi2 := st.chi2 / ndof
    ndof := ndof
    isgenf := E.F.isgen
    niter := st.niter
    neval := st.neval
    p0 := E.p0
    chi20 := st.chi20 / ndof
    lamda := st.lam
    warned := st.warned
    path := st.path
    alpha := st.alpha }

/-- Arguments of `levmar` (lsqfit.py:159, 277-285).  Simplification: `data` and `p0` are one-dimensional. -/
structure LmArgs (K : Type) where
  data : List K
  errs : List K
  p0 : List K
  pfix : Option (List ℤ) := none
  pmin : Option (List K) := none
  pmax : Option (List K) := none
  prel : Option (List K) := none
  pabs : Option (List K) := none
  cfg : LmCfg K

/-- lsqfit.py:300-302 the mask of free parameters (`pmask[pfix] = False`, negative indices count from the end). -/
def freeMask (np : ℕ) : List ℤ → Except PyErr (List Bool)
  | [] => .ok (List.replicate np true)
  | i :: is => do
    let k ← normAxis np i
    let m ← freeMask np is
    return m.set k false

/-- lsqfit.py:277-308 -/
def LmArgs.env (A : LmArgs K) (F : UserF K) (solve : List (List K) → List K → Except PyErr (List K)) :
    Except PyErr (LmEnv K) := do
  let np := A.p0.length
  let errs ← bcast1 A.data.length A.errs
  let pmin ← A.pmin.mapM (bcast1 np)
  let pmax ← A.pmax.mapM (bcast1 np)
  let prel ← bcast1 np (A.prel.getD [A.cfg.prel])
  let pabs ← bcast1 np (A.pabs.getD [A.cfg.pabs])
  let pmask ← freeMask np (A.pfix.getD [])
  return {
    data := A.data
    wgt := errs.map fun e => 1 / (e * e)
    p0 := A.p0
    pmask := pmask
    pmin := pmin.map (maskGet pmask)
    pmax := pmax.map (maskGet pmask)
    prel := prel
    pabs := pabs
    cfg := A.cfg
    F := F
    solve := solve }

/-- The state when the main loop is entered (lsqfit.py:303, 330-331); `chi2`, `chi20` and `alpha` are not bound yet. -/
def LmEnv.init (E : LmEnv K) : LmState K where
  p := maskGet E.pmask E.p0
  lam := E.cfg.lambda0
  chi2 := 0
  chi20 := 0
  niter := 0
  neval := 0
  alpha := []
  path := []
  warned := false

/-- lsqfit.py:159-388 `levmar(data, f, p0, ...)`; the result and the log of all calls of `f`. -/
def levmar (A : LmArgs K) (F : UserF K) (solve : List (List K) → List K → Except PyErr (List K))
    (inv : List (List K) → Except PyErr (List (List K))) (outFuel inFuel : ℕ) : Except Stop (LmFit K) × List (List K) :=
  match A.env F solve with
  | .error e => (.error (.raised e), [])
  | .ok E =>
    (do
      let st ← E.outer inFuel outFuel E.init
      Run.lift (E.finish inv st)) []

end Npplus
