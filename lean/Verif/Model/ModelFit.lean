import Verif.Model.Lsq
import Mathlib.Analysis.SpecialFunctions.Pow.NNReal
import Mathlib.Data.Real.Sqrt

/-!
# Model of `ModelFit` (npplus/lsqfit.py:397-527)
-/

namespace Npplus

/-- A Python function of the parameters and further arguments: a plain one, or a generator function, given by the list
of all values it yields. -/
inductive PyFun (P A V : Type) where
  | plain (f : P → A → Except PyErr V)
  | gen (f : P → A → List V)

/-- `inspect.isgeneratorfunction(f)` -/
def PyFun.isgen {P A V : Type} : PyFun P A V → Bool
  | .plain _ => false
  | .gen _ => true

/-- `next(g)` of a fresh generator with these yields -/
def nextOf {V : Type} : List V → Except PyErr V
  | [] => .error .stopIteration
  | v :: _ => .ok v

/-- lsqfit.py:397-452 a ModelFit object; `fcall` is the attribute `_f`, a closure. -/
structure ModelFit (P A V : Type) where
  f : PyFun P A V
  p : P
  fcall : A → Except PyErr V
  isgenf : Bool
  pcov : List (List ℝ)
  chi2 : ℝ
  ndof : ℤ

/-- lsqfit.py:433-452 `ModelFit(f, p, pcov, chi2, ndof, isgenf)`.  `_f` captures the argument `p`, not the attribute.
Simplification: a flag `isgenf` that does not match `f` gives a TypeError when the model is called (that is what `next` of
a non-iterator raises; with the flag False, a generator function would return a generator object). -/
def ModelFit.new {P A V : Type} (f : PyFun P A V) (p : P) (pcov : List (List ℝ)) (chi2 : ℝ) (ndof : ℤ)
    (isgenf : Option Bool := none) : ModelFit P A V where
  f := f
  p := p
  isgenf := isgenf.getD f.isgen
  fcall := fun a =>
    if isgenf.getD f.isgen then
      match f with
      | .gen g => nextOf (g p a)
      | .plain g => do
        let _ ← g p a
        .error .typeError
    else
      match f with
      | .plain g => g p a
      | .gen _ => .error .typeError
  pcov := pcov
  chi2 := chi2
  ndof := ndof

/-- lsqfit.py:454-470 `__call__` -/
def ModelFit.call {P A V : Type} (m : ModelFit P A V) (a : A) : Except PyErr V := m.fcall a

/-- `numpy.diag` of a square matrix (library) -/
def diagOf (m : List (List ℝ)) : List ℝ := (List.range m.length).map fun i => (m.getD i []).getD i 0

/-- lsqfit.py:472-478 `perr` -/
noncomputable def ModelFit.perr {P A V : Type} (m : ModelFit P A V) : List ℝ := (diagOf m.pcov).map Real.sqrt

/-- lsqfit.py:480-490 `chi2pcov` -/
noncomputable def ModelFit.chi2pcov {P A V : Type} (m : ModelFit P A V) : List (List ℝ) := m.pcov.map fun r => r.map (m.chi2 * ·)

/-- lsqfit.py:492-498 `chiperr` -/
noncomputable def ModelFit.chiperr {P A V : Type} (m : ModelFit P A V) : List ℝ := (diagOf m.chi2pcov).map Real.sqrt

/-- lsqfit.py:500-527 `chi2prob(chi2)`; `scipy.special.gammaincc` is a parameter. -/
noncomputable def ModelFit.chi2prob {P A V : Type} (gammaincc : ℝ → ℝ → ℝ) (m : ModelFit P A V) (chi2 : Option (NdArr ℝ)) :
    NdArr ℝ :=
  let c : NdArr ℝ := chi2.getD ⟨[], fun _ => m.chi2⟩
  let hndof : ℝ := 1 / 2 * m.ndof
  c.map fun x => gammaincc hndof (hndof * x)

/-- lsqfit.py:388: the object returned by levmar, for the function `f` of the fit; `f.isgen` is the flag computed at
line 287. -/
noncomputable def LmFit.model {A V : Type} (r : LmFit ℝ) (f : PyFun (List ℝ) A V) : ModelFit (List ℝ) A V :=
  ModelFit.new f r.p r.pcov r.chi2 r.ndof (some f.isgen)

/-- lsqfit.py:151-156: the object returned by `regress(..., model=1)`; its function takes no further argument. -/
noncomputable def RegFit.model {nc N : ℕ} (r : RegFit ℝ nc N) : ModelFit (Fin nc → ℝ) Unit (Fin N → ℝ) :=
  ModelFit.new (.plain fun _ _ => .ok r.fit) r.p (List.ofFn fun i => List.ofFn (r.pcov i)) r.chi2 r.ndof

end Npplus
