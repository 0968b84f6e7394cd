import Verif.Spec.Lsq
import Verif.Model.ModelFit
import Mathlib.Probability.Distributions.Gaussian.Multivariate

/-!
# Specification vocabulary: measured data with random errors
-/

namespace Npplus.Spec
open MeasureTheory ProbabilityTheory

variable {Ω : Type} [MeasurableSpace Ω]

/-- The data array of shape `sh` in the outcome `ω` of the measurements: `y idx` is the measured quantity at `idx`. -/
def measured (sh : List ℕ) (y : List ℕ → Ω → ℝ) (ω : Ω) : NdArr ℝ := ⟨sh, fun idx => y idx ω⟩

/-- Measurements of the true values `truth` with uncorrelated random errors of standard deviation `errs` (one for all, or one
per datum), of any distribution. -/
structure Uncorrelated (P : Measure Ω) (sh : List ℕ) (y : List ℕ → Ω → ℝ) (truth : List ℕ → ℝ) (errs : NdArr ℝ) : Prop where
  memLp : ∀ t : Fin sh.prod, MemLp (y (NdArr.unravel sh t)) 2 P
  mean : ∀ t : Fin sh.prod, ∫ ω, y (NdArr.unravel sh t) ω ∂P = truth (NdArr.unravel sh t)
  cov : ∀ t t' : Fin sh.prod, cov[y (NdArr.unravel sh t), y (NdArr.unravel sh t'); P] =
    if t = t' then bget errs [(t : ℕ)] ^ 2 else 0

/-- Measurements of the true values `truth` with independent normal errors of standard deviation `errs`. -/
structure NormalErrors (P : Measure Ω) (sh : List ℕ) (y : List ℕ → Ω → ℝ) (truth : List ℕ → ℝ) (errs : NdArr ℝ) : Prop where
  meas : ∀ t : Fin sh.prod, Measurable (y (NdArr.unravel sh t))
  indep : iIndepFun (fun t : Fin sh.prod => y (NdArr.unravel sh t)) P
  law : ∀ t : Fin sh.prod, P.map (y (NdArr.unravel sh t)) =
    gaussianReal (truth (NdArr.unravel sh t)) (bget errs [(t : ℕ)] ^ 2).toNNReal

/-- The regularised upper incomplete gamma function, what `scipy.special.gammaincc` computes. -/
noncomputable def gammaQ (a x : ℝ) : ℝ := (∫ t in Set.Ioi x, t ^ (a - 1) * Real.exp (-t)) / Real.Gamma a

end Npplus.Spec
