import Mathlib.Analysis.Calculus.Deriv.Basic
import Mathlib.MeasureTheory.Function.LpSeminorm.Defs
import Mathlib.MeasureTheory.Integral.IntervalIntegral.Basic

/-!
# Specification vocabulary: smooth functions on an interval
-/

namespace Npplus.Spec
open Set

/-- `F 0` has the derivatives `F 1`, ..., `F m` on the interval from `a` to `b`; they are continuous except possibly the last one. -/
structure Derivs (m : ℕ) (F : ℕ → ℝ → ℝ) (a b : ℝ) : Prop where
  cont : ∀ k < m, ContinuousOn (F k) (Icc a b)
  deriv : ∀ k < m, ∀ x ∈ Ioo a b, HasDerivAt (F k) (F (k + 1) x) x

/-- The functions whose derivative of order `m` is square integrable: `G 0` has the derivatives `G 1`, ..., `G m`, all of them but the
last continuous; `G m` is the derivative of `G (m-1)` except on a countable set (so that `m`-th derivatives with jumps are included), and
its square has an integral. -/
structure SquareIntegrable (m : ℕ) (G : ℕ → ℝ → ℝ) (a b : ℝ) : Prop where
  cont : ∀ k < m, ContinuousOn (G k) (Icc a b)
  deriv : ∀ k, k + 1 < m → ∀ x ∈ Ioo a b, HasDerivAt (G k) (G (k + 1) x) x
  last : ∃ T : Set ℝ, T.Countable ∧ ∀ x ∈ Ioo a b \ T, HasDerivAt (G (m - 1)) (G m x) x
  sq : MeasureTheory.MemLp (G m) 2 (MeasureTheory.volume.restrict (Icc a b))

/-- the function `G 0` takes the values `y` at the points `x` -/
def Interpolates (x y : List ℝ) (G : ℕ → ℝ → ℝ) : Prop := ∀ j < x.length, G 0 (x.getD j 0) = y.getD j 0

end Npplus.Spec
