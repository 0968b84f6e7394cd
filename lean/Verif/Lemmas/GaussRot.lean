import Mathlib.Probability.Distributions.Gaussian.Multivariate

/-!
# Rotated standard normal vectors
-/

set_option linter.unusedSectionVars false
namespace Npplus
namespace GaussRot
open MeasureTheory ProbabilityTheory WithLp

variable {Ω : Type} [MeasurableSpace Ω] {P : Measure Ω} {N : ℕ} {ε : Fin N → Ω → ℝ}

/-- the vector of independent standard normal numbers -/
theorem law_std (hm : ∀ t, Measurable (ε t)) (hi : iIndepFun ε P) (hl : ∀ t, P.map (ε t) = gaussianReal 0 1) :
    P.map (fun ω => toLp 2 fun t => ε t ω) = stdGaussian (EuclideanSpace ℝ (Fin N)) := by
  have hP : IsProbabilityMeasure P := hi.isProbabilityMeasure
  have h := (iIndepFun_iff_map_fun_eq_pi_map (fun t => (hm t).aemeasurable)).1 hi
  simp only [hl] at h
  rw [← map_pi_eq_stdGaussian, ← h, Measure.map_map (by fun_prop) (by fun_prop)]
  rfl

/-- coordinates in an orthonormal basis -/
theorem coords (hm : ∀ t, Measurable (ε t)) (hi : iIndepFun ε P) (hl : ∀ t, P.map (ε t) = gaussianReal 0 1)
    (B : OrthonormalBasis (Fin N) ℝ (EuclideanSpace ℝ (Fin N))) :
    iIndepFun (fun i ω => ∑ t, B i t * ε t ω) P ∧ ∀ i, P.map (fun ω => ∑ t, B i t * ε t ω) = gaussianReal 0 1 := by
  have hP : IsProbabilityMeasure P := hi.isProbabilityMeasure
  have h := law_std hm hi hl
  have hZ : P.map (fun ω i => ∑ t, B i t * ε t ω) = Measure.pi fun _ : Fin N => gaussianReal 0 1 := by
    have e : (fun ω i => ∑ t, B i t * ε t ω) = (fun x : EuclideanSpace ℝ (Fin N) => ofLp x) ∘ B.repr ∘ fun ω => toLp 2 fun t => ε t ω := by
      ext ω i
      simp only [Function.comp, B.repr_apply_apply, PiLp.inner_apply]
      refine Finset.sum_congr rfl fun t _ => ?_
      simp [mul_comm]
    rw [e, ← Measure.map_map (by fun_prop) (by fun_prop), ← Measure.map_map (by fun_prop) (by fun_prop), h, stdGaussian_map,
      ← map_pi_eq_stdGaussian, Measure.map_map (by fun_prop) (by fun_prop)]
    exact Measure.map_id
  have hl' : ∀ i, P.map (fun ω => ∑ t, B i t * ε t ω) = gaussianReal 0 1 := by
    intro i
    have : (fun ω => ∑ t, B i t * ε t ω) = (fun x : Fin N → ℝ => x i) ∘ fun ω i => ∑ t, B i t * ε t ω := rfl
    rw [this, ← Measure.map_map (by fun_prop) (by fun_prop), hZ]
    exact (measurePreserving_eval (fun _ : Fin N => gaussianReal 0 1) i).map_eq
  refine ⟨?_, hl'⟩
  rw [iIndepFun_iff_map_fun_eq_pi_map (fun i => by fun_prop), hZ]
  simp only [hl']

/-- characteristic function of linear combinations -/
theorem charFun_lin (hm : ∀ t, Measurable (ε t)) (hi : iIndepFun ε P) (hl : ∀ t, P.map (ε t) = gaussianReal 0 1)
    (a : Fin N → ℝ) : ∫ ω, Complex.exp ((∑ t, a t * ε t ω : ℝ) * Complex.I) ∂P = Complex.exp (-(∑ t, a t ^ 2 : ℝ) / 2) := by
  have h := law_std hm hi hl
  have := charFun_stdGaussian (toLp 2 a : EuclideanSpace ℝ (Fin N))
  rw [← h, charFun_apply, integral_map (by fun_prop) (by fun_prop)] at this
  rw [← Complex.ofReal_pow, EuclideanSpace.real_norm_sq_eq] at this
  convert this using 5 with ω
  · simp [PiLp.inner_apply, mul_comm]

end GaussRot
end Npplus
